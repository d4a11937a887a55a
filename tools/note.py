import json,sys
# usage: note.py ID status note
p='/verif/tools/notes.json'
n=json.load(open(p)); n[sys.argv[1]]=[sys.argv[2],sys.argv[3]]
json.dump(n,open(p,'w'),indent=1,ensure_ascii=False)
