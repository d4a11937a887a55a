#!/usr/bin/env python3
"""Seed a bug in a scratch copy of the model and record which theorems fail.

usage: mutate.py SPEC.json   where SPEC is a list of
  {"file": "Verif/X/Model.lean", "definition": "...", "old": "...", "new": "...",
   "target": "Verif.X.Props", "claim": "C.. ..."}
One JSON line per attempt is appended to seeded/LOG.jsonl (unless --dry).
"""
import json, os, re, subprocess, sys, shutil
root = os.path.dirname(os.path.dirname(os.path.abspath(__file__)))
scratch = "/tmp/mut"
def sync():
    subprocess.run(["rsync", "-a", "--delete", root + "/lean/", scratch + "/"], check=True) \
        if shutil.which("rsync") else (shutil.rmtree(scratch, ignore_errors=True),
        subprocess.run(["cp", "-a", root + "/lean", scratch], check=True))
def enclosing(path, line):
    name = None
    for i, l in enumerate(open(path), 1):
        if i > line: break
        m = re.match(r"(?:@\[[^\]]*\]\s*)?(?:private )?(theorem|lemma|def|abbrev|instance)\s+(\S+)", l)
        if m: name = m.group(2)
        elif re.match(r"example", l): name = "example@%d" % i
    return name
def main():
    spec = json.load(open(sys.argv[1])); dry = "--dry" in sys.argv
    sync()
    for s in spec:
        p = os.path.join(scratch, s["file"])
        orig = open(p).read()
        if orig.count(s["old"]) < 1:
            print("NOT FOUND", s["definition"]); continue
        open(p, "w").write(orig.replace(s["old"], s["new"], s.get("count", 1)))
        failed = []
        try:
            r = subprocess.run(["lake", "build", *s["target"].split()], cwd=scratch, capture_output=True, text=True, timeout=840)
            for m in re.finditer(r"^error: (Verif/\S+\.lean):(\d+):", r.stdout + r.stderr, re.M):
                n = enclosing(os.path.join(scratch, m.group(1)), int(m.group(2)))
                if n and n not in failed: failed.append(n)
        except subprocess.TimeoutExpired:
            failed = ["(build timed out)"]
        open(p, "w").write(orig)
        print(("KILLED " if failed else "SURVIVED ") + s["definition"] + " :: " + s["claim"] + " -> " + ", ".join(failed), flush=True)
        rec = {"definition": s["definition"], "edit": "%s  ==>  %s" % (s["old"], s["new"]), "claim": s["claim"],
               "failed": failed, "tightened": s.get("tightened", [])}
        if not dry: open(root + "/seeded/LOG.jsonl", "a").write(json.dumps(rec, ensure_ascii=False) + "\n")
main()
