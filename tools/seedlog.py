"""Write seeded/LOG.jsonl from seeded/mutants*.py and the results of tools/mutate.py.

usage: seedlog.py RESULTS.jsonl

The last result of a mutant counts; a mutant that first survived is listed in TIGHTENED below with
what was done about it, and gets a line for each of the two attempts.
"""
import glob, json, os, runpy, sys

HERE = os.path.dirname(os.path.dirname(os.path.abspath(__file__)))
TIGHTENED = json.load(open(os.path.join(HERE, "seeded", "tightened.json")))

res = {}
old = os.path.join(HERE, "seeded", "results.jsonl")
for f in [old] + sys.argv[1:]:
    if os.path.exists(f):
        for l in open(f):
            r = json.loads(l)
            res[r["id"]] = r
with open(old, "w") as f:
    for k in sorted(res):
        f.write(json.dumps(res[k]) + "\n")

out = []
for f in sorted(glob.glob(os.path.join(HERE, "seeded", "mutants*.py"))):
    for m in runpy.run_path(f)["M"]:
        if m["id"] not in res:
            continue
        r = res[m["id"]]
        base = {"id": m["id"], "definition": m["definition"], "edit": m["edit"], "claim": m["claim"]}
        t = TIGHTENED.get(m["id"])
        if t and "note" in t:
            out.append(dict(base, failed=[], tightened=t.get("theorems", []), note=t["note"]))
        line = dict(base, failed=r["failed"], tightened=[])
        if r["ok"]:
            line["note"] = TIGHTENED.get(m["id"], {}).get("why", "survived")
        out.append(line)
with open(os.path.join(HERE, "seeded", "LOG.jsonl"), "w") as f:
    for l in out:
        f.write(json.dumps(l) + "\n")
print(len(out), "lines;", "survivors:", [l["id"] for l in out if not l["failed"]])
