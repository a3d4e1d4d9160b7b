"""Try wrong programs against the theorems.

usage: mutate.py MUTANTS.py [id ...]

MUTANTS.py holds a list `M` of dicts with keys id, file, old, new, definition, edit, claim,
possibly targets (the modules to build; all if absent) and more (edits in other files, such as
the same edit in the reference semantics: triples of file, old, new).
Every edit is made in a scratch copy (/tmp/mut/lean), which is then built; the names of the
declarations that no longer check are written to /tmp/mut/results.jsonl.
"""
import json, os, re, subprocess, sys, shutil, runpy

SRC = "/tmp/mut/src"  # a copy of /verif/lean, with its build
DST = "/tmp/mut/lean"
DECL = re.compile(r"^(?:@\[[^\]]*\]\s*)?(?:private |protected |noncomputable )*(theorem|def|example|instance|inductive|abbrev|structure)\b\s*(\S+)?")


def name_at(path, line):
    name = None
    with open(path) as f:
        for i, l in enumerate(f, 1):
            if i > line:
                break
            m = DECL.match(l)
            if m:
                kind, n = m.group(1), m.group(2)
                name = "example(%s:%d)" % (os.path.basename(path), i) if kind == "example" else n
    return name


def sync():
    subprocess.run(["rsync", "-a", "--delete", SRC + "/", DST + "/"], check=True) if shutil.which("rsync") else \
        (shutil.rmtree(DST, ignore_errors=True), shutil.copytree(SRC, DST, symlinks=True))


def run(m):
    sync()
    edits = [(m["file"], old, new) for old, new in (m["edits"] if "edits" in m else [(m["old"], m["new"])])] + m.get("more", [])
    for file, old, new in edits:
        p = os.path.join(DST, "Verif", file)
        s = open(p).read()
        if s.count(old) != 1:
            return {"id": m["id"], "bad": "old text occurs %d times: %s" % (s.count(old), old)}
        open(p, "w").write(s.replace(old, new))
    r = subprocess.run(["bash", "-c", "ulimit -v 30000000; exec timeout 1500 lake build %s" % m.get("targets", "")], cwd=DST, capture_output=True, text=True)
    out = r.stdout + r.stderr
    failed, mods = [], []
    for f, line in re.findall(r"error: (Verif/\S+\.lean):(\d+):", out):
        n = name_at(os.path.join(DST, f), int(line))
        if n and n not in failed:
            failed.append(n)
    for x in re.findall(r"^- (Verif\S*)", out, re.M):
        mods.append(x)
    res = {"id": m["id"], "failed": failed, "modules": mods, "ok": r.returncode == 0}
    if r.returncode != 0 and not failed:
        res["output"] = out[-1500:]
    return res


def main():
    muts = runpy.run_path(sys.argv[1])["M"]
    want = set(sys.argv[2:])
    for m in muts:
        if want and m["id"] not in want:
            continue
        r = run(m)
        print(json.dumps(r), flush=True)
        with open("/tmp/mut/results.jsonl", "a") as f:
            f.write(json.dumps(r) + "\n")


main()
