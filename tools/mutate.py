# Mutation tests of the theorems, in a scratch copy of lean/ outside /verif.
# usage: python3 tools/mutate.py mutants.json   (a list of {file, def, old, new, claim, [note], [targets]: modules to build first})
# Applies each edit to the model, rebuilds, and appends one line per attempt to seeded/LOG.jsonl.
import json, os, re, shutil, subprocess, sys
root = os.path.dirname(os.path.dirname(os.path.abspath(__file__)))
scratch = "/tmp/mut/lean"
subprocess.run(["rsync", "-a", "--delete", root + "/lean/", scratch + "/"], check=True) if shutil.which("rsync") else (
    shutil.rmtree(scratch, ignore_errors=True), shutil.copytree(root + "/lean", scratch, symlinks=True))
def build(targets=()):
    return subprocess.run(["lake", "build", *targets], cwd=scratch, capture_output=True, text=True)
def enclosing(path, line):
    ls = open(os.path.join(scratch, path)).read().split("\n")
    for i in range(min(line, len(ls)) - 1, -1, -1):
        m = re.match(r"(?:private |noncomputable |@\[.*?\] )*(theorem|lemma|def|example|instance|abbrev)\s*([\w.']*)", ls[i])
        if m:
            return (m.group(2) or "example") if m.group(1) != "example" else "example@%s:%d" % (path, i + 1)
    return path
assert build().returncode == 0, "the unmodified copy does not build"
for m in json.load(open(sys.argv[1])):
    f = os.path.join(scratch, m["file"])
    src = open(f).read()
    assert src.count(m["old"]) >= 1, ("not found", m)
    at = src.index(m["old"], max(0, [x.start() for x in re.finditer(r"^(?:noncomputable )?def (?:[\w.]+\.)?%s\b" % re.escape(m["def"].split(".")[-1]), src, re.M)][m.get("nth", 0)]))
    open(f, "w").write(src[:at] + m["new"] + src[at + len(m["old"]):])
    r = build(m.get("targets", ()))
    if r.returncode == 0 and m.get("targets"):
        r = build()
    out = r.stdout + r.stderr
    failed = []
    for a, b in re.findall(r"error: (Verif/\S+?\.lean):(\d+):\d+", out):
        n = enclosing(a, int(b))
        if n not in failed:
            failed.append(n)
    blocked = [x for x in re.findall(r"^- (Verif\S*)", out, re.M)]
    open(f, "w").write(src)
    verdict = "survived" if r.returncode == 0 else ("does not typecheck" if any(not x.startswith("example") and m["def"].split(".")[-1] == x.split(".")[-1] for x in failed) else "killed")
    rec = {"definition": m["def"], "file": "lean/" + m["file"], "edit": "%s  ==>  %s" % (m["old"], m["new"]),
           "claim": m["claim"], "verdict": verdict, "failed_theorems": failed, "modules_not_built": blocked,
           "tightened": m.get("tightened", []), "note": m.get("note", "")}
    open(os.path.join(root, "seeded/LOG.jsonl"), "a").write(json.dumps(rec) + "\n")
    print(verdict, "|", m["def"], "|", m["claim"], "|", failed[:6], flush=True)
