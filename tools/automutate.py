# Systematic mutation tests: small edits at every place of every definition of the model, in a scratch copy of lean/.
# Files of the language layer (Cxx) are edited only when they are named.
# usage: python3 tools/automutate.py out.jsonl [seed] [per definition] [file ...]
# With KEYS=file in the environment only the attempts named in that file (by the key of an earlier run) are made.
# The build stops at the first module that fails.  Attempts that do not typecheck are not recorded.
import glob, json, os, random, re, shutil, signal, subprocess, sys
root = os.path.dirname(os.path.dirname(os.path.abspath(__file__)))
out, seed, per = sys.argv[1], int((sys.argv + ["1"])[2]) if len(sys.argv) > 2 else 1, int(sys.argv[3]) if len(sys.argv) > 3 else 3
only = sys.argv[4:]
top = "/tmp/amut"
scratch, base = top + "/lean", top + "/base"
OPS = [(r" \+ ", " - "), (r" - ", " + "), (r" \* ", " + "), (r" / ", " * "), (r" % ", " / "), (r" < ", " ≤ "), (r" ≤ ", " < "),
       (r" == ", " != "), (r" != ", " == "), (r"&&", "||"), (r"\|\|", "&&"), (r"!\(", "("), (r"\btrue\b", "false"), (r"\bfalse\b", "true"),
       (r"(?<=[\w)])\.1\b", ".2"), (r"(?<=[\w)])\.2\b", ".1"), (r"(?<![\w.^])0\b(?!\.)", "1"), (r"(?<![\w.^])1\b(?!\.)", "2"), (r"(?<![\w.^])1\b(?!\.)", "0"),
       (r"\buadd\b", "usub"), (r"\busub\b", "uadd"), (r"\bumul\b", "uadd"), (r"\bladd\b", "lsub"), (r"\blsub\b", "ladd"),
       (r"\blmul\b", "ladd"), (r"\bldiv\b", "lmod"), (r"\blmod\b", "ldiv"), (r"\budiv\b", "umod"), (r"\bumod\b", "udiv"),
       (r"CxxFloat\.lt\b", "CxxFloat.le"), (r"CxxFloat\.le\b", "CxxFloat.lt"), (r"CxxFloat\.zero", "(CxxFloat.lit 1)"),
       (r"\bif ([^\n]+?) then ([^\n]+?) else ([^\n]+)", r"if \1 then \3 else \2"), (r"\.drop\b", ".take"), (r"\.take\b", ".drop"),
       (r"\bumod\b", "udiv"), (r"\.throws \([^()]*\)", ".ub .assertion"), (r"\.ub \.\w+", ".diverges"), (r" = ", " ≠ "), (r" ≠ ", " = "),
       (r" ∧ ", " ∨ "), (r" ∨ ", " ∧ "), (r" \+\+ [\w.]+(?=\n|$)", ""), (r"\.abs\b", ""), (r"\bn\b", "(n + 1)"), (r"\bi\b", "(i + 1)"),
       (r"\bnum\b", "den"), (r"\bden\b", "num"), (r"\.map\b", ".reverse.map"), (r"\.state\b", ".state"), (r"\ba b\b", "b a"), (r"\bx y\b", "y x")]
def sync():
    for d, _, fs in os.walk(base):
        t = os.path.join(scratch, ".lake/build", os.path.relpath(d, base))
        os.makedirs(t, exist_ok=True)
        for f in fs:
            a, b = os.path.join(d, f), os.path.join(t, f)
            if not os.path.exists(b) or os.stat(a).st_mtime_ns != os.stat(b).st_mtime_ns or os.stat(a).st_size != os.stat(b).st_size:
                shutil.copy2(a, b)
def build():
    p = subprocess.Popen(["lake", "build"], cwd=scratch, stdout=subprocess.PIPE, stderr=subprocess.STDOUT, text=True, start_new_session=True)
    lines, bad = [], False
    for l in p.stdout:
        if bad and re.match(r"^[✔✖⚠ℹ]", l):
            break
        if l.startswith("error: Verif"):
            bad = True
        lines.append(l)
    try:
        os.killpg(p.pid, signal.SIGKILL)
    except ProcessLookupError:
        pass
    p.wait()
    return (not bad and p.returncode == 0), "".join(lines)
def enclosing(path, line):
    ls = open(os.path.join(scratch, path)).read().split("\n")
    for i in range(min(line, len(ls)) - 1, -1, -1):
        m = re.match(r"(?:private |@\[.*?\] )*(theorem|lemma|def|example|instance|abbrev)\s*([\w.']*)", ls[i])
        if m:
            return (m.group(2) or "example") if m.group(1) != "example" else "example@%s:%d" % (path, i + 1)
    return path
shutil.rmtree(scratch, ignore_errors=True)
shutil.rmtree(base, ignore_errors=True)
shutil.copytree(root + "/lean", scratch, symlinks=True)
ok, text = build()
r = subprocess.run(["lake", "build"], cwd=scratch, capture_output=True, text=True)
assert r.returncode == 0, "the unmodified copy does not build"
shutil.copytree(scratch + "/.lake/build", base, symlinks=True)
rng = random.Random(seed)
muts = []
for f in sorted(glob.glob(scratch + "/Verif/Model/*.lean")) + (sorted(glob.glob(scratch + "/Verif/Cxx/*.lean")) if only else []):
    if only and os.path.basename(f)[:-5] not in only and "/".join(f[:-5].split("/")[-2:]) not in only:
        continue
    src = open(f).read()
    for m in re.finditer(r"^(?:noncomputable )?def ([\w.«»]+)(.*?)(?=^\n|^/--|^end |^def |^namespace |\Z)", src, re.M | re.S):
        body = m.group(0)
        eq = re.search(r":=|\n  \|", body)
        if not eq:
            continue
        c = {}
        for pat, rep in OPS:
            for h in re.finditer(pat, body):
                if h.start() < eq.start() + 2:
                    continue
                new = body[:h.start()] + h.expand(rep) + body[h.end():]
                if new != body:
                    c[new] = (h.group(0), h.expand(rep), body.count("\n", 0, h.start()) + src.count("\n", 0, m.start()) + 1)
        ks = sorted(c)
        rng.shuffle(ks)
        muts.append([(f, m.group(1), m.start(), m.end(), k) + c[k] for k in ks])
keys = {json.loads(l)["key"] for l in open(os.environ["KEYS"])} if "KEYS" in os.environ else None
done = set()
if os.path.exists(out):
    done = {json.loads(l)["key"] for l in open(out)}
for group in muts:
    n = 0
    for (f, name, a, b, new, x, y, line) in group:
        if n >= per:
            break
        rel = os.path.relpath(f, scratch)
        key = "%s:%d:%s:%s=>%s" % (rel, line, name, x, y)
        if keys is not None and key not in keys:
            continue
        if key in done:
            n += 1
            continue
        src = open(f).read()
        open(f, "w").write(src[:a] + new + src[b:])
        ok, text = build()
        failed = []
        for p, q in re.findall(r"error: (Verif/\S+?\.lean):(\d+):\d+", text):
            e = enclosing(p, int(q))
            if e not in failed:
                failed.append(e)
        mods = re.findall(r"error: (Verif/\S+?\.lean):", text)
        open(f, "w").write(src)
        sync()
        if not ok and (not mods or any("/Model/" in z or "/Cxx/" in z for z in mods)):
            continue
        n += 1
        rec = {"key": key, "definition": name, "file": "lean/" + rel, "edit": "line %d: %s  ==>  %s" % (line, x.strip() or x, y.strip() or "(nothing)"),
               "claim": "", "verdict": "survived" if ok else "killed", "failed_theorems": failed, "modules_not_built": sorted(set(z[:-5].replace("/", ".") for z in mods)),
               "tightened": [], "note": "systematic; the build stopped at the first failing module"}
        open(out, "a").write(json.dumps(rec) + "\n")
        print(rec["verdict"], "|", key, "|", failed[:4], flush=True)
print("done")
