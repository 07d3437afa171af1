# Writes AXIOMS.md: the axioms each theorem named in MANIFEST.json depends on, as reported by #print axioms.
# usage: python3 tools/axioms.py   (after lake build)
import json, os, re, subprocess, collections
root = os.path.dirname(os.path.dirname(os.path.abspath(__file__)))
names = [t for c in json.load(open(root + "/MANIFEST.json"))["claims"] for t in c["theorems"]]
names = list(dict.fromkeys(names))
src = "/tmp/axioms.lean"
open(src, "w").write("import Verif\n" + "".join("#print axioms %s\n" % n for n in names))
r = subprocess.run(["lake", "env", "lean", src], cwd=root + "/lean", capture_output=True, text=True)
assert r.returncode == 0, r.stdout + r.stderr
ax = {}
for n, body in re.findall(r"'([^']+)' (depends on axioms: \[[^\]]*\]|does not depend on any axioms)", r.stdout):
    ax[n] = tuple(x.strip() for x in re.search(r"\[(.*)\]", body, re.S).group(1).split(",")) if "[" in body else ()
assert set(ax) == set(names), set(names) - set(ax)
groups = collections.defaultdict(list)
for n in names:
    groups[ax[n]].append(n)
with open(root + "/AXIOMS.md", "w") as f:
    f.write("# Axioms of the theorems in MANIFEST.json\n\nWritten by `tools/axioms.py` from `#print axioms`.\n")
    for g in sorted(groups):
        f.write("\n## %s\n\n" % (", ".join("`%s`" % x for x in g) or "none"))
        f.write("".join("* `%s`\n" % n for n in groups[g]))
print({", ".join(g): len(v) for g, v in groups.items()})
