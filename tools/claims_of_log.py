# Fills the empty "claim" fields of seeded/LOG.jsonl, for systematic attempts, from the theorems and modules that failed.
import json, os, re
root = os.path.dirname(os.path.dirname(os.path.abspath(__file__)))
def ids(text):
    return sorted(set(re.findall(r"\bC\d\d+(?=_|\b)", text)), key=lambda c: int(c[1:]))
def claim(r):
    own = ids(" ".join(t.replace("_", " ") for t in r.get("failed_theorems", [])))
    if own:
        return ", ".join(own)
    found = set()
    for m in r.get("modules_not_built", []):
        p = os.path.join(root, "lean", m.replace(".", "/") + ".lean")
        if "/Props/" in p and os.path.exists(p):
            found |= set(re.findall(r"theorem (?:_root_\.Bwsl\.)?(C\d\d+)_", open(p).read()))
    if found:
        return "one or more of " + ", ".join(sorted(found, key=lambda c: int(c[1:]))) + " (the build stopped in a lemma for them)"
    return "not determined: the build stopped in " + ", ".join(r["modules_not_built"]) if r.get("modules_not_built") else ""
p = root + "/seeded/LOG.jsonl"
rs = [json.loads(l) for l in open(p)]
for r in rs:
    if "systematic" in r.get("note", "") and not r.get("claim"):
        r["claim"] = claim(r) if r["verdict"] == "killed" else (", ".join(ids(" ".join(t.replace("_", " ") for t in r["tightened"]))) or "none was found")
open(p, "w").write("".join(json.dumps(r, ensure_ascii=False) + "\n" for r in rs))
