# Writes /verif/MANIFEST.json from the theorem names in lean/Verif/Props (run: python3 tools/manifest.py).
import glob, json, os, re
root = os.path.dirname(os.path.dirname(os.path.abspath(__file__)))
ids = [json.loads(l)["id"] for l in open(os.path.join(root, "properties.jsonl"))]
NOTES = json.load(open(os.path.join(root, "tools", "notes.json")))
thms = {}
for f in sorted(glob.glob(os.path.join(root, "lean/Verif/Props/*.lean"))):
    for m in re.finditer(r"^theorem (?:_root_\.Bwsl\.)?(C(\d\d+)_\w+)", open(f).read(), re.M):
        thms.setdefault("C" + m.group(2), []).append("Bwsl." + m.group(1))
claims = []
for i in ids:
    t = thms.get(i, [])
    if not t:
        continue
    partial = any(x.endswith("_partial") or x.endswith("_violated") for x in t)
    claims.append({"property": i, "status": "partial" if partial else "proved", "theorems": t,
                   "note": NOTES.get(i, "")})
json.dump({"claims": claims}, open(os.path.join(root, "MANIFEST.json"), "w"), indent=1)
print(len(claims), "claims; missing:", [i for i in ids if i not in thms])
