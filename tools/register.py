# usage: register.py file.json ; appends a claim to props.py, notes.json, Verif.lean and DESIGN.md
import json, sys
for c in json.load(open(sys.argv[1])):
    s = open("tools/props.py").read()
    call = 'p(%s,\n  %s,\n  %s, %s, %s)\n' % (json.dumps(c["title"]), json.dumps(c["statement"]), json.dumps(c["quantifier"]), json.dumps(c["why"]), ", ".join(c["anchors"]))
    s = s.replace('if __name__', call + 'if __name__', 1)
    open("tools/props.py", "w").write(s)
    n = open("tools/notes.json").read().rstrip()
    assert n.endswith('"\n}')
    n = n[:-2] + ',\n"%s": %s\n}\n' % (c["id"], json.dumps(c["note"]))
    json.loads(n)
    open("tools/notes.json", "w").write(n)
    v = open("lean/Verif.lean").read().rstrip() + "\n"
    for m in c["modules"]:
        if "import Verif." + m + "\n" not in v:
            v += "import Verif." + m + "\n"
    open("lean/Verif.lean", "w").write(v)
    d = open("DESIGN.md").read()
    if c.get("proof"):
        d = d.replace("* C98-C100: case", "* " + c["proof"] + "\n* C98-C100: case", 1)
    for f in ([c["findings"]] if isinstance(c.get("findings"), str) else c.get("findings", [])):
        d = d.replace("* `InvalidProbability` is declared", "* " + f + "\n* `InvalidProbability` is declared", 1)
    open("DESIGN.md", "w").write(d)
