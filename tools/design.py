"""Regenerates the table of properties in DESIGN.md from the manifest, the notes and tools/model.json."""
import json, os, re
root = os.path.dirname(os.path.dirname(os.path.abspath(__file__)))
def load(p):
    return json.load(open(os.path.join(root, p)))
claims = {c["property"]: c for c in load("MANIFEST.json")["claims"]}
notes, model = load("tools/notes.json"), load("tools/model.json")
where = {}
for d in sorted(os.listdir(os.path.join(root, "lean/Verif/Props"))):
    for m in re.finditer(r"^theorem (C\d+_\w+)", open(os.path.join(root, "lean/Verif/Props", d)).read(), re.M):
        where[m.group(1)] = d
rows = ["| id | property | model | proof | status | theorems (file in Props) | remarks |", "|---|---|---|---|---|---|---|"]
for line in open(os.path.join(root, "properties.jsonl")):
    o = json.loads(line); i = o["id"]; c = claims[i]
    names = [t.split(".")[-1] for t in c["theorems"]]
    files = sorted({where[n] for n in names})
    rows.append("| {} | {} | {} | {} | {} | {} ({}) | {} |".format(i, o["title"], model[i][0], model[i][1], c["status"],
        ", ".join("`%s`" % n for n in names), ", ".join(files), notes.get(i, "").replace("|", "\\|")))
p = os.path.join(root, "DESIGN.md"); s = open(p).read()
a, b = "<!-- table -->", "<!-- end of table -->"
s = s[:s.index(a) + len(a)] + "\n" + "\n".join(rows) + "\n" + s[s.index(b):]
open(p, "w").write(s)
