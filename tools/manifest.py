"""Writes MANIFEST.json from the theorem names in lean/Verif/Props and the notes in tools/notes.json."""
import json, re, glob, os
root = os.path.dirname(os.path.dirname(os.path.abspath(__file__)))
notes = json.load(open(os.path.join(root, "tools", "notes.json")))
thms = {}
for f in sorted(glob.glob(os.path.join(root, "lean/Verif/Props/*.lean"))):
    for m in re.finditer(r"^theorem ((C\d+)_\w+)", open(f).read(), re.M):
        thms.setdefault(m.group(2), []).append("Props." + m.group(1))
claims = []
for line in open(os.path.join(root, "properties.jsonl")):
    pid = json.loads(line)["id"]
    n = notes.get(pid, {})
    t = thms.get(pid, [])
    if not t and "status" not in n:
        continue
    claims.append({"property": pid, "status": n.get("status", "proved"), "theorems": t, "note": n.get("note", "")})
json.dump({"claims": claims}, open(os.path.join(root, "MANIFEST.json"), "w"), indent=1)
print(len(claims), "claims;", sum(len(c["theorems"]) for c in claims), "theorems; missing:",
      [json.loads(l)["id"] for l in open(os.path.join(root, "properties.jsonl")) if json.loads(l)["id"] not in [c["property"] for c in claims]])
