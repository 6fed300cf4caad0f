"""Regenerate MANIFEST.json from the theorem names in lean/Verif and the notes in tools/notes.json.

A theorem belongs to property Cnn if its name starts with `Cnn_`.  A property is "proved" unless
notes.json says "partial" or "not_applicable"; properties without theorems are left out.
"""
import json, pathlib, re

root = pathlib.Path(__file__).resolve().parent.parent
found = {}
for path in sorted((root / "lean" / "Verif").rglob("*.lean")):
    stack = []
    for line in path.read_text().splitlines():
        m = re.match(r"namespace (\S+)", line)
        if m:
            stack.append(m.group(1))
            continue
        m = re.match(r"end (\S+)", line)
        if m and stack and stack[-1] == m.group(1):
            stack.pop()
            continue
        m = re.match(r"theorem (C\d\d\w*)", line)
        if m:
            name = m.group(1)
            found.setdefault(name.split("_")[0], []).append(".".join(stack + [name]))
notes = json.loads((root / "tools" / "notes.json").read_text())
claims = []
props = [json.loads(x)["id"] for x in (root / "properties.jsonl").read_text().splitlines() if x]
for pid in props:
    note = notes.get(pid, {})
    if pid not in found and note.get("status") != "not_applicable":
        print("no theorems:", pid)
        continue
    claims.append({"property": pid, "status": note.get("status", "proved"),
                   "theorems": found.get(pid, []), "note": note.get("note", "")})
for pid in found:
    if pid not in props:
        print("not in properties.jsonl:", pid)
(root / "MANIFEST.json").write_text(json.dumps({"claims": claims}, indent=1) + "\n")
print(len(claims), "claims", sum(len(c["theorems"]) for c in claims), "theorems")
