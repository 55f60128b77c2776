"""Write MANIFEST.json from the theorem names in lean/Verif/**/*.lean and the notes in tools/notes.json."""
import json, pathlib, re
root = pathlib.Path(__file__).resolve().parent.parent
notes = json.loads((root / "tools" / "notes.json").read_text())
props = [json.loads(l)["id"] for l in (root / "properties.jsonl").read_text().splitlines() if l.strip()]
names = {}
for f in sorted((root / "lean" / "Verif").rglob("*.lean")):
    text = f.read_text()
    stack = []
    for m in re.finditer(r"^(namespace|section|end|theorem)\b[ ]*(\S*)", text, re.M):
        if m.group(1) in ("namespace", "section"):
            stack.append((m.group(1), m.group(2)))
        elif m.group(1) == "end":
            if stack and stack[-1][1] == m.group(2):
                stack.pop()
        elif re.match(r"C\d+_", m.group(2)):
            ns = ".".join(n for k, n in stack if k == "namespace")
            names.setdefault(m.group(2).split("_")[0], []).append((ns + "." if ns else "") + m.group(2))
claims = []
for p in props:
    th = names.get(p, [])
    if not th:
        continue
    status = "partial" if any(t.endswith(("_partial", "_counterexample")) for t in th) else "proved"
    n = notes.get(p, "")
    if isinstance(n, dict):
        status, n = n["status"], n["note"]
    claims.append({"property": p, "status": status, "theorems": th, "note": n})
unknown = set(names) - set(props)
assert not unknown, unknown
(root / "MANIFEST.json").write_text(json.dumps({"claims": claims}, indent=1) + "\n")
print(len(claims), "claims;", "missing:", [p for p in props if p not in names])
