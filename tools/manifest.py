"""Regenerates MANIFEST.json from the theorem names in lean/Verif/Props.

A property is `partial` when one of its theorems carries the suffix `_partial`; notes are below.
"""
import json, pathlib, re

root = pathlib.Path(__file__).resolve().parent.parent
notes = json.loads((root / "tools" / "notes.json").read_text())
claims = {}
for path in sorted((root / "lean" / "Verif" / "Props").rglob("*.lean")):
    for m in re.finditer(r"^theorem ((C\d\d\d?)_\w+)", path.read_text(), re.M):
        claims.setdefault(m.group(2), []).append("Verif.Props." + m.group(1))
out = []
for line in (root / "properties.jsonl").read_text().splitlines():
    pid = json.loads(line)["id"]
    note = notes.get(pid, "")
    if pid in claims:
        names = claims[pid]
        status = "partial" if note.startswith("partial:") or any(n.endswith("_partial") for n in names) else "proved"
        out.append({"property": pid, "status": status, "theorems": names, "note": note})
    elif note.startswith("N/A"):
        out.append({"property": pid, "status": "not_applicable", "theorems": [], "note": note})
(root / "MANIFEST.json").write_text(
    '{"claims": [\n' + ",\n".join(" " + json.dumps(c) for c in out) + "\n]}\n")
print({c["property"]: c["status"] for c in out})
