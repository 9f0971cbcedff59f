"""Writes MANIFEST.json; the order of CLAIMS follows properties.jsonl."""
import json, re, pathlib
root = pathlib.Path(__file__).resolve().parent.parent
P = "proved"; Q = "partial"; NA = "not_applicable"
CLAIMS = json.loads((root / "tools" / "claims.json").read_text())
names = set()
for f in (root / "lean" / "Verif" / "Props").glob("*.lean"):
    names |= set(re.findall(r"^theorem (\S+)", f.read_text(), re.M))
out = []
ids = [json.loads(l)["id"] for l in open(root / "properties.jsonl")]
for i in ids:
    c = CLAIMS.get(i)
    if c is None:
        continue
    for t in c["theorems"]:
        assert t in names, (i, t)
    out.append({"property": i, "status": c["status"],
                "theorems": ["QTN.Props." + t for t in c["theorems"]], "note": c["note"]})
(root / "MANIFEST.json").write_text(json.dumps({"claims": out}, indent=1) + "\n")
claimed = {t for c in CLAIMS.values() for t in c["theorems"]}
print("claims", len(out), "missing", [i for i in ids if i not in CLAIMS])
print("unlisted C-theorems", sorted(n for n in names if re.match(r"C\d\d", n) and n not in claimed))
