#!/usr/bin/env python3
"""Turn the results of tools/seed.py into seeded/LOG.jsonl.
usage: mklog.py MUTANTS.json... (results are read from MUTANTS.results.jsonl beside each)."""
import json, os, re, sys
ROOT = os.path.dirname(os.path.dirname(os.path.abspath(__file__)))
man = json.load(open(ROOT + "/MANIFEST.json"))
names = {t.split(".")[-1] for c in man["claims"] for t in c["theorems"]}
tight = json.load(open(ROOT + "/tools/tightened.json"))
rows = {}
for f in sys.argv[1:]:
    ms = {m["id"]: m for m in json.load(open(f))}
    for l in open(f[:-5] + ".results.jsonl"):
        r = json.loads(l)
        m = ms[r["id"]]
        if r.get("error"):
            continue
        cl = [c.split()[0] for c in re.split("[/,]", m["claim"]) if c.strip() and c.strip()[0] == "C"]
        fl = []
        for t in r.get("failed", []):
            t = t.split(".")[-1]
            if t not in names and t.endswith("_partial"):
                t = t[:-8]
            if t in names and t not in fl:
                fl.append(t)
        first = [t for t in fl if t.split("_")[0] in cl]
        rest = [t for t in fl if t not in first]
        broken = [b for b in r.get("broken", []) if not b.startswith("example(")]
        key = (m["id"], m["definition"], m["edit"])
        b_ = os.path.basename(f)[:-5]
        taken = any(k[0] == m["id"] and k != key for k in rows)
        rows[key] = {
            "id": b_ + "-" + m["id"] if taken else m["id"], "definition": m["definition"], "edit": m["edit"], "claim": m["claim"],
            "theorems_failed": first, "also_failed": rest[:40], "also_failed_count": len(rest),
            "proofs_that_broke": broken,
            "theorems_tightened": tight.get(b_ + ":" + m["id"], tight.get(m["id"], []))}
with open(ROOT + "/seeded/LOG.jsonl", "w") as o:
    for k in rows:
        o.write(json.dumps(rows[k], ensure_ascii=False) + "\n")
print(len(rows), "rows;", sum(1 for r in rows.values() if not r["theorems_failed"]), "without a failure of the claimed property")
