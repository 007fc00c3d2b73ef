#!/usr/bin/env python3
"""Write AXIOMS.md: the axioms of every theorem named in MANIFEST.json (needs a finished `lake build`)."""
import json, os, re, subprocess, tempfile
root = os.path.dirname(os.path.dirname(os.path.abspath(__file__)))
thms = [t for c in json.load(open(f"{root}/MANIFEST.json"))["claims"] for t in c["theorems"]]
with tempfile.NamedTemporaryFile("w", suffix=".lean", delete=False) as f:
    f.write("import Verif\n" + "".join(f"#print axioms {t}\n" for t in thms))
out = subprocess.run(["lake", "env", "lean", f.name], cwd=f"{root}/lean", capture_output=True, text=True).stdout
os.unlink(f.name)
out = re.sub(r",\s+", ", ", out)
ax = {}
for m in re.finditer(r"'([\w.']+)' (?:depends on axioms: \[([^\]]*)\]|does not depend on any axioms)", out):
    ax[m.group(1)] = m.group(2) or "none"
missing = [t for t in thms if t not in ax]
assert not missing, missing
groups = {}
for t in thms:
    groups.setdefault(ax[t], []).append(t)
with open(f"{root}/AXIOMS.md", "w") as g:
    g.write("# Axioms of the claimed theorems\n\nOutput of `#print axioms` (`tools/mkaxioms.py`), grouped by axiom set.\n")
    for k in sorted(groups):
        g.write(f"\n## {k}\n\n" + "".join(f"* `{t}`\n" for t in groups[k]))
print({k: len(v) for k, v in groups.items()})
