#!/usr/bin/env python3
"""Regenerate AXIOMS.md: the axioms every theorem of MANIFEST.json depends on (run after `lake build` in lean/)."""
import json, os, re, subprocess, tempfile
root = os.path.dirname(os.path.dirname(os.path.abspath(__file__)))
ts = [(c["property"], t) for c in json.load(open(os.path.join(root, "MANIFEST.json")))["claims"] for t in c["theorems"]]
with tempfile.NamedTemporaryFile("w", suffix=".lean", delete=False) as f:
    f.write("import Verif\n" + "".join(f"#print axioms {t}\n" for _, t in ts))
out = subprocess.run(["lake", "env", "lean", f.name], cwd=os.path.join(root, "lean"), capture_output=True, text=True).stdout
out = re.sub(r"\s+", " ", out)
ax = {m.group(1): m.group(2) for m in re.finditer(r"'([^' ]+)' depends on axioms: \[([^\]]*)\]", out)}
ax.update({m: "none" for m in re.findall(r"'([^' ]+)' does not depend on any axioms", out)})
missing = [t for _, t in ts if t not in ax]
assert not missing, missing
with open(os.path.join(root, "AXIOMS.md"), "w") as g:
    g.write("# Axioms of every theorem, as printed by Lean\n\n| property | theorem | axioms |\n|---|---|---|\n")
    for p, t in ts:
        g.write(f"| {p} | `{t}` | {ax[t]} |\n")
print(len(ts), "theorems;", sorted({a for v in ax.values() for a in v.split(', ')}))
