#!/usr/bin/env python3
"""Generate properties.jsonl, MANIFEST.json and the property table of DESIGN.md from props_core.py."""
import json, os, sys
here = os.path.dirname(os.path.abspath(__file__)); root = os.path.dirname(here)
sys.path.insert(0, here)
from props_core import P
import re, glob
thms = {}
for fn in sorted(glob.glob(os.path.join(root, "lean/Verif/Props/*.lean"))):
    ns = []
    for m in re.finditer(r"^(?:namespace (\S+)|end (\S+)|(?:section|noncomputable section)(?: (\S+))?|theorem (C\d\d\d?)_(\S+))", open(fn).read(), re.M):
        if m.group(1): ns.append(m.group(1))
        elif m.group(2):
            if ns and ns[-1] == m.group(2): ns.pop()
        elif m.group(4): thms.setdefault(m.group(4), []).append(".".join(ns) + f".{m.group(4)}_{m.group(5)}")
for p in P:
    p["theorems"] = thms.get(p["id"], [])
    if p["theorems"]:
        # partial: only if every non-witness theorem is partial, or marked so by hand
        main = [t for t in p["theorems"] if not t.endswith("_violated")]
        if not p["status"]:
            p["status"] = "partial" if (not main or all(t.endswith("_partial") for t in main)) else "proved"
    elif p["status"] != "not_applicable":
        p["status"] = None
ids = {p["id"] for p in P}
assert not (set(thms) - ids), set(thms) - ids
with open(os.path.join(root, "properties.jsonl"), "w") as f:
    for p in P:
        f.write(json.dumps(dict(id=p["id"], title=p["title"], statement=p["statement"], quantifier=p["quantifier"],
                                why_tests_cant=p["why"], anchors=p["anchors"]), ensure_ascii=False) + "\n")
claims = [dict(property=p["id"], status=p["status"], theorems=p["theorems"], note=p["note"]) for p in P if p["status"]]
with open(os.path.join(root, "MANIFEST.json"), "w") as f:
    json.dump({"claims": claims}, f, indent=1, ensure_ascii=False); f.write("\n")
d = os.path.join(root, "DESIGN.md")
if os.path.exists(d):
    s = open(d).read(); a, b = "<!-- TABLE -->", "<!-- /TABLE -->"
    if a in s:
        t = "\n| id | property | how it is modelled and proved | status |\n|---|---|---|---|\n"
        for p in P:
            t += f"| {p['id']} | {p['title']} | {p['plan']} | {p['status'] or 'planned'} |\n"
        s = s.split(a)[0] + a + t + b + s.split(b)[1]
    a, b = "<!-- FINDINGS -->", "<!-- /FINDINGS -->"
    if a in s:
        t = "\n| theorem | what it says |\n|---|---|\n"; rows = []
        for fn in sorted(glob.glob(os.path.join(root, "lean/Verif/Props/*.lean"))):
            for m in re.finditer(r"/--((?:(?!-/).)*)-/\s*(?:open Classical in\s*)?theorem (C(\d+)_\w*violated\w*)",
                                 open(fn).read(), re.S):
                x = " ".join(m.group(1).split()).replace("|", "\\|").replace("**", "")
                x = re.sub(r"^(C\d+ )?(\(finding\) |FINDING: |Violation( \(side effect\))?: |Violated: )?", "", x)
                rows.append((int(m.group(3)), f"| `{m.group(2)}` | {x} |\n"))
        t += "".join(r for _, r in sorted(rows, key=lambda r: r[0]))
        s = s.split(a)[0] + a + t + b + s.split(b)[1]
    open(d, "w").write(s)
print(len(P), "properties,", len(claims), "claims")
