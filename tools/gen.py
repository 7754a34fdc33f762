#!/usr/bin/env python3
"""Regenerate properties.jsonl, MANIFEST.json and DESIGN.md from claims.py, results.py and design_head.md."""
import json, os, re, glob, sys
here = os.path.dirname(os.path.abspath(__file__)); root = os.path.dirname(here)
ns = {}
exec(open(os.path.join(here, "claims.py")).read(), ns)
if os.path.exists(os.path.join(here, "results.py")):
    exec(open(os.path.join(here, "results.py")).read(), ns)
PROPS, R = ns["PROPS"], ns["R"]
with open(os.path.join(root, "properties.jsonl"), "w") as f:
    for p in PROPS:
        f.write(json.dumps({k: p[k] for k in ("id","title","statement","quantifier","why_tests_cant","anchors")}, ensure_ascii=False) + "\n")
names = set()
for fn in glob.glob(os.path.join(root, "lean", "Verif", "**", "*.lean"), recursive=True):
    ctx = []
    for line in open(fn):
        m = re.match(r"\s*namespace\s+(\S+)", line)
        if m: ctx.append(m.group(1))
        m = re.match(r"\s*end\s+(\S+)", line)
        if m and ctx and ctx[-1] == m.group(1): ctx.pop()
        m = re.match(r"\s*(?:@\[[^\]]*\]\s*)?(?:private\s+)?theorem\s+([^\s:({\[]+)", line)
        if m: names.add(".".join(ctx + [m.group(1)]))
claims = []; bad = []
# default theorem lists: every theorem named PyPE.*Cxx_*
for p in PROPS:
    st = R.get(p["id"])
    if st is None: continue
    status, thms, note = st
    if thms == "auto":
        thms = sorted(n for n in names if n.split(".")[-1].startswith(p["id"] + "_"))
    for t in thms:
        if t not in names: bad.append((p["id"], t))
    claims.append(dict(property=p["id"], status=status, theorems=thms, note=note))
json.dump({"claims": claims}, open(os.path.join(root, "MANIFEST.json"), "w"), indent=1, ensure_ascii=False)
head = open(os.path.join(here, "design_head.md")).read()
rows = []
for p in PROPS:
    st = R.get(p["id"])
    rows.append(f"### {p['id']} — {p['title']}\n\n{p['statement']}\n\n*Plan / method:* {p['plan']}.\n")
    if st: 
        c = next(c for c in claims if c["property"] == p["id"])
        rows.append(f"*Status:* **{st[0]}**. {st[2]}\n\n*Theorems:* " + ", ".join("`%s`" % t for t in c["theorems"]) + "\n")
    else:
        rows.append("*Status:* planned.\n")
open(os.path.join(root, "DESIGN.md"), "w").write(head + "\n" + "\n".join(rows))
if bad: print("MISSING THEOREMS", bad); sys.exit(1)
cov = {t for c in claims for t in c["theorems"]}
un = sorted(n for n in names if re.match(r"C\d\d+_", n.split(".")[-1]) and n not in cov)
if un: print("unclaimed:", un)
print(len(PROPS), "properties;", len(claims), "claims;", len(cov), "theorems")
