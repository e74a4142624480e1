#!/usr/bin/env python3
"""Collects the theorems C??_* from lean/Verif/Props into MANIFEST.json; notes.json holds status and notes."""
import glob, json, os, re
root = os.path.dirname(os.path.dirname(os.path.abspath(__file__)))
notes = json.load(open(os.path.join(root, "tools", "notes.json")))
thms = {}
for f in sorted(glob.glob(os.path.join(root, "lean", "Verif", "Props", "**", "*.lean"), recursive=True)):
    ns = []
    text = re.sub(r"/-.*?-/", lambda m: "\n" * m.group(0).count("\n"), open(f).read(), flags=re.S)
    for line in text.split("\n"):
        m = re.match(r"namespace (Gen|Props|Spec|Model)\s*$", line)
        if m: ns.append(m.group(1))
        m = re.match(r"end (Gen|Props|Spec|Model)\s*$", line)
        if m and ns and ns[-1] == m.group(1): ns.pop()
        m = re.match(r"theorem ((C\d\d\d?)_\S+)", line)
        if m: thms.setdefault(m.group(2), []).append(".".join(ns + [m.group(1)]))
claims = []
props = [json.loads(l)["id"] for l in open(os.path.join(root, "properties.jsonl")) if l.strip()]
for p in props:
    n = notes.get(p, {})
    if p in thms or n.get("status") == "not_applicable":
        st = n.get("status") or ("partial" if any("_partial" in t for t in thms[p]) else "proved")
        claims.append({"property": p, "status": st, "theorems": thms.get(p, []), "note": n.get("note", "")})
missing = [p for p in props if p not in [c["property"] for c in claims]]
json.dump({"claims": claims}, open(os.path.join(root, "MANIFEST.json"), "w"), indent=1)
print("claims", len(claims), "missing", missing)
