#!/usr/bin/env python3
"""Regenerates MANIFEST.json from the theorem names in lean/Verif/Props and tools/notes.json."""
import json, re, glob, os
root = os.path.dirname(os.path.dirname(os.path.abspath(__file__)))
props = [json.loads(l) for l in open(f"{root}/properties.jsonl") if l.strip()]
notes = json.load(open(f"{root}/tools/notes.json"))
thms = {}
for f in sorted(glob.glob(f"{root}/lean/Verif/Props/*.lean")):
    for m in re.finditer(r"^theorem (C\d\d+)_(\w+)", open(f).read(), re.M):
        thms.setdefault(m.group(1), []).append(f"Verif.Props.{m.group(1)}_{m.group(2)}")
claims = []
for p in props:
    i = p["id"]
    if i not in thms:
        if i in notes and notes[i].get("status") == "not_applicable":
            claims.append({"property": i, "status": "not_applicable", "theorems": [], "note": notes[i]["note"]})
        continue
    n = notes.get(i, {})
    st = n.get("status") or ("partial" if any(t.endswith("_partial") for t in thms[i]) else "proved")
    claims.append({"property": i, "status": st, "theorems": thms[i], "note": n.get("note", p["title"])})
json.dump({"claims": claims}, open(f"{root}/MANIFEST.json", "w"), indent=1)
print(len(claims), "claims,", sum(len(c["theorems"]) for c in claims), "theorems")
