#!/usr/bin/env python3
"""Regenerates MANIFEST.json from the Lean sources: theorem `Cnn_*` belongs to property Cnn."""
import re, json, glob, os
root = os.path.dirname(os.path.dirname(os.path.abspath(__file__)))
props = [json.loads(l)["id"] for l in open(f"{root}/properties.jsonl")]
thms = {p: [] for p in props}
for f in sorted(glob.glob(f"{root}/lean/Verif/Props/*.lean")):
    for m in re.finditer(r"^theorem (C\d+_\w+)", open(f).read(), re.M):
        thms[m.group(1).split("_")[0]].append("NS." + m.group(1))
notes = json.load(open(f"{root}/tools/notes.json"))
claims = []
for p in props:
    n = notes.get(p, {})
    if not thms[p] and not n: continue
    st = n.get("status") or ("partial" if any(t.endswith("_partial") for t in thms[p]) else "proved")
    claims.append({"property": p, "status": st, "theorems": thms[p], "note": n.get("note", "")})
json.dump({"claims": claims}, open(f"{root}/MANIFEST.json", "w"), indent=1)
print(len(claims), "claims;", sum(len(c["theorems"]) for c in claims), "theorems;",
      [c["property"] for c in claims if c["status"] != "proved"])
