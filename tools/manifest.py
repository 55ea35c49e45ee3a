#!/usr/bin/env python3
"""Regenerates MANIFEST.json from the theorem names in lean/Verif/Props and tools/notes.json.

A property is `proved` if it has theorems, none of which ends in `_partial`, and tools/notes.json
does not override the status."""
import json, re, glob, os
root = os.path.dirname(os.path.dirname(os.path.abspath(__file__)))
props = [json.loads(l) for l in open(f"{root}/properties.jsonl") if l.strip()]
notes = json.load(open(f"{root}/tools/notes.json"))
thms = {}
for f in sorted(glob.glob(f"{root}/lean/Verif/Props/*.lean")):
    stack = []
    for line in open(f):
        if m := re.match(r"(?:noncomputable )?(namespace|section)\b\s*(\S*)", line):
            stack.append((m.group(1), m.group(2)))
        elif (m := re.match(r"end\b\s*(\S*)\s*$", line)) and stack and m.group(1) == stack[-1][1]:
            stack.pop()
        elif m := re.match(r"theorem (C\d\d\d?)_(\S+)", line):
            full = ".".join([n for k, n in stack if k == "namespace"] + [f"{m.group(1)}_{m.group(2)}"])
            thms.setdefault(m.group(1), []).append(full)
claims = []
for p in props:
    i = p["id"]
    t = thms.get(i, [])
    n = notes.get(i, {})
    if not t and not n.get("status"):
        continue
    st = n.get("status") or ("partial" if (not t or any(x.endswith("_partial") for x in t)) else "proved")
    claims.append({"property": i, "status": st, "theorems": t, "note": n.get("note", "" if t else "not yet proved")})
json.dump({"claims": claims}, open(f"{root}/MANIFEST.json", "w"), indent=1, ensure_ascii=False)
print({s: sum(c["status"] == s for c in claims) for s in ("proved", "partial", "not_applicable")}, sum(len(c["theorems"]) for c in claims))
