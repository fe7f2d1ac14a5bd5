#!/usr/bin/env python3
"""Regenerate MANIFEST.json from the theorem names in lean/Verif/Props and the notes in tools/notes.json."""
import json, re, glob, os
root = os.path.dirname(os.path.dirname(os.path.abspath(__file__)))
notes = json.load(open(os.path.join(root, "tools/notes.json")))
thms = {}
for f in sorted(glob.glob(os.path.join(root, "lean/Verif/Props/*.lean"))):
    ns = ""
    for line in open(f):
        m = re.match(r"namespace (\S+)", line)
        if m: ns = m.group(1) if not ns else ns + "." + m.group(1)
        m = re.match(r"end (\S+)", line)
        if m and (ns == m.group(1) or ns.endswith("." + m.group(1))): ns = ns[:-len(m.group(1))].rstrip(".")
        m = re.match(r"(?:open .* in )?(?:private )?theorem (C(\d\d+)_\S+)", line)
        if m: thms.setdefault("C" + m.group(2), []).append(ns + "." + m.group(1))
ids = [json.loads(l)["id"] for l in open(os.path.join(root, "properties.jsonl"))]
claims = []
for i in ids:
    n = notes.get(i, {})
    t = thms.get(i, [])
    if not t and "status" not in n: continue
    if t == [] and n.get("status") != "not_applicable": continue
    claims.append({"property": i, "status": n.get("status", "proved"), "theorems": t, "note": n.get("note", "")})
json.dump({"claims": claims}, open(os.path.join(root, "MANIFEST.json"), "w"), indent=1, ensure_ascii=False)
print("listed", len(claims), "of", len(ids), "missing", [i for i in ids if i not in [c["property"] for c in claims]])
