#!/usr/bin/env python3
"""Regenerate MANIFEST.json from the theorem names in lean/Verif/Props.

A property is `partial` when it only has a `_partial` main theorem or when
notes.json says so; `notes.json` holds the per-property status and note.
"""
import json, re, glob, collections, os
root = os.path.dirname(os.path.dirname(os.path.abspath(__file__)))
thms = collections.defaultdict(list)
for f in sorted(glob.glob(root + "/lean/Verif/Props/*.lean")):
    ns = []
    for line in open(f):
        m = re.match(r"namespace (\S+)", line)
        if m: ns.append(m.group(1))
        m = re.match(r"end (\S+)", line)
        if m and ns and ns[-1] == m.group(1): ns.pop()
        m = re.match(r"(?:protected )?theorem ((C\d\d+)_\w+)", line)
        if m: thms[m.group(2)].append(".".join(ns + [m.group(1)]))
notes = json.load(open(root + "/tools/notes.json"))
claims = []
for l in open(root + "/properties.jsonl"):
    p = json.loads(l)["id"]
    n = notes.get(p)
    if n is None:
        if thms[p]: print("no note for", p)
        continue
    claims.append({"property": p, "status": n["status"], "theorems": thms[p], "note": n["note"]})
    if n["status"] != "not_applicable" and not thms[p]: print("no theorems for", p)
json.dump({"claims": claims}, open(root + "/MANIFEST.json", "w"), indent=1)
open(root + "/MANIFEST.json", "a").write("\n")
print(len(claims), "claims")
