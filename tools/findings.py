#!/usr/bin/env python3
"""Write FINDINGS.md: the theorems that say a property is false of the code, with their doc comments."""
import re, glob, os
root = os.path.dirname(os.path.dirname(os.path.abspath(__file__)))
rows = []
for f in sorted(glob.glob(root + "/lean/Verif/Props/*.lean")):
    t = open(f).read()
    for m in re.finditer(r"(/--(?:(?!-/).)*?-/\s*)?theorem ((C\d+)_\w*(?:fail|disagree|reject|needed|enum_twice|enum_visible)\w*)", t, re.S):
        doc = re.sub(r"\s+", " ", (m.group(1) or "").strip().removeprefix("/--").removesuffix("-/")).strip()
        rows.append((m.group(3), m.group(2), os.path.basename(f), doc))
rows.sort()
o = ["# Where the code does not have a property", "",
     "Each line is a theorem, proved in the file named, with its comment.  Generated by `tools/findings.py`.", ""]
for p, n, f, d in rows: o.append(f"* **{p}** `{n}` ({f}): {d}")
o += ["", "Also seen while reading, not stated as theorems:", ""]
o += [l for l in open(root + "/tools/other_findings.txt").read().splitlines()]
open(root + "/FINDINGS.md", "w").write("\n".join(o) + "\n")
