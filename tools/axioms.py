#!/usr/bin/env python3
"""Write AXIOMS.md: what `#print axioms` says about every theorem in MANIFEST.json (run after `lake build`)."""
import json, os, re, subprocess, collections
root = os.path.dirname(os.path.dirname(os.path.abspath(__file__)))
names = [t for c in json.load(open(root + "/MANIFEST.json"))["claims"] for t in c["theorems"]]
src = "import Verif\n" + "".join(f"#print axioms {n}\n" for n in names)
open("/tmp/axioms.lean", "w").write(src)
out = subprocess.run(["lake", "env", "lean", "/tmp/axioms.lean"], cwd=root + "/lean", capture_output=True, text=True).stdout
out = re.sub(r"\n\s+", " ", out)
got = {}
for m in re.finditer(r"'([^']+)' (?:depends on axioms: \[([^\]]*)\]|does not depend on any axioms)", out):
    got[m.group(1)] = m.group(2) or "none"
miss = [n for n in names if n not in got]
assert not miss, miss
groups = collections.defaultdict(list)
for n in names: groups[got[n]].append(n)
o = ["# Axioms of the theorems in MANIFEST.json", "", "Output of `#print axioms`, grouped (`tools/axioms.py`).", ""]
for g in sorted(groups, key=len):
    o += [f"## {g}", "", ", ".join(f"`{n}`" for n in groups[g]), ""]
open(root + "/AXIOMS.md", "w").write("\n".join(o))
print({g: len(v) for g, v in groups.items()})
