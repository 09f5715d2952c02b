#!/usr/bin/env python3
"""Write COVERAGE.md: which lines of /repo the definitions in lean/Verif/Model
and lean/Verif/Spec cite, and which functions of the Python compiler they leave out."""
import re, glob, os, ast, collections
root = os.path.dirname(os.path.dirname(os.path.abspath(__file__)))
repo = "/repo"
files = {}
for base in ("compiler/c2po", "monitors/c/src"):
    for dp, _, fs in os.walk(f"{repo}/{base}"):
        for f in fs:
            if f.endswith((".py", ".c", ".h")) and "/sly" not in dp:
                files.setdefault(f, []).append(os.path.relpath(os.path.join(dp, f), repo))
for f in glob.glob(f"{repo}/compiler/**/*.egg", recursive=True):
    files.setdefault(os.path.basename(f), []).append(os.path.relpath(f, repo))
cited = collections.defaultdict(set)
by = collections.defaultdict(set)
for m in sorted(glob.glob(root + "/lean/Verif/Model/*.lean") + glob.glob(root + "/lean/Verif/Spec/*.lean")):
    text = open(m).read()
    for f, rest in re.findall(r"([A-Za-z_0-9]+\.(?:py|c|h|egg)):((?:\d+(?:-\d+)?(?:,\s*)?)+)", text):
        if f not in files: continue
        for a, b in re.findall(r"(\d+)(?:-(\d+))?", rest):
            a = int(a); b = int(b or a)
            cited[f] |= set(range(a, b + 1))
        by[f].add(os.path.basename(m))
    # the rule files of the equality saturation are cited whole
    for f in re.findall(r"`egglog/rewrites/([a-z_]+\.egg)`", text):
        cited[f] |= set(range(1, 10000)); by[f].add(os.path.basename(m))
def ranges(s):
    out = []; s = sorted(s)
    for x in s:
        if out and x <= out[-1][1] + 1: out[-1][1] = x
        else: out.append([x, x])
    return ", ".join(f"{a}-{b}" if a != b else f"{a}" for a, b in out)
def functions(path):
    tree = ast.parse(open(path).read())
    out = []
    def walk(n, pre):
        for c in ast.iter_child_nodes(n):
            if isinstance(c, (ast.FunctionDef, ast.ClassDef)):
                if isinstance(c, ast.FunctionDef): out.append((pre + c.name, c.lineno, c.end_lineno))
                walk(c, pre + c.name + ".")
    walk(tree, "")
    return out
o = ["# Which lines of /repo are modelled", "",
     "Generated by `tools/coverage.py` from the citations in `lean/Verif/Model` and `lean/Verif/Spec`.",
     "A line counts as modelled when a definition cites a range that contains it; the comment of the",
     "definition says what it simplifies.", ""]
for f in sorted(files):
    for path in files[f]:
        n = len(open(f"{repo}/{path}", errors="replace").read().splitlines())
        if not n: continue
        o.append(f"## {path} ({n} lines)"); o.append("")
        if f in cited and len(files[f]) == 1 or f in cited:
            o.append(f"Cited by {', '.join(sorted(by[f]))}: lines {ranges(x for x in cited[f] if x <= n)}.")
        else:
            o.append("Not modelled.")
        if path.endswith(".py"):
            miss = [g for g, a, b in functions(f"{repo}/{path}") if not (cited[f] & set(range(a, b + 1)))]
            if miss and f in cited: o += ["", "Functions without a citation: " + ", ".join(f"`{g}`" for g in miss) + "."]
        o.append("")
open(root + "/COVERAGE.md", "w").write("\n".join(o))
