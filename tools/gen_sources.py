#!/usr/bin/env python3
"""Generates lean/Verif/Sources.lean: the top-level statements of every module of the package that bind names."""
import ast, glob, os, re
out = []
q = lambda s: '"%s"' % s
def path(p): return "[" + ", ".join(q(x) for x in p.split(".")) + "]"
def stmts(tree):
    defined = set()
    for n in tree.body:
        if isinstance(n, ast.Import):
            for a in n.names:
                yield n.lineno, f".imp {path(a.name)} {'none' if a.asname is None else '(some ' + q(a.asname) + ')'}"
        elif isinstance(n, ast.ImportFrom):
            assert n.level == 0
            for a in n.names:
                if a.name == "*": yield n.lineno, f".star {path(n.module)}"
                else: yield n.lineno, f".fromImp {path(n.module)} {q(a.name)} {q(a.asname or a.name)}"
        elif isinstance(n, ast.FunctionDef):
            defined.add(n.name); yield n.lineno, f".bind .function {q(n.name)}"
        elif isinstance(n, ast.ClassDef):
            defined.add(n.name); yield n.lineno, f".bind .cls {q(n.name)}"
        elif isinstance(n, ast.Assign):
            (t,) = n.targets
            v = n.value
            if isinstance(v, ast.Name) and v.id in defined: yield n.lineno, f".alias {q(t.id)} {q(v.id)}"
            else:
                k = ".pattern" if isinstance(v, ast.Call) and getattr(v.func, "id", "") == "StepPattern" else ".value"
                yield n.lineno, f".bind {k} {q(t.id)}"
            defined.add(t.id)
        elif isinstance(n, ast.Expr): pass            # doc strings
        elif isinstance(n, ast.If):                   # the citation notice; `if __name__ == "__main__"`
            assert not any(isinstance(x, (ast.Assign, ast.Import, ast.ImportFrom, ast.FunctionDef)) for x in ast.walk(n)), ast.dump(n)
        else: raise Exception(ast.dump(n))
mods = []
for f in sorted(glob.glob("/repo/dtw/*.py")):
    b = os.path.basename(f)[:-3]
    name = "dtw" if b == "__init__" else "dtw." + b
    ss = list(stmts(ast.parse(open(f).read())))
    mods.append((name, "dtw/" + os.path.basename(f), ss))
src = open("/repo/dtw/_dtw_utils.pyx").read().split("\n")
ss = []
for i, l in enumerate(src, 1):
    m = re.match(r"import (\w+)(?: as (\w+))?\s*$", l)
    if m: ss.append((i, f".imp {path(m.group(1))} {'none' if not m.group(2) else '(some ' + q(m.group(2)) + ')'}"))
    m = re.match(r"__all__ = \[(.*)\]", l)
    if m: ss.append((i, f".exports [{m.group(1)}]"))
    m = re.match(r"def (\w+)", l)
    if m: ss.append((i, f".bind .function {q(m.group(1))}"))
mods.append(("dtw._dtw_utils", "dtw/_dtw_utils.pyx", ss))
out.append('''import Verif.Imports0

/-!
# The statements of the package that bind names

Generated by tools/gen_sources.py from the source text: every top-level statement of every module, in order, without doc strings
and the two `if` statements that bind nothing (dtw/__init__.py:32-35, dtw/__main__.py:48-49).
-/

namespace DTW.Imports
''')
ident = lambda n: "src_" + n.replace(".", "_")
for name, f, ss in mods:
    out.append(f"/-- {f}:{ss[0][0]}-{ss[-1][0]} -/\ndef {ident(name)} : List Stmt := [\n  " + ",\n  ".join(s for _, s in ss) + "]\n")
out.append("/-- The modules of the package. -/\ndef sources : List (String × List Stmt) := [\n  " +
  ",\n  ".join(f"({q(n)}, {ident(n)})" for n, _, _ in mods) + "]\n")
out.append("end DTW.Imports")
open("/verif/lean/Verif/Sources.lean", "w").write("\n".join(out) + "\n")
