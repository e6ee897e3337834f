#!/usr/bin/env python3
"""Generates lean/Verif/Tables.lean from the *text* of /repo/dtw/stepPattern.py (no code is run)."""
import re
src = open("/repo/dtw/stepPattern.py").read()
lines = src.split("\n")
out = ['''import Verif.Pattern

/-!
# The bundled step patterns

GENERATED by tools/gen_patterns.py from the text of /repo/dtw/stepPattern.py (lines 557-990): the rows are
the literals of the source, in order; a weight such as `1 / 3` is the rational number, rounded to a double
where the kernel uses it.
-/

namespace DTW
namespace Pat
''']
names = []
i = 0
while i < len(lines):
    m = re.match(r"^(_?\w+) = StepPattern\(_c\((.*)$", lines[i])
    if m:
        name, buf, start = m.group(1), m.group(2), i + 1
        while ")" not in buf.split("#")[0] or True:
            clean = re.sub(r"#[^\n]*", "", buf)
            mm = re.match(r"(?s)^(.*?)\)\s*(?:,\s*\"([^\"]*)\")?\s*\)\s*$", clean)
            if mm: break
            i += 1
            buf += "\n" + lines[i]
        vals = [v.strip() for v in mm.group(1).replace("\n", " ").split(",") if v.strip()]
        hint = mm.group(2) or "NA"
        assert len(vals) % 4 == 0, (name, vals)
        rows = [vals[k:k+4] for k in range(0, len(vals), 4)]
        def q(v):
            v = v.replace(" ", "")
            return {".5": "1/2", "1.5": "3/2", "-1.001": "-1001/1000"}.get(v, v)
        body = ",\n   ".join("⟨%s, %s, %s, %s⟩" % (*r[:3], q(r[3])) for r in rows)
        lname = name
        out.append(f"/-- stepPattern.py:{start}-{i+1} -/\ndef {lname} : StepPattern where\n  mx := [\n   {body}]\n  hint := \"{hint}\"\n")
        names.append(name)
    else:
        m = re.match(r"^(\w+) = (\w+)$", lines[i])
        if m and m.group(2) in names:
            out.append(f"/-- stepPattern.py:{i+1} -/\ndef {m.group(1)} : StepPattern := {m.group(2)}\n")
            names.append(m.group(1))
    i += 1
out.append("/-- Every module-level step pattern object of stepPattern.py:557-990, by attribute name. -/\ndef table : List (String × StepPattern) := [\n  " +
  ",\n  ".join(f'("{n}", {n})' for n in names) + "]\n")
out.append("end Pat\nend DTW\n")
open("/verif/lean/Verif/Tables.lean", "w").write("\n".join(out))
print(len(names), names)
