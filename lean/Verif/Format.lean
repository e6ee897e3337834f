import Verif.Binary64
import Verif.Pattern
import Verif.Cli

/-!
# The texts the package produces

Python's number formatting, `StepPattern.__str__` (stepPattern.py:298-326), numpy's text of the two-row integer array the
console script prints, and the `Text` of `Verif/Cli.lean` made of them.  A Python `str` is a list of characters.
-/

namespace DTW
open F64

/-- A Python `str`. -/
abbrev Txt := List Char

/-- Python `str(n)` for an integer. -/
def intText (z : Int) : Txt := if z < 0 then '-' :: Nat.toDigits 10 z.natAbs else Nat.toDigits 10 z.natAbs

/-- The significant digits and the exponent of `q > 0` to `P` digits, as C's `%.{P-1}e`: correctly rounded, ties to even
(Python's `float.__format__` formats the exact value of the double). -/
def sigExp (P : Nat) (q : ℚ) : Nat × Int :=
  let X := Int.log 10 q
  let d := (roundEven (q / 10 ^ (X - ((P : ℤ) - 1)))).toNat
  if d = 10 ^ P then (10 ^ (P - 1), X + 1) else (d, X)

/-- `P` decimal digits of `d`. -/
def digitsOf : Nat → Nat → Txt
  | 0, _ => []
  | k + 1, d => digitsOf k (d / 10) ++ [Nat.digitChar (d % 10)]

/-- Trailing zeros are removed (C's `%g` without `#`). -/
def stripZeros (t : Txt) : Txt := (t.reverse.dropWhile (fun c => c = '0')).reverse

/-- Integer part, point, fractional part; no point if no fractional digit remains. -/
def withPoint (i f : Txt) : Txt := if stripZeros f = [] then i else i ++ '.' :: stripZeros f

/-- At least two digits (the exponent in C's `%e`). -/
def twoDigits (t : Txt) : Txt := List.replicate (2 - t.length) '0' ++ t

/-- `%.{P}g` of a positive number: scientific notation if the exponent is below -4 or at least `P`. -/
def fmtPos (P : Nat) (q : ℚ) : Txt :=
  let X := (sigExp P q).2
  let ds := digitsOf P (sigExp P q).1
  if -4 ≤ X ∧ X < P then
    if 0 ≤ X then withPoint (ds.take (X.toNat + 1)) (ds.drop (X.toNat + 1))
    else withPoint ['0'] (List.replicate ((-X).toNat - 1) '0' ++ ds)
  else withPoint (ds.take 1) (ds.drop 1) ++ 'e' :: (if X < 0 then '-' else '+') :: twoDigits (Nat.toDigits 10 X.natAbs)

/-- Python `f"{x:.{P}g}"` (P ≥ 1).  SIMPLIFICATION: there is no negative zero. -/
def fmtG (P : Nat) : F64 → Txt
  | nan => ['n', 'a', 'n']
  | pinf => ['i', 'n', 'f']
  | ninf => ['-', 'i', 'n', 'f']
  | fin q => if q = 0 then ['0'] else if 0 < q then fmtPos P q else '-' :: fmtPos P (-q)

/-- Strings are padded on the right (`f"{dis:2}"`), numbers on the left (`f"{cc:2.2g}"`). -/
def padRight2 (t : Txt) : Txt := t ++ List.replicate (2 - t.length) ' '
def padLeft2 (t : Txt) : Txt := List.replicate (2 - t.length) ' ' ++ t

namespace StepPattern

/-- stepPattern.py:310-311: `"" if di == 0 else f"{-int(di)}"`. -/
def offsetText (d : Int) : Txt := if d = 0 then [] else intText (-d)

/-- stepPattern.py:312: `f"i{dis:2},j{djs:2}"`. -/
def cellText (di dj : Int) : Txt := 'i' :: padRight2 (offsetText di) ++ ',' :: 'j' :: padRight2 (offsetText dj)

/-- stepPattern.py:314-320: one term, with the space before it. -/
def termText (s : Step) : Txt :=
  if s.w = -1 then ' ' :: "    g[".toList ++ cellText s.di s.dj ++ [']']
  else
    let ccs := if s.w = 1 then "    ".toList else padLeft2 (fmtG 2 (fin s.w)) ++ " *".toList
    ' ' :: '+' :: ccs ++ " d[".toList ++ cellText s.di s.dj ++ [']']

/-- stepPattern.py:303-321: one line per rule. -/
def lineText (rows : List Step) : Txt := (rows.map termText).flatten ++ " ,\n".toList

/-- stepPattern.py:298-326 `__str__`. -/
def text (p : StepPattern) : Except Err Txt := do
  let np ← p.getNPatterns
  let body := ((List.range np.toNat).map fun (k : Nat) => lineText (p.extractPattern ((k : Int) + 1)).reverse).flatten
  .ok ("Step pattern recursion:\n".toList ++ " g[i,j] = min(\n".toList ++ body ++ " ) \n\n".toList ++
    "Normalization hint: ".toList ++ p.hint.toList ++ "\n".toList)

end StepPattern

/-! ### numpy's text of an integer array (numpy/core/arrayprint.py, default print options) -/

/-- `"{:{}}".format(x, w)` for an integer: padded on the left to width `w` (`IntegerFormat`). -/
def padLeft (w : Nat) (t : Txt) : Txt := List.replicate (w - t.length) ' ' ++ t

/-- `str.rstrip` on a line of blanks and words. -/
def rstrip (t : Txt) : Txt := (t.reverse.dropWhile (fun c => c = ' ')).reverse

/-- `_extendLine`: a word that would make the line longer than `width` goes to a new line, unless the line is still
empty. -/
def extendLine (indent width : Nat) (s line word : Txt) : Txt × Txt :=
  if width < line.length + word.length ∧ indent < line.length then
    (s ++ rstrip line ++ ['\n'], List.replicate indent ' ' ++ word)
  else (s, line ++ word)

/-- The last axis in `_formatArray.recurser` of a two-dimensional array: hanging indent 2, current width 75 - 1, one more
column reserved for `]`. -/
def layRow (s line : Txt) : List Txt → Txt
  | [] => s ++ line
  | [w] => (extendLine 2 73 s line w).1 ++ (extendLine 2 73 s line w).2
  | w :: w' :: ws => layRow (extendLine 2 73 s line w).1 ((extendLine 2 73 s line w).2 ++ [' ']) (w' :: ws)

/-- Summarisation: more than 1000 elements and more than 6 on this axis. -/
def edges (summary : Bool) (l : List Int) : List Int × List Int :=
  if summary = true ∧ 6 < l.length then (l.take 3, l.drop (l.length - 3)) else ([], l)

/-- The elements that are shown. -/
def shown (summary : Bool) (l : List Int) : List Int := (edges summary l).1 ++ (edges summary l).2

/-- One row, with its brackets. -/
def rowText (summary : Bool) (w : Nat) (l : List Int) : Txt :=
  let e := edges summary l
  let words := e.1.map (fun z => padLeft w (intText z)) ++
    (if summary = true ∧ 6 < l.length then [['.', '.', '.']] else []) ++ e.2.map (fun z => padLeft w (intText z))
  '[' :: (layRow [] [' ', ' '] words).drop 2 ++ [']']

/-- __main__.py:24 `f"{wp}"` for `wp = numpy.vstack([index1, index2])`, a 2 × k integer array; all elements are padded
to the width of the longest one shown.  (`vstack` needs two lists of one length, which alignments have: C05.) -/
def showPath (a b : List Int) : Txt :=
  if a = [] then ['[', ']']
  else
    let summary := decide (1000 < a.length + b.length)
    let w := ((shown summary a ++ shown summary b).map fun z => (intText z).length).foldl max 0
    '[' :: rowText summary w a ++ '\n' :: ' ' :: rowText summary w b ++ [']']

/-- The text functions of the console script: `:.4g` and numpy's `str`. -/
def pyText : Text where
  fmt4g := fun x => String.ofList (fmtG 4 x)
  showPath := fun a b => String.ofList (showPath a b)

/-- dtw.py:78-80 `DTW.__repr__`: `"... {:d} x {:d}".format(self.N, self.M)`. -/
def Result.repr (r : Result) : Txt :=
  "DTW alignment object of size (query x reference): ".toList ++ intText r.N ++ [' ', 'x', ' '] ++ intText r.M

end DTW
