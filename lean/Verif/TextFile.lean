import Verif.Cli
import Verif.Format

/-!
# Reading the files of the console script

`numpy.genfromtxt(fname)` with its default arguments (__main__.py:13-14): numpy/lib/npyio.py, `LineSplitter` and
`StringConverter` of numpy/lib/_iotools.py, and Python's `float`.  External code, transcribed from numpy's and CPython's
sources.  SIMPLIFICATION: ASCII text; there is no negative zero.
-/

namespace DTW
open F64

/-- Python's `str.isspace` on ASCII characters. -/
def isSpace (c : Char) : Bool := (9 ≤ c.toNat && c.toNat ≤ 13) || (28 ≤ c.toNat && c.toNat ≤ 32)

/-- Text mode: `\r\n` and `\r` are read as `\n` (universal newlines). -/
def newlines : Txt → Txt
  | [] => []
  | [c] => if c = '\r' then ['\n'] else [c]
  | c :: d :: t =>
    if c = '\r' then if d = '\n' then '\n' :: newlines t else '\n' :: newlines (d :: t)
    else c :: newlines (d :: t)

/-- The lines of a file, without their ends. -/
def splitLines : Txt → List Txt
  | [] => [[]]
  | c :: t =>
    if c = '\n' then [] :: splitLines t
    else match splitLines t with
      | [] => [[c]]
      | l :: ls => (c :: l) :: ls

/-- Python's `str.split()`: the maximal runs of characters that are not whitespace. -/
def splitWords : Txt → List Txt
  | [] => []
  | c :: t =>
    if isSpace c then splitWords t
    else match t with
      | [] => [[c]]
      | d :: _ => if isSpace d then [c] :: splitWords t
        else match splitWords t with
          | [] => [[c]]
          | w :: ws => (c :: w) :: ws

/-- `LineSplitter._delimited_splitter`: the line up to the comment sign, split at whitespace. -/
def lineWords (l : Txt) : List Txt := splitWords (l.takeWhile (fun c => c ≠ '#'))

/-- Digits, with single underscores between them; `prev` tells whether a digit precedes. -/
def digitRun : Bool → Txt → Txt × Txt
  | _, [] => ([], [])
  | _, [c] => if c.isDigit then ([c], []) else ([], [c])
  | prev, c :: d :: t =>
    if c.isDigit then ((c :: (digitRun true (d :: t)).1), (digitRun true (d :: t)).2)
    else if c = '_' ∧ prev = true ∧ d.isDigit then ((d :: (digitRun true t).1), (digitRun true t).2)
    else ([], c :: d :: t)

/-- The fractional digits, if there is a point. -/
def fracRun : Txt → Txt × Txt
  | '.' :: t => digitRun false t
  | t => ([], t)

/-- The digits of an exponent: they must be there and end the text. -/
def expDigits (t : Txt) : Option Nat :=
  if (digitRun false t).1 = [] ∨ (digitRun false t).2 ≠ [] then none
  else some (Nat.ofDigitChars 10 (digitRun false t).1 0)

/-- The exponent, up to the end of the text: none (zero), or `e`, a sign or none, and digits. -/
def expRun : Txt → Option Int
  | [] => some 0
  | c :: t =>
    if c = 'e' ∨ c = 'E' then
      match t with
      | '+' :: t => (expDigits t).map fun n : Nat => (n : Int)
      | '-' :: t => (expDigits t).map fun n : Nat => -(n : Int)
      | t => (expDigits t).map fun n : Nat => (n : Int)
    else none

/-- Decimal numerals without sign: the exact value. -/
def floatDigits (t : Txt) : Option ℚ :=
  let i := digitRun false t
  let f := fracRun i.2
  if i.1 = [] ∧ f.1 = [] then none
  else (expRun f.2).map fun e => (Nat.ofDigitChars 10 (i.1 ++ f.1) 0 : ℚ) * (10 : ℚ) ^ (e - (f.1.length : Int))

/-- Without sign: `inf`, `infinity` and `nan` in any case, or a decimal numeral, correctly rounded. -/
def floatUnsigned (A : Arith) (t : Txt) : Option F64 :=
  let l := t.map Char.toLower
  if l = ['i', 'n', 'f'] ∨ l = ['i', 'n', 'f', 'i', 'n', 'i', 't', 'y'] then some pinf
  else if l = ['n', 'a', 'n'] then some nan
  else (floatDigits t).map A.rnd

/-- Python `float(s)` of a word; `none` is ValueError. -/
def pyFloat (A : Arith) : Txt → Option F64
  | '-' :: t => (floatUnsigned A t).map F64.neg
  | '+' :: t => floatUnsigned A t
  | t => floatUnsigned A t

/-- `StringConverter._loose_call`: what `float` does not accept becomes NaN. -/
def field (A : Arith) (w : Txt) : F64 := (pyFloat A w).getD nan

/-- The table of numbers that genfromtxt finds in a file: the lines that hold at least one word. -/
def readTable (A : Arith) (t : Txt) : List (List F64) :=
  ((splitLines (newlines t)).map fun l => (lineWords l).map (field A)).filter fun r => r ≠ []

/-- __main__.py:30-50 `main()` with the files as texts. -/
def mainText (A : Arith) (T : Text) (euclid : List F64 → List F64 → F64) (files : String → Except Err Txt)
    (argv : List String) : Exit :=
  main A T euclid (fun f => (files f).map (readTable A)) argv

end DTW
