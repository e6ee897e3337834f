import Verif.Pattern

/-!
# Reading text (specification only)

How a person (or a program) reads the texts of the package: decimal numerals, the printed recursion, the printed matrix.
Nothing here refers to how the texts are produced.
-/

namespace DTW.Read

/-- `q` can be written with `P` significant decimal digits. -/
def Digits (P : Nat) (q : ℚ) : Prop := ∃ k e : ℤ, |k| < 10 ^ P ∧ q = k * 10 ^ e

/-- `v` is a `P`-digit decimal, and no other is nearer to `q`. -/
def NearestDecimal (P : Nat) (q v : ℚ) : Prop := Digits P v ∧ ∀ u, Digits P u → |v - q| ≤ |u - q|

/-- The digits at the beginning of a text. -/
def digits (t : List Char) : List Char := t.takeWhile Char.isDigit

/-- What follows them. -/
def afterDigits (t : List Char) : List Char := t.dropWhile Char.isDigit

/-- The number some digits denote. -/
def natOf (ds : List Char) : Nat := Nat.ofDigitChars 10 ds 0

/-- A natural number in base ten. -/
def nat (t : List Char) : Option (Nat × List Char) :=
  if digits t = [] then none else some (natOf (digits t), afterDigits t)

/-- A point and digits, if there is a point. -/
def fraction : List Char → ℚ × List Char
  | '.' :: t => ((natOf (digits t) : ℚ) / 10 ^ (digits t).length, afterDigits t)
  | t => (0, t)

/-- An exponent `e+12`, `e-05`, if there is one. -/
def exponent : List Char → Int × List Char
  | 'e' :: '+' :: t => (natOf (digits t), afterDigits t)
  | 'e' :: '-' :: t => (-(natOf (digits t) : Int), afterDigits t)
  | t => (0, t)

/-- A decimal numeral without sign. -/
def unsigned (t : List Char) : Option (ℚ × List Char) :=
  match nat t with
  | none => none
  | some (n, t1) =>
    let (f, t2) := fraction t1
    let (e, t3) := exponent t2
    some (((n : ℚ) + f) * 10 ^ e, t3)

/-- A decimal numeral. -/
def decimal : List Char → Option (ℚ × List Char)
  | '-' :: t => (unsigned t).map fun (q, r) => (-q, r)
  | t => unsigned t

/-- The number a whole text denotes. -/
def number (t : List Char) : Option ℚ :=
  match decimal t with
  | some (q, []) => some q
  | _ => none

/-! ### The recursion equation -/

/-- Skip blanks. -/
def blanks (t : List Char) : List Char := t.dropWhile (fun c => c = ' ')

/-- One expected character. -/
def expect (c : Char) : List Char → Option (List Char)
  | d :: t => if d = c then some t else none
  | [] => none

/-- How much is subtracted from an index: nothing, or `-` and a number. -/
def offset : List Char → Option (Int × List Char)
  | '-' :: t => (nat t).map fun (n, r) => ((n : Int), r)
  | t => some (0, t)

/-- `[i-2 ,j-1]`. -/
def cell (t : List Char) : Option ((Int × Int) × List Char) := do
  let t ← expect '[' t
  let t ← expect 'i' t
  let (di, t) ← offset t
  let t ← expect ',' (blanks t)
  let t ← expect 'j' t
  let (dj, t) ← offset t
  let t ← expect ']' (blanks t)
  return ((di, dj), t)

/-- A factor before `d`: none (that is, 1), or a number and `*`. -/
def factor (t : List Char) : Option (ℚ × List Char) :=
  match blanks t with
  | 'd' :: r => some (1, 'd' :: r)
  | t => do
    let (q, t) ← decimal t
    let t ← expect '*' (blanks t)
    return (q, blanks t)

/-- One term: `g[...]` or `+ factor d[...]`. -/
def term : List Char → Option (StepPattern.Printed × List Char)
  | 'g' :: t => do
    let ((di, dj), t) ← cell t
    return (.g di dj, t)
  | '+' :: t => do
    let (q, t) ← factor t
    let t ← expect 'd' t
    let ((di, dj), t) ← cell t
    return (.d q di dj, t)
  | _ => none

/-- The terms of one line, up to the comma that ends it. -/
def terms : Nat → List Char → Option (List StepPattern.Printed × List Char)
  | 0, _ => none
  | fuel + 1, t =>
    match blanks t with
    | ',' :: '\n' :: r => some ([], r)
    | t => do
      let (x, t) ← term t
      let (xs, t) ← terms fuel t
      return (x :: xs, t)

/-- The lines, up to the closing parenthesis. -/
def lines : Nat → List Char → Option (List (List StepPattern.Printed) × List Char)
  | 0, _ => none
  | fuel + 1, t =>
    match blanks t with
    | ')' :: r => some ([], r)
    | t => do
      let (x, t) ← terms t.length t
      let (xs, t) ← lines fuel t
      return (x :: xs, t)

/-- Remove an expected beginning. -/
def afterPrefix : List Char → List Char → Option (List Char)
  | [], t => some t
  | c :: cs, t => (expect c t).bind (afterPrefix cs)

/-- The whole description: the equation and the hint. -/
def pattern (t : List Char) : Option (List (List StepPattern.Printed) × List Char) := do
  let t ← afterPrefix "Step pattern recursion:\n g[i,j] = min(\n".toList t
  let (body, t) ← lines t.length t
  let t ← afterPrefix " \n\nNormalization hint: ".toList t
  if t.getLast? = some '\n' then return (body, t.dropLast) else none

/-- The sizes named by the description of an alignment. -/
def sizes (t : List Char) : Option (Nat × Nat) := do
  let t ← afterPrefix "DTW alignment object of size (query x reference): ".toList t
  let (n, t) ← nat t
  let t ← afterPrefix [' ', 'x', ' '] t
  let (m, t) ← nat t
  if t = [] then return (n, m) else none

/-! ### The matrix of the console script -/

/-- The words of a printed integer matrix. -/
inductive Tok where
  | opening
  | closing
  | num (n : Nat)
  | dot
  deriving DecidableEq, Repr

/-- Characters that are not digits: brackets and dots are words, blanks and line ends only separate, nothing else may
occur. -/
def separator (c : Char) : Option (List Tok) :=
  if c = '[' then some [.opening]
  else if c = ']' then some [.closing]
  else if c = '.' then some [.dot]
  else if c = ' ' ∨ c = '\n' then some []
  else none

/-- The number that has been read so far, as a word. -/
def flush (acc : List Char) : List Tok := if acc = [] then [] else [.num (natOf acc)]

/-- The words of a text; `acc` holds the digits read since the last separator. -/
def tokens (acc : List Char) : List Char → Option (List Tok)
  | [] => some (flush acc)
  | c :: t =>
    if c.isDigit then tokens (acc ++ [c]) t
    else (separator c).bind fun ts => (tokens [] t).map fun us => flush acc ++ ts ++ us

end DTW.Read
