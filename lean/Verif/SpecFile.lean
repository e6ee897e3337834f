import Verif.SpecText

/-!
# Text files (specification only)

What a file with a table of words looks like.  Nothing here refers to how it is read.
-/

namespace DTW.Read

/-- A word: visible characters, but not `#`. -/
def Word (w : List Char) : Prop := w ≠ [] ∧ ∀ c ∈ w, 32 < c.toNat ∧ c ≠ '#'

/-- Blanks within a line: spaces, tabs, vertical tabs, form feeds and the ASCII separators 28 to 31. -/
def Blank (c : Char) : Prop := c = ' ' ∨ c = '\t' ∨ c.toNat ∈ [11, 12, 28, 29, 30, 31]

def Blanks (s : List Char) : Prop := ∀ c ∈ s, Blank c

/-- The words `ws`, separated and possibly surrounded by blanks. -/
inductive Spaced : List (List Char) → List Char → Prop
  | nil {s} : Blanks s → Spaced [] s
  | last {s w s'} : Blanks s → Word w → Blanks s' → Spaced [w] (s ++ w ++ s')
  | cons {s w t ws c} : Blanks s → Word w → Blank c → Spaced ws t → Spaced (w :: ws) (s ++ w ++ c :: t)

/-- A comment up to the end of the line, or nothing. -/
def Comment (s : List Char) : Prop := s = [] ∨ ∃ t, s = '#' :: t ∧ ∀ c ∈ t, c ≠ '\n' ∧ c ≠ '\r'

/-- A file whose lines hold the words `rows` (one list per line, possibly empty), with comments, and lines that end in
`\n`, `\r\n` or `\r`; the last line need not end. -/
inductive File : List (List (List Char)) → List Char → Prop
  | nil : File [] []
  | last {ws l k} : Spaced ws l → Comment k → File [ws] (l ++ k)
  | unix {ws l k rows t} : Spaced ws l → Comment k → File rows t → File (ws :: rows) (l ++ k ++ '\n' :: t)
  | dos {ws l k rows t} : Spaced ws l → Comment k → File rows t → File (ws :: rows) (l ++ k ++ '\r' :: '\n' :: t)
  | mac {ws l k rows t} : Spaced ws l → Comment k → File rows t → t.head? ≠ some '\n' →
      File (ws :: rows) (l ++ k ++ '\r' :: t)

/-- Decimal digits. -/
def OnlyDigits (ds : List Char) : Prop := ∀ c ∈ ds, c.isDigit = true

/-- A decimal numeral: sign, digits, a point and more digits, an exponent — everything optional but one digit — and the
number it denotes. -/
inductive Numeral : List Char → ℚ → Prop
  | plain {i} : OnlyDigits i → i ≠ [] → Numeral i (natOf i)
  | point {i f} : OnlyDigits i → OnlyDigits f → i ++ f ≠ [] →
      Numeral (i ++ '.' :: f) ((natOf i : ℚ) + (natOf f : ℚ) / 10 ^ f.length)
  | exp {t q e x} : Numeral t q → (∀ c ∈ t, c.isDigit = true ∨ c = '.') → (e = 'e' ∨ e = 'E') → OnlyDigits x → x ≠ [] →
      Numeral (t ++ e :: x) (q * 10 ^ natOf x)
  | expPlus {t q e x} : Numeral t q → (∀ c ∈ t, c.isDigit = true ∨ c = '.') → (e = 'e' ∨ e = 'E') → OnlyDigits x → x ≠ [] →
      Numeral (t ++ e :: '+' :: x) (q * 10 ^ natOf x)
  | expMinus {t q e x} : Numeral t q → (∀ c ∈ t, c.isDigit = true ∨ c = '.') → (e = 'e' ∨ e = 'E') → OnlyDigits x → x ≠ [] →
      Numeral (t ++ e :: '-' :: x) (q / 10 ^ natOf x)
  | minus {t q} : Numeral t q → (∀ c ∈ t.head?, c.isDigit = true ∨ c = '.') → Numeral ('-' :: t) (-q)
  | plus {t q} : Numeral t q → (∀ c ∈ t.head?, c.isDigit = true ∨ c = '.') → Numeral ('+' :: t) q

end DTW.Read
