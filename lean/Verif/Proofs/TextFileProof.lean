import Verif.TextFile
import Verif.SpecFile
import Verif.Proofs.FormatProof

/-!
# Reading text files
-/

namespace DTW
open F64 Read

/-! ### Lines and words -/

theorem newlines_cons {c : Char} (hc : c ≠ '\r') (t : Txt) : newlines (c :: t) = c :: newlines t := by
  cases t with
  | nil => simp [newlines, hc]
  | cons d t => simp [newlines, hc]

theorem newlines_append {a : Txt} (ha : ∀ c ∈ a, c ≠ '\r') (t : Txt) : newlines (a ++ t) = a ++ newlines t := by
  induction a with
  | nil => rfl
  | cons c a ih =>
    rw [List.cons_append, newlines_cons (ha c (by simp)), ih fun d hd => ha d (by simp [hd])]
    rfl

theorem newlines_dos (t : Txt) : newlines ('\r' :: '\n' :: t) = '\n' :: newlines t := by simp [newlines]

theorem newlines_mac {t : Txt} (h : t.head? ≠ some '\n') : newlines ('\r' :: t) = '\n' :: newlines t := by
  cases t with
  | nil => simp [newlines]
  | cons d t =>
    have : d ≠ '\n' := by simpa using h
    simp [newlines, this]

theorem splitLines_ne (t : Txt) : splitLines t ≠ [] := by
  cases t with
  | nil => simp [splitLines]
  | cons c t =>
    unfold splitLines
    split
    · simp
    · split <;> simp

theorem splitLines_append {a : Txt} (ha : ∀ c ∈ a, c ≠ '\n') (t : Txt) :
    splitLines (a ++ '\n' :: t) = a :: splitLines t := by
  induction a with
  | nil => simp [splitLines]
  | cons c a ih =>
    have := ih fun d hd => ha d (by simp [hd])
    rw [List.cons_append]
    conv_lhs => unfold splitLines
    rw [if_neg (ha c (by simp)), this]

theorem splitLines_last {a : Txt} (ha : ∀ c ∈ a, c ≠ '\n') : splitLines a = [a] := by
  induction a with
  | nil => rfl
  | cons c a ih =>
    conv_lhs => unfold splitLines
    rw [if_neg (ha c (by simp)), ih fun d hd => ha d (by simp [hd])]

theorem splitWords_blanks {s : Txt} (hs : ∀ c ∈ s, isSpace c = true) (t : Txt) : splitWords (s ++ t) = splitWords t := by
  induction s with
  | nil => rfl
  | cons c s ih =>
    rw [List.cons_append]
    conv_lhs => unfold splitWords
    rw [if_pos (hs c (by simp)), ih fun d hd => hs d (by simp [hd])]

theorem splitWords_word {w t : Txt} (hne : w ≠ []) (hw : ∀ c ∈ w, isSpace c = false)
    (ht : ∀ c ∈ t.head?, isSpace c = true) : splitWords (w ++ t) = w :: splitWords t := by
  induction w with
  | nil => exact absurd rfl hne
  | cons c w ih =>
    have hc := hw c (by simp)
    cases w with
    | nil =>
      cases t with
      | nil => simp [splitWords, hc]
      | cons d t =>
        have hd := ht d (by simp)
        rw [List.singleton_append]
        conv_lhs => unfold splitWords
        simp [hc, hd]
    | cons d w =>
      have hd := hw d (by simp)
      have := ih (by simp) fun x hx => hw x (by simp at hx ⊢; tauto)
      rw [List.cons_append, List.cons_append]
      conv_lhs => unfold splitWords
      rw [List.cons_append] at this
      simp [hc, hd, this]

theorem space_of_blank {c : Char} (h : Blank c) : isSpace c = true := by
  rcases h with rfl | rfl | h
  · decide
  · decide
  · unfold isSpace
    simp only [List.mem_cons, List.not_mem_nil, or_false] at h
    simp only [Bool.or_eq_true, Bool.and_eq_true, decide_eq_true_eq]
    omega

theorem not_space_of_visible {c : Char} (h : 32 < c.toNat) : isSpace c = false := by
  unfold isSpace
  simp only [Bool.or_eq_false_iff, Bool.and_eq_false_iff, decide_eq_false_iff_not]
  omega

theorem Read.Spaced.words {ws : List Txt} {l : Txt} (h : Spaced ws l) : splitWords l = ws := by
  induction h with
  | nil hs =>
    have := splitWords_blanks (fun c hc => space_of_blank (hs c hc)) []
    rwa [List.append_nil] at this
  | last hs hw hs' =>
    rw [List.append_assoc, splitWords_blanks (fun c hc => space_of_blank (hs c hc)),
      splitWords_word hw.1 (fun c hc => not_space_of_visible (hw.2 c hc).1)]
    · have := splitWords_blanks (fun c hc => space_of_blank (hs' c hc)) []
      rw [List.append_nil] at this
      rw [this]; rfl
    · intro c hc
      exact space_of_blank (hs' c (List.mem_of_mem_head? hc))
  | cons hs hw hc _ ih =>
    rw [List.append_assoc, splitWords_blanks (fun c hc => space_of_blank (hs c hc)),
      splitWords_word hw.1 (fun c hc => not_space_of_visible (hw.2 c hc).1)]
    · conv_lhs => enter [2]; unfold splitWords
      rw [if_pos (space_of_blank hc), ih]
    · intro c hc'
      simp only [List.head?_cons, Option.mem_def, Option.some.injEq] at hc'
      subst hc'; exact space_of_blank hc

theorem Read.Spaced.chars {ws : List Txt} {l : Txt} (h : Spaced ws l) : ∀ c ∈ l, c ≠ '#' ∧ c ≠ '\n' ∧ c ≠ '\r' := by
  have blank : ∀ c : Char, Blank c → c ≠ '#' ∧ c ≠ '\n' ∧ c ≠ '\r' := by
    rintro c (rfl | rfl | h)
    · decide
    · decide
    · refine ⟨?_, ?_, ?_⟩ <;> rintro rfl <;> revert h <;> decide
  have visible : ∀ c : Char, 32 < c.toNat ∧ c ≠ '#' → c ≠ '#' ∧ c ≠ '\n' ∧ c ≠ '\r' := by
    rintro c ⟨h1, h2⟩
    refine ⟨h2, ?_, ?_⟩ <;> rintro rfl <;> revert h1 <;> decide
  induction h with
  | nil hs => exact fun c hc => blank c (hs c hc)
  | last hs hw hs' =>
    intro c hc
    simp only [List.mem_append] at hc
    rcases hc with (hc | hc) | hc
    · exact blank c (hs c hc)
    · exact visible c (hw.2 c hc)
    · exact blank c (hs' c hc)
  | cons hs hw hd _ ih =>
    intro c hc
    simp only [List.mem_append, List.mem_cons] at hc
    rcases hc with (hc | hc) | rfl | hc
    · exact blank c (hs c hc)
    · exact visible c (hw.2 c hc)
    · exact blank c hd
    · exact ih c hc

theorem takeWhile_hash {l k : Txt} (hl : ∀ c ∈ l, c ≠ '#') (hk : k = [] ∨ ∃ t, k = '#' :: t) :
    (l ++ k).takeWhile (fun c => c ≠ '#') = l := by
  rw [List.takeWhile_append_of_pos (by intro c hc; simpa using hl c hc)]
  rcases hk with rfl | ⟨t, rfl⟩ <;> simp

theorem Read.Spaced.lineWords {ws : List Txt} {l k : Txt} (h : Spaced ws l) (hk : Comment k) : DTW.lineWords (l ++ k) = ws := by
  unfold DTW.lineWords
  rw [takeWhile_hash (fun c hc => (h.chars c hc).1) (by
    rcases hk with hk | ⟨t, hk, _⟩
    · exact .inl hk
    · exact .inr ⟨t, hk⟩), h.words]

theorem line_chars {ws : List Txt} {l k : Txt} (h : Spaced ws l) (hk : Comment k) :
    ∀ c ∈ l ++ k, c ≠ '\n' ∧ c ≠ '\r' := by
  intro c hc
  rcases List.mem_append.1 hc with hc | hc
  · exact (h.chars c hc).2
  · rcases hk with rfl | ⟨t, rfl, ht⟩
    · simp at hc
    · rcases List.mem_cons.1 hc with rfl | hc
      · decide
      · exact ht c hc

/-- The words found in the lines of a file. -/
theorem Read.File.words {rows : List (List Txt)} {t : Txt} (h : File rows t) :
    ((splitLines (newlines t)).map DTW.lineWords).filter (fun r => r ≠ []) = rows.filter (fun r => r ≠ []) := by
  induction h with
  | nil => rfl
  | @last ws l k hl hk =>
    have hc := line_chars hl hk
    have e := newlines_append (fun c h => (hc c h).2) []
    rw [List.append_nil] at e
    rw [e, show newlines [] = [] from rfl, List.append_nil, splitLines_last fun c h => (hc c h).1]
    simp only [List.map_cons, List.map_nil, hl.lineWords hk]
  | @unix ws l k rows t hl hk _ ih =>
    have hc := line_chars hl hk
    rw [newlines_append (fun c h => (hc c h).2), newlines_cons (by decide), splitLines_append fun c h => (hc c h).1]
    simp only [List.map_cons, List.filter_cons, hl.lineWords hk, ih]
  | @dos ws l k rows t hl hk _ ih =>
    have hc := line_chars hl hk
    rw [newlines_append (fun c h => (hc c h).2), newlines_dos, splitLines_append fun c h => (hc c h).1]
    simp only [List.map_cons, List.filter_cons, hl.lineWords hk, ih]
  | @mac ws l k rows t hl hk _ ht ih =>
    have hc := line_chars hl hk
    rw [newlines_append (fun c h => (hc c h).2), newlines_mac ht, splitLines_append fun c h => (hc c h).1]
    simp only [List.map_cons, List.filter_cons, hl.lineWords hk, ih]

theorem readTable_file (A : Arith) {rows : List (List Txt)} {t : Txt} (h : File rows t) :
    readTable A t = (rows.filter (fun r => r ≠ [])).map (fun r => r.map (field A)) := by
  rw [← h.words]
  unfold readTable
  generalize splitLines (newlines t) = ls
  induction ls with
  | nil => rfl
  | cons l ls ih =>
    rw [List.map_cons, List.map_cons, List.filter_cons, List.filter_cons, ih]
    by_cases hl : DTW.lineWords l = []
    · simp [hl]
    · simp [hl]

/-! ### Numerals -/

theorem digitRun_append {ds t : Txt} (hd : OnlyDigits ds) (ht : ∀ c ∈ t.head?, c.isDigit = false ∧ c ≠ '_') :
    ∀ b, digitRun b (ds ++ t) = (ds, t) := by
  induction ds with
  | nil =>
    intro b
    match t with
    | [] => rfl
    | [c] =>
      have := ht c (by simp)
      simp [digitRun, this.1]
    | c :: d :: t =>
      have := ht c (by simp)
      simp [digitRun, this.1, this.2]
  | cons c ds ih =>
    intro b
    have hc := hd c (by simp)
    have := ih (fun d h => hd d (by simp [h])) true
    rw [List.cons_append]
    cases hr : ds ++ t with
    | nil =>
      rw [hr] at this
      obtain ⟨rfl, rfl⟩ := List.append_eq_nil_iff.1 hr
      simp [digitRun, hc]
    | cons d r =>
      rw [hr] at this
      simp only [digitRun, hc, if_true, this]

/-- What may follow the mantissa: nothing or an exponent. -/
def Tail (r : Txt) : Prop := ∀ c ∈ r.head?, c = 'e' ∨ c = 'E'

theorem Tail.head {r : Txt} (h : Tail r) : ∀ c ∈ r.head?, c.isDigit = false ∧ c ≠ '_' ∧ c ≠ '.' := by
  intro c hc
  rcases h c hc with rfl | rfl <;> decide

theorem fracRun_tail {r : Txt} (h : Tail r) : fracRun r = ([], r) := by
  cases r with
  | nil => rfl
  | cons c r =>
    have := (h.head c (by simp)).2.2
    unfold fracRun
    split
    · rename_i e
      exact absurd (List.cons.inj e).1 this
    · rfl

/-- The value of a numeral without sign and exponent, and what follows. -/
theorem floatDigits_body {t : Txt} {q : ℚ} (h : Numeral t q) (hc : ∀ c ∈ t, c.isDigit = true ∨ c = '.') {r : Txt}
    (hr : Tail r) : floatDigits (t ++ r) = (expRun r).map fun e => q * (10 : ℚ) ^ e := by
  have bad : ∀ c : Char, c.isDigit = true ∨ c = '.' → ¬ (c = 'e' ∨ c = 'E' ∨ c = '-' ∨ c = '+') := by
    rintro c (h | rfl)
    · rintro (rfl | rfl | rfl | rfl) <;> revert h <;> decide
    · decide
  cases h with
  | plain hd hne =>
    unfold floatDigits
    simp only [digitRun_append hd (fun c h => ⟨(hr.head c h).1, (hr.head c h).2.1⟩), fracRun_tail hr]
    rw [if_neg (by simp [hne])]
    simp [natOf]
  | @point i f hd hf hne =>
    have e1 : i ++ '.' :: f ++ r = i ++ '.' :: (f ++ r) := by simp
    rw [e1]
    unfold floatDigits
    simp only [digitRun_append hd (t := '.' :: (f ++ r)) (by
      intro c h
      simp only [List.head?_cons, Option.mem_def, Option.some.injEq] at h
      subst h; decide)]
    have e2 : fracRun ('.' :: (f ++ r)) = (f, r) := by
      show digitRun false (f ++ r) = _
      exact digitRun_append hf (fun c h => ⟨(hr.head c h).1, (hr.head c h).2.1⟩) _
    simp only [e2]
    rw [if_neg (by
      rintro ⟨h1, h2⟩
      exact hne (by rw [h1, h2]; rfl))]
    congr 1
    funext e
    have := natOf_append i f
    unfold natOf at this ⊢
    rw [this, zpow_sub₀ (by norm_num), zpow_natCast]
    push_cast
    have h10 : (10 : ℚ) ^ f.length ≠ 0 := by positivity
    generalize (10 : ℚ) ^ f.length = Z at h10 ⊢
    generalize (10 : ℚ) ^ e = Y
    rw [mul_div_assoc', div_eq_iff h10]
    have e3 : (Nat.ofDigitChars 10 f 0 : ℚ) / Z * Z = Nat.ofDigitChars 10 f 0 := div_mul_cancel₀ _ h10
    generalize (Nat.ofDigitChars 10 f 0 : ℚ) = F at e3 ⊢
    generalize (Nat.ofDigitChars 10 i 0 : ℚ) = I
    have e4 : (I + F / Z) * Y * Z = I * Y * Z + F / Z * Z * Y := by ring
    rw [e4, e3]
    ring
  | @exp t q e x _ _ he _ _ => exact absurd (by rcases he with rfl | rfl <;> simp) (bad e (hc e (by simp)))
  | @expPlus t q e x _ _ he _ _ => exact absurd (by rcases he with rfl | rfl <;> simp) (bad e (hc e (by simp)))
  | @expMinus t q e x _ _ he _ _ => exact absurd (by rcases he with rfl | rfl <;> simp) (bad e (hc e (by simp)))
  | minus _ _ => exact absurd (by simp) (bad '-' (hc _ (by simp)))
  | plus _ _ => exact absurd (by simp) (bad '+' (hc _ (by simp)))

theorem expDigits_ok {x : Txt} (hx : OnlyDigits x) (hne : x ≠ []) : expDigits x = some (natOf x) := by
  have := digitRun_append hx (t := []) (by simp) false
  rw [List.append_nil] at this
  unfold expDigits
  simp [this, hne, natOf]

theorem head_digit {x : Txt} (hx : OnlyDigits x) (hne : x ≠ []) : ∃ c t, x = c :: t ∧ c.isDigit = true := by
  cases x with
  | nil => exact absurd rfl hne
  | cons c t => exact ⟨c, t, rfl, hx c (by simp)⟩

/-- Numerals without sign. -/
theorem floatDigits_numeral {t : Txt} {q : ℚ} (h : Numeral t q) (hh : ∀ c ∈ t.head?, c ≠ '-' ∧ c ≠ '+') :
    floatDigits t = some q := by
  have body : (∀ c ∈ t, c.isDigit = true ∨ c = '.') → floatDigits t = some q := by
    intro hc
    have := floatDigits_body h hc (r := []) (by intro c hc; simp at hc)
    rw [List.append_nil] at this
    simpa [expRun] using this
  cases h with
  | plain hd hne => exact body fun c hc => .inl (hd c hc)
  | point hd hf hne =>
    apply body
    intro c hc
    simp only [List.mem_append, List.mem_cons] at hc
    rcases hc with hc | rfl | hc
    · exact .inl (hd c hc)
    · exact .inr rfl
    · exact .inl (hf c hc)
  | @exp t q e x ht hc he hx hne =>
    rw [floatDigits_body ht hc (r := e :: x) (by intro c h; simp at h; subst h; exact he)]
    obtain ⟨d, y, rfl, hd⟩ := head_digit hx hne
    have h1 : d ≠ '+' := by rintro rfl; revert hd; decide
    have h2 : d ≠ '-' := by rintro rfl; revert hd; decide
    have : expRun (e :: d :: y) = some (natOf (d :: y) : Int) := by
      unfold expRun
      simp only
      rw [if_pos he]
      split
      · rename_i e; exact absurd (List.cons.inj e).1 h1
      · rename_i e; exact absurd (List.cons.inj e).1 h2
      · rw [expDigits_ok hx hne]; rfl
    rw [this]; simp
  | @expPlus t q e x ht hc he hx hne =>
    rw [floatDigits_body ht hc (r := e :: '+' :: x) (by intro c h; simp at h; subst h; exact he)]
    simp [expRun, he, expDigits_ok hx hne]
  | @expMinus t q e x ht hc he hx hne =>
    rw [floatDigits_body ht hc (r := e :: '-' :: x) (by intro c h; simp at h; subst h; exact he)]
    simp [expRun, he, expDigits_ok hx hne, div_eq_mul_inv]
  | minus _ _ => exact absurd rfl (hh '-' (by simp)).1
  | plus _ _ => exact absurd rfl (hh '+' (by simp)).2

/-- The first character of a numeral. -/
theorem Read.Numeral.head {t : Txt} {q : ℚ} (h : Numeral t q) :
    ∃ c r, t = c :: r ∧ (c.isDigit = true ∨ c = '.' ∨ c = '-' ∨ c = '+') := by
  induction h with
  | plain hd hne => obtain ⟨c, t, rfl, h⟩ := head_digit hd hne; exact ⟨c, t, rfl, .inl h⟩
  | @point i f hd hf hne =>
    cases i with
    | nil => exact ⟨'.', f, rfl, .inr (.inl rfl)⟩
    | cons c i => exact ⟨c, i ++ '.' :: f, rfl, .inl (hd c (by simp))⟩
  | exp _ _ _ _ _ ih => obtain ⟨c, r, rfl, h⟩ := ih; exact ⟨c, _, rfl, h⟩
  | expPlus _ _ _ _ _ ih => obtain ⟨c, r, rfl, h⟩ := ih; exact ⟨c, _, rfl, h⟩
  | expMinus _ _ _ _ _ ih => obtain ⟨c, r, rfl, h⟩ := ih; exact ⟨c, _, rfl, h⟩
  | minus _ _ _ => exact ⟨_, _, rfl, .inr (.inr (.inl rfl))⟩
  | plus _ _ _ => exact ⟨_, _, rfl, .inr (.inr (.inr rfl))⟩

theorem toLower_of {c : Char} (h : c.isDigit = true ∨ c = '.') : c.toLower ≠ 'i' ∧ c.toLower ≠ 'n' := by
  rcases h with h | rfl
  · have h1 : c.toNat < 58 := by
      simp only [Char.isDigit, Bool.and_eq_true, decide_eq_true_eq] at h
      have := h.2
      have : c.val.toNat ≤ 57 := this
      exact Nat.lt_succ_of_le this
    have : c.toLower = c := by
      unfold Char.toLower
      split
      · rename_i hc
        exfalso
        have : 65 ≤ c.val.toNat := hc.1
        have : c.toNat = c.val.toNat := rfl
        omega
      · rfl
    rw [this]
    constructor <;> rintro rfl <;> revert h <;> decide
  · decide

theorem floatUnsigned_numeral (A : Arith) {t : Txt} {q : ℚ} (h : Numeral t q)
    (hh : ∀ c ∈ t.head?, c.isDigit = true ∨ c = '.') : floatUnsigned A t = some (A.rnd q) := by
  obtain ⟨c, r, rfl, _⟩ := h.head
  have hc := hh c (by simp)
  have hl := toLower_of hc
  have hd := floatDigits_numeral h (by
    intro d hd
    simp only [List.head?_cons, Option.mem_def, Option.some.injEq] at hd
    subst hd
    rcases hc with h | rfl
    · constructor <;> rintro rfl <;> revert h <;> decide
    · decide)
  unfold floatUnsigned
  simp only [List.map_cons, List.cons.injEq, hl.1, hl.2, false_and, or_self, if_false, hd, Option.map_some]

/-- Python's `float` reads numerals. -/
theorem pyFloat_numeral (A : Arith) (hs : ∀ q, A.rnd (-q) = (A.rnd q).neg) {t : Txt} {q : ℚ} (h : Numeral t q) :
    pyFloat A t = some (A.rnd q) := by
  have pos : ∀ {t : Txt} {q : ℚ}, Numeral t q → (∀ c ∈ t.head?, c.isDigit = true ∨ c = '.') →
      pyFloat A t = some (A.rnd q) := by
    intro t q h hh
    have := floatUnsigned_numeral A h hh
    obtain ⟨c, r, rfl, _⟩ := h.head
    have hc := hh c (by simp)
    unfold pyFloat
    split
    · rename_i e
      have := (List.cons.inj e).1
      subst this
      exact absurd hc (by decide)
    · rename_i e
      have := (List.cons.inj e).1
      subst this
      exact absurd hc (by decide)
    · exact this
  by_cases hh : ∀ c ∈ t.head?, c.isDigit = true ∨ c = '.'
  · exact pos h hh
  · have key : ∀ {t : Txt} {q : ℚ}, Numeral t q → (∀ c ∈ t, c.isDigit = true ∨ c = '.') →
        ∀ c ∈ t.head?, c.isDigit = true ∨ c = '.' := fun _ ht c hc => ht c (List.mem_of_mem_head? hc)
    have app : ∀ {t r : Txt}, t ≠ [] → (∀ c ∈ t, c.isDigit = true ∨ c = '.') →
        ∀ c ∈ (t ++ r).head?, c.isDigit = true ∨ c = '.' := by
      intro t r hne ht c hc
      cases t with
      | nil => exact absurd rfl hne
      | cons d t => exact ht c (by simp at hc; subst hc; simp)
    have hne : ∀ {t : Txt} {q : ℚ}, Numeral t q → t ≠ [] := by
      intro t q h
      obtain ⟨c, r, rfl, _⟩ := h.head
      simp
    cases h with
    | plain hd h0 => exact absurd (fun c hc => .inl (hd c (List.mem_of_mem_head? hc))) hh
    | @point i f hd hf h0 =>
      refine absurd ?_ hh
      intro c hc
      cases i with
      | nil => simp at hc; exact .inr hc.symm
      | cons d i => simp at hc; subst hc; exact .inl (hd d (by simp))
    | exp ht hc _ _ _ => exact absurd (app (hne ht) hc) hh
    | expPlus ht hc _ _ _ => exact absurd (app (hne ht) hc) hh
    | expMinus ht hc _ _ _ => exact absurd (app (hne ht) hc) hh
    | @minus t q ht hc =>
      show (floatUnsigned A t).map F64.neg = _
      rw [floatUnsigned_numeral A ht hc, hs]; rfl
    | @plus t q ht hc =>
      show floatUnsigned A t = _
      exact floatUnsigned_numeral A ht hc

end DTW
