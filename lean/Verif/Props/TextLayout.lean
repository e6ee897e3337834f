import Verif.Props.Texts

/-!
# C44, C48: the layout of printed numbers and of the printed path
-/

namespace DTW
open F64

variable {A : Arith} {p : StepPattern} {rs : List Rule} {euclid : List F64 → List F64 → F64}

/-! ### Specification -/

/-- The lines of a text. -/
def lines : Txt → List Txt
  | [] => [[]]
  | c :: t =>
    if c = '\n' then [] :: lines t
    else
      match lines t with
      | [] => [[c]]
      | l :: ls => (c :: l) :: ls

/-- A number in a column of width `w`, to the right. -/
def column (w n : Nat) : Txt := List.replicate (w - (Nat.toDigits 10 n).length) ' ' ++ Nat.toDigits 10 n

/-- Numbers in columns of width `w`, separated by blanks. -/
def columns (w : Nat) (l : List Nat) : Txt := List.intercalate [' '] (l.map (column w))

/-- Two rows, one per line, in brackets. -/
def boxed (w : Nat) (a b : List Nat) : Txt :=
  "[[".toList ++ columns w a ++ "]\n [".toList ++ columns w b ++ "]]".toList

/-- `w` is the largest number of digits of the numbers in `l`. -/
def Widest (w : Nat) (l : List Nat) : Prop :=
  (∀ n ∈ l, (Nat.toDigits 10 n).length ≤ w) ∧ ∃ n ∈ l, (Nat.toDigits 10 n).length = w

/-- Scientific notation (an `e` in the text) is used for the numbers, as shown, below 0.0001 or not below 10^P. -/
def Notation (P : Nat) (t : Txt) : Prop :=
  ∀ v, Read.number t = some v → ('e' ∈ t ↔ v ≠ 0 ∧ (|v| < 1 / 10000 ∨ 10 ^ P ≤ |v|))

/-- A decimal numeral without superfluous characters: a minus sign or none; an integer part that does not begin with a zero unless
it is just zero; a point only if digits follow, the last of which is not zero; an exponent, if any, with sign and at least two
digits, no more than needed, after an integer part of one digit that is not zero. -/
def Tidy (t : Txt) : Prop :=
  ∃ s i f e : Txt, t = s ++ i ++ (if f = [] then [] else '.' :: f) ++ e ∧ (s = [] ∨ s = ['-']) ∧
    i ≠ [] ∧ (∀ c ∈ i, c.isDigit = true) ∧ (i.head? = some '0' → i = ['0']) ∧
    (∀ c ∈ f, c.isDigit = true) ∧ f.getLast? ≠ some '0' ∧
    (e = [] ∨ (i.length = 1 ∧ i ≠ ['0'] ∧ ∃ d : Txt, (e = 'e' :: '-' :: d ∨ e = 'e' :: '+' :: d) ∧ (∀ c ∈ d, c.isDigit = true) ∧
      2 ≤ d.length ∧ (2 < d.length → d.head? ≠ some '0')))

/-! ### Numbers -/

theorem no_e_of_digits {t : Txt} (h : AllDigits t) : 'e' ∉ t := by
  intro hc
  have := h _ hc
  revert this; decide

theorem no_e_withPoint {i f : Txt} (hi : AllDigits i) (hf : AllDigits f) : 'e' ∉ withPoint i f := by
  unfold withPoint
  split
  · exact no_e_of_digits hi
  · intro h
    rcases List.mem_append.1 h with h | h
    · exact no_e_of_digits hi h
    · rcases List.mem_cons.1 h with h | h
      · revert h; decide
      · exact no_e_of_digits (stripZeros_digits hf) h

theorem e_mem_fmtPos {P : Nat} {q : ℚ} : 'e' ∈ fmtPos P q ↔ (sigExp P q).2 < -4 ∨ (P : Int) ≤ (sigExp P q).2 := by
  unfold fmtPos
  simp only
  have hd := digitsOf_digits P (sigExp P q).1
  split
  · rename_i hX
    have : ¬ ((sigExp P q).2 < -4 ∨ (P : Int) ≤ (sigExp P q).2) := by omega
    simp only [this, iff_false]
    split
    · exact no_e_withPoint (allDigits_take hd _) (allDigits_drop hd _)
    · refine no_e_withPoint (by intro c hc; rw [List.mem_singleton.1 hc]; decide) ?_
      intro c hc
      rcases List.mem_append.1 hc with h | h
      · rw [List.eq_of_mem_replicate h]; decide
      · exact hd c h
  · rename_i hX
    have : (sigExp P q).2 < -4 ∨ (P : Int) ≤ (sigExp P q).2 := by omega
    simp [this]

theorem sigVal_range {P : Nat} (hP : 1 ≤ P) {q : ℚ} (hq : 0 < q) :
    (10 : ℚ) ^ (sigExp P q).2 ≤ sigVal P q ∧ sigVal P q < 10 ^ ((sigExp P q).2 + 1) := by
  obtain ⟨h1, h2, h3⟩ := sigExp_spec hP hq
  rw [← h3]
  have hp : (0 : ℚ) < 10 ^ ((sigExp P q).2 - ((P : ℤ) - 1)) := by positivity
  have e1 : ((10 ^ (P - 1) : Nat) : ℚ) = 10 ^ ((P : ℤ) - 1) := by
    push_cast
    rw [← zpow_natCast]
    congr 1
    omega
  have e2 : ((10 ^ P : Nat) : ℚ) = 10 ^ (P : ℤ) := by push_cast; rw [zpow_natCast]
  have h1' : (10 : ℚ) ^ ((P : ℤ) - 1) ≤ ((sigExp P q).1 : ℚ) := by rw [← e1]; exact_mod_cast h1
  have h2' : ((sigExp P q).1 : ℚ) < 10 ^ (P : ℤ) := by rw [← e2]; exact_mod_cast h2
  constructor
  · calc (10 : ℚ) ^ (sigExp P q).2 = 10 ^ ((P : ℤ) - 1) * 10 ^ ((sigExp P q).2 - ((P : ℤ) - 1)) := by
          rw [← zpow_add₀ (by norm_num)]; congr 1; ring
      _ ≤ _ := mul_le_mul_of_nonneg_right h1' hp.le
  · calc ((sigExp P q).1 : ℚ) * 10 ^ ((sigExp P q).2 - ((P : ℤ) - 1)) <
          10 ^ (P : ℤ) * 10 ^ ((sigExp P q).2 - ((P : ℤ) - 1)) := mul_lt_mul_of_pos_right h2' hp
      _ = 10 ^ ((sigExp P q).2 + 1) := by rw [← zpow_add₀ (by norm_num)]; congr 1; ring

theorem pos_notation {P : Nat} (hP : 1 ≤ P) {q : ℚ} (hq : 0 < q) :
    'e' ∈ fmtPos P q ↔ sigVal P q < 1 / 10000 ∨ 10 ^ P ≤ sigVal P q := by
  obtain ⟨h1, h2⟩ := sigVal_range hP hq
  rw [e_mem_fmtPos]
  have e4 : (1 / 10000 : ℚ) = 10 ^ (-4 : ℤ) := by norm_num
  have eP : (10 : ℚ) ^ P = 10 ^ (P : ℤ) := (zpow_natCast _ _).symm
  rw [e4, eP]
  generalize (sigExp P q).2 = X at *
  apply or_congr
  · constructor
    · intro h
      exact lt_of_lt_of_le h2 (zpow_le_zpow_right₀ (by norm_num) (by omega))
    · intro h
      by_contra hc
      exact absurd (lt_of_le_of_lt (le_trans (zpow_le_zpow_right₀ (by norm_num) (not_lt.1 hc)) h1) h) (lt_irrefl _)
  · constructor
    · intro h
      exact le_trans (zpow_le_zpow_right₀ (by norm_num) h) h1
    · intro h
      by_contra hc
      exact absurd (lt_of_lt_of_le h2 (le_trans (zpow_le_zpow_right₀ (by norm_num) (by omega)) h)) (lt_irrefl _)

theorem sigVal_pos {P : Nat} (hP : 1 ≤ P) {q : ℚ} (hq : 0 < q) : 0 < sigVal P q :=
  lt_of_lt_of_le (by positivity) (sigVal_range hP hq).1

theorem notation_fmtG {P : Nat} (hP : 1 ≤ P) (q : ℚ) : Notation P (fmtG P (fin q)) := by
  intro v hv
  rw [number_fmtG hP q] at hv
  cases hv
  unfold shownVal fmtG
  rcases lt_trichotomy q 0 with h | h | h
  · have hq : 0 < -q := by linarith
    have hs := sigVal_pos hP hq
    rw [if_neg (by linarith), if_pos h]
    simp only [if_neg h.ne, if_neg (not_lt.2 h.le)]
    rw [List.mem_cons, pos_notation hP hq, abs_neg, abs_of_pos hs]
    have : ¬ ('e' = '-') := by decide
    have h0 : -sigVal P (-q) ≠ 0 := by linarith
    simp [this, hs.ne']
  · subst h
    simp
  · have hs := sigVal_pos hP h
    rw [if_pos h]
    simp only [if_neg h.ne', if_pos h]
    rw [pos_notation hP h, abs_of_pos hs]
    simp [hs.ne']

theorem stripZeros_last (f : Txt) : (stripZeros f).getLast? ≠ some '0' := by
  unfold stripZeros
  rw [List.getLast?_reverse]
  intro h
  have h2 := List.head?_dropWhile_not (fun c : Char => decide (c = '0')) f.reverse
  rw [h] at h2
  simp at h2

theorem digitsOf_ne {k d : Nat} (hd : 10 ^ k ≤ d) (hd2 : d < 10 ^ (k + 1)) : (digitsOf (k + 1) d).head? ≠ some '0' := by
  induction k generalizing d with
  | zero =>
    have h1 : 1 ≤ d := by simpa using hd
    have h2 : d < 10 := by simpa using hd2
    have : ∀ d < 10, 1 ≤ d → (digitsOf (0 + 1) d).head? ≠ some '0' := by decide
    exact this d h2 h1
  | succ k ih =>
    have e : digitsOf (k + 1 + 1) d = digitsOf (k + 1) (d / 10) ++ [Nat.digitChar (d % 10)] := rfl
    rw [e, List.head?_append_of_ne_nil]
    · refine ih ?_ ?_
      · rw [Nat.le_div_iff_mul_le (by omega)]
        rw [pow_succ] at hd
        exact hd
      · rw [Nat.div_lt_iff_lt_mul (by omega)]
        rw [pow_succ] at hd2
        exact hd2
    · intro h
      have := congrArg List.length h
      rw [digitsOf_length] at this
      simp at this

theorem toDigits_head {n : Nat} (hn : 0 < n) : (Nat.toDigits 10 n).head? ≠ some '0' := by
  induction n using Nat.strong_induction_on with
  | _ n ih =>
    by_cases h : n < 10
    · have : ∀ n < 10, 0 < n → (Nat.toDigits 10 n).head? ≠ some '0' := by decide +kernel
      exact this n h hn
    · rw [Nat.toDigits_of_base_le (by omega) (by omega), List.head?_append_of_ne_nil]
      · exact ih (n / 10) (by omega) (by omega)
      · exact Nat.toDigits_ne_nil

/-- How `withPoint` begins and ends. -/
theorem tidy_withPoint {s i f e : Txt} (hs : s = [] ∨ s = ['-']) (hi0 : i ≠ []) (hi : AllDigits i)
    (hz : i.head? = some '0' → i = ['0']) (hf : AllDigits f)
    (he : e = [] ∨ (i.length = 1 ∧ i ≠ ['0'] ∧ ∃ d : Txt, (e = 'e' :: '-' :: d ∨ e = 'e' :: '+' :: d) ∧ (∀ c ∈ d, c.isDigit = true) ∧
      2 ≤ d.length ∧ (2 < d.length → d.head? ≠ some '0'))) : Tidy (s ++ (withPoint i f ++ e)) := by
  refine ⟨s, i, stripZeros f, e, ?_, hs, hi0, hi, hz, stripZeros_digits hf, stripZeros_last f, he⟩
  unfold withPoint
  split <;> simp

theorem tidy_fmtPos {P : Nat} (hP : 1 ≤ P) {q : ℚ} (hq : 0 < q) {s : Txt} (hs : s = [] ∨ s = ['-']) : Tidy (s ++ fmtPos P q) := by
  obtain ⟨h1, h2, -⟩ := sigExp_spec hP hq
  obtain ⟨k, rfl⟩ : ∃ k, P = k + 1 := ⟨P - 1, by omega⟩
  have hh := digitsOf_ne (k := k) (d := (sigExp (k + 1) q).1) (by simpa using h1) h2
  have hd := digitsOf_digits (k + 1) (sigExp (k + 1) q).1
  have hl := digitsOf_length (k + 1) (sigExp (k + 1) q).1
  unfold fmtPos
  simp only
  generalize digitsOf (k + 1) (sigExp (k + 1) q).1 = ds at *
  generalize (sigExp (k + 1) q).2 = X at *
  have htake : ∀ j, ds.take (j + 1) ≠ [] ∧ (ds.take (j + 1)).head? ≠ some '0' := by
    intro j
    cases ds with
    | nil => simp at hl
    | cons c ds => exact ⟨by simp, by simpa using hh⟩
  have noexp : ∀ i f : Txt, i ≠ [] → AllDigits i → (i.head? = some '0' → i = ['0']) → AllDigits f → Tidy (s ++ withPoint i f) := by
    intro i f a b c d
    have := tidy_withPoint (e := []) hs a b c d (.inl rfl)
    rwa [List.append_nil] at this
  split
  · split
    · exact noexp _ _ (htake _).1 (allDigits_take hd _) (fun h => absurd h (htake _).2) (allDigits_drop hd _)
    · refine noexp _ _ (by simp) (by intro c hc; rw [List.mem_singleton.1 hc]; decide) (fun _ => rfl) ?_
      intro c hc
      rcases List.mem_append.1 hc with h | h
      · rw [List.eq_of_mem_replicate h]; decide
      · exact hd c h
  · rename_i hX
    refine tidy_withPoint hs (htake 0).1 (allDigits_take hd _) (fun h => absurd h (htake 0).2) (allDigits_drop hd _) (.inr ⟨?_, ?_, ?_⟩)
    · rw [List.length_take, hl]
      omega
    · intro h
      have := (htake 0).2
      rw [h] at this
      exact this rfl
    · refine ⟨twoDigits (Nat.toDigits 10 X.natAbs), ?_, twoDigits_digits _, ?_, ?_⟩
      · split
        · exact .inl rfl
        · exact .inr rfl
      · unfold twoDigits
        rw [List.length_append, List.length_replicate]
        omega
      · intro h
        unfold twoDigits at h ⊢
        rw [List.length_append, List.length_replicate] at h
        have : 2 - (Nat.toDigits 10 X.natAbs).length = 0 := by omega
        rw [this, List.replicate_zero, List.nil_append]
        exact toDigits_head (by omega)

theorem tidy_fmtG {P : Nat} (hP : 1 ≤ P) (q : ℚ) : Tidy (fmtG P (fin q)) := by
  unfold fmtG
  simp only
  split
  · exact ⟨[], ['0'], [], [], rfl, .inl rfl, by simp, by decide, fun _ => rfl, by simp, by simp, .inl rfl⟩
  · rename_i h0
    split
    · rename_i h
      exact tidy_fmtPos hP h (s := []) (.inl rfl)
    · rename_i h
      exact tidy_fmtPos hP (q := -q) (by rcases lt_or_gt_of_ne h0 with h1 | h1 <;> linarith) (s := ['-']) (.inr rfl)

/-! ### Lines -/

/-- No line is longer than `k`. -/
def MaxLine (k : Nat) (t : Txt) : Prop := ∀ l ∈ lines t, l.length ≤ k

theorem lines_ne_nil (t : Txt) : lines t ≠ [] := by
  cases t with
  | nil => simp [lines]
  | cons c t =>
    rw [lines]
    split
    · simp
    · split <;> simp

theorem lines_cons {c : Char} (hc : c ≠ '\n') (t : Txt) :
    ∃ l ls, lines t = l :: ls ∧ lines (c :: t) = (c :: l) :: ls := by
  obtain ⟨l, ls, h⟩ := List.exists_cons_of_ne_nil (lines_ne_nil t)
  exact ⟨l, ls, h, by rw [lines, if_neg hc, h]⟩

theorem lines_newline (s t : Txt) : lines (s ++ '\n' :: t) = lines s ++ lines t := by
  induction s with
  | nil => simp [lines]
  | cons c s ih =>
    by_cases hc : c = '\n'
    · subst hc
      rw [List.cons_append, lines, if_pos rfl, lines, if_pos rfl, ih]
      rfl
    · obtain ⟨l, ls, h1, h2⟩ := lines_cons hc s
      rw [List.cons_append, lines, if_neg hc, ih, h1, h2]
      rfl

theorem lines_plain {t : Txt} (h : '\n' ∉ t) : lines t = [t] := by
  induction t with
  | nil => rfl
  | cons c t ih =>
    rw [lines, if_neg (by intro hc; exact h (by simp [hc])), ih fun hc => h (by simp [hc])]

theorem MaxLine.newline {k : Nat} {s t : Txt} (hs : MaxLine k s) (ht : MaxLine k t) : MaxLine k (s ++ '\n' :: t) := by
  intro l hl
  rw [lines_newline] at hl
  rcases List.mem_append.1 hl with h | h
  · exact hs l h
  · exact ht l h

theorem MaxLine.plain {k : Nat} {t : Txt} (h : '\n' ∉ t) (hl : t.length ≤ k) : MaxLine k t := by
  intro l hm
  rw [lines_plain h, List.mem_singleton] at hm
  rw [hm]; exact hl

theorem MaxLine.mono {k k' : Nat} {t : Txt} (h : MaxLine k t) (hk : k ≤ k') : MaxLine k' t :=
  fun l hl => (h l hl).trans hk

theorem lines_snoc {c : Char} (hc : c ≠ '\n') (t : Txt) :
    List.Forall₂ (fun l' l => l'.length ≤ l.length + 1) (lines (t ++ [c])) (lines t) := by
  induction t with
  | nil =>
    rw [List.nil_append, lines_plain (t := [c]) (by simp [hc.symm]), lines]
    exact .cons (by simp) .nil
  | cons d t ih =>
    by_cases hd : d = '\n'
    · subst hd
      rw [List.cons_append, lines, if_pos rfl, lines, if_pos rfl]
      exact .cons (by simp) ih
    · obtain ⟨l, ls, h1, h2⟩ := lines_cons hd t
      obtain ⟨l', ls', h1', h2'⟩ := lines_cons hd (t ++ [c])
      rw [List.cons_append, h2, h2']
      rw [h1, h1'] at ih
      cases ih with
      | cons x y => exact .cons (by simpa using x) y

theorem MaxLine.snoc {k : Nat} {c : Char} (hc : c ≠ '\n') {t : Txt} (h : MaxLine k t) : MaxLine (k + 1) (t ++ [c]) := by
  intro l hl
  obtain ⟨l0, h0, h1⟩ : ∃ l0 ∈ lines t, l.length ≤ l0.length + 1 := by
    have := lines_snoc hc t
    generalize lines (t ++ [c]) = a at *
    generalize lines t = b at *
    clear h
    induction this with
    | nil => simp at hl
    | cons x _ ih =>
      rcases List.mem_cons.1 hl with rfl | hl
      · exact ⟨_, by simp, x⟩
      · obtain ⟨l0, h0, h1⟩ := ih hl
        exact ⟨l0, by simp [h0], h1⟩
  have := h l0 h0
  omega

theorem MaxLine.swap {k : Nat} {a b a' b' : Char} (ha : a ≠ '\n') (hb : b ≠ '\n') (ha' : a' ≠ '\n') (hb' : b' ≠ '\n')
    {t : Txt} (h : MaxLine k (a :: b :: t)) : MaxLine k (a' :: b' :: t) := by
  obtain ⟨l, ls, h1, h2⟩ := lines_cons hb t
  obtain ⟨l1, ls1, h3, h4⟩ := lines_cons ha (b :: t)
  obtain ⟨l', ls', h1', h2'⟩ := lines_cons hb' t
  obtain ⟨l1', ls1', h3', h4'⟩ := lines_cons ha' (b' :: t)
  rw [h1] at h1'
  cases h1'
  rw [h2] at h3
  rw [h2'] at h3'
  cases h3
  cases h3'
  intro x hx
  rw [h4'] at hx
  rcases List.mem_cons.1 hx with rfl | hx
  · have := h (a :: b :: l) (by rw [h4]; simp)
    simpa using this
  · exact h x (by rw [h4]; simp [hx])

/-! ### Rows -/

theorem rstrip_length_le (t : Txt) : (rstrip t).length ≤ t.length := by
  unfold rstrip
  rw [List.length_reverse, ← List.length_reverse (as := t)]
  exact (List.dropWhile_sublist _).length_le

theorem rstrip_blank (t : Txt) : rstrip (t ++ [' ']) = rstrip t := by
  unfold rstrip
  rw [List.reverse_append]
  simp

theorem mem_rstrip {c : Char} {t : Txt} (h : c ∈ rstrip t) : c ∈ t := by
  unfold rstrip at h
  rw [List.mem_reverse] at h
  exact List.mem_reverse.1 ((List.dropWhile_sublist _).subset h)

/-- What the rows of the array are made of while they are laid out. -/
structure Laid (s line : Txt) : Prop where
  done : s = [] ∨ ∃ s0, s = s0 ++ ['\n'] ∧ MaxLine 73 s0
  plain : '\n' ∉ line
  short : (rstrip line).length ≤ 73

theorem Laid.all {s line : Txt} (h : Laid s line) (hl : line.length ≤ 73) : MaxLine 73 (s ++ line) := by
  rcases h.done with rfl | ⟨s0, rfl, h0⟩
  · exact .plain h.plain hl
  · rw [List.append_assoc]
    exact h0.newline (.plain h.plain hl)

theorem Laid.extend {s line w : Txt} (h : Laid s line) (hw : '\n' ∉ w) (hl : w.length ≤ 71) :
    Laid (extendLine 2 73 s line w).1 (extendLine 2 73 s line w).2 ∧ (extendLine 2 73 s line w).2.length ≤ 73 := by
  unfold extendLine
  split
  · rename_i hc
    have hlen : (List.replicate 2 ' ' ++ w).length ≤ 73 := by simp; omega
    refine ⟨⟨.inr ⟨s ++ rstrip line, by simp, ?_⟩, ?_, (rstrip_length_le _).trans hlen⟩, hlen⟩
    · rcases h.done with rfl | ⟨s0, rfl, h0⟩
      · exact .plain (fun hc => h.plain (mem_rstrip hc)) h.short
      · rw [List.append_assoc]
        exact h0.newline (.plain (fun hc => h.plain (mem_rstrip hc)) h.short)
    · intro hc
      rcases List.mem_append.1 hc with hc | hc
      · have := List.eq_of_mem_replicate hc
        revert this; decide
      · exact hw hc
  · rename_i hc
    have hlen : (line ++ w).length ≤ 73 := by
      rw [List.length_append]; omega
    refine ⟨⟨h.done, ?_, (rstrip_length_le _).trans hlen⟩, hlen⟩
    intro hc
    rcases List.mem_append.1 hc with hc | hc
    · exact h.plain hc
    · exact hw hc

theorem layRow_maxLine {s line : Txt} (ws : List Txt) (hne : ws ≠ []) (hws : ∀ w ∈ ws, '\n' ∉ w ∧ w.length ≤ 71)
    (h : Laid s line) : MaxLine 73 (layRow s line ws) := by
  induction ws generalizing s line with
  | nil => exact absurd rfl hne
  | cons w ws ih =>
    obtain ⟨h1, h2⟩ := h.extend (hws w (by simp)).1 (hws w (by simp)).2
    cases ws with
    | nil =>
      rw [layRow]
      exact h1.all h2
    | cons w' ws =>
      rw [layRow]
      refine ih (by simp) (fun x hx => hws x (by simp [hx])) ⟨h1.done, ?_, ?_⟩
      · intro hc
        rcases List.mem_append.1 hc with hc | hc
        · exact h1.plain hc
        · revert hc; decide
      · rw [rstrip_blank]
        exact (rstrip_length_le _).trans h2

theorem no_newline_toDigits (n : Nat) : '\n' ∉ Nat.toDigits 10 n := by
  intro h
  have := allDigits_toDigits n _ h
  revert this; decide

theorem padded_plain (w n : Nat) : '\n' ∉ padLeft w (intText (n : Int)) := by
  have h : intText (n : Int) = Nat.toDigits 10 n := by
    unfold intText
    rw [if_neg (by omega)]; rfl
  rw [h]
  intro hc
  rcases List.mem_append.1 hc with hc | hc
  · have := List.eq_of_mem_replicate hc
    revert this; decide
  · exact no_newline_toDigits n hc

theorem intText_nat (n : Nat) : intText (n : Int) = Nat.toDigits 10 n := by
  unfold intText
  rw [if_neg (by omega)]; rfl

theorem row_maxLine {summary : Bool} {w : Nat} (hw : w ≤ 71) {l : List Nat} (hne : l ≠ [])
    (hl : ∀ n ∈ l, (Nat.toDigits 10 n).length ≤ 71) {c : Char} (hc : c ≠ '\n') :
    MaxLine 74 (c :: rowText summary w (l.map fun n : Nat => (n : Int))) := by
  have hlen : ∀ n ∈ l, (padLeft w (intText (n : Int))).length ≤ 71 := by
    intro n hn
    unfold padLeft
    rw [intText_nat]
    have := hl n hn
    simp only [List.length_append, List.length_replicate]
    omega
  obtain ⟨ws, hws, hwne, hink, hok⟩ : ∃ ws : List Txt,
      rowText summary w (l.map fun n : Nat => (n : Int)) = '[' :: (layRow [] [' ', ' '] ws).drop 2 ++ [']'] ∧ ws ≠ [] ∧
      (∀ W ∈ ws, ∃ x ∈ W, x ≠ ' ') ∧ ∀ W ∈ ws, '\n' ∉ W ∧ W.length ≤ 71 := by
    unfold rowText edges
    simp only [List.length_map]
    by_cases hs : summary = true ∧ 6 < l.length
    · simp only [if_pos hs]
      refine ⟨_, rfl, by simp, ?_, ?_⟩
      · intro W hW
        rw [← List.map_take, ← List.map_drop, List.map_map, List.map_map] at hW
        simp only [List.mem_append, List.mem_map, List.mem_singleton] at hW
        rcases hW with (⟨n, _, rfl⟩ | rfl) | ⟨n, _, rfl⟩
        · exact padded_inked w n
        · exact ⟨'.', by simp, by decide⟩
        · exact padded_inked w n
      · intro W hW
        rw [← List.map_take, ← List.map_drop, List.map_map, List.map_map] at hW
        simp only [List.mem_append, List.mem_map, List.mem_singleton] at hW
        rcases hW with (⟨n, hn, rfl⟩ | rfl) | ⟨n, hn, rfl⟩
        · exact ⟨padded_plain w n, hlen n (List.mem_of_mem_take hn)⟩
        · exact ⟨by decide, by decide⟩
        · exact ⟨padded_plain w n, hlen n (List.mem_of_mem_drop hn)⟩
    · simp only [if_neg hs]
      refine ⟨_, rfl, by simpa using hne, ?_, ?_⟩
      · intro W hW
        simp only [List.map_nil, List.nil_append, List.map_map, List.mem_map] at hW
        obtain ⟨n, _, rfl⟩ := hW
        exact padded_inked w n
      · intro W hW
        simp only [List.map_nil, List.nil_append, List.map_map, List.mem_map] at hW
        obtain ⟨n, hn, rfl⟩ := hW
        exact ⟨padded_plain w n, hlen n hn⟩
  obtain ⟨t, ht⟩ := layRow_fresh (s := []) (line := [' ', ' ']) ws hink (.inr ⟨rfl, [], rfl, .inl rfl⟩)
  have h1 := layRow_maxLine (s := []) (line := [' ', ' ']) ws hwne hok ⟨.inl rfl, by decide, by decide⟩
  rw [ht] at h1
  rw [hws, ht]
  have h2 := h1.swap (by decide) (by decide) hc (show '[' ≠ '\n' by decide)
  exact h2.snoc (by decide)

theorem foldl_max_nat {l : List Nat} : ∀ {a k : Nat}, a ≤ k → (∀ x ∈ l, x ≤ k) → l.foldl max a ≤ k := by
  induction l with
  | nil => intro a k ha _; exact ha
  | cons x l ih => intro a k ha h; exact ih (max_le ha (h x (by simp))) fun y hy => h y (by simp [hy])

theorem le_foldl_max_start {l : List Nat} : ∀ {a : Nat}, a ≤ l.foldl max a ∧ ∀ x ∈ l, x ≤ l.foldl max a := by
  induction l with
  | nil => intro a; simp
  | cons y l ih =>
    intro a
    obtain ⟨h1, h2⟩ := ih (a := max a y)
    refine ⟨le_trans (le_max_left _ _) h1, ?_⟩
    intro x hx
    rcases List.mem_cons.1 hx with rfl | hx
    · exact le_trans (le_max_right _ _) h1
    · exact h2 x hx

theorem shown_subset {summary : Bool} {l : List Int} {z : Int} (h : z ∈ shown summary l) : z ∈ l := by
  unfold shown edges at h
  split at h
  · rcases List.mem_append.1 h with h | h
    · exact List.mem_of_mem_take h
    · exact List.mem_of_mem_drop h
  · simpa using h

theorem showPath_maxLine {a b : List Nat} (ha : a ≠ []) (hb : b ≠ [])
    (hl : ∀ n ∈ a ++ b, (Nat.toDigits 10 n).length ≤ 71) :
    MaxLine 75 (showPath (a.map fun n : Nat => (n : Int)) (b.map fun n : Nat => (n : Int))) := by
  unfold showPath
  rw [if_neg (by simpa using ha)]
  simp only
  generalize hs : decide (1000 < _) = summary
  generalize hw : List.foldl max 0 _ = w
  have hw71 : w ≤ 71 := by
    rw [← hw]
    apply foldl_max_nat (by omega)
    intro x hx
    obtain ⟨z, hz, rfl⟩ := List.mem_map.1 hx
    have : z ∈ (a ++ b).map fun n : Nat => (n : Int) := by
      rw [List.map_append]
      rcases List.mem_append.1 hz with hz | hz
      · exact List.mem_append_left _ (shown_subset hz)
      · exact List.mem_append_right _ (shown_subset hz)
    obtain ⟨n, hn, rfl⟩ := List.mem_map.1 this
    rw [intText_nat]
    exact hl n hn
  have h1 : MaxLine 75 ('[' :: rowText summary w (a.map fun n : Nat => (n : Int))) :=
    (row_maxLine hw71 ha (fun n hn => hl n (by simp [hn])) (by decide)).mono (by omega)
  have h2 : MaxLine 75 (' ' :: rowText summary w (b.map fun n : Nat => (n : Int)) ++ [']']) :=
    (row_maxLine hw71 hb (fun n hn => hl n (by simp [hn])) (by decide)).snoc (by decide)
  have := h1.newline h2
  simpa using this

/-! ### Short paths -/

theorem layRow_fits {s line : Txt} {w : Nat} (ws : List Txt) (hne : ws ≠ []) (hw : ∀ x ∈ ws, x.length = w)
    (hl : line.length + ws.length * (w + 1) ≤ 74) : layRow s line ws = s ++ line ++ List.intercalate [' '] ws := by
  induction ws generalizing line with
  | nil => exact absurd rfl hne
  | cons x ws ih =>
    have hx := hw x (by simp)
    have e : extendLine 2 73 s line x = (s, line ++ x) := by
      unfold extendLine
      rw [if_neg]
      intro hc
      rw [List.length_cons, Nat.add_mul] at hl
      omega
    cases ws with
    | nil =>
      rw [layRow, e]
      simp
    | cons y ws =>
      rw [layRow, e, ih (by simp) (fun z hz => hw z (by simp [hz]))]
      · simp only [List.intercalate_cons_cons, List.append_assoc]
      · rw [List.length_cons, Nat.add_mul] at hl
        simp only [List.length_append, List.length_singleton]
        omega

theorem rowText_fits {w : Nat} {l : List Nat} (hne : l ≠ []) (hw : ∀ n ∈ l, (Nat.toDigits 10 n).length ≤ w)
    (hfit : l.length * (w + 1) ≤ 72) :
    rowText false w (l.map fun n : Nat => (n : Int)) = '[' :: columns w l ++ [']'] := by
  unfold rowText edges
  simp only [Bool.false_eq_true, false_and, if_false, List.map_nil, List.nil_append, List.map_map]
  rw [layRow_fits (w := w) _ (by simpa using hne)]
  · simp only [List.nil_append, List.cons_append, List.drop_succ_cons, List.drop_zero]
    unfold columns
    congr 3
  · intro x hx
    obtain ⟨n, hn, rfl⟩ := List.mem_map.1 hx
    have := hw n hn
    simp only [Function.comp, padLeft, intText_nat, List.length_append, List.length_replicate]
    omega
  · simp only [List.length_map, List.length_cons, List.length_nil]
    omega

theorem showPath_fits {a b : List Nat} (ha : a ≠ []) (hl : a.length = b.length) {w : Nat} (hw : Widest w (a ++ b))
    (h500 : a.length ≤ 500) (hfit : a.length * (w + 1) ≤ 72) :
    showPath (a.map fun n : Nat => (n : Int)) (b.map fun n : Nat => (n : Int)) = boxed w a b := by
  have hb : b ≠ [] := by
    intro h
    rw [h] at hl
    exact ha (List.length_eq_zero_iff.1 hl)
  unfold showPath
  rw [if_neg (by simpa using ha)]
  simp only [List.length_map]
  have hs : decide (1000 < a.length + b.length) = false := by simp; omega
  rw [hs]
  have hsh : ∀ l : List Int, shown false l = l := by intro l; simp [shown, edges]
  have hwd : ((shown false (a.map fun n : Nat => (n : Int)) ++ shown false (b.map fun n : Nat => (n : Int))).map
      fun z => (intText z).length).foldl max 0 = w := by
    rw [hsh, hsh, ← List.map_append, List.map_map]
    apply _root_.le_antisymm
    · apply foldl_max_nat (by omega)
      intro x hx
      obtain ⟨n, hn, rfl⟩ := List.mem_map.1 hx
      simp only [Function.comp, intText_nat]
      exact hw.1 n hn
    · obtain ⟨n, hn, he⟩ := hw.2
      rw [← he]
      apply (le_foldl_max_start (a := 0)).2
      exact List.mem_map.2 ⟨n, hn, by simp only [Function.comp, intText_nat]⟩
  rw [hwd, rowText_fits ha (fun n hn => hw.1 n (by simp [hn])) hfit,
    rowText_fits hb (fun n hn => hw.1 n (by simp [hn])) (by rw [← hl]; exact hfit)]
  have e1 : "[[".toList = ['[', '['] := by decide +kernel
  have e2 : "]\n [".toList = [']', '\n', ' ', '['] := by decide +kernel
  have e3 : "]]".toList = [']', ']'] := by decide +kernel
  unfold boxed
  rw [e1, e2, e3]
  simp

theorem toDigits_length_le {n k : Nat} (hk : 0 < k) (h : n < 10 ^ k) : (Nat.toDigits 10 n).length ≤ k := by
  induction k generalizing n with
  | zero => omega
  | succ k ih =>
    rcases Nat.lt_or_ge n 10 with h10 | h10
    · rw [Nat.toDigits_of_lt_base h10]; simp
    · rw [Nat.toDigits_of_base_le (by omega) h10, List.length_append]
      have : n / 10 < 10 ^ k := by
        rw [Nat.div_lt_iff_lt_mul (by omega)]
        rw [pow_succ] at h; exact h
      have hk' : 0 < k := by
        rcases Nat.eq_zero_or_pos k with rfl | h'
        · simp at h; omega
        · exact h'
      have := ih hk' this
      simp; omega

/-! ### The console script -/

/-- **C48** The layout of what the console script prints: scientific notation exactly for numbers shown below 0.0001 or not
below 10000; numerals without superfluous zeros or point; no line of the array is longer than 75 characters; and a path whose rows fit in a line is printed as two
bracketed lines of right-aligned columns of one width. -/
theorem C48_layout {Q R : List (List F64)} {s : String} {q r : Nd} {n m : Nat} {L : Nat → Nat → F64}
    {out : String} (hq : genfromtxt Q = .ok q) (hr : genfromtxt R = .ok r)
    (hp : Problem (cliCall euclid q r s) n m L (fun _ _ => true) p rs)
    (ho : main2 A pyText euclid Q R s = .ok out) :
    ∃ (al : Result) (mp : Mapping) (i1 i2 : List Nat) (tn td tp : Txt),
      dtw A (cliCall euclid q r s) = .ok al ∧ al.mapping = some mp ∧
      mp.index1 = i1.map (fun k : Nat => (k : Int)) ∧ mp.index2 = i2.map (fun k : Nat => (k : Int)) ∧
      out.toList = "Normalized distance: ".toList ++ tn ++ "\n\nDistance: ".toList ++ td ++
        "\n\nWarping path: ".toList ++ tp ++ "\n\n".toList ∧
      Notation 4 tn ∧ Notation 4 td ∧
      (∀ q, al.normalizedDistance = fin q → Tidy tn) ∧ (∀ q, al.distance = fin q → Tidy td) ∧
      (∀ l ∈ lines tp, l.length ≤ 75) ∧
      (∀ w, Widest w (i1 ++ i2) → i1.length ≤ 500 → i1.length * (w + 1) ≤ 72 → tp = boxed w i1 i2) := by
  obtain ⟨-, -, h3, h4⟩ := C48_reports (A := A) (T := pyText) (euclid := euclid) Q R s
  cases hd : dtw A (cliCall euclid q r s) with
  | error e => rw [h3 q r e hq hr hd] at ho; cases ho
  | ok al =>
    obtain ⟨mp, hmp, hm⟩ := h4 q r al hq hr hd
    rw [ho] at hm
    cases hm
    have h5 := C05_monotone_in_range hp rfl hd hmp
    have h6 := C04_end_points hp rfl hd hmp
    have cast : ∀ (l : List Int) (k : Nat), (∀ x ∈ l, 0 ≤ x ∧ x < k) → l = (l.map Int.toNat).map (fun k : Nat => (k : Int)) := by
      intro l k hl
      rw [List.map_map]
      conv_lhs => rw [← List.map_id l]
      apply List.map_congr_left
      intro x hx
      have := hl x hx
      simp only [id, Function.comp_apply]; omega
    have c1 := cast _ _ h5.2.2.1
    have c2 := cast _ _ h5.2.2.2.1
    have hcells : n * m < 2147483648 := by
      have := hp.fits.cells
      rwa [show gridRows (cliCall euclid q r s) n = n from rfl] at this
    have hn : n < 10 ^ 71 := by
      have : n * 1 ≤ n * m := Nat.mul_le_mul_left _ hp.m_pos
      have h10 : 2147483648 ≤ 10 ^ 71 := by norm_num
      omega
    have hm : m < 10 ^ 71 := by
      have : 1 * m ≤ n * m := Nat.mul_le_mul_right _ hp.n_pos
      have h10 : 2147483648 ≤ 10 ^ 71 := by norm_num
      omega
    have hne : mp.index1.map Int.toNat ≠ [] := by
      intro h
      rw [List.map_eq_nil_iff] at h
      rw [h] at h6
      simp at h6
    have hlen : (mp.index1.map Int.toNat).length = (mp.index2.map Int.toNat).length := by simp [h5.1]
    have hne2 : mp.index2.map Int.toNat ≠ [] := by
      intro h
      rw [h] at hlen
      exact hne (List.length_eq_zero_iff.1 hlen)
    have nt : ∀ x, Notation 4 (fmtG 4 x) := by
      intro x
      cases x with
      | fin q => exact notation_fmtG (by omega) q
      | nan => intro v hv; revert hv; decide +revert
      | pinf => intro v hv; revert hv; decide +revert
      | ninf => intro v hv; revert hv; decide +revert
    refine ⟨al, mp, mp.index1.map Int.toNat, mp.index2.map Int.toNat, fmtG 4 al.normalizedDistance, fmtG 4 al.distance,
      showPath mp.index1 mp.index2, rfl, hmp, c1, c2, ?_, nt _, nt _,
      fun q hq => hq ▸ tidy_fmtG (by omega) q, fun q hq => hq ▸ tidy_fmtG (by omega) q, ?_, ?_⟩
    · rw [report_toList]
      have f1 : ∀ x, (pyText.fmt4g x).toList = fmtG 4 x := fun x => String.toList_ofList
      have f2 : ∀ a b, (pyText.showPath a b).toList = showPath a b := fun a b => String.toList_ofList
      rw [f1, f1, f2]
    · conv => intro l; rw [c1, c2]
      apply showPath_maxLine hne hne2
      intro k hk
      apply toDigits_length_le (by omega)
      rcases List.mem_append.1 hk with hk | hk
      · obtain ⟨z, hz, rfl⟩ := List.mem_map.1 hk
        have := h5.2.2.1 z hz
        omega
      · obtain ⟨z, hz, rfl⟩ := List.mem_map.1 hk
        have := h5.2.2.2.1 z hz
        omega
    · intro w hw h500 hfit
      conv_lhs => rw [c1, c2]
      exact showPath_fits hne hlen hw h500 hfit

/-- The longest path of two-digit indices that fits: 24 points, lines of 75 characters (the second with both brackets);
25 points are wrapped. -/
example :
    (lines (showPath ((List.range 24).map fun n : Nat => (n : Int)) ((List.range 24).map fun n : Nat => (n : Int)))).map
      List.length = [74, 75] ∧
    (lines (showPath ((List.range 25).map fun n : Nat => (n : Int)) ((List.range 25).map fun n : Nat => (n : Int)))).map
      List.length = [73, 5, 73, 6] ∧
    Widest 2 (List.range 24 ++ List.range 24) ∧ (List.range 24).length * (2 + 1) ≤ 72 :=
  ⟨by decide +kernel, by decide +kernel, ⟨by decide, 23, by decide, by decide⟩, by decide⟩

/-- The two notations. -/
example : [fin (1 / 10000), fin (99994 / 1000000000), fin (999949999 / 100000), fin 10000].map (fun x => String.ofList (fmtG 4 x)) =
    ["0.0001", "9.999e-05", "9999", "1e+04"] := by decide +kernel

end DTW
