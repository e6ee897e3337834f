import Verif.Proofs.TextFileProof
import Verif.Props.Doubles
import Verif.Props.Cli
import Verif.Props.Texts
import Verif.Props.Barriers
import Verif.Props.Witnesses

/-!
# C64: the console script reads its files as they are written
-/

namespace DTW
open F64 Read

variable {T : Text} {euclid : List F64 → List F64 → F64} {s : String} {f : Bool}

/-! ### Reading back doubles -/

/-- Two different doubles differ by more than 2^-53 of their size. -/
theorem doubles_apart {x w : ℚ} (hx : IsDouble x) (hw : IsDouble w) (hne : w ≠ x) : |x| / 2 ^ 53 ≤ |w - x| := by
  obtain ⟨k, e, hk, _, rfl, _⟩ := hx
  obtain ⟨l, g, hl, _, rfl, _⟩ := hw
  have he := two_zpow_pos e
  have hg := two_zpow_pos g
  have hk' : (|k| : ℚ) ≤ 2 ^ 53 - 1 := by
    have : |k| ≤ 2 ^ 53 - 1 := by omega
    exact_mod_cast this
  have hl' : (|l| : ℚ) ≤ 2 ^ 53 - 1 := by
    have : |l| ≤ 2 ^ 53 - 1 := by omega
    exact_mod_cast this
  rcases le_total e g with h | h
  · obtain ⟨d, hd⟩ := Int.eq_ofNat_of_zero_le (sub_nonneg.2 h)
    have e1 : (2 : ℚ) ^ g = 2 ^ d * 2 ^ e := by
      rw [← zpow_natCast, ← zpow_add₀ (by norm_num)]
      congr 1
      have : (Int.ofNat d) = (d : ℤ) := rfl
      omega
    have e2 : (l : ℚ) * 2 ^ g - k * 2 ^ e = ((l * 2 ^ d - k : ℤ) : ℚ) * 2 ^ e := by rw [e1]; push_cast; ring
    have hz : l * 2 ^ d - k ≠ 0 := by
      intro h0
      rw [h0] at e2
      apply hne
      have : (l : ℚ) * 2 ^ g - k * 2 ^ e = 0 := by simpa using e2
      linarith
    have h1 : (1 : ℚ) ≤ |((l * 2 ^ d - k : ℤ) : ℚ)| := by
      have := Int.one_le_abs hz
      exact_mod_cast this
    rw [e2, abs_mul, abs_mul, abs_of_pos he, div_le_iff₀ (by positivity)]
    nlinarith
  · obtain ⟨d, hd⟩ := Int.eq_ofNat_of_zero_le (sub_nonneg.2 h)
    have e1 : (2 : ℚ) ^ e = 2 ^ d * 2 ^ g := by
      rw [← zpow_natCast, ← zpow_add₀ (by norm_num)]
      congr 1
      have : (Int.ofNat d) = (d : ℤ) := rfl
      omega
    have e2 : (l : ℚ) * 2 ^ g - k * 2 ^ e = ((l - k * 2 ^ d : ℤ) : ℚ) * 2 ^ g := by rw [e1]; push_cast; ring
    have hz : l - k * 2 ^ d ≠ 0 := by
      intro h0
      rw [h0] at e2
      apply hne
      have : (l : ℚ) * 2 ^ g - k * 2 ^ e = 0 := by simpa using e2
      linarith
    have h1 : (1 : ℚ) ≤ |((l - k * 2 ^ d : ℤ) : ℚ)| := by
      have := Int.one_le_abs hz
      exact_mod_cast this
    have h2 : (2 : ℚ) ^ g ≤ |(l : ℚ) * 2 ^ g - k * 2 ^ e| := by
      rw [e2, abs_mul, abs_of_pos hg]
      nlinarith
    have h3 : |(l : ℚ) * 2 ^ g| ≤ (2 ^ 53 - 1) * 2 ^ g := by
      rw [abs_mul, abs_of_pos hg]
      exact mul_le_mul_of_nonneg_right hl' hg.le
    have h4 : |(k : ℚ) * 2 ^ e| ≤ |(l : ℚ) * 2 ^ g| + |(l : ℚ) * 2 ^ g - k * 2 ^ e| := by
      have := abs_sub_abs_le_abs_sub ((k : ℚ) * 2 ^ e) (l * 2 ^ g)
      rw [abs_sub_comm] at this
      linarith
    rw [div_le_iff₀ (by positivity)]
    generalize |(l : ℚ) * 2 ^ g - k * 2 ^ e| = D at *
    generalize |(k : ℚ) * 2 ^ e| = X at *
    generalize |(l : ℚ) * 2 ^ g| = Y at *
    linarith

/-- The largest double. -/
theorem double_le {x : ℚ} (hx : IsDouble x) : |x| ≤ (2 ^ 53 - 1) * 2 ^ (971 : ℤ) := by
  obtain ⟨k, e, hk, _, rfl, hlt⟩ := hx
  have he := two_zpow_pos e
  rw [abs_mul, abs_of_pos he] at hlt ⊢
  have hk' : (|k| : ℚ) ≤ 2 ^ 53 - 1 := by
    have : |k| ≤ 2 ^ 53 - 1 := by omega
    exact_mod_cast this
  rcases le_total e 971 with h | h
  · exact mul_le_mul hk' (two_zpow_le h) he.le (by norm_num)
  · obtain ⟨d, hd⟩ := Int.eq_ofNat_of_zero_le (sub_nonneg.2 h)
    have e1 : (2 : ℚ) ^ e = 2 ^ d * 2 ^ (971 : ℤ) := by
      rw [← zpow_natCast, ← zpow_add₀ (by norm_num)]
      congr 1
      have : (Int.ofNat d) = (d : ℤ) := rfl
      omega
    have e3 : (2 : ℚ) ^ (1024 : ℤ) = 2 ^ 53 * 2 ^ (971 : ℤ) := by
      rw [← zpow_natCast, ← zpow_add₀ (by norm_num)]
      norm_num
    have hp := two_zpow_pos 971
    rw [e1, e3] at hlt
    rw [e1]
    generalize (2 : ℚ) ^ (971 : ℤ) = Z at *
    rw [← mul_assoc] at hlt ⊢
    have h1 : (|k| : ℚ) * 2 ^ d < 2 ^ 53 := lt_of_mul_lt_mul_right hlt hp.le
    have h2 : |k| * 2 ^ d < 2 ^ 53 := by exact_mod_cast h1
    have h3 : |k| * 2 ^ d ≤ 2 ^ 53 - 1 := by omega
    have h4 : (|k| : ℚ) * 2 ^ d ≤ 2 ^ 53 - 1 := by exact_mod_cast h3
    exact mul_le_mul_of_nonneg_right h4 hp.le

/-- What is nearer to a double than a part in 2·10^16 is rounded to it. -/
theorem rnd64_near {x v : ℚ} (hx : IsDouble x) (h : |v - x| ≤ |x| / (2 * 10 ^ 16)) : rnd64 v = fin x := by
  obtain ⟨h1, h2, h3⟩ := C49_nearest v
  have hM := double_le hx
  have hsmall : |v - x| < 1 / 2 * 2 ^ (971 : ℤ) := by
    have hp := two_zpow_pos 971
    generalize (2 : ℚ) ^ (971 : ℤ) = Z at *
    have : |x| / (2 * 10 ^ 16) ≤ (2 ^ 53 - 1) * Z / (2 * 10 ^ 16) := div_le_div_of_nonneg_right hM (by norm_num)
    have : (2 ^ 53 - 1) * Z / (2 * 10 ^ 16) < 1 / 2 * Z := by
      rw [div_lt_iff₀ (by norm_num)]
      nlinarith
    linarith
  have hv : |v| < (2 ^ 53 - 1 / 2) * 2 ^ (971 : ℤ) := by
    have h4 : |v| ≤ |v - x| + |x| := by
      have := abs_add_le (v - x) x
      simpa using this
    generalize (2 : ℚ) ^ (971 : ℤ) = Z at *
    linarith
  cases hr : rnd64 v with
  | nan => exact absurd hr ((binary64 false).rnd_ne_nan v)
  | pinf => exact absurd (h2.1 hr) (not_le.2 (lt_of_le_of_lt (le_abs_self v) hv))
  | ninf =>
    have := h3.1 hr
    have h5 := neg_abs_le v
    generalize (2 : ℚ) ^ (971 : ℤ) = Z at *
    exfalso; linarith
  | fin y =>
    obtain ⟨hy, hn⟩ := h1 y hr
    by_contra hne
    have hyx : y ≠ x := fun e => hne (by rw [e])
    have h6 := doubles_apart hx hy hyx
    have h7 := hn x hx
    have h8 : |y - x| ≤ |y - v| + |v - x| := by
      have := abs_add_le (y - v) (v - x)
      simpa using this
    rw [abs_sub_comm x v] at h7
    have h9 : 0 < |x| := by
      rcases (abs_nonneg x).eq_or_lt with h0 | h0
      · rw [← h0] at h
        have hv0 : |v - x| ≤ 0 := by simpa using h
        have hyx0 : |y - x| ≤ 0 := by linarith
        exact absurd (sub_eq_zero.1 (abs_nonpos_iff.1 hyx0)) hyx
      · exact h0
    have h10 : 2 * (|x| / (2 * 10 ^ 16)) < |x| / 2 ^ 53 := by
      rw [lt_div_iff₀ (by positivity)]
      have : 2 * (|x| / (2 * 10 ^ 16)) * 2 ^ 53 = |x| * (2 ^ 53 / 10 ^ 16) := by ring
      rw [this]
      have : (2 : ℚ) ^ 53 / 10 ^ 16 < 1 := by norm_num
      nlinarith
    linarith

theorem rnd64_neg (q : ℚ) : rnd64 (-q) = (rnd64 q).neg := by
  rcases lt_trichotomy q 0 with h | h | h
  · have h' : 0 < -q := by linarith
    have e : ∀ x : F64, x.neg.neg = x := by intro x; cases x <;> simp [F64.neg]
    simp only [rnd64, h, h', if_true, not_lt.2 h.le, if_false, e]
  · subst h; simp [rnd64, F64.neg]
  · have h' : -q < 0 := by linarith
    simp only [rnd64, h, h', if_true, not_lt.2 h'.le, if_false, neg_neg]

/-- **C64**, numbers.  A decimal numeral is read as the double nearest to it. -/
theorem C64_numbers {t : Txt} {q : ℚ} (h : Numeral t q) : field (binary64 f) t = (binary64 f).rnd q := by
  unfold field
  rw [pyFloat_numeral _ (fun q => rnd64_neg q) h]
  rfl

/-- **C64**, round trip.  A double written with at least 17 significant digits (the nearest decimal, in any notation) is
read back unchanged. -/
theorem C64_round_trip {t : Txt} {x v : ℚ} {P : Nat} (hx : IsDouble x) (hP : 17 ≤ P) (hv : NearestDecimal P x v)
    (h : Numeral t v) : field (binary64 f) t = fin x := by
  rw [C64_numbers h]
  apply rnd64_near hx
  refine (hv.2 _ (shownVal_nearest (by omega) x).1).trans ((shownVal_error (by omega) x).trans ?_)
  apply div_le_div_of_nonneg_left (abs_nonneg x) (by norm_num)
  have : (10 : ℚ) ^ 16 ≤ 10 ^ (P - 1) := pow_le_pow_right₀ (by norm_num) (by omega)
  linarith

/-! ### Python's own texts -/

/-- A text read as a whole number or decimal fraction, that does not end in a sign, is a numeral. -/
theorem numeral_of_unsigned {t : Txt} {q : ℚ} (h : Read.unsigned t = some (q, [])) (hl : ∀ c ∈ t.getLast?, c.isDigit = true) :
    Numeral t q ∧ ∀ c ∈ t.head?, c.isDigit = true ∨ c = '.' := by
  have split : ∀ u : Txt, u = digits u ++ afterDigits u := fun u => (List.takeWhile_append_dropWhile).symm
  have only : ∀ u : Txt, OnlyDigits (digits u) := fun u c hc => by
    have := List.all_takeWhile (p := Char.isDigit) (l := u)
    exact List.all_eq_true.1 this c hc
  unfold Read.unsigned at h
  cases hn : Read.nat t with
  | none => rw [hn] at h; cases h
  | some x =>
    obtain ⟨n, t1⟩ := x
    rw [hn] at h
    unfold Read.nat at hn
    split at hn
    · cases hn
    · rename_i hne
      simp only [Option.some.injEq, Prod.mk.injEq] at hn
      obtain ⟨rfl, rfl⟩ := hn
      have ht := split t
      have hi := only t
      generalize digits t = i at *
      generalize afterDigits t = t1 at *
      subst ht
      have hhead : ∀ c ∈ (i ++ t1).head?, c.isDigit = true ∨ c = '.' := by
        intro c hc
        cases i with
        | nil => exact absurd rfl hne
        | cons d i => simp at hc; subst hc; exact .inl (hi d (by simp))
      refine ⟨?_, hhead⟩
      -- the mantissa
      have hm : ∃ m t2, i ++ t1 = m ++ t2 ∧ Read.fraction t1 = ((Read.fraction t1).1, t2) ∧
          Numeral m ((natOf i : ℚ) + (Read.fraction t1).1) ∧ ∀ c ∈ m, c.isDigit = true ∨ c = '.' := by
        unfold Read.fraction
        split
        · rename_i u
          refine ⟨i ++ '.' :: digits u, afterDigits u, ?_, rfl, .point hi (only u) (by simp [hne]), ?_⟩
          · conv_lhs => rw [split u]
            simp
          · intro c hc
            simp only [List.mem_append, List.mem_cons] at hc
            rcases hc with hc | rfl | hc
            · exact .inl (hi c hc)
            · exact .inr rfl
            · exact .inl (only u c hc)
        · refine ⟨i, t1, rfl, rfl, ?_, fun c hc => .inl (hi c hc)⟩
          simpa using Numeral.plain hi hne
      obtain ⟨m, t2, e1, e2, e3, e4⟩ := hm
      simp only at h
      rw [e2] at h
      generalize (Read.fraction t1).1 = fr at *
      rw [e1] at hl ⊢
      simp only at h
      unfold Read.exponent at h
      split at h
      · rename_i u
        simp only [Option.some.injEq, Prod.mk.injEq] at h
        obtain ⟨rfl, h0⟩ := h
        have hu : u = digits u := by
          conv_lhs => rw [split u]
          rw [h0, List.append_nil]
        have hne : digits u ≠ [] := by
          intro h1
          rw [h1] at hu
          subst hu
          have := hl '+' (by simp)
          revert this; decide
        have := Numeral.expPlus e3 e4 (.inl rfl) (only u) hne
        rw [← hu] at this
        rw [zpow_natCast]
        rw [← hu]
        exact this
      · rename_i u
        simp only [Option.some.injEq, Prod.mk.injEq] at h
        obtain ⟨rfl, h0⟩ := h
        have hu : u = digits u := by
          conv_lhs => rw [split u]
          rw [h0, List.append_nil]
        have hne : digits u ≠ [] := by
          intro h1
          rw [h1] at hu
          subst hu
          have := hl '-' (by simp)
          revert this; decide
        have := Numeral.expMinus e3 e4 (.inl rfl) (only u) hne
        rw [← hu] at this
        rw [zpow_neg, zpow_natCast, ← hu, ← div_eq_mul_inv]
        exact this
      · simp only [Option.some.injEq, Prod.mk.injEq] at h
        obtain ⟨rfl, rfl⟩ := h
        simpa using e3

theorem last_append {a b : Txt} (hb : b ≠ []) (h : ∀ c ∈ b, c.isDigit = true) : ∀ c ∈ (a ++ b).getLast?, c.isDigit = true := by
  intro c hc
  rw [List.getLast?_append_of_ne_nil _ hb] at hc
  exact h c (List.mem_of_mem_getLast? hc)

theorem last_withPoint {i f : Txt} (hi : AllDigits i) (hf : AllDigits f) :
    ∀ c ∈ (withPoint i f).getLast?, c.isDigit = true := by
  unfold withPoint
  split
  · intro c hc
    exact hi c (List.mem_of_mem_getLast? hc)
  · rename_i h
    have := last_append (a := i ++ ['.']) h (stripZeros_digits hf)
    simpa using this

theorem last_fmtPos (P : Nat) (q : ℚ) : ∀ c ∈ (fmtPos P q).getLast?, c.isDigit = true := by
  have hd := digitsOf_digits P (sigExp P q).1
  unfold fmtPos
  simp only
  split
  · split
    · exact last_withPoint (allDigits_take hd _) (allDigits_drop hd _)
    · refine last_withPoint ?_ ?_
      · intro c hc; simp at hc; subst hc; decide
      · intro c hc
        rcases List.mem_append.1 hc with hc | hc
        · rw [List.eq_of_mem_replicate hc]; decide
        · exact hd c hc
  · have hne : twoDigits (Nat.toDigits 10 (sigExp P q).2.natAbs) ≠ [] := by
      intro h
      unfold twoDigits at h
      have := (List.append_eq_nil_iff.1 h).2
      exact absurd this (by
        have := Nat.length_toDigits_pos (b := 10) (n := (sigExp P q).2.natAbs)
        intro h; rw [h] at this; simp at this)
    have := last_append (a := withPoint ((digitsOf P (sigExp P q).1).take 1) ((digitsOf P (sigExp P q).1).drop 1) ++
      'e' :: (if (sigExp P q).2 < 0 then '-' else '+') :: []) hne (twoDigits_digits _)
    simpa using this

/-- What Python's `%.Pg` writes is a numeral. -/
theorem numeral_fmtG {P : Nat} (hP : 1 ≤ P) (q : ℚ) : Numeral (fmtG P (fin q)) (shownVal P q) := by
  have pos : ∀ {q : ℚ}, 0 < q → Numeral (fmtPos P q) (sigVal P q) ∧ ∀ c ∈ (fmtPos P q).head?, c.isDigit = true ∨ c = '.' := by
    intro q hq
    have := unsigned_fmtPos hP hq (rest := []) (by intro c hc; simp at hc)
    rw [List.append_nil] at this
    exact numeral_of_unsigned this (last_fmtPos P q)
  unfold fmtG shownVal
  rcases lt_trichotomy q 0 with h | h | h
  · obtain ⟨h1, h2⟩ := pos (q := -q) (by linarith)
    simp only [h.ne, not_lt.2 h.le, h, if_false, if_true]
    exact .minus h1 h2
  · subst h
    have := Numeral.plain (i := ['0']) (by intro c hc; simp at hc; subst hc; decide) (by simp)
    have e : natOf ['0'] = 0 := by decide
    rw [e] at this
    simpa using this
  · simp only [h.ne', h, if_false, if_true]
    exact (pos h).1

/-- **C64**, Python's own texts.  What `f"{x:.17g}"` (or with more digits) writes is read back as `x`, infinities and NaN
included. -/
theorem C64_python_text {P : Nat} (hP : 17 ≤ P) {x : F64} (hx : ∀ q, x = fin q → IsDouble q) :
    field (binary64 f) (fmtG P x) = x := by
  cases x with
  | nan => rfl
  | pinf => rfl
  | ninf => rfl
  | fin q => exact C64_round_trip (hx q rfl) hP (shownVal_nearest (by omega) q) (numeral_fmtG (by omega) q)

/-- **C64**, sharpness: 16 digits are not enough. -/
theorem C64_sixteen_digits : IsDouble (1000 + 1 / 2 ^ 43) ∧
    fmtG 16 (fin (1000 + 1 / 2 ^ 43)) = ['1', '0', '0', '0'] ∧
    field (binary64 f) ['1', '0', '0', '0'] = fin 1000 := by
  refine ⟨⟨1000 * 2 ^ 43 + 1, -43, by norm_num, by norm_num, ?_, ?_⟩, ?_, ?_⟩
  · rw [zpow_neg]; norm_num
  · refine lt_of_lt_of_le (b := 2 ^ (10 : ℤ)) (by norm_num [abs_lt]) (two_zpow_le (by norm_num))
  · decide +kernel
  · have := C64_numbers (f := f) (Numeral.plain (i := ['1', '0', '0', '0']) (by intro c hc; simp at hc; rcases hc with rfl | rfl <;> decide) (by simp))
    rw [this]
    have h2 : (natOf ['1', '0', '0', '0'] : ℚ) = 1000 := by decide +kernel
    rw [h2]
    refine rnd64_double (q := 1000) ⟨1000, 0, by norm_num, by norm_num, by norm_num, ?_⟩
    refine lt_of_lt_of_le (b := 2 ^ (10 : ℤ)) (by norm_num [abs_lt]) (two_zpow_le (by norm_num))

/-! ### Nothing else is a number -/

theorem digits_split (u : Txt) : u = digits u ++ afterDigits u := (List.takeWhile_append_dropWhile).symm

theorem digits_only (u : Txt) : OnlyDigits (digits u) := fun c hc =>
  List.all_eq_true.1 (List.all_takeWhile (p := Char.isDigit) (l := u)) c hc

theorem digitRun_plain {t : Txt} (h : '_' ∉ t) (b : Bool) : digitRun b t = (digits t, afterDigits t) := by
  have h1 := digitRun_append (ds := digits t) (t := afterDigits t) (digits_only t) (by
    intro c hc
    constructor
    · have : ¬ (c.isDigit = true) := by
        intro hd
        have := List.head?_dropWhile_not Char.isDigit t
        unfold afterDigits at hc
        rw [Option.mem_def] at hc
        rw [hc] at this
        simp [hd] at this
      simpa using this
    · rintro rfl
      apply h
      rw [digits_split t]
      exact List.mem_append_right _ (List.mem_of_mem_head? hc)) b
  rwa [← digits_split] at h1

theorem expDigits_some {x : Txt} {n : Nat} (h : '_' ∉ x) (he : expDigits x = some n) : OnlyDigits x ∧ x ≠ [] := by
  unfold expDigits at he
  rw [digitRun_plain h] at he
  split at he
  · cases he
  · rename_i hn
    simp only [not_or, not_not] at hn
    have e := digits_split x
    rw [hn.2, List.append_nil] at e
    refine ⟨by rw [e]; exact digits_only x, by rw [e]; exact hn.1⟩

theorem floatDigits_some {t : Txt} {q : ℚ} (h : '_' ∉ t) (hq : floatDigits t = some q) :
    Numeral t q ∧ ∀ c ∈ t.head?, c.isDigit = true ∨ c = '.' := by
  have key : ∃ q', Numeral t q' ∧ ∀ c ∈ t.head?, c.isDigit = true ∨ c = '.' := by
    unfold floatDigits at hq
    rw [digitRun_plain h] at hq
    simp only at hq
    have ht := digits_split t
    have hi := digits_only t
    generalize digits t = i at *
    generalize afterDigits t = t1 at *
    subst ht
    have h1 : '_' ∉ t1 := fun hc => h (List.mem_append_right _ hc)
    have hm : (i = [] ∧ (fracRun t1).1 = []) ∨ ∃ m q0, i ++ t1 = m ++ (fracRun t1).2 ∧ Numeral m q0 ∧ ∀ c ∈ m, c.isDigit = true ∨ c = '.' := by
      unfold fracRun
      split
      · rename_i u
        have hu : '_' ∉ u := fun hc => h1 (List.mem_cons_of_mem _ hc)
        rw [digitRun_plain hu]
        by_cases h0 : i = [] ∧ digits u = []
        · exact .inl h0
        · right
          refine ⟨i ++ '.' :: digits u, _, ?_, .point hi (digits_only u) (by
            intro hc; exact h0 (List.append_eq_nil_iff.1 hc)), ?_⟩
          · conv_lhs => rw [digits_split u]
            simp
          · intro c hc
            simp only [List.mem_append, List.mem_cons] at hc
            rcases hc with hc | rfl | hc
            · exact .inl (hi c hc)
            · exact .inr rfl
            · exact .inl (digits_only u c hc)
      · by_cases h0 : i = []
        · exact .inl ⟨h0, rfl⟩
        · exact .inr ⟨i, _, rfl, .plain hi h0, fun c hc => .inl (hi c hc)⟩
    rcases hm with hm | ⟨m, q0, e1, e2, e3⟩
    · rw [if_pos hm] at hq; cases hq
    · split at hq
      · cases hq
      · rw [Option.map_eq_some_iff] at hq
        obtain ⟨e, he, _⟩ := hq
        generalize (fracRun t1).2 = r at *
        rw [e1] at h ⊢
        have hr : '_' ∉ r := fun hc => h (List.mem_append_right _ hc)
        have hhead : ∀ c ∈ (m ++ r).head?, c.isDigit = true ∨ c = '.' := by
          obtain ⟨c, u, rfl, _⟩ := e2.head
          intro d hd
          simp at hd; subst hd
          exact e3 _ (by simp)
        unfold expRun at he
        split at he
        · exact ⟨q0, by simpa using e2, hhead⟩
        · rename_i c u
          split at he
          · rename_i hce
            have hu : '_' ∉ u := fun hc => hr (List.mem_cons_of_mem _ hc)
            split at he
            · rename_i v
              rw [Option.map_eq_some_iff] at he
              obtain ⟨n, hn, _⟩ := he
              obtain ⟨a, b⟩ := expDigits_some (fun hc => hu (List.mem_cons_of_mem _ hc)) hn
              exact ⟨_, .expPlus e2 e3 hce a b, hhead⟩
            · rename_i v
              rw [Option.map_eq_some_iff] at he
              obtain ⟨n, hn, _⟩ := he
              obtain ⟨a, b⟩ := expDigits_some (fun hc => hu (List.mem_cons_of_mem _ hc)) hn
              exact ⟨_, .expMinus e2 e3 hce a b, hhead⟩
            · rw [Option.map_eq_some_iff] at he
              obtain ⟨n, hn, _⟩ := he
              obtain ⟨a, b⟩ := expDigits_some hu hn
              exact ⟨_, .exp e2 e3 hce a b, hhead⟩
          · cases he
  obtain ⟨q', h1, h2⟩ := key
  have := floatDigits_numeral h1 (by
    intro c hc
    rcases h2 c hc with h | rfl
    · constructor <;> rintro rfl <;> revert h <;> decide
    · decide)
  rw [hq] at this
  cases this
  exact ⟨h1, h2⟩

/-- The words for infinities and NaN, in any case. -/
def Unsigned (w : Txt) (x : F64) : Prop :=
  (w.map Char.toLower = "inf".toList ∧ x = pinf) ∨ (w.map Char.toLower = "infinity".toList ∧ x = pinf) ∨
  (w.map Char.toLower = "nan".toList ∧ x = nan)

/-- With or without a sign. -/
def Special (w : Txt) (x : F64) : Prop :=
  Unsigned w x ∨ (∃ u, w = '+' :: u ∧ Unsigned u x) ∨ ∃ u y, w = '-' :: u ∧ Unsigned u y ∧ x = y.neg

theorem floatUnsigned_some {A : Arith} {t : Txt} {x : F64} (h : '_' ∉ t) (hx : floatUnsigned A t = some x) :
    Unsigned t x ∨ ∃ q, Numeral t q ∧ (∀ c ∈ t.head?, c.isDigit = true ∨ c = '.') ∧ x = A.rnd q := by
  unfold floatUnsigned at hx
  simp only at hx
  split at hx
  · rename_i h1
    cases hx
    rcases h1 with h1 | h1
    · exact .inl (.inl ⟨h1, rfl⟩)
    · exact .inl (.inr (.inl ⟨h1, rfl⟩))
  · split at hx
    · rename_i h1
      cases hx
      exact .inl (.inr (.inr ⟨h1, rfl⟩))
    · rw [Option.map_eq_some_iff] at hx
      obtain ⟨q, hq, rfl⟩ := hx
      obtain ⟨a, b⟩ := floatDigits_some h hq
      exact .inr ⟨q, a, b, rfl⟩

/-- **C64**, nothing else is a number: a word (without underscores) that is neither a decimal numeral nor one of the words
for infinities and NaN is read as NaN, silently. -/
theorem C64_only_numerals {w : Txt} (h : '_' ∉ w) :
    (∃ q, Numeral w q ∧ field (binary64 f) w = (binary64 f).rnd q) ∨ Special w (field (binary64 f) w) ∨
    ((∀ q, ¬ Numeral w q) ∧ field (binary64 f) w = nan) := by
  cases hw : pyFloat (binary64 f) w with
  | none =>
    refine .inr (.inr ⟨fun q hq => ?_, by unfold field; rw [hw]; rfl⟩)
    rw [pyFloat_numeral _ (fun q => rnd64_neg q) hq] at hw
    cases hw
  | some x =>
    have hf : field (binary64 f) w = x := by unfold field; rw [hw]; rfl
    rw [hf]
    unfold pyFloat at hw
    split at hw
    · rename_i u
      rw [Option.map_eq_some_iff] at hw
      obtain ⟨y, hy, rfl⟩ := hw
      rcases floatUnsigned_some (fun hc => h (List.mem_cons_of_mem _ hc)) hy with h1 | ⟨q, h1, h2, rfl⟩
      · exact .inr (.inl (.inr (.inr ⟨u, y, rfl, h1, rfl⟩)))
      · exact .inl ⟨-q, .minus h1 h2, (rnd64_neg q).symm⟩
    · rename_i u
      rcases floatUnsigned_some (fun hc => h (List.mem_cons_of_mem _ hc)) hw with h1 | ⟨q, h1, h2, rfl⟩
      · exact .inr (.inl (.inr (.inl ⟨u, rfl, h1⟩)))
      · exact .inl ⟨q, .plus h1 h2, rfl⟩
    · rcases floatUnsigned_some h hw with h1 | ⟨q, h1, h2, rfl⟩
      · exact .inr (.inl (.inl h1))
      · exact .inl ⟨q, h1, rfl⟩

/-! ### Files -/

/-- The word `w` is the number `x`, written with `P` significant digits. -/
def Written (P : Nat) (w : Txt) : F64 → Prop
  | fin q => IsDouble q ∧ ∃ v, NearestDecimal P q v ∧ Numeral w v
  | x => Special w x

/-- The text `t` holds the table `rows`, every number with `P` digits. -/
def SavedTable (P : Nat) (t : Txt) (rows : List (List F64)) : Prop :=
  ∃ words, File words t ∧ List.Forall₂ (List.Forall₂ (Written P)) (words.filter fun r => r ≠ []) rows

theorem unsigned_special {A : Arith} {w : Txt} {x : F64} (h : Unsigned w x) : floatUnsigned A w = some x := by
  unfold floatUnsigned
  rcases h with ⟨h, rfl⟩ | ⟨h, rfl⟩ | ⟨h, rfl⟩ <;> simp only [h] <;> rfl

theorem unsigned_head {w : Txt} {x : F64} (h : Unsigned w x) : ∃ c u, w = c :: u ∧ c ≠ '-' ∧ c ≠ '+' := by
  cases w with
  | nil => rcases h with ⟨h, _⟩ | ⟨h, _⟩ | ⟨h, _⟩ <;> cases h
  | cons c u =>
    refine ⟨c, u, rfl, ?_, ?_⟩ <;> rintro rfl <;> rcases h with ⟨h, _⟩ | ⟨h, _⟩ | ⟨h, _⟩ <;>
      · have := congrArg List.head? h
        revert this
        rw [List.map_cons, List.head?_cons]
        decide

theorem special_field {A : Arith} {w : Txt} {x : F64} (h : Special w x) : field A w = x := by
  unfold field
  rcases h with h | ⟨u, rfl, h⟩ | ⟨u, y, rfl, h, rfl⟩
  · have h1 := unsigned_special (A := A) h
    obtain ⟨c, u, rfl, h2, h3⟩ := unsigned_head h
    unfold pyFloat
    split
    · rename_i e; exact absurd (List.cons.inj e).1 h2
    · rename_i e; exact absurd (List.cons.inj e).1 h3
    · rw [h1]; rfl
  · show ((floatUnsigned A u).getD nan) = x
    rw [unsigned_special h]; rfl
  · show (((floatUnsigned A u).map F64.neg).getD nan) = y.neg
    rw [unsigned_special h]; rfl

theorem written_field {P : Nat} (hP : 17 ≤ P) {w : Txt} {x : F64} (h : Written P w x) : field (binary64 f) w = x := by
  cases x with
  | fin q =>
    obtain ⟨hx, v, hv, hn⟩ := h
    exact C64_round_trip hx hP hv hn
  | nan => exact special_field h
  | pinf => exact special_field h
  | ninf => exact special_field h

/-- **C64**, layout.  The table read from a file: blanks, tabs, empty lines, comments after `#` and the kind of line end do
not matter; each word becomes one number. -/
theorem C64_layout {words : List (List Txt)} {t : Txt} (h : File words t) :
    readTable (binary64 f) t = (words.filter fun r => r ≠ []).map (fun r => r.map (field (binary64 f))) :=
  readTable_file _ h

/-- **C64**, files.  A table saved with at least 17 digits is read back unchanged. -/
theorem C64_saved_table {P : Nat} (hP : 17 ≤ P) {t : Txt} {rows : List (List F64)} (h : SavedTable P t rows) :
    readTable (binary64 f) t = rows := by
  obtain ⟨words, h1, h2⟩ := h
  rw [C64_layout h1]
  generalize (words.filter fun r => r ≠ []) = ws at h2
  have row : ∀ {ws : List Txt} {xs : List F64}, List.Forall₂ (Written P) ws xs → ws.map (field (binary64 f)) = xs := by
    intro ws xs h
    induction h with
    | nil => rfl
    | cons a _ ih => rw [List.map_cons, written_field hP a, ih]
  induction h2 with
  | nil => rfl
  | cons a _ ih => rw [List.map_cons, row a, ih]

/-- The ways to lay out a series: a univariate one as a column or as a line, a multivariate one with one line per time
point. -/
inductive LaidOut : Nd → List (List F64) → Prop
  | column (xs : List F64) : 2 ≤ xs.length → LaidOut (.d1 xs) (xs.map fun x => [x])
  | line (xs : List F64) : 2 ≤ xs.length → LaidOut (.d1 xs) [xs]
  | table (rows : List (List F64)) (k : Nat) : 2 ≤ rows.length → 2 ≤ k → (∀ l ∈ rows, l.length = k) →
      LaidOut (.d2 ⟨rows.length, k, rows.flatten⟩) rows

theorem LaidOut.read {x : Nd} {t : List (List F64)} (h : LaidOut x t) : genfromtxt t = .ok x := by
  cases h with
  | column xs hx => exact (C48_file_shapes xs hx).1
  | line xs hx => exact (C48_file_shapes xs hx).2.1
  | table rows k h1 h2 h3 =>
    match t, h1 with
    | a :: b :: l, _ =>
      have ha : a.length = k := h3 a (by simp)
      have h1 : ((b :: l).all fun q => decide (q.length = a.length)) = true := by
        rw [List.all_eq_true]
        intro q hq
        rw [h3 q (List.mem_cons_of_mem _ hq), ha]
        simp
      have h2 : k ≠ 1 := by omega
      simp only [genfromtxt]
      rw [if_pos h1, ha, if_neg h2, if_neg (by simp)]

/-- **C64**, the script on saved series: `dtw query reference --step_pattern s` prints the report of the library call on
exactly the series that were saved, or ends with its exception. -/
theorem C64_script {P : Nat} (hP : 17 ≤ P) {files : String → Except Err Txt} {q r : String} {tq tr : Txt} {x y : Nd}
    {X Y : List (List F64)} (hq : q.toList.head? ≠ some '-') (hr : r.toList.head? ≠ some '-')
    (hs : s.toList.head? ≠ some '-') (h1 : files q = .ok tq) (h2 : files r = .ok tr) (h3 : SavedTable P tq X)
    (h4 : SavedTable P tr Y) (hx : LaidOut x X) (hy : LaidOut y Y) :
    (∀ al, dtw (binary64 f) (cliCall euclid x y s) = .ok al → ∃ mp, al.mapping = some mp ∧
      mainText (binary64 f) T euclid files [q, r, "--step_pattern", s] = .printed (report T al mp ++ "\n")) ∧
    (∀ e, dtw (binary64 f) (cliCall euclid x y s) = .error e →
      mainText (binary64 f) T euclid files [q, r, "--step_pattern", s] = .raised e) := by
  have e1 : mainText (binary64 f) T euclid files [q, r, "--step_pattern", s] =
      match main2 (binary64 f) T euclid X Y s with
      | .ok out => .printed (out ++ "\n")
      | .error e => .raised e := by
    unfold mainText
    rw [(C48_command_line (A := binary64 f) (T := T) (euclid := euclid) _ q r s "" hq hr hs).2.2.2.1]
    unfold cliRun
    simp only [h1, h2, Except.map, C64_saved_table hP h3, C64_saved_table hP h4, hx.read]
    cases main2 (binary64 f) T euclid X Y s <;> rfl
  obtain ⟨-, -, c3, c4⟩ := C48_reports (A := binary64 f) (T := T) (euclid := euclid) X Y s
  constructor
  · intro al ha
    obtain ⟨mp, hm, ho⟩ := c4 x y al hx.read hy.read ha
    exact ⟨mp, hm, by rw [e1, ho]⟩
  · intro e he
    rw [e1, c3 x y e hx.read hy.read he]

/-! ### Missing values -/

theorem nan_sample_full {A : Arith} {a : Args} {n m : Nat} {L : Nat → Nat → F64} {W : Nat → Nat → Bool} {p : StepPattern}
    {rs : List Rule} (h : Problem a n m L W p rs) (hob : a.openBegin = false) (hoe : a.openEnd = false)
    (hdo : a.distanceOnly = false) (ha : ∀ q ∈ rs, ∃ t ∈ q.terms, t.di = 0 ∧ t.dj = 0) (hc : ∀ q ∈ rs, q.Continuous)
    (hnan : (∃ i < n, ∀ j < m, L i j = nan) ∨ ∃ j < m, ∀ i < n, L i j = nan) :
    dtw A a = .error (.valueError "No warping path found compatible with the local constraints") := by
  have hno : ¬ ∃ r, dtw A a = .ok r := by
    rintro ⟨r, hr⟩
    obtain ⟨mp, hmp⟩ := mapping_present hr hdo
    obtain ⟨_, c1, c2⟩ := C28_continuous_curve h hob hc hr hmp
    have hav := C58_path_avoids h ha hr hmp
    have hin := C05_monotone_in_range h hob hr hmp
    have hend := C04_end_points h hob hr hmp
    have hlen : mp.index1.length = mp.index2.length := hin.1
    have forb : Forbidden rs nan := .inl rfl
    have single : ∀ u : Int × Int, L u.1.toNat u.2.toNat = nan → u ∈ mp.index1.zip mp.index2 → 0 ≤ u.1 → False := by
      intro u hu hm h0
      rcases hav u hm h0 with h1 | ⟨_, _, rfl, h2, _⟩
      · exact h1 (by rw [hu]; exact forb)
      · simp at hu; rw [hu] at h2; cases h2
    rcases hnan with ⟨i, hi, hL⟩ | ⟨j, hj, hL⟩
    · have hm := c1 i (by omega) (by omega)
      obtain ⟨k, hk, e⟩ := List.mem_iff_getElem.1 hm
      have hk2 : k < mp.index2.length := by omega
      have hz : (mp.index1[k], mp.index2[k]) ∈ mp.index1.zip mp.index2 := by
        rw [List.mem_iff_getElem]
        exact ⟨k, by simp; omega, by simp⟩
      have hb := hin.2.2.2.1 _ (List.getElem_mem hk2)
      refine single _ ?_ hz (by simp only; omega)
      simp only [e]
      exact hL _ (by omega)
    · have hm := c2 j (by omega) (by rw [hend.1.2.2 hoe]; omega)
      obtain ⟨k, hk, e⟩ := List.mem_iff_getElem.1 hm
      have hk1 : k < mp.index1.length := by omega
      have hz : (mp.index1[k], mp.index2[k]) ∈ mp.index1.zip mp.index2 := by
        rw [List.mem_iff_getElem]
        exact ⟨k, by simp; omega, by simp⟩
      have hb := hin.2.2.1 _ (List.getElem_mem hk1)
      refine single _ ?_ hz (by simp only; omega)
      simp only [e]
      exact hL _ (by omega)
  have h2 := C02_no_path_iff (A := A) h hob hoe
  rw [h2.1]
  rw [h2.2, not_or] at hno
  exact hno

/-- **C58**, a whole row or column of NaN (one sample of a series is NaN): with a step pattern that skips nothing, closed
ends and any window, there is no alignment. -/
theorem C58_nan_sample {A : Arith} {a : Args} {n m : Nat} {L : Nat → Nat → F64} {W : Nat → Nat → Bool} {p : StepPattern}
    {rs : List Rule} (h : Problem a n m L W p rs) (hob : a.openBegin = false) (hoe : a.openEnd = false)
    (ha : ∀ q ∈ rs, ∃ t ∈ q.terms, t.di = 0 ∧ t.dj = 0) (hc : ∀ q ∈ rs, q.Continuous)
    (hnan : (∃ i < n, ∀ j < m, L i j = nan) ∨ ∃ j < m, ∀ i < n, L i j = nan) :
    dtw A a = .error (.valueError "No warping path found compatible with the local constraints") := by
  have hfull := nan_sample_full (A := A) h.full hob hoe rfl ha hc hnan
  have hno : ¬ ∃ r, dtw A a = .ok r := by
    rintro ⟨r, hr⟩
    obtain ⟨r', hr'⟩ := success_full h hob hr
    rw [hfull] at hr'
    cases hr'
  have h2 := C02_no_path_iff (A := A) h hob hoe
  rw [h2.1]
  rw [h2.2, not_or] at hno
  exact hno

theorem LaidOut.matrix {x : Nd} {t : List (List F64)} (h : LaidOut x t) : ∃ M : Mat F64, AsMatrix x M ∧ 0 < M.rows ∧
    ((∃ l ∈ t, nan ∈ l) → ∃ i < M.rows, nan ∈ M.row i) := by
  have one : ∀ xs : List F64, nan ∈ xs → ∃ i < xs.length, nan ∈ (⟨xs.length, 1, xs⟩ : Mat F64).row i := by
    intro xs hx
    obtain ⟨i, hi, e⟩ := List.mem_iff_getElem.1 hx
    refine ⟨i, hi, ?_⟩
    simp only [Mat.row, Nat.mul_one]
    rw [List.drop_eq_getElem_cons hi, List.take_succ_cons, e]
    simp
  cases h with
  | column xs hx =>
    refine ⟨_, .d1 xs, by simp only; omega, ?_⟩
    rintro ⟨l, hl, hn⟩
    obtain ⟨x, hx, rfl⟩ := List.mem_map.1 hl
    rw [List.mem_singleton] at hn
    subst hn
    exact one xs hx
  | line xs hx =>
    refine ⟨_, .d1 xs, by simp only; omega, ?_⟩
    rintro ⟨l, hl, hn⟩
    rw [List.mem_singleton] at hl
    subst hl
    exact one _ hn
  | table rows k h1 h2 h3 =>
    obtain ⟨M, e, hr, hk, hrow⟩ := (C48_file_shapes [nan, nan] (by simp)).2.2.1 t h1 k h2 h3
    have e2 := (LaidOut.table t k h1 h2 h3).read
    rw [e] at e2
    cases e2
    refine ⟨_, .d2 _, by simp only; omega, ?_⟩
    rintro ⟨l, hl, hn⟩
    obtain ⟨i, hi, rfl⟩ := List.mem_iff_getElem.1 hl
    refine ⟨i, hi, ?_⟩
    have := hrow i hi
    rw [List.getElem?_eq_getElem hi, Option.some.injEq] at this
    rw [this]; exact hn

theorem mem_of_lookup {β : Type} {l : List (String × β)} {s : String} {p : β} (h : l.lookup s = some p) : (s, p) ∈ l := by
  induction l with
  | nil => cases h
  | cons x l ih =>
    obtain ⟨k, v⟩ := x
    rw [List.lookup_cons] at h
    split at h
    · rename_i e
      cases h
      have : s = k := by simpa using e
      subst this
      simp
    · exact List.mem_cons_of_mem _ (ih h)

/-- **C64**, unreadable numbers.  If one word of a file is not a number (or is `nan`), a metric that keeps NaN and a step
pattern that skips nothing (the default among them) make the script fail: it never prints a distance. -/
theorem C64_unreadable {files : String → Except Err Txt} {q r : String} {tq tr : Txt} {x y : Nd} {wq wr : List (List Txt)}
    (hq : q.toList.head? ≠ some '-') (hr : r.toList.head? ≠ some '-')
    (hs : s ∈ continuousNames) (hs' : s ≠ "_symmetricVelichkoZagoruyko" ∧ s ≠ "_asymmetricP0b")
    (h1 : files q = .ok tq) (h2 : files r = .ok tr) (h3 : File wq tq) (h4 : File wr tr)
    (hx : LaidOut x (readTable (binary64 f) tq)) (hy : LaidOut y (readTable (binary64 f) tr))
    (hsize : ∀ X Y, AsMatrix x X → AsMatrix y Y → X.rows * Y.rows < 2147483648)
    (hE : ∀ u v, nan ∈ u ∨ nan ∈ v → euclid u v = nan)
    (hbad : (∃ l ∈ wq, ∃ w ∈ l, field (binary64 f) w = nan) ∨ ∃ l ∈ wr, ∃ w ∈ l, field (binary64 f) w = nan) :
    ∃ t, mainText (binary64 f) T euclid files [q, r, "--step_pattern", s] = .raised (.valueError t) := by
  have hdash : s.toList.head? ≠ some '-' := by
    have : ∀ s ∈ continuousNames, s.toList.head? ≠ some '-' := by decide +kernel
    exact this s hs
  have bad : ∀ {ws : List (List Txt)} {t : Txt}, File ws t → (∃ l ∈ ws, ∃ w ∈ l, field (binary64 f) w = nan) →
      ∃ l ∈ readTable (binary64 f) t, nan ∈ l := by
    rintro ws t h ⟨l, hl, w, hw, hn⟩
    rw [C64_layout h]
    refine ⟨l.map (field (binary64 f)), List.mem_map.2 ⟨l, List.mem_filter.2 ⟨hl, ?_⟩, rfl⟩, List.mem_map.2 ⟨w, hw, hn⟩⟩
    simpa using List.ne_nil_of_mem hw
  obtain ⟨X, hX, hXp, hXn⟩ := hx.matrix
  obtain ⟨Y, hY, hYp, hYn⟩ := hy.matrix
  have e1 : mainText (binary64 f) T euclid files [q, r, "--step_pattern", s] =
      match main2 (binary64 f) T euclid (readTable (binary64 f) tq) (readTable (binary64 f) tr) s with
      | .ok out => .printed (out ++ "\n")
      | .error e => .raised e := by
    unfold mainText
    rw [(C48_command_line (A := binary64 f) (T := T) (euclid := euclid) _ q r s "" hq hr hdash).2.2.2.1]
    unfold cliRun
    simp only [h1, h2, Except.map, hx.read]
    cases main2 (binary64 f) T euclid (readTable (binary64 f) tq) (readTable (binary64 f) tr) s <;> rfl
  obtain ⟨-, -, c3, -⟩ := C48_reports (A := binary64 f) (T := T) (euclid := euclid) (readTable (binary64 f) tq)
    (readTable (binary64 f) tr) s
  suffices ∃ t, dtw (binary64 f) (cliCall euclid x y s) = .error (.valueError t) by
    obtain ⟨t, ht⟩ := this
    exact ⟨t, by rw [e1, c3 x y _ hx.read hy.read ht]⟩
  by_cases hcols : X.cols = Y.cols
  · obtain ⟨p, hp, hwf, hcont⟩ := C28_bundled s hs
    have hlook : Pat.table.lookup s = some p := by
      unfold canonPattern at hp
      simp only at hp
      cases h : Pat.table.lookup s with
      | none => rw [h] at hp; cases hp
      | some p' => rw [h] at hp; cases hp; rfl
    have hmem : (s, p) ∈ Pat.table := mem_of_lookup hlook
    have hP : Problem (cliCall euclid x y s) X.rows Y.rows (fun i j => euclid (X.row i) (Y.row j)) (fun _ _ => true) p
        (rulesOf p) :=
      { n_pos := hXp
        m_pos := hYp
        cost := .series _ _ _ rfl hX hY hcols rfl rfl (fun _ _ _ _ => rfl)
        pattern := hp
        wf := hwf
        fits := table_fits (hsize X Y hX hY) _ hmem
        window := .inl ⟨rfl, fun _ _ _ _ => rfl⟩ }
    refine ⟨_, C58_nan_sample hP rfl rfl (C58_bundled _ hmem hs').1 hcont ?_⟩
    rcases hbad with hb | hb
    · obtain ⟨i, hi, hn⟩ := hXn (bad h3 hb)
      exact .inl ⟨i, hi, fun j _ => hE _ _ (.inl hn)⟩
    · obtain ⟨i, hi, hn⟩ := hYn (bad h4 hb)
      exact .inr ⟨i, hi, fun j _ => hE _ _ (.inr hn)⟩
  · exact C26_dimension_mismatch (a := cliCall euclid x y s) rfl hX hY hcols

/-! ### The hypotheses are met -/

namespace TextEx

/-- A query file with a comment, an empty line, a DOS and a Mac line end. -/
def tq : Txt := "# speed\n1\r\n\n 2.5e-1 # slow\r-0.5E+1".toList

/-- A reference file: one line. -/
def tr : Txt := "1\t3 +4.\n".toList

/-- The same reference with a word that is not a number. -/
def tbad : Txt := "1\t3 n/a\n".toList

theorem word_of {w : Txt} (h : (decide (w ≠ []) && w.all fun c => decide (32 < c.toNat ∧ c ≠ '#')) = true) : Read.Word w := by
  simp only [Bool.and_eq_true, decide_eq_true_eq, List.all_eq_true] at h
  exact h

theorem tq_file : File [[], [['1']], [], [['2', '.', '5', 'e', '-', '1']], [['-', '0', '.', '5', 'E', '+', '1']]] tq := by
  have blank : ∀ {s : Txt}, s = [] ∨ s = [' '] → Blanks s := by
    rintro s (rfl | rfl) <;> intro c hc <;> simp at hc
    exact .inl hc
  have none : Comment [] := .inl rfl
  have h0 : File [] [] := .nil
  have h1 : File [[['-', '0', '.', '5', 'E', '+', '1']]] ['-', '0', '.', '5', 'E', '+', '1'] :=
    .last (l := ['-', '0', '.', '5', 'E', '+', '1']) (k := []) (.last (s := []) (s' := []) (blank (.inl rfl)) (word_of (by decide)) (blank (.inl rfl))) none
  have h2 := File.mac (l := [' ', '2', '.', '5', 'e', '-', '1', ' ']) (k := ['#', ' ', 's', 'l', 'o', 'w'])
    (Spaced.last (s := [' ']) (w := ['2', '.', '5', 'e', '-', '1']) (s' := [' ']) (blank (.inr rfl)) (word_of (by decide))
      (blank (.inr rfl))) (.inr ⟨_, rfl, by decide⟩) h1 (by decide)
  have h3 := File.unix (l := []) (k := []) (Spaced.nil (blank (.inl rfl))) none h2
  have h4 := File.dos (l := ['1']) (k := []) (Spaced.last (s := []) (w := ['1']) (s' := []) (blank (.inl rfl)) (word_of (by decide))
      (blank (.inl rfl))) none h3
  have h5 := File.unix (l := []) (k := ['#', ' ', 's', 'p', 'e', 'e', 'd']) (Spaced.nil (blank (.inl rfl)))
    (.inr ⟨_, rfl, by decide⟩) h4
  exact h5

theorem tbad_file : File [[['1'], ['3'], ['n', '/', 'a']]] tbad := by
  have blank : Blanks [] := by intro c hc; simp at hc
  have h := File.unix (l := ['1', '\t', '3', ' ', 'n', '/', 'a']) (k := [])
    (Spaced.cons (s := []) (w := ['1']) (c := '\t') blank (word_of (by decide)) (.inr (.inl rfl))
      (Spaced.cons (s := []) (w := ['3']) (c := ' ') blank (word_of (by decide)) (.inl rfl)
        (Spaced.last (s := []) (w := ['n', '/', 'a']) (s' := []) blank (word_of (by decide)) blank))) (.inl rfl) .nil
  exact h

def files : String → Except Err Txt := fun n =>
  if n = "q" then .ok tq else if n = "r" then .ok tr else if n = "bad" then .ok tbad else .error .keyError

end TextEx

example : readTable (binary64 false) TextEx.tq = [[fin 1], [fin (1 / 4)], [fin (-5)]] ∧
    readTable (binary64 false) TextEx.tr = [[fin 1, fin 3, fin 4]] ∧
    readTable (binary64 false) TextEx.tbad = [[fin 1, fin 3, nan]] := by decide +kernel

/-- The whole script on these files. -/
example : mainText (binary64 false) pyText CliEx.absd TextEx.files ["q", "r"] = .printed
    "Normalized distance: 2.708\n\nDistance: 16.25\n\nWarping path: [[0 1 1 1 2]\n [0 0 1 2 2]]\n\n\n" := by decide +kernel

/-- And with the word that is not a number. -/
example : ∃ t, mainText (binary64 false) pyText CliEx.absd TextEx.files ["q", "bad", "--step_pattern", "symmetric2"] =
    .raised (.valueError t) := by
  have e1 : readTable (binary64 false) TextEx.tq = [fin 1, fin (1 / 4), fin (-5)].map fun x => [x] := by decide +kernel
  have e2 : readTable (binary64 false) TextEx.tbad = [[fin 1, fin 3, nan]] := by decide +kernel
  refine C64_unreadable (f := false) (x := .d1 [fin 1, fin (1 / 4), fin (-5)]) (y := .d1 [fin 1, fin 3, nan])
    (by decide) (by decide) (by decide) (by decide) rfl rfl TextEx.tq_file TextEx.tbad_file ?_ ?_ ?_ ?_ ?_
  · rw [e1]; exact .column _ (by simp)
  · rw [e2]; exact .line _ (by simp)
  · intro X Y hX hY
    cases hX; cases hY; decide
  · intro u v h
    unfold CliEx.absd
    split
    · simp at h
    · rfl
  · exact .inr ⟨_, List.mem_singleton.2 rfl, ['n', '/', 'a'], by simp, by decide +kernel⟩

/-- A word that the theorems call unreadable. -/
example : '_' ∉ "n/a".toList ∧ field (binary64 false) "n/a".toList = nan ∧
    field (binary64 false) "1_000".toList = fin 1000 ∧ field (binary64 false) "-Infinity".toList = ninf := by
  decide +kernel

/-- A series saved with 17 digits. -/
example : SavedTable 17 "0.10000000000000001\n2\n".toList [[fin (3602879701896397 / 2 ^ 55)], [fin 2]] := by
  have hx : IsDouble (3602879701896397 / 2 ^ 55) := ⟨3602879701896397, -55, by norm_num, by norm_num, by
    rw [zpow_neg]; norm_num, by
    refine lt_of_lt_of_le (b := 2 ^ (0 : ℤ)) (by norm_num [abs_lt]) (two_zpow_le (by norm_num))⟩
  have h2 : IsDouble 2 := ⟨2, 0, by norm_num, by norm_num, by norm_num, by
    refine lt_of_lt_of_le (b := 2 ^ (2 : ℤ)) (by norm_num [abs_lt]) (two_zpow_le (by norm_num))⟩
  have e1 : fmtG 17 (fin (3602879701896397 / 2 ^ 55)) = "0.10000000000000001".toList := by decide +kernel
  have e2 : fmtG 17 (fin 2) = "2".toList := by decide +kernel
  have blank : Blanks [] := by intro c hc; simp at hc
  have w1 : Written 17 "0.10000000000000001".toList (fin (3602879701896397 / 2 ^ 55)) :=
    ⟨hx, _, shownVal_nearest (by norm_num) _, by rw [← e1]; exact numeral_fmtG (by norm_num) _⟩
  have w2 : Written 17 "2".toList (fin 2) :=
    ⟨h2, _, shownVal_nearest (by norm_num) _, by rw [← e2]; exact numeral_fmtG (by norm_num) _⟩
  refine ⟨[["0.10000000000000001".toList], ["2".toList]], ?_, ?_⟩
  · have := File.unix (l := "0.10000000000000001".toList) (k := []) (Spaced.last (s := []) (s' := []) blank (TextEx.word_of (w := "0.10000000000000001".toList) (by decide)) blank) (.inl rfl)
      (File.unix (l := "2".toList) (k := []) (Spaced.last (s := []) (s' := []) blank (TextEx.word_of (w := "2".toList) (by decide)) blank) (.inl rfl) .nil)
    exact this
  · exact .cons (.cons w1 .nil) (.cons (.cons w2 .nil) .nil)

end DTW
