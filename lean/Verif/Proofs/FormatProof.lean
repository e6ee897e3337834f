import Verif.Format
import Verif.SpecText
import Mathlib.Tactic.Linarith
import Mathlib.Tactic.Ring

/-!
# Proofs about the texts
-/

namespace DTW
open F64 Read

/-- All characters are digits. -/
def AllDigits (t : Txt) : Prop := ∀ c ∈ t, c.isDigit = true

/-- The text does not begin with a digit. -/
def NoDigit (t : Txt) : Prop := ∀ c, t.head? = some c → c.isDigit = false

/-- Nor does it continue a decimal numeral. -/
def Stops (t : Txt) : Prop := ∀ c, t.head? = some c → c.isDigit = false ∧ c ≠ '.' ∧ c ≠ 'e'

theorem Stops.noDigit {t : Txt} (h : Stops t) : NoDigit t := fun c hc => (h c hc).1

theorem digits_append {ds rest : Txt} (hd : AllDigits ds) (hr : NoDigit rest) : digits (ds ++ rest) = ds := by
  unfold digits
  rw [List.takeWhile_append_of_pos hd]
  cases rest with
  | nil => simp
  | cons c t => simp [List.takeWhile, hr c rfl]

theorem afterDigits_append {ds rest : Txt} (hd : AllDigits ds) (hr : NoDigit rest) :
    afterDigits (ds ++ rest) = rest := by
  unfold afterDigits
  rw [List.dropWhile_append_of_pos hd]
  cases rest with
  | nil => simp
  | cons c t => simp [List.dropWhile, hr c rfl]

theorem nat_append {ds rest : Txt} (hd : AllDigits ds) (hne : ds ≠ []) (hr : NoDigit rest) :
    Read.nat (ds ++ rest) = some (natOf ds, rest) := by
  unfold Read.nat
  rw [digits_append hd hr, afterDigits_append hd hr, if_neg hne]

theorem allDigits_toDigits (n : Nat) : AllDigits (Nat.toDigits 10 n) :=
  fun _ hc => Nat.isDigit_of_mem_toDigits (by omega) (by omega) hc

theorem natOf_append (a b : Txt) : natOf (a ++ b) = 10 ^ b.length * natOf a + natOf b := by
  unfold natOf
  rw [Nat.ofDigitChars_append, Nat.ofDigitChars_eq_ofDigitChars_zero]

theorem natOf_digit {d : Nat} (h : d < 10) : natOf [Nat.digitChar d] = d := by
  unfold natOf
  rw [Nat.ofDigitChars_cons_digitChar_of_lt_ten h]
  simp

theorem natOf_toDigits (n : Nat) : natOf (Nat.toDigits 10 n) = n := by
  induction n using Nat.strong_induction_on with
  | _ n ih =>
    rw [Nat.toDigits_eq_if (by omega)]
    split
    · exact natOf_digit (by assumption)
    · rename_i h
      rw [natOf_append, ih _ (by omega), natOf_digit (by omega)]
      simp
      omega

theorem natOf_zeros (k : Nat) : natOf (List.replicate k '0') = 0 := by
  unfold natOf
  rw [Nat.ofDigitChars_replicate_zero]; simp

/-! ### Digits -/

theorem digitsOf_length (k d : Nat) : (digitsOf k d).length = k := by
  induction k generalizing d with
  | zero => rfl
  | succ k ih => simp [digitsOf, ih]

theorem digitsOf_digits (k d : Nat) : AllDigits (digitsOf k d) := by
  induction k generalizing d with
  | zero => intro c hc; simp [digitsOf] at hc
  | succ k ih =>
    intro c hc
    simp only [digitsOf, List.mem_append, List.mem_singleton] at hc
    rcases hc with hc | hc
    · exact ih _ c hc
    · rw [hc, Nat.isDigit_digitChar]; exact decide_eq_true (Nat.mod_lt _ (by omega))

theorem natOf_digitsOf {k d : Nat} (h : d < 10 ^ k) : natOf (digitsOf k d) = d := by
  induction k generalizing d with
  | zero =>
    have : d = 0 := by simpa using h
    subst this; rfl
  | succ k ih =>
    rw [digitsOf, natOf_append, natOf_digit (by omega), ih]
    · simp; omega
    · rw [Nat.pow_succ] at h; omega

/-- The fraction some digits after the point denote. -/
def fracOf (f : Txt) : ℚ := (natOf f : ℚ) / 10 ^ f.length

theorem stripZeros_spec (f : Txt) : ∃ k, f = stripZeros f ++ List.replicate k '0' := by
  refine ⟨(f.reverse.takeWhile (fun c => c = '0')).length, ?_⟩
  have h := List.takeWhile_append_dropWhile (p := fun c => decide (c = '0')) (l := f.reverse)
  have h2 := congrArg List.reverse h
  rw [List.reverse_append, List.reverse_reverse] at h2
  conv_lhs => rw [← h2]
  unfold stripZeros
  congr 1
  rw [List.eq_replicate_iff]
  refine ⟨by simp, fun c hc => ?_⟩
  have := List.all_eq_true.1 List.all_takeWhile c (List.mem_reverse.1 hc)
  simpa using this

theorem fracOf_strip (f : Txt) : fracOf (stripZeros f) = fracOf f := by
  obtain ⟨k, hk⟩ := stripZeros_spec f
  conv_rhs => rw [hk]
  unfold fracOf
  rw [natOf_append, natOf_zeros, List.length_append, List.length_replicate]
  push_cast
  rw [pow_add, add_zero, mul_comm, mul_div_mul_right]
  positivity

theorem stripZeros_digits {f : Txt} (h : AllDigits f) : AllDigits (stripZeros f) := by
  obtain ⟨k, hk⟩ := stripZeros_spec f
  intro c hc
  exact h c (by rw [hk]; exact List.mem_append_left _ hc)

theorem noDigit_cons {c : Char} {t : Txt} (h : c.isDigit = false) : NoDigit (c :: t) := by
  intro d hd
  simp only [List.head?_cons, Option.some.injEq] at hd
  rw [← hd]; exact h

/-- Reading what `withPoint` writes, up to the exponent. -/
theorem read_withPoint {i f rest : Txt} (hi : AllDigits i) (hne : i ≠ []) (hf : AllDigits f) (hr : NoDigit rest)
    (hp : rest.head? ≠ some '.') :
    ∃ t1, Read.nat (withPoint i f ++ rest) = some (natOf i, t1) ∧ Read.fraction t1 = (fracOf f, rest) := by
  unfold withPoint
  split
  · rename_i h0
    refine ⟨rest, nat_append hi hne hr, ?_⟩
    have hz : fracOf f = 0 := by rw [← fracOf_strip, h0]; simp [fracOf, natOf]
    rw [hz]
    unfold Read.fraction
    split
    · simp at hp
    · rfl
  · refine ⟨'.' :: stripZeros f ++ rest, ?_, ?_⟩
    · rw [List.append_assoc]
      exact nat_append hi hne (noDigit_cons (by decide))
    · rw [← fracOf_strip]
      show ((natOf (digits (stripZeros f ++ rest)) : ℚ) / 10 ^ (digits (stripZeros f ++ rest)).length,
        afterDigits (stripZeros f ++ rest)) = _
      rw [digits_append (stripZeros_digits hf) hr, afterDigits_append (stripZeros_digits hf) hr]
      rfl

theorem unsigned_withPoint {i f e rest : Txt} {x : Int} (hi : AllDigits i) (hne : i ≠ []) (hf : AllDigits f)
    (hr : NoDigit (e ++ rest)) (hp : (e ++ rest).head? ≠ some '.') (he : Read.exponent (e ++ rest) = (x, rest)) :
    Read.unsigned (withPoint i f ++ e ++ rest) = some (((natOf i : ℚ) + fracOf f) * 10 ^ x, rest) := by
  obtain ⟨t1, h1, h2⟩ := read_withPoint hi hne hf hr hp
  unfold Read.unsigned
  rw [List.append_assoc, h1]
  simp only [h2, he]

theorem exponent_stops {rest : Txt} (h : Stops rest) : Read.exponent rest = (0, rest) := by
  unfold Read.exponent
  split
  · exact absurd rfl (h 'e' rfl).2.2
  · exact absurd rfl (h 'e' rfl).2.2
  · rfl

theorem twoDigits_digits (n : Nat) : AllDigits (twoDigits (Nat.toDigits 10 n)) := by
  intro c hc
  unfold twoDigits at hc
  rcases List.mem_append.1 hc with h | h
  · rw [List.eq_of_mem_replicate h]; decide
  · exact allDigits_toDigits n c h

theorem natOf_twoDigits (n : Nat) : natOf (twoDigits (Nat.toDigits 10 n)) = n := by
  unfold twoDigits
  rw [natOf_append, natOf_zeros, natOf_toDigits]; simp

/-- The value of digits with the point after the first `k`. -/
theorem natOf_split (ds : Txt) (k : Nat) :
    (natOf (ds.take k) : ℚ) + fracOf (ds.drop k) = (natOf ds : ℚ) / 10 ^ (ds.length - k) := by
  conv_rhs => rw [← List.take_append_drop k ds]
  rw [natOf_append]
  unfold fracOf
  rw [List.take_append_drop, List.length_drop]
  push_cast
  rw [add_div, mul_div_cancel_left₀]
  positivity


/-- The value `%.{P}g` shows for `q > 0`. -/
def sigVal (P : Nat) (q : ℚ) : ℚ :=
  (roundEven (q / 10 ^ (Int.log 10 q - ((P : ℤ) - 1))) : ℚ) * 10 ^ (Int.log 10 q - ((P : ℤ) - 1))

theorem ten_ne : (10 : ℚ) ≠ 0 := by norm_num

theorem scaled_bounds {P : Nat} (hP : 1 ≤ P) {q : ℚ} (hq : 0 < q) :
    (10 : ℚ) ^ (P - 1) ≤ q / 10 ^ (Int.log 10 q - ((P : ℤ) - 1)) ∧
    q / 10 ^ (Int.log 10 q - ((P : ℤ) - 1)) < 10 ^ P := by
  have hpos : (0 : ℚ) < 10 ^ (Int.log 10 q - ((P : ℤ) - 1)) := by positivity
  have h1 := Int.zpow_log_le_self (b := 10) (by norm_num) hq
  have h2 := Int.lt_zpow_succ_log_self (b := 10) (by norm_num) q
  push_cast at h1 h2
  rw [le_div_iff₀ hpos, div_lt_iff₀ hpos, ← zpow_natCast, ← zpow_natCast, ← zpow_add₀ ten_ne, ← zpow_add₀ ten_ne]
  constructor
  · rwa [show ((P - 1 : ℕ) : ℤ) + (Int.log 10 q - ((P : ℤ) - 1)) = Int.log 10 q by omega]
  · rwa [show (P : ℤ) + (Int.log 10 q - ((P : ℤ) - 1)) = Int.log 10 q + 1 by omega]

theorem rounded_bounds {P : Nat} (hP : 1 ≤ P) {q : ℚ} (hq : 0 < q) :
    (10 : ℤ) ^ (P - 1) ≤ roundEven (q / 10 ^ (Int.log 10 q - ((P : ℤ) - 1))) ∧
    roundEven (q / 10 ^ (Int.log 10 q - ((P : ℤ) - 1))) ≤ 10 ^ P := by
  obtain ⟨h1, h2⟩ := scaled_bounds hP hq
  constructor
  · have := roundEven_mono h1
    rwa [show ((10 : ℚ) ^ (P - 1)) = (((10 : ℤ) ^ (P - 1) : ℤ) : ℚ) by push_cast; rfl, roundEven_int] at this
  · have := roundEven_mono h2.le
    rwa [show ((10 : ℚ) ^ P) = (((10 : ℤ) ^ P : ℤ) : ℚ) by push_cast; rfl, roundEven_int] at this

theorem sigExp_spec {P : Nat} (hP : 1 ≤ P) {q : ℚ} (hq : 0 < q) :
    10 ^ (P - 1) ≤ (sigExp P q).1 ∧ (sigExp P q).1 < 10 ^ P ∧
    ((sigExp P q).1 : ℚ) * 10 ^ ((sigExp P q).2 - ((P : ℤ) - 1)) = sigVal P q := by
  obtain ⟨h1, h2⟩ := rounded_bounds hP hq
  unfold sigExp sigVal
  simp only
  generalize roundEven (q / 10 ^ (Int.log 10 q - ((P : ℤ) - 1))) = r at h1 h2 ⊢
  have hr : (0 : ℤ) ≤ r := le_trans (by positivity) h1
  obtain ⟨k, rfl⟩ := Int.eq_ofNat_of_zero_le hr
  have h1' : 10 ^ (P - 1) ≤ k := by exact_mod_cast h1
  have h2' : k ≤ 10 ^ P := by exact_mod_cast h2
  rw [Int.toNat_natCast]
  split
  · rename_i h
    refine ⟨le_refl _, Nat.pow_lt_pow_right (by omega) (by omega), ?_⟩
    rw [h]
    push_cast
    rw [show Int.log 10 q + 1 - ((P : ℤ) - 1) = 1 + (Int.log 10 q - ((P : ℤ) - 1)) by ring, zpow_add₀ ten_ne, ← mul_assoc]
    congr 1
    rw [zpow_one, ← pow_succ]
    congr 1; omega
  · rename_i h
    exact ⟨h1', by omega, by push_cast; rfl⟩

theorem div_pow_zpow (d : ℚ) (k : Nat) : d / 10 ^ k = d * 10 ^ (-(k : ℤ)) := by
  rw [zpow_neg, zpow_natCast, div_eq_mul_inv]

theorem allDigits_take {ds : Txt} (h : AllDigits ds) (k : Nat) : AllDigits (ds.take k) :=
  fun c hc => h c (List.mem_of_mem_take hc)

theorem allDigits_drop {ds : Txt} (h : AllDigits ds) (k : Nat) : AllDigits (ds.drop k) :=
  fun c hc => h c (List.mem_of_mem_drop hc)

theorem stops_head {rest : Txt} (h : Stops rest) : rest.head? ≠ some '.' := fun hc => (h '.' hc).2.1 rfl

/-- Reading a formatted positive number gives the rounded value. -/
theorem unsigned_fmtPos {P : Nat} (hP : 1 ≤ P) {q : ℚ} (hq : 0 < q) {rest : Txt} (hr : Stops rest) :
    Read.unsigned (fmtPos P q ++ rest) = some (sigVal P q, rest) := by
  obtain ⟨_, h2, h3⟩ := sigExp_spec hP hq
  unfold fmtPos
  simp only
  generalize sigExp P q = dx at h2 h3 ⊢
  obtain ⟨d, X⟩ := dx
  simp only at h2 h3 ⊢
  rw [← h3]
  have hdig := digitsOf_digits P d
  have hlen := digitsOf_length P d
  have hval := natOf_digitsOf h2
  split
  · rename_i hX
    split
    · rename_i hX0
      have := unsigned_withPoint (i := (digitsOf P d).take (X.toNat + 1)) (f := (digitsOf P d).drop (X.toNat + 1)) (e := [])
        (rest := rest) (x := 0) (allDigits_take hdig _) (by
          intro h0
          have := congrArg List.length h0
          simp [hlen] at this
          omega) (allDigits_drop hdig _) hr.noDigit (stops_head hr) (exponent_stops hr)
      rw [List.append_nil] at this
      rw [this, natOf_split, hlen, hval, zpow_zero, mul_one, div_pow_zpow]
      congr 4
      omega
    · rename_i hX0
      have := unsigned_withPoint (i := ['0']) (f := List.replicate ((-X).toNat - 1) '0' ++ digitsOf P d) (e := [])
        (rest := rest) (x := 0) (by intro c hc; rw [List.mem_singleton.1 hc]; decide) (by simp) (by
          intro c hc
          rcases List.mem_append.1 hc with h | h
          · rw [List.eq_of_mem_replicate h]; decide
          · exact hdig c h) hr.noDigit (stops_head hr) (exponent_stops hr)
      rw [List.append_nil] at this
      rw [this]
      unfold fracOf
      rw [natOf_append, natOf_zeros, hval, List.length_append, hlen, List.length_replicate]
      rw [show natOf ['0'] = 0 from rfl]
      simp only [Nat.cast_zero, zero_add, mul_zero, zpow_zero, mul_one]
      rw [div_pow_zpow]
      congr 4
      omega
  · have he : Read.exponent ('e' :: (if X < 0 then '-' else '+') :: twoDigits (Nat.toDigits 10 X.natAbs) ++ rest) =
        (X, rest) := by
      split
      · rename_i hX0
        show (-(natOf (digits (twoDigits (Nat.toDigits 10 X.natAbs) ++ rest)) : Int),
          afterDigits (twoDigits (Nat.toDigits 10 X.natAbs) ++ rest)) = _
        rw [digits_append (twoDigits_digits _) hr.noDigit, afterDigits_append (twoDigits_digits _) hr.noDigit,
          natOf_twoDigits]
        congr 1
        omega
      · rename_i hX0
        show ((natOf (digits (twoDigits (Nat.toDigits 10 X.natAbs) ++ rest)) : Int),
          afterDigits (twoDigits (Nat.toDigits 10 X.natAbs) ++ rest)) = _
        rw [digits_append (twoDigits_digits _) hr.noDigit, afterDigits_append (twoDigits_digits _) hr.noDigit,
          natOf_twoDigits]
        congr 1
        omega
    have := unsigned_withPoint (i := (digitsOf P d).take 1) (f := (digitsOf P d).drop 1)
        (e := 'e' :: (if X < 0 then '-' else '+') :: twoDigits (Nat.toDigits 10 X.natAbs))
        (rest := rest) (x := X) (allDigits_take hdig _) (by
          intro h0
          have := congrArg List.length h0
          simp [hlen] at this
          omega) (allDigits_drop hdig _) (noDigit_cons (by decide)) (by simp) he
    rw [this, natOf_split, hlen, hval, div_pow_zpow, mul_assoc, ← zpow_add₀ ten_ne]
    congr 4
    omega


theorem roundEven_nearest (y : ℚ) (z : ℤ) : |(roundEven y : ℚ) - y| ≤ |(z : ℚ) - y| := by
  by_cases h : z = roundEven y
  · rw [h]
  · have h1 := roundEven_error y
    have h2 : (1 : ℚ) ≤ |(z : ℚ) - roundEven y| := by
      have : (1 : ℤ) ≤ |z - roundEven y| := Int.one_le_abs (by omega)
      exact_mod_cast this
    have h3 := abs_sub_le (z : ℚ) y (roundEven y)
    rw [abs_sub_comm y] at h3
    linarith

/-- No multiple of the last place is nearer. -/
theorem sigVal_le_multiple {P : Nat} {q : ℚ} (z : ℤ) :
    |sigVal P q - q| ≤ |(z : ℚ) * 10 ^ (Int.log 10 q - ((P : ℤ) - 1)) - q| := by
  have hpos : (0 : ℚ) < 10 ^ (Int.log 10 q - ((P : ℤ) - 1)) := by positivity
  unfold sigVal
  generalize (10 : ℚ) ^ (Int.log 10 q - ((P : ℤ) - 1)) = s at hpos ⊢
  have h := roundEven_nearest (q / s) z
  have e : ∀ w : ℚ, w * s - q = (w - q / s) * s := by
    intro w; rw [sub_mul, div_mul_cancel₀ _ hpos.ne']
  rw [e, e, abs_mul, abs_mul]
  exact mul_le_mul_of_nonneg_right h (abs_nonneg _)

theorem sigVal_nearest {P : Nat} (hP : 1 ≤ P) {q : ℚ} (hq : 0 < q) : NearestDecimal P q (sigVal P q) := by
  obtain ⟨h1, h2, h3⟩ := sigExp_spec hP hq
  refine ⟨⟨(sigExp P q).1, (sigExp P q).2 - ((P : ℤ) - 1), ?_, ?_⟩, ?_⟩
  · rw [Nat.abs_cast]; exact_mod_cast h2
  · rw [← h3]; push_cast; rfl
  · rintro u ⟨k, e, hk, rfl⟩
    have hlo := Int.zpow_log_le_self (b := 10) (by norm_num) hq
    push_cast at hlo
    have hepos : (0 : ℚ) < 10 ^ e := by positivity
    by_cases hu : |(k : ℚ) * 10 ^ e| < 10 ^ Int.log 10 q
    · have h4 := sigVal_le_multiple (P := P) (q := q) (10 ^ (P - 1))
      have h5 : (((10 : ℤ) ^ (P - 1) : ℤ) : ℚ) * 10 ^ (Int.log 10 q - ((P : ℤ) - 1)) = 10 ^ Int.log 10 q := by
        push_cast
        rw [← zpow_natCast, ← zpow_add₀ ten_ne]
        congr 1; omega
      rw [h5] at h4
      refine le_trans h4 ?_
      rw [abs_sub_comm, abs_of_nonneg (sub_nonneg.2 hlo), abs_sub_comm]
      have h6 := le_abs_self (q - (k : ℚ) * 10 ^ e)
      have h7 := le_abs_self ((k : ℚ) * 10 ^ e)
      linarith
    · rw [not_lt, abs_mul, abs_of_pos hepos] at hu
      have hk' : |(k : ℚ)| < 10 ^ P := by exact_mod_cast hk
      have h6 : (10 : ℚ) ^ Int.log 10 q < 10 ^ ((P : ℤ) + e) := by
        rw [zpow_add₀ ten_ne, zpow_natCast]
        exact lt_of_le_of_lt hu (mul_lt_mul_of_pos_right hk' hepos)
      have h7 : Int.log 10 q < (P : ℤ) + e := (zpow_lt_zpow_iff_right₀ (by norm_num)).1 h6
      obtain ⟨m, hm⟩ := Int.eq_ofNat_of_zero_le (show 0 ≤ e - (Int.log 10 q - ((P : ℤ) - 1)) by omega)
      have h8 := sigVal_le_multiple (P := P) (q := q) (k * 10 ^ m)
      have h9 : ((k * 10 ^ m : ℤ) : ℚ) * 10 ^ (Int.log 10 q - ((P : ℤ) - 1)) = (k : ℚ) * 10 ^ e := by
        push_cast
        rw [mul_assoc, ← zpow_natCast, ← zpow_add₀ ten_ne]
        congr 2; omega
      rwa [h9] at h8

theorem sigVal_error {P : Nat} (hP : 1 ≤ P) {q : ℚ} (hq : 0 < q) : |sigVal P q - q| ≤ q / (2 * 10 ^ (P - 1)) := by
  have hpos : (0 : ℚ) < 10 ^ (Int.log 10 q - ((P : ℤ) - 1)) := by positivity
  have hb := (scaled_bounds hP hq).1
  unfold sigVal
  generalize (10 : ℚ) ^ (Int.log 10 q - ((P : ℤ) - 1)) = s at hpos hb ⊢
  have h := roundEven_error (q / s)
  have e : (roundEven (q / s) : ℚ) * s - q = (roundEven (q / s) - q / s) * s := by
    rw [sub_mul, div_mul_cancel₀ _ hpos.ne']
  rw [e, abs_mul, abs_of_pos hpos, le_div_iff₀ (by positivity)]
  rw [le_div_iff₀ hpos] at hb
  calc |(roundEven (q / s) : ℚ) - q / s| * s * (2 * 10 ^ (P - 1))
      ≤ 1 / 2 * s * (2 * 10 ^ (P - 1)) := by
        apply mul_le_mul_of_nonneg_right _ (by positivity)
        exact mul_le_mul_of_nonneg_right h hpos.le
    _ = 10 ^ (P - 1) * s := by ring
    _ ≤ q := hb

/-- The value `%.{P}g` shows. -/
def shownVal (P : Nat) (q : ℚ) : ℚ := if 0 < q then sigVal P q else if q < 0 then -sigVal P (-q) else 0

theorem Digits.neg {P : Nat} {u : ℚ} (h : Digits P u) : Digits P (-u) := by
  obtain ⟨k, e, hk, rfl⟩ := h
  exact ⟨-k, e, by rwa [abs_neg], by push_cast; ring⟩

theorem shownVal_nearest {P : Nat} (hP : 1 ≤ P) (q : ℚ) : NearestDecimal P q (shownVal P q) := by
  unfold shownVal
  split
  · exact sigVal_nearest hP (by assumption)
  · split
    · rename_i h
      obtain ⟨h1, h2⟩ := sigVal_nearest hP (q := -q) (by linarith)
      refine ⟨DTW.Digits.neg h1, fun u hu => ?_⟩
      have h3 := h2 (-u) (DTW.Digits.neg hu)
      rwa [show sigVal P (-q) - -q = -(-sigVal P (-q) - q) by ring, show -u - -q = -(u - q) by ring, abs_neg, abs_neg] at h3
    · have h0 : q = 0 := by apply _root_.le_antisymm <;> linarith
      refine ⟨⟨0, 0, by simp, by simp⟩, fun u _ => ?_⟩
      rw [h0]; simp

theorem shownVal_error {P : Nat} (hP : 1 ≤ P) (q : ℚ) : |shownVal P q - q| ≤ |q| / (2 * 10 ^ (P - 1)) := by
  unfold shownVal
  split
  · rename_i h
    rw [abs_of_pos h]; exact sigVal_error hP h
  · split
    · rename_i h
      have := sigVal_error hP (q := -q) (by linarith)
      rw [abs_of_neg h]
      rwa [show sigVal P (-q) - -q = -(-sigVal P (-q) - q) by ring, abs_neg] at this
    · have h0 : q = 0 := by apply _root_.le_antisymm <;> linarith
      rw [h0]; simp

theorem decimal_of_unsigned {t : Txt} {x : ℚ × Txt} (h : Read.unsigned t = some x) : Read.decimal t = some x := by
  unfold Read.decimal
  split
  · exfalso
    rw [show ∀ t', Read.unsigned ('-' :: t') = none from fun t' => by
      simp [Read.unsigned, Read.nat, digits, List.takeWhile]] at h
    cases h
  · exact h

/-- Reading a formatted number gives the rounded value. -/
theorem decimal_fmtG {P : Nat} (hP : 1 ≤ P) (q : ℚ) {rest : Txt} (hr : Stops rest) :
    Read.decimal (fmtG P (fin q) ++ rest) = some (shownVal P q, rest) := by
  unfold fmtG shownVal
  simp only
  by_cases h0 : q = 0
  · subst h0
    simp only [if_true, lt_self_iff_false, if_false]
    apply decimal_of_unsigned
    unfold Read.unsigned
    rw [nat_append (ds := ['0']) (by intro c hc; rw [List.mem_singleton.1 hc]; decide) (by simp) hr.noDigit]
    have hf : Read.fraction rest = (0, rest) := by
      unfold Read.fraction
      split
      · exact absurd rfl (stops_head hr)
      · rfl
    simp [hf, exponent_stops hr, natOf, Nat.ofDigitChars]
  · rw [if_neg h0]
    by_cases hp : 0 < q
    · rw [if_pos hp, if_pos hp]
      exact decimal_of_unsigned (unsigned_fmtPos hP hp hr)
    · have hn : q < 0 := lt_of_le_of_ne (not_lt.1 hp) h0
      rw [if_neg hp, if_neg hp, if_pos hn]
      show Read.decimal ('-' :: (fmtPos P (-q) ++ rest)) = _
      simp [Read.decimal, unsigned_fmtPos hP (q := -q) (by linarith) hr]

theorem number_fmtG {P : Nat} (hP : 1 ≤ P) (q : ℚ) : Read.number (fmtG P (fin q)) = some (shownVal P q) := by
  have := decimal_fmtG hP q (rest := []) (by intro c hc; simp at hc)
  rw [List.append_nil] at this
  simp [Read.number, this]


/-! ### The printed recursion -/

theorem decimal_head {t : Txt} {x : ℚ × Txt} (h : Read.decimal t = some x) :
    ∃ c t', t = c :: t' ∧ (c = '-' ∨ c.isDigit = true) := by
  cases t with
  | nil => simp [Read.decimal, Read.unsigned, Read.nat, digits] at h
  | cons c t' =>
    refine ⟨c, t', rfl, ?_⟩
    by_cases hc : c = '-'
    · exact .inl hc
    · right
      by_contra hd
      have hu : Read.unsigned (c :: t') = some x := by
        unfold Read.decimal at h
        split at h
        · rename_i heq; exact absurd (List.cons.inj heq).1 hc
        · exact h
      have hdg : digits (c :: t') = [] := by
        unfold digits
        rw [List.takeWhile_cons, if_neg hd]
      simp [Read.unsigned, Read.nat, hdg] at hu

theorem blanks_replicate (k : Nat) {c : Char} (t : Txt) (hc : c ≠ ' ') : blanks (List.replicate k ' ' ++ c :: t) = c :: t := by
  unfold blanks
  induction k with
  | zero => simp [hc]
  | succ k ih =>
    rw [List.replicate_succ, List.cons_append]
    simpa [List.dropWhile] using ih

theorem blanks_cons {c : Char} (t : Txt) (hc : c ≠ ' ') : blanks (c :: t) = c :: t := blanks_replicate 0 t hc

theorem blanks_blank (t : Txt) : blanks (' ' :: t) = blanks t := by simp [blanks, List.dropWhile]

theorem blanks_blanks (t : Txt) : blanks (blanks t) = blanks t := by
  induction t with
  | nil => rfl
  | cons c t ih =>
    by_cases hc : c = ' '
    · rw [hc, blanks_blank]; exact ih
    · rw [blanks_cons t hc, blanks_cons t hc]

theorem read_offset {d : Int} (hd : 0 ≤ d) {c : Char} (r : Txt) (h1 : c ≠ ' ') (h2 : c.isDigit = false) :
    ∃ t, Read.offset (padRight2 (StepPattern.offsetText d) ++ c :: r) = some (d, t) ∧ blanks t = c :: r := by
  unfold StepPattern.offsetText padRight2
  split
  · rename_i h0
    refine ⟨[' ', ' '] ++ c :: r, ?_, blanks_replicate 2 r h1⟩
    rw [h0]; rfl
  · have hneg : intText (-d) = '-' :: Nat.toDigits 10 d.natAbs := by
      unfold intText
      rw [if_pos (by omega), Int.natAbs_neg]
    rw [hneg]
    refine ⟨List.replicate (2 - ('-' :: Nat.toDigits 10 d.natAbs).length) ' ' ++ c :: r, ?_, blanks_replicate _ r h1⟩
    show (Read.nat (Nat.toDigits 10 d.natAbs ++ _ ++ c :: r)).map _ = _
    rw [List.append_assoc, nat_append (allDigits_toDigits _) Nat.toDigits_ne_nil, natOf_toDigits]
    · simp; omega
    · cases hk : 2 - ('-' :: Nat.toDigits 10 d.natAbs).length with
      | zero => exact noDigit_cons h2
      | succ k => exact noDigit_cons (by decide)

theorem read_cell {di dj : Int} (hi : 0 ≤ di) (hj : 0 ≤ dj) (r : Txt) :
    Read.cell ('[' :: StepPattern.cellText di dj ++ ']' :: r) = some ((di, dj), r) := by
  unfold StepPattern.cellText
  obtain ⟨t1, h1, h2⟩ := read_offset hi (c := ',') ('j' :: padRight2 (StepPattern.offsetText dj) ++ ']' :: r)
    (by decide) (by decide)
  obtain ⟨t2, h3, h4⟩ := read_offset hj (c := ']') r (by decide) (by decide)
  simp only [List.cons_append, List.append_assoc] at h1 ⊢
  simp only [List.cons_append] at h2
  simp [Read.cell, Read.expect, h1, h2, h3, h4]

/-- What the term printed for a row reads as. -/
def textTerm (s : Step) : StepPattern.Printed :=
  if s.w = -1 then .g s.di s.dj else .d (if s.w = 1 then 1 else shownVal 2 s.w) s.di s.dj

theorem read_term (s : Step) (hi : 0 ≤ s.di) (hj : 0 ≤ s.dj) (r : Txt) :
    ∃ c t, blanks (StepPattern.termText s ++ r) = c :: t ∧ (c = 'g' ∨ c = '+') ∧
      Read.term (c :: t) = some (textTerm s, r) := by
  unfold StepPattern.termText textTerm
  split
  · refine ⟨'g', '[' :: StepPattern.cellText s.di s.dj ++ ']' :: r, ?_, .inl rfl, ?_⟩
    · rw [show "    g[".toList = [' ', ' ', ' ', ' ', 'g', '['] from rfl]
      simp [blanks, List.dropWhile]
    · show (Read.cell _).bind _ = _
      rw [read_cell hi hj]; rfl
  · refine ⟨'+', (if s.w = 1 then "    ".toList else padLeft2 (fmtG 2 (fin s.w)) ++ " *".toList) ++ " d[".toList ++
      StepPattern.cellText s.di s.dj ++ [']'] ++ r, ?_, .inr rfl, ?_⟩
    · simp [blanks, List.dropWhile]
    · have hfac : Read.factor ((if s.w = 1 then "    ".toList else padLeft2 (fmtG 2 (fin s.w)) ++ " *".toList) ++
          " d[".toList ++ StepPattern.cellText s.di s.dj ++ [']'] ++ r) =
          some (if s.w = 1 then 1 else shownVal 2 s.w, 'd' :: '[' :: StepPattern.cellText s.di s.dj ++ ']' :: r) := by
        split
        · unfold Read.factor
          have : blanks ("    ".toList ++ " d[".toList ++ StepPattern.cellText s.di s.dj ++ [']'] ++ r) =
              'd' :: '[' :: StepPattern.cellText s.di s.dj ++ ']' :: r := by
            rw [show "    ".toList = [' ', ' ', ' ', ' '] from rfl, show " d[".toList = [' ', 'd', '['] from rfl]
            simp [blanks, List.dropWhile]
          rw [this]; simp
        · have hst : Stops (" *".toList ++ " d[".toList ++ StepPattern.cellText s.di s.dj ++ [']'] ++ r) := by
            intro c hc
            have : c = ' ' := by
              rw [show " *".toList = [' ', '*'] from rfl] at hc
              simpa using hc.symm
            subst this; decide
          have hdec := decimal_fmtG (P := 2) (by omega) s.w hst
          obtain ⟨c, t', hct, hcc⟩ := decimal_head hdec
          have hc1 : c ≠ ' ' := by rcases hcc with h | h <;> rintro rfl <;> revert h <;> decide
          have hc2 : c ≠ 'd' := by rcases hcc with h | h <;> rintro rfl <;> revert h <;> decide
          have hb : blanks (padLeft2 (fmtG 2 (fin s.w)) ++ " *".toList ++ " d[".toList ++
              StepPattern.cellText s.di s.dj ++ [']'] ++ r) = c :: t' := by
            rw [← blanks_replicate (2 - (fmtG 2 (fin s.w)).length) t' hc1, ← hct]
            simp only [padLeft2, List.append_assoc]
          unfold Read.factor
          rw [hb]
          split
          · rename_i heq; exact absurd (List.cons.inj heq).1 hc2
          · rw [← hct, hdec]
            rw [show " *".toList = [' ', '*'] from rfl, show " d[".toList = [' ', 'd', '['] from rfl]
            simp [blanks, List.dropWhile, Read.expect]
      unfold Read.term
      simp only
      rw [hfac]
      simp only [Read.expect, List.cons_append, if_true, Option.bind_eq_bind, Option.bind_some]
      rw [← List.cons_append, read_cell hi hj]; rfl


theorem termText_ne (s : Step) : 0 < (StepPattern.termText s).length := by
  unfold StepPattern.termText
  split <;> simp

theorem comma_line : " ,\n".toList = [' ', ',', '\n'] := rfl

theorem read_terms (rows : List Step) (hi : ∀ s ∈ rows, 0 ≤ s.di ∧ 0 ≤ s.dj) (r : Txt) (fuel : Nat)
    (hf : rows.length < fuel) :
    Read.terms fuel (StepPattern.lineText rows ++ r) = some (rows.map textTerm, r) := by
  induction rows generalizing fuel with
  | nil =>
    cases fuel with
    | zero => simp at hf
    | succ fuel =>
      simp [Read.terms, StepPattern.lineText, comma_line, blanks, List.dropWhile]
  | cons s rows ih =>
    cases fuel with
    | zero => simp at hf
    | succ fuel =>
      have hs := hi s (by simp)
      obtain ⟨c, t, h1, h2, h3⟩ := read_term s hs.1 hs.2 (StepPattern.lineText rows ++ r)
      have ih' := ih (fun x hx => hi x (by simp [hx])) fuel (by simpa using hf)
      have hl : StepPattern.lineText (s :: rows) ++ r = StepPattern.termText s ++ (StepPattern.lineText rows ++ r) := by
        simp [StepPattern.lineText]
      rw [hl]
      unfold Read.terms
      rw [h1]
      split
      · rename_i heq
        have := (List.cons.inj heq).1
        rcases h2 with h2 | h2 <;> rw [h2] at this <;> exact absurd this (by decide)
      · rw [h3]
        simp [ih']

theorem terms_blanks (fuel : Nat) (t : Txt) : Read.terms fuel (blanks t) = Read.terms fuel t := by
  cases fuel with
  | zero => rfl
  | succ fuel => unfold Read.terms; rw [blanks_blanks]

theorem lineText_length (rows : List Step) : rows.length + 3 ≤ (StepPattern.lineText rows).length := by
  induction rows with
  | nil => simp [StepPattern.lineText, comma_line]
  | cons s rows ih =>
    have := termText_ne s
    simp only [StepPattern.lineText, List.map_cons, List.flatten_cons, List.length_append, List.length_cons] at ih ⊢
    omega

theorem line_head (rows : List Step) (hi : ∀ s ∈ rows, 0 ≤ s.di ∧ 0 ≤ s.dj) (r : Txt) :
    ∃ c t, blanks (StepPattern.lineText rows ++ r) = c :: t ∧ c ≠ ')' := by
  cases rows with
  | nil => exact ⟨',', '\n' :: r, by simp [StepPattern.lineText, comma_line, blanks, List.dropWhile], by decide⟩
  | cons s rows =>
    have hs := hi s (by simp)
    obtain ⟨c, t, h1, h2, h3⟩ := read_term s hs.1 hs.2 (StepPattern.lineText rows ++ r)
    refine ⟨c, t, ?_, by rcases h2 with rfl | rfl <;> decide⟩
    rw [← h1]
    simp [StepPattern.lineText]

/-- Blanks at the beginning of a line: at least as many characters remain as the line has terms, and one more. -/
theorem blanks_line_length (rows : List Step) (hi : ∀ s ∈ rows, 0 ≤ s.di ∧ 0 ≤ s.dj) (r : Txt) :
    rows.length < (blanks (StepPattern.lineText rows ++ r)).length := by
  cases rows with
  | nil => simp [StepPattern.lineText, comma_line, blanks, List.dropWhile]
  | cons s rows =>
    have hs := hi s (by simp)
    have hl : StepPattern.lineText (s :: rows) ++ r = StepPattern.termText s ++ (StepPattern.lineText rows ++ r) := by
      simp [StepPattern.lineText]
    have h3 := lineText_length rows
    have h4 : (StepPattern.lineText rows ++ r).length ≤ (blanks (StepPattern.termText s ++ (StepPattern.lineText rows ++ r))).length := by
      have hsuf : ∀ a b : Txt, (∃ x ∈ a, x ≠ ' ') → b.length ≤ (blanks (a ++ b)).length := by
        intro a b
        induction a with
        | nil => rintro ⟨x, hx, _⟩; simp at hx
        | cons x a ih =>
          rintro ⟨y, hy, hy2⟩
          by_cases hx : x = ' '
          · rw [hx, List.cons_append, blanks_blank]
            apply ih
            rcases List.mem_cons.1 hy with h | h
            · exact absurd (h.trans hx) hy2
            · exact ⟨y, h, hy2⟩
          · rw [List.cons_append, blanks_cons _ hx]
            simp; omega
      apply hsuf
      refine ⟨']', ?_, by decide⟩
      unfold StepPattern.termText
      split <;> simp
    rw [hl]
    simp only [List.length_append, List.length_cons] at h4 ⊢
    omega

theorem read_lines (ls : List (List Step)) (hi : ∀ rows ∈ ls, ∀ s ∈ rows, 0 ≤ s.di ∧ 0 ≤ s.dj) (r : Txt) (fuel : Nat)
    (hf : ls.length < fuel) :
    Read.lines fuel ((ls.map StepPattern.lineText).flatten ++ (' ' :: ')' :: r)) =
      some (ls.map (fun rows => rows.map textTerm), r) := by
  induction ls generalizing fuel with
  | nil =>
    cases fuel with
    | zero => simp at hf
    | succ fuel => simp [Read.lines, blanks, List.dropWhile]
  | cons rows ls ih =>
    cases fuel with
    | zero => simp at hf
    | succ fuel =>
      have hr := hi rows (by simp)
      have ih' := ih (fun x hx => hi x (by simp [hx])) fuel (by simpa using hf)
      rw [List.map_cons, List.flatten_cons, List.append_assoc]
      obtain ⟨c, t, h1, h2⟩ := line_head rows hr ((ls.map StepPattern.lineText).flatten ++ (' ' :: ')' :: r))
      have h3 := blanks_line_length rows hr ((ls.map StepPattern.lineText).flatten ++ (' ' :: ')' :: r))
      have h4 := read_terms rows hr ((ls.map StepPattern.lineText).flatten ++ (' ' :: ')' :: r)) _ h3
      rw [← terms_blanks, h1] at h4
      unfold Read.lines
      rw [h1]
      split
      · rename_i heq; exact absurd (List.cons.inj heq).1 h2
      · rw [h4]
        simp [ih']

theorem afterPrefix_append (a b : Txt) : Read.afterPrefix a (a ++ b) = some b := by
  induction a with
  | nil => rfl
  | cons c a ih => simp [Read.afterPrefix, Read.expect, ih]

theorem read_pattern {p : StepPattern} (hne : p.mx ≠ []) (hi : ∀ s ∈ p.mx, 0 ≤ s.di ∧ 0 ≤ s.dj) :
    ∃ t np, p.getNPatterns = .ok np ∧ p.text = .ok t ∧
      Read.pattern t = some ((List.range np.toNat).map (fun (k : Nat) =>
        (p.extractPattern ((k : Int) + 1)).reverse.map textTerm), p.hint.toList) := by
  obtain ⟨np, hnp⟩ : ∃ np, p.getNPatterns = .ok np := by
    unfold StepPattern.getNPatterns
    split
    · rename_i h; exact absurd h hne
    · exact ⟨_, rfl⟩
  have hls : ∀ rows ∈ (List.range np.toNat).map (fun (k : Nat) => (p.extractPattern ((k : Int) + 1)).reverse),
      ∀ s ∈ rows, 0 ≤ s.di ∧ 0 ≤ s.dj := by
    intro rows hrows s hs
    obtain ⟨k, _, rfl⟩ := List.mem_map.1 hrows
    apply hi
    simp only [StepPattern.extractPattern, List.mem_reverse, List.mem_filter] at hs
    exact hs.1
  let ls := (List.range np.toNat).map (fun (k : Nat) => (p.extractPattern ((k : Int) + 1)).reverse)
  let tail : Txt := " \n\nNormalization hint: ".toList ++ (p.hint.toList ++ ['\n'])
  refine ⟨"Step pattern recursion:\n g[i,j] = min(\n".toList ++ ((ls.map StepPattern.lineText).flatten ++ (' ' :: ')' :: tail)),
    np, hnp, ?_, ?_⟩
  · unfold StepPattern.text
    rw [hnp]
    simp only [Except_bind_ok]
    congr 1
    simp only [ls, tail, List.map_map]
    rw [show "Step pattern recursion:\n g[i,j] = min(\n".toList =
        "Step pattern recursion:\n".toList ++ " g[i,j] = min(\n".toList from rfl,
      show " ) \n\n".toList = [' ', ')', ' ', '\n', '\n'] from rfl, show "\n".toList = ['\n'] from rfl,
      show " \n\nNormalization hint: ".toList = [' ', '\n', '\n'] ++ "Normalization hint: ".toList from rfl]
    simp only [List.append_assoc, List.cons_append, List.nil_append]
    rfl
  · have h1 := afterPrefix_append "Step pattern recursion:\n g[i,j] = min(\n".toList
      ((ls.map StepPattern.lineText).flatten ++ (' ' :: ')' :: tail))
    have hlen : ls.length < ((ls.map StepPattern.lineText).flatten ++ (' ' :: ')' :: tail)).length := by
      have : ∀ l : List (List Step), l.length ≤ ((l.map StepPattern.lineText).flatten).length := by
        intro l
        induction l with
        | nil => simp
        | cons x l ih =>
          have := lineText_length x
          simp only [List.map_cons, List.flatten_cons, List.length_append, List.length_cons]
          omega
      have h := this ls
      simp only [List.length_append, List.length_cons]
      omega
    have h2 := read_lines ls hls tail _ hlen
    have h3 := afterPrefix_append " \n\nNormalization hint: ".toList (p.hint.toList ++ ['\n'])
    unfold Read.pattern
    simp only [h1, h2, tail, h3, Option.bind_eq_bind, Option.bind_some]
    simp [ls, List.map_map, Function.comp_def]


/-! ### The printed matrix -/

theorem tokens_digits (acc ds t : Txt) (hd : AllDigits ds) : tokens acc (ds ++ t) = tokens (acc ++ ds) t := by
  induction ds generalizing acc with
  | nil => simp
  | cons c ds ih =>
    rw [List.cons_append, tokens, if_pos (hd c (by simp)), ih _ (fun x hx => hd x (by simp [hx]))]
    simp

theorem tokens_sep {c : Char} {ts : List Tok} (hc : c.isDigit = false) (hs : separator c = some ts) (acc t : Txt) :
    tokens acc (c :: t) = (tokens [] t).map fun us => flush acc ++ ts ++ us := by
  rw [tokens, if_neg (by simp [hc]), hs]; rfl

theorem tokens_blank (acc t : Txt) : tokens acc (' ' :: t) = (tokens [] t).map fun us => flush acc ++ us := by
  rw [tokens_sep (ts := []) (by decide) (by decide)]; simp

theorem tokens_newline (acc t : Txt) : tokens acc ('\n' :: t) = (tokens [] t).map fun us => flush acc ++ us := by
  rw [tokens_sep (ts := []) (by decide) (by decide)]; simp

theorem map_id' (x : Option (List Tok)) : (x.map fun us => [] ++ us) = x := by cases x <;> rfl

/-- Blanks before a line end do not matter. -/
theorem tokens_trailing (k : Nat) (acc t r : Txt) :
    tokens acc (t ++ (List.replicate k ' ' ++ '\n' :: r)) = tokens acc (t ++ '\n' :: r) := by
  induction t generalizing acc with
  | nil =>
    cases k with
    | zero => rfl
    | succ k =>
      have hb : ∀ k, tokens [] (List.replicate k ' ' ++ '\n' :: r) = tokens [] r := by
        intro k
        induction k with
        | zero => rw [List.replicate_zero, List.nil_append, tokens_newline]; exact map_id' _
        | succ k ih => rw [List.replicate_succ, List.cons_append, tokens_blank, ih]; exact map_id' _
      rw [List.nil_append, List.nil_append, List.replicate_succ, List.cons_append, tokens_blank, hb, tokens_newline]
  | cons c t ih =>
    rw [List.cons_append, List.cons_append, tokens, tokens]
    split
    · rw [ih]
    · rw [ih]

/-- A text that ends at a separator and has the words `ts`. -/
def Done (u : Txt) (ts : List Tok) : Prop := ∀ r, tokens [] (u ++ r) = (tokens [] r).map fun us => ts ++ us

theorem Done.append {u v : Txt} {ts us : List Tok} (h1 : Done u ts) (h2 : Done v us) : Done (u ++ v) (ts ++ us) := by
  intro r
  rw [List.append_assoc, h1, h2, Option.map_map]
  congr 1
  funext x; simp

theorem Done.nil : Done [] [] := fun r => by rw [List.nil_append]; exact (map_id' _).symm

theorem Done.sep {c : Char} {ts : List Tok} (hc : c.isDigit = false) (hs : separator c = some ts) : Done [c] ts := by
  intro r
  rw [List.singleton_append, tokens_sep hc hs]
  simp [flush]

theorem Done.blanks (k : Nat) : Done (List.replicate k ' ') [] := by
  induction k with
  | zero => exact Done.nil
  | succ k ih =>
    rw [List.replicate_succ, ← List.singleton_append]
    exact (Done.sep (ts := []) (by decide) (by decide)).append ih

/-- A text that has the words `ts` when a separator follows. -/
def Word (u : Txt) (ts : List Tok) : Prop :=
  ∀ c r, c.isDigit = false → tokens [] (u ++ c :: r) = (tokens [] (c :: r)).map fun us => ts ++ us

theorem Done.word {u v : Txt} {ts us : List Tok} (h1 : Done u ts) (h2 : Word v us) : Word (u ++ v) (ts ++ us) := by
  intro c r hc
  rw [List.append_assoc, h1, h2 c r hc, Option.map_map]
  congr 1
  funext x; simp

theorem Word.done {u : Txt} {ts : List Tok} (h : Word u ts) : Done (u ++ [' ']) ts := by
  intro r
  rw [List.append_assoc, List.singleton_append, h ' ' r (by decide), tokens_blank]
  congr 1
  simp [flush]

theorem Word.nat (n : Nat) : Word (Nat.toDigits 10 n) [.num n] := by
  intro c r hc
  rw [tokens_digits _ _ _ (allDigits_toDigits n), List.nil_append]
  rw [tokens, tokens, if_neg (by simp [hc]), if_neg (by simp [hc])]
  cases separator c with
  | none => rfl
  | some ts =>
    simp only [Option.bind_some, Option.map_map]
    congr 1
    funext x
    simp [flush, Nat.toDigits_ne_nil, natOf_toDigits]

theorem Word.padded (w n : Nat) : Word (padLeft w (intText n)) [.num n] := by
  have h : intText (n : Int) = Nat.toDigits 10 n := by
    unfold intText
    rw [if_neg (by omega)]; rfl
  rw [h]
  exact (Done.blanks _).word (Word.nat n)

theorem Word.dots : Word ['.', '.', '.'] [.dot, .dot, .dot] := by
  intro c r hc
  show tokens [] ('.' :: '.' :: '.' :: c :: r) = _
  rw [tokens_sep (ts := [.dot]) (by decide) (by decide), tokens_sep (ts := [.dot]) (by decide) (by decide),
    tokens_sep (ts := [.dot]) (by decide) (by decide)]
  simp [flush, Option.map_map, Function.comp_def]

theorem rstrip_spec (l : Txt) : ∃ k, l = rstrip l ++ List.replicate k ' ' := by
  refine ⟨(l.reverse.takeWhile (fun c => c = ' ')).length, ?_⟩
  have h := List.takeWhile_append_dropWhile (p := fun c => decide (c = ' ')) (l := l.reverse)
  have h2 := congrArg List.reverse h
  rw [List.reverse_append, List.reverse_reverse] at h2
  conv_lhs => rw [← h2]
  unfold rstrip
  congr 1
  rw [List.eq_replicate_iff]
  refine ⟨by simp, fun c hc => ?_⟩
  have := List.all_eq_true.1 List.all_takeWhile c (List.mem_reverse.1 hc)
  simpa using this

theorem extendLine_word {s line W : Txt} {ts us : List Tok} (width : Nat) (h : Done (s ++ line) ts) (hW : Word W us) :
    Word ((extendLine 2 width s line W).1 ++ (extendLine 2 width s line W).2) (ts ++ us) := by
  unfold extendLine
  split
  · have hd : Done (s ++ rstrip line ++ ['\n'] ++ List.replicate 2 ' ') ts := by
      intro r
      obtain ⟨k, hk⟩ := rstrip_spec line
      have h1 := tokens_trailing k [] (s ++ rstrip line) (List.replicate 2 ' ' ++ r)
      have h2 := h ('\n' :: (List.replicate 2 ' ' ++ r))
      rw [hk] at h2
      simp only [List.append_assoc, List.cons_append, List.nil_append] at h1 h2 ⊢
      rw [← h1, h2, tokens_newline]
      have h3 := Done.blanks 2 r
      rw [h3]
      simp [flush]
    have := hd.word hW
    simpa [List.append_assoc] using this
  · rw [← List.append_assoc]
    exact h.word hW

theorem layRow_word {s line : Txt} {ts : List Tok} (ws : List Txt) (wts : List (List Tok)) (hne : ws ≠ [])
    (hw : List.Forall₂ Word ws wts) (h : Done (s ++ line) ts) : Word (layRow s line ws) (ts ++ wts.flatten) := by
  induction hw generalizing s line ts with
  | nil => exact absurd rfl hne
  | @cons w wt ws wts h1 h2 ih =>
    cases ws with
    | nil =>
      cases h2
      simpa [layRow] using extendLine_word 73 h h1
    | cons w' ws =>
      rw [layRow, List.flatten_cons, ← List.append_assoc]
      apply ih (by simp)
      rw [← List.append_assoc]
      exact (extendLine_word 73 h h1).done

/-- The two blanks in front survive. -/
def Fresh (s line : Txt) : Prop :=
  (∃ s', s = ' ' :: ' ' :: s') ∨ (s = [] ∧ ∃ l, line = ' ' :: ' ' :: l ∧ (l = [] ∨ ∃ x ∈ l, x ≠ ' '))

theorem rstrip_keeps (a b : Txt) (h : ∃ x ∈ b, x ≠ ' ') : ∃ b', rstrip (a ++ b) = a ++ b' := by
  unfold rstrip
  rw [List.reverse_append, List.dropWhile_append]
  have : (List.dropWhile (fun c => decide (c = ' ')) b.reverse).isEmpty = false := by
    rw [Bool.eq_false_iff]
    intro he
    rw [List.isEmpty_iff] at he
    obtain ⟨x, hx, hx2⟩ := h
    have h1 := List.takeWhile_append_dropWhile (p := fun c => decide (c = ' ')) (l := b.reverse)
    rw [he, List.append_nil] at h1
    have h2 := List.all_eq_true.1 (List.all_takeWhile (p := fun c => decide (c = ' ')) (l := b.reverse)) x
      (by rw [h1]; exact List.mem_reverse.2 hx)
    exact hx2 (by simpa using h2)
  rw [this]
  simp

theorem extendLine_fresh {s line W : Txt} (width : Nat) (h : Fresh s line) (hW : ∃ x ∈ W, x ≠ ' ') :
    Fresh (extendLine 2 width s line W).1 (extendLine 2 width s line W).2 := by
  unfold extendLine
  split
  · rename_i hc
    left
    rcases h with ⟨s', rfl⟩ | ⟨rfl, l, rfl, hl | hl⟩
    · exact ⟨_, rfl⟩
    · subst hl; simp at hc
    · obtain ⟨b', hb⟩ := rstrip_keeps [' ', ' '] l hl
      simp only [List.cons_append, List.nil_append] at hb
      refine ⟨b' ++ ['\n'], ?_⟩
      rw [hb]; simp
  · rcases h with ⟨s', rfl⟩ | ⟨rfl, l, rfl, hl⟩
    · exact .inl ⟨_, rfl⟩
    · refine .inr ⟨rfl, l ++ W, rfl, .inr ?_⟩
      obtain ⟨x, hx, hx2⟩ := hW
      exact ⟨x, List.mem_append_right _ hx, hx2⟩

theorem Fresh.blank {s line : Txt} (h : Fresh s line) (hx : ∃ x ∈ line, x ≠ ' ') : Fresh s (line ++ [' ']) := by
  rcases h with h | ⟨rfl, l, rfl, hl⟩
  · exact .inl h
  · refine .inr ⟨rfl, l ++ [' '], rfl, ?_⟩
    rcases hl with rfl | ⟨x, hx, hx2⟩
    · simp at hx
    · exact .inr ⟨x, List.mem_append_left _ hx, hx2⟩

theorem extendLine_inked {s line W : Txt} (width : Nat) (hW : ∃ x ∈ W, x ≠ ' ') :
    ∃ x ∈ (extendLine 2 width s line W).2, x ≠ ' ' := by
  obtain ⟨x, hx, hx2⟩ := hW
  unfold extendLine
  split <;> exact ⟨x, List.mem_append_right _ hx, hx2⟩

theorem layRow_fresh {s line : Txt} (ws : List Txt) (hW : ∀ W ∈ ws, ∃ x ∈ W, x ≠ ' ') (h : Fresh s line) :
    ∃ t, layRow s line ws = ' ' :: ' ' :: t := by
  have fin : ∀ {s line : Txt}, Fresh s line → ∃ t, s ++ line = ' ' :: ' ' :: t := by
    rintro s line (⟨s', rfl⟩ | ⟨rfl, l, rfl, _⟩)
    · exact ⟨_, rfl⟩
    · exact ⟨_, rfl⟩
  induction ws generalizing s line with
  | nil => exact fin h
  | cons w ws ih =>
    cases ws with
    | nil => exact fin (extendLine_fresh 73 h (hW w (by simp)))
    | cons w' ws =>
      rw [layRow]
      exact ih (fun W hW' => hW W (by simp [hW']))
        ((extendLine_fresh 73 h (hW w (by simp))).blank (extendLine_inked 73 (hW w (by simp))))

theorem padded_inked (w n : Nat) : ∃ x ∈ padLeft w (intText n), x ≠ ' ' := by
  have h : intText (n : Int) = Nat.toDigits 10 n := by
    unfold intText
    rw [if_neg (by omega)]; rfl
  rw [h]
  obtain ⟨x, hx⟩ := List.exists_mem_of_ne_nil _ (Nat.toDigits_ne_nil (n := n) (b := 10))
  refine ⟨x, List.mem_append_right _ hx, ?_⟩
  rintro rfl
  have := allDigits_toDigits n _ hx
  revert this; decide

/-- The words of a printed row. -/
def rowToks (summary : Bool) (l : List Nat) : List Tok :=
  if summary = true ∧ 6 < l.length then
    (l.take 3).map Tok.num ++ [.dot, .dot, .dot] ++ (l.drop (l.length - 3)).map Tok.num
  else l.map Tok.num

theorem flatten_singletons (l : List Nat) : (l.map fun n => [Tok.num n]).flatten = l.map Tok.num := by
  induction l with
  | nil => rfl
  | cons a l ih => simp [ih]

theorem forall₂_words (w : Nat) (l : List Nat) :
    List.Forall₂ Word (l.map fun n : Nat => padLeft w (intText n)) (l.map fun n => [Tok.num n]) := by
  induction l with
  | nil => exact .nil
  | cons a l ih => exact .cons (Word.padded w a) ih

theorem row_done (summary : Bool) (w : Nat) (l : List Nat) (hne : l ≠ []) :
    Done (rowText summary w (l.map fun n : Nat => (n : Int))) (.opening :: rowToks summary l ++ [.closing]) := by
  obtain ⟨ws, wts, hws, hwne, hf, hink, hts⟩ : ∃ (ws : List Txt) (wts : List (List Tok)),
      rowText summary w (l.map fun n : Nat => (n : Int)) = '[' :: (layRow [] [' ', ' '] ws).drop 2 ++ [']'] ∧ ws ≠ [] ∧
      List.Forall₂ Word ws wts ∧ (∀ W ∈ ws, ∃ x ∈ W, x ≠ ' ') ∧ wts.flatten = rowToks summary l := by
    unfold rowText rowToks edges
    simp only [List.length_map]
    by_cases hs : summary = true ∧ 6 < l.length
    · simp only [if_pos hs]
      refine ⟨_, ((l.take 3).map fun n => [Tok.num n]) ++ [[.dot, .dot, .dot]] ++
        ((l.drop (l.length - 3)).map fun n => [Tok.num n]), rfl, by simp, ?_, ?_, ?_⟩
      · rw [← List.map_take, ← List.map_drop, List.map_map, List.map_map]
        exact List.rel_append (List.rel_append (forall₂_words w _) (.cons Word.dots .nil)) (forall₂_words w _)
      · intro W hW
        rw [← List.map_take, ← List.map_drop, List.map_map, List.map_map] at hW
        simp only [List.mem_append, List.mem_map, List.mem_singleton] at hW
        rcases hW with (⟨n, _, rfl⟩ | rfl) | ⟨n, _, rfl⟩
        · exact padded_inked w n
        · exact ⟨'.', by simp, by decide⟩
        · exact padded_inked w n
      · rw [List.flatten_append, List.flatten_append, flatten_singletons, flatten_singletons]; simp
    · simp only [if_neg hs]
      refine ⟨_, l.map fun n => [Tok.num n], rfl, by simpa using hne, ?_, ?_, flatten_singletons l⟩
      · simp only [List.map_nil, List.nil_append, List.map_map]
        exact forall₂_words w _
      · intro W hW
        simp only [List.map_nil, List.nil_append, List.map_map, List.mem_map] at hW
        obtain ⟨n, _, rfl⟩ := hW
        exact padded_inked w n
  rw [hws, ← hts]
  obtain ⟨t, ht⟩ := layRow_fresh (s := []) (line := [' ', ' ']) ws hink (.inr ⟨rfl, [], rfl, .inl rfl⟩)
  have h1 : Word (layRow [] [' ', ' '] ws) ([] ++ wts.flatten) :=
    layRow_word ws wts hwne hf (Done.blanks 2)
  rw [ht] at h1 ⊢
  have h2 : Word t wts.flatten := by
    intro c r hc
    have := h1 c r hc
    rw [List.cons_append, List.cons_append, tokens_blank, tokens_blank] at this
    simpa [flush, Option.map_map, Function.comp_def] using this
  intro r
  show tokens [] ('[' :: (t ++ [']']) ++ r) = _
  rw [List.cons_append, tokens_sep (ts := [.opening]) (by decide) (by decide), List.append_assoc, List.singleton_append,
    h2 ']' r (by decide), tokens_sep (ts := [.closing]) (by decide) (by decide)]
  simp [flush, Option.map_map, Function.comp_def]

theorem tokens_showPath (a b : List Nat) (ha : a ≠ []) (hb : b ≠ []) :
    tokens [] (showPath (a.map fun n : Nat => (n : Int)) (b.map fun n : Nat => (n : Int))) =
      some ([.opening, .opening] ++ rowToks (decide (1000 < a.length + b.length)) a ++ [.closing, .opening] ++
        rowToks (decide (1000 < a.length + b.length)) b ++ [.closing, .closing]) := by
  unfold showPath
  rw [if_neg (by simpa using ha)]
  simp only [List.length_map]
  rw [List.append_assoc, List.cons_append, tokens_sep (ts := [.opening]) (by decide) (by decide)]
  generalize (List.map (fun z => List.length (intText z)) _).foldl max 0 = w
  rw [row_done _ w a ha]
  simp only [List.cons_append]
  rw [tokens_newline, tokens_blank, row_done _ w b hb,
    tokens_sep (ts := [.closing]) (by decide) (by decide)]
  simp [flush, tokens]

end DTW
