import Verif.Props.Doubles

/-!
# The slanted band in double arithmetic

`slantedBandWindow` (window.py:162-164) divides and subtracts in doubles.  For integer window sizes the rounding never
changes the verdict; for other sizes it can only for cells on the edge of the band.
-/

namespace DTW
open F64

variable {n m : Nat}

theorem rnd_neg (f : Bool) (q : ℚ) : (binary64 f).rnd (-q) = ((binary64 f).rnd q).neg := by
  show rnd64 (-q) = (rnd64 q).neg
  unfold rnd64
  rcases lt_trichotomy q 0 with h | rfl | h
  · rw [if_pos (by linarith), if_neg (not_lt.2 h.le), if_pos h]
    cases overflow (roundPos (-q)) <;> simp [F64.neg]
  · simp [F64.neg]
  · rw [if_neg (by linarith), if_pos (by linarith), if_pos h, neg_neg]

theorem rnd_int (f : Bool) (z : ℤ) (h : |z| ≤ 2 ^ 53) : (binary64 f).rnd (z : ℚ) = fin (z : ℚ) := by
  rcases Int.eq_nat_or_neg z with ⟨k, rfl | rfl⟩
  · have := C50_binary64_integers f k (by
      rw [Int.abs_eq_natAbs, Int.natAbs_natCast] at h
      exact_mod_cast h)
    simpa using this
  · have := C50_binary64_integers f k (by
      rw [abs_neg, Int.abs_eq_natAbs, Int.natAbs_natCast] at h
      exact_mod_cast h)
    push_cast
    rw [rnd_neg, this]
    rfl

theorem le_fin {x y : ℚ} : F64.le (fin x) (fin y) ↔ x ≤ y := by
  simp [F64.le, F64.lt]

/-- Rounding keeps a number between two integers. -/
theorem rnd_between (f : Bool) {lo hi : ℤ} (hlo : |lo| ≤ 2 ^ 53) (hhi : |hi| ≤ 2 ^ 53) {x : ℚ} (h1 : (lo : ℚ) ≤ x)
    (h2 : x ≤ hi) : ∃ v, (binary64 f).rnd x = fin v ∧ (lo : ℚ) ≤ v ∧ v ≤ hi := by
  have e1 := (binary64 f).rnd_le h1
  have e2 := (binary64 f).rnd_le h2
  rw [rnd_int f lo hlo] at e1
  rw [rnd_int f hi hhi] at e2
  cases hv : (binary64 f).rnd x with
  | nan => exact absurd hv ((binary64 f).rnd_ne_nan x)
  | pinf => rw [hv] at e2; simp [F64.le, F64.lt] at e2
  | ninf => rw [hv] at e1; simp [F64.le, F64.lt] at e1
  | fin v =>
    rw [hv] at e1 e2
    exact ⟨v, rfl, le_fin.1 e1, le_fin.1 e2⟩

theorem rnd_err (f : Bool) {x : ℚ} (h : x = 0 ∨ (1 / 2 ^ 40 ≤ |x| ∧ |x| ≤ 2 ^ 40)) :
    ∃ v, (binary64 f).rnd x = fin v ∧ |v - x| ≤ |x| / 2 ^ 53 := by
  have hpos : ∀ y : ℚ, 1 / 2 ^ 40 ≤ y → y ≤ 2 ^ 40 → ∃ v, (binary64 f).rnd y = fin v ∧ |v - y| ≤ y / 2 ^ 53 := by
    intro y h1 h2
    have lo : (2 : ℚ) ^ (-1022 : ℤ) ≤ y := by
      refine le_trans ?_ h1
      rw [show (1 : ℚ) / 2 ^ 40 = 2 ^ (-40 : ℤ) by norm_num]
      exact zpow_le_zpow_right₀ (by norm_num) (by norm_num)
    have hi : y ≤ (2 : ℚ) ^ (1023 : ℤ) := by
      refine le_trans h2 ?_
      rw [show (2 : ℚ) ^ 40 = 2 ^ (40 : ℤ) by norm_num]
      exact zpow_le_zpow_right₀ (by norm_num) (by norm_num)
    obtain ⟨v, hv, h3, h4, _⟩ := (C49_binary64_relerr f).err y lo hi
    refine ⟨v, hv, ?_⟩
    rw [abs_le]
    constructor <;> linarith
  rcases h with rfl | ⟨h1, h2⟩
  · exact ⟨0, (binary64 f).rnd_zero, by simp⟩
  · rcases abs_cases x with ⟨e, _⟩ | ⟨e, _⟩
    · rw [e] at h1 h2 ⊢
      exact hpos x h1 h2
    · rw [e] at h1 h2 ⊢
      obtain ⟨v, hv, h3⟩ := hpos (-x) h1 h2
      refine ⟨-v, ?_, ?_⟩
      · have := rnd_neg f (-x)
        rw [neg_neg, hv] at this
        exact this
      · rw [show -v - x = -(v - -x) by ring, abs_neg]
        exact h3

theorem slanted_unfold (w : ℚ) (n m i j : Nat) : slantedBandVal w n m i j =
    (match (binary64 false).rnd ((i : ℚ) * m / n) with
      | fin diagj => match (binary64 false).rnd ((j : ℚ) - diagj) with
        | fin d => decide (|d| ≤ w)
        | _ => false
      | _ => false) := by
  unfold slantedBandVal
  push_cast
  rfl

/-- With an integer `window_size` the band evaluated in doubles is the band of the formula. -/
theorem slanted_int (w : ℤ) {i j : Nat} (hnm : n * m < 2147483648) (hi : i < n) (hj : j < m) :
    slantedBandVal w n m i j = decide (|(j : ℚ) - i * m / n| ≤ (w : ℚ)) := by
  rw [slanted_unfold]
  have hn : 0 < n := by omega
  have hm : 0 < m := by omega
  have hnq : (0 : ℚ) < n := by exact_mod_cast hn
  have hnq1 : (1 : ℚ) ≤ n := by exact_mod_cast hn
  have hmq1 : (1 : ℚ) ≤ m := by exact_mod_cast hm
  have hnmq : (n : ℚ) * m < 2 ^ 31 := by
    have : ((n * m : ℕ) : ℚ) < ((2147483648 : ℕ) : ℚ) := by exact_mod_cast hnm
    push_cast at this
    linarith
  have hml : (m : ℚ) < 2 ^ 31 := by nlinarith
  have hnl : (n : ℚ) < 2 ^ 31 := by nlinarith
  have hmz : (m : ℤ) < 2 ^ 31 := by
    have : m < 2147483648 := by nlinarith
    norm_num
    omega
  have hiq : (i : ℚ) + 1 ≤ n := by exact_mod_cast hi
  have hi0 : (0 : ℚ) ≤ i := by positivity
  have hjq : (j : ℚ) ≤ m := by exact_mod_cast hj.le
  have hj0 : (0 : ℚ) ≤ j := by positivity
  set x : ℚ := (i : ℚ) * m / n with hx
  have hxn : x * n = i * m := by rw [hx]; exact div_mul_cancel₀ _ (ne_of_gt hnq)
  have hx0 : 0 ≤ x := by rw [hx]; positivity
  have hxm : x ≤ m := by
    rw [hx, div_le_iff₀ hnq]
    nlinarith
  have hjx : |(j : ℚ) - x| ≤ m := by rw [abs_le]; constructor <;> linarith
  by_cases hin : |(j : ℚ) - x| ≤ w
  · -- inside: everything is squeezed between integers
    have hw0 : 0 ≤ w := by
      have : (0 : ℚ) ≤ w := le_trans (abs_nonneg _) hin
      exact_mod_cast this
    set w' : ℤ := min w m with hw'
    have hw'0 : 0 ≤ w' := le_min hw0 (by omega)
    have hw'm : w' ≤ m := min_le_right _ _
    have hw'w : w' ≤ w := min_le_left _ _
    have hin' : |(j : ℚ) - x| ≤ (w' : ℚ) := by
      rcases min_choice w (m : ℤ) with h | h
      · rw [hw', h]; exact hin
      · rw [hw', h]; exact_mod_cast hjx
    rw [abs_le] at hin'
    have hjz : (j : ℤ) < m := by exact_mod_cast hj
    obtain ⟨v, hv, hv1, hv2⟩ := rnd_between false (lo := j - w') (hi := j + w') (x := x)
      (by rw [abs_le]; constructor <;> norm_num at hmz ⊢ <;> omega)
      (by rw [abs_le]; constructor <;> norm_num at hmz ⊢ <;> omega)
      (by push_cast; linarith) (by push_cast; linarith)
    push_cast at hv1 hv2
    obtain ⟨d, hd, hd1, hd2⟩ := rnd_between false (lo := -w') (hi := w') (x := (j : ℚ) - v)
      (by rw [abs_le]; constructor <;> norm_num at hmz ⊢ <;> omega)
      (by rw [abs_le]; constructor <;> norm_num at hmz ⊢ <;> omega)
      (by push_cast; linarith) (by push_cast; linarith)
    push_cast at hd1
    have hww : (w' : ℚ) ≤ w := by exact_mod_cast hw'w
    have hdw : |d| ≤ (w : ℚ) := by rw [abs_le]; constructor <;> linarith
    rw [hv]
    simp only [hd, hdw, hin, decide_true]
  · -- outside: the distance to the band is at least 1/n, far more than the rounding errors
    have hx' : x = 0 ∨ (1 / 2 ^ 40 ≤ |x| ∧ |x| ≤ 2 ^ 40) := by
      rcases Nat.eq_zero_or_pos i with rfl | hip
      · left; rw [hx]; simp
      · right
        rw [abs_of_nonneg hx0]
        have hi1 : (1 : ℚ) ≤ i := by exact_mod_cast hip
        refine ⟨?_, by linarith⟩
        rw [hx, div_le_div_iff₀ (by positivity) hnq]
        have : (1 : ℚ) ≤ i * m := by nlinarith
        nlinarith
    obtain ⟨v, hv, hve⟩ := rnd_err false hx'
    rw [abs_of_nonneg hx0] at hve
    rw [hv]
    have hvm : |v - x| ≤ m / 2 ^ 53 := hve.trans (by
      apply div_le_div_of_nonneg_right hxm; positivity)
    rw [decide_eq_false hin]
    have hsmall : (4 : ℚ) * (m / 2 ^ 53) < 1 / n := by
      rw [lt_div_iff₀ hnq]
      nlinarith
    by_cases hw0 : w < 0
    · have hwq : (w : ℚ) < 0 := by exact_mod_cast hw0
      simp only
      split
      · next d hd =>
        have : ¬ |d| ≤ (w : ℚ) := fun h => by
          have := abs_nonneg d
          linarith
        exact decide_eq_false this
      · rfl
    · have hw0 : 0 ≤ w := by omega
      have hwq : (0 : ℚ) ≤ w := by exact_mod_cast hw0
      -- the gap
      have hgap : (w : ℚ) + 1 / n ≤ |(j : ℚ) - x| := by
        have h1 : (w : ℚ) * n < |(j : ℚ) - x| * n := by
          have := not_le.1 hin
          exact mul_lt_mul_of_pos_right this hnq
        have h2 : |(j : ℚ) - x| * n = ((|(j : ℤ) * n - i * m| : ℤ) : ℚ) := by
          push_cast
          conv_lhs => rw [show (n : ℚ) = |(n : ℚ)| from (abs_of_pos hnq).symm, ← abs_mul]
          congr 1
          rw [sub_mul, hxn]
        rw [h2] at h1
        have h3 : w * n + 1 ≤ |(j : ℤ) * n - i * m| := by
          have : ((w * n : ℤ) : ℚ) < ((|(j : ℤ) * n - i * m| : ℤ) : ℚ) := by push_cast at h1 ⊢; exact h1
          have : w * n < |(j : ℤ) * n - i * m| := by exact_mod_cast this
          omega
        have h4 : (w : ℚ) * n + 1 ≤ |(j : ℚ) - x| * n := by
          rw [h2]
          exact_mod_cast h3
        have e : (w : ℚ) + 1 / n = (w * n + 1) / n := by
          rw [add_div, mul_div_cancel_right₀ _ (ne_of_gt hnq)]
        rw [e, div_le_iff₀ hnq]
        exact h4
      have htri : |(j : ℚ) - x| ≤ |(j : ℚ) - v| + |v - x| := by
        have := abs_add_le ((j : ℚ) - v) (v - x)
        rwa [show (j : ℚ) - v + (v - x) = j - x by ring] at this
      have htri2 : |(j : ℚ) - v| ≤ |(j : ℚ) - x| + |v - x| := by
        have := abs_add_le ((j : ℚ) - x) (x - v)
        rwa [show (j : ℚ) - x + (x - v) = j - v by ring, abs_sub_comm x v] at this
      have hm53 : (m : ℚ) / 2 ^ 53 ≤ 1 := by
        rw [div_le_one (by positivity)]
        linarith
      have hinv : (1 : ℚ) / 2 ^ 31 < 1 / n := by
        rw [div_lt_div_iff₀ (by positivity) hnq]; linarith
      obtain ⟨d, hd, hde⟩ := rnd_err false (x := (j : ℚ) - v) (.inr ⟨by
          have : (1 : ℚ) / 2 ^ 40 ≤ 1 / 2 ^ 32 := by norm_num
          have h32 : (1 : ℚ) / 2 ^ 32 = 1 / 2 * (1 / 2 ^ 31) := by norm_num
          linarith, by linarith⟩)
      simp only [hd]
      apply decide_eq_false
      intro hc
      have htri3 : |(j : ℚ) - v| ≤ |d| + |d - (j - v)| := by
        have := abs_add_le d ((j : ℚ) - v - d)
        rwa [show d + ((j : ℚ) - v - d) = j - v by ring, abs_sub_comm ((j : ℚ) - v) d] at this
      have hde' : |(j : ℚ) - v| / 2 ^ 53 ≤ 2 * (m / 2 ^ 53) := by
        rw [show 2 * ((m : ℚ) / 2 ^ 53) = (2 * m) / 2 ^ 53 by ring]
        apply div_le_div_of_nonneg_right _ (by positivity)
        linarith
      linarith

/-- The error of the evaluation, for any cell. -/
theorem slanted_error {i j : Nat} (hnm : n * m < 2147483648) (hi : i < n) (hj : j < m) :
    ∃ v d, (binary64 false).rnd ((i : ℚ) * m / n) = fin v ∧ (binary64 false).rnd ((j : ℚ) - v) = fin d ∧
      |d - (j - i * m / n)| ≤ m / 2 ^ 51 ∧ ((i : ℚ) * m / n = j → d = 0) := by
  have hn : 0 < n := by omega
  have hm : 0 < m := by omega
  have hnq : (0 : ℚ) < n := by exact_mod_cast hn
  have hnq1 : (1 : ℚ) ≤ n := by exact_mod_cast hn
  have hmq1 : (1 : ℚ) ≤ m := by exact_mod_cast hm
  have hnmq : (n : ℚ) * m < 2 ^ 31 := by
    have : ((n * m : ℕ) : ℚ) < ((2147483648 : ℕ) : ℚ) := by exact_mod_cast hnm
    push_cast at this
    linarith
  have hml : (m : ℚ) < 2 ^ 31 := by nlinarith
  have hnl : (n : ℚ) < 2 ^ 31 := by nlinarith
  have hiq : (i : ℚ) + 1 ≤ n := by exact_mod_cast hi
  have hi0 : (0 : ℚ) ≤ i := by positivity
  have hjq : (j : ℚ) ≤ m := by exact_mod_cast hj.le
  have hj0 : (0 : ℚ) ≤ j := by positivity
  set x : ℚ := (i : ℚ) * m / n with hx
  have hxn : x * n = i * m := by rw [hx]; exact div_mul_cancel₀ _ (ne_of_gt hnq)
  have hx0 : 0 ≤ x := by rw [hx]; positivity
  have hxm : x ≤ m := by
    rw [hx, div_le_iff₀ hnq]
    nlinarith
  by_cases hxj : x = j
  · refine ⟨j, 0, ?_, ?_, ?_, fun _ => rfl⟩
    · rw [hxj]
      have hjz : |(j : ℤ)| ≤ 2 ^ 53 := by
        have hmn : m < 2147483648 := by nlinarith
        have h1 : j < 2147483648 := by omega
        have h2 : (j : ℤ) < 2147483648 := by exact_mod_cast h1
        rw [abs_of_nonneg (by positivity)]
        exact le_trans h2.le (by norm_num)
      simpa using rnd_int false j hjz
    · rw [sub_self]; exact (binary64 false).rnd_zero
    · rw [hxj, sub_self, sub_self, abs_zero]; positivity
  have hx' : x = 0 ∨ (1 / 2 ^ 40 ≤ |x| ∧ |x| ≤ 2 ^ 40) := by
    rcases Nat.eq_zero_or_pos i with rfl | hip
    · left; rw [hx]; simp
    · right
      rw [abs_of_nonneg hx0]
      have hi1 : (1 : ℚ) ≤ i := by exact_mod_cast hip
      refine ⟨?_, by linarith⟩
      rw [hx, div_le_div_iff₀ (by positivity) hnq]
      have : (1 : ℚ) ≤ i * m := by nlinarith
      nlinarith
  obtain ⟨v, hv, hve⟩ := rnd_err false hx'
  rw [abs_of_nonneg hx0] at hve
  have hvm : |v - x| ≤ m / 2 ^ 53 := hve.trans (by
    apply div_le_div_of_nonneg_right hxm; positivity)
  have hsmall : (4 : ℚ) * (m / 2 ^ 53) < 1 / n := by
    rw [lt_div_iff₀ hnq]
    nlinarith
  have hgap : (1 : ℚ) / n ≤ |(j : ℚ) - x| := by
    have h2 : |(j : ℚ) - x| * n = ((|(j : ℤ) * n - i * m| : ℤ) : ℚ) := by
      push_cast
      conv_lhs => rw [show (n : ℚ) = |(n : ℚ)| from (abs_of_pos hnq).symm, ← abs_mul]
      congr 1
      rw [sub_mul, hxn]
    have h3 : (1 : ℤ) ≤ |(j : ℤ) * n - i * m| := by
      apply Int.one_le_abs
      intro h0
      apply hxj
      have : ((((j : ℤ) * n - i * m : ℤ)) : ℚ) = 0 := by rw [h0]; rfl
      push_cast at this
      rw [hx, div_eq_iff hnq.ne']
      linarith
    rw [div_le_iff₀ hnq, h2]
    exact_mod_cast h3
  have htri : |(j : ℚ) - x| ≤ |(j : ℚ) - v| + |v - x| := by
    have := abs_add_le ((j : ℚ) - v) (v - x)
    rwa [show (j : ℚ) - v + (v - x) = j - x by ring] at this
  have hjv : |(j : ℚ) - v| ≤ 2 * m := by
    have h1 : |(j : ℚ) - x| ≤ m := by rw [abs_le]; constructor <;> linarith
    have := abs_add_le ((j : ℚ) - x) (x - v)
    rw [show (j : ℚ) - x + (x - v) = j - v by ring, abs_sub_comm x v] at this
    have hm53 : (m : ℚ) / 2 ^ 53 ≤ m := div_le_self (by positivity) (by norm_num)
    linarith
  have hinv : (1 : ℚ) / 2 ^ 31 < 1 / n := by
    rw [div_lt_div_iff₀ (by positivity) hnq]; linarith
  obtain ⟨d, hd, hde⟩ := rnd_err false (x := (j : ℚ) - v) (.inr ⟨by
      have : (1 : ℚ) / 2 ^ 40 ≤ 1 / 2 ^ 32 := by norm_num
      have h32 : (1 : ℚ) / 2 ^ 32 = 1 / 2 * (1 / 2 ^ 31) := by norm_num
      linarith, by linarith⟩)
  refine ⟨v, d, hv, hd, ?_, fun h => absurd h hxj⟩
  have hde' : |(j : ℚ) - v| / 2 ^ 53 ≤ 2 * (m / 2 ^ 53) := by
    rw [show 2 * ((m : ℚ) / 2 ^ 53) = (2 * m) / 2 ^ 53 by ring]
    exact div_le_div_of_nonneg_right hjv (by positivity)
  have h3 := abs_add_le (d - ((j : ℚ) - v)) (x - v)
  rw [show d - ((j : ℚ) - v) + (x - v) = d - (j - x) by ring, abs_sub_comm x v] at h3
  have e : (m : ℚ) / 2 ^ 51 = 4 * (m / 2 ^ 53) := by ring
  rw [e]
  have : 0 ≤ (m : ℚ) / 2 ^ 53 := by positivity
  linarith

/-- With any `window_size`, a cell more than `M·2^-51` inside the band of the formula is inside, and a cell inside is at most
that far outside. -/
theorem slanted_near (w : ℚ) {i j : Nat} (hnm : n * m < 2147483648) (hi : i < n) (hj : j < m) :
    (|(j : ℚ) - i * m / n| ≤ w - m / 2 ^ 51 → slantedBandVal w n m i j = true) ∧
    (slantedBandVal w n m i j = true → |(j : ℚ) - i * m / n| ≤ w + m / 2 ^ 51) := by
  obtain ⟨v, d, hv, hd, he, _⟩ := slanted_error hnm hi hj
  have e : slantedBandVal w n m i j = decide (|d| ≤ w) := by
    rw [slanted_unfold, hv]
    simp only [hd]
  rw [e, decide_eq_true_eq]
  have h1 := abs_add_le (d - ((j : ℚ) - i * m / n)) ((j : ℚ) - i * m / n)
  rw [sub_add_cancel] at h1
  have h2 := abs_add_le ((j : ℚ) - i * m / n - d) d
  rw [sub_add_cancel, abs_sub_comm _ d] at h2
  constructor <;> intro h <;> linarith

/-- On the centre line the verdict is exact: the cells of a square matrix are at whole distances. -/
theorem slanted_square (w : ℚ) {i j : Nat} (hnm : n * n < 2147483648) (hi : i < n) (hj : j < n) :
    slantedBandVal w n n i j = decide (|(j : ℚ) - i| ≤ w) := by
  have hn : (n : ℚ) ≠ 0 := by have : 0 < n := by omega
                              positivity
  have hn' : n < 2147483648 := by nlinarith
  rw [slanted_unfold, mul_div_assoc, div_self hn, mul_one]
  have b : ∀ k : ℤ, |k| ≤ n → |k| ≤ 2 ^ 53 := fun k hk => by
    refine le_trans hk (le_trans (by exact_mod_cast hn'.le : (n : ℤ) ≤ 2147483648) (by norm_num))
  have h1 := rnd_int false i (b i (by rw [abs_of_nonneg (by positivity)]; exact_mod_cast hi.le))
  have h2 := rnd_int false (j - i) (b _ (by rw [abs_le]; constructor <;> omega))
  push_cast at h1 h2
  rw [h1]
  simp only [h2]

end DTW
