import Verif.Cdist
import Mathlib.Analysis.Real.Sqrt

/-!
# The rounded square root
-/

namespace DTW
open F64

theorem sqrtUlps_bounds {q : ℚ} (hq : 0 < q) : (2 : ℚ) ^ 104 ≤ sqrtUlps q ∧ sqrtUlps q < 2 ^ 106 := by
  have h1 := Int.zpow_log_le_self (b := 2) (by norm_num) hq
  have h2 := Int.lt_zpow_succ_log_self (b := 2) (by norm_num) q
  push_cast at h1 h2
  have hp := two_zpow_pos (2 * sqrtExp q)
  unfold sqrtUlps
  rw [le_div_iff₀ hp, div_lt_iff₀ hp]
  constructor
  · refine le_trans ?_ h1
    rw [show (2 : ℚ) ^ 104 = 2 ^ (104 : ℤ) by norm_num, ← zpow_add₀ (by norm_num)]
    exact two_zpow_le (by unfold sqrtExp; omega)
  · refine lt_of_lt_of_le h2 ?_
    rw [show (2 : ℚ) ^ 106 = 2 ^ (106 : ℤ) by norm_num, ← zpow_add₀ (by norm_num)]
    exact two_zpow_le (by unfold sqrtExp; omega)

/-- `Nat.sqrt` of the floor. -/
theorem floor_sqrt {y : ℚ} (hy : 0 ≤ y) :
    ((Nat.sqrt ⌊y⌋₊ : ℕ) : ℚ) ^ 2 ≤ y ∧ y < ((Nat.sqrt ⌊y⌋₊ + 1 : ℕ) : ℚ) ^ 2 := by
  have h1 := Nat.floor_le hy
  have h2 := Nat.lt_floor_add_one y
  have h3 := Nat.sqrt_le' ⌊y⌋₊
  have h4 : ⌊y⌋₊ + 1 ≤ (Nat.sqrt ⌊y⌋₊ + 1) ^ 2 := Nat.lt_succ_sqrt' _
  constructor
  · exact le_trans (by exact_mod_cast h3) h1
  · refine lt_of_lt_of_le h2 ?_
    exact_mod_cast h4

/-- The rounded root is within one half of the root. -/
theorem nearSqrt_bounds {y : ℚ} (hy : 0 ≤ y) :
    4 * y ≤ ((2 * nearSqrt y + 1 : ℕ) : ℚ) ^ 2 ∧
    (((2 * nearSqrt y : ℕ) : ℚ) - 1 ≤ 0 ∨ (((2 * nearSqrt y : ℕ) : ℚ) - 1) ^ 2 ≤ 4 * y) := by
  obtain ⟨h1, h2⟩ := floor_sqrt hy
  unfold nearSqrt
  generalize Nat.sqrt ⌊y⌋₊ = n at *
  push_cast at h1 h2
  have hn : (0 : ℚ) ≤ n := Nat.cast_nonneg n
  split
  · rename_i h
    push_cast at h ⊢
    constructor
    · nlinarith
    · right; nlinarith
  · rename_i h
    push_cast at h ⊢
    constructor
    · linarith
    · by_cases h0 : n = 0
      · left; rw [h0]; norm_num
      · right
        have : (1 : ℚ) ≤ n := by exact_mod_cast Nat.one_le_iff_ne_zero.2 h0
        nlinarith

/-- It is the only integer strictly within one half. -/
theorem nearSqrt_unique {y : ℚ} {k : ℕ} (hk : 0 < k) (h1 : ((2 * k : ℚ) - 1) ^ 2 < 4 * y)
    (h2 : 4 * y < (2 * (k : ℚ) + 1) ^ 2) : nearSqrt y = k := by
  have hy : 0 ≤ y := by nlinarith [sq_nonneg ((2 * k : ℚ) - 1)]
  obtain ⟨h3, h4⟩ := nearSqrt_bounds hy
  generalize nearSqrt y = n at *
  have hk1 : (1 : ℚ) ≤ k := by exact_mod_cast hk
  have hn : (0 : ℚ) ≤ n := Nat.cast_nonneg n
  have a1 : k ≤ n := by
    by_contra hc
    have : (n : ℚ) + 1 ≤ k := by exact_mod_cast Nat.lt_of_not_le hc
    push_cast at h3
    nlinarith
  have a2 : n ≤ k := by
    by_contra hc
    have : (k : ℚ) + 1 ≤ n := by exact_mod_cast Nat.lt_of_not_le hc
    push_cast at h4
    rcases h4 with h4 | h4
    · linarith
    · nlinarith
  omega

theorem nearSqrt_range {y : ℚ} (h1 : (2 : ℚ) ^ 104 ≤ y) (h2 : y < 2 ^ 106) : 2 ^ 52 ≤ nearSqrt y ∧ nearSqrt y ≤ 2 ^ 53 := by
  have hy : (0 : ℚ) ≤ y := le_trans (by norm_num) h1
  obtain ⟨h3, h4⟩ := nearSqrt_bounds hy
  generalize nearSqrt y = n at *
  constructor
  · by_contra hc
    have : n + 1 ≤ 2 ^ 52 := by omega
    have : (n : ℚ) + 1 ≤ 2 ^ 52 := by exact_mod_cast this
    have hn : (0 : ℚ) ≤ n := Nat.cast_nonneg n
    push_cast at h3
    nlinarith
  · by_contra hc
    have : 2 ^ 53 + 1 ≤ n := by omega
    have : (2 : ℚ) ^ 53 + 1 ≤ n := by exact_mod_cast this
    push_cast at h4
    rcases h4 with h4 | h4
    · linarith [show (0 : ℚ) < 2 ^ 53 by norm_num]
    · nlinarith

theorem sqrtExp_of {q : ℚ} {e : ℤ} (h1 : (2 : ℚ) ^ (2 * e + 104) ≤ q) (h2 : q < 2 ^ (2 * e + 106)) : sqrtExp q = e := by
  have hq : 0 < q := lt_of_lt_of_le (two_zpow_pos _) h1
  have a1 : 2 * e + 104 ≤ Int.log 2 q := (Int.zpow_le_iff_le_log (by norm_num) hq).1 (by simpa using h1)
  have a2 : Int.log 2 q < 2 * e + 106 := (Int.lt_zpow_iff_log_lt (by norm_num) hq).1 (by simpa using h2)
  unfold sqrtExp
  omega

/-- The square root of a number near the square of `k * 2^e` is `k * 2^e`. -/
theorem sqrtPos_near {k : ℕ} {e : ℤ} (hk1 : 2 ^ 52 ≤ k) (hk2 : k < 2 ^ 53) {q : ℚ}
    (hlow : (2 : ℚ) ^ (2 * e + 104) ≤ q) (h : |q - ((k : ℚ) * 2 ^ e) ^ 2| ≤ ((k : ℚ) * 2 ^ e) ^ 2 / 2 ^ 53) :
    sqrtPos q = k * 2 ^ e := by
  have hp := two_zpow_pos (2 * e)
  have hsq : ((k : ℚ) * 2 ^ e) ^ 2 = (k : ℚ) ^ 2 * 2 ^ (2 * e) := by
    rw [mul_pow, ← zpow_natCast ((2 : ℚ) ^ e), ← zpow_mul, mul_comm e]; rfl
  rw [hsq] at h
  have hk1' : (2 : ℚ) ^ 52 ≤ k := by exact_mod_cast hk1
  have hk2' : (k : ℚ) + 1 ≤ 2 ^ 53 := by exact_mod_cast hk2
  set y := q / 2 ^ (2 * e) with hy
  have hqy : q = y * 2 ^ (2 * e) := by rw [hy, div_mul_cancel₀ _ hp.ne']
  have herr : |y - (k : ℚ) ^ 2| ≤ (k : ℚ) ^ 2 / 2 ^ 53 := by
    rw [hqy, ← sub_mul, abs_mul, abs_of_pos hp, mul_div_right_comm] at h
    exact le_of_mul_le_mul_right h hp
  have hbound : (k : ℚ) ^ 2 / 2 ^ 53 ≤ k - 1 / 2 := by
    rw [div_le_iff₀ (by norm_num)]
    nlinarith
  obtain ⟨e1, e2⟩ := abs_le.1 herr
  have hexp : sqrtExp q = e := by
    refine sqrtExp_of hlow ?_
    rw [zpow_add₀ (by norm_num), hqy, mul_comm]
    refine mul_lt_mul_of_pos_left ?_ hp
    have : (2 : ℚ) ^ (106 : ℤ) = 2 ^ 106 := by norm_num
    rw [this]
    nlinarith
  unfold sqrtPos
  rw [show sqrtUlps q = y by unfold sqrtUlps; rw [hexp], hexp, nearSqrt_unique (k := k) (by omega)]
  · nlinarith
  · nlinarith

theorem double_min {q : ℚ} (hq : IsDouble q) (hpos : 0 < q) : (2 : ℚ) ^ (-1074 : ℤ) ≤ q := by
  obtain ⟨m, e, _, he, rfl, _⟩ := hq
  have hm : 0 < m := by
    by_contra hc
    have : (m : ℚ) ≤ 0 := by exact_mod_cast not_lt.1 hc
    exact absurd hpos (not_lt.2 (mul_nonpos_of_nonpos_of_nonneg this (two_zpow_pos e).le))
  have h1 : (1 : ℚ) ≤ m := by exact_mod_cast hm
  calc (2 : ℚ) ^ (-1074 : ℤ) ≤ 2 ^ e := two_zpow_le he
    _ ≤ m * 2 ^ e := by nlinarith [two_zpow_pos e]

theorem near_integer {n z : ℤ} {t : ℝ} (h : |(n : ℝ) - t| ≤ 1 / 2) : |(n : ℝ) - t| ≤ |(z : ℝ) - t| := by
  by_cases hz : z = n
  · rw [hz]
  · have h1 : (1 : ℝ) ≤ |(z : ℝ) - n| := by
      have : (1 : ℤ) ≤ |z - n| := Int.one_le_abs (sub_ne_zero.2 hz)
      exact_mod_cast this
    have h2 : |(z : ℝ) - n| ≤ |(z : ℝ) - t| + |(n : ℝ) - t| := by
      have := abs_sub_le (z : ℝ) t n
      rwa [abs_sub_comm t] at this
    linarith

theorem sqrtPos_double {q : ℚ} (hq : IsDouble q) (hpos : 0 < q) : IsDouble (sqrtPos q) := by
  obtain ⟨b1, b2⟩ := sqrtUlps_bounds hpos
  obtain ⟨n1, n2⟩ := nearSqrt_range b1 b2
  have hlo := double_min hq hpos
  have l1 : -1074 ≤ Int.log 2 q := (Int.zpow_le_iff_le_log (by norm_num) hpos).1 (by simpa using hlo)
  have hhi : q < 2 ^ (1024 : ℤ) := by
    obtain ⟨_, _, _, _, _, h⟩ := hq
    rwa [abs_of_pos hpos] at h
  have l2 : Int.log 2 q < 1024 := (Int.lt_zpow_iff_log_lt (by norm_num) hpos).1 (by simpa using hhi)
  have e1 : -1074 ≤ sqrtExp q := by unfold sqrtExp; omega
  have e2 : sqrtExp q ≤ 459 := by unfold sqrtExp; omega
  have hval : |sqrtPos q| < 2 ^ (1024 : ℤ) := by
    have h0 : 0 ≤ sqrtPos q := mul_nonneg (Nat.cast_nonneg _) (two_zpow_pos _).le
    rw [abs_of_nonneg h0]
    have h2 : ((nearSqrt (sqrtUlps q) : ℕ) : ℚ) ≤ 2 ^ (53 : ℤ) := by
      have : (2 : ℚ) ^ (53 : ℤ) = ((2 ^ 53 : ℕ) : ℚ) := by norm_num
      rw [this]
      exact_mod_cast n2
    calc sqrtPos q ≤ 2 ^ (53 : ℤ) * 2 ^ sqrtExp q := mul_le_mul_of_nonneg_right h2 (two_zpow_pos _).le
      _ = 2 ^ (53 + sqrtExp q) := (zpow_add₀ (by norm_num) _ _).symm
      _ < _ := zpow_lt_zpow_right₀ (by norm_num) (by omega)
  rcases n2.lt_or_eq with h | h
  · refine ⟨(nearSqrt (sqrtUlps q) : ℤ), sqrtExp q, ?_, e1, by unfold sqrtPos; push_cast; rfl, hval⟩
    rw [abs_of_nonneg (Int.natCast_nonneg _)]
    exact_mod_cast h
  · refine ⟨2 ^ 52, sqrtExp q + 1, by norm_num, by omega, ?_, hval⟩
    unfold sqrtPos
    rw [h, zpow_add₀ (by norm_num)]
    push_cast
    ring

/-- The rounded root, as a double, is nearest to the real root. -/
theorem sqrtPos_nearest {q : ℚ} (hpos : 0 < q) (d : ℚ) (hd : IsDouble d) :
    |((sqrtPos q : ℚ) : ℝ) - Real.sqrt q| ≤ |(d : ℝ) - Real.sqrt q| := by
  obtain ⟨b1, b2⟩ := sqrtUlps_bounds hpos
  obtain ⟨h3, h4⟩ := nearSqrt_bounds (le_trans (by norm_num) b1)
  obtain ⟨n1, _⟩ := nearSqrt_range b1 b2
  set e := sqrtExp q with he
  set y := sqrtUlps q with hy
  have hpe : (0 : ℝ) < 2 ^ e := by positivity
  have hqy : (q : ℝ) = (y : ℝ) * ((2 : ℝ) ^ e) ^ 2 := by
    have : q = y * ((2 : ℚ) ^ e) ^ 2 := by
      have e2 : ((2 : ℚ) ^ e) ^ 2 = 2 ^ (2 * sqrtExp q) := by
        rw [← zpow_natCast ((2 : ℚ) ^ e), ← zpow_mul, mul_comm, he]; rfl
      rw [hy, sqrtUlps, e2, div_mul_cancel₀ _ (two_zpow_pos _).ne']
    rw [this]; push_cast; ring
  set t := Real.sqrt y with ht
  have hy0 : (0 : ℝ) ≤ y := by
    have : (0 : ℚ) ≤ y := le_trans (by norm_num) b1
    exact_mod_cast this
  have hs : Real.sqrt q = t * 2 ^ e := by
    rw [hqy, Real.sqrt_mul hy0, Real.sqrt_sq hpe.le]
  have htt : t ^ 2 = y := Real.sq_sqrt hy0
  have ht0 : 0 ≤ t := Real.sqrt_nonneg _
  have ht52 : (2 : ℝ) ^ 52 ≤ t := by
    have : ((2 : ℚ) ^ 104 : ℝ) ≤ (y : ℝ) := by exact_mod_cast b1
    refine Real.le_sqrt_of_sq_le ?_
    refine le_trans (le_of_eq ?_) this
    norm_num
  have hn : |((nearSqrt y : ℤ) : ℝ) - t| ≤ 1 / 2 := by
    have c1 : 4 * (y : ℝ) ≤ (2 * (nearSqrt y : ℝ) + 1) ^ 2 := by
      have : ((4 * y : ℚ) : ℝ) ≤ ((((2 * nearSqrt y + 1 : ℕ) : ℚ) ^ 2 : ℚ) : ℝ) := by exact_mod_cast h3
      push_cast at this
      exact this
    have hnn : (0 : ℝ) ≤ nearSqrt y := Nat.cast_nonneg _
    rw [abs_le]
    push_cast
    constructor
    · rw [← htt] at c1
      nlinarith
    · rcases h4 with h4 | h4
      · have : (((2 * nearSqrt y : ℕ) : ℝ) - 1) ≤ 0 := by exact_mod_cast h4
        push_cast at this
        linarith
      · have : ((((2 * nearSqrt y : ℕ) : ℚ) - 1) ^ 2 : ℝ) ≤ ((4 * y : ℚ) : ℝ) := by exact_mod_cast h4
        push_cast at this
        rw [← htt] at this
        nlinarith
  have key : ∀ z : ℝ, (d : ℝ) = z * 2 ^ e → |((nearSqrt y : ℤ) : ℝ) - t| ≤ |z - t| →
      |((sqrtPos q : ℚ) : ℝ) - Real.sqrt q| ≤ |(d : ℝ) - Real.sqrt q| := by
    intro z hz hle
    have e1 : ((sqrtPos q : ℚ) : ℝ) = ((nearSqrt y : ℤ) : ℝ) * 2 ^ e := by
      unfold sqrtPos; push_cast; rfl
    rw [e1, hs, hz, ← sub_mul, ← sub_mul, abs_mul, abs_mul]
    exact mul_le_mul_of_nonneg_right hle (abs_nonneg _)
  obtain ⟨m, e', hm, _, rfl, _⟩ := hd
  by_cases hee : e ≤ e'
  · obtain ⟨k, hk⟩ := Int.eq_ofNat_of_zero_le (sub_nonneg.2 hee)
    refine key ((m * 2 ^ k : ℤ) : ℝ) ?_ (near_integer hn)
    have : e' = (k : ℤ) + e := by omega
    rw [this]
    push_cast
    rw [zpow_add₀ (by norm_num), zpow_natCast]
    ring
  · refine key ((m : ℝ) * 2 ^ (e' - e)) ?_ ?_
    · push_cast
      rw [mul_assoc, ← zpow_add₀ (by norm_num)]
      congr 2
      omega
    · have h1 := near_integer (z := 2 ^ 52) hn
      push_cast at h1
      refine le_trans h1 ?_
      rw [abs_sub_comm, abs_of_nonneg (by linarith), abs_sub_comm]
      refine le_trans ?_ (le_abs_self _)
      have hm' : (m : ℝ) ≤ 2 ^ 53 := by
        have : m ≤ 2 ^ 53 := (le_abs_self m).trans hm.le
        exact_mod_cast this
      have h2 : (2 : ℝ) ^ (e' - e) ≤ 2 ^ (-1 : ℤ) := zpow_le_zpow_right₀ (by norm_num) (by omega)
      have h3 : (0 : ℝ) < 2 ^ (e' - e) := by positivity
      have : (m : ℝ) * 2 ^ (e' - e) ≤ 2 ^ 53 * 2 ^ (-1 : ℤ) :=
        (mul_le_mul_of_nonneg_right hm' h3.le).trans (mul_le_mul_of_nonneg_left h2 (by positivity))
      have h5 : (2 : ℝ) ^ 53 * 2 ^ (-1 : ℤ) = 2 ^ 52 := by norm_num
      linarith

end DTW
