import Verif.Num
import Mathlib.Data.Int.Log
import Mathlib.Algebra.Order.Round
import Mathlib.Data.Rat.Floor
import Mathlib.Tactic.Positivity
import Mathlib.Algebra.Order.Archimedean.Basic
import Mathlib.Algebra.Order.Field.Power

/-!
# IEEE-754 binary64 arithmetic, round to nearest even

The other modules are parametric in a monotone rounding function (`Arith`).  This one constructs the rounding function of
actual doubles and proves that it is one, so that every theorem of the development applies to it.
-/

namespace DTW
open F64

/-- Round a rational to the nearest integer, ties to the even one. -/
def roundEven (q : ℚ) : ℤ :=
  let f := ⌊q⌋
  if q - f < 1 / 2 then f
  else if 1 / 2 < q - f then f + 1
  else if f % 2 = 0 then f
  else f + 1

/-- The exponent of the last place of the double nearest to `q > 0`: 53 significant bits, but never below 2^-1074
(subnormal numbers). -/
def ulpExp (q : ℚ) : ℤ := max (Int.log 2 q - 52) (-1074)

/-- Rounding of a positive rational to 53 significant bits, without bound on the exponent from above. -/
def roundPos (q : ℚ) : ℚ := roundEven (q / 2 ^ ulpExp q) * 2 ^ ulpExp q

/-- Overflow: from 2^1024 on, the value is infinite. -/
def overflow (v : ℚ) : F64 := if 2 ^ (1024 : ℤ) ≤ v then pinf else fin v

/-- IEEE-754 binary64 rounding to nearest even. -/
def rnd64 (q : ℚ) : F64 :=
  if 0 < q then overflow (roundPos q)
  else if q < 0 then (overflow (roundPos (-q))).neg
  else fin 0

theorem roundEven_error (q : ℚ) : |(roundEven q : ℚ) - q| ≤ 1 / 2 := by
  have h1 := Int.floor_le q
  have h2 := Int.lt_floor_add_one q
  rw [abs_le]
  unfold roundEven
  dsimp only
  split
  · constructor <;> linarith
  · split
    · push_cast; constructor <;> linarith
    · split
      · constructor <;> linarith
      · push_cast; constructor <;> linarith

theorem roundEven_int (z : ℤ) : roundEven (z : ℚ) = z := by
  simp [roundEven]

theorem roundEven_mono {a b : ℚ} (h : a ≤ b) : roundEven a ≤ roundEven b := by
  have hf := Int.floor_le_floor h
  rcases hf.eq_or_lt with e | lt
  · unfold roundEven
    dsimp only
    rw [← e]
    split <;> split <;> (try split) <;> (try split) <;> (try omega) <;> exfalso <;> linarith
  · have h1 : roundEven a ≤ ⌊a⌋ + 1 := by
      unfold roundEven; dsimp only
      split
      · omega
      · split
        · omega
        · split <;> omega
    have h2 : ⌊b⌋ ≤ roundEven b := by
      unfold roundEven; dsimp only
      split
      · omega
      · split
        · omega
        · split <;> omega
    omega

theorem two_zpow_pos (e : ℤ) : (0 : ℚ) < 2 ^ e := by positivity

theorem two_zpow_le {a b : ℤ} (h : a ≤ b) : (2 : ℚ) ^ a ≤ 2 ^ b := zpow_le_zpow_right₀ (by norm_num) h

/-- A positive rational counts fewer than 2^53 units in its last place. -/
theorem lt_ulps (q : ℚ) : q / 2 ^ ulpExp q < 2 ^ 53 := by
  rw [div_lt_iff₀ (two_zpow_pos _)]
  have h := Int.lt_zpow_succ_log_self (b := 2) (by norm_num) q
  have : (2 : ℚ) ^ (Int.log 2 q + 1) ≤ 2 ^ (53 + ulpExp q) := two_zpow_le (by unfold ulpExp; omega)
  rw [zpow_add₀ (by norm_num) 53] at this
  push_cast at h
  have h53 : (2 : ℚ) ^ (53 : ℤ) = 2 ^ 53 := by norm_num
  rw [h53] at this
  exact lt_of_lt_of_le h this

/-- Unless it is subnormal, it counts at least 2^52. -/
theorem ulps_le {q : ℚ} (hq : 0 < q) (h : -1074 < ulpExp q) : 2 ^ 52 ≤ q / 2 ^ ulpExp q := by
  rw [le_div_iff₀ (two_zpow_pos _)]
  have h1 := Int.zpow_log_le_self (b := 2) (by norm_num) hq
  have h2 : Int.log 2 q = 52 + ulpExp q := by unfold ulpExp at h ⊢; omega
  rw [h2, Nat.cast_ofNat, zpow_add₀ (by norm_num)] at h1
  calc _ = _ := by norm_num
    _ ≤ q := h1

theorem ulpExp_mono {a b : ℚ} (ha : 0 < a) (h : a ≤ b) : ulpExp a ≤ ulpExp b := by
  have := Int.log_mono_right (b := 2) ha h
  unfold ulpExp; omega

theorem roundPos_nonneg {q : ℚ} (hq : 0 < q) : 0 ≤ roundPos q := by
  have h : roundEven 0 ≤ roundEven (q / 2 ^ ulpExp q) := roundEven_mono (by positivity)
  have h0 : roundEven 0 = 0 := by simpa using roundEven_int 0
  rw [h0] at h
  unfold roundPos
  have : (0 : ℚ) ≤ roundEven (q / 2 ^ ulpExp q) := by exact_mod_cast h
  positivity

theorem roundPos_mono {a b : ℚ} (ha : 0 < a) (h : a ≤ b) : roundPos a ≤ roundPos b := by
  have hb : 0 < b := lt_of_lt_of_le ha h
  have he := ulpExp_mono ha h
  rcases he.eq_or_lt with e | lt
  · unfold roundPos
    rw [← e]
    have : roundEven (a / 2 ^ ulpExp a) ≤ roundEven (b / 2 ^ ulpExp a) :=
      roundEven_mono (div_le_div_of_nonneg_right h (two_zpow_pos _).le)
    exact mul_le_mul_of_nonneg_right (by exact_mod_cast this) (two_zpow_pos _).le
  · have hlow : -1074 < ulpExp b := by
      have : -1074 ≤ ulpExp a := by unfold ulpExp; omega
      omega
    have h1 : roundEven (a / 2 ^ ulpExp a) ≤ 2 ^ 53 := by
      have := roundEven_mono (lt_ulps a).le
      rwa [show ((2 : ℚ) ^ 53) = ((2 ^ 53 : ℤ) : ℚ) by norm_num, roundEven_int] at this
    have h2 : 2 ^ 52 ≤ roundEven (b / 2 ^ ulpExp b) := by
      have := roundEven_mono (ulps_le hb hlow)
      rwa [show ((2 : ℚ) ^ 52) = ((2 ^ 52 : ℤ) : ℚ) by norm_num, roundEven_int] at this
    unfold roundPos
    have e1 : (roundEven (a / 2 ^ ulpExp a) : ℚ) * 2 ^ ulpExp a ≤ 2 ^ (53 : ℤ) * 2 ^ ulpExp a :=
      mul_le_mul_of_nonneg_right (by exact_mod_cast h1) (two_zpow_pos _).le
    have e2 : (2 : ℚ) ^ (52 : ℤ) * 2 ^ ulpExp b ≤ (roundEven (b / 2 ^ ulpExp b) : ℚ) * 2 ^ ulpExp b :=
      mul_le_mul_of_nonneg_right (by exact_mod_cast h2) (two_zpow_pos _).le
    have e3 : (2 : ℚ) ^ (53 : ℤ) * 2 ^ ulpExp a ≤ 2 ^ (52 : ℤ) * 2 ^ ulpExp b := by
      rw [← zpow_add₀ (by norm_num), ← zpow_add₀ (by norm_num)]
      exact two_zpow_le (by omega)
    linarith

theorem overflow_ne_nan (v : ℚ) : overflow v ≠ nan := by unfold overflow; split <;> simp

theorem overflow_mono {a b : ℚ} (h : a ≤ b) : F64.lt (overflow b) (overflow a) = false := by
  unfold overflow
  generalize (2 : ℚ) ^ (1024 : ℤ) = B
  by_cases hb : B ≤ b
  · rw [if_pos hb]; simp
  · have ha : ¬ B ≤ a := fun h' => hb (le_trans h' h)
    rw [if_neg hb, if_neg ha]; simpa using h

theorem neg_ne_nan {a : F64} (h : a ≠ nan) : a.neg ≠ nan := by cases a <;> simp_all [F64.neg]

theorem lt_neg {a b : F64} : F64.lt a.neg b.neg = F64.lt b a := by
  cases a <;> cases b <;> simp [F64.lt, F64.neg]

theorem zero_lt_overflow {v : ℚ} (h : 0 ≤ v) : F64.lt (overflow v) (fin 0) = false := by
  unfold overflow
  generalize (2 : ℚ) ^ (1024 : ℤ) = B
  split <;> simp [F64.lt, h]

theorem rnd64_mono {a b : ℚ} (h : a ≤ b) : F64.lt (rnd64 b) (rnd64 a) = false := by
  have key : ∀ q : ℚ, 0 < q → F64.le (fin 0) (overflow (roundPos q)) := fun q hq =>
    ⟨by simp, overflow_ne_nan _, zero_lt_overflow (roundPos_nonneg hq)⟩
  have key' : ∀ q : ℚ, 0 < q → F64.le (overflow (roundPos q)).neg (fin 0) := fun q hq => by
    obtain ⟨_, h2, h3⟩ := key q hq
    refine ⟨neg_ne_nan h2, by simp, ?_⟩
    have : (fin 0 : F64) = (fin 0 : F64).neg := by simp [F64.neg]
    rw [this, lt_neg]; exact h3
  unfold rnd64
  split
  · split
    · rename_i hb ha; exact overflow_mono (roundPos_mono ha h)
    · split
      · rename_i hb _ ha
        exact (F64.le_trans (key' (-a) (by linarith)) (key b hb)).2.2
      · rename_i hb _ _; exact (key b hb).2.2
  · split
    · split
      · exfalso; linarith
      · split
        · rename_i hb _ ha
          rw [lt_neg]; exact overflow_mono (roundPos_mono (by linarith) (by linarith))
        · exfalso; linarith
    · split
      · exfalso; linarith
      · split
        · rename_i ha; exact (key' (-a) (by linarith)).2.2
        · simp

/-- Doubles, with or without contraction of `acc += w*l` into a fused multiply-add. -/
def binary64 (fused : Bool) : Arith where
  rnd := rnd64
  fused := fused
  rnd_ne_nan := fun q => by
    unfold rnd64
    split
    · exact overflow_ne_nan _
    · split
      · exact neg_ne_nan (overflow_ne_nan _)
      · simp
  rnd_mono := fun _ _ h => rnd64_mono h
  rnd_zero := by simp [rnd64]

/-- The finite doubles: `m * 2^e` with `|m| < 2^53`, `e ≥ -1074`, below 2^1024. -/
def IsDouble (q : ℚ) : Prop := ∃ m e : ℤ, |m| < 2 ^ 53 ∧ -1074 ≤ e ∧ q = m * 2 ^ e ∧ |q| < 2 ^ (1024 : ℤ)

theorem roundPos_double {m e : ℤ} (hm : 0 < m) (hm' : m < 2 ^ 53) (he : -1074 ≤ e) :
    roundPos ((m : ℚ) * 2 ^ e) = m * 2 ^ e := by
  have hq : (0 : ℚ) < m * 2 ^ e := by positivity
  have hle : ulpExp ((m : ℚ) * 2 ^ e) ≤ e := by
    have : Int.log 2 ((m : ℚ) * 2 ^ e) < 53 + e := by
      rw [← Int.lt_zpow_iff_log_lt (by norm_num) hq, Nat.cast_ofNat, zpow_add₀ (by norm_num)]
      exact mul_lt_mul_of_pos_right (by exact_mod_cast hm') (two_zpow_pos e)
    unfold ulpExp; omega
  obtain ⟨k, hk⟩ := Int.eq_ofNat_of_zero_le (sub_nonneg.2 hle)
  have hdiv : (m : ℚ) * 2 ^ e / 2 ^ ulpExp ((m : ℚ) * 2 ^ e) = ((m * 2 ^ k : ℤ) : ℚ) := by
    rw [mul_div_assoc, ← zpow_sub₀ (by norm_num), hk]
    push_cast; simp
  unfold roundPos
  rw [hdiv, roundEven_int, ← hdiv, div_mul_cancel₀ _ (two_zpow_pos _).ne']

/-- Doubles are not changed by rounding. -/
theorem rnd64_double {q : ℚ} (h : IsDouble q) : rnd64 q = fin q := by
  obtain ⟨m, e, hm, he, rfl, hlt⟩ := h
  rcases lt_trichotomy m 0 with neg | zero | pos
  · have hm2 : -m < 2 ^ 53 := by rw [abs_of_neg neg] at hm; exact hm
    have hq : (m : ℚ) * 2 ^ e < 0 := mul_neg_of_neg_of_pos (by exact_mod_cast neg) (two_zpow_pos e)
    have hr : roundPos (-((m : ℚ) * 2 ^ e)) = -((m : ℚ) * 2 ^ e) := by
      have := roundPos_double (m := -m) (by omega) hm2 he
      push_cast at this
      rwa [neg_mul] at this
    rw [abs_of_neg hq] at hlt
    simp only [rnd64, not_lt.2 hq.le, hq, if_true, if_false, hr, overflow, not_le.2 hlt, F64.neg, neg_neg]
  · subst zero; simp [rnd64]
  · have hq : (0 : ℚ) < m * 2 ^ e := by positivity
    rw [abs_of_pos hq] at hlt
    rw [abs_of_pos pos] at hm
    simp only [rnd64, hq, if_true, roundPos_double pos hm he, overflow, not_le.2 hlt, if_false]

/-- The relative error of rounding is at most 2^-53 for values in the normal range that do not overflow. -/
theorem rnd64_error {q : ℚ} (h1 : (2 : ℚ) ^ (-1022 : ℤ) ≤ |q|) (h2 : |q| ≤ 2 ^ (1023 : ℤ)) :
    ∃ v : ℚ, rnd64 q = fin v ∧ |v - q| ≤ |q| / 2 ^ 53 := by
  have main : ∀ q : ℚ, 0 < q → (2 : ℚ) ^ (-1022 : ℤ) ≤ q → q ≤ 2 ^ (1023 : ℤ) →
      overflow (roundPos q) = fin (roundPos q) ∧ |roundPos q - q| ≤ q / 2 ^ 53 := by
    intro q hq h1 h2
    have hl : -1022 ≤ Int.log 2 q := (Int.zpow_le_iff_le_log (by norm_num) hq).1 (by simpa using h1)
    have he : ulpExp q = Int.log 2 q - 52 := by unfold ulpExp; omega
    have hu : 2 ^ 52 ≤ q / 2 ^ ulpExp q := by
      rw [le_div_iff₀ (two_zpow_pos _)]
      have h3 := Int.zpow_log_le_self (b := 2) (by norm_num) hq
      have h4 : Int.log 2 q = 52 + ulpExp q := by omega
      rw [h4, Nat.cast_ofNat, zpow_add₀ (by norm_num)] at h3
      calc _ = _ := by norm_num
        _ ≤ q := h3
    constructor
    · have h3 : roundPos q ≤ roundPos (2 ^ (1023 : ℤ)) := roundPos_mono hq h2
      have h4 : roundPos (2 ^ (1023 : ℤ)) = 2 ^ (1023 : ℤ) := by
        have := roundPos_double (m := 1) (e := 1023) (by norm_num) (by norm_num) (by norm_num)
        simpa using this
      have h5 : (2 : ℚ) ^ (1023 : ℤ) < 2 ^ (1024 : ℤ) := zpow_lt_zpow_right₀ (by norm_num) (by norm_num)
      unfold overflow
      rw [h4] at h3
      exact if_neg (not_le.2 (lt_of_le_of_lt h3 h5))
    · have h3 := roundEven_error (q / 2 ^ ulpExp q)
      have hp := two_zpow_pos (ulpExp q)
      have h4 : roundPos q - q = ((roundEven (q / 2 ^ ulpExp q) : ℚ) - q / 2 ^ ulpExp q) * 2 ^ ulpExp q := by
        unfold roundPos
        rw [sub_mul, div_mul_cancel₀ _ hp.ne']
      rw [h4, abs_mul, abs_of_pos hp]
      have h5 : 2 ^ 52 * 2 ^ ulpExp q ≤ q := by rwa [le_div_iff₀ hp] at hu
      calc _ ≤ 1 / 2 * (2 : ℚ) ^ ulpExp q := mul_le_mul_of_nonneg_right h3 hp.le
        _ = (2 ^ 52 * 2 ^ ulpExp q) / 2 ^ 53 := by ring
        _ ≤ _ := div_le_div_of_nonneg_right h5 (by positivity)
  rcases lt_trichotomy q 0 with neg | zero | pos
  · rw [abs_of_neg neg] at h1 h2 ⊢
    obtain ⟨e, b⟩ := main (-q) (by linarith) h1 h2
    refine ⟨-roundPos (-q), ?_, ?_⟩
    · simp only [rnd64, not_lt.2 neg.le, neg, if_true, if_false, e, F64.neg]
    · rwa [show -roundPos (-q) - q = -(roundPos (-q) - -q) by ring, abs_neg]
  · subst zero; simp at h1; exfalso; exact absurd h1 (not_le.2 (by positivity))
  · rw [abs_of_pos pos] at h1 h2 ⊢
    obtain ⟨e, b⟩ := main q pos h1 h2
    exact ⟨roundPos q, by simp only [rnd64, pos, if_true, e], b⟩

end DTW
