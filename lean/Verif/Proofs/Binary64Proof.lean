import Verif.Binary64

/-!
# The rounding function of Binary64.lean is that of IEEE-754
-/

namespace DTW
open F64

theorem roundEven_cases (q : ℚ) : (roundEven q = ⌊q⌋ ∧ q - ⌊q⌋ ≤ 1 / 2) ∨ (roundEven q = ⌊q⌋ + 1 ∧ 1 / 2 ≤ q - ⌊q⌋) := by
  unfold roundEven
  dsimp only
  split
  · left; exact ⟨rfl, by linarith⟩
  · split
    · right; exact ⟨rfl, by linarith⟩
    · split
      · left; exact ⟨rfl, by linarith⟩
      · right; exact ⟨rfl, by linarith⟩

theorem roundEven_nearest (q : ℚ) (k : ℤ) : |(roundEven q : ℚ) - q| ≤ |(k : ℚ) - q| := by
  have h1 := Int.floor_le q
  have h2 := Int.lt_floor_add_one q
  rcases le_or_gt k ⌊q⌋ with hk | hk
  · have hk' : (k : ℚ) ≤ ⌊q⌋ := by exact_mod_cast hk
    rw [abs_of_nonpos (by linarith : (k : ℚ) - q ≤ 0)]
    rcases roundEven_cases q with ⟨e, h⟩ | ⟨e, h⟩ <;> rw [e]
    · rw [abs_of_nonpos (by linarith)]; linarith
    · push_cast; rw [abs_of_nonneg (by linarith)]; linarith
  · have hk' : (⌊q⌋ : ℚ) + 1 ≤ k := by exact_mod_cast hk
    rw [abs_of_nonneg (by linarith : 0 ≤ (k : ℚ) - q)]
    rcases roundEven_cases q with ⟨e, h⟩ | ⟨e, h⟩ <;> rw [e]
    · rw [abs_of_nonpos (by linarith)]; linarith
    · push_cast; rw [abs_of_nonneg (by linarith)]; linarith

theorem roundEven_tie {q : ℚ} (h : |(roundEven q : ℚ) - q| = 1 / 2) : roundEven q % 2 = 0 := by
  have h1 := Int.floor_le q
  have h2 := Int.lt_floor_add_one q
  revert h
  unfold roundEven
  dsimp only
  split
  · intro h; rw [abs_of_nonpos (by linarith)] at h; exfalso; linarith
  · split
    · intro h; push_cast at h; rw [abs_of_nonneg (by linarith)] at h; exfalso; linarith
    · split
      · intro _; assumption
      · intro _; omega

theorem ulpExp_ge (q : ℚ) : -1074 ≤ ulpExp q := by unfold ulpExp; omega

/-- The rounded value is a multiple of the unit in the last place, with a significand of 53 bits. -/
theorem roundPos_isDouble {q : ℚ} (hq : 0 < q) (hlt : roundPos q < 2 ^ (1024 : ℤ)) : IsDouble (roundPos q) := by
  unfold IsDouble
  generalize (2 : ℚ) ^ (1024 : ℤ) = B at *
  have h1 : roundEven (q / 2 ^ ulpExp q) ≤ 2 ^ 53 := by
    have := roundEven_mono (lt_ulps q).le
    rwa [show ((2 : ℚ) ^ 53) = ((2 ^ 53 : ℤ) : ℚ) by norm_num, roundEven_int] at this
  have h0 : 0 ≤ roundEven (q / 2 ^ ulpExp q) := by
    have h : roundEven 0 ≤ roundEven (q / 2 ^ ulpExp q) := roundEven_mono (by positivity)
    rwa [show roundEven 0 = 0 by simpa using roundEven_int 0] at h
  have hn := roundPos_nonneg hq
  have habs : |roundPos q| < B := by rwa [abs_of_nonneg hn]
  rcases h1.eq_or_lt with e | lt
  · refine ⟨2 ^ 52, ulpExp q + 1, by norm_num, by have := ulpExp_ge q; omega, ?_, habs⟩
    unfold roundPos
    rw [e, zpow_add₀ (by norm_num)]
    push_cast
    ring
  · exact ⟨roundEven (q / 2 ^ ulpExp q), ulpExp q, by rwa [abs_of_nonneg h0], ulpExp_ge q, rfl, habs⟩

theorem roundPos_nearest {q d : ℚ} (hq : 0 < q) (hd : IsDouble d) : |roundPos q - q| ≤ |d - q| := by
  have hp := two_zpow_pos (ulpExp q)
  -- multiples of the unit in the last place
  have grid : ∀ k : ℤ, |roundPos q - q| ≤ |k * 2 ^ ulpExp q - q| := by
    intro k
    have h := roundEven_nearest (q / 2 ^ ulpExp q) k
    have e1 : roundPos q - q = ((roundEven (q / 2 ^ ulpExp q) : ℚ) - q / 2 ^ ulpExp q) * 2 ^ ulpExp q := by
      unfold roundPos
      rw [sub_mul, div_mul_cancel₀ _ hp.ne']
    have e2 : (k : ℚ) * 2 ^ ulpExp q - q = ((k : ℚ) - q / 2 ^ ulpExp q) * 2 ^ ulpExp q := by
      rw [sub_mul, div_mul_cancel₀ _ hp.ne']
    rw [e1, e2, abs_mul, abs_mul]
    exact mul_le_mul_of_nonneg_right h (abs_nonneg _)
  obtain ⟨m, e, hm, he, rfl, _⟩ := hd
  by_cases hge : ulpExp q ≤ e
  · obtain ⟨k, hk⟩ := Int.eq_ofNat_of_zero_le (sub_nonneg.2 hge)
    have : (m : ℚ) * 2 ^ e = ((m * 2 ^ k : ℤ) : ℚ) * 2 ^ ulpExp q := by
      have : e = ulpExp q + k := by omega
      rw [this, zpow_add₀ (by norm_num)]
      push_cast
      rw [zpow_natCast]
      ring
    rw [this]
    exact grid _
  · have hsub : -1074 < ulpExp q := by omega
    have h52 := ulps_le hq hsub
    rw [le_div_iff₀ hp] at h52
    have hd : (m : ℚ) * 2 ^ e ≤ 2 ^ 52 * 2 ^ ulpExp q := by
      have hm1 : (m : ℚ) ≤ 2 ^ 53 := by
        have := (abs_lt.1 hm).2.le
        exact_mod_cast this
      calc (m : ℚ) * 2 ^ e ≤ 2 ^ 53 * 2 ^ e := mul_le_mul_of_nonneg_right hm1 (two_zpow_pos e).le
        _ = 2 ^ 52 * 2 ^ (e + 1) := by rw [zpow_add₀ (by norm_num)]; ring
        _ ≤ _ := mul_le_mul_of_nonneg_left (two_zpow_le (by omega)) (by norm_num)
    have hg := grid (2 ^ 52)
    rw [show ((2 ^ 52 : ℤ) : ℚ) = 2 ^ 52 by norm_num] at hg
    rw [abs_of_nonpos (by linarith : (2 : ℚ) ^ 52 * 2 ^ ulpExp q - q ≤ 0)] at hg
    have hle : (m : ℚ) * 2 ^ e - q ≤ 0 := by linarith
    rw [abs_of_nonpos hle]
    linarith

/-- Half a unit below a power of two, values round up to it. -/
theorem roundPos_threshold {q : ℚ} (E : ℤ) (hE : -1074 ≤ E) (hq : 0 < q) :
    (2 : ℚ) ^ (E + 53) ≤ roundPos q ↔ (2 ^ 53 - 1 / 2) * 2 ^ E ≤ q := by
  have hp : (0 : ℚ) < 2 ^ E := two_zpow_pos _
  have e53 : (2 : ℚ) ^ (E + 53) = 2 ^ 53 * 2 ^ E := by
    rw [zpow_add₀ (by norm_num), mul_comm]; norm_num
  have e52 : (2 : ℚ) ^ (E + 52) = 2 ^ 52 * 2 ^ E := by
    rw [zpow_add₀ (by norm_num), mul_comm]; norm_num
  have ulp : ∀ x : ℚ, (2 : ℚ) ^ (E + 52) ≤ x → x < 2 ^ (E + 53) → ulpExp x = E := by
    intro x h1 h2
    have hx : 0 < x := lt_of_lt_of_le (two_zpow_pos _) h1
    have a : E + 52 ≤ Int.log 2 x := (Int.zpow_le_iff_le_log (by norm_num) hx).1 (by exact_mod_cast h1)
    have b : Int.log 2 x < E + 53 := (Int.lt_zpow_iff_log_lt (by norm_num) hx).1 (by exact_mod_cast h2)
    unfold ulpExp; omega
  have thr : roundPos ((2 ^ 53 - 1 / 2) * 2 ^ E) = 2 ^ (E + 53) := by
    unfold roundPos
    rw [ulp _ (by rw [e52]; exact mul_le_mul_of_nonneg_right (by norm_num) hp.le)
      (by rw [e53]; exact mul_lt_mul_of_pos_right (by norm_num) hp), mul_div_assoc, div_self hp.ne', mul_one, e53]
    congr 1
    have hf : ⌊(2 : ℚ) ^ 53 - 1 / 2⌋ = 2 ^ 53 - 1 := by rw [Int.floor_eq_iff]; norm_num
    unfold roundEven
    dsimp only
    rw [hf]
    norm_num
  constructor
  · intro h
    by_contra hlt
    push Not at hlt
    by_cases hlow : q ≤ 2 ^ (E + 52)
    · have h3 := roundPos_mono hq hlow
      have h4 : roundPos (2 ^ (E + 52)) = 2 ^ (E + 52) := by
        have := roundPos_double (m := 1) (e := E + 52) (by norm_num) (by norm_num) (by omega)
        simpa using this
      have h5 : (2 : ℚ) ^ (E + 52) < 2 ^ (E + 53) := zpow_lt_zpow_right₀ (by norm_num) (by omega)
      rw [h4] at h3
      exact absurd (le_trans h h3) (not_le.2 h5)
    · push Not at hlow
      have hu := ulp q hlow.le (lt_trans hlt (by rw [e53]; exact mul_lt_mul_of_pos_right (by norm_num) hp))
      unfold roundPos at h
      rw [hu, e53] at h
      have h6 := le_of_mul_le_mul_right h hp
      have h7 : q / 2 ^ E < 2 ^ 53 - 1 / 2 := by rw [div_lt_iff₀ hp]; exact hlt
      have h8 := (abs_le.1 (roundEven_error (q / 2 ^ E))).2
      generalize (roundEven (q / 2 ^ E) : ℚ) = R at *
      generalize q / 2 ^ E = Q at *
      linarith
  · intro h
    rw [← thr]
    exact roundPos_mono (mul_pos (by norm_num) hp) h

/-- The overflow threshold: half a unit beyond the largest double. -/
theorem roundPos_overflow {q : ℚ} (hq : 0 < q) :
    (2 : ℚ) ^ (1024 : ℤ) ≤ roundPos q ↔ (2 ^ 53 - 1 / 2) * 2 ^ (971 : ℤ) ≤ q :=
  roundPos_threshold 971 (by norm_num) hq

theorem neg_isDouble {d : ℚ} (h : IsDouble d) : IsDouble (-d) := by
  obtain ⟨m, e, h1, h2, h3, h4⟩ := h
  exact ⟨-m, e, by rwa [abs_neg], h2, by rw [h3]; push_cast; ring, by rwa [abs_neg]⟩

end DTW
