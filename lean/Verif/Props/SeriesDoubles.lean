import Verif.Props.Pruning
import Verif.Props.Metric
import Verif.Props.Features

/-!
# C75: one-dimensional series in double precision

What C63 says about `dtw(x, y)` with the mathematical local cost `|x_i - y_j|`, for the cost that is really computed: the
rounded difference of two doubles, summed in doubles.
-/

namespace DTW
open F64

variable {o : Args} {x y x' y' : List ℚ} {W : Nat → Nat → Bool} {q : String × StepPattern}

/-- The size of the difference of two doubles, computed in doubles (0 if it overflows; excluded where it is used). -/
def roundedGap (x y : List ℚ) (i j : Nat) : ℚ :=
  match rnd64 (x.getD i 0 - y.getD j 0) with
  | fin d => |d|
  | _ => 0

/-- No difference of two samples overflows. -/
def NoOverflow (x y : List ℚ) : Prop := ∀ i < x.length, ∀ j < y.length, ∃ d, rnd64 (x.getD i 0 - y.getD j 0) = fin d

/-- The metric `M` gives the rounded difference on all pairs of samples. -/
def IsGap (M : List F64 → List F64 → F64) (x y : List ℚ) : Prop :=
  ∀ i < x.length, ∀ j < y.length, M [fin (x.getD i 0)] [fin (y.getD j 0)] = fin (roundedGap x y i j)

theorem roundedGap_of {i j : Nat} {d : ℚ} (h : rnd64 (x.getD i 0 - y.getD j 0) = fin d) : roundedGap x y i j = |d| := by
  unfold roundedGap; rw [h]

/-- "cityblock" gives the rounded difference if nothing overflows. -/
theorem isGap_cityblock (f : Bool) (h : NoOverflow x y) : IsGap (cityblock (binary64 f)) x y := by
  intro i hi j hj
  obtain ⟨d, hd⟩ := h i hi j hj
  rw [C66_cityblock_one_column f hd, roundedGap_of hd]

/-- So does "chebyshev". -/
theorem isGap_chebyshev (f : Bool) (h : NoOverflow x y) : IsGap (chebyshev (binary64 f)) x y := by
  intro i hi j hj
  obtain ⟨d, hd⟩ := h i hi j hj
  rw [C66_chebyshev_one_column f hd, roundedGap_of hd]

/-- "euclidean" (the default) gives it if no difference is extremely small or large. -/
theorem isGap_euclidean (f : Bool) (h : ∀ i < x.length, ∀ j < y.length, ∃ d, Moderate (x.getD i 0) (y.getD j 0) d) :
    IsGap (euclidean (binary64 f)) x y := by
  intro i hi j hj
  obtain ⟨d, hd, hm⟩ := h i hi j hj
  rw [C66_one_column f hd hm, roundedGap_of hd]

theorem roundedGap_double (i j : Nat) : 0 ≤ roundedGap x y i j ∧ IsDouble (roundedGap x y i j) := by
  unfold roundedGap
  cases h : rnd64 (x.getD i 0 - y.getD j 0) with
  | fin d => exact ⟨abs_nonneg _, isDouble_abs (rnd64_isDouble h)⟩
  | nan => exact ⟨le_refl _, by simpa using isDouble_int (z := 0) (by norm_num)⟩
  | pinf => exact ⟨le_refl _, by simpa using isDouble_int (z := 0) (by norm_num)⟩
  | ninf => exact ⟨le_refl _, by simpa using isDouble_int (z := 0) (by norm_num)⟩

theorem rnd64_abs {z d : ℚ} (hd : rnd64 z = fin d) : rnd64 |z| = fin |d| := by
  rcases abs_cases z with ⟨e, hge⟩ | ⟨e, hlt⟩
  · have hm := rnd64_mono hge
    rw [hd, show rnd64 0 = fin 0 from (binary64 false).rnd_zero] at hm
    have h0 : 0 ≤ d := by simpa [F64.lt] using hm
    rw [e, hd, abs_of_nonneg h0]
  · have hm := rnd64_mono hlt.le
    rw [hd, show rnd64 0 = fin 0 from (binary64 false).rnd_zero] at hm
    have h0 : d ≤ 0 := by simpa [F64.lt] using hm
    rw [e, rnd64_neg, hd, abs_of_nonpos h0]
    rfl

theorem askWith_problem {M : List F64 → List F64 → F64} (h : Sensible o x.length y.length W q) (hM : IsGap M x y) :
    Problem (askWith M o x y) x.length y.length (fun i j => fin (roundedGap x y i j)) W q.2 (rulesOf q.2) where
  n_pos := h.n_pos
  m_pos := h.m_pos
  cost := by
    refine .series _ _ _ rfl (.d1 _) (.d1 _) rfl (by simp) (by simp) ?_
    intro i hi j hj
    rw [column_row x i hi, column_row y j hj]
    exact (hM i hi j hj).symm
  pattern := (ask_problem h).pattern
  wf := table_wf q h.mem
  fits := (ask_problem h).fits
  window := h.window

/-- The difference of two different doubles never rounds to 0. -/
theorem rnd64_sub_ne {u v : ℚ} (hu : IsDouble u) (hv : IsDouble v) (h : rnd64 (u - v) = fin 0) : u = v := by
  by_contra hne
  have key : ∀ {u v : ℚ}, IsDouble u → IsDouble v → v < u → rnd64 (u - v) ≠ fin 0 := by
    intro u v hu hv hlt h
    obtain ⟨a, e, _, he, rfl, _⟩ := hu
    obtain ⟨b, g, _, hg, rfl, _⟩ := hv
    have un : ∀ (k : ℤ) (e : ℤ), -1074 ≤ e → ∃ z : ℤ, (k : ℚ) * 2 ^ e = z * 2 ^ (-1074 : ℤ) := by
      intro k e he
      obtain ⟨t, ht⟩ := Int.eq_ofNat_of_zero_le (show 0 ≤ e + 1074 by omega)
      refine ⟨k * 2 ^ t, ?_⟩
      have : e = (t : ℤ) + -1074 := by omega
      rw [this, zpow_add₀ (by norm_num), zpow_natCast]
      push_cast
      ring
    obtain ⟨z1, e1⟩ := un a e he
    obtain ⟨z2, e2⟩ := un b g hg
    rw [e1, e2] at h hlt
    have hz : z2 < z1 := by
      have := lt_of_mul_lt_mul_right hlt (two_zpow_pos _).le
      exact_mod_cast this
    have hge : (2 : ℚ) ^ (-1074 : ℤ) ≤ z1 * 2 ^ (-1074 : ℤ) - z2 * 2 ^ (-1074 : ℤ) := by
      rw [← sub_mul]
      refine le_mul_of_one_le_left (two_zpow_pos _).le ?_
      have : z2 + 1 ≤ z1 := hz
      have : (z2 : ℚ) + 1 ≤ z1 := by exact_mod_cast this
      linarith
    have hm := rnd64_mono hge
    have hd : rnd64 ((2 : ℚ) ^ (-1074 : ℤ)) = fin (2 ^ (-1074 : ℤ)) := rnd64_double (isDouble_zpow (by norm_num) (by norm_num))
    rw [h, hd] at hm
    simp only [F64.lt, decide_eq_false_iff_not, not_lt] at hm
    exact absurd (two_zpow_pos (-1074)) (not_lt.2 hm)
  rcases lt_or_gt_of_ne hne with hl | hl
  · refine key hv hu hl ?_
    rw [show v - u = -(u - v) by ring, rnd64_neg, h]
    simp [F64.neg]
  · exact key hu hv hl h

theorem roundedGap_zero (hx : ∀ u ∈ x, IsDouble u) (hy : ∀ v ∈ y, IsDouble v) (hO : NoOverflow x y) {i j : Nat}
    (hi : i < x.length) (hj : j < y.length) : roundedGap x y i j = 0 ↔ x.getD i 0 = y.getD j 0 := by
  have mem : ∀ (z : List ℚ) (k : Nat), k < z.length → z.getD k 0 ∈ z := by
    intro z k hk
    simp [List.getD, hk]
  obtain ⟨d, hd⟩ := hO i hi j hj
  rw [roundedGap_of hd, abs_eq_zero]
  constructor
  · rintro rfl
    exact rnd64_sub_ne (hx _ (mem x i hi)) (hy _ (mem y j hj)) hd
  · intro e
    rw [e, sub_self] at hd
    exact (F64.fin.inj (hd.symm.trans (binary64 false).rnd_zero))

theorem curve_range {w : List Move} {n m : Nat} (hw : IsCurve W w n m) : ∀ v ∈ visited (0, 0) w, v.1 ≤ n ∧ v.2 ≤ m := by
  intro v hv
  have := visited_range w (0, 0) v hv
  rw [hw.1] at this
  exact ⟨this.2.2.1, this.2.2.2⟩

/-- No difference overflows if no sample exceeds 2^1022 in size. -/
theorem noOverflow_of_le (hx : ∀ u ∈ x, |u| ≤ (2 : ℚ) ^ (1022 : ℤ)) (hy : ∀ v ∈ y, |v| ≤ (2 : ℚ) ^ (1022 : ℤ)) : NoOverflow x y := by
  intro i hi j hj
  have mem : ∀ (z : List ℚ) (k : Nat), k < z.length → z.getD k 0 ∈ z := by
    intro z k hk
    simp [List.getD, hk]
  have hu := abs_le.1 (hx _ (mem x i hi))
  have hv := abs_le.1 (hy _ (mem y j hj))
  have e : (2 : ℚ) ^ (1022 : ℤ) + 2 ^ (1022 : ℤ) = 2 ^ (1023 : ℤ) := by
    rw [← two_mul, show (1023 : ℤ) = 1 + 1022 by norm_num, zpow_add₀ (by norm_num : (2 : ℚ) ≠ 0), zpow_one]
  have hd : rnd64 ((2 : ℚ) ^ (1023 : ℤ)) = fin (2 ^ (1023 : ℤ)) := rnd64_double (isDouble_zpow (by norm_num) (by norm_num))
  have h1 := rnd64_mono (show x.getD i 0 - y.getD j 0 ≤ (2 : ℚ) ^ (1023 : ℤ) by rw [← e]; linarith [hu.2, hv.1])
  have h2 := rnd64_mono (show -((2 : ℚ) ^ (1023 : ℤ)) ≤ x.getD i 0 - y.getD j 0 by rw [← e]; linarith [hu.1, hv.2])
  rw [rnd64_neg, hd] at h2
  rw [hd] at h1
  cases h : rnd64 (x.getD i 0 - y.getD j 0) with
  | fin d => exact ⟨d, rfl⟩
  | nan => exact absurd h ((binary64 false).rnd_ne_nan _)
  | pinf => rw [h] at h1; simp [F64.lt] at h1
  | ninf => rw [h] at h2; simp [F64.lt, F64.neg] at h2

/-- **C75** zero distance: for two series of doubles, compared by the rounded difference, without window, `symmetric1`,
`symmetric2` (the default) or `symmetricP0`, the call returns distance 0 - in doubles - exactly when the series are equal once
consecutive repetitions are removed.  Neither cancellation nor underflow makes different series look equal. -/
theorem C75_zero_iff (f : Bool) {M : List F64 → List F64 → F64} (hM : IsGap M x y)
    (h : Sensible o x.length y.length (fun _ _ => true) q) (hob : o.openBegin = false) (hoe : o.openEnd = false)
    (hs : q.1 ∈ ["symmetric1", "symmetric2", "symmetricP0"])
    (hx : ∀ u ∈ x, IsDouble u) (hy : ∀ v ∈ y, IsDouble v) (hO : NoOverflow x y) :
    (∃ r, dtw (binary64 f) (askWith M o x y) = .ok r ∧ r.distance = fin 0) ↔ squash x = squash y := by
  have hn := h.n_pos
  have hm := h.m_pos
  rw [C54_zero_iff_doubles f q h.mem hs (askWith_problem h hM) hob hoe fun i _ j _ => roundedGap_double i j]
  constructor
  · rintro ⟨w, hw, hz⟩
    have := squash_of_curve (x := x) (y := y) w (0, 0) hn hm hw.1 (by
      intro v hv
      have hb := curve_range hw v hv
      exact (roundedGap_zero hx hy hO (by omega) (by omega)).1 (hz v hv))
    simpa using this
  · intro hsq
    obtain ⟨w, hw1, hw2⟩ := curve_of_squash (x := x) (y := y) _ (0, 0) hn hm (Nat.le_refl _) (by simpa using hsq)
    have hw : IsCurve (fun _ _ => true) w (x.length - 1) (y.length - 1) := ⟨hw1, fun _ _ => rfl⟩
    refine ⟨w, hw, fun v hv => ?_⟩
    have hb := curve_range hw v hv
    exact (roundedGap_zero hx hy hO (by omega) (by omega)).2 (hw2 v hv)

/-- **C75** LB_Keogh in doubles: `lo i ≤ y_j ≤ hi i` for all `j` in the band, `b i` the rounded excursion of `x_i` beyond
`[lo i, hi i]` (the larger of the rounded differences `x_i - hi i`, `lo i - x_i` and 0).  The bound `b 0 + b 1 + …`, summed from
left to right in doubles, never exceeds the distance, computed in doubles: discarding a candidate because the bound exceeds the best
distance so far is safe, ties included. -/
theorem C75_lb_keogh (f : Bool) {M : List F64 → List F64 → F64} (hM : IsGap M x y) {w : ℚ}
    (h : Sensible o x.length y.length (bandOf w) q) (hw : 0 ≤ w) (hob : o.openBegin = false)
    (hs : q.1 ∈ ["symmetric1", "symmetric2", "symmetricP0", "asymmetric", "asymmetricP0", "rigid"]) (hO : NoOverflow x y)
    {lo hi b : Nat → ℚ}
    (hE : ∀ i < x.length, ∀ j < y.length, |(i : ℚ) - j| ≤ w → lo i ≤ y.getD j 0 ∧ y.getD j 0 ≤ hi i)
    (hb : ∀ i < x.length, rnd64 (outside (lo i) (hi i) (x.getD i 0)) = fin (b i))
    {r : Result} (hr : dtw (binary64 f) (askWith M o x y) = .ok r) :
    F64.le (runningSum (binary64 f) b (x.length - 1)) r.distance := by
  refine C55_row_bound_rounded (C20_C22_double_idempotent f) ((C55_charges_arrival f).1 q h.mem hs) (askWith_problem h hM) hob
    (fun i _ j _ => ⟨(roundedGap_double i j).1, rnd64_double (roundedGap_double i j).2⟩) ?_ ?_ hr
  · intro i hi'
    refine ⟨?_, rnd64_double (rnd64_isDouble (hb i hi'))⟩
    have hm := rnd64_mono (show (0 : ℚ) ≤ outside (lo i) (hi i) (x.getD i 0) from le_max_left _ _)
    rw [hb i hi', show rnd64 0 = fin 0 from (binary64 f).rnd_zero] at hm
    simpa [F64.lt] using hm
  · intro i hi' j hj hc
    have hband : |(i : ℚ) - j| ≤ w := by
      rcases hc with hc | ⟨rfl, rfl⟩
      · simpa [bandOf] using hc
      · simpa using hw
    obtain ⟨h1, h2⟩ := hE i hi' j hj hband
    obtain ⟨d, hd⟩ := hO i hi' j hj
    rw [roundedGap_of hd]
    have hab := rnd64_abs hd
    have hm := rnd64_mono (outside_le (v := x.getD i 0) h1 h2)
    rw [hb i hi', hab] at hm
    simpa [F64.lt] using hm

/-- **C75** lock step, in doubles: for series of equal lengths and `symmetric1` the distance is at most the sum of the rounded
differences `|x_i - y_i|`, summed from left to right in doubles, if the window admits the diagonal. -/
theorem C75_lock_step (f : Bool) {M : List F64 → List F64 → F64} (hM : IsGap M x y) (hl : x.length = y.length)
    (h : Sensible o x.length y.length W ("symmetric1", Pat.symmetric1))
    (hob : o.openBegin = false) (hoe : o.openEnd = false) (hW : ∀ i < x.length, W i i = true)
    {r : Result} (hr : dtw (binary64 f) (askWith M o x y) = .ok r) :
    F64.le r.distance (runningSum (binary64 f) (fun i => roundedGap x y i i) (x.length - 1)) := by
  have hP := askWith_problem h hM
  rw [← hl] at hP
  exact C55_diagonal_bound_rounded (double_one f) hP hob hoe hW
    (fun i _ => ⟨(roundedGap_double i i).1, rnd64_double (roundedGap_double i i).2⟩) hr

/-- **C75** translation: if adding `t` to the samples is exact, the result is the same to the last bit, whatever the step pattern,
window and options, for each of the four metrics. -/
theorem C75_translation {A B : Arith} {M : List F64 → List F64 → F64} (hM : M ∈ metrics B) (o : Args) (x y : List ℚ) (t : ℚ) :
    (dtw A (askWith M o (x.map (· + t)) (y.map (· + t)))).map Result.core = (dtw A (askWith M o x y)).map Result.core := by
  refine callWith_core A (.d1 _) (.d1 _) rfl (.d1 _) (.d1 _) rfl (by simp) (by simp) ?_
  intro i hi j hj
  have hi' : i < x.length := by simpa using hi
  have hj' : j < y.length := by simpa using hj
  rw [column_row x i hi', column_row y j hj', column_row _ i (by simpa using hi'), column_row _ j (by simpa using hj')]
  have := metric_differences hM (l := [(x.getD i 0, y.getD j 0)]) (l' := [((x.map (· + t)).getD i 0, (y.map (· + t)).getD j 0)])
    (by simp [List.getD, hi', hj'])
  simpa using this

/-! ### Witnesses -/

/-- Samples a hair apart: 1 and 1 + 2^-52. -/
def Ex.fineX : List ℚ := [1, 1 + 2 ^ (-52 : ℤ), 3, 2]
def Ex.fineY : List ℚ := [1, 1, 1 + 2 ^ (-52 : ℤ), 3, 3, 2]
def Ex.fineZ : List ℚ := [1, 1, 1, 3, 3, 2]

theorem Ex.small_noOverflow {x y : List ℚ} (hx : ∀ u ∈ x, -16 ≤ u ∧ u ≤ 16) (hy : ∀ u ∈ y, -16 ≤ u ∧ u ≤ 16) : NoOverflow x y := by
  have hb : (16 : ℚ) ≤ 2 ^ (1022 : ℤ) := by
    have : (2 : ℚ) ^ (4 : ℤ) ≤ 2 ^ (1022 : ℤ) := two_zpow_le (by norm_num)
    refine _root_.le_trans ?_ this
    norm_num
  exact noOverflow_of_le (fun u hu => (abs_le.2 ⟨by linarith [(hx u hu).1], (hx u hu).2⟩).trans hb)
    fun u hu => (abs_le.2 ⟨by linarith [(hy u hu).1], (hy u hu).2⟩).trans hb

theorem Ex.fine_double : ∀ u : ℚ, u = 1 ∨ u = 1 + 2 ^ (-52 : ℤ) ∨ u = 3 ∨ u = 2 → IsDouble u := by
  rintro u (rfl | rfl | rfl | rfl)
  · exact_mod_cast isDouble_int (z := 1) (by norm_num)
  · refine ⟨2 ^ 52 + 1, -52, by norm_num, by norm_num, ?_, ?_⟩
    · norm_num
    · refine lt_of_lt_of_le (b := (2 : ℚ) ^ 2) ?_ (pow_le_pow_right₀ (by norm_num) (by norm_num))
      rw [abs_of_pos (by norm_num)]
      norm_num
  · exact_mod_cast isDouble_int (z := 3) (by norm_num)
  · exact_mod_cast isDouble_int (z := 2) (by norm_num)

/-- Equal up to repetitions: distance 0.  One sample one unit in the last place off: not 0. -/
example : (∃ r, dtw (binary64 false) (askWith (cityblock (binary64 false)) Ex.serOpts Ex.fineX Ex.fineY) = .ok r ∧ r.distance = fin 0) ∧
    ¬ ∃ r, dtw (binary64 false) (askWith (cityblock (binary64 false)) Ex.serOpts Ex.fineX Ex.fineZ) = .ok r ∧ r.distance = fin 0 := by
  have hX : ∀ u ∈ Ex.fineX, -16 ≤ u ∧ u ≤ 16 := by decide +kernel
  have hY : ∀ u ∈ Ex.fineY, -16 ≤ u ∧ u ≤ 16 := by decide +kernel
  have hZ : ∀ u ∈ Ex.fineZ, -16 ≤ u ∧ u ≤ 16 := by decide +kernel
  have dX : ∀ u ∈ Ex.fineX, IsDouble u := fun u hu => Ex.fine_double u (by simp [Ex.fineX] at hu ⊢; tauto)
  have dY : ∀ u ∈ Ex.fineY, IsDouble u := fun u hu => Ex.fine_double u (by simp [Ex.fineY] at hu ⊢; tauto)
  have dZ : ∀ u ∈ Ex.fineZ, IsDouble u := fun u hu => Ex.fine_double u (by simp [Ex.fineZ] at hu ⊢; tauto)
  constructor
  · exact (C75_zero_iff false (isGap_cityblock false (Ex.small_noOverflow hX hY)) Ex.ser_sensible rfl rfl (by decide) dX dY
      (Ex.small_noOverflow hX hY)).2 (by decide +kernel)
  · rw [C75_zero_iff false (isGap_cityblock false (Ex.small_noOverflow hX hZ)) Ex.ser_sensible rfl rfl (by decide) dX dZ
      (Ex.small_noOverflow hX hZ)]
    decide +kernel

/-- LB_Keogh in a band of radius 1, with a fractional excursion. -/
example : ∃ r, dtw (binary64 false) (askWith (cityblock (binary64 false)) Ex.serBand [0, 2, 1, 3] [1 / 8, 1, 4, 4]) = .ok r ∧
    F64.le (runningSum (binary64 false) (fun i => if i = 0 then 1 / 8 else if i = 3 then 1 else 0) 3) r.distance := by
  have hO : NoOverflow [0, 2, 1, 3] [1 / 8, 1, 4, 4] := Ex.small_noOverflow (by decide +kernel) (by decide +kernel)
  obtain ⟨r, hr⟩ := Ex.get_ok (x := dtw (binary64 false) (askWith (cityblock (binary64 false)) Ex.serBand [0, 2, 1, 3] [1 / 8, 1, 4, 4]))
    (by decide +kernel)
  exact ⟨r, hr, C75_lb_keogh false (isGap_cityblock false hO) (x := [0, 2, 1, 3]) (y := [1 / 8, 1, 4, 4]) Ex.serBand_sensible
    (by norm_num) rfl (by decide) hO (lo := fun i => if i = 3 then 4 else if i = 2 then 1 else 1 / 8)
    (hi := fun i => if i = 0 then 1 else 4) (b := fun i => if i = 0 then 1 / 8 else if i = 3 then 1 else 0)
    (by decide +kernel) (by decide +kernel) hr⟩

/-- Lock step. -/
example : ∃ r, dtw (binary64 true) (askWith (cityblock (binary64 true)) Ex.serBand [0, 2, 1, 3] [1 / 8, 1, 4, 4]) = .ok r ∧
    F64.le r.distance (runningSum (binary64 true) (fun i => roundedGap [0, 2, 1, 3] [1 / 8, 1, 4, 4] i i) 3) := by
  have hO : NoOverflow [0, 2, 1, 3] [1 / 8, 1, 4, 4] := Ex.small_noOverflow (by decide +kernel) (by decide +kernel)
  obtain ⟨r, hr⟩ := Ex.get_ok (x := dtw (binary64 true) (askWith (cityblock (binary64 true)) Ex.serBand [0, 2, 1, 3] [1 / 8, 1, 4, 4]))
    (by decide +kernel)
  exact ⟨r, hr, C75_lock_step true (isGap_cityblock true hO) (x := [0, 2, 1, 3]) (y := [1 / 8, 1, 4, 4]) rfl Ex.serBand_sensible
    rfl rfl (fun i _ => by simp [bandOf]) hr⟩

end DTW
