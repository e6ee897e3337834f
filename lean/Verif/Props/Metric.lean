import Verif.Proofs.SqrtProof
import Verif.Props.TextFiles
import Verif.Props.Series
import Verif.Props.CountRounding

/-!
# C66: the default metric

`dtw(x, y)` compares two series with scipy's "euclidean" metric: for one-dimensional series the square root of the square
of the difference, in doubles.
-/

namespace DTW
open F64

/-- **C66** `sqrt` of a positive double is the double nearest to the real square root. -/
theorem C66_sqrt {q : ℚ} (hq : IsDouble q) (hpos : 0 < q) :
    ∃ v, sqrt64 (fin q) = fin v ∧ IsDouble v ∧ 0 < v ∧
      ∀ d : ℚ, IsDouble d → |(v : ℝ) - Real.sqrt q| ≤ |(d : ℝ) - Real.sqrt q| := by
  refine ⟨sqrtPos q, by simp [sqrt64, hpos], sqrtPos_double hq hpos, ?_, sqrtPos_nearest hpos⟩
  obtain ⟨b1, b2⟩ := sqrtUlps_bounds hpos
  have h := (nearSqrt_range b1 b2).1
  have : 0 < nearSqrt (sqrtUlps q) := by omega
  exact mul_pos (by exact_mod_cast this) (two_zpow_pos _)

/-- A double from 2^-1022 on has a significand of exactly 53 bits. -/
theorem significand {d : ℚ} (hd : IsDouble d) (hpos : 0 < d) (h : (2 : ℚ) ^ (-1021 : ℤ) ≤ d) :
    ∃ (k : ℕ) (e : ℤ), 2 ^ 52 ≤ k ∧ k < 2 ^ 53 ∧ d = k * 2 ^ e := by
  have hl : -1021 ≤ Int.log 2 d := (Int.zpow_le_iff_le_log (by norm_num) hpos).1 (by simpa using h)
  have hr : roundPos d = d := by
    have := rnd64_double hd
    simp only [rnd64, hpos, if_true] at this
    have hlt : ¬ (2 : ℚ) ^ (1024 : ℤ) ≤ roundPos d := by
      intro hc
      rw [overflow, if_pos hc] at this
      cases this
    rw [overflow, if_neg hlt] at this
    exact F64.fin.inj this
  have h1 := ulps_le hpos (by unfold ulpExp; omega)
  have h2 := lt_ulps d
  have h3 : d / 2 ^ ulpExp d = (roundEven (d / 2 ^ ulpExp d) : ℚ) := by
    rw [div_eq_iff (two_zpow_pos _).ne']
    exact hr.symm
  rw [h3] at h1 h2
  have k1 : (2 : ℤ) ^ 52 ≤ roundEven (d / 2 ^ ulpExp d) := by exact_mod_cast h1
  have k2 : roundEven (d / 2 ^ ulpExp d) < (2 : ℤ) ^ 53 := by exact_mod_cast h2
  obtain ⟨k, hk⟩ := Int.eq_ofNat_of_zero_le (le_trans (by norm_num) k1)
  rw [hk] at k1 k2
  refine ⟨k, ulpExp d, by exact_mod_cast k1, by exact_mod_cast k2, ?_⟩
  have : ((roundEven (d / 2 ^ ulpExp d) : ℤ) : ℚ) = (k : ℚ) := by rw [hk]; rfl
  rw [← this]
  exact hr.symm

/-- The square of a double in range, rounded. -/
theorem square_root_of_square {d : ℚ} (hd : IsDouble d) (h1 : (2 : ℚ) ^ (-511 : ℤ) ≤ d) (h2 : d < 2 ^ (512 : ℤ)) :
    ∃ v, rnd64 (d * d) = fin v ∧ sqrt64 (fin v) = fin d := by
  have hpos : 0 < d := lt_of_lt_of_le (two_zpow_pos _) h1
  obtain ⟨k, e, hk1, hk2, rfl⟩ := significand hd hpos (le_trans (two_zpow_le (by norm_num)) h1)
  have hk1' : (2 : ℚ) ^ 52 ≤ k := by exact_mod_cast hk1
  have hk2' : (k : ℚ) + 1 ≤ 2 ^ 53 := by exact_mod_cast hk2
  have hp := two_zpow_pos e
  have he1 : -564 ≤ e := by
    have : (2 : ℚ) ^ (-511 : ℤ) < 2 ^ (53 + e) := by
      rw [zpow_add₀ (by norm_num)]
      refine lt_of_le_of_lt h1 (mul_lt_mul_of_pos_right ?_ hp)
      calc (k : ℚ) < k + 1 := by linarith
        _ ≤ _ := by refine hk2'.trans (le_of_eq (by norm_num))
    have := (zpow_lt_zpow_iff_right₀ (by norm_num : (1 : ℚ) < 2)).1 this
    omega
  have he2 : e < 460 := by
    have : (2 : ℚ) ^ (52 + e) < 2 ^ (512 : ℤ) := by
      rw [zpow_add₀ (by norm_num)]
      refine lt_of_le_of_lt (mul_le_mul_of_nonneg_right ?_ hp.le) h2
      exact le_trans (le_of_eq (by norm_num)) hk1'
    have := (zpow_lt_zpow_iff_right₀ (by norm_num : (1 : ℚ) < 2)).1 this
    omega
  set d : ℚ := (k : ℚ) * 2 ^ e with hdd
  have hsq : d * d = (k : ℚ) ^ 2 * 2 ^ (2 * e) := by
    rw [hdd, two_mul, zpow_add₀ (by norm_num)]; ring
  have hdd0 : 0 < d * d := mul_pos hpos hpos
  have hp2 := two_zpow_pos (2 * e)
  have hlow : (2 : ℚ) ^ (2 * e + 104) ≤ d * d := by
    rw [hsq, add_comm, zpow_add₀ (by norm_num)]
    refine mul_le_mul_of_nonneg_right ?_ hp2.le
    rw [show (2 : ℚ) ^ (104 : ℤ) = (2 ^ 52) ^ 2 by norm_num]
    exact pow_le_pow_left₀ (by norm_num) hk1' 2
  have hlow' : (2 : ℚ) ^ (2 * e + 104) ≤ roundPos (d * d) := by
    have h := roundPos_mono (two_zpow_pos _) hlow
    have e1 := roundPos_double (m := 1) (e := 2 * e + 104) (by norm_num) (by norm_num) (by omega)
    simp only [Int.cast_one, one_mul] at e1
    rwa [e1] at h
  have hrel := roundPos_relerr hdd0 (by
    rw [hsq] 
    have : (2 : ℚ) ^ (-511 : ℤ) * 2 ^ (-511 : ℤ) ≤ d * d := mul_le_mul h1 h1 (two_zpow_pos _).le hpos.le
    rw [← zpow_add₀ (by norm_num)] at this
    rw [← hsq]
    exact this)
  have hs := sqrtPos_near hk1 hk2 hlow' (by rw [← hdd, pow_two]; exact hrel)
  have hfin : ¬ (2 : ℚ) ^ (1024 : ℤ) ≤ roundPos (d * d) := by
    rw [not_le]
    have u1 : roundPos (d * d) ≤ d * d + d * d / 2 ^ 53 := by have := (abs_le.1 hrel).2; linarith
    refine lt_of_le_of_lt u1 ?_
    rw [hsq]
    have u2 : (k : ℚ) ^ 2 + (k : ℚ) ^ 2 / 2 ^ 53 < 2 ^ 106 := by
      have : (k : ℚ) ^ 2 / 2 ^ 53 ≤ k := by rw [div_le_iff₀ (by norm_num)]; nlinarith
      nlinarith
    calc (k : ℚ) ^ 2 * 2 ^ (2 * e) + (k : ℚ) ^ 2 * 2 ^ (2 * e) / 2 ^ 53
        = ((k : ℚ) ^ 2 + (k : ℚ) ^ 2 / 2 ^ 53) * 2 ^ (2 * e) := by ring
      _ < 2 ^ 106 * 2 ^ (2 * e) := mul_lt_mul_of_pos_right u2 hp2
      _ = 2 ^ (106 + 2 * e) := by rw [zpow_add₀ (by norm_num)]; norm_num
      _ ≤ _ := two_zpow_le (by omega)
  refine ⟨roundPos (d * d), by simp only [rnd64, hdd0, if_true, overflow, hfin, if_false], ?_⟩
  have : 0 < roundPos (d * d) := lt_of_lt_of_le (two_zpow_pos _) hlow'
  simp only [sqrt64, this, if_true, hs]
  rfl

theorem rnd64_isDouble {q v : ℚ} (h : rnd64 q = fin v) : IsDouble v := ((C49_nearest q).1 v h).1

/-- Adding 0 changes no double. -/
theorem add_zero_rnd64 (f : Bool) (q : ℚ) : (binary64 f).add (fin 0) (rnd64 q) = rnd64 q := by
  cases h : rnd64 q with
  | nan => exact absurd h ((binary64 f).rnd_ne_nan q)
  | pinf => rfl
  | ninf => rfl
  | fin v =>
    show rnd64 (0 + v) = fin v
    rw [zero_add]
    exact rnd64_double (rnd64_isDouble h)

theorem mac_zero (f : Bool) (d : ℚ) : (binary64 f).mac (fin 0) (fin d) (fin d) = rnd64 (d * d) := by
  unfold Arith.mac
  cases f with
  | false => exact add_zero_rnd64 false (d * d)
  | true =>
    show rnd64 (0 + d * d) = _
    rw [zero_add]

theorem absSub_of {f : Bool} {u v d : ℚ} (h : rnd64 (u - v) = fin d) : absSub (binary64 f) (fin u) (fin v) = fin |d| := by
  have : (binary64 f).add (fin u) (F64.neg (fin v)) = fin d := by
    show rnd64 (u + -v) = _
    rw [← sub_eq_add_neg]; exact h
  rw [absSub, this]; rfl

theorem isDouble_abs {d : ℚ} (h : IsDouble d) : IsDouble |d| := by
  obtain ⟨m, e, h1, h2, h3, h4⟩ := h
  refine ⟨|m|, e, by rwa [abs_abs], h2, ?_, by rwa [abs_abs]⟩
  rw [h3, abs_mul, abs_of_pos (two_zpow_pos e)]
  push_cast
  rfl

theorem accumulate_one (step : F64 → F64 → F64 → F64) (a b : F64) : accumulate step [a] [b] = step (fin 0) a b := rfl

theorem euclidean_one {f : Bool} {u v d : ℚ} (h : rnd64 (u - v) = fin d) :
    euclidean (binary64 f) [fin u] [fin v] = sqrt64 (rnd64 (|d| * |d|)) := by
  unfold euclidean sqEuclidean
  rw [accumulate_one, absSub_of h, mac_zero]

/-- **C66** One-dimensional series: if the difference of two numbers, in doubles, is `d`, and `d` is 0 or of a size from 2^-511 to
below 2^512, the metric "euclidean" gives exactly `|d|` - what "cityblock" gives for every `d`. -/
theorem C66_one_column (f : Bool) {u v d : ℚ} (hd : rnd64 (u - v) = fin d)
    (hr : d = 0 ∨ (2 : ℚ) ^ (-511 : ℤ) ≤ |d| ∧ |d| < 2 ^ (512 : ℤ)) :
    euclidean (binary64 f) [fin u] [fin v] = fin |d| := by
  rw [euclidean_one hd]
  rcases hr with rfl | ⟨h1, h2⟩
  · simp [rnd64, sqrt64]
  · obtain ⟨w, e1, e2⟩ := square_root_of_square (isDouble_abs (rnd64_isDouble hd)) h1 h2
    rw [e1, e2]

/-- **C66** "cityblock" is the rounded difference, without restriction. -/
theorem C66_cityblock_one_column (f : Bool) {u v d : ℚ} (hd : rnd64 (u - v) = fin d) :
    cityblock (binary64 f) [fin u] [fin v] = fin |d| := by
  unfold cityblock
  rw [accumulate_one, absSub_of hd]
  show rnd64 (0 + |d|) = _
  rw [zero_add]
  exact rnd64_double (isDouble_abs (rnd64_isDouble hd))

/-- **C66** So is "chebyshev". -/
theorem C66_chebyshev_one_column (f : Bool) {u v d : ℚ} (hd : rnd64 (u - v) = fin d) :
    chebyshev (binary64 f) [fin u] [fin v] = fin |d| := by
  unfold chebyshev
  rw [accumulate_one, absSub_of hd]
  split
  · rfl
  · rename_i h
    have : |d| ≤ 0 := by simpa [F64.lt] using h
    rw [_root_.le_antisymm this (abs_nonneg d)]

/-- **C66** Differences of 2^512 (about 1.3e154) or more are taken for infinite. -/
theorem C66_overflow (f : Bool) {u v d : ℚ} (hd : rnd64 (u - v) = fin d) (h : (2 : ℚ) ^ (512 : ℤ) ≤ |d|) :
    euclidean (binary64 f) [fin u] [fin v] = pinf := by
  have hp : (0 : ℚ) < (2 : ℚ) ^ (512 : ℤ) := two_zpow_pos _
  have h1 : (2 : ℚ) ^ (1024 : ℤ) ≤ |d| * |d| := by
    rw [show (1024 : ℤ) = 512 + 512 by norm_num, zpow_add₀ (by norm_num)]
    exact mul_le_mul h h hp.le (abs_nonneg d)
  have h2 : rnd64 (|d| * |d|) = pinf := by
    refine ((C49_nearest _).2.1).2 (le_trans ?_ h1)
    rw [show (1024 : ℤ) = 53 + 971 by norm_num, zpow_add₀ (by norm_num)]
    refine mul_le_mul_of_nonneg_right ?_ (two_zpow_pos _).le
    norm_num
  rw [euclidean_one hd, h2]
  rfl

/-- **C66** Differences of at most 2^-538 (about 1e-162) are taken for 0. -/
theorem C66_underflow (f : Bool) {u v d : ℚ} (hd : rnd64 (u - v) = fin d) (h : |d| ≤ (2 : ℚ) ^ (-538 : ℤ)) :
    euclidean (binary64 f) [fin u] [fin v] = fin 0 := by
  have h1 : |d| * |d| ≤ (2 : ℚ) ^ (-1076 : ℤ) := by
    rw [show (-1076 : ℤ) = -538 + -538 by norm_num, zpow_add₀ (by norm_num)]
    exact mul_le_mul h h (abs_nonneg d) (two_zpow_pos _).le
  have h2 : rnd64 (|d| * |d|) = fin 0 := by
    rcases (abs_nonneg d).eq_or_lt with h0 | h0
    · rw [← h0]; simp [rnd64]
    · have hp : 0 < |d| * |d| := mul_pos h0 h0
      have hl : Int.log 2 (|d| * |d|) < -1075 := by
        refine (Int.lt_zpow_iff_log_lt (by norm_num) hp).1 ?_
        refine lt_of_le_of_lt h1 ?_
        push_cast
        exact zpow_lt_zpow_right₀ (by norm_num) (by norm_num)
      have hu : ulpExp (|d| * |d|) = -1074 := by unfold ulpExp; omega
      have hz : roundEven (|d| * |d| / 2 ^ (-1074 : ℤ)) = 0 := by
        have hq : |d| * |d| / 2 ^ (-1074 : ℤ) ≤ 1 / 4 := by
          rw [div_le_iff₀ (two_zpow_pos _)]
          refine le_trans h1 ?_
          rw [show (-1076 : ℤ) = -2 + -1074 by norm_num, zpow_add₀ (by norm_num)]
          refine mul_le_mul_of_nonneg_right ?_ (two_zpow_pos _).le
          norm_num
        have hq0 : 0 ≤ |d| * |d| / 2 ^ (-1074 : ℤ) := div_nonneg hp.le (two_zpow_pos _).le
        generalize |d| * |d| / 2 ^ (-1074 : ℤ) = z at *
        have hf : ⌊z⌋ = 0 := Int.floor_eq_iff.2 ⟨by simpa using hq0, by simp; linarith⟩
        unfold roundEven
        dsimp only
        rw [hf, if_pos (by push_cast; linarith)]
      have hr : roundPos (|d| * |d|) = 0 := by
        unfold roundPos
        rw [hu, hz]; simp
      have hov : ¬ (2 : ℚ) ^ (1024 : ℤ) ≤ 0 := not_le.2 (two_zpow_pos _)
      simp only [rnd64, hp, if_true, hr, overflow, hov, if_false]
  rw [euclidean_one hd, h2]
  simp [sqrt64]

/-! ### The call `dtw(x, y)` -/

/-- The call `dtw(x, y, …)` of two one-dimensional series with the metric `M` (and the options of `o`). -/
def askWith (M : List F64 → List F64 → F64) (o : Args) (x y : List ℚ) : Args :=
  { o with
    x := .d1 (x.map fin)
    y := some (.d1 (y.map fin))
    dist := M }

/-- The difference of two samples, in doubles, is `d`, and its square neither overflows nor loses digits. -/
def Moderate (u v d : ℚ) : Prop :=
  rnd64 (u - v) = fin d ∧ (d = 0 ∨ (2 : ℚ) ^ (-511 : ℤ) ≤ |d| ∧ |d| < 2 ^ (512 : ℤ))

theorem column_row (z : List ℚ) (k : Nat) (hk : k < z.length) :
    (⟨(z.map fin).length, 1, z.map fin⟩ : Mat F64).row k = [fin (z.getD k 0)] := by
  simp only [Mat.row, Nat.mul_one]
  rw [← List.map_drop, List.drop_eq_getElem_cons hk, List.map_cons, List.take_succ_cons, List.take_zero]
  simp [List.getD, hk]

theorem askWith_local {M N : List F64 → List F64 → F64} {x y : List ℚ} (o : Args)
    (h : ∀ i < x.length, ∀ j < y.length, M [fin (x.getD i 0)] [fin (y.getD j 0)] = N [fin (x.getD i 0)] [fin (y.getD j 0)]) :
    localCost (askWith M o x y) = localCost (askWith N o x y) := by
  unfold localCost askWith
  simp only [asColumns, Except_bind_ok, cdist]
  rw [if_neg (by simp), if_neg (by simp), Except_bind_ok, Except_bind_ok]
  congr 2
  refine ofFn_congr fun i hi j hj => ?_
  have hi' : i < x.length := by simpa using hi
  have hj' : j < y.length := by simpa using hj
  rw [column_row x i hi', column_row y j hj']
  exact h i hi' j hj'

theorem askWith_congr {M N : List F64 → List F64 → F64} {x y : List ℚ} (A : Arith) (o : Args)
    (h : ∀ i < x.length, ∀ j < y.length, M [fin (x.getD i 0)] [fin (y.getD j 0)] = N [fin (x.getD i 0)] [fin (y.getD j 0)]) :
    dtw A (askWith M o x y) = dtw A (askWith N o x y) := by
  unfold dtw
  rw [askWith_local o h]
  rfl

/-- **C66** `dtw(x, y)` with the default metric is `dtw(x, y, dist_method="cityblock")` - the whole result, for every step
pattern, window and option - when no difference of two samples is extremely small or large. -/
theorem C66_default_is_cityblock (f : Bool) (A : Arith) (o : Args) {x y : List ℚ}
    (h : ∀ i < x.length, ∀ j < y.length, ∃ d, Moderate (x.getD i 0) (y.getD j 0) d) :
    dtw A (askWith (euclidean (binary64 f)) o x y) = dtw A (askWith (cityblock (binary64 f)) o x y) := by
  refine askWith_congr A o fun i hi j hj => ?_
  obtain ⟨d, h1, h2⟩ := h i hi j hj
  rw [C66_one_column f h1 h2, C66_cityblock_one_column f h1]

/-- **C66** If moreover the differences are doubles themselves, `dtw(x, y)` is the call of C63, with local cost
`|x_i - y_j|`. -/
theorem C66_exact_differences (f : Bool) (A : Arith) (o : Args) {x y : List ℚ}
    (h : ∀ i < x.length, ∀ j < y.length, Moderate (x.getD i 0) (y.getD j 0) (x.getD i 0 - y.getD j 0)) :
    dtw A (askWith (euclidean (binary64 f)) o x y) = dtw A (ask o x y) := by
  have : ask o x y = askWith absDiff o x y := rfl
  rw [this]
  refine askWith_congr A o fun i hi j hj => ?_
  obtain ⟨h1, h2⟩ := h i hi j hj
  rw [C66_one_column f h1 h2]
  rfl

theorem isDouble_int {z : ℤ} (h : |z| < 2 ^ 53) : IsDouble z := by
  refine ⟨z, 0, h, by norm_num, by simp, ?_⟩
  have h1 : |(z : ℚ)| < 2 ^ (53 : ℤ) := by
    have : ((|z| : ℤ) : ℚ) < ((2 ^ 53 : ℤ) : ℚ) := by exact_mod_cast h
    push_cast at this
    exact lt_of_lt_of_eq this (by norm_num)
  exact lt_of_lt_of_le h1 (two_zpow_le (by norm_num))

/-- Whole numbers below 2^52. -/
theorem moderate_int {a b : ℤ} (ha : |a| < 2 ^ 52) (hb : |b| < 2 ^ 52) : Moderate a b ((a : ℚ) - b) := by
  have hd : |a - b| < 2 ^ 53 := by
    have := abs_sub a b
    omega
  have hc : (a : ℚ) - b = ((a - b : ℤ) : ℚ) := by push_cast; rfl
  refine ⟨by rw [hc]; exact rnd64_double (isDouble_int hd), ?_⟩
  rw [hc]
  by_cases h0 : a - b = 0
  · left; rw [h0]; rfl
  · right
    have h1 : (1 : ℤ) ≤ |a - b| := Int.one_le_abs h0
    have h1' : (1 : ℚ) ≤ |((a - b : ℤ) : ℚ)| := by exact_mod_cast h1
    have h2' : |((a - b : ℤ) : ℚ)| < 2 ^ (53 : ℤ) := by
      have : ((|a - b| : ℤ) : ℚ) < ((2 ^ 53 : ℤ) : ℚ) := by exact_mod_cast hd
      rw [Int.cast_abs] at this
      exact lt_of_lt_of_eq this (by norm_num)
    constructor
    · refine le_trans ?_ h1'
      have := two_zpow_le (a := -511) (b := 0) (by norm_num)
      rwa [zpow_zero] at this
    · exact lt_of_lt_of_le h2' (two_zpow_le (by norm_num))

/-- **C66** Whole-number series (samples below 2^52): the default call is the call with local cost `|x_i - y_j|`. -/
theorem C66_whole_numbers (f : Bool) (A : Arith) (o : Args) {x y : List ℤ} (hx : ∀ a ∈ x, |a| < 2 ^ 52)
    (hy : ∀ b ∈ y, |b| < 2 ^ 52) :
    dtw A (askWith (euclidean (binary64 f)) o (x.map fun a : ℤ => (a : ℚ)) (y.map fun b : ℤ => (b : ℚ))) =
      dtw A (ask o (x.map fun a : ℤ => (a : ℚ)) (y.map fun b : ℤ => (b : ℚ))) := by
  have get : ∀ (z : List ℤ) (k : Nat), k < (z.map fun a : ℤ => (a : ℚ)).length →
      ∃ a ∈ z, (z.map fun a : ℤ => (a : ℚ)).getD k 0 = a := by
    intro z k hk
    have hk' : k < z.length := by simpa using hk
    exact ⟨z[k], List.getElem_mem hk', by simp [List.getD, hk']⟩
  refine C66_exact_differences f A o fun i hi j hj => ?_
  obtain ⟨a, ha, ea⟩ := get x i hi
  obtain ⟨b, hb, eb⟩ := get y j hj
  rw [ea, eb]
  exact moderate_int (hx a ha) (hy b hb)

/-- **C66** If every difference overflows when squared, there is no alignment, although `cityblock` finds one. -/
theorem C66_overflow_fails (f : Bool) {A : Arith} {o : Args} {x y : List ℚ} {W : Nat → Nat → Bool} {q : String × StepPattern}
    (h : Sensible o x.length y.length W q) (hne : q.1 ≠ "_symmetricVelichkoZagoruyko" ∧ q.1 ≠ "_asymmetricP0b")
    (hob : o.openBegin = false) (hn : 2 ≤ x.length)
    (hbig : ∀ i < x.length, ∀ j < y.length, ∃ d, rnd64 (x.getD i 0 - y.getD j 0) = fin d ∧ (2 : ℚ) ^ (512 : ℤ) ≤ |d|) :
    ∃ e, dtw A (askWith (euclidean (binary64 f)) o x y) = .error e := by
  have hP : Problem (askWith (euclidean (binary64 f)) o x y) x.length y.length (fun _ _ => pinf) W q.2 (rulesOf q.2) :=
    { n_pos := h.n_pos
      m_pos := h.m_pos
      cost := by
        refine .series _ _ _ rfl (.d1 _) (.d1 _) rfl (by simp) (by simp) ?_
        intro i hi j hj
        obtain ⟨d, h1, h2⟩ := hbig i hi j hj
        rw [column_row x i hi, column_row y j hj]
        exact (C66_overflow f h1 h2).symm
      pattern := (ask_problem h).pattern
      wf := table_wf q h.mem
      fits := (ask_problem h).fits
      window := h.window }
  cases hr : dtw A (askWith (euclidean (binary64 f)) o x y) with
  | error e => exact ⟨e, rfl⟩
  | ok r =>
    exfalso
    obtain ⟨r, hr⟩ := success_full hP hob hr
    replace hP := hP.full
    obtain ⟨mp, hmp⟩ := mapping_present hr rfl
    obtain ⟨_, e1, e2, _, _, e3, _⟩ := C04_end_points hP hob hr hmp
    have hav := C58_path_avoids hP (C58_bundled q h.mem hne).1 hr hmp
    obtain ⟨l1, r1⟩ : ∃ t, mp.index1 = 0 :: t := by
      cases h1 : mp.index1 with
      | nil => rw [h1] at e1; cases e1
      | cons a t => rw [h1] at e1; cases e1; exact ⟨t, rfl⟩
    obtain ⟨l2, r2⟩ : ∃ t, mp.index2 = 0 :: t := by
      cases h1 : mp.index2 with
      | nil => rw [h1] at e2; cases e2
      | cons a t => rw [h1] at e2; cases e2; exact ⟨t, rfl⟩
    rcases hav (0, 0) (by rw [r1, r2]; simp) (by simp) with hno | ⟨hs, _⟩
    · exact hno (((C58_bundled q h.mem hne).2.1 pinf).2 (.inr rfl))
    · rw [hs] at e3
      simp only [List.getLast?_singleton, Option.some.injEq] at e3
      omega

/-! ### Any number of columns -/

/-- **C66** The four metrics are symmetric. -/
theorem C66_symmetric (f : Bool) (x y : List F64) :
    euclidean (binary64 f) x y = euclidean (binary64 f) y x ∧ sqEuclidean (binary64 f) x y = sqEuclidean (binary64 f) y x ∧
    cityblock (binary64 f) x y = cityblock (binary64 f) y x ∧ chebyshev (binary64 f) x y = chebyshev (binary64 f) y x := by
  have hs : ∀ u v, absSub (binary64 f) u v = absSub (binary64 f) v u := by
    intro u v
    cases u <;> cases v <;> simp [absSub, Arith.add, F64.neg, fabs]
    rename_i a b
    show fabs (rnd64 (a + -b)) = fabs (rnd64 (b + -a))
    rw [show b + -a = -(a + -b) by ring, rnd64_neg]
    cases rnd64 (a + -b) <;> simp [fabs, F64.neg]
  have acc : ∀ step : F64 → F64 → F64 → F64, (∀ c u v, step c u v = step c v u) →
      accumulate step x y = accumulate step y x := by
    intro step hstep
    unfold accumulate
    by_cases hl : x.length = y.length
    · rw [if_pos hl, if_pos hl.symm]
      generalize fin 0 = c
      induction x generalizing y c with
      | nil => cases y <;> simp
      | cons a x ih =>
        cases y with
        | nil => simp
        | cons b y =>
          simp only [List.zip_cons_cons, List.foldl_cons]
          rw [hstep c a b]
          exact ih y (by simpa using hl) _
    · rw [if_neg hl, if_neg (fun h => hl h.symm)]
  have e2 : sqEuclidean (binary64 f) x y = sqEuclidean (binary64 f) y x := acc _ fun c u v => by rw [hs u v]
  refine ⟨?_, e2, acc _ fun c u v => by rw [hs u v], acc _ fun c u v => by rw [hs u v]⟩
  unfold euclidean
  rw [e2]

/-- **C66** A row has distance 0 from itself, if it holds neither NaN nor infinities. -/
theorem C66_self (f : Bool) (x : List ℚ) :
    euclidean (binary64 f) (x.map fin) (x.map fin) = fin 0 ∧ sqEuclidean (binary64 f) (x.map fin) (x.map fin) = fin 0 ∧
    cityblock (binary64 f) (x.map fin) (x.map fin) = fin 0 ∧ chebyshev (binary64 f) (x.map fin) (x.map fin) = fin 0 := by
  have h0 : ∀ u, absSub (binary64 f) (fin u) (fin u) = fin 0 := by
    intro u
    have : rnd64 (u - u) = fin 0 := by rw [sub_self]; simp [rnd64]
    rw [absSub_of this, abs_zero]
  have acc : ∀ step : F64 → F64 → F64 → F64, (∀ u, step (fin 0) (fin u) (fin u) = fin 0) →
      accumulate step (x.map fin) (x.map fin) = fin 0 := by
    intro step hstep
    unfold accumulate
    rw [if_pos rfl]
    induction x with
    | nil => rfl
    | cons a x ih =>
      simp only [List.map_cons, List.zip_cons_cons, List.foldl_cons, hstep]
      exact ih
  have e2 : sqEuclidean (binary64 f) (x.map fin) (x.map fin) = fin 0 := acc _ fun u => by
    simp only [h0, mac_zero]; simp [rnd64]
  refine ⟨by unfold euclidean; rw [e2]; simp [sqrt64], e2, acc _ fun u => ?_, acc _ fun u => by simp only [h0, ite_self]⟩
  rw [h0]
  show rnd64 (0 + 0) = _
  simp [rnd64]

/-- **C66** Three of the metrics keep NaN. -/
theorem C66_nan (A : Arith) {x y : List F64} (h : nan ∈ x ∨ nan ∈ y) :
    euclidean A x y = nan ∧ sqEuclidean A x y = nan ∧ cityblock A x y = nan := by
  have hadd : ∀ c, A.add c nan = nan := by intro c; cases c <;> rfl
  have hs : ∀ u v, u = nan ∨ v = nan → absSub A u v = nan := by
    rintro u v (rfl | rfl)
    · rfl
    · show fabs (A.add u nan) = nan
      rw [hadd]; rfl
  have acc : ∀ step : F64 → F64 → F64 → F64, (∀ u v, step nan u v = nan) → (∀ c u v, u = nan ∨ v = nan → step c u v = nan) →
      accumulate step x y = nan := by
    intro step h1 h2
    have keep : ∀ l : List (F64 × F64), l.foldl (fun acc p => step acc p.1 p.2) nan = nan := by
      intro l
      induction l with
      | nil => rfl
      | cons p l ih => simp only [List.foldl_cons, h1, ih]
    unfold accumulate
    split
    · rename_i hl
      generalize fin 0 = c
      induction x generalizing y c with
      | nil =>
        cases y with
        | nil => simp at h
        | cons b y => simp at hl
      | cons a x ih =>
        cases y with
        | nil => simp at hl
        | cons b y =>
          simp only [List.zip_cons_cons, List.foldl_cons]
          by_cases hab : a = nan ∨ b = nan
          · rw [h2 c a b hab]; exact keep _
          · simp only [List.mem_cons] at h
            refine ih ?_ (by simpa using hl) _
            rcases h with (h | h) | (h | h)
            · exact absurd (.inl h.symm) hab
            · exact .inl h
            · exact absurd (.inr h.symm) hab
            · exact .inr h
    · rfl
  have hm : ∀ c w l, w = nan → A.mac c w l = nan := by
    rintro c w l rfl
    unfold Arith.mac
    have : (if A.fused = true then Arith.mulWith fin nan l else A.mul nan l) = nan := by
      cases l <;> simp [Arith.mul, Arith.mulWith]
    rw [this, hadd]
  have hn : ∀ c w l, c = nan → A.mac c w l = nan := by
    rintro c w l rfl
    rfl
  have e2 : sqEuclidean A x y = nan := acc _ (fun u v => hn _ _ _ rfl) fun c u v huv => hm _ _ _ (hs u v huv)
  refine ⟨by unfold euclidean; rw [e2]; rfl, e2, acc _ (fun u v => rfl) fun c u v huv => ?_⟩
  rw [hs u v huv, hadd]

/-- **C66, negative result.**  "chebyshev" does not: a column with a NaN in either row is passed over, as if both series did not
have it. -/
theorem C66_chebyshev_skips_nan (A : Arith) {a a' b b' : List F64} (h : a.length = a'.length) {u v : F64} (huv : u = nan ∨ v = nan) :
    chebyshev A (a ++ u :: b) (a' ++ v :: b') = chebyshev A (a ++ b) (a' ++ b') := by
  have hs : absSub A u v = nan := by
    rcases huv with rfl | rfl
    · rfl
    · cases u <;> rfl
  unfold chebyshev accumulate
  simp only [List.length_append, List.length_cons, h, Nat.add_left_cancel_iff, Nat.add_right_cancel_iff]
  split
  · rw [List.zip_append h, List.zip_append h, List.zip_cons_cons, List.foldl_append, List.foldl_append, List.foldl_cons]
    simp only [hs, F64.lt_nan_right, Bool.false_eq_true, if_false]
  · rfl

/-! ### Accuracy in several columns -/

/-- `c` is `S` up to `E` relative errors of 2^-53. -/
def UpTo (E : Nat) (S c : ℚ) : Prop := (1 - 1 / 2 ^ 53) ^ E * S ≤ c ∧ c ≤ (1 + 1 / 2 ^ 53) ^ E * S

/-- The exact sum of the squares of the differences. -/
def sumSquares (l : List (ℚ × ℚ)) : ℚ := (l.map fun p => (p.1 - p.2) ^ 2).sum

theorem UpTo.mono {E E' : Nat} {S c : ℚ} (h : UpTo E S c) (hE : E ≤ E') (hS : 0 ≤ S) : UpTo E' S c := by
  obtain ⟨h1, h2⟩ := h
  constructor
  · refine le_trans (mul_le_mul_of_nonneg_right ?_ hS) h1
    exact pow_le_pow_of_le_one (by norm_num) (by norm_num) hE
  · refine le_trans h2 (mul_le_mul_of_nonneg_right ?_ hS)
    exact pow_le_pow_right₀ (by norm_num) hE

theorem UpTo.add {E : Nat} {S T c d : ℚ} (h : UpTo E S c) (h' : UpTo E T d) : UpTo E (S + T) (c + d) := by
  obtain ⟨h1, h2⟩ := h
  obtain ⟨h3, h4⟩ := h'
  constructor <;> rw [mul_add] <;> linarith

theorem UpTo.trans {E F : Nat} {S c d : ℚ} (h : UpTo E S c) (h' : UpTo F c d) : UpTo (E + F) S d := by
  obtain ⟨h1, h2⟩ := h
  obtain ⟨h3, h4⟩ := h'
  have p1 : (0 : ℚ) ≤ (1 - 1 / 2 ^ 53) ^ F := pow_nonneg (by norm_num) F
  have p2 : (0 : ℚ) ≤ (1 + 1 / 2 ^ 53) ^ F := pow_nonneg (by norm_num) F
  constructor
  · rw [add_comm E F, pow_add, mul_assoc]
    exact le_trans (mul_le_mul_of_nonneg_left h1 p1) h3
  · rw [add_comm E F, pow_add, mul_assoc]
    exact le_trans h4 (mul_le_mul_of_nonneg_left h2 p2)

theorem UpTo.nonneg {E : Nat} {S c : ℚ} (h : UpTo E S c) (hS : 0 ≤ S) : 0 ≤ c :=
  le_trans (mul_nonneg (pow_nonneg (by norm_num) E) hS) h.1

theorem UpTo.mul {E F : Nat} {S T c d : ℚ} (h : UpTo E S c) (h' : UpTo F T d) (hS : 0 ≤ S) (hT : 0 ≤ T) :
    UpTo (E + F) (S * T) (c * d) := by
  have hc := h.nonneg hS
  have hd := h'.nonneg hT
  obtain ⟨h1, h2⟩ := h
  obtain ⟨h3, h4⟩ := h'
  have p1 : (0 : ℚ) ≤ (1 - 1 / 2 ^ 53) ^ E * S := mul_nonneg (pow_nonneg (by norm_num) E) hS
  have p2 : (0 : ℚ) ≤ (1 - 1 / 2 ^ 53) ^ F * T := mul_nonneg (pow_nonneg (by norm_num) F) hT
  constructor
  · calc (1 - 1 / 2 ^ 53 : ℚ) ^ (E + F) * (S * T) = ((1 - 1 / 2 ^ 53) ^ E * S) * ((1 - 1 / 2 ^ 53) ^ F * T) := by
          rw [pow_add]; ring
      _ ≤ c * d := mul_le_mul h1 h3 p2 hc
  · calc c * d ≤ ((1 + 1 / 2 ^ 53) ^ E * S) * ((1 + 1 / 2 ^ 53) ^ F * T) := mul_le_mul h2 h4 hd (le_trans hc h2)
      _ = _ := by rw [pow_add]; ring

theorem up_to_bounds {E : Nat} (hE : E ≤ 2 ^ 21) : (1 / 2 : ℚ) ≤ (1 - 1 / 2 ^ 53) ^ E ∧ (1 + 1 / 2 ^ 53 : ℚ) ^ E ≤ 2 := by
  have hE' : (E : ℚ) ≤ 2 ^ 21 := by exact_mod_cast hE
  constructor
  · have := one_add_mul_le_pow (a := (-(1 / 2 ^ 53) : ℚ)) (by norm_num) E
    rw [← sub_eq_add_neg] at this
    refine le_trans ?_ this
    have : (E : ℚ) * (1 / 2 ^ 53) ≤ 2 ^ 21 * (1 / 2 ^ 53) := mul_le_mul_of_nonneg_right hE' (by norm_num)
    have e : (2 : ℚ) ^ 21 * (1 / 2 ^ 53) ≤ 1 / 2 := by norm_num
    linarith
  · have h1 : (E : ℚ) * (1 / 2 ^ 53) ≤ 2 ^ 21 * (1 / 2 ^ 53) := mul_le_mul_of_nonneg_right hE' (by norm_num)
    have e : (2 : ℚ) ^ 21 * (1 / 2 ^ 53) ≤ 1 / 2 := by norm_num
    have := pow_le_linear (u := (1 / 2 ^ 53 : ℚ)) (by norm_num) E (by linarith)
    linarith

/-- Rounding a number that is 0 or in range. -/
theorem upTo_rnd {q : ℚ} (h : q = 0 ∨ (2 : ℚ) ^ (-1022 : ℤ) ≤ q ∧ q ≤ 2 ^ (1023 : ℤ)) : ∃ v, rnd64 q = fin v ∧ UpTo 1 q v := by
  rcases h with rfl | ⟨h1, h2⟩
  · exact ⟨0, by simp [rnd64], by simp [UpTo]⟩
  · obtain ⟨v, e, a, b, _⟩ := (C49_binary64_relerr false).err q h1 h2
    exact ⟨v, e, by rw [UpTo, pow_one, pow_one]; exact ⟨a, b⟩⟩

/-- A difference that is 0 or between 2^-500 and 2^500. -/
def Ordinary (p : ℚ × ℚ) : Prop := p.1 - p.2 = 0 ∨ (2 : ℚ) ^ (-500 : ℤ) ≤ |p.1 - p.2| ∧ |p.1 - p.2| ≤ 2 ^ (500 : ℤ)

theorem Ordinary.diff {p : ℚ × ℚ} (h : Ordinary p) : ∃ d, rnd64 (p.1 - p.2) = fin d ∧ UpTo 1 |p.1 - p.2| |d| := by
  rcases h with h | ⟨h1, h2⟩
  · exact ⟨0, by rw [h]; simp [rnd64], by rw [h]; simp [UpTo]⟩
  · obtain ⟨v, e, hv⟩ := rnd64_error (q := p.1 - p.2) (le_trans (two_zpow_le (by norm_num)) h1)
      (le_trans h2 (two_zpow_le (by norm_num)))
    refine ⟨v, e, ?_⟩
    rw [UpTo, pow_one, pow_one]
    have a1 := abs_sub_abs_le_abs_sub v (p.1 - p.2)
    have a2 := abs_sub_abs_le_abs_sub (p.1 - p.2) v
    rw [abs_sub_comm (p.1 - p.2) v] at a2
    constructor <;> linarith

theorem Ordinary.sq {p : ℚ × ℚ} (h : Ordinary p) :
    (p.1 - p.2) ^ 2 = 0 ∨ (2 : ℚ) ^ (-1000 : ℤ) ≤ (p.1 - p.2) ^ 2 ∧ (p.1 - p.2) ^ 2 ≤ 2 ^ (1000 : ℤ) := by
  rcases h with h | ⟨h1, h2⟩
  · left; rw [h]; norm_num
  · right
    rw [← sq_abs (p.1 - p.2), pow_two, show (-1000 : ℤ) = -500 + -500 by norm_num, show (1000 : ℤ) = 500 + 500 by norm_num,
      zpow_add₀ (by norm_num), zpow_add₀ (by norm_num)]
    exact ⟨mul_le_mul h1 h1 (two_zpow_pos _).le (abs_nonneg _), mul_le_mul h2 h2 (abs_nonneg _) (two_zpow_pos _).le⟩

/-- In range with room to spare. -/
theorem in_range {q T : ℚ} {E t : Nat} (h : UpTo E T q) (hE : E ≤ 2 ^ 21) (ht : t ≤ 2 ^ 20)
    (hT : T = 0 ∨ (2 : ℚ) ^ (-1000 : ℤ) ≤ T) (hT2 : T ≤ t * 2 ^ (1000 : ℤ)) :
    q = 0 ∨ (2 : ℚ) ^ (-1022 : ℤ) ≤ q ∧ q ≤ 2 ^ (1023 : ℤ) := by
  obtain ⟨b1, b2⟩ := up_to_bounds hE
  obtain ⟨h1, h2⟩ := h
  have ht' : (t : ℚ) ≤ 2 ^ 20 := by exact_mod_cast ht
  rcases hT with rfl | hT
  · left
    rw [mul_zero] at h1 h2
    linarith
  · right
    have hlo : (2 : ℚ) ^ (-1022 : ℤ) ≤ 1 / 2 * 2 ^ (-1000 : ℤ) := by
      rw [show (-1022 : ℤ) = -22 + -1000 by norm_num, zpow_add₀ (by norm_num)]
      exact mul_le_mul_of_nonneg_right (by norm_num) (two_zpow_pos _).le
    have hhi : (2 : ℚ) * (2 ^ 20 * 2 ^ (1000 : ℤ)) ≤ 2 ^ (1023 : ℤ) := by
      rw [show (1023 : ℤ) = 23 + 1000 by norm_num, zpow_add₀ (by norm_num), ← mul_assoc]
      exact mul_le_mul_of_nonneg_right (by norm_num) (two_zpow_pos _).le
    have pl := two_zpow_pos (-1000)
    have ph := two_zpow_pos 1000
    generalize (2 : ℚ) ^ (-1000 : ℤ) = l at *
    generalize (2 : ℚ) ^ (1000 : ℤ) = g at *
    have hT0 : 0 ≤ T := le_trans pl.le hT
    have q1 : 1 / 2 * l ≤ q := le_trans (mul_le_mul b1 hT pl.le (le_trans (by norm_num) b1)) h1
    have q2 : q ≤ 2 * (2 ^ 20 * g) := by
      refine le_trans h2 (mul_le_mul b2 (le_trans hT2 (mul_le_mul_of_nonneg_right ht' ph.le)) hT0 (by norm_num))
    exact ⟨le_trans hlo q1, le_trans q2 hhi⟩

/-- One more column. -/
theorem mac_upTo (f : Bool) {p : ℚ × ℚ} (hp : Ordinary p) {S c : ℚ} {t : Nat} (ht : t < 2 ^ 20)
    (hS : S = 0 ∨ (2 : ℚ) ^ (-1000 : ℤ) ≤ S) (hS2 : S ≤ t * 2 ^ (1000 : ℤ)) (hc : UpTo (t + 3) S c) :
    ∃ c', (binary64 f).mac (fin c) (absSub (binary64 f) (fin p.1) (fin p.2)) (absSub (binary64 f) (fin p.1) (fin p.2)) = fin c' ∧
      UpTo (t + 1 + 3) (S + (p.1 - p.2) ^ 2) c' ∧
      (S + (p.1 - p.2) ^ 2 = 0 ∨ (2 : ℚ) ^ (-1000 : ℤ) ≤ S + (p.1 - p.2) ^ 2) ∧
      S + (p.1 - p.2) ^ 2 ≤ ((t + 1 : ℕ) : ℚ) * 2 ^ (1000 : ℤ) := by
  obtain ⟨d, hd, hdu⟩ := hp.diff
  have hsq := hp.sq
  have hS0 : 0 ≤ S := by
    rcases hS with h | h
    · rw [h]
    · exact le_trans (two_zpow_pos _).le h
  have hx0 : 0 ≤ (p.1 - p.2) ^ 2 := sq_nonneg _
  have hT : S + (p.1 - p.2) ^ 2 = 0 ∨ (2 : ℚ) ^ (-1000 : ℤ) ≤ S + (p.1 - p.2) ^ 2 := by
    rcases hS with h | h
    · rw [h, zero_add]
      exact hsq.imp_right And.left
    · right; linarith
  have hT2 : S + (p.1 - p.2) ^ 2 ≤ ((t + 1 : ℕ) : ℚ) * 2 ^ (1000 : ℤ) := by
    have : (p.1 - p.2) ^ 2 ≤ 2 ^ (1000 : ℤ) := by
      rcases hsq with h | h
      · rw [h]; exact (two_zpow_pos _).le
      · exact h.2
    push_cast
    rw [add_mul, one_mul]
    linarith
  have hdd : UpTo 2 ((p.1 - p.2) ^ 2) (|d| * |d|) := by
    have := hdu.mul hdu (abs_nonneg _) (abs_nonneg _)
    rwa [← pow_two |p.1 - p.2|, sq_abs] at this
  -- the product, rounded or not
  obtain ⟨z, hz, hzu⟩ : ∃ z, (if f = true then Arith.mulWith fin (fin |d|) (fin |d|) else (binary64 f).mul (fin |d|) (fin |d|)) =
      fin z ∧ UpTo 3 ((p.1 - p.2) ^ 2) z := by
    cases f with
    | true => exact ⟨|d| * |d|, rfl, hdd.mono (by norm_num) hx0⟩
    | false =>
      have hr := in_range (t := 1) hdd (by norm_num) (by norm_num) (hsq.imp_right And.left) (by
        rw [Nat.cast_one, one_mul]
        rcases hsq with h | h
        · rw [h]; exact (two_zpow_pos _).le
        · exact h.2)
      obtain ⟨z, hz, hzu⟩ := upTo_rnd hr
      exact ⟨z, hz, hdd.trans hzu⟩
  have hsum : UpTo (t + 3) (S + (p.1 - p.2) ^ 2) (c + z) := hc.add (hzu.mono (by omega) hx0)
  obtain ⟨c', h1, h2⟩ := upTo_rnd (in_range hsum (by omega) (t := t + 1) (by omega) hT hT2)
  refine ⟨c', ?_, ?_, hT, hT2⟩
  · rw [absSub_of hd]
    unfold Arith.mac
    show (binary64 f).add (fin c) (if f = true then _ else _) = _
    rw [hz]
    exact h1
  · have := hsum.trans h2
    rwa [show t + 3 + 1 = t + 1 + 3 by omega] at this

theorem fold_upTo (f : Bool) : ∀ (l : List (ℚ × ℚ)) (t : Nat) (S c : ℚ), (∀ p ∈ l, Ordinary p) → t + l.length ≤ 2 ^ 20 →
    (S = 0 ∨ (2 : ℚ) ^ (-1000 : ℤ) ≤ S) → S ≤ t * 2 ^ (1000 : ℤ) → UpTo (t + 3) S c →
    ∃ c', (l.map fun p => (fin p.1, fin p.2)).foldl (fun acc p => (binary64 f).mac acc (absSub (binary64 f) p.1 p.2)
        (absSub (binary64 f) p.1 p.2)) (fin c) = fin c' ∧ UpTo (t + l.length + 3) (S + sumSquares l) c' := by
  intro l
  induction l with
  | nil =>
    intro t S c _ _ _ _ hc
    exact ⟨c, rfl, by simpa [sumSquares] using hc⟩
  | cons p l ih =>
    intro t S c hl ht hS hS2 hc
    simp only [List.length_cons] at ht
    obtain ⟨c1, h1, h2, h3, h4⟩ := mac_upTo f (hl p List.mem_cons_self) (by omega) hS hS2 hc
    obtain ⟨c', h5, h6⟩ := ih (t + 1) _ c1 (fun p hp => hl p (List.mem_cons_of_mem _ hp)) (by omega) h3 h4 h2
    refine ⟨c', ?_, ?_⟩
    · simp only [List.map_cons, List.foldl_cons, h1]
      exact h5
    · rw [show t + (p :: l).length + 3 = t + 1 + l.length + 3 by simp only [List.length_cons]; omega]
      have : S + sumSquares (p :: l) = S + (p.1 - p.2) ^ 2 + sumSquares l := by
        simp only [sumSquares, List.map_cons, List.sum_cons]; ring
      rwa [this]

/-- The relative error of the square root is at most 2^-53, too. -/
theorem sqrtPos_upTo {q : ℚ} (hq : 0 < q) : UpTo 2 q (sqrtPos q ^ 2) := by
  obtain ⟨b1, b2⟩ := sqrtUlps_bounds hq
  obtain ⟨n1, _⟩ := nearSqrt_range b1 b2
  obtain ⟨h3, h4⟩ := nearSqrt_bounds (le_trans (by norm_num) b1)
  have hp := two_zpow_pos (2 * sqrtExp q)
  have e1 : sqrtPos q ^ 2 = (nearSqrt (sqrtUlps q) : ℚ) ^ 2 * 2 ^ (2 * sqrtExp q) := by
    unfold sqrtPos
    rw [mul_pow, ← zpow_natCast ((2 : ℚ) ^ sqrtExp q), ← zpow_mul, mul_comm (sqrtExp q)]; rfl
  have e2 : q = sqrtUlps q * 2 ^ (2 * sqrtExp q) := by
    unfold sqrtUlps; rw [div_mul_cancel₀ _ hp.ne']
  have n1' : (2 : ℚ) ^ 52 ≤ nearSqrt (sqrtUlps q) := by exact_mod_cast n1
  have key : UpTo 2 (sqrtUlps q) ((nearSqrt (sqrtUlps q) : ℚ) ^ 2) := by
    generalize sqrtUlps q = y at *
    have hn1 : nearSqrt y = 2 ^ 52 ∨ 2 ^ 52 + 1 ≤ nearSqrt y := by omega
    generalize nearSqrt y = n at *
    push_cast at h3 h4
    constructor
    · have : (1 - 1 / 2 ^ 53) * (2 * (n : ℚ) + 1) ≤ 2 * n := by linarith
      have h5 : ((1 - 1 / 2 ^ 53) * (2 * (n : ℚ) + 1)) ^ 2 ≤ (2 * n) ^ 2 :=
        pow_le_pow_left₀ (mul_nonneg (by norm_num) (by linarith)) this 2
      have h6 : (1 - 1 / 2 ^ 53 : ℚ) ^ 2 * (4 * y) ≤ (1 - 1 / 2 ^ 53) ^ 2 * (2 * (n : ℚ) + 1) ^ 2 :=
        mul_le_mul_of_nonneg_left h3 (by norm_num)
      rw [mul_pow] at h5
      linarith
    · rcases hn1 with hn | hn
      · have hn' : (n : ℚ) = 2 ^ 52 := by rw [hn]; norm_num
        rw [hn']
        have : (1 : ℚ) * y ≤ (1 + 1 / 2 ^ 53) ^ 2 * y :=
          mul_le_mul_of_nonneg_right (by norm_num) (le_trans (by norm_num) b1)
        have e : ((2 : ℚ) ^ 52) ^ 2 = 2 ^ 104 := by norm_num
        linarith
      · have hn' : (2 : ℚ) ^ 52 + 1 ≤ n := by exact_mod_cast hn
        rcases h4 with h4 | h4
        · linarith [show (0 : ℚ) < 2 ^ 52 by norm_num]
        · have : 2 * (n : ℚ) ≤ (1 + 1 / 2 ^ 53) * (2 * n - 1) := by linarith
          have h5 : (2 * (n : ℚ)) ^ 2 ≤ ((1 + 1 / 2 ^ 53) * (2 * n - 1)) ^ 2 :=
            pow_le_pow_left₀ (by linarith [show (0 : ℚ) < 2 ^ 52 by norm_num]) this 2
          have h6 : (1 + 1 / 2 ^ 53 : ℚ) ^ 2 * (2 * (n : ℚ) - 1) ^ 2 ≤ (1 + 1 / 2 ^ 53) ^ 2 * (4 * y) :=
            mul_le_mul_of_nonneg_left h4 (by norm_num)
          rw [mul_pow (1 + 1 / 2 ^ 53 : ℚ)] at h5
          linarith
  obtain ⟨k1, k2⟩ := key
  rw [e1]
  constructor
  · calc (1 - 1 / 2 ^ 53 : ℚ) ^ 2 * q = ((1 - 1 / 2 ^ 53) ^ 2 * sqrtUlps q) * 2 ^ (2 * sqrtExp q) := by rw [mul_assoc, ← e2]
      _ ≤ _ := mul_le_mul_of_nonneg_right k1 hp.le
  · calc _ ≤ ((1 + 1 / 2 ^ 53) ^ 2 * sqrtUlps q) * 2 ^ (2 * sqrtExp q) := mul_le_mul_of_nonneg_right k2 hp.le
      _ = (1 + 1 / 2 ^ 53 : ℚ) ^ 2 * q := by rw [mul_assoc, ← e2]

/-- **C66** Accuracy in any number of columns (up to 2^20): when the differences are 0 or of ordinary size, the metric
"euclidean" returns a number whose square is the sum of the squares of the exact differences up to `k + 5` relative errors of
2^-53 (so the number itself is the Euclidean distance up to half as many). -/
theorem C66_accuracy (f : Bool) (l : List (ℚ × ℚ)) (hl : ∀ p ∈ l, Ordinary p) (hk : l.length ≤ 2 ^ 20) :
    ∃ r, euclidean (binary64 f) (l.map fun p => fin p.1) (l.map fun p => fin p.2) = fin r ∧ 0 ≤ r ∧
      (1 - 1 / 2 ^ 53) ^ (l.length + 5) * sumSquares l ≤ r ^ 2 ∧ r ^ 2 ≤ (1 + 1 / 2 ^ 53) ^ (l.length + 5) * sumSquares l := by
  obtain ⟨c, h1, h2⟩ := fold_upTo f l 0 0 0 hl (by omega) (.inl rfl) (by simp) (by simp [UpTo])
  rw [zero_add, zero_add] at h2
  have hz : (l.map fun p : ℚ × ℚ => fin p.1).zip (l.map fun p => fin p.2) = l.map fun p => (fin p.1, fin p.2) := by
    rw [List.zip_map']
  have hS : 0 ≤ sumSquares l := by
    unfold sumSquares
    refine List.sum_nonneg ?_
    intro x hx
    obtain ⟨p, _, rfl⟩ := List.mem_map.1 hx
    exact sq_nonneg _
  have hc : 0 ≤ c := h2.nonneg hS
  have he : euclidean (binary64 f) (l.map fun p => fin p.1) (l.map fun p => fin p.2) = sqrt64 (fin c) := by
    unfold euclidean sqEuclidean accumulate
    rw [if_pos (by simp), hz, h1]
  rcases hc.eq_or_lt with h0 | h0
  · refine ⟨0, by rw [he, ← h0]; simp [sqrt64], le_rfl, ?_⟩
    have h3 : UpTo (l.length + 5) (sumSquares l) c := h2.mono (by omega) hS
    rw [← h0] at h3
    obtain ⟨a, b⟩ := h3
    exact ⟨by rw [zero_pow (by norm_num)]; exact a, by rw [zero_pow (by norm_num)]; exact b⟩
  · refine ⟨sqrtPos c, by rw [he]; simp [sqrt64, h0], ?_, h2.trans (sqrtPos_upTo h0)⟩
    exact mul_nonneg (Nat.cast_nonneg _) (two_zpow_pos _).le

/-! ### Consequences -/

/-- **C66** Whole-number series in doubles: `dtw(x, y)` with the default metric, run in doubles, returns exactly what the
mathematical definition with `|x_i - y_j|` returns in exact arithmetic (normalized distance rounded once). -/
theorem C66_whole_numbers_exact (f : Bool) {o : Args} {W : Nat → Nat → Bool} {q : String × StepPattern} {x y : List ℤ} {C : Nat}
    (h : Sensible o x.length y.length W q) (hw : NaturalWeights 3 3 (rulesOf q.2))
    (hx : ∀ a ∈ x, |a| < 2 ^ 52) (hy : ∀ b ∈ y, |b| < 2 ^ 52) (hC : ∀ a ∈ x, ∀ b ∈ y, |a - b| ≤ C)
    (hB : (9 * (x.length + y.length + 1) + 1) * C ≤ 2 ^ 53)
    (hoe : o.openEnd = true →
      (9 * (x.length + y.length + 1) + 1) * C * (x.length + y.length) < 2 ^ 52 ∧ x.length + y.length < 2 ^ 52) :
    dtw (binary64 f) (askWith (euclidean (binary64 f)) o (x.map fun a : ℤ => (a : ℚ)) (y.map fun b : ℤ => (b : ℚ))) =
      (dtw Arith.exact (ask o (x.map fun a : ℤ => (a : ℚ)) (y.map fun b : ℤ => (b : ℚ)))).map (roundNorm (binary64 f)) := by
  rw [C66_whole_numbers f _ o hx hy]
  have hP : Problem (ask o (x.map fun a : ℤ => (a : ℚ)) (y.map fun b : ℤ => (b : ℚ))) x.length y.length
      (fun i j => fin (((x.getD i 0 - y.getD j 0).natAbs : ℕ) : ℚ)) W q.2 (rulesOf q.2) := by
    have h0 := ask_problem (o := o) (x := x.map fun a : ℤ => (a : ℚ)) (y := y.map fun b : ℤ => (b : ℚ)) (W := W) (q := q)
      (by simpa using h)
    rw [List.length_map, List.length_map] at h0
    have hg : (fun i j => fin (gap (x.map fun a : ℤ => (a : ℚ)) (y.map fun b : ℤ => (b : ℚ)) i j)) =
        fun i j => fin (((x.getD i 0 - y.getD j 0).natAbs : ℕ) : ℚ) := by
      funext i j
      have get : ∀ (z : List ℤ) (k : Nat), (z.map fun a : ℤ => (a : ℚ)).getD k 0 = ((z.getD k 0 : ℤ) : ℚ) := by
        intro z k
        by_cases hk : k < z.length <;> simp [List.getD, hk]
      rw [gap, get, get, Nat.cast_natAbs]
      push_cast
      rfl
    rwa [hg] at h0
  refine C50_doubles f hP hw ?_ hB hoe
  intro i hi j hj
  have ha : x.getD i 0 ∈ x := by simp [List.getD, hi]
  have hb : y.getD j 0 ∈ y := by simp [List.getD, hj]
  have := hC _ ha _ hb
  show (x.getD i 0 - y.getD j 0).natAbs ≤ C
  rw [Int.abs_eq_natAbs] at this
  exact_mod_cast this

/-- **C66** The script with the metric that it really uses: a word that is not a number makes it fail (C64_unreadable). -/
theorem C66_C64_unreadable {T : Text} {f : Bool} {s : String} {files : String → Except Err Txt} {q r : String} {tq tr : Txt} {x y : Nd} {wq wr : List (List Txt)}
    (hq : q.toList.head? ≠ some '-') (hr : r.toList.head? ≠ some '-')
    (hs : s ∈ continuousNames) (hs' : s ≠ "_symmetricVelichkoZagoruyko" ∧ s ≠ "_asymmetricP0b")
    (h1 : files q = .ok tq) (h2 : files r = .ok tr) (h3 : Read.File wq tq) (h4 : Read.File wr tr)
    (hx : LaidOut x (readTable (binary64 f) tq)) (hy : LaidOut y (readTable (binary64 f) tr))
    (hsize : ∀ X Y, AsMatrix x X → AsMatrix y Y → X.rows * Y.rows < 2147483648)
    (hbad : (∃ l ∈ wq, ∃ w ∈ l, field (binary64 f) w = nan) ∨ ∃ l ∈ wr, ∃ w ∈ l, field (binary64 f) w = nan) :
    ∃ t, mainText (binary64 f) T (euclidean (binary64 f)) files [q, r, "--step_pattern", s] = .raised (.valueError t) :=
  C64_unreadable hq hr hs hs' h1 h2 h3 h4 hx hy hsize (fun _ _ h => (C66_nan _ h).1) hbad

/-- **C66** The default metric is not a metric: series of the same length whose samples all lie within 2^-538 of one another
have distance 0, though they may differ. -/
theorem C66_not_definite (f : Bool) {o : Args} {W : Nat → Nat → Bool} {q : String × StepPattern} {x y : List ℚ}
    (hlen : y.length = x.length) (h : Sensible o x.length x.length W q) (hob : o.openBegin = false) (hoe : o.openEnd = false)
    (hne : q.1 ≠ "_symmetricVelichkoZagoruyko") (hWd : ∀ i < x.length, W i i = true)
    (hx : ∀ i < x.length, ∀ j < y.length, ∃ d, rnd64 (x.getD i 0 - y.getD j 0) = fin d ∧ |d| ≤ (2 : ℚ) ^ (-538 : ℤ)) :
    ∃ r, dtw (binary64 f) (askWith (euclidean (binary64 f)) o x y) = .ok r ∧ r.distance = fin 0 := by
  have h' : Sensible o x.length y.length W q := by rwa [hlen]
  have hP : Problem (askWith (euclidean (binary64 f)) o x y) x.length y.length (fun _ _ => fin 0) W q.2 (rulesOf q.2) :=
    { n_pos := h'.n_pos
      m_pos := h'.m_pos
      cost := by
        refine .series _ _ _ rfl (.d1 _) (.d1 _) rfl (by simp) (by simp) ?_
        intro i hi j hj
        obtain ⟨d, h1, h2⟩ := hx i hi j hj
        rw [column_row x i hi, column_row y j hj]
        exact (C66_underflow f h1 h2).symm
      pattern := (ask_problem h').pattern
      wf := table_wf q h'.mem
      fits := (ask_problem h').fits
      window := h'.window }
  rw [hlen] at hP
  exact C15_double f q h.mem hne (ℓ := fun _ _ => 0) hP hob hoe (fun _ _ _ _ => _root_.le_refl _) (fun _ _ => rfl) hWd

/-! ### Multivariate series -/

/-- **C66, negative result.**  With "chebyshev" a one-dimensional series of NaNs is at distance 0 from every series of the same
length - with the other metrics the call fails (`C66_nan`, C29). -/
theorem C66_chebyshev_ignores_nan (f : Bool) {o : Args} {W : Nat → Nat → Bool} {q : String × StepPattern} (n : Nat) (y : List F64)
    (hlen : y.length = n) (h : Sensible o n n W q) (hob : o.openBegin = false) (hoe : o.openEnd = false)
    (hne : q.1 ≠ "_symmetricVelichkoZagoruyko") (hWd : ∀ i < n, W i i = true) :
    ∃ r, dtw (binary64 f) { o with x := .d1 (List.replicate n nan), y := some (.d1 y), dist := chebyshev (binary64 f) } = .ok r ∧
      r.distance = fin 0 := by
  have hrow : ∀ (z : List F64) (k : Nat), k < z.length → ∃ v, (⟨z.length, 1, z⟩ : Mat F64).row k = [v] ∧ v ∈ z := by
    intro z k hk
    refine ⟨z[k], ?_, List.getElem_mem hk⟩
    simp only [Mat.row, Nat.mul_one]
    rw [List.drop_eq_getElem_cons hk, List.take_succ_cons, List.take_zero]
  refine C15_double f q h.mem hne (ℓ := fun _ _ => 0) (W := W)
    { n_pos := h.n_pos
      m_pos := h.m_pos
      cost := by
        refine .series _ _ _ rfl (.d1 _) (.d1 _) rfl (by simp) hlen ?_
        intro i hi j hj
        obtain ⟨u, e1, h1⟩ := hrow (List.replicate n nan) i (by simpa using hi)
        obtain ⟨v, e2, _⟩ := hrow y j (by rw [hlen]; exact hj)
        rw [e1, e2, List.eq_of_mem_replicate h1]
        exact (C66_chebyshev_skips_nan (binary64 f) (a := []) (a' := []) (b := []) (b' := []) (v := v) rfl (.inl rfl)).symm
      pattern := ?_
      wf := table_wf q h.mem
      fits := ?_
      window := h.window } hob hoe (fun _ _ _ _ => _root_.le_refl _) (fun _ _ => rfl) hWd
  · have h2 : ∀ q ∈ Pat.table, Pat.table.lookup q.1 = some q.2 := by decide +kernel
    show canonPattern o.stepPattern = _
    rw [h.pattern]
    simp only [canonPattern, h2 q h.mem]
  · refine table_fits ?_ q h.mem
    refine Nat.lt_of_le_of_lt (Nat.mul_le_mul_right _ ?_) h.size
    unfold gridRows; split <;> omega

/-- The call `dtw(x, y, …)` of two series, of any number of columns, with the metric `M`. -/
def callWith (M : List F64 → List F64 → F64) (o : Args) (x y : Nd) : Args :=
  { o with
    x := x
    y := some y
    dist := M }

theorem callWith_problem {M : List F64 → List F64 → F64} {o : Args} {x y : Nd} {X Y : Mat F64} {W : Nat → Nat → Bool}
    {q : String × StepPattern} {L : Nat → Nat → F64} (hx : AsMatrix x X) (hy : AsMatrix y Y) (hc : X.cols = Y.cols)
    (h : Sensible o X.rows Y.rows W q) (hL : ∀ i < X.rows, ∀ j < Y.rows, L i j = M (X.row i) (Y.row j)) :
    Problem (callWith M o x y) X.rows Y.rows L W q.2 (rulesOf q.2) where
  n_pos := h.n_pos
  m_pos := h.m_pos
  cost := .series y X Y rfl hx hy hc rfl rfl hL
  pattern := by
    have h2 : ∀ q ∈ Pat.table, Pat.table.lookup q.1 = some q.2 := by decide +kernel
    show canonPattern o.stepPattern = _
    rw [h.pattern]
    simp only [canonPattern, h2 q h.mem]
  wf := table_wf q h.mem
  fits := by
    refine table_fits ?_ q h.mem
    refine Nat.lt_of_le_of_lt (Nat.mul_le_mul_right _ ?_) h.size
    unfold gridRows; split <;> omega
  window := h.window

/-- **C66** In doubles, for series of any number of columns (values infinite or nan included), the distance is symmetric to
the last bit for each of the four metrics, for the patterns symmetric in the two series. -/
theorem C66_series_symmetry (f : Bool) {M : List F64 → List F64 → F64}
    (hM : M ∈ [euclidean (binary64 f), sqEuclidean (binary64 f), cityblock (binary64 f), chebyshev (binary64 f)]) {o : Args} {x y : Nd} {X Y : Mat F64}
    {W : Nat → Nat → Bool} {q : String × StepPattern} (hx : AsMatrix x X) (hy : AsMatrix y Y) (hc : X.cols = Y.cols)
    (h : Sensible o X.rows Y.rows W q) (h' : Sensible o Y.rows X.rows W q)
    (hob : o.openBegin = false) (hoe : o.openEnd = false) (hW : ∀ i j, W i j = W j i)
    (hs : q.1 ∈ ["symmetric1", "symmetric2", "symmetricP0", "symmetricP05", "symmetricP1",
      "symmetricP2", "_symmetricVelichkoZagoruyko", "typeIa", "typeIb", "typeId", "typeIas", "typeIbs",
      "typeIds", "typeIIa", "typeIIb", "typeIId"]) :
    ((∃ r, dtw (binary64 f) (callWith M o x y) = .ok r) ↔ ∃ r', dtw (binary64 f) (callWith M o y x) = .ok r') ∧
    ∀ r r', dtw (binary64 f) (callWith M o x y) = .ok r → dtw (binary64 f) (callWith M o y x) = .ok r' →
      r'.distance = r.distance := by
  have hsymM : ∀ u v, M u v = M v u := by
    intro u v
    obtain ⟨s1, s2, s3, s4⟩ := C66_symmetric f u v
    simp only [List.mem_cons, List.not_mem_nil, or_false] at hM
    rcases hM with rfl | rfl | rfl | rfl
    · exact s1
    · exact s2
    · exact s3
    · exact s4
  have h1 := callWith_problem (M := M) hx hy hc h (L := fun i j => M (X.row i) (Y.row j)) fun _ _ _ _ => rfl
  have h2 := callWith_problem (M := M) hy hx hc.symm h' (L := fun j i => M (X.row i) (Y.row j)) fun _ _ _ _ => hsymM _ _
  rw [show W = fun j i => W i j from funext fun i => funext fun j => hW i j] at h2
  obtain ⟨p, hp, _, hsym⟩ := C17_bundled q.1 hs
  have hpq : p = q.2 := by
    have := h1.pattern
    rw [show (callWith M o x y).stepPattern = .name q.1 from h.pattern, hp] at this
    exact Except.ok.inj this
  subst hpq
  exact C17_symmetric h1 h2 hsym hob hoe hob hoe

/-- **C66** In doubles, with the default metric, the distance of a series of any number of columns from itself is 0. -/
theorem C66_series_self (f : Bool) {o : Args} {x : Nd} {X : Mat F64} {rows : Nat → List ℚ} {k : Nat}
    {W : Nat → Nat → Bool} {q : String × StepPattern} (hx : AsMatrix x X)
    (hrow : ∀ i < X.rows, X.row i = (rows i).map fin ∧ (rows i).length = k) (hk : k ≤ 2 ^ 20)
    (hord : ∀ i < X.rows, ∀ j < X.rows, ∀ p ∈ (rows i).zip (rows j), Ordinary p)
    (h : Sensible o X.rows X.rows W q) (hob : o.openBegin = false) (hoe : o.openEnd = false)
    (hne : q.1 ≠ "_symmetricVelichkoZagoruyko") (hWd : ∀ i < X.rows, W i i = true) :
    ∃ r, dtw (binary64 f) (callWith (euclidean (binary64 f)) o x x) = .ok r ∧ r.distance = fin 0 := by
  have hfin : ∀ i < X.rows, ∀ j < X.rows, ∃ r, euclidean (binary64 f) (X.row i) (X.row j) = fin r ∧ 0 ≤ r := by
    intro i hi j hj
    obtain ⟨r, h1, h2, _⟩ := C66_accuracy f ((rows i).zip (rows j)) (hord i hi j hj)
      (by rw [List.length_zip, (hrow i hi).2, (hrow j hj).2, Nat.min_self]; exact hk)
    refine ⟨r, ?_, h2⟩
    have e1 : ((rows i).zip (rows j)).map (fun p => fin p.1) = X.row i := by
      rw [(hrow i hi).1, show (fun p : ℚ × ℚ => fin p.1) = fin ∘ Prod.fst from rfl, ← List.map_map, List.map_fst_zip]
      rw [(hrow i hi).2, (hrow j hj).2]
    have e2 : ((rows i).zip (rows j)).map (fun p => fin p.2) = X.row j := by
      rw [(hrow j hj).1, show (fun p : ℚ × ℚ => fin p.2) = fin ∘ Prod.snd from rfl, ← List.map_map, List.map_snd_zip]
      rw [(hrow i hi).2, (hrow j hj).2]
    rw [e1, e2] at h1
    exact h1
  have hP := callWith_problem (M := euclidean (binary64 f)) hx hx rfl h
    (L := fun i j => fin (match euclidean (binary64 f) (X.row i) (X.row j) with | fin r => r | _ => 0)) (by
      intro i hi j hj
      obtain ⟨r, h1, _⟩ := hfin i hi j hj
      rw [h1])
  refine C15_double f q h.mem hne hP hob hoe ?_ ?_ hWd
  · intro i hi j hj
    obtain ⟨r, h1, h2⟩ := hfin i hi j hj
    rw [h1]
    exact h2
  · intro i hi
    rw [(hrow i hi).1, (C66_self f (rows i)).1]

/-- **C66** The names of the four metrics. -/
theorem C66_names (A : Arith) :
    (∀ s ∈ ["euclidean", "euclid", "eu", "e", "Euclidean", "EUCLIDEAN"], metricOf A s = some (euclidean A)) ∧
    (∀ s ∈ ["sqeuclidean", "sqe", "sqeuclid", "SqEuclidean"], metricOf A s = some (sqEuclidean A)) ∧
    (∀ s ∈ ["cityblock", "cblock", "cb", "c", "CityBlock"], metricOf A s = some (cityblock A)) ∧
    (∀ s ∈ ["chebychev", "chebyshev", "cheby", "cheb", "ch", "Chebyshev"], metricOf A s = some (chebyshev A)) ∧
    metricOf A "minkowski" = none ∧ metricOf A "" = none := by
  have key : (∀ s ∈ ["euclidean", "euclid", "eu", "e", "Euclidean", "EUCLIDEAN"],
        s.toLower ∈ ["euclidean", "euclid", "eu", "e"]) ∧
      (∀ s ∈ ["sqeuclidean", "sqe", "sqeuclid", "SqEuclidean"],
        s.toLower ∉ ["euclidean", "euclid", "eu", "e"] ∧ s.toLower ∈ ["sqeuclidean", "sqe", "sqeuclid"]) ∧
      (∀ s ∈ ["cityblock", "cblock", "cb", "c", "CityBlock"],
        s.toLower ∉ ["euclidean", "euclid", "eu", "e"] ∧ s.toLower ∉ ["sqeuclidean", "sqe", "sqeuclid"] ∧
        s.toLower ∈ ["cityblock", "cblock", "cb", "c"]) ∧
      (∀ s ∈ ["chebychev", "chebyshev", "cheby", "cheb", "ch", "Chebyshev"],
        s.toLower ∉ ["euclidean", "euclid", "eu", "e"] ∧ s.toLower ∉ ["sqeuclidean", "sqe", "sqeuclid"] ∧
        s.toLower ∉ ["cityblock", "cblock", "cb", "c"] ∧ s.toLower ∈ ["chebychev", "chebyshev", "cheby", "cheb", "ch"]) ∧
      ∀ s ∈ ["minkowski", ""],
        s.toLower ∉ ["euclidean", "euclid", "eu", "e"] ∧ s.toLower ∉ ["sqeuclidean", "sqe", "sqeuclid"] ∧
        s.toLower ∉ ["cityblock", "cblock", "cb", "c"] ∧ s.toLower ∉ ["chebychev", "chebyshev", "cheby", "cheb", "ch"] := by
    decide +kernel
  obtain ⟨k1, k2, k3, k4, k5⟩ := key
  have none : ∀ s ∈ ["minkowski", ""], metricOf A s = none := by
    intro s hs
    obtain ⟨a, b, c, d⟩ := k5 s hs
    unfold metricOf
    exact (if_neg a).trans ((if_neg b).trans ((if_neg c).trans (if_neg d)))
  refine ⟨fun s hs => ?_, fun s hs => ?_, fun s hs => ?_, fun s hs => ?_, none _ (by simp), none _ (by simp)⟩
  · unfold metricOf; exact if_pos (k1 s hs)
  · unfold metricOf; exact (if_neg (k2 s hs).1).trans (if_pos (k2 s hs).2)
  · unfold metricOf
    exact (if_neg (k3 s hs).1).trans ((if_neg (k3 s hs).2.1).trans (if_pos (k3 s hs).2.2))
  · unfold metricOf
    obtain ⟨a, b, c, d⟩ := k4 s hs
    exact (if_neg a).trans ((if_neg b).trans ((if_neg c).trans (if_pos d)))

/-! ### Witnesses -/

/-- `C66_chebyshev_ignores_nan` applies: three NaNs against 1, infinity, NaN. -/
example (f : Bool) : ∃ r, dtw (binary64 f) { Ex.serOpts with
      x := .d1 (List.replicate 3 nan)
      y := some (.d1 [fin 1, pinf, nan])
      dist := chebyshev (binary64 f) } = .ok r ∧ r.distance = fin 0 :=
  C66_chebyshev_ignores_nan f 3 _ rfl
    (sensible_free (q := ("symmetric2", Pat.symmetric2)) (by decide) (by decide) (by decide) (by decide +kernel) rfl rfl)
    rfl rfl (by decide) fun _ _ => rfl

/-- Two different series whose distance is 0. -/
example : ∃ r, dtw (binary64 false) (askWith (euclidean (binary64 false)) Ex.serOpts [2 ^ (-540 : ℤ), 0] [0, 0]) = .ok r ∧
    r.distance = fin 0 := by
  have hd : ∀ v : ℚ, v = 2 ^ (-540 : ℤ) ∨ v = 0 → ∃ d, rnd64 (v - 0) = fin d ∧ |d| ≤ (2 : ℚ) ^ (-538 : ℤ) := by
    rintro v (rfl | rfl)
    · refine ⟨2 ^ (-540 : ℤ), ?_, ?_⟩
      · rw [sub_zero]
        exact rnd64_double (isDouble_zpow (by norm_num) (by norm_num))
      · rw [abs_of_pos (two_zpow_pos _)]
        exact two_zpow_le (by norm_num)
    · exact ⟨0, by rw [sub_zero]; simp [rnd64], by rw [abs_zero]; exact (two_zpow_pos _).le⟩
  refine C66_not_definite false (q := ("symmetric2", Pat.symmetric2)) (W := fun _ _ => true) rfl
    (sensible_free (by decide) (by decide) (by decide) Ex.sym2_mem rfl rfl) rfl rfl (by decide) (fun _ _ => rfl) ?_
  intro i hi j hj
  have hi' : i = 0 ∨ i = 1 := by simp only [List.length_cons, List.length_nil] at hi; omega
  have hj' : j = 0 ∨ j = 1 := by simp only [List.length_cons, List.length_nil] at hj; omega
  have e : ([0, 0] : List ℚ).getD j 0 = 0 := by rcases hj' with rfl | rfl <;> rfl
  rw [e]
  refine hd _ ?_
  rcases hi' with rfl | rfl
  · exact .inl rfl
  · exact .inr rfl

/-- Samples that differ by 2^600: the default call fails although every number is finite. -/
example : ∃ e, dtw (binary64 false) (askWith (euclidean (binary64 false)) Ex.serOpts [2 ^ (600 : ℤ), 2 ^ (600 : ℤ)] [0, 0]) =
    .error e := by
  refine C66_overflow_fails false (q := ("symmetric2", Pat.symmetric2)) (W := fun _ _ => true)
    (sensible_free (by decide) (by decide) (by decide) Ex.sym2_mem rfl rfl) (by decide) rfl (by decide) ?_
  intro i hi j hj
  have hi' : i = 0 ∨ i = 1 := by simp only [List.length_cons, List.length_nil] at hi; omega
  have hj' : j = 0 ∨ j = 1 := by simp only [List.length_cons, List.length_nil] at hj; omega
  have e : ([0, 0] : List ℚ).getD j 0 = 0 := by rcases hj' with rfl | rfl <;> rfl
  have e' : ([2 ^ (600 : ℤ), 2 ^ (600 : ℤ)] : List ℚ).getD i 0 = 2 ^ (600 : ℤ) := by rcases hi' with rfl | rfl <;> rfl
  rw [e, e', sub_zero]
  refine ⟨2 ^ (600 : ℤ), rnd64_double (isDouble_zpow (by norm_num) (by norm_num)), ?_⟩
  rw [abs_of_pos (two_zpow_pos _)]
  exact two_zpow_le (by norm_num)

/-- Whole numbers, in doubles and exactly. -/
example : dtw (binary64 true) (askWith (euclidean (binary64 true)) Ex.serOpts
      (([0, 2, -1, 3] : List ℤ).map fun a : ℤ => (a : ℚ)) (([0, 0, 2, 7, 1, 3] : List ℤ).map fun b : ℤ => (b : ℚ))) =
    (dtw Arith.exact (ask Ex.serOpts (([0, 2, -1, 3] : List ℤ).map fun a : ℤ => (a : ℚ))
      (([0, 0, 2, 7, 1, 3] : List ℤ).map fun b : ℤ => (b : ℚ)))).map (roundNorm (binary64 true)) :=
  C66_whole_numbers_exact true (q := ("symmetric2", Pat.symmetric2)) (C := 8) Ex.ser_sensible (by decide +kernel) (by decide)
    (by decide) (by decide) (by decide) (fun h => absurd h (by decide))

/-- A bivariate series against itself, and against another. -/
example : ∃ r, dtw (binary64 false) (callWith (euclidean (binary64 false)) Ex.serOpts
      (.d2 ⟨2, 2, [fin 0, fin 3, fin 1, fin 5]⟩) (.d2 ⟨2, 2, [fin 0, fin 3, fin 1, fin 5]⟩)) = .ok r ∧ r.distance = fin 0 := by
  refine C66_series_self false (q := ("symmetric2", Pat.symmetric2)) (W := fun _ _ => true) (k := 2)
    (rows := fun i => if i = 0 then [0, 3] else [1, 5]) (.d2 _) ?_ (by norm_num) ?_
    (sensible_free (by decide) (by decide) (by decide) Ex.sym2_mem rfl rfl) rfl rfl (by decide) (fun _ _ => rfl)
  · intro i hi
    have : i = 0 ∨ i = 1 := by simp only at hi; omega
    rcases this with rfl | rfl <;> exact ⟨rfl, rfl⟩
  · intro i hi j hj p hp
    have hsmall : ∀ z : ℤ, 1 ≤ |z| → |z| ≤ 2 → (2 : ℚ) ^ (-500 : ℤ) ≤ |(z : ℚ)| ∧ |(z : ℚ)| ≤ 2 ^ (500 : ℤ) := by
      intro z h1 h2
      have a1 : (1 : ℚ) ≤ |(z : ℚ)| := by exact_mod_cast h1
      have a2 : |(z : ℚ)| ≤ 2 := by exact_mod_cast h2
      constructor
      · refine le_trans (b := (2 : ℚ) ^ (0 : ℤ)) (two_zpow_le (by norm_num)) (by simpa using a1)
      · refine le_trans (b := (2 : ℚ) ^ (1 : ℤ)) (by simpa using a2) (two_zpow_le (by norm_num))
    have hi' : i = 0 ∨ i = 1 := by simp only at hi; omega
    have hj' : j = 0 ∨ j = 1 := by simp only at hj; omega
    have key : ∃ z : ℤ, p.1 - p.2 = z ∧ |z| ≤ 2 := by
      rcases hi' with rfl | rfl <;> rcases hj' with rfl | rfl <;> simp at hp <;> rcases hp with rfl | rfl
      · exact ⟨0, by norm_num, by decide⟩
      · exact ⟨0, by norm_num, by decide⟩
      · exact ⟨-1, by norm_num, by decide⟩
      · exact ⟨-2, by norm_num, by decide⟩
      · exact ⟨1, by norm_num, by decide⟩
      · exact ⟨2, by norm_num, by decide⟩
      · exact ⟨0, by norm_num, by decide⟩
      · exact ⟨0, by norm_num, by decide⟩
    obtain ⟨z, e, hz⟩ := key
    unfold Ordinary
    rw [e]
    by_cases h0 : z = 0
    · exact .inl (by rw [h0]; norm_num)
    · exact .inr (hsmall z (Int.one_le_abs h0) hz)

end DTW
