import Verif.Props.Metric
import Verif.Props.Accuracy
import Verif.Props.Stability

/-!
# C62, C66: relative stability, and the accuracy of a call from samples to distance
-/

namespace DTW
open F64

variable {a a' : Args} {n m : Nat} {W : Nat → Nat → Bool} {p : StepPattern} {rs : List Rule} {ℓ ℓ' : Nat → Nat → ℚ}
  {r r' : Result}

theorem le_of_sq_le_sq {x y : ℚ} (h : x ^ 2 ≤ y ^ 2) (hy : 0 ≤ y) : x ≤ y := by
  by_contra hc
  have := pow_lt_pow_left₀ (not_le.1 hc) hy two_ne_zero
  linarith

/-- The same call about another matrix. -/
def withMatrix (a : Args) (n m : Nat) (L : Nat → Nat → F64) : Args :=
  { a with
    x := .d2 (Mat.ofFn n m L)
    y := none
    layout := ⟨true, true⟩
    stackContig := true }

theorem withMatrix_problem {L : Nat → Nat → F64} (h : Problem a n m L W p rs) (L' : Nat → Nat → F64) :
    Problem (withMatrix a n m L') n m L' W p rs where
  n_pos := h.n_pos
  m_pos := h.m_pos
  cost := .matrix rfl rfl rfl rfl
  pattern := h.pattern
  wf := h.wf
  fits := h.fits
  window := h.window

/-- Half of the relative bound: if no cost is more than `c` times the old one, neither is the distance. -/
theorem relative_one_way {c : ℚ} (hc : 0 < c) (h : Problem a n m (fun i j => fin (ℓ i j)) W p rs)
    (h' : Problem a' n m (fun i j => fin (ℓ' i j)) W p rs) (ho : SameOptions a a') (hp : PosWeights rs)
    (hle : ∀ i < n, ∀ j < m, ℓ' i j ≤ c * ℓ i j) (hr : dtw Arith.exact a = .ok r) (hr' : dtw Arith.exact a' = .ok r') :
    (a.openEnd = false → F64.le r'.distance (scaleF c r.distance)) ∧
    (p.hint ≠ "NA" → F64.le r'.normalizedDistance (scaleF c r.normalizedDistance)) := by
  have h2 := withMatrix_problem h (fun i j => scaleF c (fin (ℓ i j)))
  have hs := C13_homogeneous hc h h2 ⟨rfl, rfl, rfl, rfl⟩
  rw [hr] at hs
  cases hr2 : dtw Arith.exact (withMatrix a n m (fun i j => scaleF c (fin (ℓ i j)))) with
  | error e => rw [hr2] at hs; cases hs
  | ok r2 =>
    rw [hr2] at hs
    have hs' : r2.core = Core.scale c r.core := by injection hs
    have hd : r2.distance = scaleF c r.distance := congrArg Core.distance hs'
    have hnd : r2.normalizedDistance = scaleF c r.normalizedDistance := congrArg Core.normalizedDistance hs'
    have hw : NonnegWeights Arith.exact rs := fun q hq t ht => ⟨hp q hq t ht, by simp [Arith.exact]⟩
    have := C12_any_ends h' h2 (ho.openBegin.symm) (ho.openEnd.symm) hw (by
      intro i hi j hj
      show F64.le (fin (ℓ' i j)) (fin (c * ℓ i j))
      rw [F64.le_fin]
      exact hle i hi j hj) hr' hr2
    rw [hd, hnd, ← ho.openEnd] at this
    exact this

theorem scale_flip {lo : ℚ} (hlo : 0 < lo) {u v : F64} (huv : F64.le u (scaleF lo⁻¹ v)) : F64.le (scaleF lo u) v := by
  cases u <;> cases v <;> simp_all [scaleF, F64.le, F64.lt]
  rename_i x y
  have : x ≤ lo⁻¹ * y := by simpa using huv
  rw [← div_eq_inv_mul, le_div_iff₀ hlo, mul_comm] at this
  exact this

/-- **C62**, relative form.  If every local cost changes by a factor between `lo` and `hi`, the distance (with a closed end)
and the normalized distance (for any ends) change by a factor between `lo` and `hi`. -/
theorem C62_relative {lo hi : ℚ} (hlo : 0 < lo) (hhi : 0 < hi) (h : Problem a n m (fun i j => fin (ℓ i j)) W p rs)
    (h' : Problem a' n m (fun i j => fin (ℓ' i j)) W p rs) (ho : SameOptions a a') (hp : PosWeights rs)
    (hle : ∀ i < n, ∀ j < m, lo * ℓ i j ≤ ℓ' i j ∧ ℓ' i j ≤ hi * ℓ i j) :
    ((∃ r, dtw Arith.exact a = .ok r) ↔ ∃ r', dtw Arith.exact a' = .ok r') ∧
    ∀ r r', dtw Arith.exact a = .ok r → dtw Arith.exact a' = .ok r' →
      (a.openEnd = false → F64.le (scaleF lo r.distance) r'.distance ∧ F64.le r'.distance (scaleF hi r.distance)) ∧
      (p.hint ≠ "NA" → F64.le (scaleF lo r.normalizedDistance) r'.normalizedDistance ∧
        F64.le r'.normalizedDistance (scaleF hi r.normalizedDistance)) := by
  refine ⟨C62_existence h h' ho, fun r r' hr hr' => ?_⟩
  have up := relative_one_way hhi h h' ho hp (fun i hi j hj => (hle i hi j hj).2) hr hr'
  have down := relative_one_way (c := lo⁻¹) (inv_pos.2 hlo) h' h
    ⟨ho.openBegin.symm, ho.openEnd.symm, ho.distanceOnly.symm, ho.keepInternals.symm⟩ hp (by
      intro i hi j hj
      rw [← div_eq_inv_mul, le_div_iff₀ hlo, mul_comm]
      exact (hle i hi j hj).1) hr' hr
  refine ⟨fun he => ⟨scale_flip hlo (down.1 (by rw [← ho.openEnd]; exact he)), up.1 he⟩,
    fun hn => ⟨scale_flip hlo (down.2 hn), up.2 hn⟩⟩

theorem posWeights_of_modest (h : ModestWeights rs) : PosWeights rs := by
  intro q hq t ht
  rcases (h q hq).2 t ht with h | ⟨h, _⟩
  · rw [h]
  · linarith

theorem small_call {L : Nat → Nat → F64} (h : Problem a n m L W p rs) : n + m ≤ 2147483648 := by
  have hn := h.n_pos
  have hm := h.m_pos
  have h1 := h.fits.cells
  have h3 : n * m ≤ gridRows a n * m := Nat.mul_le_mul_right _ (by unfold gridRows; split <;> omega)
  have h2 : n + m ≤ n * m + 1 := by
    obtain ⟨n', rfl⟩ := Nat.exists_eq_add_of_lt hn
    obtain ⟨m', rfl⟩ := Nat.exists_eq_add_of_lt hm
    nlinarith [Nat.zero_le (n' * m')]
  omega

/-- Two relative errors, one after the other. -/
theorem close_chain {K t : Nat} {v v1 v0 : F64} (hK : K ≤ 2 ^ 33) (ht : t ≤ 2 ^ 19) (h : Close ((K : ℚ) / 2 ^ 52) v v1)
    (h1 : F64.le (scaleF ((1 - 1 / 2 ^ 53) ^ t) v0) v1) (h2 : F64.le v1 (scaleF ((1 + 1 / 2 ^ 53) ^ t) v0)) :
    Close (((K + t + 1 : ℕ) : ℚ) / 2 ^ 52) v v0 := by
  rcases h with ⟨_, h⟩ | ⟨d, d1, rfl, rfl, hd1, hd⟩
  · exact absurd h h2.1
  cases v0 with
  | nan => exact absurd rfl h1.1
  | pinf => simp [scaleF, F64.le, F64.lt] at h1
  | ninf => simp [scaleF, F64.le, F64.lt] at h2
  | fin d0 =>
    simp only [scaleF, F64.le_fin] at h1 h2
    have htq : (t : ℚ) ≤ 2 ^ 19 := by exact_mod_cast ht
    have hKq : (K : ℚ) ≤ 2 ^ 33 := by exact_mod_cast hK
    have ht0 : (0 : ℚ) ≤ t := Nat.cast_nonneg t
    have hK0 : (0 : ℚ) ≤ K := Nat.cast_nonneg K
    have hsm : (t : ℚ) * (1 / 2 ^ 53) ≤ 1 / 2 := by
      refine le_trans (mul_le_mul_of_nonneg_right htq (by norm_num)) (by norm_num)
    have hup := pow_le_linear (u := 1 / 2 ^ 53) (by norm_num) t hsm
    have hlow : 1 - (t : ℚ) * (1 / 2 ^ 53) ≤ (1 - 1 / 2 ^ 53) ^ t := by
      have := one_add_mul_le_pow (a := -(1 / 2 ^ 53 : ℚ)) (by norm_num) t
      rw [← sub_eq_add_neg] at this
      linarith
    have hpos : (0 : ℚ) < (1 + 1 / 2 ^ 53) ^ t := pow_pos (by norm_num) t
    have hd0 : 0 ≤ d0 := by
      by_contra hc
      have : (1 + 1 / 2 ^ 53 : ℚ) ^ t * d0 < 0 := mul_neg_of_pos_of_neg hpos (not_le.1 hc)
      linarith
    refine .inr ⟨d, d0, rfl, rfl, hd0, ?_⟩
    have b1 : d1 ≤ (1 + t * (1 / 2 ^ 52)) * d0 := by
      refine le_trans h2 (mul_le_mul_of_nonneg_right (le_trans hup ?_) hd0)
      norm_num
      linarith
    have b2 : (1 - t * (1 / 2 ^ 52)) * d0 ≤ d1 := by
      refine le_trans (mul_le_mul_of_nonneg_right (le_trans ?_ hlow) hd0) h1
      have : (t : ℚ) * (1 / 2 ^ 53) ≤ t * (1 / 2 ^ 52) := mul_le_mul_of_nonneg_left (by norm_num) ht0
      linarith
    have b3 : |d1 - d0| ≤ t * (1 / 2 ^ 52) * d0 := by rw [abs_le]; constructor <;> linarith
    have b4 : (K : ℚ) / 2 ^ 52 * d1 ≤ (K + 1) / 2 ^ 52 * d0 := by
      have e1 : (K : ℚ) / 2 ^ 52 * d1 ≤ K / 2 ^ 52 * ((1 + t * (1 / 2 ^ 52)) * d0) :=
        mul_le_mul_of_nonneg_left b1 (by positivity)
      have e2 : (K : ℚ) * t ≤ 2 ^ 33 * 2 ^ 19 := mul_le_mul hKq htq ht0 (by norm_num)
      have e3 : (K : ℚ) / 2 ^ 52 * (1 + t * (1 / 2 ^ 52)) ≤ (K + 1) / 2 ^ 52 := by
        have : (K : ℚ) / 2 ^ 52 * (1 + t * (1 / 2 ^ 52)) = K / 2 ^ 52 + (K * t) / (2 ^ 52 * 2 ^ 52) := by ring
        rw [this, add_div]
        have : (K * t : ℚ) / (2 ^ 52 * 2 ^ 52) ≤ 2 ^ 33 * 2 ^ 19 / (2 ^ 52 * 2 ^ 52) := div_le_div_of_nonneg_right e2 (by norm_num)
        have e : (2 : ℚ) ^ 33 * 2 ^ 19 / (2 ^ 52 * 2 ^ 52) = 1 / 2 ^ 52 := by norm_num
        linarith
      calc _ ≤ _ := e1
        _ = (K : ℚ) / 2 ^ 52 * (1 + t * (1 / 2 ^ 52)) * d0 := by ring
        _ ≤ _ := mul_le_mul_of_nonneg_right e3 hd0
    have tri : |d - d0| ≤ |d - d1| + |d1 - d0| := by
      have := abs_add_le (d - d1) (d1 - d0)
      rwa [sub_add_sub_cancel] at this
    calc |d - d0| ≤ _ := tri
      _ ≤ (K + 1) / 2 ^ 52 * d0 + t * (1 / 2 ^ 52) * d0 := add_le_add (le_trans hd b4) b3
      _ = ((K + t + 1 : ℕ) : ℚ) / 2 ^ 52 * d0 := by push_cast; ring

/-- From samples to distance, general form: `a` is a call with the local costs `c` computed in doubles, `a0` the one with
the exact local costs `e`; the former carry at most `t` relative errors of 2^-53. -/
theorem end_to_end (f : Bool) {a0 : Args} {c e : Nat → Nat → ℚ} {t : Nat} (h : Problem a n m (fun i j => fin (c i j)) W p rs)
    (h0 : Problem a0 n m (fun i j => fin (e i j)) W p rs) (ho : SameOptions a0 a) (hw : ModestWeights rs) (ht : t ≤ 2 ^ 19)
    (hc : ∀ i < n, ∀ j < m, ModestCost (c i j)) (hce : ∀ i < n, ∀ j < m, UpTo t (e i j) (c i j)) :
    ((∃ r, dtw (binary64 f) a = .ok r) ↔ ∃ r0, dtw Arith.exact a0 = .ok r0) ∧
    ∀ r r0, dtw (binary64 f) a = .ok r → dtw Arith.exact a0 = .ok r0 →
      (a.openEnd = false → Close (((3 * (n + m) + 6 + t + 1 : ℕ) : ℚ) / 2 ^ 52) r.distance r0.distance) ∧
      (p.hint ≠ "NA" → Close (((3 * (n + m) + 6 + t + 1 : ℕ) : ℚ) / 2 ^ 52) r.normalizedDistance r0.normalizedDistance) := by
  have hsm := small_call h
  have hK : 3 * (n + m) + 6 ≤ 2 ^ 33 := by omega
  have g1 : (0 : ℚ) < (1 - 1 / 2 ^ 53) ^ t := pow_pos (by norm_num) t
  have g2 : (0 : ℚ) < (1 + 1 / 2 ^ 53) ^ t := pow_pos (by norm_num) t
  obtain ⟨s1, a1⟩ := C49_any_ends f h hw hc
  obtain ⟨s2, a2⟩ := C62_relative g1 g2 h0 h ho (posWeights_of_modest hw) hce
  refine ⟨s1.trans s2.symm, fun r r0 hr hr0 => ?_⟩
  obtain ⟨r1, hr1⟩ := s2.1 ⟨r0, hr0⟩
  obtain ⟨b1, b2, _⟩ := a1 r r1 hr hr1
  obtain ⟨b3, b4⟩ := a2 r0 r1 hr0 hr1
  constructor
  · intro hoe
    obtain ⟨d1, d2⟩ := b3 (by rw [ho.openEnd]; exact hoe)
    exact close_chain hK ht (b2 hoe) d1 d2
  · intro hh
    obtain ⟨d1, d2⟩ := b4 hh
    exact close_chain hK ht b1 d1 d2

/-! ### The metrics -/

/-- A difference that is 0 or between 2^-400 and 2^400. -/
def Usual (q : ℚ × ℚ) : Prop := q.1 - q.2 = 0 ∨ (2 : ℚ) ^ (-400 : ℤ) ≤ |q.1 - q.2| ∧ |q.1 - q.2| ≤ 2 ^ (400 : ℤ)

theorem Usual.ordinary {q : ℚ × ℚ} (h : Usual q) : Ordinary q := by
  rcases h with h | ⟨h1, h2⟩
  · exact .inl h
  · exact .inr ⟨le_trans (two_zpow_le (by norm_num)) h1, le_trans h2 (two_zpow_le (by norm_num))⟩

/-- The exact sum of the absolute values of the differences. -/
def sumAbs (l : List (ℚ × ℚ)) : ℚ := (l.map fun q => |q.1 - q.2|).sum

theorem zip_fin (l : List (ℚ × ℚ)) :
    (l.map fun q : ℚ × ℚ => fin q.1).zip (l.map fun q => fin q.2) = l.map fun q => (fin q.1, fin q.2) := List.zip_map' ..

theorem absSub_exact (u v : ℚ) : absSub Arith.exact (fin u) (fin v) = fin |u - v| := by
  show fin |u + -v| = _
  rw [← sub_eq_add_neg]

theorem cityblock_exact (l : List (ℚ × ℚ)) :
    cityblock Arith.exact (l.map fun q => fin q.1) (l.map fun q => fin q.2) = fin (sumAbs l) := by
  unfold cityblock accumulate
  rw [if_pos (by simp), zip_fin]
  have : ∀ (l : List (ℚ × ℚ)) (s : ℚ), (l.map fun q => (fin q.1, fin q.2)).foldl (fun acc q => Arith.exact.add acc
      (absSub Arith.exact q.1 q.2)) (fin s) = fin (s + sumAbs l) := by
    intro l
    induction l with
    | nil => intro s; simp [sumAbs]
    | cons q l ih =>
      intro s
      simp only [List.map_cons, List.foldl_cons, absSub_exact]
      refine (ih (s + |q.1 - q.2|)).trans ?_
      simp only [sumAbs, List.map_cons, List.sum_cons, add_assoc]
  rw [this, zero_add]

theorem sqEuclidean_exact (l : List (ℚ × ℚ)) :
    sqEuclidean Arith.exact (l.map fun q => fin q.1) (l.map fun q => fin q.2) = fin (sumSquares l) := by
  unfold sqEuclidean accumulate
  rw [if_pos (by simp), zip_fin]
  have : ∀ (l : List (ℚ × ℚ)) (s : ℚ), (l.map fun q => (fin q.1, fin q.2)).foldl (fun acc q => Arith.exact.mac acc
      (absSub Arith.exact q.1 q.2) (absSub Arith.exact q.1 q.2)) (fin s) = fin (s + sumSquares l) := by
    intro l
    induction l with
    | nil => intro s; simp [sumSquares]
    | cons q l ih =>
      intro s
      simp only [List.map_cons, List.foldl_cons, absSub_exact]
      refine (ih (s + |q.1 - q.2| * |q.1 - q.2|)).trans ?_
      simp only [sumSquares, List.map_cons, List.sum_cons, add_assoc, abs_mul_abs_self, pow_two]
  rw [this, zero_add]

/-- The largest absolute value of the differences (0 without columns). -/
def maxAbs (l : List (ℚ × ℚ)) : ℚ := (l.map fun q => |q.1 - q.2|).foldr max 0

theorem maxAbs_perm {l l' : List (ℚ × ℚ)} (h : (l.map fun p => |p.1 - p.2|).Perm (l'.map fun p => |p.1 - p.2|)) :
    maxAbs l = maxAbs l' := h.foldr_eq _

theorem chebyshev_exact (l : List (ℚ × ℚ)) :
    chebyshev Arith.exact (l.map fun q => fin q.1) (l.map fun q => fin q.2) = fin (maxAbs l) := by
  unfold chebyshev accumulate
  rw [if_pos (by simp), zip_fin]
  have : ∀ (l : List (ℚ × ℚ)) (s : ℚ), 0 ≤ s → (l.map fun q => (fin q.1, fin q.2)).foldl (fun acc q =>
      if F64.lt acc (absSub Arith.exact q.1 q.2) then absSub Arith.exact q.1 q.2 else acc) (fin s) = fin (max s (maxAbs l)) := by
    intro l
    induction l with
    | nil => intro s hs; simp [maxAbs, hs]
    | cons q l ih =>
      intro s hs
      simp only [List.map_cons, List.foldl_cons, absSub_exact]
      have e : (if F64.lt (fin s) (fin |q.1 - q.2|) then fin |q.1 - q.2| else fin s) = fin (max s |q.1 - q.2|) := by
        rcases le_total s |q.1 - q.2| with h | h
        · rw [max_eq_right h]
          split
          · rfl
          · rename_i h1
            have : |q.1 - q.2| ≤ s := by simpa [F64.lt] using h1
            rw [_root_.le_antisymm h this]
        · rw [max_eq_left h, if_neg]
          simpa [F64.lt] using h
      rw [e, ih _ (le_max_of_le_left hs)]
      simp only [maxAbs, List.map_cons, List.foldr_cons, max_assoc]
  rw [this l 0 (_root_.le_refl _)]
  congr 1
  refine max_eq_right ?_
  unfold maxAbs
  induction l with
  | nil => simp
  | cons q l ih => simp only [List.map_cons, List.foldr_cons]; exact le_max_of_le_left (abs_nonneg _)

theorem fabs_rnd64 (z : ℚ) : fabs (rnd64 z) = rnd64 |z| := by
  have pos : ∀ z : ℚ, 0 ≤ z → fabs (rnd64 z) = rnd64 z := by
    intro z hz
    rcases rnd_nonneg (A := binary64 false) hz with e | ⟨w, e, h0⟩
    · have e : rnd64 z = pinf := e
      rw [e]; rfl
    · have e : rnd64 z = fin w := e
      rw [e, fabs, abs_of_nonneg h0]
  rcases le_total 0 z with h | h
  · rw [abs_of_nonneg h]
    exact pos z h
  · rw [abs_of_nonpos h, ← pos (-z) (by linarith), rnd64_neg]
    cases rnd64 z <;> simp [fabs, F64.neg]

/-- **C66** "chebyshev" in doubles is the correctly rounded exact value, the largest difference (infinite if that overflows):
rounding is monotonic, so the largest of the rounded differences is the rounded largest difference. -/
theorem C66_chebyshev_exact (f : Bool) (l : List (ℚ × ℚ)) :
    chebyshev (binary64 f) (l.map fun q => fin q.1) (l.map fun q => fin q.2) = rnd64 (maxAbs l) := by
  unfold chebyshev accumulate
  rw [if_pos (by simp), zip_fin]
  have hsub : ∀ u v : ℚ, absSub (binary64 f) (fin u) (fin v) = rnd64 |u - v| := by
    intro u v
    rw [← fabs_rnd64, sub_eq_add_neg]
    rfl
  have : ∀ (l : List (ℚ × ℚ)) (s : ℚ), 0 ≤ s → (l.map fun q => (fin q.1, fin q.2)).foldl (fun acc q =>
      if F64.lt acc (absSub (binary64 f) q.1 q.2) then absSub (binary64 f) q.1 q.2 else acc) (rnd64 s) = rnd64 (max s (maxAbs l)) := by
    intro l
    induction l with
    | nil => intro s hs; simp [maxAbs, hs]
    | cons q l ih =>
      intro s hs
      simp only [List.map_cons, List.foldl_cons, hsub]
      have e : (if F64.lt (rnd64 s) (rnd64 |q.1 - q.2|) then rnd64 |q.1 - q.2| else rnd64 s) = rnd64 (max s |q.1 - q.2|) := by
        rcases _root_.le_total s |q.1 - q.2| with h | h
        · rw [max_eq_right h]
          split
          · rfl
          · rename_i h1
            exact F64.lt_tri ((binary64 f).rnd_ne_nan s) ((binary64 f).rnd_ne_nan _) (by simpa using h1) (rnd64_mono h)
        · rw [max_eq_left h, if_neg]
          simpa using rnd64_mono h
      rw [e, ih _ (le_max_of_le_left hs)]
      simp only [maxAbs, List.map_cons, List.foldr_cons, max_assoc]
  have h0 := this l 0 (_root_.le_refl _)
  rw [show rnd64 0 = fin 0 from (binary64 f).rnd_zero] at h0
  rw [h0]
  congr 1
  refine max_eq_right ?_
  unfold maxAbs
  induction l with
  | nil => simp
  | cons q l ih => simp only [List.map_cons, List.foldr_cons]; exact le_max_of_le_left (abs_nonneg _)

/-- **C66** "sqeuclidean" in doubles: the sum of squares up to `k + 3` relative errors. -/
theorem C66_sqeuclidean_accuracy (f : Bool) (l : List (ℚ × ℚ)) (hl : ∀ q ∈ l, Ordinary q) (hk : l.length ≤ 2 ^ 20) :
    ∃ r, sqEuclidean (binary64 f) (l.map fun q => fin q.1) (l.map fun q => fin q.2) = fin r ∧
      UpTo (l.length + 3) (sumSquares l) r := by
  obtain ⟨c, h1, h2⟩ := fold_upTo f l 0 0 0 hl (by omega) (.inl rfl) (by simp) (by simp [UpTo])
  rw [zero_add, zero_add] at h2
  refine ⟨c, ?_, h2⟩
  unfold sqEuclidean accumulate
  rw [if_pos (by simp), zip_fin, h1]

theorem fold_abs (f : Bool) : ∀ (l : List (ℚ × ℚ)) (t : Nat) (S c : ℚ), (∀ q ∈ l, Ordinary q) → t + l.length ≤ 2 ^ 20 →
    (S = 0 ∨ (2 : ℚ) ^ (-1000 : ℤ) ≤ S) → S ≤ t * 2 ^ (1000 : ℤ) → UpTo (t + 1) S c →
    ∃ c', (l.map fun q => (fin q.1, fin q.2)).foldl (fun acc q => (binary64 f).add acc (absSub (binary64 f) q.1 q.2)) (fin c) =
      fin c' ∧ UpTo (t + l.length + 1) (S + sumAbs l) c' := by
  intro l
  induction l with
  | nil =>
    intro t S c _ _ _ _ hc
    exact ⟨c, rfl, by simpa [sumAbs] using hc⟩
  | cons q l ih =>
    intro t S c hl ht hS hS2 hc
    simp only [List.length_cons] at ht
    have hq := hl q List.mem_cons_self
    obtain ⟨d, hd, hdu⟩ := hq.diff
    have hS0 : 0 ≤ S := by
      rcases hS with h | h
      · rw [h]
      · exact le_trans (two_zpow_pos _).le h
    have hx0 : 0 ≤ |q.1 - q.2| := abs_nonneg _
    have hT : S + |q.1 - q.2| = 0 ∨ (2 : ℚ) ^ (-1000 : ℤ) ≤ S + |q.1 - q.2| := by
      rcases hS with h | h
      · rw [h, zero_add]
        rcases hq with h | ⟨h, _⟩
        · left; rw [h, abs_zero]
        · right; exact le_trans (two_zpow_le (by norm_num)) h
      · right; linarith
    have hT2 : S + |q.1 - q.2| ≤ ((t + 1 : ℕ) : ℚ) * 2 ^ (1000 : ℤ) := by
      have : |q.1 - q.2| ≤ 2 ^ (1000 : ℤ) := by
        rcases hq with h | ⟨_, h⟩
        · rw [h, abs_zero]; exact (two_zpow_pos _).le
        · exact le_trans h (two_zpow_le (by norm_num))
      push_cast
      rw [add_mul, one_mul]
      linarith
    have hsum : UpTo (t + 1) (S + |q.1 - q.2|) (c + |d|) := hc.add (hdu.mono (by omega) hx0)
    obtain ⟨c1, h1, h2⟩ := upTo_rnd (in_range hsum (by omega) (t := t + 1) (by omega) hT hT2)
    obtain ⟨c', h5, h6⟩ := ih (t + 1) _ c1 (fun q hq => hl q (List.mem_cons_of_mem _ hq)) (by omega) hT hT2 (hsum.trans h2)
    refine ⟨c', ?_, ?_⟩
    · simp only [List.map_cons, List.foldl_cons, absSub_of hd]
      rw [show (binary64 f).add (fin c) (fin |d|) = fin c1 from h1]
      exact h5
    · rw [show t + (q :: l).length + 1 = t + 1 + l.length + 1 by simp only [List.length_cons]; omega]
      have : S + sumAbs (q :: l) = S + |q.1 - q.2| + sumAbs l := by
        simp only [sumAbs, List.map_cons, List.sum_cons]; ring
      rwa [this]

/-- **C66** "cityblock" in doubles: the sum of the absolute differences up to `k + 1` relative errors. -/
theorem C66_cityblock_accuracy (f : Bool) (l : List (ℚ × ℚ)) (hl : ∀ q ∈ l, Ordinary q) (hk : l.length ≤ 2 ^ 20) :
    ∃ r, cityblock (binary64 f) (l.map fun q => fin q.1) (l.map fun q => fin q.2) = fin r ∧
      UpTo (l.length + 1) (sumAbs l) r := by
  obtain ⟨c, h1, h2⟩ := fold_abs f l 0 0 0 hl (by omega) (.inl rfl) (by simp) (by simp [UpTo])
  rw [zero_add, zero_add] at h2
  refine ⟨c, ?_, h2⟩
  unfold cityblock accumulate
  rw [if_pos (by simp), zip_fin, h1]

theorem modest_zpow {x : ℚ} (h : x = 0 ∨ (2 : ℚ) ^ (-900 : ℤ) ≤ x ∧ x ≤ 2 ^ (900 : ℤ)) : ModestCost x := by
  have e1 : (1 : ℚ) / 2 ^ 900 = 2 ^ (-900 : ℤ) := by
    rw [zpow_neg, one_div]
    exact congrArg _ (zpow_natCast (2 : ℚ) 900).symm
  have e2 : (2 : ℚ) ^ 900 = 2 ^ (900 : ℤ) := (zpow_natCast (2 : ℚ) 900).symm
  unfold ModestCost
  rw [e1, e2]
  exact h

theorem modest_of_upTo {c e : ℚ} {t k : Nat} (h : UpTo t e c) (ht : t ≤ 2 ^ 19) (hk : k ≤ 2 ^ 18)
    (he : e = 0 ∨ (2 : ℚ) ^ (-800 : ℤ) ≤ e) (he2 : e ≤ k * 2 ^ (800 : ℤ)) : ModestCost c := by
  apply modest_zpow
  obtain ⟨b1, b2⟩ := up_to_bounds (E := t) (by omega)
  obtain ⟨h1, h2⟩ := h
  have hk' : (k : ℚ) ≤ 2 ^ 18 := by exact_mod_cast hk
  rcases he with rfl | he
  · left
    rw [mul_zero] at h1 h2
    linarith
  · right
    have hlo : (2 : ℚ) ^ (-900 : ℤ) ≤ 1 / 2 * 2 ^ (-800 : ℤ) := by
      rw [show (-900 : ℤ) = -100 + -800 by norm_num, zpow_add₀ (by norm_num)]
      exact mul_le_mul_of_nonneg_right (by norm_num) (two_zpow_pos _).le
    have hhi : (2 : ℚ) * (2 ^ 18 * 2 ^ (800 : ℤ)) ≤ 2 ^ (900 : ℤ) := by
      rw [show (900 : ℤ) = 100 + 800 by norm_num, zpow_add₀ (by norm_num), ← mul_assoc]
      exact mul_le_mul_of_nonneg_right (by norm_num) (two_zpow_pos _).le
    have pl := two_zpow_pos (-800)
    have ph := two_zpow_pos 800
    generalize (2 : ℚ) ^ (-800 : ℤ) = l at *
    generalize (2 : ℚ) ^ (800 : ℤ) = g at *
    have hT0 : 0 ≤ e := le_trans pl.le he
    have q1 : 1 / 2 * l ≤ c := le_trans (mul_le_mul b1 he pl.le (le_trans (by norm_num) b1)) h1
    have q2 : c ≤ 2 * (2 ^ 18 * g) := by
      refine le_trans h2 (mul_le_mul b2 (le_trans he2 (mul_le_mul_of_nonneg_right hk' ph.le)) hT0 (by norm_num))
    exact ⟨le_trans hlo q1, le_trans q2 hhi⟩

/-- A root of such a cost is modest, too. -/
theorem modest_range {r e : ℚ} {t k : Nat} (hr : 0 ≤ r) (h : UpTo t e (r ^ 2)) (ht : t ≤ 2 ^ 19) (hk : k ≤ 2 ^ 18)
    (he : e = 0 ∨ (2 : ℚ) ^ (-800 : ℤ) ≤ e) (he2 : e ≤ k * 2 ^ (800 : ℤ)) : ModestCost r := by
  apply modest_zpow
  obtain ⟨b1, b2⟩ := up_to_bounds (E := t) (by omega)
  obtain ⟨h1, h2⟩ := h
  have hk' : (k : ℚ) ≤ 2 ^ 18 := by exact_mod_cast hk
  rcases he with rfl | he
  · left
    rw [mul_zero] at h1 h2
    exact pow_eq_zero_iff (two_ne_zero) |>.1 (_root_.le_antisymm h2 h1)
  · right
    have hlo : ((2 : ℚ) ^ (-900 : ℤ)) ^ 2 ≤ 1 / 2 * 2 ^ (-800 : ℤ) := by
      rw [pow_two, ← zpow_add₀ (by norm_num), show (-900 + -900 : ℤ) = -1000 + -800 by norm_num, zpow_add₀ (by norm_num)]
      refine mul_le_mul_of_nonneg_right ?_ (two_zpow_pos _).le
      exact le_trans (two_zpow_le (b := -1) (by norm_num)) (by norm_num)
    have hhi : (2 : ℚ) * (2 ^ 18 * 2 ^ (800 : ℤ)) ≤ (2 ^ (900 : ℤ)) ^ 2 := by
      rw [pow_two, ← zpow_add₀ (by norm_num), show (900 + 900 : ℤ) = 1000 + 800 by norm_num, zpow_add₀ (by norm_num), ← mul_assoc]
      refine mul_le_mul_of_nonneg_right ?_ (two_zpow_pos _).le
      exact le_trans (b := (2 : ℚ) ^ (19 : ℤ)) (by norm_num) (two_zpow_le (by norm_num))
    have pl := two_zpow_pos (-800)
    have ph := two_zpow_pos 800
    have pl' := two_zpow_pos (-900)
    have ph' := two_zpow_pos 900
    generalize (2 : ℚ) ^ (-800 : ℤ) = l at *
    generalize (2 : ℚ) ^ (800 : ℤ) = g at *
    generalize (2 : ℚ) ^ (-900 : ℤ) = l' at *
    generalize (2 : ℚ) ^ (900 : ℤ) = g' at *
    have hT0 : 0 ≤ e := le_trans pl.le he
    have q1 : 1 / 2 * l ≤ r ^ 2 := le_trans (mul_le_mul b1 he pl.le (le_trans (by norm_num) b1)) h1
    have q2 : r ^ 2 ≤ 2 * (2 ^ 18 * g) := by
      refine le_trans h2 (mul_le_mul b2 (le_trans he2 (mul_le_mul_of_nonneg_right hk' ph.le)) hT0 (by norm_num))
    exact ⟨le_of_sq_le_sq (le_trans hlo q1) hr, le_of_sq_le_sq (le_trans q2 hhi) ph'.le⟩

/-- A sum of terms that are 0 or between `lo` and `hi`. -/
theorem sum_range {lo hi : ℚ} (hlo : 0 ≤ lo) (hhi : 0 ≤ hi) : ∀ l : List ℚ, (∀ x ∈ l, x = 0 ∨ lo ≤ x ∧ x ≤ hi) →
    (l.sum = 0 ∨ lo ≤ l.sum) ∧ 0 ≤ l.sum ∧ l.sum ≤ l.length * hi := by
  intro l
  induction l with
  | nil => intro _; simp
  | cons x l ih =>
    intro h
    obtain ⟨h1, h2, h3⟩ := ih fun y hy => h y (List.mem_cons_of_mem _ hy)
    rw [List.sum_cons, List.length_cons]
    push_cast
    rcases h x List.mem_cons_self with rfl | ⟨a, b⟩
    · rw [zero_add]
      exact ⟨h1, h2, by linarith⟩
    · exact ⟨.inr (by linarith), by linarith, by linarith⟩

theorem sumAbs_range {l : List (ℚ × ℚ)} (hl : ∀ q ∈ l, Usual q) :
    (sumAbs l = 0 ∨ (2 : ℚ) ^ (-800 : ℤ) ≤ sumAbs l) ∧ sumAbs l ≤ l.length * 2 ^ (800 : ℤ) := by
  obtain ⟨h1, _, h3⟩ := sum_range (two_zpow_pos (-800)).le (two_zpow_pos 800).le (l.map fun q => |q.1 - q.2|) (by
    intro x hx
    obtain ⟨q, hq, rfl⟩ := List.mem_map.1 hx
    rcases hl q hq with h | ⟨a, b⟩
    · left; rw [h, abs_zero]
    · exact .inr ⟨le_trans (two_zpow_le (by norm_num)) a, le_trans b (two_zpow_le (by norm_num))⟩)
  rw [List.length_map] at h3
  exact ⟨h1, h3⟩

theorem sumSquares_range {l : List (ℚ × ℚ)} (hl : ∀ q ∈ l, Usual q) :
    (sumSquares l = 0 ∨ (2 : ℚ) ^ (-800 : ℤ) ≤ sumSquares l) ∧ sumSquares l ≤ l.length * 2 ^ (800 : ℤ) := by
  obtain ⟨h1, _, h3⟩ := sum_range (two_zpow_pos (-800)).le (two_zpow_pos 800).le (l.map fun q => (q.1 - q.2) ^ 2) (by
    intro x hx
    obtain ⟨q, hq, rfl⟩ := List.mem_map.1 hx
    show (q.1 - q.2) ^ 2 = 0 ∨ _
    rcases hl q hq with h | ⟨a, b⟩
    · left; rw [h]; norm_num
    · right
      rw [← sq_abs (q.1 - q.2), pow_two, show (-800 : ℤ) = -400 + -400 by norm_num, show (800 : ℤ) = 400 + 400 by norm_num,
        zpow_add₀ (by norm_num), zpow_add₀ (by norm_num)]
      exact ⟨mul_le_mul a a (two_zpow_pos _).le (abs_nonneg _), mul_le_mul b b (abs_nonneg _) (two_zpow_pos _).le⟩)
  rw [List.length_map] at h3
  exact ⟨h1, h3⟩

/-- The rows of the series `x` are `rows 0`, `rows 1`, ..., of `k` rational numbers each. -/
structure Series (x : Nd) (X : Mat F64) (rows : Nat → List ℚ) (k : Nat) : Prop where
  mat : AsMatrix x X
  cols : X.cols = k
  row : ∀ i < X.rows, X.row i = (rows i).map fin ∧ (rows i).length = k

theorem Series.pair {x y : Nd} {X Y : Mat F64} {u v : Nat → List ℚ} {k : Nat} (hx : Series x X u k) (hy : Series y Y v k)
    {i j : Nat} (hi : i < X.rows) (hj : j < Y.rows) :
    ((u i).zip (v j)).map (fun q => fin q.1) = X.row i ∧ ((u i).zip (v j)).map (fun q => fin q.2) = Y.row j ∧
      ((u i).zip (v j)).length = k := by
  obtain ⟨a1, a2⟩ := hx.row i hi
  obtain ⟨b1, b2⟩ := hy.row j hj
  refine ⟨?_, ?_, by rw [List.length_zip, a2, b2, Nat.min_self]⟩
  · rw [a1, show (fun p : ℚ × ℚ => fin p.1) = fin ∘ Prod.fst from rfl, ← List.map_map, List.map_fst_zip]
    rw [a2, b2]
  · rw [b1, show (fun p : ℚ × ℚ => fin p.2) = fin ∘ Prod.snd from rfl, ← List.map_map, List.map_snd_zip]
    rw [a2, b2]

/-- The number in a finite value. -/
def number : F64 → ℚ
  | fin q => q
  | _ => 0

theorem end_to_end_metric (f : Bool) {M M0 : List F64 → List F64 → F64} {E : List (ℚ × ℚ) → ℚ} {t k : Nat}
    (hM0 : ∀ l : List (ℚ × ℚ), M0 (l.map fun q => fin q.1) (l.map fun q => fin q.2) = fin (E l))
    (hM : ∀ l : List (ℚ × ℚ), l.length = k → (∀ q ∈ l, Usual q) →
      ∃ r, M (l.map fun q => fin q.1) (l.map fun q => fin q.2) = fin r ∧ UpTo t (E l) r ∧ ModestCost r) (ht : t ≤ 2 ^ 19)
    {o : Args} {x y : Nd} {X Y : Mat F64} {u v : Nat → List ℚ} {W : Nat → Nat → Bool} {q : String × StepPattern}
    (hx : Series x X u k) (hy : Series y Y v k) (h : Sensible o X.rows Y.rows W q)
    (hne : q.1 ≠ "_symmetricVelichkoZagoruyko")
    (hu : ∀ i < X.rows, ∀ j < Y.rows, ∀ z ∈ (u i).zip (v j), Usual z) :
    ((∃ r, dtw (binary64 f) (callWith M o x y) = .ok r) ↔ ∃ r0, dtw Arith.exact (callWith M0 o x y) = .ok r0) ∧
    ∀ r r0, dtw (binary64 f) (callWith M o x y) = .ok r → dtw Arith.exact (callWith M0 o x y) = .ok r0 →
      (o.openEnd = false → Close (((3 * (X.rows + Y.rows) + 6 + t + 1 : ℕ) : ℚ) / 2 ^ 52) r.distance r0.distance) ∧
      (q.2.hint ≠ "NA" →
        Close (((3 * (X.rows + Y.rows) + 6 + t + 1 : ℕ) : ℚ) / 2 ^ 52) r.normalizedDistance r0.normalizedDistance) := by
  have key : ∀ i < X.rows, ∀ j < Y.rows, ∃ r, M (X.row i) (Y.row j) = fin r ∧ UpTo t (E ((u i).zip (v j))) r ∧ ModestCost r := by
    intro i hi j hj
    obtain ⟨e1, e2, e3⟩ := hx.pair hy hi hj
    have := hM _ e3 (hu i hi j hj)
    rwa [e1, e2] at this
  have hP := callWith_problem (M := M) hx.mat hy.mat (hx.cols.trans hy.cols.symm) h
    (L := fun i j => fin (number (M (X.row i) (Y.row j)))) (by
      intro i hi j hj
      obtain ⟨r, h1, _⟩ := key i hi j hj
      rw [h1]; rfl)
  have hP0 := callWith_problem (M := M0) hx.mat hy.mat (hx.cols.trans hy.cols.symm) h
    (L := fun i j => fin (E ((u i).zip (v j)))) (by
      intro i hi j hj
      obtain ⟨e1, e2, _⟩ := hx.pair hy hi hj
      have := hM0 ((u i).zip (v j))
      rw [e1, e2] at this
      exact this.symm)
  refine end_to_end f hP hP0 ⟨rfl, rfl, rfl, rfl⟩ (C49_bundled q h.mem hne) ht ?_ ?_
  · intro i hi j hj
    obtain ⟨r, h1, _, h3⟩ := key i hi j hj
    rw [h1]; exact h3
  · intro i hi j hj
    obtain ⟨r, h1, h2, _⟩ := key i hi j hj
    rw [h1]; exact h2

/-- **C66**, from samples to distance.  `dtw(x, y, dist_method="cityblock")` in doubles, on series of `k` columns, succeeds
exactly when the mathematical definition has a solution, and its distance (closed end) and normalized distance are off by a
factor of at most `1 ± (3(N+M)+8+k) 2^-52`: rounding in the metric and in the recursion taken together. -/
theorem C66_cityblock_end_to_end (f : Bool) {k : Nat} (hk : k ≤ 2 ^ 18)
    {o : Args} {x y : Nd} {X Y : Mat F64} {u v : Nat → List ℚ} {W : Nat → Nat → Bool} {q : String × StepPattern}
    (hx : Series x X u k) (hy : Series y Y v k) (h : Sensible o X.rows Y.rows W q)
    (hne : q.1 ≠ "_symmetricVelichkoZagoruyko")
    (hu : ∀ i < X.rows, ∀ j < Y.rows, ∀ z ∈ (u i).zip (v j), Usual z) :
    ((∃ r, dtw (binary64 f) (callWith (cityblock (binary64 f)) o x y) = .ok r) ↔
      ∃ r0, dtw Arith.exact (callWith (cityblock Arith.exact) o x y) = .ok r0) ∧
    ∀ r r0, dtw (binary64 f) (callWith (cityblock (binary64 f)) o x y) = .ok r →
      dtw Arith.exact (callWith (cityblock Arith.exact) o x y) = .ok r0 →
      (o.openEnd = false → Close (((3 * (X.rows + Y.rows) + 8 + k : ℕ) : ℚ) / 2 ^ 52) r.distance r0.distance) ∧
      (q.2.hint ≠ "NA" →
        Close (((3 * (X.rows + Y.rows) + 8 + k : ℕ) : ℚ) / 2 ^ 52) r.normalizedDistance r0.normalizedDistance) := by
  have := end_to_end_metric f (t := k + 1) cityblock_exact (fun l hl hu => by
    obtain ⟨r, h1, h2⟩ := C66_cityblock_accuracy f l (fun q hq => (hu q hq).ordinary) (by omega)
    obtain ⟨e1, e2⟩ := sumAbs_range hu
    rw [hl] at h2
    exact ⟨r, h1, h2, modest_of_upTo h2 (by omega) (k := l.length) (by omega) e1 e2⟩) (by omega) hx hy h hne hu
  rwa [show 3 * (X.rows + Y.rows) + 6 + (k + 1) + 1 = 3 * (X.rows + Y.rows) + 8 + k by omega] at this

/-- **C66**, from samples to distance, for "sqeuclidean". -/
theorem C66_sqeuclidean_end_to_end (f : Bool) {k : Nat} (hk : k ≤ 2 ^ 18)
    {o : Args} {x y : Nd} {X Y : Mat F64} {u v : Nat → List ℚ} {W : Nat → Nat → Bool} {q : String × StepPattern}
    (hx : Series x X u k) (hy : Series y Y v k) (h : Sensible o X.rows Y.rows W q)
    (hne : q.1 ≠ "_symmetricVelichkoZagoruyko")
    (hu : ∀ i < X.rows, ∀ j < Y.rows, ∀ z ∈ (u i).zip (v j), Usual z) :
    ((∃ r, dtw (binary64 f) (callWith (sqEuclidean (binary64 f)) o x y) = .ok r) ↔
      ∃ r0, dtw Arith.exact (callWith (sqEuclidean Arith.exact) o x y) = .ok r0) ∧
    ∀ r r0, dtw (binary64 f) (callWith (sqEuclidean (binary64 f)) o x y) = .ok r →
      dtw Arith.exact (callWith (sqEuclidean Arith.exact) o x y) = .ok r0 →
      (o.openEnd = false → Close (((3 * (X.rows + Y.rows) + 10 + k : ℕ) : ℚ) / 2 ^ 52) r.distance r0.distance) ∧
      (q.2.hint ≠ "NA" →
        Close (((3 * (X.rows + Y.rows) + 10 + k : ℕ) : ℚ) / 2 ^ 52) r.normalizedDistance r0.normalizedDistance) := by
  have := end_to_end_metric f (t := k + 3) sqEuclidean_exact (fun l hl hu => by
    obtain ⟨r, h1, h2⟩ := C66_sqeuclidean_accuracy f l (fun q hq => (hu q hq).ordinary) (by omega)
    obtain ⟨e1, e2⟩ := sumSquares_range hu
    rw [hl] at h2
    exact ⟨r, h1, h2, modest_of_upTo h2 (by omega) (k := l.length) (by omega) e1 e2⟩) (by omega) hx hy h hne hu
  rwa [show 3 * (X.rows + Y.rows) + 6 + (k + 3) + 1 = 3 * (X.rows + Y.rows) + 10 + k by omega] at this

theorem maxAbs_range {l : List (ℚ × ℚ)} (hl : ∀ q ∈ l, Usual q) :
    maxAbs l = 0 ∨ (2 : ℚ) ^ (-400 : ℤ) ≤ maxAbs l ∧ maxAbs l ≤ 2 ^ (400 : ℤ) := by
  unfold maxAbs
  induction l with
  | nil => exact .inl rfl
  | cons q l ih =>
    simp only [List.map_cons, List.foldr_cons]
    have ih := ih fun z hz => hl z (List.mem_cons_of_mem _ hz)
    generalize (l.map fun q => |q.1 - q.2|).foldr max 0 = s at ih ⊢
    have hd : |q.1 - q.2| = 0 ∨ (2 : ℚ) ^ (-400 : ℤ) ≤ |q.1 - q.2| ∧ |q.1 - q.2| ≤ 2 ^ (400 : ℤ) := by
      rcases hl q (List.mem_cons_self ..) with h | h
      · left; rw [h, abs_zero]
      · exact .inr h
    generalize |q.1 - q.2| = d at hd ⊢
    rcases _root_.le_total d s with h | h
    · rwa [max_eq_right h]
    · rwa [max_eq_left h]

/-- **C66**, from samples to distance, for "chebyshev": the error does not depend on the number of columns. -/
theorem C66_chebyshev_end_to_end (f : Bool) {k : Nat}
    {o : Args} {x y : Nd} {X Y : Mat F64} {u v : Nat → List ℚ} {W : Nat → Nat → Bool} {q : String × StepPattern}
    (hx : Series x X u k) (hy : Series y Y v k) (h : Sensible o X.rows Y.rows W q)
    (hne : q.1 ≠ "_symmetricVelichkoZagoruyko")
    (hu : ∀ i < X.rows, ∀ j < Y.rows, ∀ z ∈ (u i).zip (v j), Usual z) :
    ((∃ r, dtw (binary64 f) (callWith (chebyshev (binary64 f)) o x y) = .ok r) ↔
      ∃ r0, dtw Arith.exact (callWith (chebyshev Arith.exact) o x y) = .ok r0) ∧
    ∀ r r0, dtw (binary64 f) (callWith (chebyshev (binary64 f)) o x y) = .ok r →
      dtw Arith.exact (callWith (chebyshev Arith.exact) o x y) = .ok r0 →
      (o.openEnd = false → Close (((3 * (X.rows + Y.rows) + 8 : ℕ) : ℚ) / 2 ^ 52) r.distance r0.distance) ∧
      (q.2.hint ≠ "NA" →
        Close (((3 * (X.rows + Y.rows) + 8 : ℕ) : ℚ) / 2 ^ 52) r.normalizedDistance r0.normalizedDistance) := by
  exact end_to_end_metric f (t := 1) chebyshev_exact (fun l hl hu => by
    have hr := maxAbs_range hu
    obtain ⟨r, h1, h2⟩ := upTo_rnd (q := maxAbs l) (hr.imp id fun ⟨a, b⟩ =>
      ⟨(two_zpow_le (by norm_num)).trans a, b.trans (two_zpow_le (by norm_num))⟩)
    refine ⟨r, (C66_chebyshev_exact f l).trans h1, h2, modest_of_upTo h2 (by norm_num) (k := 1) (by norm_num) ?_ ?_⟩
    · exact hr.imp id fun ⟨a, _⟩ => (two_zpow_le (by norm_num)).trans a
    · rw [Nat.cast_one, one_mul]
      rcases hr with e | ⟨_, b⟩
      · rw [e]; exact (two_zpow_pos _).le
      · exact b.trans (two_zpow_le (by norm_num))) (by norm_num) hx hy h hne hu

/-- **C66**, from samples to distance, for the default call on one-dimensional series: the distance in doubles is the distance
of the mathematical definition, with local costs `|x_i - y_j|`, up to a relative error of `(3(N+M)+9) 2^-52`. -/
theorem C66_default_end_to_end (f : Bool) {o : Args} {x y : List ℚ} {W : Nat → Nat → Bool} {q : String × StepPattern}
    (h : Sensible o x.length y.length W q) (hne : q.1 ≠ "_symmetricVelichkoZagoruyko")
    (hu : ∀ i < x.length, ∀ j < y.length, Usual (x.getD i 0, y.getD j 0)) :
    ((∃ r, dtw (binary64 f) (askWith (euclidean (binary64 f)) o x y) = .ok r) ↔ ∃ r0, dtw Arith.exact (ask o x y) = .ok r0) ∧
    ∀ r r0, dtw (binary64 f) (askWith (euclidean (binary64 f)) o x y) = .ok r → dtw Arith.exact (ask o x y) = .ok r0 →
      (o.openEnd = false → Close (((3 * (x.length + y.length) + 9 : ℕ) : ℚ) / 2 ^ 52) r.distance r0.distance) ∧
      (q.2.hint ≠ "NA" →
        Close (((3 * (x.length + y.length) + 9 : ℕ) : ℚ) / 2 ^ 52) r.normalizedDistance r0.normalizedDistance) := by
  rw [C66_default_is_cityblock f _ o (by
    intro i hi j hj
    obtain ⟨d, h1, h2, h3⟩ := (hu i hi j hj).ordinary.diff
    rw [pow_one] at h2 h3
    refine ⟨d, h1, ?_⟩
    rcases hu i hi j hj with h0 | ⟨a, b⟩
    · left
      simp only at h0 h3
      rw [h0, abs_zero, mul_zero] at h3
      exact abs_eq_zero.1 (_root_.le_antisymm h3 (abs_nonneg d))
    · right
      have e1 : (2 : ℚ) ^ (-511 : ℤ) ≤ (1 - 1 / 2 ^ 53) * 2 ^ (-400 : ℤ) := by
        rw [show (-511 : ℤ) = -111 + -400 by norm_num, zpow_add₀ (by norm_num)]
        exact mul_le_mul_of_nonneg_right (by norm_num) (two_zpow_pos _).le
      have e2 : (1 + 1 / 2 ^ 53) * (2 : ℚ) ^ (400 : ℤ) < 2 ^ (512 : ℤ) := by
        rw [show (512 : ℤ) = 112 + 400 by norm_num, zpow_add₀ (by norm_num)]
        exact mul_lt_mul_of_pos_right (by norm_num) (two_zpow_pos _)
      exact ⟨le_trans e1 (le_trans (mul_le_mul_of_nonneg_left a (by norm_num)) h2),
        lt_of_le_of_lt h3 (lt_of_le_of_lt (mul_le_mul_of_nonneg_left b (by norm_num)) e2)⟩)]
  have e : dtw Arith.exact (ask o x y) = dtw Arith.exact (askWith (cityblock Arith.exact) o x y) := by
    refine askWith_congr (M := absDiff) _ o fun i _ j _ => ?_
    have := cityblock_exact [(x.getD i 0, y.getD j 0)]
    simp only [List.map_cons, List.map_nil, sumAbs, List.sum_cons, List.sum_nil, add_zero] at this
    rw [this]
    rfl
  rw [e]
  have ser : ∀ z : List ℚ, Series (.d1 (z.map fin)) ⟨(z.map fin).length, 1, z.map fin⟩ (fun i => [z.getD i 0]) 1 := by
    intro z
    refine ⟨.d1 _, rfl, fun i hi => ⟨?_, rfl⟩⟩
    simp only [List.length_map] at hi
    rw [column_row z i hi]; rfl
  have := C66_cityblock_end_to_end f (k := 1) (by norm_num) (ser x) (ser y) (o := o) (W := W) (q := q)
    (by simpa using h) hne (by
      intro i hi j hj z hz
      simp only [List.length_map] at hi hj
      obtain rfl : z = (x.getD i 0, y.getD j 0) := by simpa using hz
      exact hu i hi j hj)
  simp only [List.length_map] at this
  exact this

/-! ### The Euclidean metric in several columns

The exact local costs are square roots, so they are approximated by rational numbers from above and from below. -/

theorem upper_chain {K t : Nat} {v v1 v0 : F64} (hK : K ≤ 2 ^ 33) (ht : t ≤ 2 ^ 19) (h : Close ((K : ℚ) / 2 ^ 52) v v1)
    (h2 : F64.le v1 (scaleF ((1 + 1 / 2 ^ 53) ^ t) v0)) :
    F64.le v (scaleF (1 + ((K + t + 1 : ℕ) : ℚ) / 2 ^ 52) v0) := by
  rcases h with ⟨_, h⟩ | ⟨d, d1, rfl, rfl, hd1, hd⟩
  · exact absurd h h2.1
  obtain ⟨d0, rfl⟩ | rfl : (∃ d0, v0 = fin d0) ∨ v0 = pinf := by
    cases v0 with
    | nan => exact absurd rfl h2.2.1
    | pinf => exact .inr rfl
    | ninf => simp [scaleF, F64.le, F64.lt] at h2
    | fin d0 => exact .inl ⟨d0, rfl⟩
  swap
  · simp [scaleF, F64.le, F64.lt]
  simp only [scaleF, F64.le_fin] at h2
  have hpos : (0 : ℚ) < (1 + 1 / 2 ^ 53) ^ t := pow_pos (by norm_num) t
  have key := close_chain (v := fin d) (v1 := fin d1) (v0 := fin (d1 / (1 + 1 / 2 ^ 53) ^ t)) hK ht (.inr ⟨d, d1, rfl, rfl, hd1, hd⟩)
    (by
      simp only [scaleF, F64.le_fin]
      rw [← mul_div_assoc, div_le_iff₀ hpos, mul_comm]
      refine mul_le_mul_of_nonneg_left ?_ hd1
      exact pow_le_pow_left₀ (by norm_num) (by norm_num) t)
    (by
      simp only [scaleF, F64.le_fin]
      rw [mul_div_cancel₀ _ hpos.ne'])
  rcases key with ⟨h, _⟩ | ⟨d', d0', e1, e2, _, b⟩
  · cases h
  · cases e1; cases e2
    simp only [scaleF, F64.le_fin]
    have hle : d1 / (1 + 1 / 2 ^ 53) ^ t ≤ d0 := by rw [div_le_iff₀ hpos, mul_comm]; exact h2
    have b' := (abs_le.1 b).2
    have : d ≤ (1 + ((K + t + 1 : ℕ) : ℚ) / 2 ^ 52) * (d1 / (1 + 1 / 2 ^ 53) ^ t) := by linarith
    exact le_trans this (mul_le_mul_of_nonneg_left hle (by positivity))

theorem lower_chain {K t : Nat} {v v1 v0 : F64} (hK : K ≤ 2 ^ 33) (ht : t ≤ 2 ^ 19) (h : Close ((K : ℚ) / 2 ^ 52) v v1)
    (h1 : F64.le (scaleF ((1 - 1 / 2 ^ 53) ^ t) v0) v1) :
    F64.le (scaleF (1 - ((K + t + 1 : ℕ) : ℚ) / 2 ^ 52) v0) v := by
  rcases h with ⟨_, h⟩ | ⟨d, d1, rfl, rfl, hd1, hd⟩
  · exact absurd h h1.2.1
  obtain ⟨d0, rfl⟩ | rfl : (∃ d0, v0 = fin d0) ∨ v0 = ninf := by
    cases v0 with
    | nan => exact absurd rfl h1.1
    | ninf => exact .inr rfl
    | pinf => simp [scaleF, F64.le, F64.lt] at h1
    | fin d0 => exact .inl ⟨d0, rfl⟩
  swap
  · simp [scaleF, F64.le, F64.lt]
  simp only [scaleF, F64.le_fin] at h1
  have hpos : (0 : ℚ) < (1 - 1 / 2 ^ 53) ^ t := pow_pos (by norm_num) t
  have key := close_chain (v := fin d) (v1 := fin d1) (v0 := fin (d1 / (1 - 1 / 2 ^ 53) ^ t)) hK ht (.inr ⟨d, d1, rfl, rfl, hd1, hd⟩)
    (by
      simp only [scaleF, F64.le_fin]
      rw [mul_div_cancel₀ _ hpos.ne'])
    (by
      simp only [scaleF, F64.le_fin]
      rw [← mul_div_assoc, le_div_iff₀ hpos, mul_comm]
      refine mul_le_mul_of_nonneg_right ?_ hd1
      exact pow_le_pow_left₀ (by norm_num) (by norm_num) t)
  rcases key with ⟨h, _⟩ | ⟨d', d0', e1, e2, _, b⟩
  · cases h
  · cases e1; cases e2
    simp only [scaleF, F64.le_fin]
    have hle : d0 ≤ d1 / (1 - 1 / 2 ^ 53) ^ t := by rw [le_div_iff₀ hpos, mul_comm]; exact h1
    have b' := (abs_le.1 b).1
    have hc : (0 : ℚ) ≤ 1 - ((K + t + 1 : ℕ) : ℚ) / 2 ^ 52 := by
      have : ((K + t + 1 : ℕ) : ℚ) ≤ 2 ^ 52 := by
        have : K + t + 1 ≤ 2 ^ 52 := by omega
        exact_mod_cast this
      rw [sub_nonneg, div_le_iff₀ (by norm_num)]
      linarith
    have : (1 - ((K + t + 1 : ℕ) : ℚ) / 2 ^ 52) * (d1 / (1 - 1 / 2 ^ 53) ^ t) ≤ d := by linarith
    exact le_trans (mul_le_mul_of_nonneg_left hle hc) this

/-- Costs that are larger than the square root of `S` bound the computed costs from above, smaller ones from below. -/
theorem root_bounds {S r e : ℚ} {t : Nat} (hr : 0 ≤ r) (he : 0 ≤ e) (h1 : (1 - 1 / 2 ^ 53) ^ t * S ≤ r ^ 2)
    (h2 : r ^ 2 ≤ (1 + 1 / 2 ^ 53) ^ t * S) :
    (S ≤ e ^ 2 → r ≤ (1 + 1 / 2 ^ 53) ^ t * e) ∧ (e ^ 2 ≤ S → (1 - 1 / 2 ^ 53) ^ t * e ≤ r) := by
  have g1 : (1 : ℚ) ≤ (1 + 1 / 2 ^ 53) ^ t := one_le_pow₀ (by norm_num)
  have g2 : (0 : ℚ) ≤ (1 - 1 / 2 ^ 53) ^ t := pow_nonneg (by norm_num) t
  have g3 : (1 - 1 / 2 ^ 53 : ℚ) ^ t ≤ 1 := pow_le_one₀ (by norm_num) (by norm_num)
  generalize (1 + 1 / 2 ^ 53 : ℚ) ^ t = A at *
  generalize (1 - 1 / 2 ^ 53 : ℚ) ^ t = B at *
  constructor
  · intro hS
    refine le_of_sq_le_sq ?_ (mul_nonneg (by linarith) he)
    calc r ^ 2 ≤ A * S := h2
      _ ≤ A * e ^ 2 := mul_le_mul_of_nonneg_left hS (by linarith)
      _ ≤ A * (A * e ^ 2) := mul_le_mul_of_nonneg_left (le_mul_of_one_le_left (sq_nonneg e) g1) (by linarith)
      _ = (A * e) ^ 2 := by ring
  · intro hS
    refine le_of_sq_le_sq ?_ hr
    calc (B * e) ^ 2 = B * (B * e ^ 2) := by ring
      _ ≤ B * e ^ 2 := mul_le_mul_of_nonneg_left (mul_le_of_le_one_left (sq_nonneg e) g3) g2
      _ ≤ B * S := mul_le_mul_of_nonneg_left hS g2
      _ ≤ _ := h1

/-- **C66**, from samples to distance, for the default call on series of `k` columns.  Let `e` be a matrix of rational
numbers that are all at least (at most) the Euclidean distances of the samples.  Then the distance computed in doubles is at
most (at least) the distance of the mathematical definition for the costs `e`, up to a factor `1 ± (3(N+M)+12+k) 2^-52`. -/
theorem C66_euclidean_end_to_end (f : Bool) {k : Nat} (hk : k ≤ 2 ^ 18)
    {o : Args} {x y : Nd} {X Y : Mat F64} {u v : Nat → List ℚ} {W : Nat → Nat → Bool} {q : String × StepPattern}
    (hx : Series x X u k) (hy : Series y Y v k) (h : Sensible o X.rows Y.rows W q)
    (hne : q.1 ≠ "_symmetricVelichkoZagoruyko")
    (hu : ∀ i < X.rows, ∀ j < Y.rows, ∀ z ∈ (u i).zip (v j), Usual z)
    {e : Nat → Nat → ℚ} (he : ∀ i < X.rows, ∀ j < Y.rows, 0 ≤ e i j) :
    ((∃ r, dtw (binary64 f) (callWith (euclidean (binary64 f)) o x y) = .ok r) ↔
      ∃ r0, dtw Arith.exact (withMatrix o X.rows Y.rows fun i j => fin (e i j)) = .ok r0) ∧
    ∀ r r0, dtw (binary64 f) (callWith (euclidean (binary64 f)) o x y) = .ok r →
      dtw Arith.exact (withMatrix o X.rows Y.rows fun i j => fin (e i j)) = .ok r0 →
      ((∀ i < X.rows, ∀ j < Y.rows, sumSquares ((u i).zip (v j)) ≤ e i j ^ 2) →
        (o.openEnd = false → F64.le r.distance (scaleF (1 + ((3 * (X.rows + Y.rows) + 12 + k : ℕ) : ℚ) / 2 ^ 52) r0.distance)) ∧
        (q.2.hint ≠ "NA" → F64.le r.normalizedDistance
          (scaleF (1 + ((3 * (X.rows + Y.rows) + 12 + k : ℕ) : ℚ) / 2 ^ 52) r0.normalizedDistance))) ∧
      ((∀ i < X.rows, ∀ j < Y.rows, e i j ^ 2 ≤ sumSquares ((u i).zip (v j))) →
        (o.openEnd = false → F64.le (scaleF (1 - ((3 * (X.rows + Y.rows) + 12 + k : ℕ) : ℚ) / 2 ^ 52) r0.distance) r.distance) ∧
        (q.2.hint ≠ "NA" → F64.le
          (scaleF (1 - ((3 * (X.rows + Y.rows) + 12 + k : ℕ) : ℚ) / 2 ^ 52) r0.normalizedDistance) r.normalizedDistance)) := by
  have key : ∀ i < X.rows, ∀ j < Y.rows, ∃ r, euclidean (binary64 f) (X.row i) (Y.row j) = fin r ∧ ModestCost r ∧
      (sumSquares ((u i).zip (v j)) ≤ e i j ^ 2 → r ≤ (1 + 1 / 2 ^ 53) ^ (k + 5) * e i j) ∧
      (e i j ^ 2 ≤ sumSquares ((u i).zip (v j)) → (1 - 1 / 2 ^ 53) ^ (k + 5) * e i j ≤ r) := by
    intro i hi j hj
    obtain ⟨e1, e2, e3⟩ := hx.pair hy hi hj
    obtain ⟨r, h1, h2, h3, h4⟩ := C66_accuracy f _ (fun q hq => (hu i hi j hj q hq).ordinary) (by omega)
    rw [e1, e2] at h1
    rw [e3] at h3 h4
    obtain ⟨b1, b2⟩ := root_bounds h2 (he i hi j hj) h3 h4
    refine ⟨r, h1, ?_, b1, b2⟩
    obtain ⟨s1, s2⟩ := sumSquares_range (hu i hi j hj)
    have hm := modest_range h2 (⟨h3, h4⟩ : UpTo (k + 5) _ (r ^ 2)) (by omega) (k := k) (by omega) s1 (by rw [e3] at s2; exact s2)
    exact hm
  have hP := callWith_problem (M := euclidean (binary64 f)) hx.mat hy.mat (hx.cols.trans hy.cols.symm) h
    (L := fun i j => fin (number (euclidean (binary64 f) (X.row i) (Y.row j)))) (by
      intro i hi j hj
      obtain ⟨r, h1, _⟩ := key i hi j hj
      rw [h1]; rfl)
  have hP0 : Problem (withMatrix o X.rows Y.rows fun i j => fin (e i j)) X.rows Y.rows (fun i j => fin (e i j)) W q.2
      (rulesOf q.2) :=
    { n_pos := h.n_pos
      m_pos := h.m_pos
      cost := .matrix rfl rfl rfl rfl
      pattern := hP.pattern
      wf := hP.wf
      fits := hP.fits
      window := hP.window }
  have hw := C49_bundled q h.mem hne
  have hpw := posWeights_of_modest hw
  have hsm := small_call hP
  have hK : 3 * (X.rows + Y.rows) + 6 ≤ 2 ^ 33 := by omega
  have g1 : (0 : ℚ) < (1 - 1 / 2 ^ 53) ^ (k + 5) := pow_pos (by norm_num) _
  have g2 : (0 : ℚ) < (1 + 1 / 2 ^ 53) ^ (k + 5) := pow_pos (by norm_num) _
  have ho : SameOptions (withMatrix o X.rows Y.rows fun i j => fin (e i j)) (callWith (euclidean (binary64 f)) o x y) :=
    ⟨rfl, rfl, rfl, rfl⟩
  obtain ⟨s1, a1⟩ := C49_any_ends f hP hw (by
    intro i hi j hj
    obtain ⟨r, h1, h2, _⟩ := key i hi j hj
    rw [h1]; exact h2)
  have s2 := C62_existence hP0 hP ho
  refine ⟨s1.trans s2.symm, fun r r0 hr hr0 => ?_⟩
  obtain ⟨r1, hr1⟩ := s2.1 ⟨r0, hr0⟩
  obtain ⟨b1, b2, _⟩ := a1 r r1 hr hr1
  have hnum : 3 * (X.rows + Y.rows) + 6 + (k + 5) + 1 = 3 * (X.rows + Y.rows) + 12 + k := by omega
  constructor
  · intro hup
    obtain ⟨c1, c2⟩ := relative_one_way g2 hP0 hP ho hpw (by
      intro i hi j hj
      obtain ⟨r, h1, _, h3, _⟩ := key i hi j hj
      rw [h1]; exact h3 (hup i hi j hj)) hr0 hr1
    rw [← hnum]
    exact ⟨fun hoe => upper_chain hK (by omega) (b2 hoe) (c1 hoe), fun hh => upper_chain hK (by omega) b1 (c2 hh)⟩
  · intro hlow
    obtain ⟨c1, c2⟩ := relative_one_way (inv_pos.2 g1) hP hP0 ⟨rfl, rfl, rfl, rfl⟩ hpw (by
      intro i hi j hj
      obtain ⟨r, h1, _, _, h4⟩ := key i hi j hj
      rw [h1, ← div_eq_inv_mul, le_div_iff₀ g1, mul_comm]
      exact h4 (hlow i hi j hj)) hr1 hr0
    rw [← hnum]
    exact ⟨fun hoe => lower_chain hK (by omega) (b2 hoe) (scale_flip g1 (c1 hoe)),
      fun hh => lower_chain hK (by omega) b1 (scale_flip g1 (c2 hh))⟩

/-! ### Witnesses -/

theorem usual_int {q : ℚ × ℚ} {z : ℤ} (h : q.1 - q.2 = z) (hz : |z| ≤ 100) : Usual q := by
  unfold Usual
  rw [h]
  by_cases h0 : z = 0
  · left; rw [h0]; norm_num
  · right
    have a1 : (1 : ℚ) ≤ |(z : ℚ)| := by exact_mod_cast Int.one_le_abs h0
    have a2 : |(z : ℚ)| ≤ 100 := by exact_mod_cast hz
    constructor
    · exact le_trans (b := (2 : ℚ) ^ (0 : ℤ)) (two_zpow_le (by norm_num)) (by simpa using a1)
    · refine le_trans (b := (2 : ℚ) ^ (7 : ℤ)) (le_trans a2 (by norm_num)) (two_zpow_le (by norm_num))

/-- The default call on `[0, 2, 1, 3]` and `[0, 0, 2, 2, 1, 3]`. -/
example : ∃ r, dtw (binary64 false) (askWith (euclidean (binary64 false)) Ex.serOpts [0, 2, 1, 3] [0, 0, 2, 2, 1, 3]) = .ok r := by
  refine (C66_default_end_to_end false (x := [0, 2, 1, 3]) (y := [0, 0, 2, 2, 1, 3]) Ex.ser_sensible (by decide) ?_).1.2
    (Ex.get_ok (by decide +kernel))
  intro i hi j hj
  have : ∀ i < 4, ∀ j < 6, ∃ z ∈ [(-3 : ℤ), -2, -1, 0, 1, 2, 3],
      ([0, 2, 1, 3] : List ℚ).getD i 0 - ([0, 0, 2, 2, 1, 3] : List ℚ).getD j 0 = z := by decide +kernel
  obtain ⟨z, hz, e⟩ := this i hi j hj
  exact usual_int e ((by decide : ∀ z ∈ [(-3 : ℤ), -2, -1, 0, 1, 2, 3], |z| ≤ 100) z hz)

/-- Two bivariate series: "cityblock" and "sqeuclidean" against their exact values, and the default against the costs
rounded up to whole numbers. -/
def Ex.biX : Mat F64 := ⟨2, 2, [fin 0, fin 3, fin 1, fin 5]⟩
def Ex.biY : Mat F64 := ⟨2, 2, [fin 0, fin 4, fin 2, fin 5]⟩
def Ex.biU : Nat → List ℚ := fun i => if i = 0 then [0, 3] else [1, 5]
def Ex.biV : Nat → List ℚ := fun i => if i = 0 then [0, 4] else [2, 5]

theorem Ex.bi_series : Series (.d2 Ex.biX) Ex.biX Ex.biU 2 ∧ Series (.d2 Ex.biY) Ex.biY Ex.biV 2 := by
  constructor <;> refine ⟨.d2 _, rfl, fun i hi => ?_⟩ <;> (have : i = 0 ∨ i = 1 := by simp only [Ex.biX, Ex.biY] at hi; omega) <;>
    rcases this with rfl | rfl <;> exact ⟨rfl, rfl⟩

theorem Ex.bi_usual : ∀ i < Ex.biX.rows, ∀ j < Ex.biY.rows, ∀ z ∈ (Ex.biU i).zip (Ex.biV j), Usual z := by
  intro i hi j hj z hz
  have : ∀ i < 2, ∀ j < 2, ∀ z ∈ (Ex.biU i).zip (Ex.biV j), ∃ w ∈ [(-2 : ℤ), -1, 0, 1], z.1 - z.2 = w := by decide +kernel
  obtain ⟨w, hw, e⟩ := this i hi j hj z hz
  exact usual_int e ((by decide : ∀ w ∈ [(-2 : ℤ), -1, 0, 1], |w| ≤ 100) w hw)

theorem Ex.bi_sensible : Sensible Ex.serOpts Ex.biX.rows Ex.biY.rows (fun _ _ => true) ("symmetric2", Pat.symmetric2) :=
  sensible_free (by decide) (by decide) (by decide) Ex.sym2_mem rfl rfl

example (f : Bool) : ∃ r, dtw (binary64 f) (callWith (cityblock (binary64 f)) Ex.serOpts (.d2 Ex.biX) (.d2 Ex.biY)) = .ok r :=
  (C66_cityblock_end_to_end f (by norm_num) Ex.bi_series.1 Ex.bi_series.2 Ex.bi_sensible (by decide) Ex.bi_usual).1.2
    (Ex.get_ok (by decide +kernel))

example (f : Bool) : ∃ r, dtw (binary64 f) (callWith (sqEuclidean (binary64 f)) Ex.serOpts (.d2 Ex.biX) (.d2 Ex.biY)) = .ok r :=
  (C66_sqeuclidean_end_to_end f (by norm_num) Ex.bi_series.1 Ex.bi_series.2 Ex.bi_sensible (by decide) Ex.bi_usual).1.2
    (Ex.get_ok (by decide +kernel))

example (f : Bool) : ∃ r, dtw (binary64 f) (callWith (chebyshev (binary64 f)) Ex.serOpts (.d2 Ex.biX) (.d2 Ex.biY)) = .ok r :=
  (C66_chebyshev_end_to_end f Ex.bi_series.1 Ex.bi_series.2 Ex.bi_sensible (by decide) Ex.bi_usual).1.2
    (Ex.get_ok (by decide +kernel))

/-- Rounded up, the costs are [[1, 3], [2, 1]]. -/
def Ex.biE : Nat → Nat → ℚ := fun i j => if i = 0 then (if j = 0 then 1 else 3) else (if j = 0 then 2 else 1)

example (f : Bool) : ∃ r, dtw (binary64 f) (callWith (euclidean (binary64 f)) Ex.serOpts (.d2 Ex.biX) (.d2 Ex.biY)) = .ok r ∧
    F64.le r.distance (fin ((1 + 26 / 2 ^ 52) * 3)) := by
  obtain ⟨s, b⟩ := C66_euclidean_end_to_end f (by norm_num) Ex.bi_series.1 Ex.bi_series.2 Ex.bi_sensible (by decide) Ex.bi_usual
    (e := Ex.biE) (by decide +kernel)
  have hok : (dtw Arith.exact (withMatrix Ex.serOpts Ex.biX.rows Ex.biY.rows fun i j => fin (Ex.biE i j))).toOption.map
      (·.distance) = some (fin 3) := by decide +kernel
  cases hr0 : dtw Arith.exact (withMatrix Ex.serOpts Ex.biX.rows Ex.biY.rows fun i j => fin (Ex.biE i j)) with
  | error e => rw [hr0] at hok; cases hok
  | ok r0 =>
    rw [hr0] at hok
    have hd : r0.distance = fin 3 := Option.some.inj hok
    obtain ⟨r, hr⟩ := s.2 ⟨r0, hr0⟩
    have := ((b r r0 hr hr0).1 (by decide +kernel)).1 rfl
    rw [hd] at this
    exact ⟨r, hr, this⟩

end DTW
