import Verif.Props.Mixture
import Verif.Props.Warped

/-!
# C92: the choice of the local distance

What the distance under one local distance says about the distance under another: squares and absolute values, `chebyshev`, `cityblock`
and `sqeuclidean`.
-/

namespace DTW
open F64

variable {a b : Args} {n m k : Nat} {ℓ ℓ' : Nat → Nat → ℚ} {W : Nat → Nat → Bool} {p : StepPattern} {rs : List Rule} {r r' : Result}
  {R : Nat → Nat → ℚ → ℚ → Prop} {u v κ : ℚ} {o : Args} {x y : Nd} {X Y : Mat F64} {f g : Nat → List ℚ} {q : String × StepPattern}

/-- What a rule charges when it arrives at `(i,j)`. -/
def Rule.charged (ℓ : Nat → Nat → ℚ) (q : Rule) (i j : Nat) : ℚ := (q.terms.map fun t => t.w * ℓ (i - t.di) (j - t.dj)).sum

/-- `R i j c c'` is kept by every rule, for the costs `c`, `c'` of one sequence of rules under `ℓ` and `ℓ'`. -/
def Kept (rs : List Rule) (n m : Nat) (ℓ ℓ' : Nat → Nat → ℚ) (R : Nat → Nat → ℚ → ℚ → Prop) : Prop :=
  ∀ q ∈ rs, ∀ i j c c', i + q.a < n → j + q.b < m → R i j c c' →
    R (i + q.a) (j + q.b) (c + q.charged ℓ (i + q.a) (j + q.b)) (c' + q.charged ℓ' (i + q.a) (j + q.b))

/-- The same sequence of rules under other costs. -/
theorem WarpPath.related (h0 : R 0 0 (ℓ 0 0) (ℓ' 0 0)) (hs : Kept rs n m ℓ ℓ' R) {ks : List Int} {i j : Nat} {c : F64}
    (h : WarpPath Arith.exact rs W (fun i j => fin (ℓ i j)) ks i j c) (hi : i < n) (hj : j < m) :
    ∃ d d', c = fin d ∧ WarpPath Arith.exact rs W (fun i j => fin (ℓ' i j)) ks i j (fin d') ∧ R i j d d' := by
  induction h with
  | start => exact ⟨_, _, rfl, .start, h0⟩
  | step s q _ hq hW ih =>
    obtain ⟨d, d', rfl, h2, h3⟩ := ih (by omega) (by omega)
    refine ⟨_, _, charge_sum q _ _ d, ?_, hs q (List.mem_of_getElem? hq) _ _ d d' hi hj h3⟩
    have := WarpPath.step s q h2 hq hW
    rwa [charge_sum] at this

/-- Local costs with a row of zeros before them. -/
def belowZeros (ℓ : Nat → Nat → ℚ) : Nat → Nat → ℚ := fun i j => if i = 0 then 0 else ℓ (i - 1) j

theorem OpenPath.related (h0 : ∀ j < m, R 0 j 0 0) (hs : Kept rs (n + 1) m (belowZeros ℓ) (belowZeros ℓ') R) {j0 : Nat} {ks : List Int}
    {i j : Nat} {c : F64} (h : OpenPath Arith.exact rs W (fun i j => fin (ℓ i j)) j0 ks i j c) (hi : i ≤ n) (hj : j < m) :
    ∃ d d', c = fin d ∧ OpenPath Arith.exact rs W (fun i j => fin (ℓ' i j)) j0 ks i j (fin d') ∧ R i j d d' := by
  have e : ∀ ℓ : Nat → Nat → ℚ, (fun i' j' => if i' = 0 then fin 0 else fin (ℓ (i' - 1) j')) = fun i j => fin (belowZeros ℓ i j) := by
    intro ℓ; funext i j; unfold belowZeros; by_cases h0 : i = 0 <;> simp [h0]
  induction h with
  | start => exact ⟨0, 0, rfl, .start, h0 _ hj⟩
  | step s q _ hq hp hW ih =>
    obtain ⟨d, d', rfl, h2, h3⟩ := ih (by omega) (by omega)
    refine ⟨_, _, by rw [e ℓ]; exact charge_sum q _ _ d, ?_, hs q (List.mem_of_getElem? hq) _ _ d d' (by omega) hj h3⟩
    have := OpenPath.step s q h2 hq hp hW
    rwa [e ℓ', charge_sum] at this

/-! ### From paths to calls -/

/-- From the optimal alignment under `ℓ'` to the distance under `ℓ`: closed begin, either end. -/
theorem related_closed (h : Problem a n m (fun i j => fin (ℓ i j)) W p rs) (h' : Problem b n m (fun i j => fin (ℓ' i j)) W p rs)
    (ho : SameOptions a b) (hob : a.openBegin = false) (hNA : p.hint ≠ "NA")
    (h0 : R 0 0 (ℓ' 0 0) (ℓ 0 0)) (hs : Kept rs n m ℓ' ℓ R) (hr : dtw Arith.exact a = .ok r) (hr' : dtw Arith.exact b = .ok r') :
    ∃ (j : Nat) (c c' : ℚ), j < m ∧ (a.openEnd = false → j = m - 1) ∧ r'.distance = fin c' ∧
      r'.normalizedDistance = normBy Arith.exact p.hint n j (fin c') ∧
      F64.le r.normalizedDistance (normBy Arith.exact p.hint n j (fin c)) ∧ R (n - 1) j c' c := by
  have hn := h.n_pos
  have hob' : b.openBegin = false := by rw [← ho.openBegin]; exact hob
  obtain ⟨j, ks, hj, hjc, hp, hnorm, -⟩ := best_end h' hob' hNA hr'
  obtain ⟨d, d', e, hp', hR⟩ := hp.related h0 hs (by omega) hj
  obtain ⟨_, _, _, _, _, _, hopt⟩ := best_end h hob hNA hr
  refine ⟨j, d', d, hj, fun he => hjc (by rw [← ho.openEnd]; exact he), e, by rw [hnorm, e], ?_, hR⟩
  exact hopt ks j _ hj (fun he => hjc (by rw [← ho.openEnd]; exact he)) hp' (by simp)

/-- The same for closed ends, whatever the hint. -/
theorem related_both (h : Problem a n m (fun i j => fin (ℓ i j)) W p rs) (h' : Problem b n m (fun i j => fin (ℓ' i j)) W p rs)
    (ho : SameOptions a b) (hob : a.openBegin = false) (hoe : a.openEnd = false)
    (h0 : R 0 0 (ℓ' 0 0) (ℓ 0 0)) (hs : Kept rs n m ℓ' ℓ R) (hr : dtw Arith.exact a = .ok r) (hr' : dtw Arith.exact b = .ok r') :
    ∃ c c' d : ℚ, r.distance = fin c ∧ r'.distance = fin c' ∧ c ≤ d ∧ R (n - 1) (m - 1) c' d := by
  have hn := h.n_pos
  have hm := h.m_pos
  have hob' : b.openBegin = false := by rw [← ho.openBegin]; exact hob
  have hoe' : b.openEnd = false := by rw [← ho.openEnd]; exact hoe
  obtain ⟨⟨ks, hp⟩, -⟩ := C01_distance_optimal h' hob' hoe' hr'
  obtain ⟨d, d', e, hp', hR⟩ := hp.related h0 hs (by omega) (by omega)
  obtain ⟨⟨ks', hq⟩, hopt⟩ := C01_distance_optimal h hob hoe hr
  obtain ⟨c, hc⟩ := hq.finite
  have := hopt _ _ hp' (by simp)
  rw [hc, F64.le_fin] at this
  exact ⟨c, d, d', hc, e, this, hR⟩

/-- The same for an open beginning, either end. -/
theorem related_open (h : Problem a n m (fun i j => fin (ℓ i j)) W p rs) (h' : Problem b n m (fun i j => fin (ℓ' i j)) W p rs)
    (ho : SameOptions a b) (hob : a.openBegin = true)
    (h0 : ∀ j < m, R 0 j 0 0) (hs : Kept rs (n + 1) m (belowZeros ℓ') (belowZeros ℓ) R) (hr : dtw Arith.exact a = .ok r)
    (hr' : dtw Arith.exact b = .ok r') :
    ∃ (j : Nat) (c c' d : ℚ), r.distance = fin c ∧ r'.distance = fin c' ∧ c ≤ d ∧ R n j c' d := by
  have hn := h.n_pos
  have hn0 : (0 : ℚ) < n := by exact_mod_cast hn
  have hob' : b.openBegin = true := by rw [← ho.openBegin]; exact hob
  obtain ⟨hh, c, hc, hnc⟩ := open_begin_facts h hob hr
  obtain ⟨mp, j, j0, _, hjm, hj, hjc, hp, -⟩ := C22_open_begin_optimal h' hob' hr'
  obtain ⟨d, d', e, hp', hR⟩ := hp.related h0 hs (_root_.le_refl n) hj
  refine ⟨j, c, d, d', hc, e, ?_, hR⟩
  cases hoe : a.openEnd with
  | false =>
    obtain ⟨_, j', _, _, _, _, hjc', _, hopt⟩ := C22_open_begin_optimal h hob hr
    have e1 := hjc ((ho.openEnd.symm).trans hoe)
    have e2 := hjc' hoe
    rw [e1, ← e2] at hp'
    have := hopt _ _ _ hp' (by simp)
    rwa [hc, F64.le_fin] at this
  | true =>
    have := (C22_open_both_optimal h hob hoe hr).2 _ _ _ _ hj hp' (by simp)
    rw [hnc, divQ_fin hn0, F64.le_fin] at this
    exact (div_le_div_iff_of_pos_right hn0).1 this

/-! ### Squares -/

/-- No rule weighs more than `u` for every query element and `v` for every reference element it consumes. -/
def WeightsUpTo (u v : ℚ) (rs : List Rule) : Prop := ∀ q ∈ rs, q.weight ≤ u * q.a + v * q.b

theorem square_step {T c c' w z z' : ℚ} (hT : 0 ≤ T) (hc' : 0 ≤ c') (h : c ^ 2 ≤ T * c') (hw : 0 ≤ w) (hz : z ^ 2 ≤ z') :
    (c + w * z) ^ 2 ≤ (T + w) * (c' + w * z') := by
  have key : 0 ≤ T * z' - 2 * c * z + c' := by
    rcases hT.eq_or_lt with rfl | hT
    · have : c = 0 := by nlinarith [sq_nonneg c]
      subst this
      linarith
    · have h1 : 0 ≤ T * (T * z ^ 2 - 2 * c * z + c') := by nlinarith [sq_nonneg (T * z - c)]
      have h2 : 0 ≤ T * z ^ 2 - 2 * c * z + c' := by
        by_contra hn
        exact absurd (mul_neg_of_pos_of_neg hT (not_le.1 hn)) (not_lt.2 h1)
      have h3 : T * z ^ 2 ≤ T * z' := mul_le_mul_of_nonneg_left hz hT.le
      linarith
  have h1 : 0 ≤ w * (T * z' - 2 * c * z + c') := mul_nonneg hw key
  have h2 : w ^ 2 * z ^ 2 ≤ w ^ 2 * z' := mul_le_mul_of_nonneg_left hz (sq_nonneg w)
  nlinarith

theorem square_sum (ts : List Term) (φ ψ : Term → ℚ) {T c c' : ℚ} (hT : 0 ≤ T) (hc' : 0 ≤ c') (h : c ^ 2 ≤ T * c')
    (hw : ∀ t ∈ ts, 0 ≤ t.w) (hz : ∀ t ∈ ts, φ t ^ 2 ≤ ψ t) :
    0 ≤ c' + (ts.map fun t => t.w * ψ t).sum ∧ 0 ≤ T + (ts.map (·.w)).sum ∧
    (c + (ts.map fun t => t.w * φ t).sum) ^ 2 ≤ (T + (ts.map (·.w)).sum) * (c' + (ts.map fun t => t.w * ψ t).sum) := by
  induction ts generalizing T c c' with
  | nil => simpa using ⟨hc', hT, h⟩
  | cons t ts ih =>
    have w0 := hw t List.mem_cons_self
    have z0 := hz t List.mem_cons_self
    have z1 : 0 ≤ t.w * ψ t := mul_nonneg w0 ((sq_nonneg (φ t)).trans z0)
    have := ih (T := T + t.w) (c := c + t.w * φ t) (c' := c' + t.w * ψ t) (by linarith) (by linarith) (square_step hT hc' h w0 z0)
      (fun s hs => hw s (List.mem_cons_of_mem _ hs)) (fun s hs => hz s (List.mem_cons_of_mem _ hs))
    simpa only [List.map_cons, List.sum_cons, add_assoc] using this

theorem charged_nonneg (hw : NonnegWeights Arith.exact rs) {x : Rule} (hx : x ∈ rs) {i j N : Nat} (hi : i < N) (hj : j < m)
    (hl : ∀ i < N, ∀ j < m, 0 ≤ ℓ i j) : 0 ≤ x.charged ℓ i j := by
  unfold Rule.charged
  refine List.sum_nonneg fun z hz => ?_
  obtain ⟨t, ht, rfl⟩ := List.mem_map.1 hz
  exact mul_nonneg (hw x hx t ht).1 (hl _ (by omega) _ (by omega))

/-- The relation behind the inequality of Cauchy and Schwarz. -/
theorem kept_square (hw : NonnegWeights Arith.exact rs) (hu : WeightsUpTo u v rs) (s : ℚ) (h0 : ∀ i j : Nat, 0 ≤ s + u * i + v * j)
    {N : Nat} (hl : ∀ i < N, ∀ j < m, ℓ i j ^ 2 ≤ ℓ' i j) :
    Kept rs N m ℓ' ℓ fun i j c' c => 0 ≤ c' ∧ c ^ 2 ≤ (s + u * i + v * j) * c' := by
  intro x hx i j c' c hi hj ⟨h1, h2⟩
  have := square_sum x.terms (fun t => ℓ (i + x.a - t.di) (j + x.b - t.dj)) (fun t => ℓ' (i + x.a - t.di) (j + x.b - t.dj)) (h0 i j) h1 h2
    (fun t ht => (hw x hx t ht).1) (fun t _ => hl _ (by omega) _ (by omega))
  refine ⟨this.1, this.2.2.trans (mul_le_mul_of_nonneg_right ?_ this.1)⟩
  have := hu x hx
  unfold Rule.weight at this
  push_cast
  linarith

theorem kept_nonneg (hw : NonnegWeights Arith.exact rs) {N : Nat} (hl : ∀ i < N, ∀ j < m, 0 ≤ ℓ i j) :
    Kept rs N m ℓ ℓ fun _ _ c _ => 0 ≤ c := by
  intro x hx i j c c' hi hj h
  exact add_nonneg h (charged_nonneg hw hx hi hj hl)

/-- **C92**, squares, closed ends.  Let every local cost of the second call be at least the square of that of the first (costs of the first
not negative): the distance of the first, squared, is at most that of the second times the largest total weight of an alignment.  For
patterns that weigh no more than 1 for every element consumed (`u = v = 1`) this is `N + M - 1`, for those that charge the query once `N`. -/
theorem C92_squares (hw : NonnegWeights Arith.exact rs) (hu : WeightsUpTo u v rs) (hu0 : 0 ≤ u) (hv0 : 0 ≤ v)
    (h : Problem a n m (fun i j => fin (ℓ i j)) W p rs) (h' : Problem b n m (fun i j => fin (ℓ' i j)) W p rs) (ho : SameOptions a b)
    (hob : a.openBegin = false) (hoe : a.openEnd = false) (hl0 : ∀ i < n, ∀ j < m, 0 ≤ ℓ i j) (hl : ∀ i < n, ∀ j < m, ℓ i j ^ 2 ≤ ℓ' i j) :
    ((∃ r, dtw Arith.exact a = .ok r) ↔ ∃ r', dtw Arith.exact b = .ok r') ∧
    ∀ r r', dtw Arith.exact a = .ok r → dtw Arith.exact b = .ok r' →
      ∃ c c', r.distance = fin c ∧ r'.distance = fin c' ∧ 0 ≤ c ∧ c ^ 2 ≤ (1 + u * ((n : ℚ) - 1) + v * ((m : ℚ) - 1)) * c' := by
  have hn := h.n_pos
  have hm := h.m_pos
  refine ⟨C62_existence h h' ho, fun r r' hr hr' => ?_⟩
  obtain ⟨c, c', d, e1, e2, hle, h1, h2⟩ := related_both h h' ho hob hoe
    (R := fun i j c' c => 0 ≤ c' ∧ c ^ 2 ≤ (1 + u * i + v * j) * c')
    ⟨(sq_nonneg _).trans (hl 0 hn 0 hm), by simpa using hl 0 hn 0 hm⟩
    (kept_square hw hu 1 (fun i j => by positivity) hl) hr hr'
  have hc : 0 ≤ c := by
    have := (C14_nonnegative h hob hw hl0 hr).1
    rwa [e1, F64.le_fin] at this
  refine ⟨c, c', e1, e2, hc, ?_⟩
  have e3 : ((n - 1 : Nat) : ℚ) = (n : ℚ) - 1 := by rw [Nat.cast_sub hn]; simp
  have e4 : ((m - 1 : Nat) : ℚ) = (m : ℚ) - 1 := by rw [Nat.cast_sub hm]; simp
  rw [e3, e4] at h2
  exact (pow_le_pow_left₀ hc hle 2).trans h2


/-- **C92**, squares, normalized distances, any ends (closed beginning): the square of the normalized distance is at most the normalized
distance of the squares, for hints `N` and `N+M`; for hint `M` (`mori2006`) at most 3 times. -/
theorem C92_squares_normalized (hw : NonnegWeights Arith.exact rs) (hu : WeightsUpTo u v rs)
    (hk : (p.hint = "N" ∧ u = 1 ∧ v = 0 ∧ κ = 1) ∨ (p.hint = "N+M" ∧ u = 1 ∧ v = 1 ∧ κ = 1) ∨ (p.hint = "M" ∧ u = 0 ∧ v = 3 ∧ κ = 3))
    (h : Problem a n m (fun i j => fin (ℓ i j)) W p rs) (h' : Problem b n m (fun i j => fin (ℓ' i j)) W p rs) (ho : SameOptions a b)
    (hob : a.openBegin = false) (hl0 : ∀ i < n, ∀ j < m, 0 ≤ ℓ i j) (hl : ∀ i < n, ∀ j < m, ℓ i j ^ 2 ≤ ℓ' i j)
    (hr : dtw Arith.exact a = .ok r) (hr' : dtw Arith.exact b = .ok r') :
    ∃ x x', r.normalizedDistance = fin x ∧ r'.normalizedDistance = fin x' ∧ 0 ≤ x ∧ x ^ 2 ≤ κ * x' := by
  have hn := h.n_pos
  have hm := h.m_pos
  have hu0 : 0 ≤ u := by rcases hk with h | h | h <;> rw [h.2.1] <;> norm_num
  have hv0 : 0 ≤ v := by rcases hk with h | h | h <;> rw [h.2.2.1] <;> norm_num
  have hNA : p.hint ≠ "NA" := by rcases hk with h | h | h <;> rw [h.1] <;> decide
  obtain ⟨j, c, c', hj, _, e1, e2, hle, h1, h2⟩ := related_closed h h' ho hob hNA
    (R := fun i j c' c => 0 ≤ c' ∧ c ^ 2 ≤ (1 + u * i + v * j) * c')
    ⟨(sq_nonneg _).trans (hl 0 hn 0 hm), by simpa using hl 0 hn 0 hm⟩
    (kept_square hw hu 1 (fun i j => by positivity) hl) hr hr'
  obtain ⟨D, hD, hD1, hDx⟩ := normBy_exact (j := j) hn hk
  rw [hDx] at e2 hle
  obtain ⟨j2, ks, _, _, hp, hnorm, -⟩ := best_end h hob hNA hr
  obtain ⟨D2, hD2, _, hD2x⟩ := normBy_exact (j := j2) hn hk
  obtain ⟨c2, hc2⟩ := hp.finite
  have hc0 := (C14_nonnegative h hob hw hl0 hr).1
  rw [hc2, F64.le_fin] at hc0
  rw [hc2, hD2x] at hnorm
  rw [hnorm, F64.le_fin] at hle
  have hx0 : 0 ≤ c2 / D2 := div_nonneg hc0 hD2.le
  refine ⟨c2 / D2, c' / D, hnorm, e2, hx0, (pow_le_pow_left₀ hx0 hle 2).trans ?_⟩
  rw [div_pow, ← mul_div_assoc, div_le_div_iff₀ (by positivity) hD]
  have h3 : c ^ 2 ≤ κ * D * c' := h2.trans (mul_le_mul_of_nonneg_right hD1 h1)
  nlinarith

/-- **C92**, squares, open beginning: the square of the distance is at most `N` times the distance of the squares. -/
theorem C92_squares_open_begin (hw : NonnegWeights Arith.exact rs) (hu : WeightsUpTo 1 0 rs)
    (h : Problem a n m (fun i j => fin (ℓ i j)) W p rs) (h' : Problem b n m (fun i j => fin (ℓ' i j)) W p rs) (ho : SameOptions a b)
    (hob : a.openBegin = true) (hl0 : ∀ i < n, ∀ j < m, 0 ≤ ℓ i j) (hl : ∀ i < n, ∀ j < m, ℓ i j ^ 2 ≤ ℓ' i j)
    (hr : dtw Arith.exact a = .ok r) (hr' : dtw Arith.exact b = .ok r') :
    ∃ c c', r.distance = fin c ∧ r'.distance = fin c' ∧ 0 ≤ c ∧ c ^ 2 ≤ n * c' := by
  have hz : ∀ i < n + 1, ∀ j < m, belowZeros ℓ i j ^ 2 ≤ belowZeros ℓ' i j := by
    intro i hi j hj
    unfold belowZeros
    split
    · simp
    · exact hl _ (by omega) _ hj
  have hz0 : ∀ i < n + 1, ∀ j < m, 0 ≤ belowZeros ℓ i j := by
    intro i hi j hj
    unfold belowZeros
    split
    · exact le_rfl
    · exact hl0 _ (by omega) _ hj
  obtain ⟨j, c, c', d, e1, e2, hle, h1, h2⟩ := related_open h h' ho hob
    (R := fun i j c' c => 0 ≤ c' ∧ c ^ 2 ≤ (0 + 1 * i + 0 * j) * c') (fun j hj => by simp)
    (kept_square hw hu 0 (fun i j => by positivity) hz) hr hr'
  obtain ⟨_, c2, c3, _, e3, e4, _, h3⟩ := related_open h h ⟨rfl, rfl, rfl, rfl⟩ hob (R := fun _ _ c _ => 0 ≤ c) (fun _ _ => le_rfl)
    (kept_nonneg hw hz0) hr hr
  have : c = c3 := F64.fin.inj (e1.symm.trans e4)
  refine ⟨c, c', e1, e2, by rw [this]; exact h3, (pow_le_pow_left₀ (by rw [this]; exact h3) hle 2).trans ?_⟩
  simpa using h2

/-- Every weight is 0 or at least 1. -/
def WholeWeights (rs : List Rule) : Prop := ∀ q ∈ rs, ∀ t ∈ q.terms, t.w = 0 ∨ 1 ≤ t.w

theorem whole_sum (ts : List Term) (φ ψ : Term → ℚ) {c c' : ℚ} (hc : 0 ≤ c) (h : c' ≤ c ^ 2) (hw : ∀ t ∈ ts, t.w = 0 ∨ 1 ≤ t.w)
    (h0 : ∀ t ∈ ts, 0 ≤ φ t) (hz : ∀ t ∈ ts, ψ t ≤ φ t ^ 2) :
    0 ≤ c + (ts.map fun t => t.w * φ t).sum ∧ c' + (ts.map fun t => t.w * ψ t).sum ≤ (c + (ts.map fun t => t.w * φ t).sum) ^ 2 := by
  induction ts generalizing c c' with
  | nil => simpa using ⟨hc, h⟩
  | cons t ts ih =>
    have f0 := h0 t List.mem_cons_self
    have z0 := hz t List.mem_cons_self
    have w0 : 0 ≤ t.w := by rcases hw t List.mem_cons_self with h | h <;> linarith
    have w1 : t.w ≤ t.w ^ 2 := by rcases hw t List.mem_cons_self with h | h <;> nlinarith
    have h1 : t.w * ψ t ≤ t.w ^ 2 * φ t ^ 2 :=
      (mul_le_mul_of_nonneg_left z0 w0).trans (mul_le_mul_of_nonneg_right w1 (sq_nonneg _))
    have h2 : 0 ≤ c * (t.w * φ t) := mul_nonneg hc (mul_nonneg w0 f0)
    have := ih (c := c + t.w * φ t) (c' := c' + t.w * ψ t) (add_nonneg hc (mul_nonneg w0 f0)) (by nlinarith)
      (fun s hs => hw s (List.mem_cons_of_mem _ hs)) (fun s hs => h0 s (List.mem_cons_of_mem _ hs))
      (fun s hs => hz s (List.mem_cons_of_mem _ hs))
    simpa only [List.map_cons, List.sum_cons, add_assoc] using this

theorem kept_whole (hw : WholeWeights rs) {N : Nat} (hl0 : ∀ i < N, ∀ j < m, 0 ≤ ℓ i j) (hl : ∀ i < N, ∀ j < m, ℓ' i j ≤ ℓ i j ^ 2) :
    Kept rs N m ℓ ℓ' fun _ _ c c' => 0 ≤ c ∧ c' ≤ c ^ 2 := by
  intro x hx i j c c' hi hj ⟨h1, h2⟩
  exact whole_sum x.terms (fun t => ℓ (i + x.a - t.di) (j + x.b - t.dj)) (fun t => ℓ' (i + x.a - t.di) (j + x.b - t.dj)) h1 h2 (hw x hx)
    (fun t _ => hl0 _ (by omega) _ (by omega)) (fun t _ => hl _ (by omega) _ (by omega))

/-- **C92**, squares from above: with local costs at most the squares of those of the first call, the distance is at most the square of that
of the first, for patterns whose weights are 0 or at least 1; and at most `B` times it if the costs are at most `B` times those of the
first (any weights that are not negative). -/
theorem C92_squares_upper (h : Problem a n m (fun i j => fin (ℓ i j)) W p rs) (h' : Problem b n m (fun i j => fin (ℓ' i j)) W p rs)
    (ho : SameOptions a b) (hob : a.openBegin = false) (hoe : a.openEnd = false) (hl0 : ∀ i < n, ∀ j < m, 0 ≤ ℓ i j)
    (hr : dtw Arith.exact a = .ok r) (hr' : dtw Arith.exact b = .ok r') :
    ∃ c c', r.distance = fin c ∧ r'.distance = fin c' ∧
      (WholeWeights rs → (∀ i < n, ∀ j < m, ℓ' i j ≤ ℓ i j ^ 2) → c' ≤ c ^ 2) ∧
      ∀ B, NonnegWeights Arith.exact rs → (∀ i < n, ∀ j < m, ℓ' i j ≤ B * ℓ i j) → c' ≤ B * c := by
  have hn := h.n_pos
  have hm := h.m_pos
  have ho' : SameOptions b a := ⟨ho.openBegin.symm, ho.openEnd.symm, ho.distanceOnly.symm, ho.keepInternals.symm⟩
  have hob' : b.openBegin = false := by rw [← ho.openBegin]; exact hob
  have hoe' : b.openEnd = false := by rw [← ho.openEnd]; exact hoe
  obtain ⟨c, hc⟩ := closed_begin_finite h hob hr
  obtain ⟨c', hc'⟩ := closed_begin_finite h' hob' hr'
  refine ⟨c, c', hc, hc', fun hw hl => ?_, fun B hw hl => ?_⟩
  · obtain ⟨d', d, z, e1, e2, hle, h1, h2⟩ := related_both h' h ho' hob' hoe' (R := fun _ _ c c' => 0 ≤ c ∧ c' ≤ c ^ 2)
      ⟨hl0 0 hn 0 hm, hl 0 hn 0 hm⟩ (kept_whole hw hl0 hl) hr' hr
    obtain rfl : c' = d' := F64.fin.inj (hc'.symm.trans e1)
    obtain rfl : c = d := F64.fin.inj (hc.symm.trans e2)
    exact hle.trans h2
  · obtain ⟨d', d, z, e1, e2, hle, h2⟩ := related_both h' h ho' hob' hoe' (R := fun _ _ c c' => c' ≤ B * c) (hl 0 hn 0 hm) (by
      intro x hx i j s s' hi hj hs
      have : x.charged ℓ' (i + x.a) (j + x.b) ≤ B * x.charged ℓ (i + x.a) (j + x.b) := by
        unfold Rule.charged
        have hq : ∀ t ∈ x.terms, t.w * ℓ' (i + x.a - t.di) (j + x.b - t.dj) ≤ B * (t.w * ℓ (i + x.a - t.di) (j + x.b - t.dj)) := by
          intro t ht
          have := mul_le_mul_of_nonneg_left (hl (i + x.a - t.di) (by omega) (j + x.b - t.dj) (by omega)) (hw x hx t ht).1
          linarith
        rw [← List.sum_map_mul_left]
        exact List.sum_le_sum hq
      linarith) hr' hr
    obtain rfl : c' = d' := F64.fin.inj (hc'.symm.trans e1)
    obtain rfl : c = d := F64.fin.inj (hc.symm.trans e2)
    exact hle.trans h2

/-! ### Metrics -/

theorem maxAbs_nonneg (l : List (ℚ × ℚ)) : 0 ≤ maxAbs l := by
  unfold maxAbs
  induction l with
  | nil => simp
  | cons z l ih => simp only [List.map_cons, List.foldr_cons]; exact _root_.le_trans ih (le_max_right _ _)

theorem metric_bounds (l : List (ℚ × ℚ)) :
    0 ≤ sumAbs l ∧ 0 ≤ sumSquares l ∧ maxAbs l ≤ sumAbs l ∧ sumAbs l ≤ l.length * maxAbs l ∧ maxAbs l ^ 2 ≤ sumSquares l ∧
    sumSquares l ≤ sumAbs l ^ 2 ∧ sumAbs l ^ 2 ≤ l.length * sumSquares l ∧ sumSquares l ≤ maxAbs l * sumAbs l := by
  induction l with
  | nil => simp [maxAbs, sumAbs, sumSquares]
  | cons z l ih =>
    obtain ⟨h1, h2, h3, h4, h5, h6, h7, h8⟩ := ih
    have hm := maxAbs_nonneg l
    have e1 : maxAbs (z :: l) = max |z.1 - z.2| (maxAbs l) := rfl
    have e2 : sumAbs (z :: l) = |z.1 - z.2| + sumAbs l := by simp [sumAbs]
    have e3 : sumSquares (z :: l) = |z.1 - z.2| ^ 2 + sumSquares l := by simp [sumSquares]
    have e4 : ((z :: l).length : ℚ) = (l.length : ℚ) + 1 := by simp
    rw [e1, e2, e3, e4]
    have hz : 0 ≤ |z.1 - z.2| := abs_nonneg _
    generalize |z.1 - z.2| = d at *
    generalize maxAbs l = M at *
    generalize sumAbs l = s at *
    generalize sumSquares l = t at *
    have hk : (0 : ℚ) ≤ l.length := by positivity
    generalize (l.length : ℚ) = K at *
    have m1 := le_max_left d M
    have m2 := le_max_right d M
    refine ⟨by linarith, by positivity, max_le (by linarith) (by linarith), ?_, ?_, by nlinarith, ?_, ?_⟩
    · have : K * M ≤ K * max d M := mul_le_mul_of_nonneg_left m2 hk
      nlinarith
    · rcases max_cases d M with ⟨e, _⟩ | ⟨e, _⟩ <;> rw [e] <;> nlinarith [sq_nonneg d]
    · have := square_step (T := K) (c := s) (c' := t) (w := 1) (z := d) (z' := d ^ 2) hk h2 h7 zero_le_one le_rfl
      nlinarith
    · have : d * d ≤ max d M * d := mul_le_mul_of_nonneg_right m1 hz
      have : M * s ≤ max d M * s := mul_le_mul_of_nonneg_right m2 h1
      nlinarith


theorem Series.problem (hx : Series x X f k) (hy : Series y Y g k) (h : Sensible o X.rows Y.rows W q) {M : List F64 → List F64 → F64}
    {d : List (ℚ × ℚ) → ℚ} (hM : ∀ l, M (l.map fun z => fin z.1) (l.map fun z => fin z.2) = fin (d l)) :
    Problem (callWith M o x y) X.rows Y.rows (fun i j => fin (d ((f i).zip (g j)))) W q.2 (rulesOf q.2) := by
  refine callWith_problem hx.mat hy.mat (hx.cols.trans hy.cols.symm) h fun i hi j hj => ?_
  obtain ⟨e1, e2, _⟩ := hx.pair hy hi hj
  rw [← e1, ← e2, hM]

/-- **C92** Three ways of comparing samples with `k` features, exact arithmetic, closed ends: the calls with `chebyshev`, `cityblock` and
`sqeuclidean` succeed together, and their distances obey the inequalities of the three norms, `N + M - 1` (`N` for patterns that charge the
query once) being the largest weight of an alignment. -/
theorem C92_metrics (hx : Series x X f k) (hy : Series y Y g k) (h : Sensible o X.rows Y.rows W q) (hob : o.openBegin = false)
    (hoe : o.openEnd = false) (hw : NonnegWeights Arith.exact (rulesOf q.2)) {rC rB rS : Result}
    (hC : dtw Arith.exact (callWith (chebyshev Arith.exact) o x y) = .ok rC)
    (hB : dtw Arith.exact (callWith (cityblock Arith.exact) o x y) = .ok rB)
    (hS : dtw Arith.exact (callWith (sqEuclidean Arith.exact) o x y) = .ok rS) :
    ∃ C B S : ℚ, rC.distance = fin C ∧ rB.distance = fin B ∧ rS.distance = fin S ∧ 0 ≤ C ∧ C ≤ B ∧ B ≤ k * C ∧
      (WholeWeights (rulesOf q.2) → S ≤ B ^ 2) ∧
      ∀ u v, 0 ≤ u → 0 ≤ v → WeightsUpTo u v (rulesOf q.2) →
        C ^ 2 ≤ (1 + u * ((X.rows : ℚ) - 1) + v * ((Y.rows : ℚ) - 1)) * S ∧
        B ^ 2 ≤ (1 + u * ((X.rows : ℚ) - 1) + v * ((Y.rows : ℚ) - 1)) * (k * S) := by
  have pC := hx.problem hy h chebyshev_exact
  have pB := hx.problem hy h cityblock_exact
  have pS := hx.problem hy h sqEuclidean_exact
  have len : ∀ i < X.rows, ∀ j < Y.rows, (((f i).zip (g j)).length : ℚ) = k := fun i hi j hj => by rw [(hx.pair hy hi hj).2.2]
  have so : ∀ M M', SameOptions (callWith M o x y) (callWith M' o x y) := fun _ _ => ⟨rfl, rfl, rfl, rfl⟩
  have bd := fun i j => metric_bounds ((f i).zip (g j))
  have nC : ∀ i j, 0 ≤ maxAbs ((f i).zip (g j)) := fun i j => maxAbs_nonneg _
  obtain ⟨B, C, e1, e2, -, a1⟩ := C92_squares_upper pB pC (so _ _) hob hoe (fun i _ j _ => (bd i j).1) hB hC
  obtain ⟨C', B', e3, e4, -, a2⟩ := C92_squares_upper pC pB (so _ _) hob hoe (fun i _ j _ => nC i j) hC hB
  obtain rfl : C = C' := F64.fin.inj (e2.symm.trans e3)
  obtain rfl : B = B' := F64.fin.inj (e1.symm.trans e4)
  obtain ⟨B', S, e5, e6, a3, -⟩ := C92_squares_upper pB pS (so _ _) hob hoe (fun i _ j _ => (bd i j).1) hB hS
  obtain rfl : B = B' := F64.fin.inj (e1.symm.trans e5)
  have h0 := (C14_nonnegative pC hob hw (fun i _ j _ => nC i j) hC).1
  rw [e2, F64.le_fin] at h0
  refine ⟨C, B, S, e2, e1, e6, h0, ?_, ?_, fun hW => a3 hW fun i _ j _ => (bd i j).2.2.2.2.2.1, fun u v hu hv hU => ⟨?_, ?_⟩⟩
  · have := a1 1 hw fun i _ j _ => by rw [one_mul]; exact (bd i j).2.2.1
    linarith
  · exact a2 k hw fun i hi j hj => by rw [← len i hi j hj]; exact (bd i j).2.2.2.1
  · obtain ⟨c, s, z1, z2, -, z3⟩ := (C92_squares hw hU hu hv pC pS (so _ _) hob hoe (fun i _ j _ => nC i j)
      (fun i _ j _ => (bd i j).2.2.2.2.1)).2 _ _ hC hS
    obtain rfl : C = c := F64.fin.inj (e2.symm.trans z1)
    obtain rfl : S = s := F64.fin.inj (e6.symm.trans z2)
    exact z3
  · rcases Nat.eq_zero_or_pos k with rfl | hk
    · have hBC := a2 0 hw fun i hi j hj => by
        have := (bd i j).2.2.2.1
        rw [len i hi j hj] at this
        simpa using this
      have : C ≤ B := by
        have := a1 1 hw fun i _ j _ => by rw [one_mul]; exact (bd i j).2.2.1
        linarith
      have : B = 0 := by linarith
      rw [this]
      simp
    · have hk0 : (0 : ℚ) < k := by exact_mod_cast hk
      obtain ⟨T, hT⟩ : ∃ T : ℚ, T = 1 + u * ((X.rows : ℚ) - 1) + v * ((Y.rows : ℚ) - 1) := ⟨_, rfl⟩
      have hn := h.n_pos
      have hm := h.m_pos
      rw [← hT]
      obtain ⟨⟨ks, hp⟩, -⟩ := C01_distance_optimal pS hob hoe hS
      obtain ⟨d, d', z1, hp', hR0, hR⟩ := hp.related (n := X.rows) (m := Y.rows)
        (ℓ' := fun i j => sumAbs ((f i).zip (g j))) (R := fun i j s b => 0 ≤ (k : ℚ) * s ∧ b ^ 2 ≤ (1 + u * i + v * j) * (k * s))
        ⟨mul_nonneg hk0.le (bd 0 0).2.1, by
          have := (bd 0 0).2.2.2.2.2.2.1
          rw [len 0 hn 0 hm] at this
          simpa using this⟩ (by
          intro z hz i j c' c hi hj hR
          have := kept_square (ℓ := fun i j => sumAbs ((f i).zip (g j))) (ℓ' := fun i j => (k : ℚ) * sumSquares ((f i).zip (g j))) hw hU 1
            (fun i j => by positivity) (N := X.rows) (m := Y.rows) (fun i hi j hj => by
              rw [← len i hi j hj]; exact (bd i j).2.2.2.2.2.2.1) z hz i j (k * c') c hi hj hR
          have e : z.charged (fun i j => (k : ℚ) * sumSquares ((f i).zip (g j))) (i + z.a) (j + z.b) =
              k * z.charged (fun i j => sumSquares ((f i).zip (g j))) (i + z.a) (j + z.b) := by
            unfold Rule.charged
            rw [← List.sum_map_mul_left]
            congr 1
            exact List.map_congr_left fun t _ => by ring
          rw [e, ← mul_add] at this
          exact this) (by omega) (by omega)
      have hopt := (C01_distance_optimal pB hob hoe hB).2 _ _ hp' (by simp)
      rw [e1, F64.le_fin] at hopt
      obtain rfl : S = d := F64.fin.inj (e6.symm.trans z1)
      have b0 : 0 ≤ B := by
        have := (C14_nonnegative pB hob hw (fun i _ j _ => (bd i j).1) hB).1
        rwa [e1, F64.le_fin] at this
      have e3 : ((X.rows - 1 : Nat) : ℚ) = (X.rows : ℚ) - 1 := by rw [Nat.cast_sub hn]; simp
      have e4 : ((Y.rows - 1 : Nat) : ℚ) = (Y.rows : ℚ) - 1 := by rw [Nat.cast_sub hm]; simp
      rw [e3, e4, ← hT] at hR
      exact (pow_le_pow_left₀ b0 hopt 2).trans hR

instance : Decidable (WeightsUpTo u v rs) := inferInstanceAs (Decidable (∀ _ ∈ _, _))
instance : Decidable (WholeWeights rs) := inferInstanceAs (Decidable (∀ _ ∈ _, _))

/-- **C92** The bundled patterns: none but `mori2006` weighs more than 1 for every element consumed; those with hint `N` no more than 1 for
every query element; the weights are 0 or at least 1 but in the patterns that spread a weight over several cells. -/
theorem C92_bundled : ∀ q ∈ Pat.table,
    (WeightsUpTo 1 1 (rulesOf q.2) ↔ q.1 ≠ "mori2006") ∧ (q.2.hint = "N" → WeightsUpTo 1 0 (rulesOf q.2)) ∧
    (q.2.hint = "M" → WeightsUpTo 0 3 (rulesOf q.2)) ∧
    (WholeWeights (rulesOf q.2) ↔ q.1 ∉ ["_symmetricVelichkoZagoruyko", "asymmetricP05", "asymmetricP1", "asymmetricP2", "typeIas", "typeIcs"]) := by
  have key : (Pat.table.all fun q => decide ((WeightsUpTo 1 1 (rulesOf q.2) ↔ q.1 ≠ "mori2006") ∧
    (q.2.hint = "N" → WeightsUpTo 1 0 (rulesOf q.2)) ∧ (q.2.hint = "M" → WeightsUpTo 0 3 (rulesOf q.2)) ∧
    (WholeWeights (rulesOf q.2) ↔ q.1 ∉ ["_symmetricVelichkoZagoruyko", "asymmetricP05", "asymmetricP1", "asymmetricP2", "typeIas", "typeIcs"]))) = true := by
    decide +kernel
  intro q hq
  exact of_decide_eq_true (List.all_eq_true.1 key q hq)

/-! ### Examples -/

example : Problem (Ex.call 3 4 (fun i j => fin |(i : ℚ) - j|) "symmetric2") 3 4 (fun i j => fin |(i : ℚ) - j|) (fun _ _ => true)
      Pat.symmetric2 (rulesOf Pat.symmetric2) ∧
    Problem (Ex.call 3 4 (fun i j => fin (((i : ℚ) - j) ^ 2)) "symmetric2") 3 4 (fun i j => fin (((i : ℚ) - j) ^ 2)) (fun _ _ => true)
      Pat.symmetric2 (rulesOf Pat.symmetric2) ∧ (∀ i j : Nat, 0 ≤ |(i : ℚ) - j| ∧ |(i : ℚ) - j| ^ 2 ≤ ((i : ℚ) - j) ^ 2) ∧
    NonnegWeights Arith.exact (rulesOf Pat.symmetric2) ∧ WeightsUpTo 1 1 (rulesOf Pat.symmetric2) ∧ WholeWeights (rulesOf Pat.symmetric2) :=
  ⟨bundled_problem (by decide) (by decide) (by decide) _ ("symmetric2", Pat.symmetric2) Ex.sym2_mem,
    bundled_problem (by decide) (by decide) (by decide) _ ("symmetric2", Pat.symmetric2) Ex.sym2_mem,
    fun _ _ => ⟨abs_nonneg _, (sq_abs _).le⟩,
    C12_bundled_weights ("symmetric2", Pat.symmetric2) Ex.sym2_mem (by decide), ((C92_bundled _ Ex.sym2_mem).1).2 (by decide),
    ((C92_bundled _ Ex.sym2_mem).2.2.2).2 (by decide)⟩

/-- The bound with `N + M - 1` is met when all local costs are equal. -/
example : ((dtw Arith.exact (Ex.call 3 4 (fun _ _ => fin (1/2)) "symmetric2")).map (·.distance)) = .ok (fin 3) ∧
    ((dtw Arith.exact (Ex.call 3 4 (fun _ _ => fin (1/4)) "symmetric2")).map (·.distance)) = .ok (fin (3/2)) := by decide +kernel

example : (3 : ℚ) ^ 2 = (1 + 1 * ((3 : ℚ) - 1) + 1 * ((4 : ℚ) - 1)) * (3 / 2) := by norm_num

example : ((dtw Arith.exact (callWith (chebyshev Arith.exact) Ex.serOpts (.d2 Ex.biX) (.d2 Ex.biY))).toBool &&
    (dtw Arith.exact (callWith (cityblock Arith.exact) Ex.serOpts (.d2 Ex.biX) (.d2 Ex.biY))).toBool &&
    (dtw Arith.exact (callWith (sqEuclidean Arith.exact) Ex.serOpts (.d2 Ex.biX) (.d2 Ex.biY))).toBool) = true ∧
    Series (.d2 Ex.biX) Ex.biX Ex.biU 2 ∧ Series (.d2 Ex.biY) Ex.biY Ex.biV 2 := ⟨by decide +kernel, Ex.bi_series⟩

end DTW
