import Verif.Props.RoundedWinner
import Verif.Props.Productions
import Verif.Props.Concat
import Verif.Props.Mixture

/-!
# C53, C56, C57, C78 in double precision

The textbook meaning, the time reversal, the concatenation bound and the bound for combined costs are statements about exact arithmetic.
Here they are carried over to the distances computed in doubles (closed ends), for costs that are 0 or between `2^-900` and `2^900`
(`ModestCost`) and weights that are not negative (`ModestWeights`, all the public patterns: `C49_bundled`); `relError n m` is
`(3 (n + m) + 2) / 2^52`.
-/

namespace DTW
open F64

variable {a a' : Args} {n m : Nat} {ℓ ℓ' : Nat → Nat → ℚ} {W W' : Nat → Nat → Bool} {p : StepPattern} {rs : List Rule} {r r' : Result}

/-- **C53** (double precision).  Whatever `dtw` minimises in exact arithmetic (the theorems `C53_*`: `P` the admissible objects, `cost`
their textbook cost), in doubles it succeeds iff there is an admissible object, and the distance is the least textbook cost up to a
relative error of `relError n m`. -/
theorem C53_doubles {α : Type} {P : α → Prop} {cost : α → ℚ} (f : Bool) (hC : ComputesLeast a P cost)
    (h : Problem a n m (fun i j => fin (ℓ i j)) W p rs) (hob : a.openBegin = false) (hoe : a.openEnd = false)
    (hw : ModestWeights rs) (hc : ∀ i < n, ∀ j < m, ModestCost (ℓ i j)) :
    ((∃ r, dtw (binary64 f) a = .ok r) ↔ ∃ w, P w) ∧
    ∀ r, dtw (binary64 f) a = .ok r → ∃ w d, P w ∧ (∀ w', P w' → cost w ≤ cost w') ∧ r.distance = fin d ∧
      |d - cost w| ≤ relError n m * cost w := by
  obtain ⟨ex, near⟩ := double_near f h hob hoe hw hc
  refine ⟨ex.trans hC.1, fun r hr => ?_⟩
  obtain ⟨r0, hr0⟩ := ex.1 ⟨r, hr⟩
  obtain ⟨d, d0, e1, e2, -, e4, -⟩ := near r r0 hr hr0
  obtain ⟨d1, e5, ⟨w, hw1, hw2⟩, hmin⟩ := hC.2 r0 hr0
  rw [e2] at e5
  obtain rfl := F64.fin.inj e5
  refine ⟨w, d, hw1, fun w' hw' => ?_, e1, ?_⟩
  · rw [← hw2]; exact hmin ⟨w', hw', rfl⟩
  · rw [← hw2]; exact e4

/-- Two problems of the same size whose exact distances agree: in doubles one succeeds iff the other does, and the distances agree up to
rounding. -/
theorem doubles_of_equal (f : Bool) (h : Problem a n m (fun i j => fin (ℓ i j)) W p rs)
    (h' : Problem a' n m (fun i j => fin (ℓ' i j)) W' p rs)
    (hob : a.openBegin = false) (hoe : a.openEnd = false) (hob' : a'.openBegin = false) (hoe' : a'.openEnd = false)
    (hw : ModestWeights rs) (hc : ∀ i < n, ∀ j < m, ModestCost (ℓ i j)) (hc' : ∀ i < n, ∀ j < m, ModestCost (ℓ' i j))
    (hE : ((∃ r, dtw Arith.exact a = .ok r) ↔ ∃ r', dtw Arith.exact a' = .ok r') ∧
      ∀ r r', dtw Arith.exact a = .ok r → dtw Arith.exact a' = .ok r' → r'.distance = r.distance) :
    ((∃ r, dtw (binary64 f) a = .ok r) ↔ ∃ r', dtw (binary64 f) a' = .ok r') ∧
    ∀ r r', dtw (binary64 f) a = .ok r → dtw (binary64 f) a' = .ok r' →
      ∃ d d', r.distance = fin d ∧ r'.distance = fin d' ∧ (1 - relError n m) * d' ≤ (1 + relError n m) * d ∧
        (1 - relError n m) * d ≤ (1 + relError n m) * d' := by
  obtain ⟨ex, near⟩ := double_near f h hob hoe hw hc
  obtain ⟨ex', near'⟩ := double_near f h' hob' hoe' hw hc'
  refine ⟨ex.trans (hE.1.trans ex'.symm), fun r r' hr hr' => ?_⟩
  obtain ⟨r0, hr0⟩ := ex.1 ⟨r, hr⟩
  obtain ⟨r0', hr0'⟩ := ex'.1 ⟨r', hr'⟩
  obtain ⟨d, d0, e1, e2, h0, e4, e5, e6⟩ := near r r0 hr hr0
  obtain ⟨d', d0', e1', e2', h0', e4', e5', e6'⟩ := near' r' r0' hr' hr0'
  have := hE.2 r0 r0' hr0 hr0'
  rw [e2, e2'] at this
  obtain rfl := F64.fin.inj this
  refine ⟨d, d', e1, e1', ?_⟩
  have hu0 := relError_pos n m
  have hu := relError_small (h.fits_closed hob) h.n_pos h.m_pos
  have hu1 : 0 ≤ 1 - relError n m := by
    have : relError n m ≤ 1 := _root_.le_trans hu (by norm_num)
    linarith
  constructor
  · exact _root_.le_trans (mul_le_mul_of_nonneg_left e6' hu1) (by
      rw [← mul_assoc, mul_comm (1 - relError n m), mul_assoc]
      exact mul_le_mul_of_nonneg_left e5 (by linarith))
  · exact _root_.le_trans (mul_le_mul_of_nonneg_left e6 hu1) (by
      rw [← mul_assoc, mul_comm (1 - relError n m), mul_assoc]
      exact mul_le_mul_of_nonneg_left e5' (by linarith))

/-- **C56** (double precision).  With `symmetric1`, reversing both series in time changes neither success nor, up to rounding, the
distance. -/
theorem C56_doubles (f : Bool) (h : Problem a n m (fun i j => fin (ℓ i j)) W Pat.symmetric1 (rulesOf Pat.symmetric1))
    (h' : Problem a' n m (fun i j => fin (ℓ' i j)) W' Pat.symmetric1 (rulesOf Pat.symmetric1))
    (hob : a.openBegin = false) (hoe : a.openEnd = false) (hob' : a'.openBegin = false) (hoe' : a'.openEnd = false)
    (h00 : W 0 0 = true) (h11 : W (n - 1) (m - 1) = true) (hc : ∀ i < n, ∀ j < m, ModestCost (ℓ i j))
    (hℓ : ∀ i < n, ∀ j < m, ℓ' i j = ℓ (n - 1 - i) (m - 1 - j))
    (hW : ∀ i < n, ∀ j < m, W' i j = W (n - 1 - i) (m - 1 - j)) :
    ((∃ r, dtw (binary64 f) a = .ok r) ↔ ∃ r', dtw (binary64 f) a' = .ok r') ∧
    ∀ r r', dtw (binary64 f) a = .ok r → dtw (binary64 f) a' = .ok r' →
      ∃ d d', r.distance = fin d ∧ r'.distance = fin d' ∧ (1 - relError n m) * d' ≤ (1 + relError n m) * d ∧
        (1 - relError n m) * d ≤ (1 + relError n m) * d' :=
  doubles_of_equal f h h' hob hoe hob' hoe' (C49_bundled _ Ex.sym1_mem (by decide)) hc
    (fun i hi j hj => by rw [hℓ i hi j hj]; exact hc _ (by omega) _ (by omega))
    (C56_time_reversal h h' hob hoe hob' hoe' h00 h11 hℓ hW)

/-- **C56** (double precision, `asymmetric`, `rigid`, mvm: `C56_fn_patterns`). -/
theorem C56_doubles_fn {jump : Nat → Nat → Prop} (f : Bool) (hF : FnRules rs jump) (hmono : ∀ j j', jump j j' → j ≤ j')
    (hflip : ∀ j j' k, jump j j' → j' ≤ k → jump (k - j') (k - j)) (hw : ModestWeights rs)
    (h : Problem a n m (fun i j => fin (ℓ i j)) W p rs) (h' : Problem a' n m (fun i j => fin (ℓ' i j)) W' p rs)
    (hob : a.openBegin = false) (hoe : a.openEnd = false) (hob' : a'.openBegin = false) (hoe' : a'.openEnd = false)
    (h00 : W 0 0 = true) (h11 : W (n - 1) (m - 1) = true) (hc : ∀ i < n, ∀ j < m, ModestCost (ℓ i j))
    (hℓ : ∀ i < n, ∀ j < m, ℓ' i j = ℓ (n - 1 - i) (m - 1 - j))
    (hW : ∀ i < n, ∀ j < m, W' i j = W (n - 1 - i) (m - 1 - j)) :
    ((∃ r, dtw (binary64 f) a = .ok r) ↔ ∃ r', dtw (binary64 f) a' = .ok r') ∧
    ∀ r r', dtw (binary64 f) a = .ok r → dtw (binary64 f) a' = .ok r' →
      ∃ d d', r.distance = fin d ∧ r'.distance = fin d' ∧ (1 - relError n m) * d' ≤ (1 + relError n m) * d ∧
        (1 - relError n m) * d ≤ (1 + relError n m) * d' :=
  doubles_of_equal f h h' hob hoe hob' hoe' hw hc
    (fun i hi j hj => by rw [hℓ i hi j hj]; exact hc _ (by omega) _ (by omega))
    (C56_time_reversal_fn hF hmono hflip h h' hob hoe hob' hoe' h00 h11 hℓ hW)

theorem relError_mono {n m n' m' : Nat} (h : n + m ≤ n' + m') : relError n m ≤ relError n' m' := by
  unfold relError
  exact div_le_div_of_nonneg_right (by exact_mod_cast (by omega : 3 * (n + m) + 2 ≤ 3 * (n' + m') + 2)) (by norm_num)

/-- **C57** (double precision): the concatenation bound, up to rounding.  `w` is the weight of the diagonal step, at least 1
(`C57_diagonal_weights`). -/
theorem C57_doubles {n1 m1 n2 m2 : Nat} {w : ℚ} {a1 a2 : Args} {ℓ1 ℓ2 : Nat → Nat → ℚ} {W1 W2 : Nat → Nat → Bool} {r1 r2 : Result} (f : Bool)
    (h : Problem a (n1 + n2) (m1 + m2) (fun i j => fin (ℓ i j)) W p rs)
    (h1 : Problem a1 n1 m1 (fun i j => fin (ℓ1 i j)) W1 p rs)
    (h2 : Problem a2 n2 m2 (fun i j => fin (ℓ2 i j)) W2 p rs)
    (hdiag : ⟨1, 1, [⟨0, 0, w⟩]⟩ ∈ rs) (hw1 : 1 ≤ w) (hw : ModestWeights rs)
    (ho : a.openBegin = false ∧ a.openEnd = false) (ho1 : a1.openBegin = false ∧ a1.openEnd = false)
    (ho2 : a2.openBegin = false ∧ a2.openEnd = false)
    (hb1 : ∀ i < n1, ∀ j < m1, ℓ i j = ℓ1 i j) (hb2 : ∀ i < n2, ∀ j < m2, ℓ (n1 + i) (m1 + j) = ℓ2 i j)
    (hW1 : ∀ i < n1, ∀ j < m1, W1 i j = true → W i j = true)
    (hW2 : ∀ i < n2, ∀ j < m2, (i = 0 ∧ j = 0) ∨ W2 i j = true → W (n1 + i) (m1 + j) = true)
    (hc : ∀ i < n1 + n2, ∀ j < m1 + m2, ModestCost (ℓ i j))
    (hr1 : dtw (binary64 f) a1 = .ok r1) (hr2 : dtw (binary64 f) a2 = .ok r2) :
    ∃ r d d1 d2, dtw (binary64 f) a = .ok r ∧ r.distance = fin d ∧ r1.distance = fin d1 ∧ r2.distance = fin d2 ∧
      (1 - relError (n1 + n2) (m1 + m2)) * d ≤ (1 + relError (n1 + n2) (m1 + m2)) * (d1 + d2 + (w - 1) * ℓ2 0 0) := by
  have hc1 : ∀ i < n1, ∀ j < m1, ModestCost (ℓ1 i j) := fun i hi j hj => by rw [← hb1 i hi j hj]; exact hc _ (by omega) _ (by omega)
  have hc2 : ∀ i < n2, ∀ j < m2, ModestCost (ℓ2 i j) := fun i hi j hj => by rw [← hb2 i hi j hj]; exact hc _ (by omega) _ (by omega)
  obtain ⟨ex, near⟩ := double_near f h ho.1 ho.2 hw hc
  obtain ⟨ex1, near1⟩ := double_near f h1 ho1.1 ho1.2 hw hc1
  obtain ⟨ex2, near2⟩ := double_near f h2 ho2.1 ho2.2 hw hc2
  obtain ⟨s1, hs1⟩ := ex1.1 ⟨r1, hr1⟩
  obtain ⟨s2, hs2⟩ := ex2.1 ⟨r2, hr2⟩
  obtain ⟨s, x, x1, x2, hs, k, k1, k2, hx⟩ := C57_concatenation h h1 h2 hdiag ho ho1 ho2 hb1 hb2 hW1 hW2 hs1 hs2
  obtain ⟨r, hr⟩ := ex.2 ⟨s, hs⟩
  obtain ⟨d, d0, e1, e2, g0, -, -, e6⟩ := near r s hr hs
  obtain ⟨d1, d10, f1, f2, g1, -, f5, -⟩ := near1 r1 s1 hr1 hs1
  obtain ⟨d2, d20, c1, c2, g2, -, c5, -⟩ := near2 r2 s2 hr2 hs2
  obtain rfl := F64.fin.inj (e2.symm.trans k)
  obtain rfl := F64.fin.inj (f2.symm.trans k1)
  obtain rfl := F64.fin.inj (c2.symm.trans k2)
  refine ⟨r, d, d1, d2, hr, e1, f1, c1, ?_⟩
  have hu0 := relError_pos (n1 + n2) (m1 + m2)
  have hu : relError (n1 + n2) (m1 + m2) ≤ 1 := _root_.le_trans (relError_small (h.fits_closed ho.1) h.n_pos h.m_pos) (by norm_num)
  have m1' := relError_mono (n := n1) (m := m1) (n' := n1 + n2) (m' := m1 + m2) (by omega)
  have m2' := relError_mono (n := n2) (m := m2) (n' := n1 + n2) (m' := m1 + m2) (by omega)
  have hl0 : 0 ≤ (w - 1) * ℓ2 0 0 := by
    refine mul_nonneg (by linarith) ?_
    rcases hc2 0 h2.n_pos 0 h2.m_pos with q | ⟨q, _⟩
    · exact q.ge
    · exact _root_.le_trans (by positivity) q
  generalize relError (n1 + n2) (m1 + m2) = u at *
  generalize relError n1 m1 = u1 at *
  generalize relError n2 m2 = u2 at *
  have b1 : (1 - u) * d10 ≤ d1 := _root_.le_trans (mul_le_mul_of_nonneg_right (by linarith) g1) f5
  have b2 : (1 - u) * d20 ≤ d2 := _root_.le_trans (mul_le_mul_of_nonneg_right (by linarith) g2) c5
  have b3 : (1 - u) * ((w - 1) * ℓ2 0 0) ≤ (w - 1) * ℓ2 0 0 := by nlinarith
  have b0 : (1 - u) * d0 ≤ d1 + d2 + (w - 1) * ℓ2 0 0 := by
    have := mul_le_mul_of_nonneg_left hx (by linarith : 0 ≤ 1 - u)
    linarith
  calc (1 - u) * d ≤ (1 - u) * ((1 + u) * d0) := mul_le_mul_of_nonneg_left e6 (by linarith)
    _ = (1 + u) * ((1 - u) * d0) := by ring
    _ ≤ _ := mul_le_mul_of_nonneg_left b0 (by linarith)

/-- **C78** (double precision, closed ends): aligning with a weighted sum of cost matrices succeeds exactly when each of the separate
calls does, and costs at least the weighted sum of the separate distances, up to rounding. -/
theorem C78_doubles {k : Nat} {w : Fin k → ℚ} {ℓs : Fin k → Nat → Nat → ℚ} {b : Fin k → Args} {R : Fin k → Result} (f : Bool)
    (hw : ∀ t, 0 ≤ w t) (hρ : Blend n m w ℓs ℓ) (h : Problem a n m (fun i j => fin (ℓ i j)) W p rs)
    (hb : ∀ t, Problem (b t) n m (fun i j => fin (ℓs t i j)) W p rs) (ho : ∀ t, SameOptions a (b t))
    (hob : a.openBegin = false) (hoe : a.openEnd = false) (hM : ModestWeights rs)
    (hc : ∀ i < n, ∀ j < m, ModestCost (ℓ i j)) (hcs : ∀ t, ∀ i < n, ∀ j < m, ModestCost (ℓs t i j)) :
    (∀ t, (∃ r, dtw (binary64 f) a = .ok r) ↔ ∃ r, dtw (binary64 f) (b t) = .ok r) ∧
    ∀ r, dtw (binary64 f) a = .ok r → (∀ t, dtw (binary64 f) (b t) = .ok (R t)) →
      ∃ (d : ℚ) (D : Fin k → ℚ), r.distance = fin d ∧ (∀ t, (R t).distance = fin (D t)) ∧
        (1 - relError n m) * ∑ t, w t * D t ≤ (1 + relError n m) * d := by
  obtain ⟨ex, near⟩ := double_near f h hob hoe hM hc
  have nears := fun t => double_near f (hb t) ((ho t).openBegin ▸ hob) ((ho t).openEnd ▸ hoe) hM (hcs t)
  refine ⟨fun t => ex.trans ((C78_existence h hb ho t).trans (nears t).1.symm), fun r hr hR => ?_⟩
  obtain ⟨s, hs⟩ := ex.1 ⟨r, hr⟩
  have hS : ∀ t, ∃ s', dtw Arith.exact (b t) = .ok s' := fun t => (nears t).1.1 ⟨_, hR t⟩
  choose S hS using hS
  obtain ⟨x, X, hx, hX, hle⟩ := C78_distance hw hρ h hb ho (.inl hoe) hs hS
  obtain ⟨d, d0, e1, e2, -, -, e5, -⟩ := near r s hr hs
  obtain rfl := F64.fin.inj (e2.symm.trans hx)
  have hD : ∀ t, ∃ D, (R t).distance = fin D ∧ D ≤ (1 + relError n m) * X t := by
    intro t
    obtain ⟨D, D0, f1, f2, -, -, -, f6⟩ := (nears t).2 _ _ (hR t) (hS t)
    obtain rfl := F64.fin.inj (f2.symm.trans (hX t))
    exact ⟨D, f1, f6⟩
  choose D hD1 hD2 using hD
  refine ⟨d, D, e1, hD1, ?_⟩
  have hu0 := relError_pos n m
  have hu : relError n m ≤ 1 := _root_.le_trans (relError_small (h.fits_closed hob) h.n_pos h.m_pos) (by norm_num)
  have h1 : ∑ t, w t * D t ≤ (1 + relError n m) * ∑ t, w t * X t := by
    rw [Finset.mul_sum]
    refine Finset.sum_le_sum fun t _ => ?_
    have := mul_le_mul_of_nonneg_left (hD2 t) (hw t)
    linarith
  have h2 : ∑ t, w t * D t ≤ (1 + relError n m) * d0 := _root_.le_trans h1 (mul_le_mul_of_nonneg_left hle (by linarith))
  generalize relError n m = u at *
  calc (1 - u) * ∑ t, w t * D t ≤ (1 - u) * ((1 + u) * d0) := mul_le_mul_of_nonneg_left h2 (by linarith)
    _ = (1 + u) * ((1 - u) * d0) := by ring
    _ ≤ _ := mul_le_mul_of_nonneg_left e5 (by linarith)

/-! ### The hypotheses are met -/

/-- Thirds of the costs of `Ex.lat`, none of them (but 0 and 1) a double: every pattern without negative weights; the textbook meaning of
`symmetric2`. -/
example : ∃ r w d, dtw (binary64 true) (Ex.call 4 5 (fun i j => fin (Ex.lat i j / 3)) "symmetric2") = .ok r ∧
    IsCurve (fun _ _ => true) w 3 4 ∧ r.distance = fin d ∧
    |d - symmetricCost (fun i j => Ex.lat i j / 3) w| ≤ relError 4 5 * symmetricCost (fun i j => Ex.lat i j / 3) w := by
  have hc : ∀ i < 4, ∀ j < 5, ModestCost (Ex.lat i j / 3) := by
    have : ∀ i ∈ List.range 4, ∀ j ∈ List.range 5, Ex.lat i j / 3 = 0 ∨ (1 / 2 ^ 900 ≤ Ex.lat i j / 3 ∧ Ex.lat i j / 3 ≤ 2 ^ 900) := by
      decide +kernel
    exact fun i hi j hj => this i (List.mem_range.2 hi) j (List.mem_range.2 hj)
  have hP : Problem (Ex.call 4 5 (fun i j => fin (Ex.lat i j / 3)) "symmetric2") 4 5 _ _ _ _ :=
    bundled_problem (by decide) (by decide) (by decide) _ _ Ex.sym2_mem
  obtain ⟨r, hr⟩ := Ex.get_ok (x := dtw (binary64 true) (Ex.call 4 5 (fun i j => fin (Ex.lat i j / 3)) "symmetric2")) (by decide +kernel)
  obtain ⟨w, d, h1, _, h2, h3⟩ := (C53_doubles true (C53_symmetric2 (.inl rfl) hP rfl rfl) hP rfl rfl (C49_bundled _ Ex.sym2_mem (by decide)) hc).2 r hr
  exact ⟨r, w, d, hr, h1, h2, h3⟩

/-- Time reversal of any matrix of modest costs, of any size. -/
example {n m : Nat} (hn : 0 < n) (hm : 0 < m) (hnm : n * m < 2147483648) (ℓ : Nat → Nat → ℚ) (hc : ∀ i < n, ∀ j < m, ModestCost (ℓ i j))
    (f : Bool) :
    (∃ r, dtw (binary64 f) (Ex.call n m (fun i j => fin (ℓ i j)) "symmetric1") = .ok r) ↔
    ∃ r', dtw (binary64 f) (Ex.call n m (fun i j => fin (ℓ (n - 1 - i) (m - 1 - j))) "symmetric1") = .ok r' :=
  (C56_doubles (ℓ' := fun i j => ℓ (n - 1 - i) (m - 1 - j)) f (bundled_problem hn hm hnm _ _ Ex.sym1_mem)
    (bundled_problem hn hm hnm _ _ Ex.sym1_mem) rfl rfl rfl rfl rfl rfl hc
    (fun _ _ _ _ => rfl) (fun _ _ _ _ => rfl)).1

/-- Concatenation, for every bundled pattern without negative weights and every pair of blocks of modest costs that can be aligned. -/
example (q : String × StepPattern) (hq : q ∈ Pat.table) (hne : q.1 ≠ "_symmetricVelichkoZagoruyko") (ℓ : Nat → Nat → ℚ)
    (hc : ∀ i < 3 + 2, ∀ j < 2 + 3, ModestCost (ℓ i j)) {r1 r2 : Result}
    (hr1 : dtw (binary64 true) (Ex.call 3 2 (fun i j => fin (ℓ i j)) q.1) = .ok r1)
    (hr2 : dtw (binary64 true) (Ex.call 2 3 (fun i j => fin (ℓ (3 + i) (2 + j))) q.1) = .ok r2) :
    ∃ r, dtw (binary64 true) (Ex.call (3 + 2) (2 + 3) (fun i j => fin (ℓ i j)) q.1) = .ok r := by
  obtain ⟨w, hw, e⟩ := C57_diagonal_weights.1 q hq
  obtain ⟨r, _, _, _, hr, _⟩ := C57_doubles true (bundled_problem (by decide) (by decide) (by decide) _ q hq)
    (bundled_problem (by decide) (by decide) (by decide) _ q hq)
    (bundled_problem (by decide) (by decide) (by decide) (fun i j => fin (ℓ (3 + i) (2 + j))) q hq) hw
    (by rw [e, if_neg hne]; split_ifs <;> norm_num) (C49_bundled q hq hne)
    ⟨rfl, rfl⟩ ⟨rfl, rfl⟩ ⟨rfl, rfl⟩ (fun _ _ _ _ => rfl) (fun _ _ _ _ => rfl) (fun _ _ _ _ _ => rfl)
    (fun _ _ _ _ _ => rfl) hc hr1 hr2
  exact ⟨r, hr⟩

/-- Combined costs: a third of a matrix and twice another. -/
example (ℓs : Fin 2 → Nat → Nat → ℚ) (hcs : ∀ t, ∀ i < 4, ∀ j < 5, ModestCost (ℓs t i j))
    (hc : ∀ i < 4, ∀ j < 5, ModestCost (1 / 3 * ℓs 0 i j + 2 * ℓs 1 i j)) {r : Result} {R : Fin 2 → Result}
    (hr : dtw (binary64 true) (Ex.call 4 5 (fun i j => fin (1 / 3 * ℓs 0 i j + 2 * ℓs 1 i j)) "symmetric2") = .ok r)
    (hR : ∀ t, dtw (binary64 true) (Ex.call 4 5 (fun i j => fin (ℓs t i j)) "symmetric2") = .ok (R t)) :
    ∃ (d : ℚ) (D : Fin 2 → ℚ), r.distance = fin d ∧ (∀ t, (R t).distance = fin (D t)) ∧
      (1 - relError 4 5) * (1 / 3 * D 0 + 2 * D 1) ≤ (1 + relError 4 5) * d := by
  obtain ⟨d, D, h1, h2, h3⟩ := (C78_doubles (R := R) (w := ![1 / 3, 2]) (ℓs := ℓs) (ℓ := fun i j => 1 / 3 * ℓs 0 i j + 2 * ℓs 1 i j) true
    (by intro t; match t with | 0 => norm_num | 1 => norm_num) (by intro i _ j _; simp [Fin.sum_univ_two])
    (bundled_problem (by decide) (by decide) (by decide) _ _ Ex.sym2_mem)
    (fun t => bundled_problem (by decide) (by decide) (by decide) (fun i j => fin (ℓs t i j)) _ Ex.sym2_mem)
    (fun t => ⟨rfl, rfl, rfl, rfl⟩) rfl rfl (C49_bundled _ Ex.sym2_mem (by decide)) hc hcs).2 r hr hR
  exact ⟨d, D, h1, h2, by simpa [Fin.sum_univ_two] using h3⟩

end DTW
