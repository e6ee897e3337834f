import Verif.Props.Features
import Verif.Props.Stability
import Verif.Props.SlopeOpen
import Mathlib.Algebra.BigOperators.Fin
import Mathlib.Algebra.Order.BigOperators.Ring.Finset

/-!
# C78: several kinds of local cost

The distance is a concave function of the local costs: aligning with a weighted sum of several cost matrices is at least as dear as
the weighted sum of the distances of the separate alignments.  Hence, for series of several columns, the distance (sum of absolute or
squared differences) is at least the sum of the distances of the columns aligned separately.
-/

namespace DTW
open F64

variable {a : Args} {n m k : Nat} {w : Fin k → ℚ} {ℓ : Fin k → Nat → Nat → ℚ} {ρ : Nat → Nat → ℚ} {W : Nat → Nat → Bool}
  {p : StepPattern} {rs : List Rule} {r : Result} {b : Fin k → Args} {R : Fin k → Result}

/-- `ρ` is the sum of the matrices `ℓ t` with weights `w t`, on the grid. -/
def Blend (n m : Nat) (w : Fin k → ℚ) (ℓ : Fin k → Nat → Nat → ℚ) (ρ : Nat → Nat → ℚ) : Prop :=
  ∀ i < n, ∀ j < m, ρ i j = ∑ t, w t * ℓ t i j

theorem charge_mix {q : Rule} {i j : Nat} (hρ : Blend n m w ℓ ρ) (hi : i < n) (hj : j < m) (c : Fin k → ℚ) :
    ∃ d : Fin k → ℚ, charge Arith.exact (fun i j => fin (ρ i j)) q i j (fin (∑ t, w t * c t)) = fin (∑ t, w t * d t) ∧
      ∀ t, charge Arith.exact (fun i j => fin (ℓ t i j)) q i j (fin (c t)) = fin (d t) := by
  unfold charge
  revert c
  generalize q.terms = ts
  induction ts with
  | nil => intro c; exact ⟨c, rfl, fun _ => rfl⟩
  | cons s ts ih =>
    intro c
    obtain ⟨d, h1, h2⟩ := ih fun t => c t + s.w * ℓ t (i - s.di) (j - s.dj)
    refine ⟨d, ?_, fun t => ?_⟩
    · rw [← h1]
      have e : ∑ t, w t * (c t + s.w * ℓ t (i - s.di) (j - s.dj)) = ∑ t, w t * c t + s.w * ρ (i - s.di) (j - s.dj) := by
        rw [hρ _ (by omega) _ (by omega), Finset.mul_sum, ← Finset.sum_add_distrib]
        exact Finset.sum_congr rfl fun t _ => by ring
      rw [e]
      rfl
    · rw [← h2 t]; rfl

/-- The cost of a rule sequence is the sum of its costs in the parts. -/
theorem WarpPath.mix (hρ : Blend n m w ℓ ρ) {ks : List Int} {i j : Nat} {c : F64}
    (h : WarpPath Arith.exact rs W (fun i j => fin (ρ i j)) ks i j c) (hi : i < n) (hj : j < m) :
    ∃ d : Fin k → ℚ, c = fin (∑ t, w t * d t) ∧
      ∀ t, WarpPath Arith.exact rs W (fun i j => fin (ℓ t i j)) ks i j (fin (d t)) := by
  induction h with
  | start => exact ⟨fun t => ℓ t 0 0, by rw [hρ 0 hi 0 hj], fun _ => .start⟩
  | step s q _ hq hW ih =>
    obtain ⟨d, rfl, h2⟩ := ih (by omega) (by omega)
    obtain ⟨e, h3, h4⟩ := charge_mix (q := q) hρ hi hj d
    exact ⟨e, h3, fun t => by rw [← h4 t]; exact .step s q (h2 t) hq hW⟩

theorem OpenPath.mix (hρ : Blend n m w ℓ ρ) {j0 : Nat} {ks : List Int} {i j : Nat} {c : F64}
    (h : OpenPath Arith.exact rs W (fun i j => fin (ρ i j)) j0 ks i j c) (hi : i ≤ n) (hj : j < m) :
    ∃ d : Fin k → ℚ, c = fin (∑ t, w t * d t) ∧
      ∀ t, OpenPath Arith.exact rs W (fun i j => fin (ℓ t i j)) j0 ks i j (fin (d t)) := by
  have hρ' : Blend (n + 1) m w (fun t i j => if i = 0 then 0 else ℓ t (i - 1) j) fun i j => if i = 0 then 0 else ρ (i - 1) j := by
    intro i hi j hj
    by_cases h0 : i = 0
    · simp [h0]
    · simp only [h0, if_false]; exact hρ _ (by omega) _ hj
  have e : ∀ ℓ : Nat → Nat → ℚ, (fun i' j' => if i' = 0 then fin 0 else fin (ℓ (i' - 1) j')) =
      fun i j => fin (if i = 0 then 0 else ℓ (i - 1) j) := by
    intro ℓ; funext i j; by_cases h0 : i = 0 <;> simp [h0]
  induction h with
  | start => exact ⟨fun _ => 0, by simp, fun _ => .start⟩
  | step s q _ hq h0 hW ih =>
    obtain ⟨d, rfl, h2⟩ := ih (by omega) (by omega)
    obtain ⟨x, h3, h4⟩ := charge_mix (q := q) hρ' (Nat.lt_succ_of_le hi) hj d
    refine ⟨x, by rw [e ρ]; exact h3, fun t => ?_⟩
    rw [← h4 t, ← e (ℓ t)]
    exact .step s q (h2 t) hq h0 hW

theorem normBy_scale (hint : String) (hn : 0 < n) (j : Nat) :
    ∃ D : ℚ, 0 < D ∧ ∀ x, normBy Arith.exact hint n j (fin x) = fin (x / D) := by
  have h1 : (1 : ℚ) ≤ n := by exact_mod_cast hn
  have h2 : (0 : ℚ) ≤ j := by positivity
  unfold normBy
  split
  · exact ⟨n + j + 1, by linarith, fun x => divQ_fin (by linarith) x⟩
  · split
    · exact ⟨n, by linarith, fun x => divQ_fin (by linarith) x⟩
    · split
      · exact ⟨1 + j, by linarith, fun x => divQ_fin (by linarith) x⟩
      · exact ⟨1, one_pos, fun x => by simp⟩

theorem sum_le_of_parts (hw : ∀ t, 0 ≤ w t) {x y : Fin k → ℚ} (h : ∀ t, x t ≤ y t) : ∑ t, w t * x t ≤ ∑ t, w t * y t :=
  Finset.sum_le_sum fun t _ => mul_le_mul_of_nonneg_left (h t) (hw t)

/-- Results of closed-begin calls with finite costs are finite. -/
theorem closed_begin_finite {ℓ : Nat → Nat → ℚ} (h : Problem a n m (fun i j => fin (ℓ i j)) W p rs) (hob : a.openBegin = false)
    (hr : dtw Arith.exact a = .ok r) : ∃ x, r.distance = fin x := by
  cases hoe : a.openEnd with
  | false =>
    obtain ⟨⟨ks, hks⟩, -⟩ := C01_distance_optimal h hob hoe hr
    exact hks.finite
  | true =>
    have hNA : p.hint ≠ "NA" := fun hNA => by
      obtain ⟨t, ht⟩ := C20_rejects_NA (A := Arith.exact) h hoe hNA
      rw [hr] at ht; cases ht
    obtain ⟨j, ks, -, -, hp, -⟩ := best_end h hob hNA hr
    exact hp.finite

theorem open_begin_facts {ℓ : Nat → Nat → ℚ} (h : Problem a n m (fun i j => fin (ℓ i j)) W p rs) (hob : a.openBegin = true)
    (hr : dtw Arith.exact a = .ok r) : p.hint = "N" ∧ ∃ x, r.distance = fin x ∧ r.normalizedDistance = fin (x / n) := by
  have hn0 : (0 : ℚ) < n := by exact_mod_cast h.n_pos
  have hh : p.hint = "N" := by
    by_contra hh; rw [open_bad_hint h hob hh] at hr; simp at hr
  obtain ⟨G, D, qr, hB, _, hd⟩ := dtw_open Arith.exact h hob hh
  obtain ⟨j, j0, ks, hrun⟩ := open_ok h hob hB hd hr
  obtain ⟨mp, _, _, _, _, _, _, hp, -⟩ := C22_open_begin_optimal h hob hr
  obtain ⟨x, hx⟩ := hp.finite
  refine ⟨hh, x, hx, ?_⟩
  have : r.normalizedDistance = Arith.exact.divQ r.distance n := by rw [hrun.result]; simp [mkResult, hh, normBy]
  rw [this, hx, divQ_fin hn0]

/-- **C78** The combined call succeeds exactly when each of the separate ones does. -/
theorem C78_existence (h : Problem a n m (fun i j => fin (ρ i j)) W p rs)
    (hb : ∀ t, Problem (b t) n m (fun i j => fin (ℓ t i j)) W p rs) (ho : ∀ t, SameOptions a (b t)) (t : Fin k) :
    (∃ r, dtw Arith.exact a = .ok r) ↔ ∃ r, dtw Arith.exact (b t) = .ok r := C62_existence h (hb t) (ho t)

/-- **C78** A weighted sum of cost matrices (weights not negative) never has a smaller distance than the weighted sum of the
distances, whatever the step pattern and the window: closed ends, or an open beginning. -/
theorem C78_distance (hw : ∀ t, 0 ≤ w t) (hρ : Blend n m w ℓ ρ) (h : Problem a n m (fun i j => fin (ρ i j)) W p rs)
    (hb : ∀ t, Problem (b t) n m (fun i j => fin (ℓ t i j)) W p rs) (ho : ∀ t, SameOptions a (b t))
    (hend : a.openEnd = false ∨ a.openBegin = true) (hr : dtw Arith.exact a = .ok r)
    (hR : ∀ t, dtw Arith.exact (b t) = .ok (R t)) :
    ∃ (d : ℚ) (D : Fin k → ℚ), r.distance = fin d ∧ (∀ t, (R t).distance = fin (D t)) ∧ ∑ t, w t * D t ≤ d := by
  have hn := h.n_pos
  have hm := h.m_pos
  cases hob : a.openBegin with
  | false =>
    have hoe : a.openEnd = false := by rw [hob] at hend; simpa using hend
    obtain ⟨⟨ks, hks⟩, -⟩ := C01_distance_optimal h hob hoe hr
    obtain ⟨d, h1, h2⟩ := hks.mix hρ (by omega) (by omega)
    have part : ∀ t, ∃ x, (R t).distance = fin x ∧ x ≤ d t := by
      intro t
      have hob' := (ho t).openBegin.symm.trans hob
      have hoe' := (ho t).openEnd.symm.trans hoe
      obtain ⟨x, hx⟩ := closed_begin_finite (hb t) hob' (hR t)
      have := (C01_distance_optimal (hb t) hob' hoe' (hR t)).2 _ _ (h2 t) (by simp)
      rw [hx, F64.le_fin] at this
      exact ⟨x, hx, this⟩
    choose D hD hle using part
    exact ⟨_, D, h1, hD, sum_le_of_parts hw hle⟩
  | true =>
    have hn0 : (0 : ℚ) < n := by exact_mod_cast hn
    obtain ⟨mp, j, j0, _, hjm, hj, hjc, hp, -⟩ := C22_open_begin_optimal h hob hr
    obtain ⟨d, h1, h2⟩ := hp.mix hρ (_root_.le_refl n) hj
    have part : ∀ t, ∃ x, (R t).distance = fin x ∧ x ≤ d t := by
      intro t
      have hob' := (ho t).openBegin.symm.trans hob
      obtain ⟨hh, x, hx, hnx⟩ := open_begin_facts (hb t) hob' (hR t)
      refine ⟨x, hx, ?_⟩
      obtain ⟨mp', j', j0', _, hjm', hj', hjc', hp', hopt'⟩ := C22_open_begin_optimal (hb t) hob' (hR t)
      cases hoe : a.openEnd with
      | false =>
        have e1 := hjc hoe
        have e2 := hjc' ((ho t).openEnd.symm.trans hoe)
        have h3 := h2 t
        rw [e1, ← e2] at h3
        have := hopt' _ _ _ h3 (by simp)
        rwa [hx, F64.le_fin] at this
      | true =>
        have := (C22_open_both_optimal (hb t) hob' ((ho t).openEnd.symm.trans hoe) (hR t)).2 _ _ _ _ hj (h2 t) (by simp)
        rw [hnx, divQ_fin hn0, F64.le_fin] at this
        exact (div_le_div_iff_of_pos_right hn0).1 this
    choose D hD hle using part
    exact ⟨_, D, h1, hD, sum_le_of_parts hw hle⟩

/-- **C78** The same for the normalized distance, whatever ends are open. -/
theorem C78_normalized (hw : ∀ t, 0 ≤ w t) (hρ : Blend n m w ℓ ρ) (h : Problem a n m (fun i j => fin (ρ i j)) W p rs)
    (hb : ∀ t, Problem (b t) n m (fun i j => fin (ℓ t i j)) W p rs) (ho : ∀ t, SameOptions a (b t)) (hNA : p.hint ≠ "NA")
    (hr : dtw Arith.exact a = .ok r) (hR : ∀ t, dtw Arith.exact (b t) = .ok (R t)) :
    ∃ (d : ℚ) (D : Fin k → ℚ), r.normalizedDistance = fin d ∧ (∀ t, (R t).normalizedDistance = fin (D t)) ∧
      ∑ t, w t * D t ≤ d := by
  have hn := h.n_pos
  cases hob : a.openBegin with
  | true =>
    have hn0 : (0 : ℚ) < n := by exact_mod_cast hn
    obtain ⟨d, D, h1, h2, h3⟩ := C78_distance hw hρ h hb ho (.inr hob) hr hR
    obtain ⟨-, x, e1, e2⟩ := open_begin_facts h hob hr
    have part : ∀ t, (R t).normalizedDistance = fin (D t / n) := by
      intro t
      obtain ⟨-, y, e3, e4⟩ := open_begin_facts (hb t) ((ho t).openBegin.symm.trans hob) (hR t)
      rw [h2 t, F64.fin.injEq] at e3
      rw [e4, e3]
    rw [h1, F64.fin.injEq] at e1
    refine ⟨_, _, e2, part, ?_⟩
    rw [← e1, le_div_iff₀ hn0, Finset.sum_mul]
    refine _root_.le_trans (_root_.le_of_eq (Finset.sum_congr rfl fun t _ => ?_)) h3
    rw [mul_assoc, div_mul_cancel₀ _ (ne_of_gt hn0)]
  | false =>
    obtain ⟨j, ks, hj, hjc, hp, hnd, -⟩ := best_end h hob hNA hr
    obtain ⟨d, h1, h2⟩ := hp.mix hρ (by omega) hj
    obtain ⟨N, hN, hN'⟩ := normBy_scale p.hint hn j
    rw [h1, hN'] at hnd
    have part : ∀ t, ∃ x, (R t).normalizedDistance = fin x ∧ x ≤ d t / N := by
      intro t
      have hob' := (ho t).openBegin.symm.trans hob
      obtain ⟨j', -, -, -, -, hnd', hopt⟩ := best_end (hb t) hob' hNA (hR t)
      obtain ⟨x, hx⟩ := closed_begin_finite (hb t) hob' (hR t)
      obtain ⟨N', -, hN2⟩ := normBy_scale p.hint hn j'
      rw [hx, hN2] at hnd'
      have := hopt _ _ _ hj (by rw [← (ho t).openEnd]; exact hjc) (h2 t) (by simp)
      rw [hnd', hN', F64.le_fin] at this
      exact ⟨_, hnd', this⟩
    choose D hD hle using part
    refine ⟨_, D, hnd, hD, _root_.le_trans (sum_le_of_parts hw hle) (_root_.le_of_eq ?_)⟩
    rw [eq_div_iff (ne_of_gt hN), Finset.sum_mul]
    exact Finset.sum_congr rfl fun t _ => by rw [mul_assoc, div_mul_cancel₀ _ (ne_of_gt hN)]

theorem WarpPath.cost_unique {A : Arith} {L : Nat → Nat → F64} {ks : List Int} {i j i' j' : Nat} {c c' : F64}
    (h : WarpPath A rs W L ks i j c) (h' : WarpPath A rs W L ks i' j' c') : i = i' ∧ j = j' ∧ c = c' := by
  induction h generalizing i' j' c' with
  | start =>
    generalize hk : ([] : List Int) = ks at h'
    cases h' with
    | start => exact ⟨rfl, rfl, rfl⟩
    | step s q _ _ _ => simp at hk
  | @step ks i j c s q hp hq hW ih =>
    generalize hk : ks ++ [(s : Int) + 1] = ks' at h'
    cases h' with
    | start => simp at hk
    | @step ks2 i2 j2 c2 s2 q2 hp2 hq2 hW2 =>
      obtain ⟨e1, e2⟩ := List.append_inj' hk rfl
      simp only [List.cons.injEq, and_true] at e2
      have e3 : s = s2 := by omega
      subst e1 e3
      rw [hq] at hq2
      simp only [Option.some.injEq] at hq2
      subst hq2
      obtain ⟨rfl, rfl, rfl⟩ := ih hp2
      exact ⟨rfl, rfl, rfl⟩

/-- **C78** With equality (closed ends) when the parts agree on the alignment: if the parts report the same steps, the combined
distance is the weighted sum of theirs. -/
theorem C78_agreement (hw : ∀ t, 0 ≤ w t) (hρ : Blend n m w ℓ ρ) (h : Problem a n m (fun i j => fin (ρ i j)) W p rs)
    (hb : ∀ t, Problem (b t) n m (fun i j => fin (ℓ t i j)) W p rs) (ho : ∀ t, SameOptions a (b t))
    (hob : a.openBegin = false) (hoe : a.openEnd = false) (hdo : a.distanceOnly = false) {ks : List Int} (hk : 0 < k)
    (hr : dtw Arith.exact a = .ok r) (hR : ∀ t, dtw Arith.exact (b t) = .ok (R t))
    (hks : ∀ t, ∃ mp, (R t).mapping = some mp ∧ mp.stepsTaken = ks) :
    ∃ D : Fin k → ℚ, r.distance = fin (∑ t, w t * D t) ∧ ∀ t, (R t).distance = fin (D t) := by
  have hn := h.n_pos
  have hm := h.m_pos
  have part : ∀ t, WarpPath Arith.exact rs W (fun i j => fin (ℓ t i j)) ks (n - 1) (m - 1) (R t).distance := by
    intro t
    have hob' := (ho t).openBegin.symm.trans hob
    obtain ⟨mp, h1, h2⟩ := hks t
    obtain ⟨mp', j, h3, h4, h5⟩ := C03_path_realises_distance (hb t) hob' ((ho t).distanceOnly.symm.trans hdo) (hR t)
    obtain ⟨G, D, qr, hB, _, hd⟩ := dtw_closed Arith.exact (hb t) hob'
    obtain ⟨j2, ks2, hrun⟩ := closed_ok (hb t) hob' hB hd (hR t)
    have e1 := hrun.endAt.closed ((ho t).openEnd.symm.trans hoe)
    have e2 : (R t).jmin = j2 := by rw [hrun.result]; rfl
    rw [h4] at e2
    rw [h1, Option.some.injEq] at h3
    subst h3
    rw [h2] at h5
    have e3 : j = m - 1 := by omega
    rw [← e3]
    exact h5
  obtain ⟨c, hc⟩ := (part ⟨0, hk⟩).toRulePath.toWarpPath (A := Arith.exact) (L := fun i j => fin (ρ i j))
  obtain ⟨D, rfl, h2⟩ := hc.mix hρ (by omega) (by omega)
  have hD : ∀ t, (R t).distance = fin (D t) := fun t => ((part t).cost_unique (h2 t)).2.2
  obtain ⟨d, D', h3, h4, h5⟩ := C78_distance hw hρ h hb ho (.inl hoe) hr hR
  have e : D' = D := by
    funext t
    have := (h4 t).symm.trans (hD t)
    simpa using this
  subst e
  have h6 := (C01_distance_optimal h hob hoe hr).2 _ _ hc (by simp)
  rw [h3, F64.le_fin] at h6
  exact ⟨D', by rw [h3, _root_.le_antisymm h6 h5], hD⟩

/-! ### Series of several columns -/

/-- The square or the absolute value of a difference: what "sqeuclidean" and "cityblock" add up over the columns. -/
inductive Additive : (List F64 → List F64 → F64) → (ℚ → ℚ) → Prop
  | cityblock : Additive (cityblock Arith.exact) fun d => |d|
  | sqEuclidean : Additive (sqEuclidean Arith.exact) fun d => d ^ 2

theorem Additive.value {M : List F64 → List F64 → F64} {g : ℚ → ℚ} (hM : Additive M g) (u v : Fin k → ℚ) :
    M ((List.ofFn u).map fin) ((List.ofFn v).map fin) = fin (∑ t, g (u t - v t)) := by
  have hz : ∀ (f : ℚ × ℚ → ℚ), ((List.ofFn u).zip (List.ofFn v)).map f = List.ofFn fun t => f (u t, v t) := by
    intro f
    apply List.ext_getElem
    · simp
    · intro n h1 h2
      simp
  have e1 : (List.ofFn u).map fin = ((List.ofFn u).zip (List.ofFn v)).map fun p => fin p.1 := by
    apply List.ext_getElem
    · simp
    · intro n h1 h2
      simp
  have e2 : (List.ofFn v).map fin = ((List.ofFn u).zip (List.ofFn v)).map fun p => fin p.2 := by
    apply List.ext_getElem
    · simp
    · intro n h1 h2
      simp
  rw [e1, e2]
  cases hM with
  | cityblock => rw [cityblock_exact, sumAbs, hz, List.sum_ofFn]
  | sqEuclidean => rw [sqEuclidean_exact, sumSquares, hz, List.sum_ofFn]

/-- **C78** Series of `k` columns, "cityblock" or "sqeuclidean": aligning all columns together succeeds exactly when aligning each
column by itself does, and costs at least the sum of the distances of the columns (with an open end: of their normalized distances).
Exact arithmetic; every bundled pattern, window and combination of ends. -/
theorem C78_columns {M : List F64 → List F64 → F64} {g : ℚ → ℚ} (hM : Additive M g) {o : Args} {x y : Nd} {X Y : Mat F64}
    {x' y' : Fin k → Nd} {X' Y' : Fin k → Mat F64} {u v : Nat → Fin k → ℚ} (hx : Series x X (fun i => List.ofFn (u i)) k)
    (hy : Series y Y (fun j => List.ofFn (v j)) k) (hx' : ∀ t, Series (x' t) (X' t) (fun i => [u i t]) 1)
    (hy' : ∀ t, Series (y' t) (Y' t) (fun j => [v j t]) 1) (hX : ∀ t, (X' t).rows = X.rows) (hY : ∀ t, (Y' t).rows = Y.rows)
    {q : String × StepPattern} (h : Sensible o X.rows Y.rows W q) :
    (∀ t, (∃ r, dtw Arith.exact (callWith M o x y) = .ok r) ↔ ∃ r, dtw Arith.exact (callWith M o (x' t) (y' t)) = .ok r) ∧
    ∀ (r : Result) (R : Fin k → Result), dtw Arith.exact (callWith M o x y) = .ok r → (∀ t, dtw Arith.exact (callWith M o (x' t) (y' t)) = .ok (R t)) →
      (o.openEnd = false ∨ o.openBegin = true → ∃ (d : ℚ) (D : Fin k → ℚ), r.distance = fin d ∧
        (∀ t, (R t).distance = fin (D t)) ∧ ∑ t, D t ≤ d) ∧
      (q.2.hint ≠ "NA" → ∃ (d : ℚ) (D : Fin k → ℚ), r.normalizedDistance = fin d ∧
        (∀ t, (R t).normalizedDistance = fin (D t)) ∧ ∑ t, D t ≤ d) := by
  have hP := callWith_problem (M := M) hx.mat hy.mat (hx.cols.trans hy.cols.symm) h
    (L := fun i j => fin (∑ t, g (u i t - v j t))) (by
      intro i hi j hj
      rw [(hx.row i hi).1, (hy.row j hj).1, hM.value])
  have hP' : ∀ t, Problem (callWith M o (x' t) (y' t)) X.rows Y.rows (fun i j => fin (g (u i t - v j t))) W q.2 (rulesOf q.2) := by
    intro t
    have := callWith_problem (M := M) (o := o) (W := W) (q := q) (hx' t).mat (hy' t).mat ((hx' t).cols.trans (hy' t).cols.symm)
      (by rw [hX, hY]; exact h) (L := fun i j => fin (g (u i t - v j t))) (by
        intro i hi j hj
        rw [((hx' t).row i hi).1, ((hy' t).row j hj).1]
        have := hM.value (k := 1) (fun _ => u i t) (fun _ => v j t)
        simpa using this.symm)
    rwa [hX, hY] at this
  have hρ : Blend X.rows Y.rows (fun _ => 1) (fun t i j => g (u i t - v j t)) fun i j => ∑ t, g (u i t - v j t) :=
    fun i _ j _ => by simp
  have ho : ∀ t, SameOptions (callWith M o x y) (callWith M o (x' t) (y' t)) := fun _ => ⟨rfl, rfl, rfl, rfl⟩
  refine ⟨fun t => C62_existence hP (hP' t) (ho t), fun r R hr hR => ⟨fun hend => ?_, fun hNA => ?_⟩⟩
  · obtain ⟨d, D, h1, h2, h3⟩ := C78_distance (fun _ => zero_le_one) hρ hP hP' ho hend hr hR
    exact ⟨d, D, h1, h2, by simpa using h3⟩
  · obtain ⟨d, D, h1, h2, h3⟩ := C78_normalized (fun _ => zero_le_one) hρ hP hP' ho hNA hr hR
    exact ⟨d, D, h1, h2, by simpa using h3⟩

/-! ### Non-vacuity, and where the inequality is strict or fails -/

/-- Two series of two columns: in the first column a pulse comes earlier in the query, in the second one later. -/
def Ex.pulseU : Nat → Fin 2 → ℚ := fun i t => if (t = 0 ∧ i = 1) ∨ (t = 1 ∧ i = 2) then 1 else 0
def Ex.pulseV : Nat → Fin 2 → ℚ := fun i t => if (t = 0 ∧ i = 2) ∨ (t = 1 ∧ i = 1) then 1 else 0
def Ex.pulseX : Mat F64 := ⟨4, 2, [fin 0, fin 0, fin 1, fin 0, fin 0, fin 1, fin 0, fin 0]⟩
def Ex.pulseY : Mat F64 := ⟨4, 2, [fin 0, fin 0, fin 0, fin 1, fin 1, fin 0, fin 0, fin 0]⟩

theorem Ex.pulse_series : Series (.d2 Ex.pulseX) Ex.pulseX (fun i => List.ofFn (Ex.pulseU i)) 2 ∧
    Series (.d2 Ex.pulseY) Ex.pulseY (fun i => List.ofFn (Ex.pulseV i)) 2 := by
  have h1 : ∀ i < 4, Ex.pulseX.row i = (List.ofFn (Ex.pulseU i)).map fin ∧ (List.ofFn (Ex.pulseU i)).length = 2 := by decide +kernel
  have h2 : ∀ i < 4, Ex.pulseY.row i = (List.ofFn (Ex.pulseV i)).map fin ∧ (List.ofFn (Ex.pulseV i)).length = 2 := by decide +kernel
  exact ⟨⟨.d2 _, rfl, h1⟩, ⟨.d2 _, rfl, h2⟩⟩

/-- A column by itself, as a one-dimensional array. -/
def Ex.column (u : Nat → Fin 2 → ℚ) (t : Fin 2) : List F64 := (List.range 4).map fun i => fin (u i t)

theorem Ex.column_series (u : Nat → Fin 2 → ℚ) (t : Fin 2) :
    Series (.d1 (Ex.column u t)) ⟨4, 1, Ex.column u t⟩ (fun i => [u i t]) 1 := by
  refine ⟨.d1 _, rfl, fun i hi => ?_⟩
  have hi' : i < 4 := hi
  have h2 : i = 0 ∨ i = 1 ∨ i = 2 ∨ i = 3 := by omega
  rcases h2 with rfl | rfl | rfl | rfl <;> exact ⟨rfl, rfl⟩

/-- Separately the columns have distance 0, together 3: the inequality can be strict. -/
example : ∃ (r : Result) (R : Fin 2 → Result),
    dtw Arith.exact (callWith (cityblock Arith.exact) Ex.serOpts (.d2 Ex.pulseX) (.d2 Ex.pulseY)) = .ok r ∧
    (∀ t, dtw Arith.exact (callWith (cityblock Arith.exact) Ex.serOpts (.d1 (Ex.column Ex.pulseU t)) (.d1 (Ex.column Ex.pulseV t))) =
      .ok (R t)) ∧
    r.distance = fin 3 ∧ (∀ t, (R t).distance = fin 0) ∧
    ∃ (d : ℚ) (D : Fin 2 → ℚ), r.distance = fin d ∧ (∀ t, (R t).distance = fin (D t)) ∧ ∑ t, D t ≤ d := by
  have hS : Sensible Ex.serOpts Ex.pulseX.rows Ex.pulseY.rows (fun _ _ => true) ("symmetric2", Pat.symmetric2) :=
    sensible_free (by decide) (by decide) (by decide) Ex.sym2_mem rfl rfl
  obtain ⟨r, hr⟩ := Ex.get_ok
    (x := dtw Arith.exact (callWith (cityblock Arith.exact) Ex.serOpts (.d2 Ex.pulseX) (.d2 Ex.pulseY))) (by decide +kernel)
  obtain ⟨k1, k2⟩ := C78_columns .cityblock Ex.pulse_series.1 Ex.pulse_series.2 (Ex.column_series Ex.pulseU)
    (Ex.column_series Ex.pulseV) (fun _ => rfl) (fun _ => rfl) hS
  choose R hR using fun t => (k1 t).1 ⟨r, hr⟩
  refine ⟨r, R, hr, hR, ?_, fun t => ?_, (k2 r R hr hR).1 (.inl rfl)⟩
  · have : (dtw Arith.exact (callWith (cityblock Arith.exact) Ex.serOpts (.d2 Ex.pulseX) (.d2 Ex.pulseY))).toOption.map (·.distance) =
        some (fin 3) := by decide +kernel
    rw [hr] at this
    exact Option.some.inj this
  · have : ∀ t, (dtw Arith.exact (callWith (cityblock Arith.exact) Ex.serOpts (.d1 (Ex.column Ex.pulseU t))
        (.d1 (Ex.column Ex.pulseV t)))).toOption.map (·.distance) = some (fin 0) := by decide +kernel
    have := this t
    rw [hR] at this
    exact Option.some.inj this

/-- Negative: not so for the default metric, "euclidean": two columns whose distances are 3 and 4 have distance 5 together. -/
theorem C78_not_euclidean :
    ((dtw Arith.exact (callWith (euclidean Arith.exact) Ex.serOpts (.d2 ⟨1, 2, [fin 0, fin 0]⟩) (.d2 ⟨1, 2, [fin 3, fin 4]⟩))
      ).toOption.map (·.distance)) = some (fin 5) ∧
    ((dtw Arith.exact (callWith (euclidean Arith.exact) Ex.serOpts (.d1 [fin 0]) (.d1 [fin 3]))).toOption.map (·.distance)) =
      some (fin 3) ∧
    ((dtw Arith.exact (callWith (euclidean Arith.exact) Ex.serOpts (.d1 [fin 0]) (.d1 [fin 4]))).toOption.map (·.distance)) =
      some (fin 4) := by decide +kernel

/-- Two matrices, one twice the other: the parts agree on the alignment, and the distance of the sum is the sum of the distances. -/
example : ∃ (r : Result) (D : Fin 2 → ℚ), dtw Arith.exact (Ex.call 4 5 (fun i j => fin (3 * Ex.lat i j)) "symmetric2") = .ok r ∧
    r.distance = fin (∑ t, D t) := by
  obtain ⟨r, hr⟩ := Ex.get_ok (x := dtw Arith.exact (Ex.call 4 5 (fun i j => fin (3 * Ex.lat i j)) "symmetric2")) (by decide +kernel)
  have hk : ∀ t : Fin 2, ∃ R, dtw Arith.exact (Ex.call 4 5 (fun i j => fin (((t : ℕ) + 1 : ℚ) * Ex.lat i j)) "symmetric2") = .ok R ∧
      ∃ mp, R.mapping = some mp ∧ mp.stepsTaken = [2, 1, 1, 1] := by
    intro t
    obtain ⟨R, hR⟩ := Ex.get_ok (x := dtw Arith.exact (Ex.call 4 5 (fun i j => fin (((t : ℕ) + 1 : ℚ) * Ex.lat i j)) "symmetric2"))
      (by revert t; decide +kernel)
    have e : (dtw Arith.exact (Ex.call 4 5 (fun i j => fin (((t : ℕ) + 1 : ℚ) * Ex.lat i j)) "symmetric2")).toOption.bind
        (fun r => r.mapping.map (·.stepsTaken)) = some [2, 1, 1, 1] := by clear hR; revert t; decide +kernel
    rw [hR] at e
    refine ⟨R, hR, ?_⟩
    obtain ⟨mp, h1, h2⟩ := Option.map_eq_some_iff.1 e
    exact ⟨mp, h1, h2⟩
  choose R hR hmp using hk
  obtain ⟨D, h1, -⟩ := C78_agreement (fun _ => zero_le_one) (w := fun _ => 1) (ρ := fun i j => 3 * Ex.lat i j)
    (ℓ := fun t i j => ((t : ℕ) + 1 : ℚ) * Ex.lat i j) (fun i _ j _ => by simp [Fin.sum_univ_two]; ring)
    (bundled_problem (n := 4) (m := 5) (by norm_num) (by norm_num) (by norm_num) _ ("symmetric2", Pat.symmetric2) Ex.sym2_mem)
    (fun t => bundled_problem (n := 4) (m := 5) (by norm_num) (by norm_num) (by norm_num) _ ("symmetric2", Pat.symmetric2) Ex.sym2_mem)
    (fun _ => ⟨rfl, rfl, rfl, rfl⟩) rfl rfl rfl (by norm_num) hr hR hmp
  exact ⟨r, D, hr, by simpa using h1⟩

end DTW
