import Verif.Props.TextbookDoubles
import Verif.Props.ReversalOpen
import Verif.Props.Series

/-!
# C90: aligning with a flat series

The local costs depend on one of the two series only (the other one is constant: a baseline, a resting level, silence).
-/

namespace DTW
open F64

variable {a a' : Args} {n m k : Nat} {ℓ ℓ' : Nat → Nat → ℚ} {ρ : Nat → ℚ} {W W' : Nat → Nat → Bool} {p : StepPattern} {rs : List Rule}
  {r r' : Result} {wt : Move → ℚ}

/-! ### Curves over costs that depend on the query element only -/

theorem endOf_copies (x : Move) (k : Nat) (u : Nat × Nat) :
    endOf u (List.replicate k x) = (u.1 + k * x.delta.1, u.2 + k * x.delta.2) := by
  induction k generalizing u with
  | zero => simp [endOf]
  | succ k ih =>
    rw [List.replicate_succ]
    simp only [endOf, ih, Move.go, Nat.succ_mul]
    refine Prod.ext ?_ ?_ <;> simp only <;> omega

theorem endOf_counts (w : List Move) (u : Nat × Nat) :
    endOf u w = (u.1 + w.count .both + w.count .query, u.2 + w.count .both + w.count .ref) := by
  induction w generalizing u with
  | nil => simp [endOf]
  | cons x w ih =>
    simp only [endOf, ih, Move.go]
    cases x <;> refine Prod.ext ?_ ?_ <;> simp [Move.delta] <;> omega

/-- Moves that consume one query element at weight 1. -/
theorem climb_cost {x : Move} (hx : wt x = 1) (hd : x.delta.1 = 1) {v : List Move} {E : Nat} {t : ℚ} (k : Nat) (u : Nat × Nat)
    (hv : moveCost wt (fun i _ => ρ i) (endOf u (List.replicate k x)) v = sumFrom ρ (u.1 + k + 1) E + t) (hE : u.1 + k + 1 ≤ E) :
    moveCost wt (fun i _ => ρ i) u (List.replicate k x ++ v) = sumFrom ρ (u.1 + 1) E + t := by
  induction k generalizing u with
  | zero => simpa [endOf] using hv
  | succ k ih =>
    have e1 : (x.go u).1 = u.1 + 1 := by simp [Move.go, hd]
    rw [List.replicate_succ, List.cons_append]
    simp only [moveCost]
    rw [hx, e1, sumFrom_head ρ (show u.1 + 1 < E by omega)]
    have := ih (x.go u) (by
      rw [e1]
      rw [List.replicate_succ] at hv
      rw [show u.1 + 1 + k + 1 = u.1 + (k + 1) + 1 by omega]
      exact hv) (by rw [e1]; omega)
    rw [this, e1]
    ring

theorem stay_cost (k : Nat) (u : Nat × Nat) (v : List Move) :
    moveCost wt (fun i _ => ρ i) u (List.replicate k .ref ++ v) =
      wt .ref * ((k : ℚ) * ρ u.1) + moveCost wt (fun i _ => ρ i) (u.1, u.2 + k) v := by
  induction k generalizing u with
  | zero => simp
  | succ k ih =>
    rw [List.replicate_succ, List.cons_append]
    simp only [moveCost]
    rw [ih]
    have e : Move.ref.go u = (u.1, u.2 + 1) := rfl
    rw [e]
    simp only
    rw [show u.2 + 1 + k = u.2 + (k + 1) by omega]
    push_cast
    ring

/-- Every curve pays each query element once, and at least `mn` for every unit of weight beyond that. -/
theorem flat_lower {mn : ℚ} (hq : wt .query = 1) (hb : 1 ≤ wt .both) (hr : 0 ≤ wt .ref) (w : List Move) (u : Nat × Nat)
    (hmn : ∀ i, u.1 ≤ i → i ≤ (endOf u w).1 → mn ≤ ρ i) :
    sumFrom ρ (u.1 + 1) ((endOf u w).1 + 1) + mn * (wt .ref * (w.count .ref : Nat) + (wt .both - 1) * (w.count .both : Nat)) ≤
      moveCost wt (fun i _ => ρ i) u w := by
  induction w generalizing u with
  | nil => simp [endOf, sumFrom_self, moveCost]
  | cons y w ih =>
    have hge := (endOf_ge w (y.go u)).1
    simp only [endOf, moveCost] at hmn ⊢
    have hih := ih (y.go u) (fun i h1 h2 => hmn i (by simp only [Move.go] at h1; omega) h2)
    cases y with
    | both =>
      have e : (Move.both.go u).1 = u.1 + 1 := rfl
      have h1 := hmn (u.1 + 1) (by omega) (by rw [e] at hge; omega)
      rw [e] at hih hge ⊢
      rw [sumFrom_head ρ (i := u.1 + 1) (by omega)]
      have h2 : (wt .both - 1) * mn ≤ (wt .both - 1) * ρ (u.1 + 1) := mul_le_mul_of_nonneg_left h1 (by linarith)
      simp only [List.count_cons_self, List.count_cons_of_ne (show Move.both ≠ Move.ref by decide)]
      push_cast
      linarith
    | query =>
      have e : (Move.query.go u).1 = u.1 + 1 := rfl
      rw [e] at hih hge ⊢
      rw [sumFrom_head ρ (i := u.1 + 1) (by omega), hq]
      simp only [List.count_cons_of_ne (show Move.query ≠ Move.both by decide), List.count_cons_of_ne (show Move.query ≠ Move.ref by decide)]
      linarith
    | ref =>
      have e : (Move.ref.go u).1 = u.1 := rfl
      have h1 := hmn u.1 (by omega) (by rw [e] at hge; exact hge)
      rw [e] at hih ⊢
      have h2 : wt .ref * mn ≤ wt .ref * ρ u.1 := mul_le_mul_of_nonneg_left h1 hr
      simp only [List.count_cons_self, List.count_cons_of_ne (show Move.ref ≠ Move.both by decide)]
      push_cast
      linarith

theorem rangeSum_from (hn : 0 < n) : ((List.range n).map ρ).sum = ρ 0 + sumFrom ρ (0 + 1) n := by
  rw [← sumFrom_head ρ hn]
  simp [sumFrom]

/-- The same moves with the two series exchanged. -/
def Move.flip : Move → Move
  | .both => .both
  | .ref => .query
  | .query => .ref

theorem Move.flip_flip (x : Move) : x.flip.flip = x := by cases x <;> rfl

theorem endOf_flip (w : List Move) (u : Nat × Nat) : endOf u.swap (w.map Move.flip) = (endOf u w).swap := by
  induction w generalizing u with
  | nil => rfl
  | cons x w ih =>
    have e : x.flip.go u.swap = (x.go u).swap := by cases x <;> rfl
    simp only [List.map_cons, endOf, e, ih]

theorem moveCost_flip (hw : ∀ x, wt x.flip = wt x) (w : List Move) (u : Nat × Nat) :
    moveCost wt (fun i j => ℓ j i) u.swap (w.map Move.flip) = moveCost wt ℓ u w := by
  induction w generalizing u with
  | nil => rfl
  | cons x w ih =>
    have e : x.flip.go u.swap = (x.go u).swap := by cases x <;> rfl
    simp only [List.map_cons, moveCost, e, ih, hw]
    rfl

theorem curve_end (hw : IsCurve (fun _ _ => true) w i j) : endOf (0, 0) w = (i, j) := hw.1

theorem curve_any {w : List Move} {i j : Nat} (hw : endOf (0, 0) w = (i, j)) : IsCurve (fun _ _ => true) w i j := ⟨hw, fun _ _ => rfl⟩

/-- Costs that agree on the matrix agree on the curves inside it. -/
theorem curve_congr (hn : 0 < n) (hm : 0 < m) (hℓ : ∀ i < n, ∀ j < m, ℓ i j = ℓ' i j) {w : List Move}
    (hw : endOf (0, 0) w = (n - 1, m - 1)) : ℓ 0 0 + moveCost wt ℓ (0, 0) w = ℓ' 0 0 + moveCost wt ℓ' (0, 0) w := by
  rw [hℓ 0 hn 0 hm, moveCost_congr w (0, 0) fun v hv => ?_]
  have := visited_range w (0, 0) v hv
  rw [hw] at this
  exact hℓ _ (by omega) _ (by omega)

/-- From the least cost of the curves to the outcome of the call. -/
theorem flat_outcome {cost : List Move → ℚ} {w0 : List Move} {t : ℚ}
    (hC : ComputesLeast a (fun w => IsCurve (fun _ _ => true) w (n - 1) (m - 1)) cost)
    (h0 : endOf (0, 0) w0 = (n - 1, m - 1)) (e0 : cost w0 = t) (hmin : ∀ w, endOf (0, 0) w = (n - 1, m - 1) → t ≤ cost w) :
    ∃ r, dtw Arith.exact a = .ok r ∧ r.distance = fin t := by
  obtain ⟨r, hr⟩ := hC.1.2 ⟨w0, curve_any h0⟩
  obtain ⟨d, hd, ⟨w, hw, rfl⟩, hl⟩ := hC.2 r hr
  refine ⟨r, hr, ?_⟩
  rw [hd]
  congr 1
  have h1 := hl ⟨w0, curve_any h0, rfl⟩
  exact _root_.le_antisymm (e0 ▸ h1) (hmin w (curve_end hw))

/-! ### symmetric1 -/

theorem plain_flat_lower (hn : 0 < n) {mn : ℚ} (h0 : 0 ≤ mn) (hmn : ∀ i < n, mn ≤ ρ i) {w : List Move}
    (hw : endOf (0, 0) w = (n - 1, m - 1)) (hm : 0 < m) :
    ((List.range n).map ρ).sum + ((m - n : Nat) : ℚ) * mn ≤ ρ 0 + moveCost (fun _ => 1) (fun i _ => ρ i) (0, 0) w := by
  have h1 := flat_lower (ρ := ρ) (wt := fun _ => 1) (mn := mn) rfl _root_.le_rfl zero_le_one w (0, 0) (fun i _ hi => hmn i (by
    rw [hw] at hi; simp only at hi; omega))
  have h2 := endOf_counts w (0, 0)
  rw [hw] at h1 h2
  simp only [Prod.mk.injEq] at h2
  rw [rangeSum_from hn]
  rw [show n - 1 + 1 = n by omega] at h1
  have h3 : ((m - n : Nat) : ℚ) ≤ (w.count .ref : Nat) := by
    exact_mod_cast (show m - n ≤ w.count .ref by omega)
  have h4 := mul_le_mul_of_nonneg_right h3 h0
  simp only at h1
  linarith

/-- A cheapest curve: diagonal moves as long as possible, all surplus reference elements at query element `k`. -/
def plainFlat (n m k : Nat) : List Move :=
  if m ≤ n then List.replicate (m - 1) .both ++ (List.replicate (n - m) .query ++ [])
  else List.replicate k .both ++ (List.replicate (m - n) .ref ++ (List.replicate (n - 1 - k) .both ++ []))

theorem plainFlat_end (hm : 0 < m) (hk : k < n) : endOf (0, 0) (plainFlat n m k) = (n - 1, m - 1) := by
  unfold plainFlat
  split
  · simp only [List.append_nil, endOf_append, endOf_copies]
    simp only [Move.delta]
    refine Prod.ext ?_ ?_ <;> simp only <;> omega
  · simp only [List.append_nil, endOf_append, endOf_copies]
    simp only [Move.delta]
    refine Prod.ext ?_ ?_ <;> simp only <;> omega

theorem plainFlat_cost (hm : 0 < m) (hk : k < n) :
    ρ 0 + moveCost (fun _ => 1) (fun i _ => ρ i) (0, 0) (plainFlat n m k) = ((List.range n).map ρ).sum + ((m - n : Nat) : ℚ) * ρ k := by
  rw [rangeSum_from (by omega)]
  unfold plainFlat
  split
  next hle =>
    have h1 := climb_cost (ρ := ρ) (wt := fun _ => 1) (x := .query) rfl rfl (v := []) (E := n) (t := 0) (n - m) (m - 1, m - 1)
      (by simp only [moveCost]; rw [show m - 1 + (n - m) + 1 = n by omega, sumFrom_self]; ring) (by simp only; omega)
    have h2 := climb_cost (ρ := ρ) (wt := fun _ => 1) (x := .both) rfl rfl (E := n) (t := 0) (m - 1) (0, 0)
      (v := List.replicate (n - m) .query ++ []) (by
        rw [endOf_copies]
        simp only [Move.delta, Nat.zero_add, Nat.mul_one]
        exact h1) (by simp only; omega)
    rw [h2, show m - n = 0 by omega]
    simp
  next hgt =>
    have h1 := climb_cost (ρ := ρ) (wt := fun _ => 1) (x := .both) rfl rfl (v := []) (E := n) (t := 0) (n - 1 - k) (k, k + (m - n))
      (by simp only [moveCost]; rw [show k + (n - 1 - k) + 1 = n by omega, sumFrom_self]; ring) (by simp only; omega)
    have h2 := climb_cost (ρ := ρ) (wt := fun _ => 1) (x := .both) rfl rfl (E := n) (t := ((m - n : Nat) : ℚ) * ρ k) k (0, 0)
      (v := List.replicate (m - n) .ref ++ (List.replicate (n - 1 - k) .both ++ [])) (by
        rw [endOf_copies]
        simp only [Move.delta, Nat.zero_add, Nat.mul_one]
        rw [stay_cost, h1]
        ring) (by simp only; omega)
    rw [h2]
    ring

/-- **C90** (symmetric1, flat reference).  The local cost of a pair is `ρ i`, whatever the reference element: the distance (no window)
is the sum of all `ρ i`, plus the smallest of them once for every reference element in excess of the query's length. -/
theorem C90_symmetric1 (h : Problem a n m (fun i j => fin (ℓ i j)) (fun _ _ => true) Pat.symmetric1 (rulesOf Pat.symmetric1))
    (hob : a.openBegin = false) (hoe : a.openEnd = false) (hflat : ∀ i < n, ∀ j < m, ℓ i j = ρ i)
    (hk : k < n) (hmin : ∀ i < n, ρ k ≤ ρ i) (h0 : 0 ≤ ρ k) :
    ∃ r, dtw Arith.exact a = .ok r ∧ r.distance = fin (((List.range n).map ρ).sum + ((m - n : Nat) : ℚ) * ρ k) := by
  have hC : ComputesLeast a (fun w => IsCurve (fun _ _ => true) w (n - 1) (m - 1)) (plainCost ℓ) := C53_symmetric1 h hob hoe
  have hc : ∀ w, endOf (0, 0) w = (n - 1, m - 1) → plainCost ℓ w = ρ 0 + moveCost (fun _ => 1) (fun i _ => ρ i) (0, 0) w := by
    intro w hw
    rw [plainCost_eq]
    exact curve_congr h.n_pos h.m_pos hflat hw
  refine flat_outcome hC (plainFlat_end h.m_pos hk) ?_ fun w hw => ?_
  · rw [hc _ (plainFlat_end h.m_pos hk), plainFlat_cost h.m_pos hk]
  · rw [hc w hw]
    exact plain_flat_lower h.n_pos h0 hmin hw h.m_pos

/-- **C90** (symmetric1, flat query). -/
theorem C90_symmetric1_flat_query (h : Problem a n m (fun i j => fin (ℓ i j)) (fun _ _ => true) Pat.symmetric1 (rulesOf Pat.symmetric1))
    (hob : a.openBegin = false) (hoe : a.openEnd = false) (hflat : ∀ i < n, ∀ j < m, ℓ i j = ρ j)
    (hk : k < m) (hmin : ∀ j < m, ρ k ≤ ρ j) (h0 : 0 ≤ ρ k) :
    ∃ r, dtw Arith.exact a = .ok r ∧ r.distance = fin (((List.range m).map ρ).sum + ((n - m : Nat) : ℚ) * ρ k) := by
  have hC : ComputesLeast a (fun w => IsCurve (fun _ _ => true) w (n - 1) (m - 1)) (plainCost ℓ) := C53_symmetric1 h hob hoe
  have hc : ∀ w, endOf (0, 0) w = (n - 1, m - 1) →
      plainCost ℓ w = ρ 0 + moveCost (fun _ => 1) (fun i _ => ρ i) (0, 0) (w.map Move.flip) := by
    intro w hw
    rw [plainCost_eq, curve_congr (ℓ' := fun _ j => ρ j) h.n_pos h.m_pos hflat hw,
      ← moveCost_flip (wt := fun _ => 1) (ℓ := fun _ j => ρ j) (fun _ => rfl) w (0, 0)]
    rfl
  have he : ∀ (w : List Move) {i j : Nat}, endOf (0, 0) w = (i, j) → endOf (0, 0) (w.map Move.flip) = (j, i) := by
    intro w i j hw
    have := endOf_flip w (0, 0)
    rw [hw] at this
    exact this
  have e1 := he _ (plainFlat_end (n := m) (m := n) h.n_pos hk)
  refine flat_outcome hC e1 ?_ fun w hw => ?_
  · rw [hc _ e1, List.map_map, show (Move.flip ∘ Move.flip) = id from funext Move.flip_flip, List.map_id, plainFlat_cost h.n_pos hk]
  · rw [hc w hw]
    exact plain_flat_lower h.m_pos h0 hmin (he w hw) h.n_pos

/-! ### symmetric2 -/

theorem symmetric_flat_lower (hn : 0 < n) {mn : ℚ} (hmn : ∀ i < n, mn ≤ ρ i) {w : List Move}
    (hw : endOf (0, 0) w = (n - 1, m - 1)) :
    ((List.range n).map ρ).sum + ((m - 1 : Nat) : ℚ) * mn ≤
      ρ 0 + moveCost (fun x => ((x.delta.1 + x.delta.2 : Nat) : ℚ)) (fun i _ => ρ i) (0, 0) w := by
  have h1 := flat_lower (ρ := ρ) (wt := fun x => ((x.delta.1 + x.delta.2 : Nat) : ℚ)) (mn := mn) (by simp [Move.delta])
    (by simp [Move.delta]) (by simp [Move.delta]) w (0, 0) (fun i _ hi => hmn i (by rw [hw] at hi; simp only at hi; omega))
  have h2 := endOf_counts w (0, 0)
  rw [hw] at h1 h2
  simp only [Prod.mk.injEq] at h2
  rw [rangeSum_from hn]
  rw [show n - 1 + 1 = n by omega] at h1
  have h3 : ((m - 1 : Nat) : ℚ) = (w.count .both : Nat) + (w.count .ref : Nat) := by
    rw [← Nat.cast_add]
    exact congrArg _ (by omega)
  rw [h3]
  simp only [Move.delta] at h1
  norm_num at h1
  simp only [Move.delta]
  norm_num
  linarith

/-- A cheapest curve: the whole reference is matched at query element `k`. -/
def symmetricFlat (n m k : Nat) : List Move :=
  List.replicate k .query ++ (List.replicate (m - 1) .ref ++ (List.replicate (n - 1 - k) .query ++ []))

theorem symmetricFlat_end (hk : k < n) : endOf (0, 0) (symmetricFlat n m k) = (n - 1, m - 1) := by
  unfold symmetricFlat
  simp only [List.append_nil, endOf_append, endOf_copies]
  simp only [Move.delta]
  refine Prod.ext ?_ ?_ <;> simp only <;> omega

theorem symmetricFlat_cost (hq : wt .query = 1) (hk : k < n) :
    ρ 0 + moveCost wt (fun i _ => ρ i) (0, 0) (symmetricFlat n m k) =
      ((List.range n).map ρ).sum + wt .ref * (((m - 1 : Nat) : ℚ) * ρ k) := by
  rw [rangeSum_from (by omega)]
  unfold symmetricFlat
  have h1 := climb_cost (ρ := ρ) (wt := wt) (x := .query) hq rfl (v := []) (E := n) (t := 0) (n - 1 - k) (k, m - 1)
    (by simp only [moveCost]; rw [show k + (n - 1 - k) + 1 = n by omega, sumFrom_self]; ring) (by simp only; omega)
  have h2 := climb_cost (ρ := ρ) (wt := wt) (x := .query) hq rfl (E := n) (t := wt .ref * (((m - 1 : Nat) : ℚ) * ρ k)) k (0, 0)
    (v := List.replicate (m - 1) .ref ++ (List.replicate (n - 1 - k) .query ++ [])) (by
      rw [endOf_copies]
      simp only [Move.delta, Nat.zero_add, Nat.mul_one, Nat.mul_zero]
      rw [stay_cost]
      simp only [Nat.zero_add]
      rw [h1]
      ring) (by simp only; omega)
  rw [h2]
  ring

/-- **C90** (symmetric2, the default, and symmetricP0; flat reference).  The distance is the sum of all `ρ i`, plus the smallest of them
once for every reference element but one.  The costs may be negative. -/
theorem C90_symmetric2 (hp : p = Pat.symmetric2 ∨ p = Pat.symmetricP0)
    (h : Problem a n m (fun i j => fin (ℓ i j)) (fun _ _ => true) p (rulesOf p))
    (hob : a.openBegin = false) (hoe : a.openEnd = false) (hflat : ∀ i < n, ∀ j < m, ℓ i j = ρ i)
    (hk : k < n) (hmin : ∀ i < n, ρ k ≤ ρ i) :
    ∃ r, dtw Arith.exact a = .ok r ∧ r.distance = fin (((List.range n).map ρ).sum + ((m - 1 : Nat) : ℚ) * ρ k) := by
  have hC : ComputesLeast a (fun w => IsCurve (fun _ _ => true) w (n - 1) (m - 1)) (symmetricCost ℓ) := C53_symmetric2 hp h hob hoe
  have hc : ∀ w, endOf (0, 0) w = (n - 1, m - 1) →
      symmetricCost ℓ w = ρ 0 + moveCost (fun x => ((x.delta.1 + x.delta.2 : Nat) : ℚ)) (fun i _ => ρ i) (0, 0) w :=
    fun w hw => curve_congr h.n_pos h.m_pos hflat hw
  refine flat_outcome hC (symmetricFlat_end hk) ?_ fun w hw => ?_
  · rw [hc _ (symmetricFlat_end hk), symmetricFlat_cost (by simp [Move.delta]) hk]
    simp [Move.delta]
  · rw [hc w hw]
    exact symmetric_flat_lower h.n_pos hmin hw

/-- **C90** (symmetric2 and symmetricP0, flat query). -/
theorem C90_symmetric2_flat_query (hp : p = Pat.symmetric2 ∨ p = Pat.symmetricP0)
    (h : Problem a n m (fun i j => fin (ℓ i j)) (fun _ _ => true) p (rulesOf p))
    (hob : a.openBegin = false) (hoe : a.openEnd = false) (hflat : ∀ i < n, ∀ j < m, ℓ i j = ρ j)
    (hk : k < m) (hmin : ∀ j < m, ρ k ≤ ρ j) :
    ∃ r, dtw Arith.exact a = .ok r ∧ r.distance = fin (((List.range m).map ρ).sum + ((n - 1 : Nat) : ℚ) * ρ k) := by
  have hC : ComputesLeast a (fun w => IsCurve (fun _ _ => true) w (n - 1) (m - 1)) (symmetricCost ℓ) := C53_symmetric2 hp h hob hoe
  have hc : ∀ w, endOf (0, 0) w = (n - 1, m - 1) →
      symmetricCost ℓ w = ρ 0 + moveCost (fun x => ((x.delta.1 + x.delta.2 : Nat) : ℚ)) (fun i _ => ρ i) (0, 0) (w.map Move.flip) := by
    intro w hw
    unfold symmetricCost
    rw [curve_congr (ℓ' := fun _ j => ρ j) h.n_pos h.m_pos hflat hw,
      ← moveCost_flip (wt := fun x => ((x.delta.1 + x.delta.2 : Nat) : ℚ)) (ℓ := fun _ j => ρ j) (fun x => by cases x <;> rfl) w (0, 0)]
    rfl
  have he : ∀ (w : List Move) {i j : Nat}, endOf (0, 0) w = (i, j) → endOf (0, 0) (w.map Move.flip) = (j, i) := by
    intro w i j hw
    have := endOf_flip w (0, 0)
    rw [hw] at this
    exact this
  have e1 := he _ (symmetricFlat_end (n := m) (m := n) hk)
  refine flat_outcome hC e1 ?_ fun w hw => ?_
  · rw [hc _ e1, List.map_map, show (Move.flip ∘ Move.flip) = id from funext Move.flip_flip, List.map_id,
      symmetricFlat_cost (by simp [Move.delta]) hk]
    simp [Move.delta]
  · rw [hc w hw]
    exact symmetric_flat_lower h.m_pos hmin (he w hw)

/-! ### Asymmetric patterns -/

/-- **C90** (asymmetric, rigid, mvm; flat reference, any window).  Whatever the alignment, its cost is the sum of all `ρ i`. -/
theorem C90_function {jump : Nat → Nat → Prop} (hF : FnRules rs jump) (hmono : ∀ j j', jump j j' → j ≤ j')
    (h : Problem a n m (fun i j => fin (ℓ i j)) W p rs) (hob : a.openBegin = false) (hoe : a.openEnd = false)
    (hflat : ∀ i < n, ∀ j < m, ℓ i j = ρ i) (hr : dtw Arith.exact a = .ok r) :
    r.distance = fin ((List.range n).map ρ).sum := by
  have hm := h.m_pos
  have hn := h.n_pos
  obtain ⟨d, hd, ⟨f, hf, rfl⟩, -⟩ := (hF.computes h hob hoe).2 r hr
  rw [hd]
  unfold fnCost
  congr 2
  refine List.map_congr_left fun i hi => ?_
  have hi := List.mem_range.1 hi
  have hle : ∀ k i, i + k = n - 1 → f i ≤ m - 1 := by
    intro k
    induction k with
    | zero => intro i hi; rw [← hf.last]; simp only [Nat.add_zero] at hi; rw [hi]
    | succ k ih => intro i hi; exact (hmono _ _ (hf.jumps i (by omega))).trans (ih (i + 1) (by omega))
  exact hflat i hi _ (by have := hle (n - 1 - i) i (by omega); omega)

theorem once_flat (w : List Move) (u : Nat × Nat) :
    moveCost (fun x => ((x.delta.1 : Nat) : ℚ)) (fun i _ => ρ i) u w = sumFrom ρ (u.1 + 1) ((endOf u w).1 + 1) := by
  induction w generalizing u with
  | nil => simp [endOf, sumFrom_self, moveCost]
  | cons y w ih =>
    have hge := (endOf_ge w (y.go u)).1
    simp only [endOf, moveCost, ih]
    cases y with
    | both =>
      have e : (Move.both.go u).1 = u.1 + 1 := rfl
      rw [e] at hge ⊢
      rw [sumFrom_head ρ (i := u.1 + 1) (by omega)]
      simp [Move.delta]
    | query =>
      have e : (Move.query.go u).1 = u.1 + 1 := rfl
      rw [e] at hge ⊢
      rw [sumFrom_head ρ (i := u.1 + 1) (by omega)]
      simp [Move.delta]
    | ref =>
      have e : (Move.ref.go u).1 = u.1 := rfl
      rw [e]
      simp [Move.delta]

/-- **C90** (asymmetricP0, flat reference, any window). -/
theorem C90_asymmetricP0 (h : Problem a n m (fun i j => fin (ℓ i j)) W Pat.asymmetricP0 (rulesOf Pat.asymmetricP0))
    (hob : a.openBegin = false) (hoe : a.openEnd = false) (hflat : ∀ i < n, ∀ j < m, ℓ i j = ρ i)
    (hr : dtw Arith.exact a = .ok r) : r.distance = fin ((List.range n).map ρ).sum := by
  obtain ⟨d, hd, ⟨w, hw, rfl⟩, -⟩ := (C53_asymmetricP0 h hob hoe).2 r hr
  rw [hd]
  unfold asymmetricCost
  rw [curve_congr (ℓ' := fun i _ => ρ i) h.n_pos h.m_pos hflat hw.1, once_flat, hw.1, rangeSum_from h.n_pos]
  simp only
  rw [show n - 1 + 1 = n by have := h.n_pos; omega]

/-! ### Doubles, series -/

/-- **C90** (double precision).  What the theorems above say about exact arithmetic holds for the distance computed in doubles up to a
relative error of `relError n m`, for costs that are 0 or between `2^-900` and `2^900`. -/
theorem C90_doubles (f : Bool) {t : ℚ} (h : Problem a n m (fun i j => fin (ℓ i j)) W p rs) (hob : a.openBegin = false)
    (hoe : a.openEnd = false) (hw : ModestWeights rs) (hc : ∀ i < n, ∀ j < m, ModestCost (ℓ i j))
    (ht : ∃ r, dtw Arith.exact a = .ok r ∧ r.distance = fin t) :
    ∃ r d, dtw (binary64 f) a = .ok r ∧ r.distance = fin d ∧ |d - t| ≤ relError n m * t := by
  obtain ⟨ex, near⟩ := double_near f h hob hoe hw hc
  obtain ⟨r0, hr0, e0⟩ := ht
  obtain ⟨r, hr⟩ := ex.2 ⟨r0, hr0⟩
  obtain ⟨d, d0, e1, e2, -, e4, -⟩ := near r r0 hr hr0
  rw [e0] at e2
  obtain rfl := F64.fin.inj e2
  exact ⟨r, d, hr, e1, e4⟩

theorem sum_gap_flat {x : List ℚ} {c : ℚ} : ((List.range x.length).map fun i => |x.getD i 0 - c|).sum = (x.map fun u => |u - c|).sum := by
  congr 1
  refine List.ext_getElem (by simp) fun i h1 h2 => ?_
  have hi : i < x.length := by simpa using h1
  simp [List.getD, hi]

/-- **C90** (series).  The default call (symmetric2, no window) of a series `x` with a flat one of `m` samples at level `c`: the sum of the
deviations `|x_i - c|`, plus `m - 1` times the smallest deviation. -/
theorem C90_series {o : Args} {x : List ℚ} {c : ℚ} (hp : p = Pat.symmetric2 ∧ q = "symmetric2" ∨ p = Pat.symmetricP0 ∧ q = "symmetricP0")
    (h : Sensible o x.length (List.replicate m c).length (fun _ _ => true) (q, p)) (hob : o.openBegin = false) (hoe : o.openEnd = false)
    {u : ℚ} (hu : u ∈ x) (hmin : ∀ v ∈ x, |u - c| ≤ |v - c|) :
    ∃ r, dtw Arith.exact (ask o x (List.replicate m c)) = .ok r ∧
      r.distance = fin ((x.map fun v => |v - c|).sum + ((m - 1 : Nat) : ℚ) * |u - c|) := by
  have hP := ask_problem h
  simp only [List.length_replicate] at hP
  obtain ⟨k, hk, e⟩ := List.getElem_of_mem hu
  have := C90_symmetric2 (ρ := fun i => |x.getD i 0 - c|) (k := k) (by tauto) hP hob hoe
    (fun i hi j hj => by simp [gap, List.getD, hj]) hk (fun i hi => by
      simp only [List.getD, List.getElem?_eq_getElem hk, List.getElem?_eq_getElem hi, Option.getD_some, e]
      exact hmin _ (List.getElem_mem hi))
  rw [sum_gap_flat] at this
  simp only [List.getD, List.getElem?_eq_getElem hk, Option.getD_some, e] at this
  exact this

/-- **C90** (series, asymmetric pattern).  If it can be aligned at all with a flat series at level `c`, the distance of `x` from it is the
sum of the deviations; for `c = 0` the sum of the absolute values. -/
theorem C90_series_asymmetric {o : Args} {x : List ℚ} {c : ℚ}
    (h : Sensible o x.length (List.replicate m c).length W ("asymmetric", Pat.asymmetric)) (hob : o.openBegin = false)
    (hoe : o.openEnd = false) (hr : dtw Arith.exact (ask o x (List.replicate m c)) = .ok r) :
    r.distance = fin (x.map fun v => |v - c|).sum := by
  have hP := ask_problem h
  simp only [List.length_replicate] at hP
  have := C90_function (ρ := fun i => |x.getD i 0 - c|) asymmetric_fnRules (fun j j' hj => hj.1) hP hob hoe
    (fun i hi j hj => by simp [gap, List.getD, hj]) hr
  rw [this, sum_gap_flat]

/-! ### Examples -/

/-- `[3, 1, 4, 2]` against six samples at level 0: `3 + 1 + 4 + 2 + 5 · 1`. -/
example : ∃ r, dtw Arith.exact (ask Ex.serOpts [3, 1, 4, 2] (List.replicate 6 0)) = .ok r ∧ r.distance = fin 15 := by
  obtain ⟨r, hr, e⟩ := C90_series (o := Ex.serOpts) (x := [3, 1, 4, 2]) (m := 6) (c := 0) (u := 1) (.inl ⟨rfl, rfl⟩) Ex.ser_sensible rfl rfl (by decide) (by decide +kernel)
  exact ⟨r, hr, e.trans (by decide +kernel)⟩

/-- symmetric1, four samples against six: two more at the smallest deviation. -/
example : ∃ r, dtw Arith.exact (Ex.call 4 6 (fun i _ => fin ([3, 1, 4, 2].getD i 0)) "symmetric1") = .ok r ∧ r.distance = fin 12 := by
  have h := bundled_problem (n := 4) (m := 6) (by decide) (by decide) (by decide) (fun i _ => fin ([3, 1, 4, 2].getD i 0)) _ Ex.sym1_mem
  obtain ⟨r, hr, e⟩ := C90_symmetric1 (ℓ := fun i _ => [3, 1, 4, 2].getD i 0) (ρ := fun i => [3, 1, 4, 2].getD i 0) (k := 1)
    h rfl rfl (fun _ _ _ _ => rfl) (by decide) (by decide) (by decide)
  exact ⟨r, hr, e.trans (by decide +kernel)⟩

/-- The same with a flat query (default pattern), in doubles: five times the smallest cost on top of the sum, up to rounding. -/
example (f : Bool) : ∃ r d, dtw (binary64 f) (Ex.call 6 4 (fun _ j => fin ([3, 1, 4, 2].getD j 0)) "symmetric2") = .ok r ∧
    r.distance = fin d ∧ |d - 15| ≤ relError 6 4 * 15 := by
  have h := bundled_problem (n := 6) (m := 4) (by decide) (by decide) (by decide) (fun _ j => fin ([3, 1, 4, 2].getD j 0)) _ Ex.sym2_mem
  obtain ⟨r, hr, e⟩ := C90_symmetric2_flat_query (ℓ := fun _ j => [3, 1, 4, 2].getD j 0) (ρ := fun j => [3, 1, 4, 2].getD j 0) (k := 1)
    (.inl rfl) h rfl rfl (fun _ _ _ _ => rfl) (by decide) (by decide)
  refine C90_doubles f h rfl rfl (C49_bundled _ Ex.sym2_mem (by decide)) ?_ ⟨r, hr, e.trans (by decide +kernel)⟩
  have big : (1 : ℚ) / 2 ^ 900 ≤ 1 := by
    rw [div_le_one (by positivity)]
    exact one_le_pow₀ (by norm_num)
  have key : ∀ v : ℚ, 1 ≤ v → v ≤ 4 → ModestCost v := fun v h1 h4 =>
    .inr ⟨big.trans h1, h4.trans (by
      calc (4 : ℚ) = 2 ^ 2 := by norm_num
        _ ≤ 2 ^ 900 := pow_le_pow_right₀ (by norm_num) (by decide))⟩
  intro i _ j hj
  have : ∀ j < 4, (1 : ℚ) ≤ [3, 1, 4, 2].getD j 0 ∧ ([3, 1, 4, 2].getD j 0 : ℚ) ≤ 4 := by decide
  exact key _ (this j hj).1 (this j hj).2

/-- The asymmetric patterns do align four samples with six, and the distance is the sum of the costs. -/
example : (∃ r, dtw Arith.exact (ask { Ex.serOpts with stepPattern := .name "asymmetric" } [3, -1, 4, 2] (List.replicate 6 0)) = .ok r ∧
      r.distance = fin 10) ∧
    (∃ r, dtw Arith.exact (Ex.call 4 6 (fun i _ => fin ([3, 1, 4, 2].getD i 0)) "asymmetricP0") = .ok r ∧ r.distance = fin 10) := by
  constructor
  · have hs : Sensible { Ex.serOpts with stepPattern := .name "asymmetric" } 4 6 (fun _ _ => true) ("asymmetric", Pat.asymmetric) :=
      sensible_free (by decide) (by decide) (by decide) Ex.asym_mem rfl rfl
    have hE : (dtw Arith.exact (ask { Ex.serOpts with stepPattern := .name "asymmetric" } [3, -1, 4, 2] (List.replicate 6 0))).toBool =
      true := by decide +kernel
    cases hr : dtw Arith.exact (ask { Ex.serOpts with stepPattern := .name "asymmetric" } [3, -1, 4, 2] (List.replicate 6 0)) with
    | error e => rw [hr] at hE; cases hE
    | ok r => exact ⟨r, rfl, (C90_series_asymmetric (m := 6) (c := 0) (x := [3, -1, 4, 2]) hs rfl rfl hr).trans (by decide +kernel)⟩
  · have hq : ("asymmetricP0", Pat.asymmetricP0) ∈ Pat.table := by decide +kernel
    have h := bundled_problem (n := 4) (m := 6) (by decide) (by decide) (by decide) (fun i _ => fin ([3, 1, 4, 2].getD i 0)) _ hq
    have hE : (dtw Arith.exact (Ex.call 4 6 (fun i _ => fin ([3, 1, 4, 2].getD i 0)) "asymmetricP0")).toBool = true := by decide +kernel
    cases hr : dtw Arith.exact (Ex.call 4 6 (fun i _ => fin ([3, 1, 4, 2].getD i 0)) "asymmetricP0") with
    | error e => rw [hr] at hE; cases hE
    | ok r => exact ⟨r, rfl, (C90_asymmetricP0 (ℓ := fun i _ => [3, 1, 4, 2].getD i 0) (ρ := fun i => [3, 1, 4, 2].getD i 0)
        h rfl rfl (fun _ _ _ _ => rfl) hr).trans (by decide +kernel)⟩

end DTW
