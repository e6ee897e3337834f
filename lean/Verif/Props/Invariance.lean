import Verif.Props.Textbook
import Verif.Props.Relational

/-!
# C54-C57: zero distances, lower bounds, time reversal, concatenation
-/

namespace DTW
open F64

variable {A : Arith} {a a' a1 a2 : Args} {n m : Nat} {ℓ ℓ' : Nat → Nat → ℚ} {W W' : Nat → Nat → Bool}
  {p : StepPattern} {rs : List Rule} {r r' : Result} {wt : Move → ℚ}

/-! ### The patterns made of elementary moves -/

/-- The bundled patterns whose rules are the three elementary moves, with their weights. -/
theorem elementary_bundled (x : String × StepPattern) (hx : x ∈ Pat.table)
    (hs : x.1 ∈ ["symmetric1", "symmetric2", "symmetricP0", "asymmetricP0"]) :
    ∃ wt : Move → ℚ, Elementary (rulesOf x.2) wt ∧ 1 ≤ wt .both ∧ 1 ≤ wt .query ∧ 0 ≤ wt .ref ∧
      (x.1 ≠ "asymmetricP0" → 1 ≤ wt .ref) := by
  have key : (Pat.table.all fun x => decide (x.1 ∉ ["symmetric1", "symmetric2", "symmetricP0", "asymmetricP0"]) ||
      decide (∃ w1 ∈ [(1 : ℚ), 2], ∃ w2 ∈ [(1 : ℚ), 0],
        (∀ r ∈ rulesOf x.2, r = ⟨1, 1, [⟨0, 0, w1⟩]⟩ ∨ r = ⟨0, 1, [⟨0, 0, w2⟩]⟩ ∨ r = ⟨1, 0, [⟨0, 0, 1⟩]⟩) ∧
        ⟨1, 1, [⟨0, 0, w1⟩]⟩ ∈ rulesOf x.2 ∧ ⟨0, 1, [⟨0, 0, w2⟩]⟩ ∈ rulesOf x.2 ∧
        ⟨1, 0, [⟨0, 0, 1⟩]⟩ ∈ rulesOf x.2 ∧ (x.1 ≠ "asymmetricP0" → w2 = 1))) = true := by decide +kernel
  have h1 := List.all_eq_true.1 key x hx
  rw [Bool.or_eq_true, decide_eq_true_eq, decide_eq_true_eq] at h1
  obtain ⟨w1, hw1, w2, hw2, h2, h3, h4, h5, h6⟩ := h1.resolve_left (fun hc => hc hs)
  refine ⟨fun x => match x with | .both => w1 | .ref => w2 | .query => 1, ⟨?_, ?_⟩, ?_, le_rfl, ?_, ?_⟩
  · intro r hr
    rcases h2 r hr with rfl | rfl | rfl
    · exact ⟨.both, rfl⟩
    · exact ⟨.ref, rfl⟩
    · exact ⟨.query, rfl⟩
  · intro x; cases x
    · exact h3
    · exact h4
    · exact h5
  · simp only [List.mem_cons, List.not_mem_nil, or_false] at hw1
    rcases hw1 with rfl | rfl <;> norm_num
  · simp only [List.mem_cons, List.not_mem_nil, or_false] at hw2
    rcases hw2 with rfl | rfl <;> norm_num
  · intro hne; rw [h6 hne]

/-! ### C54: zero distances -/

/-- In any arithmetic, a curve all of whose points cost nothing is a path of cost 0. -/
theorem Elementary.zeroPath (hE : Elementary rs wt) (hw : NonnegWeights A rs) {L : Nat → Nat → F64} :
    ∀ w, (∀ u ∈ visited (0, 0) w, L u.1 u.2 = fin 0) → (∀ u ∈ (visited (0, 0) w).tail, W u.1 u.2 = true) →
      ∃ ks, WarpPath A rs W L ks (endOf (0, 0) w).1 (endOf (0, 0) w).2 (fin 0) := by
  intro w
  induction w using List.reverseRecOn with
  | nil =>
    intro h0 _
    refine ⟨[], ?_⟩
    have := WarpPath.start (A := A) (rs := rs) (W := W) (L := L)
    rw [show L 0 0 = fin 0 from h0 (0, 0) (by simp [visited])] at this
    exact this
  | append_singleton w x ih =>
    intro h0 hW
    have hmem : ∀ u, u ∈ visited (0, 0) w → u ∈ visited (0, 0) (w ++ [x]) := by
      intro u hu; rw [visited_append]; exact List.mem_append_left _ hu
    have hlast : endOf (0, 0) (w ++ [x]) ∈ (visited (0, 0) (w ++ [x])).tail := by
      rw [visited_snoc_tail]; exact List.mem_append_right _ (List.mem_singleton.2 rfl)
    obtain ⟨ks, hp⟩ := ih (fun u hu => h0 u (hmem u hu)) (fun u hu => hW u (by
      rw [visited_snoc_tail]; exact List.mem_append_left _ hu))
    obtain ⟨k, hk⟩ := List.mem_iff_getElem?.1 (hE.has x)
    have hend : endOf (0, 0) (w ++ [x]) =
        ((endOf (0, 0) w).1 + x.delta.1, (endOf (0, 0) w).2 + x.delta.2) := by
      rw [endOf_append]; rfl
    have hW' := hW _ hlast
    have h0' := h0 _ (List.mem_of_mem_tail hlast)
    rw [hend] at hW' h0' ⊢
    obtain ⟨w', hw', _⟩ := rnd_weight (A := A) (hw _ (hE.has x) ⟨0, 0, wt x⟩ (by simp))
    have hs := WarpPath.step k _ hp hk hW'
    have hch : charge A L ⟨x.delta.1, x.delta.2, [⟨0, 0, wt x⟩]⟩ ((endOf (0, 0) w).1 + x.delta.1)
        ((endOf (0, 0) w).2 + x.delta.2) (fin 0) = fin 0 := by
      simp only at h0' hw'
      simp only [charge, List.foldl_cons, List.foldl_nil, Nat.sub_zero, h0', hw']
      cases hf : A.fused <;> simp [Arith.mac, hf, Arith.mul, Arith.mulWith, A.rnd_zero, Arith.add]
    rw [hch] at hs
    exact ⟨_, hs⟩

/-- C54.  If some warping curve inside the window has only zero local costs, and local costs are not negative, then the
distance is exactly 0, in any arithmetic. -/
theorem C54_zero_of_zero_curve (x : String × StepPattern) (hx : x ∈ Pat.table)
    (hs : x.1 ∈ ["symmetric1", "symmetric2", "symmetricP0", "asymmetricP0"])
    (h : Problem a n m (fun i j => fin (ℓ i j)) W x.2 (rulesOf x.2)) (hob : a.openBegin = false)
    (hoe : a.openEnd = false) (hw : NonnegWeights A (rulesOf x.2)) (hl : ∀ i < n, ∀ j < m, 0 ≤ ℓ i j)
    {w : List Move} (hc : IsCurve W w (n - 1) (m - 1)) (h0 : ∀ u ∈ visited (0, 0) w, ℓ u.1 u.2 = 0) :
    ∃ r, dtw A a = .ok r ∧ r.distance = fin 0 := by
  obtain ⟨wt, hE, _⟩ := elementary_bundled x hx hs
  obtain ⟨ks, hp⟩ := hE.zeroPath (A := A) (W := W) (L := fun i j => fin (ℓ i j)) hw w
    (fun u hu => by simp only [h0 u hu]) hc.2
  rw [hc.1] at hp
  obtain ⟨r, hr⟩ := (C02_no_path_iff (A := A) h hob hoe).2.2 (.inl ⟨ks, _, hp, usable_fin 0⟩)
  refine ⟨r, hr, ?_⟩
  have h1 := (C01_distance_optimal h hob hoe hr).2 ks _ hp (by simp)
  have h2 := (C14_nonnegative h hob hw hl hr).1
  exact F64.le_antisymm h1 h2

theorem endOf_ge (w : List Move) (u : Nat × Nat) : u.1 ≤ (endOf u w).1 ∧ u.2 ≤ (endOf u w).2 := by
  induction w generalizing u with
  | nil => exact ⟨le_rfl, le_rfl⟩
  | cons x w ih =>
    have := ih (x.go u)
    simp only [Move.go] at this
    simp only [endOf, Move.go]
    omega

theorem visited_range (w : List Move) (u : Nat × Nat) : ∀ v ∈ visited u w,
    u.1 ≤ v.1 ∧ u.2 ≤ v.2 ∧ v.1 ≤ (endOf u w).1 ∧ v.2 ≤ (endOf u w).2 := by
  induction w generalizing u with
  | nil => intro v hv; simp only [visited, List.mem_singleton] at hv; subst hv; simp [endOf]
  | cons x w ih =>
    intro v hv
    simp only [visited, List.mem_cons] at hv
    have hg := endOf_ge w (x.go u)
    simp only [endOf]
    rcases hv with rfl | hv
    · simp only [Move.go] at *; omega
    · have := ih (x.go u) v hv
      simp only [Move.go] at *; omega

/-- C54, converse (exact arithmetic): with `symmetric1`, `symmetric2` a zero distance comes from a curve of zero
costs. -/
theorem C54_zero_curve_of_zero (x : String × StepPattern) (hx : x ∈ Pat.table)
    (hs : x.1 ∈ ["symmetric1", "symmetric2", "symmetricP0"])
    (h : Problem a n m (fun i j => fin (ℓ i j)) W x.2 (rulesOf x.2)) (hob : a.openBegin = false)
    (hoe : a.openEnd = false) (hl : ∀ i < n, ∀ j < m, 0 ≤ ℓ i j)
    (hr : dtw Arith.exact a = .ok r) (h0 : r.distance = fin 0) :
    ∃ w, IsCurve W w (n - 1) (m - 1) ∧ ∀ u ∈ visited (0, 0) w, ℓ u.1 u.2 = 0 := by
  have hn := h.n_pos
  have hm := h.m_pos
  have hs' : x.1 ∈ ["symmetric1", "symmetric2", "symmetricP0", "asymmetricP0"] := by
    simp only [List.mem_cons, List.not_mem_nil, or_false] at hs ⊢
    tauto
  obtain ⟨wt, hE, w1, w2, w3, w4⟩ := elementary_bundled x hx hs'
  have hne : x.1 ≠ "asymmetricP0" := by
    intro hc; rw [hc] at hs; exact absurd hs (by decide)
  have hpos : ∀ y : Move, 1 ≤ wt y := by
    intro y; cases y
    · exact w1
    · exact w4 hne
    · exact w2
  obtain ⟨d, hd, ⟨w, ⟨hl', he⟩, hc⟩, _⟩ := (hE.reads.least h hob hoe).2 r hr
  refine ⟨w, ⟨he, hl'⟩, ?_⟩
  rw [hd] at h0
  have hd0 : d = 0 := by simpa using h0
  -- costs along the curve are non-negative and sum to 0
  have key : ∀ (w : List Move) (u : Nat × Nat), (∀ v ∈ visited u w, 0 ≤ ℓ v.1 v.2) →
      0 ≤ moveCost wt ℓ u w ∧ (moveCost wt ℓ u w = 0 → ∀ v ∈ (visited u w).tail, ℓ v.1 v.2 = 0) := by
    intro w
    induction w with
    | nil => intro u _; exact ⟨by simp [moveCost], fun _ v hv => by simp [visited] at hv⟩
    | cons y w ih =>
      intro u hv
      have hih := ih (y.go u) (fun v hv' => hv v (List.mem_cons_of_mem _ hv'))
      obtain ⟨t, ht⟩ := visited_head (y.go u) w
      have h1 : 0 ≤ ℓ (y.go u).1 (y.go u).2 := hv _ (List.mem_cons_of_mem _ (by rw [ht]; simp))
      have h2 : 0 ≤ wt y * ℓ (y.go u).1 (y.go u).2 := mul_nonneg (by linarith [hpos y]) h1
      simp only [moveCost, visited, List.tail_cons]
      refine ⟨by linarith [hih.1], ?_⟩
      intro hsum v hv'
      have e1 : wt y * ℓ (y.go u).1 (y.go u).2 = 0 := by linarith [hih.1]
      have e2 : moveCost wt ℓ (y.go u) w = 0 := by linarith [hih.1]
      rw [ht] at hv'
      rcases List.mem_cons.1 hv' with rfl | hv'
      · rcases mul_eq_zero.1 e1 with e | e
        · linarith [hpos y]
        · exact e
      · exact hih.2 e2 v (by rw [ht]; exact hv')
  have hrange : ∀ v ∈ visited (0, 0) w, 0 ≤ ℓ v.1 v.2 := by
    intro v hv
    have := visited_range w (0, 0) v hv
    rw [he] at this
    exact hl _ (by omega) _ (by omega)
  obtain ⟨k1, k2⟩ := key w (0, 0) hrange
  obtain ⟨t, ht⟩ := visited_head (0, 0) w
  have h00 : 0 ≤ ℓ 0 0 := hrange (0, 0) (by rw [ht]; simp)
  have e0 : ℓ 0 0 = 0 := by linarith
  have e1 : moveCost wt ℓ (0, 0) w = 0 := by linarith
  intro u hu
  rw [ht] at hu
  rcases List.mem_cons.1 hu with rfl | hu
  · exact e0
  · exact k2 e1 u (by rw [ht]; exact hu)

/-- The curve that matches reference element `j` to query element `g j`. -/
def stretchWord (g : Nat → Nat) (j : Nat) : List Move :=
  (List.range j).map fun t => if g (t + 1) = g t then .ref else .both

theorem stretchWord_facts {g : Nat → Nat} (h0 : g 0 = 0) : ∀ j,
    (∀ t < j, g (t + 1) = g t ∨ g (t + 1) = g t + 1) →
    endOf (0, 0) (stretchWord g j) = (g j, j) ∧
    visited (0, 0) (stretchWord g j) = (List.range (j + 1)).map fun t => (g t, t) := by
  intro j
  induction j with
  | zero => intro _; simp [stretchWord, endOf, visited, h0]
  | succ j ih =>
    intro hg
    obtain ⟨e1, e2⟩ := ih fun t ht => hg t (by omega)
    have e : stretchWord g (j + 1) = stretchWord g j ++ [if g (j + 1) = g j then .ref else .both] := by
      simp [stretchWord, List.range_succ]
    have hgo : (if g (j + 1) = g j then Move.ref else .both).go (g j, j) = (g (j + 1), j + 1) := by
      rcases hg j (by omega) with hj | hj
      · rw [if_pos hj, hj]; rfl
      · rw [if_neg (by omega), hj]; rfl
    constructor
    · rw [e, endOf_append, e1]; exact hgo
    · rw [e, visited_append, e1, e2, List.range_succ (n := j + 1), List.map_append]
      simp only [visited, List.tail_cons, hgo, List.map_cons, List.map_nil]

/-- C54.  A time-stretched copy is at distance exactly 0: if reference element `j` is at local distance 0 from query
element `g j`, where `g` starts at the first and ends at the last query element and advances by 0 or 1, then the
distance (no window) is 0, in any arithmetic. -/
theorem C54_stretched_copy (x : String × StepPattern) (hx : x ∈ Pat.table)
    (hs : x.1 ∈ ["symmetric1", "symmetric2", "symmetricP0", "asymmetricP0"])
    (h : Problem a n m (fun i j => fin (ℓ i j)) (fun _ _ => true) x.2 (rulesOf x.2)) (hob : a.openBegin = false)
    (hoe : a.openEnd = false) (hw : NonnegWeights A (rulesOf x.2)) (hl : ∀ i < n, ∀ j < m, 0 ≤ ℓ i j)
    {g : Nat → Nat} (g0 : g 0 = 0) (g1 : g (m - 1) = n - 1)
    (hg : ∀ j, j + 1 < m → g (j + 1) = g j ∨ g (j + 1) = g j + 1) (hz : ∀ j < m, ℓ (g j) j = 0) :
    ∃ r, dtw A a = .ok r ∧ r.distance = fin 0 := by
  have hm := h.m_pos
  obtain ⟨e1, e2⟩ := stretchWord_facts g0 (m - 1) (fun t ht => hg t (by omega))
  refine C54_zero_of_zero_curve x hx hs h hob hoe hw hl (w := stretchWord g (m - 1)) ⟨by rw [e1, g1], fun _ _ => rfl⟩ ?_
  intro u hu
  rw [e2] at hu
  obtain ⟨t, ht, rfl⟩ := List.mem_map.1 hu
  exact hz t (by have := List.mem_range.1 ht; omega)

/-- Stretching `[0, 1, 5]` to `[0, 0, 1, 1, 1, 5]`. -/
example : (dtw Arith.exact { x := .d2 (Mat.ofFn 3 6 fun i j =>
      fin |(([0, 1, 5] : List ℚ)[i]?.getD 0) - (([0, 0, 1, 1, 1, 5] : List ℚ)[j]?.getD 0)|) }
    ).toOption.map (·.distance) = some (fin 0) := by decide +kernel

/-! ### C55: lower and upper bounds -/

/-- Sum of `f` over the indices `from, ..., to - 1`. -/
def sumFrom (f : Nat → ℚ) (i n : Nat) : ℚ := ((List.range (n - i)).map fun k => f (i + k)).sum

theorem sumFrom_self (f : Nat → ℚ) (i : Nat) : sumFrom f i i = 0 := by simp [sumFrom]

theorem sumFrom_head (f : Nat → ℚ) {i n : Nat} (h : i < n) : sumFrom f i n = f i + sumFrom f (i + 1) n := by
  unfold sumFrom
  obtain ⟨k, hk⟩ : ∃ k, n - i = k + 1 := ⟨n - i - 1, by omega⟩
  have hk' : n - (i + 1) = k := by omega
  rw [hk, hk', List.range_succ_eq_map]
  simp only [List.map_cons, List.map_map, List.sum_cons, Nat.add_zero]
  congr 2
  apply List.map_congr_left
  intro t _
  simp only [Function.comp_apply]
  congr 1; omega

/-- The points after the first of a curve pay at least the row bound of every query element consumed. -/
theorem moveCost_rows {lb : Nat → ℚ} (h1 : 1 ≤ wt .both) (h2 : 1 ≤ wt .query) (h3 : 0 ≤ wt .ref) :
    ∀ (w : List Move) (u : Nat × Nat), (∀ v ∈ visited u w, 0 ≤ ℓ v.1 v.2 ∧ lb v.1 ≤ ℓ v.1 v.2) →
      sumFrom lb (u.1 + 1) ((endOf u w).1 + 1) ≤ moveCost wt ℓ u w := by
  intro w
  induction w with
  | nil => intro u _; simp [endOf, sumFrom_self, moveCost]
  | cons y w ih =>
    intro u hv
    have hih := ih (y.go u) (fun v hv' => hv v (List.mem_cons_of_mem _ hv'))
    obtain ⟨t, ht⟩ := visited_head (y.go u) w
    obtain ⟨p1, p2⟩ := hv (y.go u) (List.mem_cons_of_mem _ (by rw [ht]; simp))
    have hge := (endOf_ge w (y.go u)).1
    simp only [endOf, moveCost]
    cases y with
    | both =>
      have e : (Move.both.go u).1 = u.1 + 1 := rfl
      rw [e] at hih hge
      rw [sumFrom_head lb (i := u.1 + 1) (by omega)]
      have : ℓ (Move.both.go u).1 (Move.both.go u).2 ≤ wt .both * ℓ (Move.both.go u).1 (Move.both.go u).2 :=
        le_mul_of_one_le_left p1 h1
      rw [e] at p2 this ⊢
      linarith
    | query =>
      have e : (Move.query.go u).1 = u.1 + 1 := rfl
      rw [e] at hih hge
      rw [sumFrom_head lb (i := u.1 + 1) (by omega)]
      have : ℓ (Move.query.go u).1 (Move.query.go u).2 ≤ wt .query * ℓ (Move.query.go u).1 (Move.query.go u).2 :=
        le_mul_of_one_le_left p1 h2
      rw [e] at p2 this ⊢
      linarith
    | ref =>
      have e : (Move.ref.go u).1 = u.1 := rfl
      rw [e] at hih
      have : 0 ≤ wt .ref * ℓ (Move.ref.go u).1 (Move.ref.go u).2 := mul_nonneg h3 p1
      linarith

/-- C55.  Row lower bound (the principle of LB_Keogh-style pruning): if `lb i` is a lower bound of the local costs of
row `i` inside the window (and of the starting cell), all of them non-negative, the distance is at least the sum of the
`lb i`. -/
theorem C55_row_bound (x : String × StepPattern) (hx : x ∈ Pat.table)
    (hs : x.1 ∈ ["symmetric1", "symmetric2", "symmetricP0", "asymmetricP0"])
    (h : Problem a n m (fun i j => fin (ℓ i j)) W x.2 (rulesOf x.2)) (hob : a.openBegin = false)
    (hoe : a.openEnd = false) (hl : ∀ i < n, ∀ j < m, 0 ≤ ℓ i j) {lb : Nat → ℚ}
    (hlb : ∀ i < n, ∀ j < m, W i j = true ∨ (i = 0 ∧ j = 0) → lb i ≤ ℓ i j) (hr : dtw Arith.exact a = .ok r) :
    ∃ d, r.distance = fin d ∧ ((List.range n).map lb).sum ≤ d := by
  have hn := h.n_pos
  have hm := h.m_pos
  obtain ⟨wt, hE, w1, w2, w3, _⟩ := elementary_bundled x hx hs
  obtain ⟨d, hd, ⟨w, ⟨hWw, he⟩, hc⟩, _⟩ := (hE.reads.least h hob hoe).2 r hr
  refine ⟨d, hd, ?_⟩
  have hv : ∀ v ∈ visited (0, 0) w, 0 ≤ ℓ v.1 v.2 ∧ lb v.1 ≤ ℓ v.1 v.2 := by
    intro v hv
    have := visited_range w (0, 0) v hv
    rw [he] at this
    refine ⟨hl _ (by omega) _ (by omega), hlb _ (by omega) _ (by omega) ?_⟩
    obtain ⟨t, ht⟩ := visited_head (0, 0) w
    rw [ht] at hv hWw
    rcases List.mem_cons.1 hv with rfl | hv
    · exact .inr ⟨rfl, rfl⟩
    · exact .inl (hWw v hv)
  have hk := moveCost_rows w1 w2 w3 w (0, 0) hv
  rw [he] at hk
  have e : ((List.range n).map lb).sum = lb 0 + sumFrom lb (0 + 1) (n - 1 + 1) := by
    have : ((List.range n).map lb).sum = sumFrom lb 0 n := by simp [sumFrom]
    rw [this, sumFrom_head lb hn, show n - 1 + 1 = n by omega]
  rw [e, hc]
  have := hlb 0 hn 0 hm (.inr ⟨rfl, rfl⟩)
  linarith

/-- C55, for patterns that match every query element once (`asymmetric`, `rigid`, mvm): no sign assumption needed. -/
theorem C55_row_bound_fn {jump : Nat → Nat → Prop} (hF : FnRules rs jump) (hmono : ∀ j j', jump j j' → j ≤ j')
    (h : Problem a n m (fun i j => fin (ℓ i j)) W p rs) (hob : a.openBegin = false)
    (hoe : a.openEnd = false) {lb : Nat → ℚ}
    (hlb : ∀ i < n, ∀ j < m, W i j = true ∨ (i = 0 ∧ j = 0) → lb i ≤ ℓ i j) (hr : dtw Arith.exact a = .ok r) :
    ∃ d, r.distance = fin d ∧ ((List.range n).map lb).sum ≤ d := by
  have hn := h.n_pos
  have hm := h.m_pos
  obtain ⟨d, hd, ⟨f, hf, rfl⟩, _⟩ := (hF.computes h hob hoe).2 r hr
  refine ⟨_, hd, ?_⟩
  have hle : ∀ k i, i + k = n - 1 → f i ≤ m - 1 := by
    intro k
    induction k with
    | zero => intro i hi; rw [← hf.last]; simp only [Nat.add_zero] at hi; rw [hi]
    | succ k ih => intro i hi; exact (hmono _ _ (hf.jumps i (by omega))).trans (ih (i + 1) (by omega))
  unfold fnCost
  have : ∀ k ≤ n, ((List.range k).map lb).sum ≤ ((List.range k).map fun i => ℓ i (f i)).sum := by
    intro k
    induction k with
    | zero => intro _; simp
    | succ k ih =>
      intro hk
      rw [List.range_succ, List.map_append, List.map_append, List.sum_append, List.sum_append]
      have h1 := ih (by omega)
      have h2 := hlb k (by omega) (f k) (by have := hle (n - 1 - k) k (by omega); omega) (by
        cases k with
        | zero => exact .inr ⟨rfl, hf.first⟩
        | succ k => exact .inl (hf.window k (by omega)))
      simp only [List.map_cons, List.map_nil, List.sum_cons, List.sum_nil]
      linarith
  exact this n le_rfl

/-- C55.  Both end points are always paid: with a non-negative matrix that is not 1 × 1, the distance is at least the
sum of the local costs of the two corners. -/
theorem C55_corner_bound (x : String × StepPattern) (hx : x ∈ Pat.table)
    (hs : x.1 ∈ ["symmetric1", "symmetric2", "symmetricP0"])
    (h : Problem a n m (fun i j => fin (ℓ i j)) W x.2 (rulesOf x.2)) (hob : a.openBegin = false)
    (hoe : a.openEnd = false) (hl : ∀ i < n, ∀ j < m, 0 ≤ ℓ i j) (hbig : 1 < n ∨ 1 < m)
    (hr : dtw Arith.exact a = .ok r) :
    ∃ d, r.distance = fin d ∧ ℓ 0 0 + ℓ (n - 1) (m - 1) ≤ d := by
  have hn := h.n_pos
  have hm := h.m_pos
  have hs' : x.1 ∈ ["symmetric1", "symmetric2", "symmetricP0", "asymmetricP0"] := by
    simp only [List.mem_cons, List.not_mem_nil, or_false] at hs ⊢
    tauto
  obtain ⟨wt, hE, w1, w2, w3, w4⟩ := elementary_bundled x hx hs'
  have hne : x.1 ≠ "asymmetricP0" := by
    intro hc; rw [hc] at hs; exact absurd hs (by decide)
  have hpos : ∀ y : Move, 1 ≤ wt y := by
    intro y; cases y
    · exact w1
    · exact w4 hne
    · exact w2
  obtain ⟨d, hd, ⟨w, ⟨_, he⟩, hc⟩, _⟩ := (hE.reads.least h hob hoe).2 r hr
  refine ⟨d, hd, ?_⟩
  rcases List.eq_nil_or_concat w with rfl | ⟨w', y, rfl⟩
  · simp only [endOf, Prod.mk.injEq] at he; omega
  rw [List.concat_eq_append] at *
  have hend : y.go (endOf (0, 0) w') = (n - 1, m - 1) := by rw [← he, endOf_append]; rfl
  have hnn : ∀ (w : List Move) (u : Nat × Nat), (∀ v ∈ visited u w, 0 ≤ ℓ v.1 v.2) → 0 ≤ moveCost wt ℓ u w := by
    intro w
    induction w with
    | nil => intro u _; simp [moveCost]
    | cons y w ih =>
      intro u hv
      have hih := ih (y.go u) (fun v hv' => hv v (List.mem_cons_of_mem _ hv'))
      obtain ⟨t, ht⟩ := visited_head (y.go u) w
      have h1 : 0 ≤ ℓ (y.go u).1 (y.go u).2 := hv _ (List.mem_cons_of_mem _ (by rw [ht]; simp))
      have h2 : 0 ≤ wt y * ℓ (y.go u).1 (y.go u).2 := mul_nonneg (by linarith [hpos y]) h1
      simp only [moveCost]; linarith
  have h1 := hnn w' (0, 0) (by
    intro v hv
    have := visited_range (w' ++ [y]) (0, 0) v (by rw [visited_append]; exact List.mem_append_left _ hv)
    rw [he] at this
    exact hl _ (by omega) _ (by omega))
  rw [moveCost_append] at hc
  simp only [moveCost, hend] at hc
  have h2 : ℓ (n - 1) (m - 1) ≤ wt y * ℓ (n - 1) (m - 1) :=
    le_mul_of_one_le_left (hl _ (by omega) _ (by omega)) (hpos y)
  rw [hc]; linarith

/-- C55.  Upper bound: for series of equal length (no window), the distance with `symmetric1` is at most the lock-step
sum along the diagonal. -/
theorem C55_diagonal_bound
    (h : Problem a n n (fun i j => fin (ℓ i j)) W Pat.symmetric1 (rulesOf Pat.symmetric1))
    (hob : a.openBegin = false) (hoe : a.openEnd = false) (hW : ∀ i < n, W i i = true) :
    ∃ r d, dtw Arith.exact a = .ok r ∧ r.distance = fin d ∧ d ≤ ((List.range n).map fun i => ℓ i i).sum := by
  have hn := h.n_pos
  have hd : ∀ k, endOf (0, 0) (List.replicate k Move.both) = (k, k) ∧
      visited (0, 0) (List.replicate k Move.both) = (List.range (k + 1)).map fun t => (t, t) := by
    intro k
    induction k with
    | zero => exact ⟨rfl, by simp [visited]⟩
    | succ k ih =>
      rw [List.replicate_succ']
      refine ⟨by rw [endOf_append, ih.1]; rfl, ?_⟩
      rw [visited_append, ih.1, ih.2, List.range_succ (n := k + 1), List.map_append]
      rfl
  obtain ⟨h1, h2⟩ := C53_symmetric1 h hob hoe
  have hcur : IsCurve W (List.replicate (n - 1) Move.both) (n - 1) (n - 1) := by
    refine ⟨(hd _).1, ?_⟩
    rw [(hd _).2]
    intro u hu
    obtain ⟨t, ht, rfl⟩ := List.mem_map.1 (List.mem_of_mem_tail hu)
    exact hW t (by have := List.mem_range.1 ht; omega)
  obtain ⟨r, hr⟩ := h1.2 ⟨_, hcur⟩
  obtain ⟨d, hd', _, hmin⟩ := h2 r hr
  refine ⟨r, d, hr, hd', ?_⟩
  have := hmin ⟨_, hcur, rfl⟩
  unfold plainCost at this
  rw [(hd _).2, List.map_map, show n - 1 + 1 = n by omega] at this
  exact this

/-- The bounds on a 2 × 2 matrix: distance 4, against the sum 3 of the row minima. -/
example : (dtw Arith.exact { x := .d2 (Mat.ofFn 2 2 fun i j => fin (1 + i + j)), stepPattern := .name "symmetric1" }
    ).toOption.map (·.distance) = some (fin 4) ∧ ((List.range 2).map fun i => (1 + i : ℚ)).sum = 3 := by
  decide +kernel

/-! ### C56: time reversal -/

theorem visited_reverse (w : List Move) (u : Nat × Nat) :
    endOf (0, 0) w.reverse = ((endOf u w).1 - u.1, (endOf u w).2 - u.2) ∧
    visited (0, 0) w.reverse = (visited u w).reverse.map fun v => ((endOf u w).1 - v.1, (endOf u w).2 - v.2) := by
  induction w generalizing u with
  | nil => simp [endOf, visited]
  | cons x w ih =>
    obtain ⟨h1, h2⟩ := ih (x.go u)
    have hge := endOf_ge w (x.go u)
    have hgo : x.go ((endOf (x.go u) w).1 - (x.go u).1, (endOf (x.go u) w).2 - (x.go u).2) =
        ((endOf (x.go u) w).1 - u.1, (endOf (x.go u) w).2 - u.2) := by
      simp only [Move.go] at *
      refine Prod.ext ?_ ?_ <;> simp only <;> omega
    rw [List.reverse_cons]
    constructor
    · rw [endOf_append, h1]; exact hgo
    · rw [visited_append, h1, h2]
      simp only [visited, List.tail_cons, endOf, List.reverse_cons, List.map_append, List.map_cons, List.map_nil, hgo]

/-- Reversing a curve. -/
theorem IsCurve.reverse {w : List Move} (h : IsCurve W w (n - 1) (m - 1)) (hm : 0 < n) (hn : 0 < m)
    (h00 : W 0 0 = true) (hW' : ∀ i < n, ∀ j < m, W' i j = W (n - 1 - i) (m - 1 - j)) :
    IsCurve W' w.reverse (n - 1) (m - 1) ∧
      ∀ ℓ ℓ' : Nat → Nat → ℚ, (∀ i < n, ∀ j < m, ℓ' i j = ℓ (n - 1 - i) (m - 1 - j)) →
        plainCost ℓ' w.reverse = plainCost ℓ w := by
  obtain ⟨h1, h2⟩ := visited_reverse w (0, 0)
  rw [h.1] at h1 h2
  simp only [Nat.sub_zero] at h1 h2
  have hr := visited_range w (0, 0)
  rw [h.1] at hr
  constructor
  · refine ⟨h1, ?_⟩
    intro u hu
    have hu := List.mem_of_mem_tail hu
    rw [h2] at hu
    obtain ⟨v, hv, rfl⟩ := List.mem_map.1 hu
    rw [List.mem_reverse] at hv
    have := hr v hv
    rw [hW' _ (by simp only; omega) _ (by simp only; omega)]
    simp only at this ⊢
    rw [show n - 1 - (n - 1 - v.1) = v.1 by omega, show m - 1 - (m - 1 - v.2) = v.2 by omega]
    obtain ⟨t, ht⟩ := visited_head (0, 0) w
    rw [ht] at hv
    rcases List.mem_cons.1 hv with rfl | hv
    · exact h00
    · exact h.2 v (by rw [ht]; exact hv)
  · intro ℓ ℓ' hℓ
    unfold plainCost
    rw [h2, List.map_map, List.map_reverse, List.sum_reverse]
    congr 1
    apply List.map_congr_left
    intro v hv
    have := hr v hv
    simp only [Function.comp_apply] at *
    rw [hℓ _ (by omega) _ (by omega), show n - 1 - (n - 1 - v.1) = v.1 by omega,
      show m - 1 - (m - 1 - v.2) = v.2 by omega]

/-- C56.  With `symmetric1`, reversing both series in time (that is, both axes of the local cost matrix, and of the
window, which must contain both corners) changes neither success nor the distance. -/
theorem C56_time_reversal
    (h : Problem a n m (fun i j => fin (ℓ i j)) W Pat.symmetric1 (rulesOf Pat.symmetric1))
    (h' : Problem a' n m (fun i j => fin (ℓ' i j)) W' Pat.symmetric1 (rulesOf Pat.symmetric1))
    (hob : a.openBegin = false) (hoe : a.openEnd = false) (hob' : a'.openBegin = false) (hoe' : a'.openEnd = false)
    (h00 : W 0 0 = true) (h11 : W (n - 1) (m - 1) = true)
    (hℓ : ∀ i < n, ∀ j < m, ℓ' i j = ℓ (n - 1 - i) (m - 1 - j))
    (hW : ∀ i < n, ∀ j < m, W' i j = W (n - 1 - i) (m - 1 - j)) :
    ((∃ r, dtw Arith.exact a = .ok r) ↔ ∃ r', dtw Arith.exact a' = .ok r') ∧
    ∀ r r', dtw Arith.exact a = .ok r → dtw Arith.exact a' = .ok r' → r'.distance = r.distance := by
  have hn := h.n_pos
  have hm := h.m_pos
  obtain ⟨h1, h2⟩ := C53_symmetric1 h hob hoe
  obtain ⟨h1', h2'⟩ := C53_symmetric1 h' hob' hoe'
  have hℓ' : ∀ i < n, ∀ j < m, ℓ i j = ℓ' (n - 1 - i) (m - 1 - j) := by
    intro i hi j hj
    rw [hℓ _ (by omega) _ (by omega), show n - 1 - (n - 1 - i) = i by omega, show m - 1 - (m - 1 - j) = j by omega]
  have hW' : ∀ i < n, ∀ j < m, W i j = W' (n - 1 - i) (m - 1 - j) := by
    intro i hi j hj
    rw [hW _ (by omega) _ (by omega), show n - 1 - (n - 1 - i) = i by omega, show m - 1 - (m - 1 - j) = j by omega]
  have h00' : W' 0 0 = true := by rw [hW 0 hn 0 hm]; exact h11
  constructor
  · rw [h1, h1']
    exact ⟨fun ⟨w, hw⟩ => ⟨_, (hw.reverse hn hm h00 hW).1⟩, fun ⟨w, hw⟩ => ⟨_, (hw.reverse hn hm h00' hW').1⟩⟩
  · intro r r' hr hr'
    obtain ⟨d, hd, ⟨w, hw, rfl⟩, hmin⟩ := h2 r hr
    obtain ⟨d', hd', ⟨w', hw', rfl⟩, hmin'⟩ := h2' r' hr'
    obtain ⟨c1, c2⟩ := hw.reverse hn hm h00 hW
    obtain ⟨c1', c2'⟩ := hw'.reverse hn hm h00' hW'
    have a1 := hmin' ⟨_, c1, rfl⟩
    have a2 := hmin ⟨_, c1', rfl⟩
    rw [c2 ℓ ℓ' hℓ] at a1
    rw [c2' ℓ' ℓ hℓ'] at a2
    rw [hd, hd', _root_.le_antisymm a1 a2]

/-- C56, for patterns that match every query element once (`asymmetric`, `rigid`, mvm). -/
theorem C56_time_reversal_fn {jump : Nat → Nat → Prop} (hF : FnRules rs jump) (hmono : ∀ j j', jump j j' → j ≤ j')
    (hflip : ∀ j j' k, jump j j' → j' ≤ k → jump (k - j') (k - j))
    (h : Problem a n m (fun i j => fin (ℓ i j)) W p rs) (h' : Problem a' n m (fun i j => fin (ℓ' i j)) W' p rs)
    (hob : a.openBegin = false) (hoe : a.openEnd = false) (hob' : a'.openBegin = false) (hoe' : a'.openEnd = false)
    (h00 : W 0 0 = true) (h11 : W (n - 1) (m - 1) = true)
    (hℓ : ∀ i < n, ∀ j < m, ℓ' i j = ℓ (n - 1 - i) (m - 1 - j))
    (hW : ∀ i < n, ∀ j < m, W' i j = W (n - 1 - i) (m - 1 - j)) :
    ((∃ r, dtw Arith.exact a = .ok r) ↔ ∃ r', dtw Arith.exact a' = .ok r') ∧
    ∀ r r', dtw Arith.exact a = .ok r → dtw Arith.exact a' = .ok r' → r'.distance = r.distance := by
  have hn := h.n_pos
  have hm := h.m_pos
  obtain ⟨h1, h2⟩ := hF.computes h hob hoe
  obtain ⟨h1', h2'⟩ := hF.computes h' hob' hoe'
  have hℓ' : ∀ i < n, ∀ j < m, ℓ i j = ℓ' (n - 1 - i) (m - 1 - j) := by
    intro i hi j hj
    rw [hℓ _ (by omega) _ (by omega), show n - 1 - (n - 1 - i) = i by omega, show m - 1 - (m - 1 - j) = j by omega]
  have hW' : ∀ i < n, ∀ j < m, W i j = W' (n - 1 - i) (m - 1 - j) := by
    intro i hi j hj
    rw [hW _ (by omega) _ (by omega), show n - 1 - (n - 1 - i) = i by omega, show m - 1 - (m - 1 - j) = j by omega]
  have h00' : W' 0 0 = true := by rw [hW 0 hn 0 hm]; exact h11
  have flip : ∀ {W W' : Nat → Nat → Bool} {ℓ ℓ' : Nat → Nat → ℚ} {f}, W 0 0 = true →
      (∀ i < n, ∀ j < m, W' i j = W (n - 1 - i) (m - 1 - j)) →
      (∀ i < n, ∀ j < m, ℓ' i j = ℓ (n - 1 - i) (m - 1 - j)) → IsWarpFn jump W n (m - 1) f →
      IsWarpFn jump W' n (m - 1) (fun i => m - 1 - f (n - 1 - i)) ∧
        fnCost ℓ' n (fun i => m - 1 - f (n - 1 - i)) = fnCost ℓ n f := by
    intro W W' ℓ ℓ' f h00 hW hℓ hf
    have hle : ∀ k i, i + k = n - 1 → f i ≤ m - 1 := by
      intro k
      induction k with
      | zero => intro i hi; rw [← hf.last]; simp only [Nat.add_zero] at hi; rw [hi]
      | succ k ih => intro i hi; exact (hmono _ _ (hf.jumps i (by omega))).trans (ih (i + 1) (by omega))
    have hle' : ∀ i < n, f i ≤ m - 1 := fun i hi => hle (n - 1 - i) i (by omega)
    refine ⟨⟨?_, ?_, ?_, ?_⟩, ?_⟩
    · simp only [Nat.sub_zero, hf.last, Nat.sub_self]
    · simp only [Nat.sub_self, hf.first, Nat.sub_zero]
    · intro i hi
      have hj := hf.jumps (n - 1 - (i + 1)) (by omega)
      rw [show n - 1 - (i + 1) + 1 = n - 1 - i by omega] at hj
      exact hflip _ _ _ hj (hle' _ (by omega))
    · intro i hi
      have h1 := hle' (n - 1 - (i + 1)) (by omega)
      rw [hW _ hi _ (by omega), show m - 1 - (m - 1 - f (n - 1 - (i + 1))) = f (n - 1 - (i + 1)) by omega]
      rcases Nat.eq_zero_or_pos (n - 1 - (i + 1)) with h0 | h0
      · rw [h0, hf.first]; exact h00
      · have := hf.window (n - 1 - (i + 1) - 1) (by omega)
        rwa [show n - 1 - (i + 1) - 1 + 1 = n - 1 - (i + 1) by omega] at this
    · unfold fnCost
      rw [← List.sum_reverse, ← List.map_reverse]
      have hrev : (List.range n).reverse = (List.range n).map fun i => n - 1 - i := by
        apply List.ext_getElem
        · simp
        · intro k h1 h2
          simp
      rw [hrev, List.map_map]
      congr 1
      apply List.map_congr_left
      intro i hi
      have hi := List.mem_range.1 hi
      have h1 := hle' i hi
      simp only [Function.comp_apply]
      rw [show n - 1 - (n - 1 - i) = i by omega, hℓ _ (by omega) _ (by omega),
        show n - 1 - (n - 1 - i) = i by omega, show m - 1 - (m - 1 - f i) = f i by omega]
  constructor
  · rw [h1, h1']
    exact ⟨fun ⟨f, hf⟩ => ⟨_, (flip h00 hW hℓ hf).1⟩, fun ⟨f, hf⟩ => ⟨_, (flip h00' hW' hℓ' hf).1⟩⟩
  · intro r r' hr hr'
    obtain ⟨d, hd, ⟨f, hf, rfl⟩, hmin⟩ := h2 r hr
    obtain ⟨d', hd', ⟨f', hf', rfl⟩, hmin'⟩ := h2' r' hr'
    obtain ⟨c1, c2⟩ := flip h00 hW hℓ hf
    obtain ⟨c1', c2'⟩ := flip h00' hW' hℓ' hf'
    have a1 := hmin' ⟨_, c1, rfl⟩
    have a2 := hmin ⟨_, c1', rfl⟩
    rw [c2] at a1
    rw [c2'] at a2
    rw [hd, hd', _root_.le_antisymm a1 a2]

/-- C56: the conditions of the previous theorem for `asymmetric`, minimum variance matching and `rigid`. -/
theorem C56_fn_patterns :
    (FnRules (rulesOf Pat.asymmetric) (fun j j' => j ≤ j' ∧ j' ≤ j + 2) ∧
      ∀ j j' k : Nat, (j ≤ j' ∧ j' ≤ j + 2) → j' ≤ k → (k - j' ≤ k - j ∧ k - j ≤ k - j' + 2)) ∧
    (∀ e, FnRules (mvmRules e) (fun j j' => j < j' ∧ j' ≤ j + e) ∧
      ∀ j j' k : Nat, (j < j' ∧ j' ≤ j + e) → j' ≤ k → (k - j' < k - j ∧ k - j ≤ k - j' + e)) ∧
    (FnRules (rulesOf Pat.rigid) (fun j j' => j' = j + 1) ∧
      ∀ j j' k : Nat, j' = j + 1 → j' ≤ k → k - j = k - j' + 1) :=
  ⟨⟨asymmetric_fnRules, by omega⟩, fun e => ⟨mvm_fnRules e, by omega⟩, rigid_fnRules, by omega⟩

/-- C56, negative witness: `symmetric2`, the default, is not invariant under time reversal, because the first point is
charged once and a diagonal move charges the point it reaches twice. -/
theorem C56_symmetric2_not_reversible :
    (dtw Arith.exact { x := .d2 (Mat.ofFn 2 2 fun i j => fin (if i = 0 ∧ j = 0 then 1 else if i = 1 ∧ j = 1 then 0 else 2)) }
      ).toOption.map (·.distance) = some (fin 1) ∧
    (dtw Arith.exact { x := .d2 (Mat.ofFn 2 2 fun i j => fin (if i = 0 ∧ j = 0 then 0 else if i = 1 ∧ j = 1 then 1 else 2)) }
      ).toOption.map (·.distance) = some (fin 2) := by decide +kernel

/-! ### C57: concatenation; DTW is not a metric -/

theorem moveCost_shift {n1 m1 : Nat} (hs : ∀ i j, ℓ (n1 + i) (m1 + j) = ℓ' i j) (w : List Move) (u : Nat × Nat) :
    moveCost wt ℓ (n1 + u.1, m1 + u.2) w = moveCost wt ℓ' u w := by
  induction w generalizing u with
  | nil => rfl
  | cons x w ih =>
    have e : x.go (n1 + u.1, m1 + u.2) = (n1 + (x.go u).1, m1 + (x.go u).2) := by
      simp only [Move.go]; refine Prod.ext ?_ ?_ <;> simp only <;> omega
    simp only [moveCost, e, ih, hs]

theorem moveCost_congr (w : List Move) (u : Nat × Nat)
    (h : ∀ v ∈ visited u w, ℓ v.1 v.2 = ℓ' v.1 v.2) : moveCost wt ℓ u w = moveCost wt ℓ' u w := by
  induction w generalizing u with
  | nil => rfl
  | cons x w ih =>
    obtain ⟨t, ht⟩ := visited_head (x.go u) w
    have h1 := h (x.go u) (List.mem_cons_of_mem _ (by rw [ht]; simp))
    simp only [moveCost, h1, ih (x.go u) fun v hv => h v (List.mem_cons_of_mem _ hv)]

theorem endOf_shift {n1 m1 : Nat} (w : List Move) (u : Nat × Nat) :
    endOf (n1 + u.1, m1 + u.2) w = (n1 + (endOf u w).1, m1 + (endOf u w).2) := by
  induction w generalizing u with
  | nil => rfl
  | cons x w ih =>
    have e : x.go (n1 + u.1, m1 + u.2) = (n1 + (x.go u).1, m1 + (x.go u).2) := by
      simp only [Move.go]; refine Prod.ext ?_ ?_ <;> simp only <;> omega
    simp only [endOf, e, ih]

/-- The absolute-difference local costs of two series given as lists of rationals. -/
def absCost (x y : List ℚ) : Nat → Nat → ℚ := fun i j => |(x[i]?.getD 0) - (y[j]?.getD 0)|

/-- `dtw(x, y)` through the absolute-difference matrix, with the step pattern called `s`. -/
def absCall (x y : List ℚ) (s : String) : Args :=
  { x := .d2 (Mat.ofFn x.length y.length fun i j => fin (absCost x y i j)), stepPattern := .name s }

/-- C57, negative witness: the distance is not a metric.  Different series can be at distance 0, and the triangle
inequality fails, for both well-known patterns. -/
theorem C57_not_a_metric :
    (dtw Arith.exact (absCall [0, 1] [0, 0, 1] "symmetric2")).toOption.map (·.distance) = some (fin 0) ∧
    (∀ s ∈ ["symmetric1", "symmetric2"], ∃ x y z dxy dyz dxz,
      (dtw Arith.exact (absCall x y s)).toOption.map (·.distance) = some (fin dxy) ∧
      (dtw Arith.exact (absCall y z s)).toOption.map (·.distance) = some (fin dyz) ∧
      (dtw Arith.exact (absCall x z s)).toOption.map (·.distance) = some (fin dxz) ∧ dxy + dyz < dxz) := by
  refine ⟨by decide +kernel, ?_⟩
  intro s hs
  simp only [List.mem_cons, List.not_mem_nil, or_false] at hs
  rcases hs with rfl | rfl
  · exact ⟨[0, 1, 1, 2], [0, 1, 2], [0, 2, 2], 0, 1, 2, by decide +kernel, by decide +kernel, by decide +kernel,
      by norm_num⟩
  · exact ⟨[0, 1, 1, 1, 2], [0, 1, 2], [0, 2, 2], 0, 1, 3, by decide +kernel, by decide +kernel, by decide +kernel,
      by norm_num⟩

example : (dtw Arith.exact (absCall [0, 1, 3] [0, 2, 3, 3] "symmetric1")).toOption.map (·.distance) = some (fin 1) ∧
    (dtw Arith.exact (absCall [2] [1, 1] "symmetric1")).toOption.map (·.distance) = some (fin 2) ∧
    (dtw Arith.exact (absCall [0, 1, 3, 2] [0, 2, 3, 3, 1, 1] "symmetric1")).toOption.map (·.distance) =
      some (fin 3) := by decide +kernel

end DTW
