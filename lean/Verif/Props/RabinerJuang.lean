import Verif.Props.Patterns

/-!
# C52: the Rabiner-Juang table of slope weightings
-/

namespace DTW
open F64

/-- The documented slope weighting of one elementary step `(Di, Dj)`: (a) min step, (b) max step, (c) `Di` step,
(d) `Di + Dj` step. -/
def slopeWeight (s : String) (d : Int × Int) : ℚ :=
  if s = "a" then ((min d.1 d.2 : Int) : ℚ)
  else if s = "b" then ((max d.1 d.2 : Int) : ℚ)
  else if s = "c" then (d.1 : ℚ)
  else ((d.1 + d.2 : Int) : ℚ)

/-- The elementary steps of a rule: from its origin, through its charged cells in order. -/
def Rule.moves (r : Rule) : List (Int × Int) :=
  (((r.a : Int), (r.b : Int)) :: r.terms.map fun t => ((t.di : Int), (t.dj : Int))).zipWith
    (fun u v => (u.1 - v.1, u.2 - v.2)) (r.terms.map fun t => ((t.di : Int), (t.dj : Int)))

/-- The weights the documentation prescribes for a rule: those of its elementary steps or, when smoothed, their mean
repeated. -/
def Rule.documentedWeights (s : String) (smoothed : Bool) (r : Rule) : List ℚ :=
  let w := r.moves.map (slopeWeight s)
  if smoothed then List.replicate w.length (w.sum / w.length) else w

/-- The rule walks by non-negative steps and its last charged cell is the arrival cell. -/
def Rule.Walks (r : Rule) : Prop :=
  (r.terms.getLast?.map fun t => (t.di, t.dj)) = some (0, 0) ∧ ∀ d ∈ r.moves, 0 ≤ d.1 ∧ 0 ≤ d.2 ∧ d ≠ (0, 0)

instance (r : Rule) : Decidable r.Walks := inferInstanceAs (Decidable (_ ∧ _))

/-- The normalisation the documentation prescribes. -/
def documentedNorm (s : String) : String := if s = "c" then "N" else if s = "d" then "N+M" else "NA"

/-- The productions of the seven families in Rabiner-Juang's table 4.5: the elementary steps `(Di, Dj)` of each rule.
Type I has no local constraint; II and V walk by unit steps with slopes in [1/2, 2] and [1/3, 3]; III jumps; IV and VII
are the "one horizontal step after the other is not allowed" families that may skip reference elements; VI takes two
diagonal steps before a horizontal or vertical one. -/
def familyMoves : Int → List (List (Int × Int))
  | 1 => [[(1, 0)], [(1, 1)], [(0, 1)]]
  | 2 => [[(1, 1), (1, 0)], [(1, 1)], [(1, 1), (0, 1)]]
  | 3 => [[(2, 1)], [(1, 1)], [(1, 2)]]
  | 4 => [[(1, 1), (1, 0)], [(1, 2), (1, 0)], [(1, 1)], [(1, 2)]]
  | 5 => [[(1, 1), (1, 0), (1, 0)], [(1, 1), (1, 0)], [(1, 1)], [(1, 1), (0, 1)], [(1, 1), (0, 1), (0, 1)]]
  | 6 => [[(1, 1), (1, 1), (1, 0)], [(1, 1)], [(1, 1), (1, 1), (0, 1)]]
  | 7 => [[(1, 1), (1, 0), (1, 0)], [(1, 2), (1, 0), (1, 0)], [(1, 3), (1, 0), (1, 0)], [(1, 1), (1, 0)],
      [(1, 2), (1, 0)], [(1, 3), (1, 0)], [(1, 1)], [(1, 2)], [(1, 3)]]
  | _ => []

private def okCheck (t : Int) (s : String) (sm : Bool) : Bool :=
  match rabinerJuang t s sm with
  | .ok p => decide (p.hint = documentedNorm s) &&
      decide ((rulesOf p).map Rule.moves = familyMoves t) &&
      (rulesOf p).all (fun r => decide r.Walks && decide (r.terms.map (·.w) = r.documentedWeights s sm))
  | .error _ => false

/-- C52.  Every pattern the constructor returns has the documented normalisation, the productions of its family, and
every rule charges the cells along its walk with the documented weights. -/
theorem C52_table {t : Int} {s : String} {sm : Bool} {p : StepPattern} (h : rabinerJuang t s sm = .ok p) :
    p.hint = documentedNorm s ∧ (rulesOf p).map Rule.moves = familyMoves t ∧
    ∀ r ∈ rulesOf p, r.Walks ∧ r.terms.map (·.w) = r.documentedWeights s sm := by
  have hok : (1 ≤ t ∧ t ≤ 7) ∧ s ∈ ["a", "b", "c", "d"] := by
    by_contra hc
    have hc' : ¬ (1 ≤ t ∧ t ≤ 7) ∨ s ∉ ["a", "b", "c", "d"] := by
      by_contra hno
      rw [not_or, not_not, not_not] at hno
      exact hc hno
    obtain ⟨e, he⟩ := C32_C40_rabinerJuang_rejects t s sm hc'
    rw [he] at h; simp at h
  have key : ([1, 2, 3, 4, 5, 6, 7].all fun (t : Int) => ["a", "b", "c", "d"].all fun s =>
      [true, false].all fun sm => okCheck t s sm) = true := by decide +kernel
  have hmem : t ∈ ([1, 2, 3, 4, 5, 6, 7] : List Int) := by
    simp only [List.mem_cons, List.not_mem_nil, or_false]; omega
  have h1 := List.all_eq_true.1 (List.all_eq_true.1 (List.all_eq_true.1 key t hmem) s hok.2) sm
    (by cases sm <;> simp)
  unfold okCheck at h1
  rw [h] at h1
  simp only [Bool.and_eq_true, List.all_eq_true, decide_eq_true_eq] at h1
  exact ⟨h1.1.1, h1.1.2, fun r hr => ⟨(h1.2 r hr).1, (h1.2 r hr).2⟩⟩

/-! ### The constructor's rule builder, for every chain of steps -/

theorem cumsum_eq (acc : Int) (l : List Int) :
    cumsum acc l = (List.range l.length).map fun k => acc + (l.take (k + 1)).sum := by
  induction l generalizing acc with
  | nil => rfl
  | cons x xs ih =>
    simp only [cumsum, List.length_cons, List.range_succ_eq_map, List.map_cons, List.map_map, ih]
    simp [Function.comp_def, add_assoc]

theorem foldl_max_le {b : Int} {l : List Int} {x : Int} (hx : x ≤ b) (h : ∀ y ∈ l, y ≤ b) : l.foldl max x ≤ b := by
  induction l generalizing x with
  | nil => exact hx
  | cons y ys ih =>
    exact ih (max_le hx (h y (by simp))) fun z hz => h z (List.mem_cons_of_mem _ hz)

theorem le_foldl_max {l : List Int} {x y : Int} (h : y = x ∨ y ∈ l) : y ≤ l.foldl max x := by
  induction l generalizing x y with
  | nil => rcases h with rfl | h; · exact le_rfl
           · simp at h
  | cons z zs ih =>
    simp only [List.foldl_cons]
    rcases h with rfl | h
    · exact (le_max_left _ z).trans (ih (.inl rfl))
    · rcases List.mem_cons.1 h with rfl | h
      · exact (le_max_right x _).trans (ih (.inl rfl))
      · exact ih (.inr h)

theorem sum_nonneg_int {l : List Int} (h : ∀ x ∈ l, 0 ≤ x) : 0 ≤ l.sum := by
  induction l with
  | nil => simp
  | cons x xs ih =>
    have h1 := h x (by simp)
    have h2 := ih fun y hy => h y (List.mem_cons_of_mem _ hy)
    rw [List.sum_cons]; omega

/-- What remains to be travelled: `listMax 0 si - si[k]` is the sum of the steps after `k`. -/
theorem remaining_eq (l : List Int) (h : ∀ x ∈ l, 0 ≤ x) :
    (cumsum 0 (0 :: l)).map (fun x => listMax 0 (cumsum 0 (0 :: l)) - x) =
      (List.range (l.length + 1)).map fun k => (l.drop k).sum := by
  have hc : cumsum 0 (0 :: l) = (List.range (l.length + 1)).map fun k => (l.take k).sum := by
    rw [cumsum_eq]; simp
  have hmax : listMax 0 (cumsum 0 (0 :: l)) = l.sum := by
    apply _root_.le_antisymm
    · apply foldl_max_le (sum_nonneg_int h)
      intro y hy
      rw [hc] at hy
      obtain ⟨k, _, rfl⟩ := List.mem_map.1 hy
      have e : l.sum = (l.take k).sum + (l.drop k).sum := by rw [← List.sum_append, List.take_append_drop]
      have := sum_nonneg_int (l := l.drop k) fun x hx => h x (List.mem_of_mem_drop hx)
      omega
    · apply le_foldl_max
      right
      rw [hc]
      exact List.mem_map.2 ⟨l.length, List.mem_range.2 (by omega), by simp⟩
  rw [hmax, hc, List.map_map]
  apply List.map_congr_left
  intro k _
  have e : l.sum = (l.take k).sum + (l.drop k).sum := by rw [← List.sum_append, List.take_append_drop]
  simp only [Function.comp_apply]
  omega

/-- The weights the documentation prescribes for a chain of steps. -/
def chainWeights (s : String) (smoothed : Bool) (steps : List (Int × Int)) : List ℚ :=
  let w := steps.map (slopeWeight s)
  if smoothed then List.replicate w.length (w.sum / w.length) else w

/-- C52, the builder behind the constructor (`_P(pid,subtype,smoothing).step(..)...get()`), for every chain of
non-negative steps: the first row is the origin, at the total displacement and with weight -1; row `k+1` is the point
reached after `k+1` steps, i.e. at the displacement that remains, with the documented weight of that step. -/
theorem C52_builder {pid : Int} {s : String} {sm : Bool} {steps : List (Int × Int)}
    (hs : s ∈ ["a", "b", "c", "d"]) (hpos : ∀ d ∈ steps, 0 ≤ d.1 ∧ 0 ≤ d.2) :
    ∃ rows, pGet pid s sm steps =
        .ok (⟨pid, (steps.map Prod.fst).sum, (steps.map Prod.snd).sum, -1⟩ :: rows) ∧
      rows.map (·.w) = chainWeights s sm steps ∧ (∀ q ∈ rows, q.pid = pid) ∧
      rows.map (fun q => (q.di, q.dj)) = (List.range steps.length).map fun k =>
        (((steps.drop (k + 1)).map Prod.fst).sum, ((steps.drop (k + 1)).map Prod.snd).sum) := by
  have hi := remaining_eq (steps.map Prod.fst) (by
    intro x hx; obtain ⟨d, hd, rfl⟩ := List.mem_map.1 hx; exact (hpos d hd).1)
  have hj := remaining_eq (steps.map Prod.snd) (by
    intro x hx; obtain ⟨d, hd, rfl⟩ := List.mem_map.1 hx; exact (hpos d hd).2)
  rw [List.length_map] at hi hj
  have hz : (steps.map Prod.fst).zip (steps.map Prod.snd) = steps := by
    clear hi hj hpos
    induction steps with
    | nil => rfl
    | cons d ds ih => simp [ih]
  have hf : ∀ (l : List ℚ) (x : ℚ), l.foldl (· + ·) x = x + l.sum := by
    intro l
    induction l with
    | nil => simp
    | cons y ys ih => intro x; rw [List.foldl_cons, ih, List.sum_cons]; ring
  have hwt : ∀ w : List ℚ, w = steps.map (slopeWeight s) → (if sm = true then w.map
        (fun _ => w.foldl (· + ·) 0 / (w.length : ℚ)) else w) = chainWeights s sm steps := by
    rintro w rfl
    unfold chainWeights
    cases sm with
    | false => simp
    | true => simp only [if_true, hf, zero_add, List.map_const']
  have hp : pGet pid s sm steps = .ok (((((List.range (steps.length + 1)).map fun k =>
      ((steps.map Prod.fst).drop k).sum).zip ((List.range (steps.length + 1)).map fun k =>
      ((steps.map Prod.snd).drop k).sum)).zip (-1 :: chainWeights s sm steps)).map
        fun r => ⟨pid, r.1.1, r.1.2, r.2⟩) := by
    unfold pGet
    simp only [List.mem_cons, List.not_mem_nil, or_false] at hs
    rcases hs with rfl | rfl | rfl | rfl <;>
      simp only [hi, hj, bind, Except.bind, List.tail_cons, List.zip_cons_cons, hz, List.map_cons, if_true, if_false,
        String.reduceEq] <;>
      rw [hwt _ (by simp [slopeWeight, Function.comp_def])]
  rw [hp]
  have hlen : (chainWeights s sm steps).length = steps.length := by
    unfold chainWeights; cases sm <;> simp
  simp only [List.range_succ_eq_map, List.map_cons, List.zip_cons_cons, List.drop_zero, List.map_map]
  refine ⟨_, rfl, ?_, ?_, ?_⟩
  · rw [List.map_map]
    simp only [Function.comp_def]
    rw [show (fun x : (Int × Int) × ℚ => x.2) = Prod.snd from rfl, List.map_snd_zip]
    rw [hlen]; simp
  · intro q hq
    obtain ⟨u, _, rfl⟩ := List.mem_map.1 hq
    rfl
  · rw [List.map_map]
    simp only [Function.comp_def, Prod.mk.eta]
    rw [show (fun x : (Int × Int) × ℚ => x.1) = Prod.fst from rfl, List.map_fst_zip]
    · rw [List.zip_map', ]
      simp [List.map_drop]
    · rw [hlen]; simp

/-- C52: smoothing does not change the total weight of a rule. -/
theorem C52_smoothing_keeps_total (s : String) (steps : List (Int × Int)) :
    (chainWeights s true steps).sum = (chainWeights s false steps).sum := by
  unfold chainWeights
  cases steps with
  | nil => simp
  | cons d ds =>
    simp only [if_true, Bool.false_eq_true, if_false]
    generalize (List.map (slopeWeight s) (d :: ds)).sum = x
    have hrep : ∀ (k : Nat) (x : ℚ), (List.replicate k x).sum = k * x := by
      intro k x
      induction k with
      | zero => simp
      | succ k ih => rw [List.replicate_succ, List.sum_cons, ih]; push_cast; ring
    rw [hrep]
    have : ((List.map (slopeWeight s) (d :: ds)).length : ℚ) ≠ 0 := by
      simp only [List.map_cons, List.length_cons]
      exact Nat.cast_ne_zero.2 (Nat.succ_ne_zero _)
    rw [← mul_div_assoc, mul_comm, mul_div_assoc, div_self this, mul_one]

/-- C52: sub-type (c) charges in total the query elements travelled, sub-type (d) those of both series: the documented
"unbiased" column. -/
theorem C52_unbiased (sm : Bool) (steps : List (Int × Int)) :
    (chainWeights "c" sm steps).sum = ((steps.map Prod.fst).sum : Int) ∧
    (chainWeights "d" sm steps).sum = ((steps.map Prod.fst).sum + (steps.map Prod.snd).sum : Int) := by
  have hc : (chainWeights "c" false steps).sum = ((steps.map Prod.fst).sum : Int) := by
    simp only [chainWeights, Bool.false_eq_true, if_false]
    induction steps with
    | nil => simp
    | cons d ds ih => rw [List.map_cons, List.sum_cons, ih]; simp [slopeWeight]
  have hd : (chainWeights "d" false steps).sum = ((steps.map Prod.fst).sum + (steps.map Prod.snd).sum : Int) := by
    simp only [chainWeights, Bool.false_eq_true, if_false]
    clear hc
    induction steps with
    | nil => simp
    | cons d ds ih => rw [List.map_cons, List.sum_cons, ih]; simp [slopeWeight]; ring
  cases sm with
  | false => exact ⟨hc, hd⟩
  | true => rw [C52_smoothing_keeps_total, C52_smoothing_keeps_total]; exact ⟨hc, hd⟩

/-- C52, negative witness: sub-type (a) is biased; on a 3 × 3 matrix of ones the straight and a detouring alignment
have different total weights, so the distance is not determined by the lengths. -/
example : (chainWeights "a" false [(1, 1), (1, 0)]).sum = 1 ∧ (chainWeights "a" false [(1, 1), (1, 1)]).sum = 2 := by
  decide +kernel

example : (rabinerJuang 5 "d" true).toOption.map (fun p => (rulesOf p).map fun r => r.terms.map (·.w)) =
    some [[4/3, 4/3, 4/3], [3/2, 3/2], [2], [3/2, 3/2], [4/3, 4/3, 4/3]] := by decide +kernel

end DTW
