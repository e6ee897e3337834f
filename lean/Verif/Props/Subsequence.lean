import Verif.Props.OpenEnd
import Verif.Props.Textbook

/-!
# C59: searching a reference for the query (open begin)

Exact arithmetic, finite local costs.  With the step patterns that consume one query element per rule and charge the point
reached (`asymmetric`, `rigid`, minimum variance matching), an open-begin call computes the least total cost over the
ways of matching the query somewhere inside the reference.
-/

namespace DTW
open F64

variable {a : Args} {n m : Nat} {ℓ : Nat → Nat → ℚ} {W : Nat → Nat → Bool} {p : StepPattern} {rs : List Rule}
  {r : Result}

/-- A placement of the query in the reference: query element `i` is matched to reference element `f i`; the first
element is reached by one jump from some column `j0` of the null row; consecutive matches satisfy `jump`; all matches are
inside the window (whose rows are shifted by the null row); with a closed end the last element is matched to the last
reference element. -/
structure IsPlacement (jump : Nat → Nat → Prop) (W : Nat → Nat → Bool) (closedEnd : Bool) (n m : Nat)
    (f : Nat → Nat) : Prop where
  inside : ∀ i < n, f i < m
  first : ∃ j0, jump j0 (f 0)
  jumps : ∀ i, i + 1 < n → jump (f i) (f (i + 1))
  window : ∀ i < n, W (i + 1) (f i) = true
  last : closedEnd = true → f (n - 1) = m - 1

theorem charge_one_null (ℓ : Nat → Nat → ℚ) {q : Rule} (hr : q.terms = [⟨0, 0, 1⟩]) (i j : Nat) (c : ℚ) :
    charge Arith.exact (fun i' j' => if i' = 0 then fin 0 else fin (ℓ (i' - 1) j')) q (i + 1) j (fin c) =
      fin (c + ℓ i j) := by
  have e : (fun i' j' => if i' = 0 then fin 0 else fin (ℓ (i' - 1) j')) =
      fun i' j' => fin (if i' = 0 then 0 else ℓ (i' - 1) j') := by
    funext i' j'; split <;> rfl
  rw [e, charge_one (fun i' j' => if i' = 0 then 0 else ℓ (i' - 1) j') hr]
  simp

theorem FnRules.ofOpen {jump : Nat → Nat → Prop} (hF : FnRules rs jump) {j0 : Nat} {ks : List Int} {i j : Nat}
    {c : F64} (h : OpenPath Arith.exact rs W (fun i j => fin (ℓ i j)) j0 ks i j c) :
    ∃ f : Nat → Nat, c = fin (fnCost ℓ i f) ∧ (i = 0 → j = j0) ∧ (0 < i → f (i - 1) = j) ∧ (0 < i → jump j0 (f 0)) ∧
      (∀ t, t + 1 < i → jump (f t) (f (t + 1))) ∧ (∀ t < i, W (t + 1) (f t) = true) ∧ (∀ t < i, f t ≤ j) := by
  induction h with
  | start => exact ⟨fun _ => 0, by simp [fnCost], fun _ => rfl, by omega, by omega, by omega, by omega, by omega⟩
  | @step ks i j c k q _ hr h0 hW ih =>
    obtain ⟨f, rfl, h1, h2, h3, h4, h5, h6⟩ := ih
    obtain ⟨e1, e2, e3⟩ := hF.rule q (List.mem_of_getElem? hr)
    rw [e1] at hW ⊢
    let g : Nat → Nat := fun t => if t = i then j + q.b else f t
    have hg : ∀ t, t < i → g t = f t := fun t ht => if_neg (by omega)
    have hgi : g i = j + q.b := if_pos rfl
    refine ⟨g, ?_, by omega, ?_, ?_, ?_, ?_, ?_⟩
    · rw [charge_one_null ℓ e2, fnCost_succ, hgi, fnCost_congr ℓ (g := f) hg]
    · intro _; simpa using hgi
    · intro _
      by_cases hi : i = 0
      · subst hi; rw [hgi, ← h1 rfl]; exact e3 j
      · rw [hg 0 (by omega)]; exact h3 (by omega)
    · intro t ht
      by_cases hti : t + 1 = i
      · rw [hti, hgi, hg t (by omega)]
        have := h2 (by omega)
        rw [show i - 1 = t by omega] at this
        rw [this]; exact e3 j
      · rw [hg t (by omega), hg (t + 1) (by omega)]; exact h4 t (by omega)
    · intro t ht
      by_cases hti : t = i
      · subst hti; rw [hgi]; exact hW
      · rw [hg t (by omega)]; exact h5 t (by omega)
    · intro t ht
      by_cases hti : t = i
      · subst hti; rw [hgi]
      · rw [hg t (by omega)]; have := h6 t (by omega); omega

theorem FnRules.toOpen {jump : Nat → Nat → Prop} (hF : FnRules rs jump) {f : Nat → Nat} {j0 : Nat} :
    ∀ (i : Nat), jump j0 (f 0) → (∀ t, t + 1 < i + 1 → jump (f t) (f (t + 1))) → (∀ t < i + 1, W (t + 1) (f t) = true) →
      ∃ ks, OpenPath Arith.exact rs W (fun i j => fin (ℓ i j)) j0 ks (i + 1) (f i) (fin (fnCost ℓ (i + 1) f)) := by
  intro i
  induction i with
  | zero =>
    intro h0 _ hW
    obtain ⟨q, hq, hj⟩ := hF.has _ _ h0
    obtain ⟨e1, e2, _⟩ := hF.rule q hq
    obtain ⟨k, hk⟩ := List.mem_iff_getElem?.1 hq
    have hs := OpenPath.step k q (OpenPath.start (A := Arith.exact) (rs := rs) (W := W) (L := fun i j => fin (ℓ i j))
      (j0 := j0)) hk (by omega) (by rw [e1, ← hj]; exact hW 0 (by omega))
    rw [e1, ← hj, charge_one_null ℓ e2] at hs
    exact ⟨[] ++ [(k : Int) + 1], by simpa [fnCost] using hs⟩
  | succ i ih =>
    intro h0 hj hW
    obtain ⟨ks, hp⟩ := ih h0 (fun t ht => hj t (by omega)) (fun t ht => hW t (by omega))
    obtain ⟨q, hq, hb⟩ := hF.has _ _ (hj i (by omega))
    obtain ⟨e1, e2, _⟩ := hF.rule q hq
    obtain ⟨k, hk⟩ := List.mem_iff_getElem?.1 hq
    have hs := OpenPath.step k q hp hk (by omega) (by rw [e1, ← hb]; exact hW (i + 1) (by omega))
    rw [e1, ← hb, charge_one_null ℓ e2] at hs
    exact ⟨ks ++ [(k : Int) + 1], by rw [fnCost_succ ℓ (i + 1) f]; exact hs⟩

/-- The open-begin distance is the least cost of a placement, and the call succeeds iff there is one. -/
theorem FnRules.places {jump : Nat → Nat → Prop} (hF : FnRules rs jump)
    (h : Problem a n m (fun i j => fin (ℓ i j)) W p rs) (hob : a.openBegin = true) (hdo : a.distanceOnly = false)
    (hh : p.hint = "N") :
    ComputesLeast a (IsPlacement jump W (!a.openEnd) n m) (fnCost ℓ n) := by
  have hn := h.n_pos
  have hm := h.m_pos
  obtain ⟨n, rfl⟩ : ∃ n', n = n' + 1 := ⟨n - 1, by omega⟩
  -- placements are the paths from the null row
  have fwd : ∀ {j0 ks j c}, OpenPath Arith.exact rs W (fun i j => fin (ℓ i j)) j0 ks (n + 1) j c → j < m →
      (a.openEnd = false → j = m - 1) →
      ∃ f, IsPlacement jump W (!a.openEnd) (n + 1) m f ∧ c = fin (fnCost ℓ (n + 1) f) := by
    intro j0 ks j c hp hj hje
    obtain ⟨f, rfl, _, h2, h3, h4, h5, h6⟩ := hF.ofOpen hp
    refine ⟨f, ⟨fun i hi => lt_of_le_of_lt (h6 i hi) hj, ⟨j0, h3 (by omega)⟩, h4, h5, ?_⟩, rfl⟩
    intro hc
    rw [h2 (by omega)]
    exact hje (by simpa using hc)
  have back : ∀ {f}, IsPlacement jump W (!a.openEnd) (n + 1) m f →
      ∃ j0 ks, OpenPath Arith.exact rs W (fun i j => fin (ℓ i j)) j0 ks (n + 1) (f n) (fin (fnCost ℓ (n + 1) f)) := by
    intro f hf
    obtain ⟨j0, h0⟩ := hf.first
    obtain ⟨ks, hp⟩ := hF.toOpen (ℓ := ℓ) n h0 hf.jumps hf.window
    exact ⟨j0, ks, hp⟩
  cases hoe : a.openEnd with
  | false =>
    rw [hoe] at fwd back
    constructor
    · rw [C22_open_begin_succeeds_iff h hob hoe hdo hh]
      constructor
      · rintro ⟨j0, ks, c, hp, _⟩
        obtain ⟨f, hf, _⟩ := fwd hp (by omega) (fun _ => rfl)
        exact ⟨f, hf⟩
      · rintro ⟨f, hf⟩
        obtain ⟨j0, ks, hp⟩ := back hf
        have := hf.last rfl
        simp only [Nat.add_sub_cancel] at this
        rw [this] at hp
        exact ⟨j0, ks, _, hp, usable_fin _⟩
    · intro r hr
      obtain ⟨mp, j, j0, _, _, hj, hje, hp, hmin⟩ := C22_open_begin_optimal h hob hr
      obtain ⟨f, hf, hd⟩ := fwd hp hj (fun _ => hje hoe)
      refine ⟨_, hd, ⟨f, hf, rfl⟩, ?_⟩
      rintro c ⟨g, hg, rfl⟩
      obtain ⟨j0', ks', hp'⟩ := back hg
      have e := hg.last rfl
      simp only [Nat.add_sub_cancel] at e
      rw [e, ← hje hoe] at hp'
      have := (hmin j0' ks' _ hp' (by simp)).2.2
      rw [hd] at this
      simpa [F64.lt] using this
  | true =>
    rw [hoe] at fwd back
    constructor
    · rw [C22_open_both_succeeds_iff exact_idempotent h hob hoe hdo hh]
      constructor
      · rintro ⟨j0, ks, j, c, hj, hp, _⟩
        obtain ⟨f, hf, _⟩ := fwd hp hj (by simp)
        exact ⟨f, hf⟩
      · rintro ⟨f, hf⟩
        obtain ⟨j0, ks, hp⟩ := back hf
        exact ⟨j0, ks, _, _, hf.inside n (by omega), hp, usable_fin _⟩
    · intro r hr
      obtain ⟨mp, j, j0, _, _, hj, _, hp, hmin⟩ := C22_open_begin_optimal h hob hr
      obtain ⟨f, hf, hd⟩ := fwd hp hj (by simp)
      refine ⟨_, hd, ⟨f, hf, rfl⟩, ?_⟩
      rintro c ⟨g, hg, rfl⟩
      obtain ⟨j0', ks', hp'⟩ := back hg
      obtain ⟨hnd, hbest⟩ := C22_open_both_optimal h hob hoe hr
      have := (hbest j0' ks' _ _ (hg.inside n (by omega)) hp' (by simp)).2.2
      rw [hnd, hd] at this
      have hpos : (0 : ℚ) < ((n + 1 : Nat) : ℚ) := by positivity
      simp only [Arith.divQ, if_neg hpos.ne', Arith.exact, F64.lt, decide_eq_false_iff_not, not_lt] at this
      exact (div_le_div_iff_of_pos_right hpos).1 this

/-- C59.  `asymmetric` with an open begin: the distance is the least sum of local costs over all ways of matching every
query element, in order, with steps of 0, 1 or 2, to reference elements — starting anywhere, and (with an open end) ending
anywhere.  A call without `distance_only` succeeds iff the window leaves one. -/
theorem C59_asymmetric (h : Problem a n m (fun i j => fin (ℓ i j)) W Pat.asymmetric (rulesOf Pat.asymmetric))
    (hob : a.openBegin = true) (hdo : a.distanceOnly = false) :
    ComputesLeast a
      (fun f : Nat → Nat => (∀ i < n, f i < m) ∧ (∀ i, i + 1 < n → f i ≤ f (i + 1) ∧ f (i + 1) ≤ f i + 2) ∧
        (∀ i < n, W (i + 1) (f i) = true) ∧ (a.openEnd = false → f (n - 1) = m - 1))
      (fnCost ℓ n) := by
  have := asymmetric_fnRules.places h hob hdo (by decide +kernel)
  have e : ∀ f, IsPlacement (fun j j' => j ≤ j' ∧ j' ≤ j + 2) W (!a.openEnd) n m f ↔
      (∀ i < n, f i < m) ∧ (∀ i, i + 1 < n → f i ≤ f (i + 1) ∧ f (i + 1) ≤ f i + 2) ∧
        (∀ i < n, W (i + 1) (f i) = true) ∧ (a.openEnd = false → f (n - 1) = m - 1) := by
    intro f
    constructor
    · intro hf
      exact ⟨hf.inside, hf.jumps, hf.window, fun he => hf.last (by simp [he])⟩
    · rintro ⟨h1, h2, h3, h4⟩
      exact ⟨h1, ⟨f 0, le_rfl, by omega⟩, h2, h3, fun he => h4 (by simpa using he)⟩
  unfold ComputesLeast at this ⊢
  simpa only [e] using this

/-- C59.  Minimum variance matching with an open begin: strictly increasing matches with jumps of at most the elasticity.
The first query element can be matched to any reference element except number 0: the null row is left by a rule, and
every rule advances. -/
theorem C59_mvm {e : Nat} (he : 0 < e) (h : Problem a n m (fun i j => fin (ℓ i j)) W (mvmStepPattern e) (mvmRules e))
    (hob : a.openBegin = true) (hdo : a.distanceOnly = false) :
    ComputesLeast a
      (fun f : Nat → Nat => 0 < f 0 ∧ (∀ i < n, f i < m) ∧ (∀ i, i + 1 < n → f i < f (i + 1) ∧ f (i + 1) ≤ f i + e) ∧
        (∀ i < n, W (i + 1) (f i) = true) ∧ (a.openEnd = false → f (n - 1) = m - 1))
      (fnCost ℓ n) := by
  have := (mvm_fnRules e).places h hob hdo rfl
  have e : ∀ f, IsPlacement (fun j j' => j < j' ∧ j' ≤ j + e) W (!a.openEnd) n m f ↔
      0 < f 0 ∧ (∀ i < n, f i < m) ∧ (∀ i, i + 1 < n → f i < f (i + 1) ∧ f (i + 1) ≤ f i + e) ∧
        (∀ i < n, W (i + 1) (f i) = true) ∧ (a.openEnd = false → f (n - 1) = m - 1) := by
    intro f
    constructor
    · intro hf
      obtain ⟨j0, h0, _⟩ := hf.first
      exact ⟨by omega, hf.inside, hf.jumps, hf.window, fun he => hf.last (by simp [he])⟩
    · rintro ⟨h0, h1, h2, h3, h4⟩
      exact ⟨h1, ⟨f 0 - 1, by omega, by omega⟩, h2, h3, fun he => h4 (by simpa using he)⟩
  unfold ComputesLeast at this ⊢
  simpa only [e] using this

/-- C59.  `rigid` with both ends open slides the query along the reference without warping it: the distance is the least
sum of local costs over the offsets `s`, and the call succeeds iff there is one.  Offset 0 is never considered. -/
theorem C59_rigid (h : Problem a n m (fun i j => fin (ℓ i j)) (fun _ _ => true) Pat.rigid (rulesOf Pat.rigid))
    (hob : a.openBegin = true) (hoe : a.openEnd = true) (hdo : a.distanceOnly = false) :
    ComputesLeast a (fun s : Nat => 1 ≤ s ∧ s + n ≤ m) (fun s => ((List.range n).map fun i => ℓ i (s + i)).sum) := by
  have hn := h.n_pos
  obtain ⟨h1, h2⟩ := rigid_fnRules.places h hob hdo (by decide +kernel)
  have key : ∀ {f}, IsPlacement (fun j j' => j' = j + 1) (fun _ _ => true) (!a.openEnd) n m f →
      (∀ i < n, f i = f 0 + i) ∧ 1 ≤ f 0 ∧ f 0 + n ≤ m := by
    intro f hf
    have hl : ∀ i < n, f i = f 0 + i := by
      intro i
      induction i with
      | zero => intro _; rfl
      | succ i ih => intro hi; rw [hf.jumps i hi, ih (by omega)]; omega
    obtain ⟨j0, h0⟩ := hf.first
    have := hf.inside (n - 1) (by omega)
    rw [hl (n - 1) (by omega)] at this
    exact ⟨hl, by omega, by omega⟩
  have back : ∀ {s}, 1 ≤ s ∧ s + n ≤ m →
      IsPlacement (fun j j' => j' = j + 1) (fun _ _ => true) (!a.openEnd) n m (fun i => s + i) := by
    rintro s ⟨hs, hm⟩
    exact ⟨fun i hi => by omega, ⟨s - 1, by omega⟩, fun i _ => by omega, fun _ _ => rfl, fun he => by simp [hoe] at he⟩
  have hcost : ∀ {f : Nat → Nat} {s : Nat}, (∀ i < n, f i = s + i) →
      fnCost ℓ n f = ((List.range n).map fun i => ℓ i (s + i)).sum := by
    intro f s hf
    rw [fnCost_congr ℓ (g := fun i => s + i) hf]; rfl
  constructor
  · rw [h1]
    exact ⟨fun ⟨f, hf⟩ => ⟨f 0, (key hf).2⟩, fun ⟨s, hs⟩ => ⟨_, back hs⟩⟩
  · intro r hr
    obtain ⟨d, hd, ⟨f, hf, hfc⟩, hmin⟩ := h2 r hr
    refine ⟨d, hd, ⟨f 0, (key hf).2, ?_⟩, ?_⟩
    · rw [hfc]; exact hcost (key hf).1
    · rintro c ⟨s, hs, rfl⟩
      exact hmin ⟨_, back hs, (hcost fun _ _ => rfl).symm⟩

namespace Ex

/-- Distances of the query `[1,2]` and the reference `[1,2,5,3]`. -/
def slideCost (i j : Nat) : ℚ := |(i : ℚ) + 1 - ([1, 2, 5, 3][j]?).getD 0|

/-- `dtw(Λ, step_pattern=rigid, open_begin=True, open_end=True)`: the query `[1,2]` in the reference `[1,2,5,3]` — an
exact copy stands at offset 0. -/
def slide : Args :=
  { x := .d2 (Mat.ofFn 2 4 fun i j => fin (slideCost i j))
    stepPattern := .name "rigid"
    openBegin := true
    openEnd := true }

theorem slide_problem : Problem slide 2 4 (fun i j => fin (slideCost i j)) (fun _ _ => true)
    Pat.rigid (rulesOf Pat.rigid) where
  n_pos := by decide
  m_pos := by decide
  cost := .matrix rfl rfl rfl rfl
  pattern := by decide +kernel
  wf := wf_of_check (by decide +kernel)
  fits := fits_of_check (by decide +kernel)
  window := .inl ⟨rfl, fun _ _ _ _ => rfl⟩

end Ex

/-- C59, the missing offset, concretely: the exact copy at offset 0 is not found; the reported distance is 4 (offset 1,
against `[2,5]`). -/
theorem C59_rigid_misses_offset_zero :
    (dtw Arith.exact Ex.slide).toOption.map (fun r => (r.distance, r.mapping.map (·.index2))) =
      some (fin 4, some [1, 2]) ∧
    ((List.range 2).map fun i => Ex.slideCost i (0 + i)).sum = 0 := by
  constructor
  · decide +kernel
  · decide +kernel

example := C59_rigid Ex.slide_problem rfl rfl rfl

end DTW
