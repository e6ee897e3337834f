import Verif.Props.Textbook
import Verif.Props.RabinerJuang

/-!
# C53, continued: every named pattern, and every Rabiner-Juang pattern, is the textbook one

Exact arithmetic, finite local costs, any window.  `IsProdPath`, `prodsCost`, `textbook`: SpecTextbook.lean.
-/

namespace DTW
open F64

variable {a : Args} {n m : Nat} {ℓ : Nat → Nat → ℚ} {W : Nat → Nat → Bool} {p : StepPattern} {rs : List Rule}
  {r : Result} {fam : List Production} {wts : Production → List ℚ}

/-- The charged cells of the rule for a production, as seen from its end. -/
def prodTerms : Production → List ℚ → List Term
  | _ :: b, w :: ws => ⟨(prodEnd (0, 0) b).1, (prodEnd (0, 0) b).2, w⟩ :: prodTerms b ws
  | _, _ => []

/-- The rule for a production. -/
def prodRule (wts : Production → List ℚ) (b : Production) : Rule :=
  ⟨(prodEnd (0, 0) b).1, (prodEnd (0, 0) b).2, prodTerms b (wts b)⟩

theorem prodEnd_shift (u : Nat × Nat) (b : Production) :
    prodEnd u b = (u.1 + (prodEnd (0, 0) b).1, u.2 + (prodEnd (0, 0) b).2) := by
  induction b generalizing u with
  | nil => simp [prodEnd]
  | cons d b ih =>
    simp only [prodEnd, Nat.zero_add]
    rw [ih, ih (d.1, d.2)]
    simp only [Nat.add_assoc]

theorem foldl_prodTerms (ℓ : Nat → Nat → ℚ) (b : Production) (ws : List ℚ) (u : Nat × Nat) (c : ℚ) :
    (prodTerms b ws).foldl (fun c t => Arith.exact.mac c (Arith.exact.rnd t.w)
      ((fun i j => fin (ℓ i j)) ((prodEnd u b).1 - t.di) ((prodEnd u b).2 - t.dj))) (fin c) =
      fin (c + prodCost ℓ u b ws) := by
  induction b generalizing u c ws with
  | nil => simp [prodTerms, prodCost]
  | cons d b ih =>
    cases ws with
    | nil => simp [prodTerms, prodCost]
    | cons w ws =>
      simp only [prodTerms, List.foldl_cons, prodCost, prodEnd]
      have e : Arith.exact.mac (fin c) (Arith.exact.rnd w)
          (fin (ℓ ((prodEnd (u.1 + d.1, u.2 + d.2) b).1 - (prodEnd (0, 0) b).1)
            ((prodEnd (u.1 + d.1, u.2 + d.2) b).2 - (prodEnd (0, 0) b).2))) =
          fin (c + w * ℓ (u.1 + d.1) (u.2 + d.2)) := by
        rw [prodEnd_shift (u.1 + d.1, u.2 + d.2) b]
        simp only [Nat.add_sub_cancel]
        simp [Arith.mac, Arith.exact, Arith.add, Arith.mul, Arith.mulWith]
      rw [e, ih]
      congr 1; ring

theorem charge_prodRule (ℓ : Nat → Nat → ℚ) (b : Production) (i j : Nat) (c : ℚ) :
    charge Arith.exact (fun i j => fin (ℓ i j)) (prodRule wts b) (i + (prodRule wts b).a) (j + (prodRule wts b).b) (fin c) =
      fin (c + prodCost ℓ (i, j) b (wts b)) := by
  have := foldl_prodTerms ℓ b (wts b) (i, j) c
  rw [prodEnd_shift (i, j) b] at this
  exact this

/-- The rules are those of the productions of `fam` (in any order). -/
structure ProdRules (rs : List Rule) (fam : List Production) (wts : Production → List ℚ) : Prop where
  rule : ∀ r ∈ rs, ∃ b ∈ fam, r = prodRule wts b
  has : ∀ b ∈ fam, prodRule wts b ∈ rs

theorem prodsEnd_snoc (u : Nat × Nat) (w : List Production) (b : Production) :
    prodsEnd u (w ++ [b]) = prodEnd (prodsEnd u w) b := by
  induction w generalizing u with
  | nil => rfl
  | cons x w ih => exact ih _

theorem corners_snoc (u : Nat × Nat) (w : List Production) (b : Production) :
    corners u (w ++ [b]) = corners u w ++ [prodEnd (prodsEnd u w) b] := by
  induction w generalizing u with
  | nil => rfl
  | cons x w ih => simp only [List.cons_append, corners, prodsEnd, ih]

theorem prodsCost_snoc (u : Nat × Nat) (w : List Production) (b : Production) :
    prodsCost wts ℓ u (w ++ [b]) = prodsCost wts ℓ u w + prodCost ℓ (prodsEnd u w) b (wts b) := by
  induction w generalizing u with
  | nil => simp [prodsCost, prodsEnd]
  | cons x w ih => simp only [List.cons_append, prodsCost, prodsEnd, ih]; ring

theorem ProdRules.toProds (hR : ProdRules rs fam wts) {ks i j c}
    (h : WarpPath Arith.exact rs W (fun i j => fin (ℓ i j)) ks i j c) :
    ∃ w, IsProdPath fam W i j w ∧ c = fin (ℓ 0 0 + prodsCost wts ℓ (0, 0) w) := by
  induction h with
  | start => exact ⟨[], ⟨by simp, by simp [corners], rfl⟩, by simp [prodsCost]⟩
  | @step ks i j c k r _ hr hW ih =>
    obtain ⟨w, hw, rfl⟩ := ih
    obtain ⟨b, hb, rfl⟩ := hR.rule r (List.mem_of_getElem? hr)
    have hend : prodEnd (prodsEnd (0, 0) w) b = (i + (prodRule wts b).a, j + (prodRule wts b).b) := by
      rw [hw.ends, prodEnd_shift]; rfl
    refine ⟨w ++ [b], ⟨?_, ?_, ?_⟩, ?_⟩
    · intro x hx
      rcases List.mem_append.1 hx with hx | hx
      · exact hw.prods x hx
      · rw [List.mem_singleton.1 hx]; exact hb
    · intro u hu
      rw [corners_snoc, hend] at hu
      rcases List.mem_append.1 hu with hu | hu
      · exact hw.window u hu
      · rw [List.mem_singleton.1 hu]; exact hW
    · rw [prodsEnd_snoc, hend]
    · rw [charge_prodRule, prodsCost_snoc, hw.ends]
      congr 1; ring

theorem ProdRules.toPath (hR : ProdRules rs fam wts) (w : List Production) : ∀ {i j : Nat}, IsProdPath fam W i j w →
    ∃ ks, WarpPath Arith.exact rs W (fun i j => fin (ℓ i j)) ks i j (fin (ℓ 0 0 + prodsCost wts ℓ (0, 0) w)) := by
  induction w using List.reverseRecOn with
  | nil =>
    intro i j hw
    have := hw.ends
    simp only [prodsEnd, Prod.mk.injEq] at this
    obtain ⟨rfl, rfl⟩ := this
    exact ⟨[], by simpa [prodsCost] using WarpPath.start⟩
  | append_singleton w b ih =>
    intro i j hw
    have h0 : IsProdPath fam W (prodsEnd (0, 0) w).1 (prodsEnd (0, 0) w).2 w :=
      ⟨fun x hx => hw.prods x (List.mem_append_left _ hx),
        fun u hu => hw.window u (by rw [corners_snoc]; exact List.mem_append_left _ hu), rfl⟩
    obtain ⟨ks, hp⟩ := ih h0
    obtain ⟨k, hk⟩ := List.mem_iff_getElem?.1 (hR.has b (hw.prods b (by simp)))
    have hend : (i, j) = ((prodsEnd (0, 0) w).1 + (prodRule wts b).a, (prodsEnd (0, 0) w).2 + (prodRule wts b).b) := by
      rw [← hw.ends, prodsEnd_snoc, prodEnd_shift]; rfl
    simp only [Prod.mk.injEq] at hend
    obtain ⟨rfl, rfl⟩ := hend
    have hW : W ((prodsEnd (0, 0) w).1 + (prodRule wts b).a) ((prodsEnd (0, 0) w).2 + (prodRule wts b).b) = true := by
      apply hw.window (_, _)
      rw [corners_snoc, ← prodsEnd_snoc, hw.ends]
      exact List.mem_append_right _ (by simp)
    have := WarpPath.step k _ hp hk hW
    rw [charge_prodRule] at this
    refine ⟨ks ++ [(k : Int) + 1], ?_⟩
    rw [prodsCost_snoc, ← add_assoc]
    exact this

/-- The distance is the least cost of a path by productions. -/
theorem ProdRules.computes (hR : ProdRules rs fam wts) (h : Problem a n m (fun i j => fin (ℓ i j)) W p rs)
    (hob : a.openBegin = false) (hoe : a.openEnd = false) :
    ComputesLeast a (IsProdPath fam W (n - 1) (m - 1)) (fun w => ℓ 0 0 + prodsCost wts ℓ (0, 0) w) := by
  constructor
  · rw [exact_success_iff h hob hoe]
    constructor
    · rintro ⟨ks, hp⟩
      obtain ⟨c, hc⟩ := hp.toWarpPath (A := Arith.exact) (L := fun i j => fin (ℓ i j))
      obtain ⟨w, hw, _⟩ := hR.toProds hc
      exact ⟨w, hw⟩
    · rintro ⟨w, hw⟩
      obtain ⟨ks, hp⟩ := hR.toPath (ℓ := ℓ) w hw
      exact ⟨ks, hp.toRulePath⟩
  · intro r hr
    obtain ⟨⟨ks, hp⟩, hmin⟩ := C01_distance_optimal h hob hoe hr
    obtain ⟨w, hw, hd⟩ := hR.toProds hp
    refine ⟨_, hd, ⟨w, hw, rfl⟩, ?_⟩
    rintro c ⟨w', hw', rfl⟩
    obtain ⟨ks', hp'⟩ := hR.toPath (ℓ := ℓ) w' hw'
    have := (hmin ks' _ hp' (by simp)).2.2
    rw [hd] at this
    simpa [F64.lt] using this

def prodCheck (rs : List Rule) (fam : List Production) (wts : Production → List ℚ) : Bool :=
  rs.all (fun r => fam.any fun b => decide (r = prodRule wts b)) && fam.all fun b => decide (prodRule wts b ∈ rs)

theorem prodRules_of_check (h : prodCheck rs fam wts = true) : ProdRules rs fam wts := by
  simp only [prodCheck, Bool.and_eq_true, List.all_eq_true, List.any_eq_true, decide_eq_true_eq] at h
  exact ⟨h.1, h.2⟩

/-- **C53** (all named patterns).  For every entry (name, family, slope weighting, smoothed) of the textbook table, the
closed-end distance with the pattern of that name is the least cost of a path from corner to corner by productions of the
family, its steps weighted as the entry says, its corner points inside the window; and `dtw` succeeds iff there is one. -/
theorem C53_named {e : String × List Production × Weighting × Bool} (he : e ∈ textbook) (hp : (e.1, p) ∈ Pat.table)
    (h : Problem a n m (fun i j => fin (ℓ i j)) W p (rulesOf p)) (hob : a.openBegin = false) (hoe : a.openEnd = false) :
    ComputesLeast a (IsProdPath e.2.1 W (n - 1) (m - 1))
      (fun w => ℓ 0 0 + prodsCost (stepWeights e.2.2.1 e.2.2.2) ℓ (0, 0) w) := by
  have key : (textbook.all fun e => Pat.table.all fun q =>
      decide (q.1 ≠ e.1) || prodCheck (rulesOf q.2) e.2.1 (stepWeights e.2.2.1 e.2.2.2)) = true := by decide +kernel
  have h1 := List.all_eq_true.1 (List.all_eq_true.1 key e he) _ hp
  simp only [Bool.or_eq_true, decide_eq_true_eq, ne_eq, not_true_eq_false, false_or] at h1
  exact (prodRules_of_check h1).computes h hob hoe

/-- Every bundled pattern has an entry, except mori2006 (below) and two private ones. -/
theorem C53_named_complete : ∀ q ∈ Pat.table, q.1 ∈ textbook.map Prod.fst ∨
    q.1 ∈ ["mori2006", "_symmetricVelichkoZagoruyko", "_asymmetricP0b"] := by
  have : (Pat.table.all fun q => decide (q.1 ∈ textbook.map Prod.fst ∨
    q.1 ∈ ["mori2006", "_symmetricVelichkoZagoruyko", "_asymmetricP0b"])) = true := by decide +kernel
  intro q hq
  simpa using List.all_eq_true.1 this q hq

/-- **C53** (mori2006): the same with family 2 and Mori's weights. -/
theorem C53_mori2006 (h : Problem a n m (fun i j => fin (ℓ i j)) W Pat.mori2006 (rulesOf Pat.mori2006))
    (hob : a.openBegin = false) (hoe : a.openEnd = false) :
    ComputesLeast a (IsProdPath (family 2) W (n - 1) (m - 1)) (fun w => ℓ 0 0 + prodsCost moriWeights ℓ (0, 0) w) :=
  (prodRules_of_check (by decide +kernel)).computes h hob hoe

/-- The weighting a sub-type letter stands for. -/
def weightingOf (s : String) : Weighting :=
  if s = "a" then .minStep else if s = "b" then .maxStep else if s = "c" then .queryStep else .bothSteps

private def rjCheck (t : Nat) (s : String) (sm : Bool) : Bool :=
  match rabinerJuang t s sm with
  | .ok p => prodCheck (rulesOf p) (family t) (stepWeights (weightingOf s) sm)
  | .error _ => false

/-- **C53** (Rabiner-Juang).  For every pattern `rabinerJuangStepPattern(t, s, smoothed)` the closed-end distance is the
least cost of a path by productions of family `t`, with slope weighting `s`, smoothed or not. -/
theorem C53_rabinerJuang {t : Nat} {s : String} {sm : Bool} (hp : rabinerJuang t s sm = .ok p)
    (h : Problem a n m (fun i j => fin (ℓ i j)) W p (rulesOf p)) (hob : a.openBegin = false) (hoe : a.openEnd = false) :
    ComputesLeast a (IsProdPath (family t) W (n - 1) (m - 1))
      (fun w => ℓ 0 0 + prodsCost (stepWeights (weightingOf s) sm) ℓ (0, 0) w) := by
  have hok : (1 ≤ (t : Int) ∧ (t : Int) ≤ 7) ∧ s ∈ ["a", "b", "c", "d"] := by
    by_contra hc
    have hc' : ¬ (1 ≤ (t : Int) ∧ (t : Int) ≤ 7) ∨ s ∉ ["a", "b", "c", "d"] := by
      by_contra hno
      rw [not_or, not_not, not_not] at hno
      exact hc hno
    obtain ⟨e, he⟩ := C32_C40_rabinerJuang_rejects t s sm hc'
    rw [he] at hp; simp at hp
  have key : ([1, 2, 3, 4, 5, 6, 7].all fun (t : Nat) => ["a", "b", "c", "d"].all fun s =>
      [true, false].all fun sm => rjCheck t s sm) = true := by decide +kernel
  have hmem : t ∈ ([1, 2, 3, 4, 5, 6, 7] : List Nat) := by
    simp only [List.mem_cons, List.not_mem_nil, or_false]; omega
  have h1 := List.all_eq_true.1 (List.all_eq_true.1 (List.all_eq_true.1 key t hmem) s hok.2) sm
    (by cases sm <;> simp)
  unfold rjCheck at h1
  rw [hp] at h1
  exact (prodRules_of_check h1).computes h hob hoe

/-- Non-vacuity: asymmetricP1 on a 3 × 4 matrix, and a path of two productions of its family. -/
def Ex.asymP1 : Args where
  x := .d2 (Mat.ofFn 3 4 fun i j => fin (Ex.ell i j))
  stepPattern := .name "asymmetricP1"

example : Problem Ex.asymP1 3 4 (fun i j => fin (Ex.ell i j)) (fun _ _ => true) Pat.asymmetricP1 (rulesOf Pat.asymmetricP1) ∧
    (dtw Arith.exact Ex.asymP1).toOption.map (·.distance) = some (fin (7 / 2)) ∧
    ("asymmetricP1", Pat.asymmetricP1) ∈ Pat.table ∧
    IsProdPath (family 2) (fun _ _ => true) 2 3 [[(1, 1), (0, 1)], [(1, 1)]] ∧
    Ex.ell 0 0 + prodsCost (stepWeights .queryStep true) Ex.ell (0, 0) [[(1, 1), (0, 1)], [(1, 1)]] = 9 / 2 := by
  refine ⟨⟨by decide, by decide, .matrix rfl rfl rfl rfl, by decide +kernel, wf_of_check (by decide +kernel),
    fits_of_check (by decide +kernel), .inl ⟨rfl, fun _ _ _ _ => rfl⟩⟩, by decide +kernel, ?_,
    ⟨by decide, by simp, by decide⟩, by decide +kernel⟩
  have : (Pat.table.any fun q => decide (q = ("asymmetricP1", Pat.asymmetricP1))) = true := by decide +kernel
  obtain ⟨q, hq, e⟩ := List.any_eq_true.1 this
  simp only [decide_eq_true_eq] at e
  exact e ▸ hq

end DTW
