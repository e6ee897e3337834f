import Verif.Proofs.TextbookProof

/-!
# C53: the distance is the textbook one

Exact arithmetic, finite local costs.  (C49 and C50 transfer the distance to double precision.)
-/

namespace DTW
open F64

variable {a : Args} {n m : Nat} {ℓ : Nat → Nat → ℚ} {W : Nat → Nat → Bool} {p : StepPattern} {rs : List Rule}
  {r : Result}

/-- `dtw` succeeds iff some object satisfies `P`, and the distance is the least of their costs. -/
def ComputesLeast {α : Type} (a : Args) (P : α → Prop) (cost : α → ℚ) : Prop :=
  ((∃ r, dtw Arith.exact a = .ok r) ↔ ∃ w, P w) ∧
  ∀ r, dtw Arith.exact a = .ok r → ∃ d, r.distance = fin d ∧ IsLeast {c | ∃ w, P w ∧ c = cost w} d

theorem Reads.computes {Lang : List Move → Prop} {wt : Move → ℚ} (hR : Reads rs W wt Lang)
    (h : Problem a n m (fun i j => fin (ℓ i j)) W p rs) (hob : a.openBegin = false) (hoe : a.openEnd = false)
    {P : List Move → Prop} {cost : List Move → ℚ} (hP : ∀ w, P w ↔ Lang w ∧ endOf (0, 0) w = (n - 1, m - 1))
    (hc : ∀ w, cost w = ℓ 0 0 + moveCost wt ℓ (0, 0) w) : ComputesLeast a P cost := by
  obtain ⟨h1, h2⟩ := hR.least h hob hoe
  unfold ComputesLeast
  simp only [hP, hc]
  exact ⟨h1, h2⟩

/-- C53.  `symmetric1`: the least sum of local costs over the points of a warping curve from corner to corner, all of
whose points but the first are inside the window. -/
theorem C53_symmetric1
    (h : Problem a n m (fun i j => fin (ℓ i j)) W Pat.symmetric1 (rulesOf Pat.symmetric1))
    (hob : a.openBegin = false) (hoe : a.openEnd = false) :
    ComputesLeast a (fun w => IsCurve W w (n - 1) (m - 1)) (plainCost ℓ) := by
  have hE : Elementary (rulesOf Pat.symmetric1) (fun _ => 1) := by
    have e : rulesOf Pat.symmetric1 = [⟨1, 1, [⟨0, 0, 1⟩]⟩, ⟨0, 1, [⟨0, 0, 1⟩]⟩, ⟨1, 0, [⟨0, 0, 1⟩]⟩] := by
      decide +kernel
    rw [e]
    refine ⟨?_, ?_⟩
    · intro r hr
      simp only [List.mem_cons, List.not_mem_nil, or_false] at hr
      rcases hr with rfl | rfl | rfl
      · exact ⟨.both, rfl⟩
      · exact ⟨.ref, rfl⟩
      · exact ⟨.query, rfl⟩
    · intro x; cases x <;> simp [Move.delta]
  exact hE.reads.computes h hob hoe (fun w => by unfold IsCurve; exact and_comm) plainCost_eq

/-- C53.  `symmetric2` (the default) and its other name `symmetricP0`: the least symmetric-form cost of a warping
curve. -/
theorem C53_symmetric2 (hp : p = Pat.symmetric2 ∨ p = Pat.symmetricP0)
    (h : Problem a n m (fun i j => fin (ℓ i j)) W p (rulesOf p))
    (hob : a.openBegin = false) (hoe : a.openEnd = false) :
    ComputesLeast a (fun w => IsCurve W w (n - 1) (m - 1)) (symmetricCost ℓ) := by
  have e : rulesOf p = [⟨1, 1, [⟨0, 0, 2⟩]⟩, ⟨0, 1, [⟨0, 0, 1⟩]⟩, ⟨1, 0, [⟨0, 0, 1⟩]⟩] := by
    rcases hp with rfl | rfl <;> decide +kernel
  have hE : Elementary (rulesOf p) symWt := by
    rw [e]
    have w1 : symWt .both = 2 := by decide +kernel
    have w2 : symWt .ref = 1 := by decide +kernel
    have w3 : symWt .query = 1 := by decide +kernel
    refine ⟨?_, ?_⟩
    · intro r hr
      simp only [List.mem_cons, List.not_mem_nil, or_false] at hr
      rcases hr with rfl | rfl | rfl
      · exact ⟨.both, by simp [w1, Move.delta]⟩
      · exact ⟨.ref, by simp [w2, Move.delta]⟩
      · exact ⟨.query, by simp [w3, Move.delta]⟩
    · intro x; cases x <;> simp [Move.delta, w1, w2, w3]
  exact hE.reads.computes h hob hoe (fun w => by unfold IsCurve; exact and_comm) (fun w => rfl)

/-- C53.  `asymmetricP0`: the least asymmetric-form cost of a warping curve. -/
theorem C53_asymmetricP0
    (h : Problem a n m (fun i j => fin (ℓ i j)) W Pat.asymmetricP0 (rulesOf Pat.asymmetricP0))
    (hob : a.openBegin = false) (hoe : a.openEnd = false) :
    ComputesLeast a (fun w => IsCurve W w (n - 1) (m - 1)) (asymmetricCost ℓ) := by
  have hE : Elementary (rulesOf Pat.asymmetricP0) (fun x => ((x.delta.1 : Nat) : ℚ)) := by
    have e : rulesOf Pat.asymmetricP0 = [⟨0, 1, [⟨0, 0, 0⟩]⟩, ⟨1, 1, [⟨0, 0, 1⟩]⟩, ⟨1, 0, [⟨0, 0, 1⟩]⟩] := by
      decide +kernel
    rw [e]
    refine ⟨?_, ?_⟩
    · intro r hr
      simp only [List.mem_cons, List.not_mem_nil, or_false] at hr
      rcases hr with rfl | rfl | rfl
      · exact ⟨.ref, by simp [Move.delta]⟩
      · exact ⟨.both, by simp [Move.delta]⟩
      · exact ⟨.query, by simp [Move.delta]⟩
    · intro x; cases x <;> simp [Move.delta]
  exact hE.reads.computes h hob hoe (fun w => by unfold IsCurve; exact and_comm) (fun w => rfl)

/-- C53.  `symmetricP1`, no window: the least symmetric-form cost of a warping curve that satisfies Sakoe and Chiba's
slope constraint P = 1. -/
theorem C53_symmetricP1
    (h : Problem a n m (fun i j => fin (ℓ i j)) (fun _ _ => true) Pat.symmetricP1 (rulesOf Pat.symmetricP1))
    (hob : a.openBegin = false) (hoe : a.openEnd = false) :
    ComputesLeast a (fun w => SlopeP1 w ∧ endOf (0, 0) w = (n - 1, m - 1)) (symmetricCost ℓ) := by
  have e : rulesOf Pat.symmetricP1 = [⟨1, 2, [⟨0, 1, 2⟩, ⟨0, 0, 1⟩]⟩, ⟨1, 1, [⟨0, 0, 2⟩]⟩,
      ⟨2, 1, [⟨1, 0, 2⟩, ⟨0, 0, 1⟩]⟩] := by decide +kernel
  have hR : Reads (rulesOf Pat.symmetricP1) (fun _ _ => true) symWt SlopeP1 := by
    refine reads_of_blocks [[Move.both], [.both, .ref], [.both, .query]] ?_ ?_ slopeP1_blocks
      (fun w v hw hv => hw.append hv) (by intro k x h; simp at h) (fun w hw => hw.split)
    · rw [e]
      intro r hr
      simp only [List.mem_cons, List.not_mem_nil, or_false] at hr
      rcases hr with rfl | rfl | rfl
      · exact ⟨_, by simp, readsAs_DR⟩
      · exact ⟨_, by simp, readsAs_D⟩
      · exact ⟨_, by simp, readsAs_DQ⟩
    · rw [e]
      intro b hb
      simp only [List.mem_cons, List.not_mem_nil, or_false] at hb
      rcases hb with rfl | rfl | rfl
      · exact ⟨by simp, _, by simp, readsAs_D⟩
      · exact ⟨by simp, _, by simp, readsAs_DR⟩
      · exact ⟨by simp, _, by simp, readsAs_DQ⟩
  exact hR.computes h hob hoe (fun w => Iff.rfl) (fun w => rfl)

/-- C53.  `symmetricP05`, no window: the same with P = 1/2. -/
theorem C53_symmetricP05
    (h : Problem a n m (fun i j => fin (ℓ i j)) (fun _ _ => true) Pat.symmetricP05 (rulesOf Pat.symmetricP05))
    (hob : a.openBegin = false) (hoe : a.openEnd = false) :
    ComputesLeast a (fun w => SlopeP05 w ∧ endOf (0, 0) w = (n - 1, m - 1)) (symmetricCost ℓ) := by
  have e : rulesOf Pat.symmetricP05 = [⟨1, 3, [⟨0, 2, 2⟩, ⟨0, 1, 1⟩, ⟨0, 0, 1⟩]⟩, ⟨1, 2, [⟨0, 1, 2⟩, ⟨0, 0, 1⟩]⟩,
      ⟨1, 1, [⟨0, 0, 2⟩]⟩, ⟨2, 1, [⟨1, 0, 2⟩, ⟨0, 0, 1⟩]⟩, ⟨3, 1, [⟨2, 0, 2⟩, ⟨1, 0, 1⟩, ⟨0, 0, 1⟩]⟩] := by
    decide +kernel
  have hR : Reads (rulesOf Pat.symmetricP05) (fun _ _ => true) symWt SlopeP05 := by
    refine reads_of_blocks [[Move.both], [.both, .ref], [.both, .query], [.both, .ref, .ref], [.both, .query, .query]]
      ?_ ?_ slopeP05_blocks (fun w v hw hv => hw.append hv) (by intro k x h; simp at h) (fun w hw => hw.split)
    · rw [e]
      intro r hr
      simp only [List.mem_cons, List.not_mem_nil, or_false] at hr
      rcases hr with rfl | rfl | rfl | rfl | rfl
      · exact ⟨_, by simp, readsAs_DRR⟩
      · exact ⟨_, by simp, readsAs_DR⟩
      · exact ⟨_, by simp, readsAs_D⟩
      · exact ⟨_, by simp, readsAs_DQ⟩
      · exact ⟨_, by simp, readsAs_DQQ⟩
    · rw [e]
      intro b hb
      simp only [List.mem_cons, List.not_mem_nil, or_false] at hb
      rcases hb with rfl | rfl | rfl | rfl | rfl
      · exact ⟨by simp, _, by simp, readsAs_D⟩
      · exact ⟨by simp, _, by simp, readsAs_DR⟩
      · exact ⟨by simp, _, by simp, readsAs_DQ⟩
      · exact ⟨by simp, _, by simp, readsAs_DRR⟩
      · exact ⟨by simp, _, by simp, readsAs_DQQ⟩
  exact hR.computes h hob hoe (fun w => Iff.rfl) (fun w => rfl)

/-- C53.  `symmetricP2`, no window: the same with P = 2. -/
theorem C53_symmetricP2
    (h : Problem a n m (fun i j => fin (ℓ i j)) (fun _ _ => true) Pat.symmetricP2 (rulesOf Pat.symmetricP2))
    (hob : a.openBegin = false) (hoe : a.openEnd = false) :
    ComputesLeast a (fun w => SlopeP2 w ∧ endOf (0, 0) w = (n - 1, m - 1)) (symmetricCost ℓ) := by
  have e : rulesOf Pat.symmetricP2 = [⟨2, 3, [⟨1, 2, 2⟩, ⟨0, 1, 2⟩, ⟨0, 0, 1⟩]⟩, ⟨1, 1, [⟨0, 0, 2⟩]⟩,
      ⟨3, 2, [⟨2, 1, 2⟩, ⟨1, 0, 2⟩, ⟨0, 0, 1⟩]⟩] := by decide +kernel
  have hR : Reads (rulesOf Pat.symmetricP2) (fun _ _ => true) symWt SlopeP2 := by
    refine reads_of_blocks [[Move.both], [.both, .both, .ref], [.both, .both, .query]] ?_ ?_ slopeP2_blocks
      (fun w v hw hv => hw.append hv) (by intro k x h; simp at h) (fun w hw => hw.split)
    · rw [e]
      intro r hr
      simp only [List.mem_cons, List.not_mem_nil, or_false] at hr
      rcases hr with rfl | rfl | rfl
      · exact ⟨_, by simp, readsAs_DDR⟩
      · exact ⟨_, by simp, readsAs_D⟩
      · exact ⟨_, by simp, readsAs_DDQ⟩
    · rw [e]
      intro b hb
      simp only [List.mem_cons, List.not_mem_nil, or_false] at hb
      rcases hb with rfl | rfl | rfl
      · exact ⟨by simp, _, by simp, readsAs_D⟩
      · exact ⟨by simp, _, by simp, readsAs_DDR⟩
      · exact ⟨by simp, _, by simp, readsAs_DDQ⟩
  exact hR.computes h hob hoe (fun w => Iff.rfl) (fun w => rfl)

/-! ### Warping functions -/

/-- Every rule consumes one query element and charges the point reached with weight 1; the jumps it makes in the
reference are described by `jump`. -/
structure FnRules (rs : List Rule) (jump : Nat → Nat → Prop) : Prop where
  rule : ∀ r ∈ rs, r.a = 1 ∧ r.terms = [⟨0, 0, 1⟩] ∧ ∀ j, jump j (j + r.b)
  has : ∀ j j', jump j j' → ∃ r ∈ rs, j' = j + r.b

theorem fnCost_succ (ℓ : Nat → Nat → ℚ) (n : Nat) (f : Nat → Nat) :
    fnCost ℓ (n + 1) f = fnCost ℓ n f + ℓ n (f n) := by
  simp [fnCost, List.range_succ]

theorem fnCost_congr (ℓ : Nat → Nat → ℚ) {n : Nat} {f g : Nat → Nat} (h : ∀ i < n, f i = g i) :
    fnCost ℓ n f = fnCost ℓ n g := by
  unfold fnCost
  congr 1
  apply List.map_congr_left
  intro i hi
  rw [h i (List.mem_range.1 hi)]

theorem FnRules.toFn {jump : Nat → Nat → Prop} (hF : FnRules rs jump) {ks i j c}
    (h : WarpPath Arith.exact rs W (fun i j => fin (ℓ i j)) ks i j c) :
    ∃ f, IsWarpFn jump W (i + 1) j f ∧ c = fin (fnCost ℓ (i + 1) f) := by
  induction h with
  | start =>
    refine ⟨fun _ => 0, ⟨rfl, rfl, fun i hi => ?_, fun i hi => ?_⟩, by simp [fnCost]⟩ <;> omega
  | @step ks i j c k r _ hr hW ih =>
    obtain ⟨f, hf, rfl⟩ := ih
    obtain ⟨h1, h2, h3⟩ := hF.rule r (List.mem_of_getElem? hr)
    rw [h1] at hW ⊢
    have hfi : f i = j := by simpa using hf.last
    let g : Nat → Nat := fun t => if t = i + 1 then j + r.b else f t
    have hg : ∀ t, t < i + 1 → g t = f t := fun t ht => if_neg (by omega)
    have hg1 : g (i + 1) = j + r.b := if_pos rfl
    refine ⟨g, ⟨?_, ?_, ?_, ?_⟩, ?_⟩
    · rw [hg 0 (by omega)]; exact hf.first
    · simpa using hg1
    · intro t ht
      by_cases hti : t = i
      · subst hti; rw [hg1, hg t (by omega), hfi]; exact h3 j
      · rw [hg t (by omega), hg (t + 1) (by omega)]; exact hf.jumps t (by omega)
    · intro t ht
      by_cases hti : t = i
      · subst hti; rw [hg1]; exact hW
      · rw [hg (t + 1) (by omega)]; exact hf.window t (by omega)
    · rw [charge_one ℓ h2, fnCost_succ ℓ (i + 1) g, hg1, fnCost_congr ℓ (g := f) hg, one_mul]

theorem FnRules.toPath {jump : Nat → Nat → Prop} (hF : FnRules rs jump) {f : Nat → Nat} :
    ∀ (i j : Nat), IsWarpFn jump W (i + 1) j f →
      ∃ ks, WarpPath Arith.exact rs W (fun i j => fin (ℓ i j)) ks i j (fin (fnCost ℓ (i + 1) f)) := by
  intro i
  induction i with
  | zero =>
    intro j hf
    have h0 := hf.first
    have hl := hf.last
    simp only [Nat.zero_add, Nat.sub_self] at hl
    rw [h0] at hl
    subst hl
    exact ⟨[], by simpa [fnCost, h0] using WarpPath.start⟩
  | succ i ih =>
    intro j hf
    have hl : f (i + 1) = j := by simpa using hf.last
    obtain ⟨ks, hp⟩ := ih (f i) ⟨hf.first, by simp, fun t ht => hf.jumps t (by omega),
      fun t ht => hf.window t (by omega)⟩
    obtain ⟨r, hr, hj⟩ := hF.has _ _ (hf.jumps i (by omega))
    obtain ⟨h1, h2, _⟩ := hF.rule r hr
    obtain ⟨k, hk⟩ := List.mem_iff_getElem?.1 hr
    have hW := hf.window i (by omega)
    have hs := WarpPath.step k r hp hk (by rw [h1, ← hj]; exact hW)
    rw [charge_one ℓ h2, h1, ← hj, hl] at hs
    rw [one_mul] at hs
    exact ⟨ks ++ [(k : Int) + 1], by rw [fnCost_succ ℓ (i + 1) f, hl]; exact hs⟩

theorem FnRules.computes {jump : Nat → Nat → Prop} (hF : FnRules rs jump)
    (h : Problem a n m (fun i j => fin (ℓ i j)) W p rs) (hob : a.openBegin = false) (hoe : a.openEnd = false) :
    ComputesLeast a (IsWarpFn jump W n (m - 1)) (fnCost ℓ n) := by
  have hn := h.n_pos
  obtain ⟨n, rfl⟩ : ∃ n', n = n' + 1 := ⟨n - 1, by omega⟩
  constructor
  · rw [exact_success_iff h hob hoe]
    constructor
    · rintro ⟨ks, hp⟩
      obtain ⟨c, hc⟩ := hp.toWarpPath (A := Arith.exact) (L := fun i j => fin (ℓ i j))
      obtain ⟨f, hf, _⟩ := hF.toFn hc
      exact ⟨f, hf⟩
    · rintro ⟨f, hf⟩
      obtain ⟨ks, hp⟩ := hF.toPath (ℓ := ℓ) n (m - 1) hf
      exact ⟨ks, hp.toRulePath⟩
  · intro r hr
    obtain ⟨⟨ks, hp⟩, hmin⟩ := C01_distance_optimal h hob hoe hr
    obtain ⟨f, hf, hd⟩ := hF.toFn hp
    refine ⟨_, hd, ⟨f, hf, rfl⟩, ?_⟩
    rintro c ⟨g, hg, rfl⟩
    obtain ⟨ks', hp'⟩ := hF.toPath (ℓ := ℓ) n (m - 1) hg
    have := (hmin ks' _ hp' (by simp)).2.2
    rw [hd] at this
    simpa [F64.lt] using this

theorem asymmetric_fnRules : FnRules (rulesOf Pat.asymmetric) (fun j j' => j ≤ j' ∧ j' ≤ j + 2) := by
  have e : rulesOf Pat.asymmetric = [⟨1, 0, [⟨0, 0, 1⟩]⟩, ⟨1, 1, [⟨0, 0, 1⟩]⟩, ⟨1, 2, [⟨0, 0, 1⟩]⟩] := by
    decide +kernel
  rw [e]
  constructor
  · intro r hr
    simp only [List.mem_cons, List.not_mem_nil, or_false] at hr
    rcases hr with rfl | rfl | rfl <;> exact ⟨rfl, rfl, fun j => ⟨by simp only; omega, by simp only; omega⟩⟩
  · rintro j j' ⟨h1, h2⟩
    obtain ⟨d, rfl⟩ := Nat.exists_eq_add_of_le h1
    have : d = 0 ∨ d = 1 ∨ d = 2 := by omega
    rcases this with rfl | rfl | rfl
    · exact ⟨⟨1, 0, [⟨0, 0, 1⟩]⟩, by simp, rfl⟩
    · exact ⟨⟨1, 1, [⟨0, 0, 1⟩]⟩, by simp, rfl⟩
    · exact ⟨⟨1, 2, [⟨0, 0, 1⟩]⟩, by simp, rfl⟩

theorem mvm_fnRules (e : Nat) : FnRules (mvmRules e) (fun j j' => j < j' ∧ j' ≤ j + e) := by
  constructor
  · intro r hr
    simp only [mvmRules, List.mem_map, List.mem_range] at hr
    obtain ⟨k, hk, rfl⟩ := hr
    exact ⟨rfl, rfl, fun j => ⟨by simp only; omega, by simp only; omega⟩⟩
  · rintro j j' ⟨h1, h2⟩
    refine ⟨⟨1, (j' - j - 1) + 1, [⟨0, 0, 1⟩]⟩, List.mem_map.2 ⟨j' - j - 1, List.mem_range.2 (by omega), rfl⟩, ?_⟩
    simp only; omega

theorem rigid_fnRules : FnRules (rulesOf Pat.rigid) (fun j j' => j' = j + 1) := by
  have e : rulesOf Pat.rigid = [⟨1, 1, [⟨0, 0, 1⟩]⟩] := by decide +kernel
  rw [e]
  constructor
  · intro r hr
    rw [List.mem_singleton] at hr
    subst hr
    exact ⟨rfl, rfl, fun j => rfl⟩
  · rintro j j' rfl
    exact ⟨_, List.mem_singleton.2 rfl, rfl⟩

/-- C53.  `asymmetric`: the least sum of local costs over the warping functions that match every query element, fix
both ends and advance by 0, 1 or 2 reference elements. -/
theorem C53_asymmetric (h : Problem a n m (fun i j => fin (ℓ i j)) W Pat.asymmetric (rulesOf Pat.asymmetric))
    (hob : a.openBegin = false) (hoe : a.openEnd = false) :
    ComputesLeast a (IsWarpFn (fun j j' => j ≤ j' ∧ j' ≤ j + 2) W n (m - 1)) (fnCost ℓ n) :=
  asymmetric_fnRules.computes h hob hoe

/-- C53.  Minimum variance matching: the least sum over the strictly increasing warping functions whose jumps are at
most the elasticity. -/
theorem C53_mvm {e : Nat} (h : Problem a n m (fun i j => fin (ℓ i j)) W (mvmStepPattern e) (mvmRules e))
    (hob : a.openBegin = false) (hoe : a.openEnd = false) :
    ComputesLeast a (IsWarpFn (fun j j' => j < j' ∧ j' ≤ j + e) W n (m - 1)) (fnCost ℓ n) :=
  (mvm_fnRules e).computes h hob hoe

/-- C53.  `rigid`: there is only the diagonal; the distance is the lock-step sum. -/
theorem C53_rigid (h : Problem a n m (fun i j => fin (ℓ i j)) (fun _ _ => true) Pat.rigid (rulesOf Pat.rigid))
    (hob : a.openBegin = false) (hoe : a.openEnd = false) :
    ((∃ r, dtw Arith.exact a = .ok r) ↔ n = m) ∧
    ∀ r, dtw Arith.exact a = .ok r → r.distance = fin (fnCost ℓ n fun i => i) := by
  have hn := h.n_pos
  have hm := h.m_pos
  obtain ⟨h1, h2⟩ := rigid_fnRules.computes h hob hoe
  have key : ∀ {f}, IsWarpFn (fun j j' => j' = j + 1) (fun _ _ => true) n (m - 1) f → ∀ i < n, f i = i := by
    intro f hf i
    induction i with
    | zero => intro _; exact hf.first
    | succ i ih => intro hi; rw [hf.jumps i hi, ih (by omega)]
  constructor
  · rw [h1]
    constructor
    · rintro ⟨f, hf⟩
      have := key hf (n - 1) (by omega)
      rw [hf.last] at this
      omega
    · rintro rfl
      exact ⟨fun i => i, rfl, rfl, fun _ _ => rfl, fun _ _ => rfl⟩
  · intro r hr
    obtain ⟨d, hd, ⟨f, hf, rfl⟩, _⟩ := h2 r hr
    rw [hd, fnCost_congr ℓ (key hf)]

/-! ### Non-vacuity -/

/-- The 3 × 4 example matrix as rationals. -/
def Ex.ell : Nat → Nat → ℚ := fun i j => ((i : ℚ) - j) * ((i : ℚ) - j) + i

example : Problem { x := .d2 (Mat.ofFn 3 4 fun i j => fin (Ex.ell i j)), stepPattern := .name "symmetricP1" } 3 4
      (fun i j => fin (Ex.ell i j)) (fun _ _ => true) Pat.symmetricP1 (rulesOf Pat.symmetricP1) ∧
    ((dtw Arith.exact { x := .d2 (Mat.ofFn 3 4 fun i j => fin (Ex.ell i j)), stepPattern := .name "symmetricP1" }
      ).toOption.map (·.distance)) = some (fin 9) ∧
    SlopeP1 [.both, .both, .ref] ∧ endOf (0, 0) [.both, .both, .ref] = (3 - 1, 4 - 1) ∧
    symmetricCost Ex.ell [.both, .both, .ref] = 9 := by
  refine ⟨⟨by decide, by decide, .matrix rfl rfl rfl rfl, by decide +kernel, wf_of_check (by decide +kernel),
    fits_of_check (by decide +kernel), .inl ⟨rfl, fun _ _ _ _ => rfl⟩⟩, by decide +kernel, ?_, rfl, by decide +kernel⟩
  exact (slopeP1_blocks [.both] (by simp)).append (slopeP1_blocks [.both, .ref] (by simp))

end DTW
