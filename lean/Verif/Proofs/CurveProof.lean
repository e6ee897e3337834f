import Mathlib.Data.List.Chain
import Verif.Proofs.PatternProof

/-!
# Shape of the curves drawn by rule sequences
-/

namespace DTW
open F64

variable {A : Arith} {rs : List Rule} {W : Nat → Nat → Bool} {L S : Nat → Nat → F64}
  {D : Nat → Nat → Int}

/-- A rule sequence leading from one cell to another. -/
inductive Walk (rs : List Rule) : Nat → Nat → List Int → Nat → Nat → Prop
  | start (i j : Nat) : Walk rs i j [] i j
  | step {i0 j0 ks i j} (k : Nat) (r : Rule) : Walk rs i0 j0 ks i j → rs[k]? = some r →
      Walk rs i0 j0 (ks ++ [(k : Int) + 1]) (i + r.a) (j + r.b)

theorem Trace.toWalk {i0 j0 ks i j} (h : Trace rs D S i0 j0 ks i j) : Walk rs i0 j0 ks i j := by
  induction h with
  | start => exact .start _ _
  | step k r _ hr _ _ ih => exact .step k r ih hr

theorem WarpPath.toWalk {ks i j c} (h : WarpPath A rs W L ks i j c) : Walk rs 0 0 ks i j := by
  induction h with
  | start => exact .start 0 0
  | step k r _ hr _ ih => exact .step k r ih hr

theorem Path.toWalk {i0 j0 ks i j c} (h : Path A rs W L S i0 j0 ks i j c) : Walk rs i0 j0 ks i j := by
  induction h with
  | start => exact .start _ _
  | step k r _ hr _ _ ih => exact .step k r ih hr

theorem WarpPath.toRulePath {ks i j c} (h : WarpPath A rs W L ks i j c) : RulePath rs W ks i j := by
  induction h with
  | start => exact .start
  | step k r _ hr hW ih => exact .step k r ih hr hW

theorem RulePath.toWarpPath {ks i j} (h : RulePath rs W ks i j) : ∃ c, WarpPath A rs W L ks i j c := by
  induction h with
  | start => exact ⟨_, .start⟩
  | step k r _ hr hW ih => obtain ⟨c, hc⟩ := ih; exact ⟨_, .step k r hc hr hW⟩

theorem RulePath.toWalk {ks i j} (h : RulePath rs W ks i j) : Walk rs 0 0 ks i j := by
  induction h with
  | start => exact .start 0 0
  | step k r _ hr hW ih => exact .step k r ih hr

namespace Walk

theorem legal {i0 j0 ks i j} (h : Walk rs i0 j0 ks i j) : Legal rs ks := by
  induction h with
  | start => intro k hk; simp at hk
  | step k r _ hr ih =>
    intro k' hk'
    rw [List.mem_append, List.mem_singleton] at hk'
    rcases hk' with hk' | rfl
    · exact ih k' hk'
    · exact ⟨k, r, rfl, hr⟩

theorem coarse_end {i0 j0 ks i j} (h : Walk rs i0 j0 ks i j) :
    ∃ pts, coarse rs i0 j0 ks = pts ++ [((i : Int), (j : Int))] ∧ pts.length = ks.length := by
  induction h with
  | start => exact ⟨[], rfl, rfl⟩
  | @step ks i j k r hw hr ih =>
    obtain ⟨pts, h1, h2⟩ := ih
    refine ⟨pts ++ [((i : Int), (j : Int))], ?_, by simp [h2]⟩
    rw [coarse_snoc rs ks i0 j0 pts i j k r hr h1 h2]
    push_cast
    simp

theorem fine_snoc {i0 j0 ks i j} (h : Walk rs i0 j0 ks i j) {k : Nat} {r : Rule} (hr : rs[k]? = some r) :
    fine rs i0 j0 (ks ++ [(k : Int) + 1]) = fine rs i0 j0 ks ++ r.fine i j := by
  obtain ⟨pts, h1, h2⟩ := h.coarse_end
  unfold fine
  rw [fineTail_snoc rs ks i0 j0 pts i j k r hr h1 h2]
  rfl

theorem fine_end {i0 j0 ks i j} (h : Walk rs i0 j0 ks i j) :
    (fine rs i0 j0 ks).getLast? = some ((i : Int), (j : Int)) := by
  cases h with
  | start => rfl
  | step k r hw hr =>
    rw [hw.fine_snoc hr]
    simp [Rule.fine]

theorem le_coords {i0 j0 ks i j} (h : Walk rs i0 j0 ks i j) : i0 ≤ i ∧ j0 ≤ j := by
  induction h with
  | start => simp
  | step k r _ _ ih => omega

end Walk

theorem coarse_head (rs : List Rule) (i j : Int) (ks : List Int) :
    (coarse rs i j ks).head? = some (i, j) := by
  cases ks with
  | nil => rfl
  | cons k ks => unfold coarse; split <;> rfl

theorem coarse_cons (rs : List Rule) (i j : Int) (ks : List Int) :
    ∃ t, coarse rs i j ks = (i, j) :: t := by
  cases ks with
  | nil => exact ⟨_, rfl⟩
  | cons k ks => unfold coarse; split <;> exact ⟨_, rfl⟩

/-- The points visited by one application, origin included, in terms of the remaining travel. -/
theorem Rule.cons_fine (r : Rule) (i j : Int) :
    (i, j) :: r.fine i j = r.offsets.map fun u => (i + r.a - u.1, j + r.b - u.2) := by
  simp [Rule.fine, Rule.offsets, List.map_map, Function.comp_def]

theorem Rule.fine_eq (r : Rule) (i j : Int) :
    ∃ X, r.fine i j = X ++ [(i + (r.a : Int), j + (r.b : Int))] := ⟨_, rfl⟩

theorem fine_cons {k : Int} {ks : List Int} {r : Rule} {i j : Int} (hr : rs[(k - 1).toNat]? = some r) :
    ∃ X, r.fine i j = X ++ [(i + (r.a : Int), j + (r.b : Int))] ∧
      fine rs i j (k :: ks) = (i, j) :: X ++ fine rs (i + r.a) (j + r.b) ks := by
  obtain ⟨X, hX⟩ := r.fine_eq i j
  refine ⟨X, hX, ?_⟩
  unfold fine
  rw [fineTail, hr]
  simp [hX]

/-- If every rule advances by amounts satisfying `P`, so does the whole curve. -/
theorem fine_chain (P : Int → Int → Prop) (h : ∀ r ∈ rs, r.Advances P) : ∀ (ks : List Int) (i j : Int),
    (fine rs i j ks).IsChain fun u v => P (v.1 - u.1) (v.2 - u.2) := by
  intro ks
  induction ks with
  | nil => intro i j; simp [fine, fineTail]
  | cons k ks ih =>
    intro i j
    cases hr : rs[(k - 1).toNat]? with
    | none => unfold fine; rw [fineTail, hr]; simp
    | some r =>
      obtain ⟨X, hX, hf⟩ := fine_cons (rs := rs) (ks := ks) (i := i) (j := j) hr
      rw [hf]
      have hih := ih (i + r.a) (j + r.b)
      unfold fine at hih ⊢
      rw [List.isChain_split]
      refine ⟨?_, hih⟩
      have hadv := h r (List.mem_of_getElem? hr)
      have e : (i, j) :: X ++ [(i + (r.a : Int), j + (r.b : Int))] = (i, j) :: r.fine i j := by
        rw [hX]; rfl
      rw [e, Rule.cons_fine, List.isChain_map]
      unfold Rule.Advances at hadv
      refine hadv.imp ?_
      intro u v huv
      have e1 : i + ↑r.a - v.1 - (i + ↑r.a - u.1) = u.1 - v.1 := by ring
      have e2 : j + ↑r.b - v.2 - (j + ↑r.b - u.2) = u.2 - v.2 := by ring
      simpa [e1, e2] using huv

/-- The corner points advance by the deltas of the rules. -/
theorem coarse_chain (P : Int → Int → Prop) (h : ∀ r ∈ rs, P r.a r.b) : ∀ (ks : List Int) (i j : Int),
    (coarse rs i j ks).IsChain fun u v => P (v.1 - u.1) (v.2 - u.2) := by
  intro ks
  induction ks with
  | nil => intro i j; simp [coarse]
  | cons k ks ih =>
    intro i j
    cases hr : rs[(k - 1).toNat]? with
    | none => rw [coarse, hr]; simp
    | some r =>
      rw [coarse, hr]
      simp only
      have hih := ih (i + r.a) (j + r.b)
      obtain ⟨t, ht⟩ := coarse_cons rs (i + r.a) (j + r.b) ks
      rw [ht] at hih ⊢
      rw [List.isChain_cons_cons]
      refine ⟨?_, hih⟩
      have := h r (List.mem_of_getElem? hr)
      simpa using this

theorem coarse_sublist : ∀ (ks : List Int) (i j : Int), (coarse rs i j ks).Sublist (fine rs i j ks) := by
  intro ks
  induction ks with
  | nil => intro i j; simp [coarse, fine]
  | cons k ks ih =>
    intro i j
    cases hr : rs[(k - 1).toNat]? with
    | none => rw [coarse, hr]; simp [fine]
    | some r =>
      obtain ⟨X, hX, hf⟩ := fine_cons (rs := rs) (ks := ks) (i := i) (j := j) hr
      rw [hf, coarse, hr]
      exact List.Sublist.cons_cons _ ((ih _ _).trans (List.sublist_append_right X _))

theorem coarse_length : ∀ (ks : List Int) (i j : Int), Legal rs ks →
    (coarse rs i j ks).length = ks.length + 1 := by
  intro ks
  induction ks with
  | nil => intro i j _; rfl
  | cons k ks ih =>
    intro i j hl
    obtain ⟨q, r, rfl, hr⟩ := hl k (List.mem_cons_self ..)
    rw [coarse]
    have : ((q : Int) + 1 - 1).toNat = q := by omega
    rw [this, hr]
    simp [ih _ _ fun k' hk' => hl k' (List.mem_cons_of_mem _ hk')]

/-- Consecutive corner points differ by the deltas of the rule taken. -/
theorem coarse_deltas : ∀ (ks : List Int) (i j : Int), Legal rs ks → ∀ t (k : Int) (u v : Int × Int),
    ks[t]? = some k → (coarse rs i j ks)[t]? = some u → (coarse rs i j ks)[t + 1]? = some v →
    ∃ (q : Nat) (r : Rule), k = (q : Int) + 1 ∧ rs[q]? = some r ∧ v = (u.1 + r.a, u.2 + r.b) := by
  intro ks
  induction ks with
  | nil => intro i j _ t k u v h; simp at h
  | cons k0 ks ih =>
    intro i j hl t k u v hk hu hv
    obtain ⟨q, r, rfl, hr⟩ := hl k0 (List.mem_cons_self ..)
    rw [coarse] at hu hv
    have hq : ((q : Int) + 1 - 1).toNat = q := by omega
    rw [hq, hr] at hu hv
    simp only at hu hv
    cases t with
    | zero =>
      simp only [List.getElem?_cons_zero, Option.some.injEq] at hk hu
      refine ⟨q, r, hk.symm, hr, ?_⟩
      obtain ⟨t, ht⟩ := coarse_cons rs (i + r.a) (j + r.b) ks
      rw [ht] at hv
      simp only [Nat.zero_add, List.getElem?_cons_succ, List.getElem?_cons_zero, Option.some.injEq] at hv
      rw [← hv, ← hu]
    | succ t =>
      simp only [List.getElem?_cons_succ] at hk hu hv
      exact ih _ _ (fun k' hk' => hl k' (List.mem_cons_of_mem _ hk')) t k u v hk hu hv

/-- Points of a rule application lie between its origin and its end. -/
theorem Rule.fine_range {r : Rule} (hv : r.Valid) {i j : Int} {u : Int × Int} (hu : u ∈ r.fine i j) :
    i ≤ u.1 ∧ u.1 ≤ i + r.a ∧ j ≤ u.2 ∧ u.2 ≤ j + r.b := by
  unfold Rule.fine at hu
  rw [List.mem_append, List.mem_singleton, List.mem_map] at hu
  rcases hu with ⟨t, ht, rfl⟩ | rfl
  · have := (hv.2 t ((List.mem_filter.1 ht).1)).2
    simp only
    omega
  · simp only; omega

theorem Walk.fine_range (hv : ∀ r ∈ rs, r.Valid) {i0 j0 ks i j} (h : Walk rs i0 j0 ks i j) :
    ∀ u ∈ fine rs i0 j0 ks, (i0 : Int) ≤ u.1 ∧ u.1 ≤ i ∧ (j0 : Int) ≤ u.2 ∧ u.2 ≤ j := by
  induction h with
  | start =>
    intro u hu
    simp [fine, fineTail] at hu
    subst hu; simp
  | @step ks i j k r hw hr ih =>
    intro u hu
    rw [hw.fine_snoc hr, List.mem_append] at hu
    have := hw.le_coords
    rcases hu with hu | hu
    · have := ih u hu; omega
    · have := Rule.fine_range (hv r (List.mem_of_getElem? hr)) hu; omega

theorem Walk.coarse_range (hv : ∀ r ∈ rs, r.Valid) {i0 j0 ks i j} (h : Walk rs i0 j0 ks i j) :
    ∀ u ∈ coarse rs i0 j0 ks, (i0 : Int) ≤ u.1 ∧ u.1 ≤ i ∧ (j0 : Int) ≤ u.2 ∧ u.2 ≤ j :=
  fun u hu => h.fine_range hv u ((coarse_sublist ks _ _).subset hu)

theorem zip_fst_snd {α β} (l : List (α × β)) : (l.map Prod.fst).zip (l.map Prod.snd) = l := by
  induction l with
  | nil => rfl
  | cons x xs ih => simp [ih]

/-- A chain of non-decreasing points is non-decreasing in each coordinate. -/
theorem pairwise_of_chain {l : List (Int × Int)}
    (h : l.IsChain fun u v => 0 ≤ v.1 - u.1 ∧ 0 ≤ v.2 - u.2) :
    (l.map Prod.fst).Pairwise (· ≤ ·) ∧ (l.map Prod.snd).Pairwise (· ≤ ·) := by
  have h1 : (l.map Prod.fst).IsChain (· ≤ ·) := by
    rw [List.isChain_map]
    exact h.imp fun u v huv => by omega
  have h2 : (l.map Prod.snd).IsChain (· ≤ ·) := by
    rw [List.isChain_map]
    exact h.imp fun u v huv => by omega
  exact ⟨List.isChain_iff_pairwise.1 h1, List.isChain_iff_pairwise.1 h2⟩

/-- Every bundled pattern lists the intermediate points of its rules in walking order. -/
theorem table_ordered : ∀ q ∈ Pat.table, ∀ r ∈ rulesOf q.2, r.Ordered := by
  have : (Pat.table.all fun q => (rulesOf q.2).all fun r => decide r.Ordered) = true := by decide +kernel
  intro q hq r hr
  exact of_decide_eq_true (List.all_eq_true.1 (List.all_eq_true.1 this q hq) r hr)

/-- The mapping of a successful full closed-begin run. -/
theorem closed_mapping {a : Args} {n m p} (h : Problem a n m L W p rs) (hob : a.openBegin = false)
    {r : Result} {mp : Mapping} (hr : dtw A a = .ok r) (hmp : r.mapping = some mp) :
    ∃ (j : Nat) (ks : List Int), r.jmin = j ∧ j < m ∧ (a.openEnd = false → j = m - 1) ∧
      mp = curve rs 0 0 ks ∧ WarpPath A rs W L ks (n - 1) j r.distance := by
  obtain ⟨G, D, qr, hB, _, hd⟩ := dtw_closed A h hob
  obtain ⟨j, ks, hrun⟩ := closed_ok h hob hB hd hr
  refine ⟨j, ks, by rw [hrun.result]; rfl, hrun.endAt.lt, hrun.endAt.closed, ?_, ?_⟩
  · rw [hrun.result] at hmp
    simp only [mkResult] at hmp
    cases hdo : a.distanceOnly with
    | true => rw [hdo] at hmp; simp at hmp
    | false =>
      rw [hdo] at hmp
      simpa using hmp.symm
  · have : r.distance = G (n - 1) j := by rw [hrun.result]; rfl
    rw [this]; exact hrun.path

end DTW
