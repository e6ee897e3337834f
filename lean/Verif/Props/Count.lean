import Verif.Proofs.CountProof
import Verif.Props.Options
import Verif.Props.PathShape
import Mathlib.Data.Finset.Lattice.Fold
import Mathlib.Data.Finset.Prod

/-!
# C35, C36: countPaths

`HasCount P k` (Spec.lean) says that exactly `k` objects satisfy `P`; `RulePath` (Spec.lean) are the
admissible rule sequences from `(0,0)`.  `ExactUpTo A B` says that integers up to `B` are doubles
(`B = 2^53` for float64).
-/

namespace DTW
open F64

variable {A : Arith} {rs : List Rule} {W : Nat → Nat → Bool} {n m : Nat} {p : StepPattern} {d : Result}
  {a : Args} {r : Result}

/-- No charged weight lies in `(-2,-1)`: `_mkDirDeltas` (stepPattern.py:263-266) truncates weights to
integers before looking for the marker -1. -/
def MarkersSurvive (rs : List Rule) : Prop := ∀ r ∈ rs, ∀ t ∈ r.terms, trunc t.w ≠ -1

instance (rs : List Rule) : Decidable (MarkersSurvive rs) := by unfold MarkersSurvive; infer_instance

theorem pyGet_neg_one_neg_one {α} {n m : Nat} (f : Nat → Nat → α) (hn : 0 < n) (hm : 0 < m) :
    (Mat.ofFn n m f).pyGet (-1) (-1) = .ok (f (n - 1) (m - 1)) := by
  have := pyGet_neg_one (n := n) (m := m) (j := m - 1) f hn (by omega)
  unfold Mat.pyGet at this ⊢
  have hc : (Mat.ofFn n m f).cols = m := rfl
  rw [hc] at this ⊢
  have h1 : ¬ (((m - 1 : Nat) : Int) < 0) := by omega
  have h2 : (-1 : Int) < 0 := by omega
  have e : (-1 : Int) + (m : Int) = ((m - 1 : Nat) : Int) := by omega
  simp only [h1, h2, if_true, if_false, e] at this ⊢
  exact this

theorem count_rulePath (hv : ∀ r ∈ rs, r.Valid) {i j c : Nat}
    (h : HasCount (To rs W (countSeed false) i j) c) : HasCount (fun ks => RulePath rs W ks i j) c := by
  refine (h.image Prod.snd ?_).congr ?_
  · intro x y hx hy hxy
    have h1 := ((seeded_closed hv x i j).1 hx).1
    have h2 := ((seeded_closed hv y i j).1 hy).1
    exact Prod.ext (h1.trans h2.symm) hxy
  · intro ks
    constructor
    · rintro ⟨x, hx, rfl⟩
      exact ((seeded_closed hv x i j).1 hx).2
    · intro hks
      exact ⟨((0, 0), ks), (seeded_closed hv _ i j).2 ⟨rfl, hks⟩, rfl⟩

/-- **C35** (`countPaths(d, debug=True)`).  The matrix returned in debug mode holds, at `(i,j)`, the number of
admissible rule sequences from `(0,0)` to `(i,j)`, provided all these numbers are exactly representable. -/
theorem C35_debug_matrix {B : Nat} (hA : ExactUpTo A B) (hp : WF p rs) (ht : MarkersSurvive rs)
    (hd : AboutProblem d n m p W) (hob : d.openBegin = false) (hn : 0 < n) (hm : 0 < m)
    (hB : ∀ i < n, ∀ j < m, ∀ c, HasCount (fun ks => RulePath rs W ks i j) c → c ≤ B) :
    ∃ f : Nat → Nat → Nat, countMatrix A d = .ok (Mat.ofFn n m fun i j => fin (f i j : ℚ)) ∧
      ∀ i < n, ∀ j < m, HasCount (fun ks => RulePath rs W ks i j) (f i j) := by
  obtain ⟨f, h0, h1, h2, h3⟩ := exists_table (W := W) (seed := countSeed false) hp.valid
  refine ⟨f, ?_, fun i _ j _ => count_rulePath hp.valid (h0 i j)⟩
  refine countMatrix_spec hA hp ht hd hn hm ?_ ?_ ?_ fun i hi j hj => hB i hi j hj _ (count_rulePath hp.valid (h0 i j))
  · rw [hob]; exact h1
  · rw [hob]; exact h2
  · rw [hob]; exact h3

/-- **C35** (closed begin and end).  `countPaths(d)` is the number of admissible rule sequences from `(0,0)` to
`(N-1,M-1)`. -/
theorem C35_closed {B : Nat} (hA : ExactUpTo A B) (hp : WF p rs) (ht : MarkersSurvive rs)
    (hd : AboutProblem d n m p W) (hob : d.openBegin = false) (hoe : d.openEnd = false)
    (hn : 0 < n) (hm : 0 < m)
    (hB : ∀ i < n, ∀ j < m, ∀ c, HasCount (fun ks => RulePath rs W ks i j) c → c ≤ B) :
    ∃ k : Nat, countPaths A d = .ok (k : Int) ∧ HasCount (fun ks => RulePath rs W ks (n - 1) (m - 1)) k := by
  obtain ⟨f, hcm, hf⟩ := C35_debug_matrix hA hp ht hd hob hn hm hB
  refine ⟨f (n - 1) (m - 1), ?_, hf _ (by omega) _ (by omega)⟩
  unfold countPaths
  rw [hcm, Except_bind_ok, hoe]
  simp only [Bool.false_eq_true, if_false]
  rw [pyGet_neg_one_neg_one _ hn hm, Except_bind_ok, pyInt_nat]

theorem hasCount_lastRow {i : Nat} {f : Nat → Nat}
    (hf : ∀ j < m, HasCount (fun ks => RulePath rs W ks i j) (f j)) :
    HasCount (fun x : Nat × List Int => x.1 < m ∧ RulePath rs W x.2 i x.1) (((List.range m).map f).sum) := by
  refine (HasCount.sum m (P := fun j x => x.1 = j ∧ RulePath rs W x.2 i j) ?_ ?_).congr ?_
  · intro j hj
    refine ((hf j hj).image (fun ks => (j, ks)) ?_).congr ?_
    · intro x y _ _ hxy
      exact (Prod.mk.inj hxy).2
    · rintro ⟨j', ks⟩
      constructor
      · rintro ⟨ks', h1, h2⟩
        simp only [Prod.mk.injEq] at h2
        obtain ⟨rfl, rfl⟩ := h2
        exact ⟨rfl, h1⟩
      · rintro ⟨h1, h2⟩
        simp only at h1 h2
        subst h1
        exact ⟨ks, h2, rfl⟩
  · rintro k _ k' _ x ⟨h1, _⟩ ⟨h2, _⟩
    exact h1.symm.trans h2
  · rintro ⟨j, ks⟩
    constructor
    · rintro ⟨k, hk, rfl, h⟩; exact ⟨hk, h⟩
    · rintro ⟨h1, h2⟩; exact ⟨j, h1, rfl, h2⟩

/-- **C35** (closed begin, open end).  `countPaths(d)` is the number of pairs (end column, admissible rule
sequence from `(0,0)` to that column of the last row). -/
theorem C35_open_end {B : Nat} (hA : ExactUpTo A B) (hp : WF p rs) (ht : MarkersSurvive rs)
    (hd : AboutProblem d n m p W) (hob : d.openBegin = false) (hoe : d.openEnd = true)
    (hn : 0 < n) (hm : 0 < m)
    (hB : ∀ i < n, ∀ j < m, ∀ c, HasCount (fun ks => RulePath rs W ks i j) c → c ≤ B)
    (hB' : ∀ c, HasCount (fun x : Nat × List Int => x.1 < m ∧ RulePath rs W x.2 (n - 1) x.1) c → c ≤ B) :
    ∃ k : Nat, countPaths A d = .ok (k : Int) ∧
      HasCount (fun x : Nat × List Int => x.1 < m ∧ RulePath rs W x.2 (n - 1) x.1) k := by
  obtain ⟨f, hcm, hf⟩ := C35_debug_matrix hA hp ht hd hob hn hm hB
  have hsum := hasCount_lastRow fun j hj => hf (n - 1) (by omega) j hj
  refine ⟨_, ?_, hsum⟩
  unfold countPaths
  rw [hcm, Except_bind_ok, hoe]
  simp only [if_true]
  rw [show (Mat.ofFn n m fun i j => fin (f i j : ℚ)).rows = n from rfl, row_ofFn _ (by omega),
    npSum_tab hA _ _ (hB' _ hsum), Except_bind_ok, pyInt_nat]

/-- Any finite table of numbers is bounded. -/
theorem exists_bound (n m : Nat) (f : Nat → Nat → Nat) : ∃ B, ∀ i < n, ∀ j < m, f i j ≤ B :=
  ⟨((Finset.range n) ×ˢ (Finset.range m)).sup fun x => f x.1 x.2, fun i hi j hj =>
    Finset.le_sup (f := fun x : Nat × Nat => f x.1 x.2) (b := (i, j)) (by simp [hi, hj])⟩

/-- **C35** (exact arithmetic).  Without rounding no bound is needed: `countPaths(d)` is the number of
admissible rule sequences from `(0,0)` to `(N-1,M-1)`, or with open end to any cell of the last row. -/
theorem C35_exact (hp : WF p rs) (ht : MarkersSurvive rs)
    (hd : AboutProblem d n m p W) (hob : d.openBegin = false) (hn : 0 < n) (hm : 0 < m) :
    ∃ k : Nat, countPaths Arith.exact d = .ok (k : Int) ∧
      HasCount (fun x : Nat × List Int => (if d.openEnd then x.1 < m else x.1 = m - 1) ∧
        RulePath rs W x.2 (n - 1) x.1) k := by
  obtain ⟨f, h0, _, _, _⟩ := exists_table (W := W) (seed := countSeed false) hp.valid
  obtain ⟨B, hB⟩ := exists_bound n m f
  have hf := fun i j => count_rulePath hp.valid (h0 i j)
  have hA : ∀ B, ExactUpTo Arith.exact B := fun B k _ => rfl
  have hBB : ∀ i < n, ∀ j < m, ∀ c, HasCount (fun ks => RulePath rs W ks i j) c → c ≤ m * B := by
    intro i hi j hj c hc
    rw [hc.unique (hf i j)]
    exact (hB i hi j hj).trans (Nat.le_mul_of_pos_left _ hm)
  cases hoe : d.openEnd with
  | true =>
    obtain ⟨k, h1, h2⟩ := C35_open_end (hA (m * B + (((List.range m).map (f (n - 1))).sum))) hp ht hd hob hoe hn hm
      (fun i hi j hj c hc => (hBB i hi j hj c hc).trans (Nat.le_add_right _ _)) (by
        intro c hc
        have hsum : HasCount (fun x : Nat × List Int => x.1 < m ∧ RulePath rs W x.2 (n - 1) x.1)
            (((List.range m).map (f (n - 1))).sum) := hasCount_lastRow fun j _ => hf (n - 1) j
        rw [hc.unique hsum]
        exact Nat.le_add_left _ _)
    exact ⟨k, h1, by simpa using h2⟩
  | false =>
    obtain ⟨k, h1, h2⟩ := C35_closed (hA (m * B)) hp ht hd hob hoe hn hm hBB
    refine ⟨k, h1, ?_⟩
    refine (h2.image (fun ks => (m - 1, ks)) (by intro x y _ _ hxy; exact (Prod.mk.inj hxy).2)).congr ?_
    rintro ⟨j, ks⟩
    simp only [Bool.false_eq_true, if_false, Prod.mk.injEq]
    constructor
    · rintro ⟨ks', h1, rfl, rfl⟩; exact ⟨rfl, h1⟩
    · rintro ⟨rfl, h1⟩; exact ⟨ks, h1, rfl, rfl⟩

/-- **C35** (results of `dtw`).  The object returned by a closed-begin call of `dtw` is about that call's
problem, so the theorems above apply to it — unless `window_args` is given without a window. -/
theorem C35_result_about {L : Nat → Nat → F64} (h : Problem a n m L W p rs) (hob : a.openBegin = false)
    (hwa : canonWindow a.windowType = .noWindow → a.windowArgs = []) (hr : dtw A a = .ok r) :
    AboutProblem r n m p W ∧ r.openBegin = false ∧ r.openEnd = a.openEnd := by
  obtain ⟨q, S, L', G, D, qr, lm', j, mp, _, _, _, _, _, rfl⟩ := any_ok h hr
  refine ⟨⟨rfl, rfl, rfl, ?_⟩, hob, rfl⟩
  intro i hi j hj
  have hg : gridRows a n = n := by simp [gridRows, hob]
  have hw := h.window
  rw [hg] at hw
  rcases hw with ⟨h1, h2⟩ | ⟨_, h2⟩
  · simp only [mkResult, h1, hwa h1, h2 i hi j hj, WinFn.call, if_true]
    simp only [noWindowVal, Except.ok.injEq, decide_eq_true_eq, ne_eq]
    intro h0
    have := Nat.or_eq_zero_iff.1 h0
    omega
  · exact h2 i hi j hj

/-- **C35** (the path found is one of those counted). -/
theorem C35_found_path_is_counted {L : Nat → Nat → F64} {mp : Mapping} (h : Problem a n m L W p rs)
    (hob : a.openBegin = false) (hr : dtw A a = .ok r) (hmp : r.mapping = some mp) :
    ∃ j : Nat, r.jmin = j ∧ j < m ∧ (a.openEnd = false → j = m - 1) ∧ RulePath rs W mp.stepsTaken (n - 1) j := by
  obtain ⟨j, ks, hj, hlt, hcl, rfl, hp⟩ := closed_mapping h hob hr hmp
  exact ⟨j, hj, hlt, hcl, hp.toRulePath⟩

/-- **C35** (open begin, what is counted).  With open begin every cell of row 0 counts as one path, so
`countPaths(d)` is the number of pairs (start column `j0`, rule sequence from `(0,j0)`) whose arrival cells
are inside the window and below row 0. -/
theorem C35_open_begin (hp : WF p rs) (ht : MarkersSurvive rs)
    (hd : AboutProblem d n m p W) (hob : d.openBegin = true) (hoe : d.openEnd = false) (hn : 0 < n) (hm : 0 < m) :
    ∃ k : Nat, countPaths Arith.exact d = .ok (k : Int) ∧
      HasCount (fun x : Nat × List Int =>
        SeededPath rs W (fun i _ => decide (i = 0)) 0 x.1 x.2 (n - 1) (m - 1)) k := by
  obtain ⟨f, h0, h1, h2, h3⟩ := exists_table (W := W) (seed := countSeed true) hp.valid
  obtain ⟨B, hB⟩ := exists_bound n m f
  have hcm := countMatrix_spec (A := Arith.exact) (B := B) (fun k _ => rfl) hp ht hd hn hm
    (by rw [hob]; exact h1) (by rw [hob]; exact h2) (by rw [hob]; exact h3) hB
  refine ⟨f (n - 1) (m - 1), ?_, ?_⟩
  · unfold countPaths
    rw [hcm, Except_bind_ok, hoe]
    simp only [Bool.false_eq_true, if_false]
    rw [pyGet_neg_one_neg_one _ hn hm, Except_bind_ok, pyInt_nat]
  · have hs : countSeed true = fun i _ => decide (i = 0) := by funext i j; simp [countSeed]
    have key : ∀ x i j, To rs W (countSeed true) i j x → x.1.1 = 0 := by
      rintro ⟨⟨i0, j0⟩, ks⟩ i j hx
      simp only [To] at hx
      induction hx with
      | start h => simpa [countSeed] using h
      | step _ _ _ _ _ _ ih => exact ih
    refine ((h0 (n - 1) (m - 1)).image (fun x => (x.1.2, x.2)) ?_).congr ?_
    · rintro ⟨⟨i0, j0⟩, ks⟩ ⟨⟨i0', j0'⟩, ks'⟩ hx hy hxy
      have e1 := key _ _ _ hx
      have e2 := key _ _ _ hy
      simp only at e1 e2
      simp only [Prod.mk.injEq] at hxy ⊢
      exact ⟨⟨e1.trans e2.symm, hxy.1⟩, hxy.2⟩
    · rintro ⟨j0, ks⟩
      rw [← hs]
      constructor
      · rintro ⟨⟨⟨i0, j0'⟩, ks'⟩, hx, hxy⟩
        have e1 := key _ _ _ hx
        simp only [Prod.mk.injEq] at hxy e1
        obtain ⟨rfl, rfl⟩ := hxy
        subst e1
        exact hx
      · intro hx
        exact ⟨((0, j0), ks), hx, rfl⟩

/-- C35: all bundled step patterns but one survive the truncation of weights. -/
theorem C35_bundled (q : String × StepPattern) (hq : q ∈ Pat.table) (hv : q.1 ≠ "_symmetricVelichkoZagoruyko") :
    MarkersSurvive (rulesOf q.2) := by
  have : ∀ q ∈ Pat.table, q.1 ≠ "_symmetricVelichkoZagoruyko" → MarkersSurvive (rulesOf q.2) := by decide +kernel
  exact this q hq hv

/-- C36.  Finite costs, exact arithmetic, closed begin and end: `dtw` finds an alignment exactly when the path
count of the same problem is positive. -/
theorem C36_feasible_iff {ℓ : Nat → Nat → ℚ} (h : Problem a n m (fun i j => fin (ℓ i j)) W p rs)
    (hob : a.openBegin = false) (hoe : a.openEnd = false) (ht : MarkersSurvive rs)
    (hd : AboutProblem d n m p W) (hdb : d.openBegin = false) (hde : d.openEnd = false) :
    (∃ r, dtw Arith.exact a = .ok r) ↔ ∃ k : Int, countPaths Arith.exact d = .ok k ∧ 0 < k := by
  obtain ⟨k, h1, h2⟩ := C35_exact h.wf ht hd hdb h.n_pos h.m_pos
  rw [exact_success_iff h hob hoe, h1]
  have hpos := h2.pos_iff
  rw [hde] at hpos
  simp only [Bool.false_eq_true, if_false] at hpos
  constructor
  · rintro ⟨ks, hks⟩
    have := hpos.2 ⟨(m - 1, ks), rfl, hks⟩
    exact ⟨k, rfl, by omega⟩
  · rintro ⟨k', hk', hlt⟩
    simp only [Except.ok.injEq] at hk'
    obtain ⟨⟨j, ks⟩, hj, hks⟩ := hpos.1 (by omega)
    simp only at hj hks
    subst hj
    exact ⟨ks, hks⟩

/-- C36 (open end). -/
theorem C36_feasible_iff_open_end {ℓ : Nat → Nat → ℚ} (h : Problem a n m (fun i j => fin (ℓ i j)) W p rs)
    (hob : a.openBegin = false) (hoe : a.openEnd = true) (hNA : p.hint ≠ "NA") (ht : MarkersSurvive rs)
    (hd : AboutProblem d n m p W) (hdb : d.openBegin = false) (hde : d.openEnd = true) :
    (∃ r, dtw Arith.exact a = .ok r) ↔ ∃ k : Int, countPaths Arith.exact d = .ok k ∧ 0 < k := by
  obtain ⟨k, h1, h2⟩ := C35_exact h.wf ht hd hdb h.n_pos h.m_pos
  rw [C20_open_end_succeeds_iff h hob hoe hNA, h1]
  have hpos := h2.pos_iff
  rw [hde] at hpos
  simp only [if_true] at hpos
  constructor
  · rintro (⟨ks, j, c, hj, hp, _⟩ | ⟨_, hL⟩)
    · have := hpos.2 ⟨(j, ks), hj, hp.toRulePath⟩
      exact ⟨k, rfl, by omega⟩
    · simp at hL
  · rintro ⟨k', hk', hlt⟩
    simp only [Except.ok.injEq] at hk'
    obtain ⟨⟨j, ks⟩, hj, hks⟩ := hpos.1 (by omega)
    obtain ⟨c, hc⟩ := hks.toWarpPath (A := Arith.exact) (L := fun i j => fin (ℓ i j))
    obtain ⟨q, rfl⟩ := hc.finite
    exact .inl ⟨ks, j, _, hj, hc, usable_fin q⟩

/-- **C36** (consequence).  A successful call counts at least one path. -/
theorem C36_success_counts {L : Nat → Nat → F64} (h : Problem a n m L W p rs)
    (hob : a.openBegin = false) (hwa : canonWindow a.windowType = .noWindow → a.windowArgs = [])
    (ht : MarkersSurvive rs) (hr : dtw A a = .ok r) :
    ∃ k : Int, countPaths Arith.exact r = .ok k ∧ 0 < k := by
  obtain ⟨h1, h2, h3⟩ := C35_result_about h hob hwa hr
  obtain ⟨k, h4, h5⟩ := C35_exact h.wf ht h1 h2 h.n_pos h.m_pos
  refine ⟨k, h4, ?_⟩
  have hpos := h5.pos_iff
  obtain ⟨G, D, qr, hB, _, hd⟩ := dtw_closed A h hob
  obtain ⟨j, ks, hrun⟩ := closed_ok h hob hB hd hr
  have hm := h.m_pos
  have := hpos.2 ⟨(j, ks), by
    rw [h3]
    cases hoe : a.openEnd with
    | true => simpa using hrun.endAt.lt
    | false => simpa using hrun.endAt.closed hoe, hrun.path.toRulePath⟩
  omega

/-! ### Concrete cases -/

/-- The result of the documentation example's shape: 3 × 4, asymmetric, Sakoe-Chiba band of width 1. -/
def Ex.bandResult : Option Result := (dtw Arith.exact Ex.band).toOption

/-- The hypotheses of the theorems above are met by `dtw(L, asymmetric, sakoechiba 1)`, which has two paths… -/
example : Ex.bandResult.map (fun d => (countPaths Arith.exact d).toOption) = some (some 2) := by decide +kernel

/-- … and by the unconstrained symmetric2 alignment, which has 25 (the Delannoy number `D(2,3)`). -/
example : (dtw Arith.exact Ex.plain).toOption.map (fun d => (countPaths Arith.exact d).toOption) =
    some (some 25) := by decide +kernel

/-- The example of the documentation (countPaths.py:57-60): 126. -/
example : (dtw Arith.exact { x := .d2 (Mat.ofFn 7 8 fun i j => fin (((i : ℚ) + 2 - j) ^ 2))
                             stepPattern := .name "asymmetric" }).toOption.map
    (fun d => (countPaths Arith.exact d).toOption) = some (some 126) := by decide +kernel

/-- C35, negative witness: `window_args` without a window is ignored by `dtw` but makes `countPaths` raise
TypeError. -/
theorem C35_stray_window_args :
    (dtw Arith.exact { x := .d2 (Mat.ofFn 2 2 fun _ _ => fin 1), windowArgs := [("window_size", 1)] }).toOption.map
      (fun d => decide (countPaths Arith.exact d = .error .typeError)) = some true := by decide +kernel

/-- C35, negative witness: for `_symmetricVelichkoZagoruyko` the truncated weight -1.001 is taken for a marker
and `countPaths` ends in `int(nan)`. -/
theorem C35_velichko_fails :
    (dtw Arith.exact { x := .d2 (Mat.ofFn 3 3 fun _ _ => fin 1)
                       stepPattern := .name "_symmetricVelichkoZagoruyko" }).toOption.map
      (fun d => decide (countPaths Arith.exact d = .error (.valueError "cannot convert float NaN to integer"))) =
    some true := by decide +kernel

/-- C35, negative witness: with open begin the count is not the number of alignments `dtw` considers.  For one
query element and three reference elements, `dtw` (asymmetric, closed end) chooses between three alignments
(rules 1, 2, 3 from columns 2, 1, 0 of the null row), `countPaths` says 1. -/
theorem C35_open_begin_mismatch :
    ((dtw Arith.exact { x := .d2 (Mat.ofFn 1 3 fun _ _ => fin 1), stepPattern := .name "asymmetric"
                        openBegin := true }).toOption.map
      fun d => (countPaths Arith.exact d).toOption) = some (some 1) ∧
    ∀ x ∈ [(2, [1]), (1, [2]), (0, [3])],
      OpenPath Arith.exact (rulesOf Pat.asymmetric) (fun _ _ => true) (fun _ _ => fin 1) x.1 x.2 1 2 (fin 1) := by
  refine ⟨by decide +kernel, ?_⟩
  have key : ∀ (k : Nat) (r : Rule), (rulesOf Pat.asymmetric)[k]? = some r → r.a = 1 → r.b ≤ 2 →
      charge Arith.exact (fun i' _ => if i' = 0 then fin 0 else fin 1) r 1 2 (fin 0) = fin 1 →
      OpenPath Arith.exact (rulesOf Pat.asymmetric) (fun _ _ => true) (fun _ _ => fin 1) (2 - r.b) [(k : Int) + 1]
        1 2 (fin 1) := by
    intro k r hr ha hb hc
    have := OpenPath.step (A := Arith.exact) (rs := rulesOf Pat.asymmetric) (W := fun _ _ => true)
      (L := fun _ _ => fin 1) (j0 := 2 - r.b) k r .start hr (by omega) rfl
    have e : 2 - r.b + r.b = 2 := by omega
    rw [ha, e] at this
    simp only [Nat.zero_add, List.nil_append] at this
    rw [hc] at this
    exact this
  intro x hx
  simp only [List.mem_cons, List.not_mem_nil, or_false] at hx
  rcases hx with rfl | rfl | rfl
  · exact key 0 ⟨1, 0, [⟨0, 0, 1⟩]⟩ (by decide +kernel) rfl (by decide) (by decide +kernel)
  · exact key 1 ⟨1, 1, [⟨0, 0, 1⟩]⟩ (by decide +kernel) rfl (by decide) (by decide +kernel)
  · exact key 2 ⟨1, 2, [⟨0, 0, 1⟩]⟩ (by decide +kernel) rfl (by decide) (by decide +kernel)

/-- C36 on a concrete infeasible problem: a band narrower than the length difference. -/
example : (dtw Arith.exact { x := .d2 (Mat.ofFn 2 4 fun _ _ => fin 1), windowType := .name "sakoechiba"
                             windowArgs := [("window_size", 1)] }).toOption.isSome = false := by decide +kernel

example (r : Result) (hr : dtw Arith.exact Ex.band = .ok r) :
    ∃ k : Nat, countPaths Arith.exact r = .ok (k : Int) ∧
      HasCount (fun x : Nat × List Int => (if r.openEnd then x.1 < 4 else x.1 = 4 - 1) ∧
        RulePath (rulesOf Pat.asymmetric) Ex.bandW x.2 (3 - 1) x.1) k := by
  have h := C35_result_about Ex.band_problem rfl (by intro h; simp [Ex.band, canonWindow] at h) hr
  exact C35_exact Ex.band_problem.wf (C35_bundled ("asymmetric", _) (by decide +kernel) (by decide)) h.1 h.2.1
    (by decide) (by decide)

end DTW
