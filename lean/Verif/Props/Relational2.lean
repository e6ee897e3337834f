import Verif.Props.Relational

/-!
# C16, C17, C21, C34, C39: transposition, symmetry, prefixes, rule order, trivial windows
-/

namespace DTW
open F64

variable {A : Arith} {a a' : Args} {n m : Nat} {L L' : Nat → Nat → F64} {W W' : Nat → Nat → Bool}
  {p p' : StepPattern} {rs rs' : List Rule} {r r' : Result}

/-- C16, the hypotheses: if `a` is a call about `L`, `W`, pattern `p`, then the call with the transposed
matrix, window and `p.T()` is a legitimate one (well-formed pattern, fits). -/
theorem C16_transposed_pattern_wf (hw : WF p rs) (hf : Fits n m rs) :
    WF p.T (rs.map Rule.swap) ∧ Fits m n (rs.map Rule.swap) := ⟨hw.T, hf.swap⟩

/-- C16.  Transposing the local costs and the window, and taking `step_pattern.T()`, transposes everything
(closed begin and end): success is the same, the distance is the same to the last bit, cost and direction
matrices are transposed, stepsTaken is the same and the index vectors are exchanged. -/
theorem C16_transposition (h : Problem a n m L W p rs)
    (h' : Problem a' m n (fun j i => L i j) (fun j i => W i j) p.T (rs.map Rule.swap))
    (ho : SameOptions a a') (hob : a.openBegin = false) (hoe : a.openEnd = false) :
    ((∃ r, dtw A a = .ok r) ↔ (∃ r', dtw A a' = .ok r')) ∧
    ∀ r r', dtw A a = .ok r → dtw A a' = .ok r' →
      r'.distance = r.distance ∧
      (a.distanceOnly = false → ∃ mp mp', r.mapping = some mp ∧ r'.mapping = some mp' ∧
        mp'.index1 = mp.index2 ∧ mp'.index2 = mp.index1 ∧ mp'.index1s = mp.index2s ∧
        mp'.index2s = mp.index1s ∧ mp'.stepsTaken = mp.stepsTaken) ∧
      (a.keepInternals = true → ∃ G D,
        r.costMatrix = some (Mat.ofFn n m G) ∧ r'.costMatrix = some (Mat.ofFn m n fun j i => G i j) ∧
        r.directionMatrix = some (Mat.ofFn n m D) ∧
        r'.directionMatrix = some (Mat.ofFn m n fun j i => D i j)) := by
  have hn := h.n_pos
  have hm := h.m_pos
  have hob' : a'.openBegin = false := by rw [← ho.openBegin]; exact hob
  have hoe' : a'.openEnd = false := by rw [← ho.openEnd]; exact hoe
  obtain ⟨G, D, hB, hs, _, hr⟩ := closed_facts A h hob hoe
  obtain ⟨G', D', hB', hs', _, hr'⟩ := closed_facts A h' hob' hoe'
  have hBt := hB.transpose
  rw [flip_closedSeed] at hBt
  have hu := hB'.unique h'.wf.valid hBt le_rfl le_rfl le_rfl le_rfl (fun _ _ _ _ => rfl)
    (fun _ _ _ _ => rfl) (fun _ _ _ _ => rfl)
  have hcorner : G' (m - 1) (n - 1) = G (n - 1) (m - 1) := (hu _ (by omega) _ (by omega)).1
  refine ⟨by rw [hs, hs', hcorner], ?_⟩
  intro r r' hrr hrr'
  obtain ⟨d1, _, k1, _, ks, t1, _, m1⟩ := hr r hrr
  obtain ⟨d2, _, k2, _, ks', t2, _, m2⟩ := hr' r' hrr'
  refine ⟨by rw [d1, d2, hcorner], ?_, ?_⟩
  · intro hdo
    rw [hdo] at m1
    rw [← ho.distanceOnly, hdo] at m2
    have t1' := t1.transpose
    rw [flip_closedSeed] at t1'
    -- the transposed trace is a trace of the second run
    have conv : ∀ {i0 j0 ks i j}, Trace (rs.map Rule.swap) (flipF D) (closedSeed (flipF L)) i0 j0 ks i j →
        i < m → j < n → Trace (rs.map Rule.swap) D' (closedSeed (flipF L)) i0 j0 ks i j := by
      intro i0 j0 ks i j ht
      induction ht with
      | start hS hD => intro hi hj; exact .start _ _ hS (by rw [(hu _ hi _ hj).2]; exact hD)
      | step k q _ hq hS hD ih =>
        intro hi hj
        exact .step k q (ih (by omega) (by omega)) hq hS (by rw [(hu _ hi _ hj).2]; exact hD)
    have hks := (t2.det h'.wf.valid (conv t1' (by omega) (by omega))).2.2
    subst hks
    refine ⟨_, _, by simpa using m1, by simpa using m2, ?_⟩
    rw [curve_swap]
    exact ⟨rfl, rfl, rfl, rfl, rfl⟩
  · intro hki
    refine ⟨G, D, (k1 hki).1, ?_, (k1 hki).2, ?_⟩
    · rw [(k2 (by rw [← ho.keepInternals]; exact hki)).1, ofFn_congr fun i hi j hj => (hu i hi j hj).1]
      rfl
    · rw [(k2 (by rw [← ho.keepInternals]; exact hki)).2, ofFn_congr fun i hi j hj => (hu i hi j hj).2]
      rfl

/-- Non-vacuity: the example call and its transpose. -/
example : Problem Ex.band 3 4 Ex.L Ex.bandW Pat.asymmetric (rulesOf Pat.asymmetric) ∧
    Problem { Ex.band with x := .d2 (Mat.ofFn 4 3 fun j i => Ex.L i j), stepPattern := .obj Pat.asymmetric.T }
      4 3 (fun j i => Ex.L i j) (fun j i => Ex.bandW i j) Pat.asymmetric.T
      ((rulesOf Pat.asymmetric).map Rule.swap) :=
  ⟨Ex.band_problem,
   { n_pos := by decide, m_pos := by decide, cost := .matrix rfl rfl rfl rfl
     pattern := rfl, wf := Ex.band_problem.wf.T, fits := Ex.band_problem.fits.swap
     window := .inr ⟨by simp [Ex.band, canonWindow], fun i _ j _ => by
        show Except.ok (sakoeChibaVal 1 i j) = .ok (sakoeChibaVal 1 j i)
        unfold sakoeChibaVal; rw [abs_sub_comm]⟩ }⟩

/-- C34.  The order of the rules, and their multiplicity, are irrelevant for costs: two patterns with the
same set of rules give the same success, distance and cost matrix (closed begin and end), to the last bit. -/
theorem C34_rule_order (h : Problem a n m L W p rs) (h' : Problem a' n m L W p' rs')
    (hset : ∀ q, q ∈ rs ↔ q ∈ rs') (ho : SameOptions a a') (hob : a.openBegin = false)
    (hoe : a.openEnd = false) :
    ((∃ r, dtw A a = .ok r) ↔ (∃ r', dtw A a' = .ok r')) ∧
    ∀ r r', dtw A a = .ok r → dtw A a' = .ok r' → r'.distance = r.distance ∧
      r'.costMatrix = r.costMatrix := by
  have hn := h.n_pos
  have hm := h.m_pos
  have hob' : a'.openBegin = false := by rw [← ho.openBegin]; exact hob
  have hoe' : a'.openEnd = false := by rw [← ho.openEnd]; exact hoe
  obtain ⟨G, D, qr, hB, _, hd⟩ := dtw_closed A h hob
  obtain ⟨G', D', qr', hB', _, hd'⟩ := dtw_closed A h' hob'
  have hu := hB.same_rules h.wf.valid hset hB'
  have hcorner := hu (n - 1) (by omega) (m - 1) (by omega)
  constructor
  · rcases closed_closed h hob hoe hB hd with ⟨h1, h2⟩ | ⟨h1, h2⟩ <;>
      rcases closed_closed h' hob' hoe' hB' hd' with ⟨h1', h2'⟩ | ⟨h1', h2'⟩
    · simp [h2, h2']
    · exact absurd (hcorner ▸ h1) h1'
    · exact absurd (hcorner ▸ h1') h1
    · exact ⟨fun _ => h2', fun _ => h2⟩
  · intro r r' hrr hrr'
    obtain ⟨j, ks, hrun⟩ := closed_ok h hob hB hd hrr
    obtain rfl := hrun.endAt.closed hoe
    obtain ⟨j', ks', hrun'⟩ := closed_ok h' hob' hB' hd' hrr'
    obtain rfl := hrun'.endAt.closed hoe'
    refine ⟨by rw [hrun.result, hrun'.result]; exact hcorner.symm, ?_⟩
    rw [hrun.result, hrun'.result]
    simp only [mkResult, hob, hob', ho.keepInternals, ofFn_congr hu]

/-- C34: permuting the rules of a well-formed pattern gives a well-formed pattern with the same rules. -/
theorem C34_permutation (hw : WF p rs) (hp : rs.Perm rs') (hint : String) :
    WF ⟨encode rs', hint⟩ rs' ∧ ∀ q, q ∈ rs ↔ q ∈ rs' :=
  ⟨⟨rfl, fun hc => hw.ne (by rw [hc] at hp; exact hp.eq_nil), fun r hr => hw.valid r (hp.mem_iff.2 hr)⟩,
   fun _ => hp.mem_iff⟩

example : (rulesOf Pat.symmetric2).Perm (rulesOf Pat.symmetric2).reverse := (List.reverse_perm _).symm

/-- C17.  If exchanging query and reference maps the rules of the pattern to themselves, the distance is
symmetric: aligning the transposed local costs with the same pattern (and the transposed window) succeeds
equally and gives the same distance to the last bit. -/
theorem C17_symmetric (h : Problem a n m L W p rs)
    (h' : Problem a' m n (fun j i => L i j) (fun j i => W i j) p' rs)
    (hsym : ∀ q ∈ rs, q.swap ∈ rs)
    (hob : a.openBegin = false) (hoe : a.openEnd = false)
    (hob' : a'.openBegin = false) (hoe' : a'.openEnd = false) :
    ((∃ r, dtw A a = .ok r) ↔ (∃ r', dtw A a' = .ok r')) ∧
    ∀ r r', dtw A a = .ok r → dtw A a' = .ok r' → r'.distance = r.distance := by
  have hn := h.n_pos
  have hm := h.m_pos
  obtain ⟨G, D, hB, hs, _, hr⟩ := closed_facts A h hob hoe
  obtain ⟨G', D', hB', hs', _, hr'⟩ := closed_facts A h' hob' hoe'
  have hBt := hB.transpose
  rw [flip_closedSeed] at hBt
  have hss : ∀ q : Rule, q.swap.swap = q := by
    intro q; cases q with
    | mk x y ts => simp [Rule.swap, Term.swap, Function.comp_def]
  have hset : ∀ q, q ∈ rs ↔ q ∈ rs.map Rule.swap := by
    intro q
    rw [List.mem_map]
    constructor
    · intro hq; exact ⟨q.swap, hsym q hq, hss q⟩
    · rintro ⟨q', hq', rfl⟩; exact hsym q' hq'
  have hu := hB'.same_rules h.wf.valid hset hBt
  have hcorner : G' (m - 1) (n - 1) = G (n - 1) (m - 1) := hu _ (by omega) _ (by omega)
  refine ⟨by rw [hs, hs', hcorner], ?_⟩
  intro r r' hrr hrr'
  rw [(hr r hrr).1, (hr' r' hrr').1, hcorner]

/-- C17: the bundled patterns that are symmetric in this sense. -/
theorem C17_bundled : ∀ s ∈ ["symmetric1", "symmetric2", "symmetricP0", "symmetricP05", "symmetricP1",
      "symmetricP2", "_symmetricVelichkoZagoruyko", "typeIa", "typeIb", "typeId", "typeIas", "typeIbs",
      "typeIds", "typeIIa", "typeIIb", "typeIId"],
    ∃ p, canonPattern (.name s) = .ok p ∧ WF p (rulesOf p) ∧ ∀ q ∈ rulesOf p, q.swap ∈ rulesOf p := by
  intro s hs
  have key : (["symmetric1", "symmetric2", "symmetricP0", "symmetricP05", "symmetricP1",
      "symmetricP2", "_symmetricVelichkoZagoruyko", "typeIa", "typeIb", "typeId", "typeIas", "typeIbs",
      "typeIds", "typeIIa", "typeIIb", "typeIId"].all
    fun s => match Pat.table.lookup s with
      | some p => wfCheck p (rulesOf p) && (rulesOf p).all fun q => decide (q.swap ∈ rulesOf p)
      | none => false) = true := by decide +kernel
  have := List.all_eq_true.1 key s hs
  cases hp : Pat.table.lookup s with
  | none => rw [hp] at this; simp at this
  | some p =>
    rw [hp] at this
    simp only [Bool.and_eq_true, List.all_eq_true, decide_eq_true_eq] at this
    exact ⟨p, by simp [canonPattern, hp], wf_of_check this.1, this.2⟩

/-- C17, negative witness: `asymmetric` is not symmetric. -/
theorem C17_asymmetric_not_symmetric :
    (dtw Arith.exact
      { x := .d2 ⟨3, 3, [fin 1, fin 5, fin 1, fin 1, fin 5, fin 1, fin 1, fin 5, fin 1]⟩
        stepPattern := .name "asymmetric" }).toOption.map (·.distance) ≠
    (dtw Arith.exact
      { x := .d2 ⟨3, 3, [fin 1, fin 1, fin 1, fin 5, fin 5, fin 5, fin 1, fin 1, fin 1]⟩
        stepPattern := .name "asymmetric" }).toOption.map (·.distance) := by decide +kernel

/-- C21.  Prefix consistency: if the local costs and windows of two closed-begin calls agree on the common
`n' × m'` corner, so do their cost and direction matrices. -/
theorem C21_prefix {n' m' : Nat} (h : Problem a n m L W p rs) (h' : Problem a' n' m' L' W' p rs)
    (hn' : n' ≤ n) (hm' : m' ≤ m) (hL : ∀ i < n', ∀ j < m', L i j = L' i j)
    (hW : ∀ i < n', ∀ j < m', W i j = W' i j)
    (hob : a.openBegin = false) (hob' : a'.openBegin = false)
    (hki : a.keepInternals = true) (hki' : a'.keepInternals = true)
    (hr : dtw A a = .ok r) (hr' : dtw A a' = .ok r') :
    ∃ G D, r.costMatrix = some (Mat.ofFn n m G) ∧ r'.costMatrix = some (Mat.ofFn n' m' G) ∧
      r.directionMatrix = some (Mat.ofFn n m D) ∧ r'.directionMatrix = some (Mat.ofFn n' m' D) := by
  obtain ⟨G, D, qr, hB, _, hd⟩ := dtw_closed A h hob
  obtain ⟨G', D', qr', hB', _, hd'⟩ := dtw_closed A h' hob'
  obtain ⟨j, ks, hrun⟩ := closed_ok h hob hB hd hr
  obtain ⟨j', ks', hrun'⟩ := closed_ok h' hob' hB' hd' hr'
  have h0 := h'.n_pos
  have h1 := h'.m_pos
  have hu := hB'.unique h.wf.valid hB le_rfl hn' le_rfl hm' (fun i hi j hj => (hW i hi j hj).symm)
    (fun i hi j hj => (hL i hi j hj).symm) (by
      intro i hi j hj
      unfold closedSeed
      rw [hL 0 h0 0 h1])
  refine ⟨G, D, ?_, ?_, ?_, ?_⟩
  · rw [hrun.result]; simp [mkResult, hki, hob]
  · rw [hrun'.result, ← ofFn_congr fun i hi j hj => (hu i hi j hj).1]; simp [mkResult, hki', hob']
  · rw [hrun.result]; simp [mkResult, hki, hob]
  · rw [hrun'.result, ← ofFn_congr fun i hi j hj => (hu i hi j hj).2]; simp [mkResult, hki', hob']

/-- C21, consequence: an open-end alignment that ends at `jmin` is exactly the closed-end alignment against
the prefix `reference[:jmin+1]` (same distance, same path), for windows that do not look at the sizes. -/
theorem C21_open_end_is_closed_prefix {j : Nat} (h : Problem a n m L W p rs)
    (hob : a.openBegin = false) (hr : dtw A a = .ok r) (hj : r.jmin = j)
    (h' : Problem a' n (j + 1) L W p rs) (hob' : a'.openBegin = false) (hoe' : a'.openEnd = false)
    (hdo : a'.distanceOnly = a.distanceOnly) :
    ∃ r', dtw A a' = .ok r' ∧ r'.distance = r.distance ∧ r'.mapping = r.mapping := by
  obtain ⟨G, D, qr, hB, _, hd⟩ := dtw_closed A h hob
  obtain ⟨j1, ks, hrun⟩ := closed_ok h hob hB hd hr
  have hj1 : j1 = j := by
    have : r.jmin = (j1 : Int) := by rw [hrun.result]; rfl
    omega
  subst hj1
  obtain ⟨G', D', hB', hs', _, hr'⟩ := closed_facts A h' hob' hoe'
  have hn := h.n_pos
  have hlt := hrun.endAt.lt
  have hu := hB'.unique h.wf.valid hB le_rfl le_rfl le_rfl (by omega : j1 + 1 ≤ m) (fun _ _ _ _ => rfl)
    (fun _ _ _ _ => rfl) (fun _ _ _ _ => rfl)
  have hc := (hu (n - 1) (by omega) j1 (by omega)).1
  obtain ⟨r', hrr'⟩ := hs'.2 (by
    simp only [Nat.add_sub_cancel]; rw [hc]; exact hrun.endAt.ne_nan)
  obtain ⟨d2, _, _, _, ks', t2, _, m2⟩ := hr' r' hrr'
  simp only [Nat.add_sub_cancel] at d2 t2
  refine ⟨r', hrr', by rw [d2, hc, hrun.result]; rfl, ?_⟩
  have conv : ∀ {i0 j0 ks i j}, Trace rs D (closedSeed L) i0 j0 ks i j →
      i < n → j < j1 + 1 → Trace rs D' (closedSeed L) i0 j0 ks i j := by
    intro i0 j0 ks i j ht
    induction ht with
    | start hS hD => intro hi hj; exact .start _ _ hS (by rw [(hu _ hi _ hj).2]; exact hD)
    | step k q _ hq hS hD ih =>
      intro hi hj
      exact .step k q (ih (by omega) (by omega)) hq hS (by rw [(hu _ hi _ hj).2]; exact hD)
  have hks := (t2.det h.wf.valid (conv hrun.trace (by omega) (by omega))).2.2
  subst hks
  rw [m2, hrun.result, hdo]
  rfl

example : Problem { Ex.plain with openEnd := true } 3 4 Ex.L (fun _ _ => true) Pat.symmetric2
      (rulesOf Pat.symmetric2) ∧
    (dtw Arith.exact { Ex.plain with openEnd := true }).toOption.map (·.jmin) = some 2 ∧
    Problem { Ex.plain with x := .d2 (Mat.ofFn 3 3 Ex.L) } 3 3 Ex.L (fun _ _ => true) Pat.symmetric2
      (rulesOf Pat.symmetric2) := by
  refine ⟨?_, by decide +kernel, ?_⟩
  · exact { n_pos := by decide, m_pos := by decide, cost := .matrix rfl rfl rfl rfl
            pattern := Ex.plain_problem.pattern, wf := Ex.plain_problem.wf
            fits := Ex.plain_problem.fits, window := .inl ⟨rfl, fun _ _ _ _ => rfl⟩ }
  · exact { n_pos := by decide, m_pos := by decide, cost := .matrix rfl rfl rfl rfl
            pattern := Ex.plain_problem.pattern, wf := Ex.plain_problem.wf
            fits := fits_of_check (by decide +kernel), window := .inl ⟨rfl, fun _ _ _ _ => rfl⟩ }

/-- C39.  `window_type=None`, `"none"`, `noWindow` and any window function that is everywhere true give the
same alignment (all options, success or failure alike). -/
theorem C39_trivial_windows (h : Problem a n m L W p rs) (hW : ∀ i j, W i j = true) (wt : WinArg)
    (args : WinArgs)
    (hwt : wt = .none ∨ wt = .name "none" ∨ wt = .fn .noWindow ∨
      ∃ f, wt = .fn (.user f) ∧ ∀ iw jw q rf, f args iw jw q rf = .ok true) :
    (dtw A { a with windowType := wt, windowArgs := args }).map Result.core = (dtw A a).map Result.core := by
  have hw' : WindowIs { a with windowType := wt, windowArgs := args } (gridRows a n) m W := by
    rcases hwt with rfl | rfl | rfl | ⟨f, rfl, hf⟩
    · exact .inl ⟨rfl, fun i _ j _ => hW i j⟩
    · exact .inl ⟨by simp [canonWindow], fun i _ j _ => hW i j⟩
    · exact .inl ⟨rfl, fun i _ j _ => hW i j⟩
    · refine .inr ⟨by simp [canonWindow], fun i _ j _ => ?_⟩
      simp only [canonWindow, WinFn.call, hf, hW]
  have h' : Problem { a with windowType := wt, windowArgs := args } n m L W p rs :=
    { n_pos := h.n_pos, m_pos := h.m_pos
      cost := by
        cases h.cost with
        | matrix h1 h2 h3 h4 => exact .matrix h1 h2 h3 h4
        | series y X Y h1 h2 h3 h4 h5 h6 h7 => exact .series y X Y h1 h2 h3 h4 h5 h6 h7
      pattern := h.pattern, wf := h.wf, fits := h.fits, window := hw' }
  exact dtw_core_congr ⟨rfl, rfl, rfl, rfl⟩ h' h (fun _ _ _ _ => rfl) (fun _ _ _ _ => rfl)

example : Problem Ex.plain 3 4 Ex.L (fun _ _ => true) Pat.symmetric2 (rulesOf Pat.symmetric2) :=
  Ex.plain_problem

end DTW
