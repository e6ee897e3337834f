import Verif.Props.Relational2

/-!
# C31-C33, C40, C44: step patterns
-/

namespace DTW
open F64

variable {A : Arith} {a a' : Args} {n m : Nat} {L : Nat → Nat → F64} {W : Nat → Nat → Bool}
  {p p' : StepPattern} {rs rs' : List Rule} {r r' : Result}

/-- C31.  Transposing twice gives back the same step pattern, for any pattern whatsoever. -/
theorem C31_transpose_involution (p : StepPattern) : p.T.T = p := by
  cases p with
  | mk mx hint =>
    simp only [StepPattern.T, List.map_map, StepPattern.mk.injEq]
    constructor
    · conv_rhs => rw [← List.map_id mx]
      apply List.map_congr_left
      intro s _; rfl
    · by_cases h1 : hint = "N"
      · simp [h1]
      · by_cases h2 : hint = "M"
        · simp [h2]
        · simp [h1, h2]

/-- C31: transposition exchanges the two steps of every row (id and weight are kept), and the hints N and M;
the other hints are kept. -/
theorem C31_transpose_spec (p : StepPattern) :
    p.T.mx.length = p.mx.length ∧
    (∀ (k : Nat) (s : Step), p.mx[k]? = some s → p.T.mx[k]? = some (⟨s.pid, s.dj, s.di, s.w⟩ : Step)) ∧
    (p.hint = "N" → p.T.hint = "M") ∧ (p.hint = "M" → p.T.hint = "N") ∧
    (p.hint ≠ "N" → p.hint ≠ "M" → p.T.hint = p.hint) := by
  refine ⟨by simp [StepPattern.T], ?_, ?_, ?_, ?_⟩
  · intro k s h; simp [StepPattern.T, h]
  · intro h; simp [StepPattern.T, h]
  · intro h; simp [StepPattern.T, h]
  · intro h1 h2; simp [StepPattern.T, h1, h2]

/-- C31: on the rules, transposition exchanges the roles of query and reference. -/
theorem C31_transpose_rules (h : WF p rs) : WF p.T (rs.map Rule.swap) := h.T

example : Pat.asymmetric.T.hint = "M" ∧ Pat.symmetric2.T.hint = "N+M" ∧
    (Pat.asymmetric.T.mx.map fun s => (s.di, s.dj)) = [(0, 1), (0, 0), (1, 1), (0, 0), (2, 1), (0, 0)] := by
  decide +kernel

/-! ### C32 -/

/-- C32.  Every bundled pattern is well-formed: non-empty, its rules numbered 1, 2, ... and stored
contiguously, each starting with its origin, making progress, charging only cells between origin and
arrival. -/
theorem C32_bundled_wf : ∀ s p, canonPattern (.name s) = .ok p → ∃ rs, WF p rs := by
  intro s p h
  simp only [canonPattern] at h
  cases hl : Pat.table.lookup s with
  | none => rw [hl] at h; simp at h
  | some q =>
    rw [hl] at h
    simp only [Except.ok.injEq] at h
    subst h
    have hmem : ∃ k, (k, q) ∈ Pat.table := by
      generalize Pat.table = t at hl
      induction t with
      | nil => simp at hl
      | cons x xs ih =>
        rw [List.lookup_cons] at hl
        cases hx : s == x.1 with
        | true =>
          rw [hx] at hl
          simp only [Option.some.injEq] at hl
          exact ⟨x.1, by rw [← hl]; exact List.mem_cons_self ..⟩
        | false =>
          rw [hx] at hl
          obtain ⟨k, hk⟩ := ih hl
          exact ⟨k, List.mem_cons_of_mem _ hk⟩
    obtain ⟨k, hk⟩ := hmem
    exact ⟨rulesOf q, table_wf _ hk⟩

/-- C32: so is `mvmStepPattern(e)` for every elasticity `e ≥ 1`. -/
theorem C32_mvm_wf {e : Nat} (he : 0 < e) :
    WF (mvmStepPattern e) ((List.range e).map fun k => ⟨1, k + 1, [⟨0, 0, 1⟩]⟩) := mvm_wf he

/-- C32: so is every Rabiner-Juang pattern: all seven types, four slope weightings, smoothed or not; its
intermediate points are in walking order, and the hint is N for "c", N+M for "d", NA otherwise. -/
theorem C32_rabinerJuang_wf (t : Int) (ht : 1 ≤ t ∧ t ≤ 7) (s : String) (hs : s ∈ ["a", "b", "c", "d"])
    (sm : Bool) : ∃ p rs, rabinerJuang t s sm = .ok p ∧ WF p rs ∧ (∀ r ∈ rs, r.Ordered) ∧
      p.hint = if s = "c" then "N" else if s = "d" then "N+M" else "NA" := by
  have key : ([1, 2, 3, 4, 5, 6, 7].all fun t : Int => ["a", "b", "c", "d"].all fun s =>
    [true, false].all fun sm => match rabinerJuang t s sm with
      | .ok p => wfCheck p (rulesOf p) && (rulesOf p).all (fun r => decide r.Ordered) &&
          decide (p.hint = if s = "c" then "N" else if s = "d" then "N+M" else "NA")
      | .error _ => false) = true := by decide +kernel
  have hmem : t ∈ ([1, 2, 3, 4, 5, 6, 7] : List Int) := by
    simp only [List.mem_cons, List.not_mem_nil, or_false]; omega
  have h1 := List.all_eq_true.1 (List.all_eq_true.1 (List.all_eq_true.1 key t hmem) s hs) sm
    (by cases sm <;> simp)
  cases hp : rabinerJuang t s sm with
  | error e => rw [hp] at h1; simp at h1
  | ok p =>
    rw [hp] at h1
    simp only [Bool.and_eq_true, List.all_eq_true, decide_eq_true_eq] at h1
    exact ⟨p, rulesOf p, rfl, wf_of_check h1.1.1, h1.1.2, h1.2⟩

/-- C32 / C40: unsupported types and slope weightings raise, they never yield a pattern. -/
theorem C32_C40_rabinerJuang_rejects (t : Int) (s : String) (sm : Bool)
    (h : ¬ (1 ≤ t ∧ t ≤ 7) ∨ s ∉ ["a", "b", "c", "d"]) : ∃ e, rabinerJuang t s sm = .error e := by
  unfold rabinerJuang
  have hnone : ∀ t : Int, ¬ (1 ≤ t ∧ t ≤ 7) → rjSteps t = none := by
    intro t ht
    unfold rjSteps
    split <;> first | rfl | omega
  by_cases ht : 1 ≤ t ∧ t ≤ 7
  · rcases h with h | hs
    · exact absurd ht h
    · simp only [List.mem_cons, List.not_mem_nil, or_false, not_or] at hs
      cases hc : rjSteps t with
      | none => exact ⟨_, rfl⟩
      | some cs =>
        have hcs : cs ≠ [] := by
          rintro rfl
          unfold rjSteps at hc
          split at hc <;> simp at hc
        cases cs with
        | nil => exact absurd rfl hcs
        | cons c cs =>
          refine ⟨.valueError "Unsupported subtype", ?_⟩
          simp [pStack, pGet, hs]
  · rw [hnone t ht]; exact ⟨_, rfl⟩

example : ∃ p, rabinerJuang 5 "c" true = .ok p ∧ WF p (rulesOf p) :=
  ⟨_, rfl, wf_of_check (by decide +kernel)⟩

/-! ### C33 -/

/-- C33, type I: the eight `typeI..` patterns are literally Rabiner-Juang patterns of type 2 (so every
call gives the same outcome). -/
theorem C33_typeI : ∀ x ∈ [("typeIa", "a", false), ("typeIb", "b", false), ("typeIc", "c", false),
    ("typeId", "d", false), ("typeIas", "a", true), ("typeIbs", "b", true), ("typeIcs", "c", true),
    ("typeIds", "d", true)], canonPattern (.name x.1) = rabinerJuang 2 x.2.1 x.2.2 := by decide +kernel

/-- C33, types II, III, IV: same rules in another order, same hint. -/
theorem C33_same_rules : ∀ x ∈ [("typeIIa", (3 : Int), "a"), ("typeIIb", 3, "b"), ("typeIIc", 3, "c"),
    ("typeIId", 3, "d"), ("typeIIIc", 4, "c"), ("typeIVc", 7, "c")],
    ∃ p p', canonPattern (.name x.1) = .ok p ∧ rabinerJuang x.2.1 x.2.2 false = .ok p' ∧
      WF p (rulesOf p) ∧ WF p' (rulesOf p') ∧ p.hint = p'.hint ∧
      (∀ q, q ∈ rulesOf p ↔ q ∈ rulesOf p') ∧
      (∀ n m, n * m < 2147483648 → Fits n m (rulesOf p')) := by
  intro x hx
  have key : ([("typeIIa", (3 : Int), "a"), ("typeIIb", 3, "b"), ("typeIIc", 3, "c"),
    ("typeIId", 3, "d"), ("typeIIIc", 4, "c"), ("typeIVc", 7, "c")].all fun x =>
    match Pat.table.lookup x.1, rabinerJuang x.2.1 x.2.2 false with
    | some p, .ok p' => wfCheck p (rulesOf p) && wfCheck p' (rulesOf p') && decide (p.hint = p'.hint) &&
        (rulesOf p).all (fun q => decide (q ∈ rulesOf p')) && (rulesOf p').all (fun q => decide (q ∈ rulesOf p)) &&
        decide (4 * (encode (rulesOf p')).length < 2147483648) &&
        (rulesOf p').all (fun r => decide (r.a < 2147483648 ∧ r.b < 2147483648))
    | _, _ => false) = true := by decide +kernel
  have h1 := List.all_eq_true.1 key x hx
  cases hp : Pat.table.lookup x.1 with
  | none => rw [hp] at h1; simp at h1
  | some p =>
    cases hp' : rabinerJuang x.2.1 x.2.2 false with
    | error e => rw [hp, hp'] at h1; simp at h1
    | ok p' =>
      rw [hp, hp'] at h1
      simp only [Bool.and_eq_true, List.all_eq_true, decide_eq_true_eq] at h1
      obtain ⟨⟨⟨⟨⟨⟨h1, h2⟩, h3⟩, h4⟩, h5⟩, h6⟩, h7⟩ := h1
      exact ⟨p, p', by simp [canonPattern, hp], rfl, wf_of_check h1, wf_of_check h2, h3,
        fun q => ⟨fun h => h4 q h, fun h => h5 q h⟩, fun n m hnm => ⟨hnm, h6, h7⟩⟩

/-- C33: hence a closed-end alignment with `typeII?`, `typeIIIc`, `typeIVc` has the same outcome, distance,
normalised distance and cost matrix as with the corresponding Rabiner-Juang pattern, on every input. -/
theorem C33_same_distance {s t : String} {k : Int}
    (hx : (s, k, t) ∈ [("typeIIa", (3 : Int), "a"), ("typeIIb", 3, "b"), ("typeIIc", 3, "c"),
      ("typeIId", 3, "d"), ("typeIIIc", 4, "c"), ("typeIVc", 7, "c")])
    (hp' : rabinerJuang k t false = .ok p') (hs : a.stepPattern = .name s)
    (h : Problem a n m L W p (rulesOf p)) (hob : a.openBegin = false) (hoe : a.openEnd = false) :
    ((∃ r, dtw A a = .ok r) ↔ ∃ r', dtw A { a with stepPattern := .obj p' } = .ok r') ∧
    ∀ r r', dtw A a = .ok r → dtw A { a with stepPattern := .obj p' } = .ok r' →
      r'.distance = r.distance ∧ r'.normalizedDistance = r.normalizedDistance ∧
      r'.costMatrix = r.costMatrix := by
  obtain ⟨q, q', h1, h2, h3, h4, h5, h6, h7⟩ := C33_same_rules _ hx
  simp only at h1 h2
  have hpq : p = q := by
    have := h.pattern; rw [hs, h1] at this; simpa using this.symm
  subst hpq
  have hpq' : p' = q' := by rw [hp'] at h2; simpa using h2
  subst hpq'
  have hc : CallCost { a with stepPattern := .obj p' } n m L := by
    cases h.cost with
    | matrix h1 h2 h3 h4 => exact .matrix h1 h2 h3 h4
    | series y X Y h1 h2 h3 h4 h5 h6 h7 => exact .series y X Y h1 h2 h3 h4 h5 h6 h7
  have h' : Problem { a with stepPattern := .obj p' } n m L W p' (rulesOf p') :=
    { n_pos := h.n_pos, m_pos := h.m_pos, cost := hc, pattern := rfl, wf := h4
      fits := h7 _ _ h.fits.cells, window := h.window }
  have key := C34_rule_order (A := A) h h' h6 ⟨rfl, rfl, rfl, rfl⟩ hob hoe
  refine ⟨key.1, ?_⟩
  intro r r' hr hr'
  obtain ⟨e1, e2⟩ := key.2 r r' hr hr'
  refine ⟨e1, ?_, e2⟩
  obtain ⟨G, D, _, _, _, hf⟩ := closed_facts A h hob hoe
  obtain ⟨G', D', _, _, _, hf'⟩ := closed_facts A h' hob hoe
  obtain ⟨d1, _, _, n1, _⟩ := hf r hr
  obtain ⟨d2, _, _, n2, _⟩ := hf' r' hr'
  rw [n1, n2, ← d1, ← d2, e1, h5]

example : ∃ p', rabinerJuang 3 "c" false = .ok p' ∧
    ("typeIIc", (3 : Int), "c") ∈ [("typeIIa", (3 : Int), "a"), ("typeIIb", 3, "b"), ("typeIIc", 3, "c"),
      ("typeIId", 3, "d"), ("typeIIIc", 4, "c"), ("typeIVc", 7, "c")] ∧
    (dtw Arith.exact { x := .d2 (Mat.ofFn 3 4 Ex.L), stepPattern := .name "typeIIc" }).toOption.map (·.distance) =
    (dtw Arith.exact { x := .d2 (Mat.ofFn 3 4 Ex.L), stepPattern := .obj p' }).toOption.map (·.distance) :=
  ⟨_, rfl, by decide, by decide +kernel⟩

/-! ### C40 -/

/-- C40.  A window name other than the four documented ones never yields an alignment, whatever the other
arguments. -/
theorem C40_unknown_window {s : String} (hs : s ∉ ["none", "sakoechiba", "itakura", "slantedband"])
    (hw : a.windowType = .name s) : ∀ r, dtw A a ≠ .ok r := by
  intro r hr
  simp only [List.mem_cons, List.not_mem_nil, or_false, not_or] at hs
  have hcw : canonWindow a.windowType = .undefinedLambda := by
    simp [hw, canonWindow, hs]
  have hg : ∀ lm lay p seed,
      globalCostMatrix A lm lay p .undefinedLambda seed a.windowArgs = .error .typeError :=
    fun _ _ _ _ => rfl
  unfold dtw at hr
  rw [hcw] at hr
  cases h1 : localCost a with
  | error e => rw [h1] at hr; simp at hr
  | ok x =>
    rw [h1, Except_bind_ok] at hr
    obtain ⟨lm, lay, qr⟩ := x
    simp only at hr
    cases h2 : canonPattern a.stepPattern with
    | error e => rw [h2] at hr; simp at hr
    | ok p =>
      rw [h2, Except_bind_ok] at hr
      have h3 : ∃ e, runGCM A a lm lay .undefinedLambda p = .error e := by
        unfold runGCM
        split
        · split
          · exact ⟨_, rfl⟩
          · simp only [hg]; exact ⟨_, rfl⟩
        · simp only [hg]; exact ⟨_, rfl⟩
      obtain ⟨e, h3⟩ := h3
      rw [h3] at hr; simp at hr

/-- C40: the exception is a TypeError for a closed-begin call that is otherwise well-formed. -/
theorem C40_unknown_window_typeError {s : String} (hs : s ∉ ["none", "sakoechiba", "itakura", "slantedband"])
    (hw : a.windowType = .name s) (hc : CallCost a n m L) (hp : canonPattern a.stepPattern = .ok p)
    (hob : a.openBegin = false) : dtw A a = .error .typeError := by
  simp only [List.mem_cons, List.not_mem_nil, or_false, not_or] at hs
  have hcw : canonWindow a.windowType = .undefinedLambda := by
    simp [hw, canonWindow, hs]
  obtain ⟨qr, hl, _, _⟩ := localCost_of hc
  unfold dtw
  rw [hl, Except_bind_ok]
  simp only
  rw [hp, Except_bind_ok, hcw]
  unfold runGCM
  rw [hob]
  rfl

/-- C40: window arguments that the window does not take are a TypeError: `sakoechiba` and `slantedband` need exactly
`window_size`, `itakura` takes nothing. -/
theorem C40_window_args (hc : CallCost a n m L) (hn : 0 < n) (hm : 0 < m) (hp : canonPattern a.stepPattern = .ok p)
    (hob : a.openBegin = false)
    (hbad : ((a.windowType = .name "sakoechiba" ∨ a.windowType = .name "slantedband") ∧
        ∀ w, a.windowArgs ≠ [("window_size", w)]) ∨
      (a.windowType = .name "itakura" ∧ a.windowArgs ≠ [])) : dtw A a = .error .typeError := by
  have hcall : ∀ n m i j, (canonWindow a.windowType).call a.windowArgs n m i j = .error .typeError := by
    intro n m i j
    rcases hbad with ⟨h | h, hw⟩ | ⟨h, hw⟩
    · rw [h]
      simp only [canonWindow, String.reduceEq, if_false, if_true, WinFn.call]
    · rw [h]
      simp only [canonWindow, String.reduceEq, if_false, if_true, WinFn.call]
    · rw [h]
      simp only [canonWindow, String.reduceEq, if_false, if_true, WinFn.call, if_neg hw]
  have hcw : canonWindow a.windowType = .sakoeChiba ∨ canonWindow a.windowType = .slantedBand ∨
      canonWindow a.windowType = .itakura := by
    rcases hbad with ⟨h | h, hw⟩ | ⟨h, hw⟩ <;> rw [h] <;> simp [canonWindow]
  have hwm : ∀ lm : Mat F64, 0 < lm.rows * lm.cols →
      windowMatrix lm.rows lm.cols (canonWindow a.windowType) a.windowArgs = .error .typeError := by
    intro lm hpos
    obtain ⟨k, hk⟩ : ∃ k, lm.rows * lm.cols = k + 1 := ⟨lm.rows * lm.cols - 1, by omega⟩
    have key : ((List.range (lm.rows * lm.cols)).mapM fun (k : Nat) => do
        let b ← (canonWindow a.windowType).call a.windowArgs lm.rows lm.cols (k / lm.cols : Nat) (k % lm.cols : Nat)
        Except.ok (ε := Err) (if b then (1 : Int) else 0)) = .error .typeError := by
      rw [hk, List.range_succ_eq_map, List.mapM_cons, hcall]
      rfl
    unfold windowMatrix
    rcases hcw with h | h | h <;> rw [h] at key ⊢ <;> simp only [key] <;> rfl
  obtain ⟨qr, hl, _, _⟩ := localCost_of hc
  unfold dtw
  rw [hl, Except_bind_ok]
  simp only
  rw [hp, Except_bind_ok]
  unfold runGCM
  rw [hob]
  simp only [Bool.false_eq_true, if_false]
  unfold globalCostMatrix
  rw [hwm _ (Nat.mul_pos hn hm)]
  rfl

example : CallCost { Ex.plain with windowType := .name "slantedband" } 3 4 Ex.L ∧
    (∀ w, ({ Ex.plain with windowType := .name "slantedband" } : Args).windowArgs ≠ [("window_size", w)]) :=
  ⟨.matrix rfl rfl rfl rfl, by simp [Ex.plain]⟩

/-- C40: a pattern name that is not a bundled one never yields an alignment. -/
theorem C40_unknown_pattern {s : String} (hs : s ∉ Pat.table.map Prod.fst)
    (hp : a.stepPattern = .name s) : ∀ r, dtw A a ≠ .ok r := by
  intro r hr
  have hl : ∀ (t : List (String × StepPattern)), s ∉ t.map Prod.fst → t.lookup s = none := by
    intro t
    induction t with
    | nil => intro _; rfl
    | cons x xs ih =>
      intro h
      simp only [List.map_cons, List.mem_cons, not_or] at h
      rw [List.lookup_cons, show (s == x.1) = false by simpa using h.1]
      exact ih h.2
  have hcp : canonPattern a.stepPattern = .error .attributeError := by
    simp [hp, canonPattern, hl _ hs]
  unfold dtw at hr
  cases h1 : localCost a with
  | error e => rw [h1] at hr; simp at hr
  | ok x => rw [h1, Except_bind_ok, hcp] at hr; simp at hr

example : "sakoeChiba" ∉ ["none", "sakoechiba", "itakura", "slantedband"] ∧
    "symmetric3" ∉ Pat.table.map Prod.fst := by decide +kernel

/-! ### C44 -/

/-- C44.  `print(stepPattern)` succeeds for a well-formed pattern, prints the hint and one line per rule, and
the lines, read as an equation, are exactly the candidates of the recursion that is computed (any
arithmetic, any costs, every cell).  (This is about the terms of the text; its layout and the two-digit
rounding of the printed weights are the subject of `Props/Texts.lean`.) -/
theorem C44_printed_equation (h : WF p rs) :
    ∃ body, p.str = .ok (body, p.hint) ∧ body.length = rs.length ∧
      ∀ (A : Arith) (L G : Nat → Nat → F64) (i j : Nat),
        body.map (readLine A L G i j) = rs.map (cand A L G i j) := by
  unfold StepPattern.str
  rw [getNPatterns_WF h, Except_bind_ok]
  refine ⟨_, rfl, by simp, ?_⟩
  intro A L G i j
  rw [List.map_map]
  simp only [Int.toNat_natCast]
  apply List.ext_getElem?
  intro k
  rw [List.getElem?_map, List.getElem?_map]
  cases hk : rs[k]? with
  | none =>
    have : rs.length ≤ k := List.getElem?_eq_none_iff.1 hk
    rw [List.getElem?_eq_none (by simpa using this)]
    rfl
  | some q =>
    have hlt : k < rs.length := (List.getElem?_eq_some_iff.1 hk).1
    rw [List.getElem?_range hlt]
    simp only [Option.map_some, Option.some.injEq, Function.comp_apply]
    unfold StepPattern.extractPattern
    rw [h.rows, filter_encode hk, List.reverse_reverse]
    have hv := h.valid q (List.mem_of_getElem? hk)
    unfold Rule.rows
    simp only [List.map_cons, if_true, readLine, cand]
    have e0 : ((q.a : Int) ≤ i ∧ (q.b : Int) ≤ j) ↔ (q.a ≤ i ∧ q.b ≤ j) := by omega
    have e1 : ((i : Int) - q.a).toNat = i - q.a := by omega
    have e2 : ((j : Int) - q.b).toNat = j - q.b := by omega
    simp only [e0, e1, e2]
    have fold : ∀ (ts : List Term) (c : F64), (∀ t ∈ ts, t.w ≠ -1) →
        ((ts.map fun t => (⟨(k : Int) + 1, t.di, t.dj, t.w⟩ : Step)).map fun s =>
          if s.w = -1 then StepPattern.Printed.g s.di s.dj else .d s.w s.di s.dj).foldl
          (readTerm A L i j) c =
        ts.foldl (fun c t => A.mac c (A.rnd t.w) (L (i - t.di) (j - t.dj))) c := by
      intro ts
      induction ts with
      | nil => intro c _; rfl
      | cons t ts ih =>
        intro c hts
        have ht := hts t (List.mem_cons_self ..)
        have e3 : ((i : Int) - t.di).toNat = i - t.di := by omega
        have e4 : ((j : Int) - t.dj).toNat = j - t.dj := by omega
        simp only [List.map_cons, if_neg ht, List.foldl_cons, readTerm, e3, e4]
        exact ih _ fun t' ht' => hts t' (List.mem_cons_of_mem _ ht')
    rw [fold q.terms _ fun t ht => (hv.2 t ht).1]
    by_cases hc : q.a ≤ i ∧ q.b ≤ j
    · simp only [if_pos hc]; rfl
    · simp only [if_neg hc]
      generalize q.terms = ts
      induction ts with
      | nil => rfl
      | cons t ts ih => simpa using ih

/-- C44: so the cost matrix satisfies the printed equation: each in-window cell other than the start is the
least usable printed line. -/
theorem C44_cost_matrix_satisfies (h : Problem a n m L W p rs) (hob : a.openBegin = false)
    (hki : a.keepInternals = true) (hr : dtw A a = .ok r) :
    ∃ body G D, p.str = .ok (body, p.hint) ∧ r.costMatrix = some (Mat.ofFn n m G) ∧
      r.directionMatrix = some (Mat.ofFn n m D) ∧
      ∀ i < n, ∀ j < m, ¬ (i = 0 ∧ j = 0) → W i j = true →
        IsBest (body.map (readLine A L G i j)) (G i j) (D i j) := by
  obtain ⟨body, h1, _, h2⟩ := C44_printed_equation h.wf
  obtain ⟨G, D, g1, g2, _, _, _, g3⟩ := C07_C08_recursion h hob hki hr
  refine ⟨body, G, D, h1, g1, g2, ?_⟩
  intro i hi j hj h0 hW
  rw [h2]
  exact g3 i hi j hj h0 hW

example : Pat.symmetric2.str.toOption = some ([[.g 1 1, .d 2 0 0], [.g 0 1, .d 1 0 0], [.g 1 0, .d 1 0 0]],
    "N+M") := by decide +kernel

end DTW
