import Verif.Props.Options

/-!
# C23-C26: open versus closed begin, distance_only, keep_internals, two-series calls
-/

namespace DTW
open F64

variable {A : Arith} {a a' : Args} {n m : Nat} {L L' : Nat → Nat → F64} {W W' : Nat → Nat → Bool}
  {p : StepPattern} {rs : List Rule} {r r' : Result}

theorem charge_nullRow {q : Rule} (hv : q.Valid) (i j : Nat) (c : F64) :
    charge A (fun i' j' => if i' = 0 then fin 0 else L (i' - 1) j') q (i + q.a + 1) j c =
      charge A L q (i + q.a) j c := by
  unfold charge
  have : ∀ (l : List Term) (c : F64), (∀ t ∈ l, t.di ≤ q.a) →
      l.foldl (fun c t => A.mac c (A.rnd t.w)
        (if i + q.a + 1 - t.di = 0 then fin 0 else L (i + q.a + 1 - t.di - 1) (j - t.dj))) c =
      l.foldl (fun c t => A.mac c (A.rnd t.w) (L (i + q.a - t.di) (j - t.dj))) c := by
    intro l
    induction l with
    | nil => intro c _; rfl
    | cons t l ih =>
      intro c hl
      have ht := hl t (List.mem_cons_self ..)
      simp only [List.foldl_cons]
      rw [if_neg (by omega), show i + q.a + 1 - t.di - 1 = i + q.a - t.di by omega]
      exact ih _ fun t' ht' => hl t' (List.mem_cons_of_mem _ ht')
  exact this q.terms c fun t ht => (hv.2 t ht).2.1

/-- A closed-begin path preceded by a step from the null row to `(0,0)` is an open-begin path. -/
theorem WarpPath.toOpen (hv : ∀ q ∈ rs, q.Valid) {k1 : Nat}
    (hk1 : rs[k1]? = some ⟨1, 0, [⟨0, 0, 1⟩]⟩) (h00 : A.mac (fin 0) (A.rnd 1) (L 0 0) = L 0 0)
    (hW1 : W' 1 0 = true) (hW : ∀ i < n, ∀ j < m, W i j = true → W' (i + 1) j = true)
    {ks : List Int} {i j : Nat} {c : F64}
    (h : WarpPath A rs W L ks i j c) : i < n → j < m →
    OpenPath A rs W' L 0 (((k1 : Int) + 1) :: ks) (i + 1) j c := by
  induction h with
  | start =>
    intro _ _
    have := OpenPath.step (W := W') k1 _ (OpenPath.start (A := A) (rs := rs) (W := W') (L := L) (j0 := 0)) hk1
      (by simp) (by simpa using hW1)
    simpa [charge, h00] using this
  | @step ks i j c k q hp hq hWq ih =>
    intro hi hj
    have h1 := ih (by omega) (by omega)
    have h2 := OpenPath.step k q h1 hq (by omega)
      (by have := hW _ hi _ hj hWq; rwa [show i + 1 + q.a = i + q.a + 1 by omega])
    rw [show i + 1 + q.a = i + q.a + 1 by omega, charge_nullRow (hv q (List.mem_of_getElem? hq))] at h2
    exact h2

/-- C23.  If the pattern has the rule "one query element, no reference element, charging exactly the cell
reached", then open begin never costs more than closed begin: every closed-end alignment also exists with
open begin, at no larger distance.  (`h00`: the local cost of the corner survives multiplication by one and
addition to zero, as every double does.  The open-begin call sees its window one row lower.) -/
theorem C23_open_begin_le_closed (h : Problem a n m L W p rs) (h' : Problem a' n m L W' p rs)
    (hob : a.openBegin = false) (hob' : a'.openBegin = true) (hoe : a.openEnd = false)
    (hoe' : a'.openEnd = false) (hdo : a'.distanceOnly = false) (hh : p.hint = "N")
    (hrule : ⟨1, 0, [⟨0, 0, 1⟩]⟩ ∈ rs) (h00 : A.mac (fin 0) (A.rnd 1) (L 0 0) = L 0 0)
    (hW1 : W' 1 0 = true) (hW : ∀ i < n, ∀ j < m, W i j = true → W' (i + 1) j = true)
    (hr : dtw A a = .ok r) (hu : usable r.distance) :
    ∃ r', dtw A a' = .ok r' ∧ F64.le r'.distance r.distance := by
  obtain ⟨G, D, qr, hB, _, hd⟩ := dtw_closed A h hob
  obtain ⟨j, ks, hrun⟩ := closed_ok h hob hB hd hr
  obtain rfl := hrun.endAt.closed hoe
  have hdist : r.distance = G (n - 1) (m - 1) := by rw [hrun.result]; rfl
  have hn := h.n_pos
  have hm := h.m_pos
  obtain ⟨k1, hk1⟩ := List.getElem?_of_mem hrule
  have hp := hrun.path.toOpen h.wf.valid hk1 h00 hW1 hW (by omega) (by omega)
  rw [show n - 1 + 1 = n by omega] at hp
  rw [← hdist] at hp
  obtain ⟨r', hr'⟩ := (C22_open_begin_succeeds_iff h' hob' hoe' hdo hh).2 ⟨_, _, _, hp, hu⟩
  refine ⟨r', hr', ?_⟩
  obtain ⟨mp, j, j0, _, _, _, hj, _, hopt⟩ := C22_open_begin_optimal h' hob' hr'
  obtain rfl := hj hoe'
  exact hopt _ _ _ hp (usable_ne_nan hu)

/-- C23, example of the hypotheses: `asymmetric` and `asymmetricP0` have that rule. -/
theorem C23_bundled : ∀ s ∈ ["asymmetric", "asymmetricP0", "_asymmetricP0b"],
    ∃ p, canonPattern (.name s) = .ok p ∧ WF p (rulesOf p) ∧ p.hint = "N" ∧
      ⟨1, 0, [⟨0, 0, 1⟩]⟩ ∈ rulesOf p := by
  intro s hs
  have key : (["asymmetric", "asymmetricP0", "_asymmetricP0b"].all
    fun s => match Pat.table.lookup s with
      | some p => wfCheck p (rulesOf p) && decide (p.hint = "N") &&
          decide (⟨1, 0, [⟨0, 0, 1⟩]⟩ ∈ rulesOf p)
      | none => false) = true := by decide +kernel
  have := List.all_eq_true.1 key s hs
  cases hp : Pat.table.lookup s with
  | none => rw [hp] at this; simp at this
  | some p =>
    rw [hp] at this
    simp only [Bool.and_eq_true, decide_eq_true_eq] at this
    exact ⟨p, by simp [canonPattern, hp], wf_of_check this.1.1, this.1.2, this.2⟩

/-- C23, negative witness: without that rule the claim is false.  Two identical series of two elements
align at distance 0 with `rigid` and closed begin, while the open-begin call raises. -/
theorem C23_rigid_counterexample :
    (dtw Arith.exact { x := .d2 ⟨2, 2, [fin 0, fin 5, fin 5, fin 0]⟩, stepPattern := .name "rigid" }
      ).toOption.map (·.distance) = some (fin 0) ∧
    (dtw Arith.exact { x := .d2 ⟨2, 2, [fin 0, fin 5, fin 5, fin 0]⟩, stepPattern := .name "rigid"
                       openBegin := true }).toOption.isNone = true := by decide +kernel

/-! ### distance_only -/

theorem Problem.full (h : Problem a n m L W p rs) : Problem { a with distanceOnly := false } n m L W p rs :=
  { n_pos := h.n_pos
    m_pos := h.m_pos
    cost := by
      cases h.cost with
      | matrix h1 h2 h3 h4 => exact .matrix h1 h2 h3 h4
      | series h0 X Y h1 h2 h3 h4 h5 h6 h7 => exact .series h0 X Y h1 h2 h3 h4 h5 h6 h7
    pattern := h.pattern
    wf := h.wf
    fits := h.fits
    window := h.window }

/-- C24.  Without open begin, `distance_only=True` returns exactly the object of the full run minus the path
(success and failure alike). -/
theorem C24_distance_only (h : Problem a n m L W p rs) (hob : a.openBegin = false) :
    dtw A { a with distanceOnly := true } =
      (dtw A { a with distanceOnly := false }).map fun r => { r with mapping := none } := by
  obtain ⟨qr, hl, hqr, _⟩ := localCost_of h.cost
  obtain ⟨G, D, hB, hrun⟩ := runGCM_closed A h hob
  have hn := h.n_pos
  have hd : ∀ b, dtw A { a with distanceOnly := b } =
      finish A { a with distanceOnly := b } p n m qr n (Mat.ofFn n m L) G D := by
    intro b
    have hl' : localCost { a with distanceOnly := b } = .ok (Mat.ofFn n m L, ⟨true, true⟩, qr) := hl
    have hrun' : runGCM A { a with distanceOnly := b } (Mat.ofFn n m L) ⟨true, true⟩
        (canonWindow { a with distanceOnly := b }.windowType) p =
        .ok (Mat.ofFn n m L, Mat.ofFn n m G, Mat.ofFn n m D) := hrun
    unfold dtw finish
    rw [hl', Except_bind_ok]
    simp only
    rw [h.pattern, Except_bind_ok]
    simp only at hrun'
    rw [hrun', Except_bind_ok]
    have hr : ∀ {α : Type} (f : Nat → Nat → α), (Mat.ofFn n m f).rows = n := fun _ => rfl
    have hc : ∀ {α : Type} (f : Nat → Nat → α), (Mat.ofFn n m f).cols = m := fun _ => rfl
    simp only [hr, hc]
    rw [row_ofFn _ (by omega)]
  rw [hd true, hd false]
  have hpe0 : ∀ b, pickEnd { a with distanceOnly := b } p.hint m (Mat.ofFn n m G)
      (normalise A p.hint n (tab m (G (n - 1)))) =
      pickEnd a p.hint m (Mat.ofFn n m G) (normalise A p.hint n (tab m (G (n - 1)))) := fun _ => rfl
  cases hpe : pickEnd a p.hint m (Mat.ofFn n m G) (normalise A p.hint n (tab m (G (n - 1)))) with
  | error e =>
    rw [finish_error ((hpe0 true).trans hpe), finish_error ((hpe0 false).trans hpe)]; rfl
  | ok jd =>
    obtain ⟨j, d⟩ := jd
    obtain ⟨k, h1, rfl, rfl, h4, h5, h6⟩ := pickEnd_ok hn hn h.m_pos hpe
    obtain ⟨i0, j0, ks, hp, ht⟩ := hB.sound h.wf.valid _ (n - 1) k rfl (by omega) h1 h4
    rw [finish_of h1 ((hpe0 true).trans hpe), finish_of h1 ((hpe0 false).trans hpe),
      pickMapping_trace h.wf hn ht h1, pickMapping_trace h.wf hn ht h1]
    simp only [hob, Bool.false_eq_true, if_false, if_true, Except.map]
    rfl

/-- A closed-begin call that succeeds also does without `distance_only`. -/
theorem success_full (h : Problem a n m L W p rs) (hob : a.openBegin = false) (hr : dtw A a = .ok r) :
    ∃ r', dtw A { a with distanceOnly := false } = .ok r' := by
  cases hdo : a.distanceOnly with
  | false =>
    have e : { a with distanceOnly := false } = a := by cases a; simp_all
    rw [e]; exact ⟨r, hr⟩
  | true =>
    have e : { a with distanceOnly := true } = a := by cases a; simp_all
    rw [← e, C24_distance_only h hob] at hr
    cases hf : dtw A { a with distanceOnly := false } with
    | error x => rw [hf] at hr; cases hr
    | ok r' => exact ⟨r', rfl⟩

/-- C24: consequently the numbers agree and there is no path. -/
theorem C24_same_numbers (h : Problem a n m L W p rs) (hob : a.openBegin = false)
    (hr : dtw A { a with distanceOnly := true } = .ok r)
    (hr' : dtw A { a with distanceOnly := false } = .ok r') :
    r.distance = r'.distance ∧ r.normalizedDistance = r'.normalizedDistance ∧ r.jmin = r'.jmin ∧
      r.costMatrix = r'.costMatrix ∧ r.directionMatrix = r'.directionMatrix ∧ r.mapping = none := by
  rw [C24_distance_only h hob, hr'] at hr
  simp only [Except.map, Except.ok.injEq] at hr
  subst hr
  simp

/-- C24, finding: with open begin, `distance_only=True` never returns, whatever the input. -/
theorem C24_open_begin_always_fails (hob : a.openBegin = true) (hdo : a.distanceOnly = true) :
    ∀ r, dtw A a ≠ .ok r := by
  intro r hr
  unfold dtw at hr
  cases h1 : localCost a with
  | error e => rw [h1] at hr; simp at hr
  | ok x =>
    rw [h1, Except_bind_ok] at hr
    obtain ⟨lm, lay, qr⟩ := x
    simp only at hr
    cases h2 : canonPattern a.stepPattern with
    | error e => rw [h2] at hr; simp at hr
    | ok p =>
      rw [h2, Except_bind_ok] at hr
      cases h3 : runGCM A a lm lay (canonWindow a.windowType) p with
      | error e => rw [h3] at hr; simp at hr
      | ok y =>
        rw [h3, Except_bind_ok] at hr
        obtain ⟨lm', cm, sm⟩ := y
        simp only at hr
        cases h4 : pickEnd a p.hint lm.cols cm (normalise A p.hint lm.rows (cm.row (cm.rows - 1))) with
        | error e => rw [h4] at hr; simp at hr
        | ok z =>
          rw [h4, Except_bind_ok] at hr
          cases h5 : pickNorm p.hint (normalise A p.hint lm.rows (cm.row (cm.rows - 1))) z.1 with
          | error e => rw [h5] at hr; simp at hr
          | ok v =>
            rw [h5, Except_bind_ok] at hr
            simp [pickMapping, hob, hdo] at hr

example : Problem Ex.band 3 4 Ex.L Ex.bandW Pat.asymmetric (rulesOf Pat.asymmetric) ∧
    (dtw Arith.exact { Ex.band with distanceOnly := true }).toOption.map (·.distance) = some (fin 3) ∧
    (dtw Arith.exact { Ex.band with distanceOnly := false }).toOption.map (·.distance) = some (fin 3) :=
  ⟨Ex.band_problem, by decide +kernel, by decide +kernel⟩

/-! ### keep_internals -/

/-- C25.  `keep_internals` only adds the matrices and the series: any call at all (well-formed or not),
success and failure alike. -/
theorem C25_keep_internals (A : Arith) (a : Args) :
    dtw A { a with keepInternals := false } =
      (dtw A { a with keepInternals := true }).map fun r =>
        { r with costMatrix := none, directionMatrix := none, localCostMatrix := none
                 queryReference := none } := by
  unfold dtw
  have e1 : ∀ b, localCost { a with keepInternals := b } = localCost a := fun _ => rfl
  have e2 : ∀ b lm lay wf p, runGCM A { a with keepInternals := b } lm lay wf p = runGCM A a lm lay wf p :=
    fun _ _ _ _ _ => rfl
  have e3 : ∀ b h m cm l, pickEnd { a with keepInternals := b } h m cm l = pickEnd a h m cm l :=
    fun _ _ _ _ _ => rfl
  have e4 : ∀ b p sm j, pickMapping { a with keepInternals := b } p sm j = pickMapping a p sm j :=
    fun _ _ _ _ => rfl
  simp only [e1, e2, e3, e4]
  cases localCost a with
  | error e => rfl
  | ok x =>
    simp only [Except_bind_ok]
    cases canonPattern a.stepPattern with
    | error e => rfl
    | ok p =>
      simp only [Except_bind_ok]
      cases runGCM A a x.1 x.2.1 (canonWindow a.windowType) p with
      | error e => rfl
      | ok y =>
        simp only [Except_bind_ok]
        cases pickEnd a p.hint x.1.cols y.2.1 (normalise A p.hint x.1.rows (y.2.1.row (y.2.1.rows - 1))) with
        | error e => rfl
        | ok z =>
          simp only [Except_bind_ok]
          cases pickNorm p.hint (normalise A p.hint x.1.rows (y.2.1.row (y.2.1.rows - 1))) z.1 with
          | error e => rfl
          | ok v =>
            simp only [Except_bind_ok]
            cases pickMapping a p y.2.2 z.1 with
            | error e => rfl
            | ok mp => rfl

/-- C25: what is added.  The three matrices are `N × M` (also with open begin), and the local cost matrix is
the one the call is about. -/
theorem C25_added_fields (h : Problem a n m L W p rs) (hki : a.keepInternals = true)
    (hr : dtw A a = .ok r) :
    r.N = n ∧ r.M = m ∧ r.localCostMatrix = some (Mat.ofFn n m L) ∧
    (∃ C, r.costMatrix = some C ∧ C.rows = n ∧ C.cols = m ∧ C.data.length = n * m) ∧
    (∃ C, r.directionMatrix = some C ∧ C.rows = n ∧ C.cols = m ∧ C.data.length = n * m) := by
  cases hob : a.openBegin with
  | false =>
    obtain ⟨G, D, qr, hB, _, hd⟩ := dtw_closed A h hob
    obtain ⟨j, ks, hrun⟩ := closed_ok h hob hB hd hr
    rw [hrun.result]
    simp only [mkResult, hki, hob, if_true, Bool.false_eq_true, if_false, true_and]
    exact ⟨⟨_, rfl, rfl, rfl, length_ofFn _ _ _⟩, ⟨_, rfl, rfl, rfl, length_ofFn _ _ _⟩⟩
  | true =>
    have hh : p.hint = "N" := by
      by_contra hh; rw [open_bad_hint h hob hh] at hr; simp at hr
    obtain ⟨G, D, qr, hB, _, hd⟩ := dtw_open A h hob hh
    obtain ⟨j, j0, ks, hrun⟩ := open_ok h hob hB hd hr
    rw [hrun.result]
    simp only [mkResult, hki, hob, if_true, true_and, dropRow_ofFn]
    refine ⟨?_, ⟨_, rfl, rfl, rfl, length_ofFn _ _ _⟩, ⟨_, rfl, rfl, rfl, length_ofFn _ _ _⟩⟩
    simp [nullRow]

/-- C25: for a two-series call the two series (as matrices with one row per element) are added. -/
theorem C25_series_kept {y : Nd} {X Y : Mat F64} (hy : a.y = some y) (hX : AsMatrix a.x X)
    (hY : AsMatrix y Y) (hr : dtw A a = .ok r) :
    r.queryReference = if a.keepInternals then some (X, Y) else none := by
  unfold dtw at hr
  cases hc : cdist a.dist X Y with
  | error e =>
    have : localCost a = .error e := by
      simp only [localCost, hy, asColumns_of hX, asColumns_of hY, Except_bind_ok, hc]; rfl
    rw [this] at hr; simp at hr
  | ok lm =>
    have : localCost a = .ok (lm, ⟨true, true⟩, some (X, Y)) := by
      simp only [localCost, hy, asColumns_of hX, asColumns_of hY, Except_bind_ok, hc]
    rw [this, Except_bind_ok] at hr
    simp only at hr
    cases h2 : canonPattern a.stepPattern with
    | error e => rw [h2] at hr; simp at hr
    | ok p =>
      rw [h2, Except_bind_ok] at hr
      cases h3 : runGCM A a lm ⟨true, true⟩ (canonWindow a.windowType) p with
      | error e => rw [h3] at hr; simp at hr
      | ok x =>
        rw [h3, Except_bind_ok] at hr
        obtain ⟨lm', cm, sm⟩ := x
        simp only at hr
        cases h4 : pickEnd a p.hint lm.cols cm (normalise A p.hint lm.rows (cm.row (cm.rows - 1))) with
        | error e => rw [h4] at hr; simp at hr
        | ok z =>
          rw [h4, Except_bind_ok] at hr
          cases h5 : pickNorm p.hint (normalise A p.hint lm.rows (cm.row (cm.rows - 1))) z.1 with
          | error e => rw [h5] at hr; simp at hr
          | ok v =>
            rw [h5, Except_bind_ok] at hr
            cases h6 : pickMapping a p sm z.1 with
            | error e => rw [h6] at hr; simp at hr
            | ok mp =>
              rw [h6, Except_bind_ok] at hr
              simp only [Except.ok.injEq] at hr
              rw [← hr]

example : (dtw Arith.exact Ex.series).toOption.map (fun r => r.queryReference.isSome) = some true := by
  decide +kernel

/-! ### Two-series calls -/

/-- C26.  A call on two series is the call on the matrix of their pairwise distances (any options, success
and failure alike): entry `[i,j]` of that matrix is the distance of element `i` of the query and element
`j` of the reference. -/
theorem C26_series_as_matrix {y : Nd} {X Y : Mat F64} (hy : a.y = some y) (hX : AsMatrix a.x X)
    (hY : AsMatrix y Y) (hcols : X.cols = Y.cols) :
    (dtw A a).map Result.core =
      (dtw A { a with
        x := .d2 (Mat.ofFn X.rows Y.rows fun i j => a.dist (X.row i) (Y.row j))
        y := none, layout := ⟨true, true⟩, stackContig := true }).map Result.core := by
  have e0 : localCost a = .ok (Mat.ofFn X.rows Y.rows fun i j => a.dist (X.row i) (Y.row j), ⟨true, true⟩,
      some (X, Y)) := by
    simp only [localCost, hy, asColumns_of hX, asColumns_of hY, Except_bind_ok, cdist, hcols, ne_eq,
      not_true_eq_false, if_false]
  generalize Mat.ofFn X.rows Y.rows (fun i j => a.dist (X.row i) (Y.row j)) = lm at e0 ⊢
  unfold dtw
  rw [e0]
  simp only [localCost, Except_bind_ok]
  cases canonPattern a.stepPattern with
  | error e => rfl
  | ok p =>
    simp only [Except_bind_ok]
    have e2 : runGCM A { a with x := .d2 lm, y := none, layout := ⟨true, true⟩, stackContig := true } lm
        ⟨true, true⟩ (canonWindow a.windowType) p = runGCM A a lm ⟨true, true⟩ (canonWindow a.windowType) p := by
      simp [runGCM, hy]
    rw [e2]
    cases runGCM A a lm ⟨true, true⟩ (canonWindow a.windowType) p with
    | error e => rfl
    | ok x =>
      simp only [Except_bind_ok]
      have e3 : ∀ h m cm l,
          pickEnd { a with x := .d2 lm, y := none, layout := ⟨true, true⟩, stackContig := true } h m cm l =
            pickEnd a h m cm l := fun _ _ _ _ => rfl
      have e4 : ∀ p sm j,
          pickMapping { a with x := .d2 lm, y := none, layout := ⟨true, true⟩, stackContig := true } p sm j =
            pickMapping a p sm j := fun _ _ _ => rfl
      simp only [e3, e4]
      cases pickEnd a p.hint lm.cols x.2.1 (normalise A p.hint lm.rows (x.2.1.row (x.2.1.rows - 1))) with
      | error e => rfl
      | ok z =>
        simp only [Except_bind_ok]
        cases pickNorm p.hint (normalise A p.hint lm.rows (x.2.1.row (x.2.1.rows - 1))) z.1 with
        | error e => rfl
        | ok v =>
          simp only [Except_bind_ok]
          cases pickMapping a p x.2.2 z.1 with
          | error e => rfl
          | ok mp => rfl

/-- C26: a one-dimensional series is treated as a matrix with one column. -/
theorem C26_one_dimensional (A : Arith) (a : Args) (xs ys : List F64) :
    dtw A { a with x := .d1 xs, y := some (.d1 ys) } =
      dtw A { a with x := .d2 ⟨xs.length, 1, xs⟩, y := some (.d2 ⟨ys.length, 1, ys⟩) } := rfl

/-- C26: series of different numbers of columns are rejected. -/
theorem C26_dimension_mismatch {y : Nd} {X Y : Mat F64} (hy : a.y = some y) (hX : AsMatrix a.x X)
    (hY : AsMatrix y Y) (hcols : X.cols ≠ Y.cols) : ∃ t, dtw A a = .error (.valueError t) := by
  unfold dtw
  refine ⟨"cdist: same number of columns expected", ?_⟩
  have e0 : localCost a = .error (.valueError "cdist: same number of columns expected") := by
    simp only [localCost, hy, asColumns_of hX, asColumns_of hY, Except_bind_ok, cdist, hcols, ne_eq,
      not_false_eq_true, if_true]
    rfl
  rw [e0]; rfl

/-- C26: arrays of the wrong number of dimensions are rejected with a ValueError: a series must have one or two
dimensions, a cost matrix exactly two. -/
theorem C26_wrong_dimensions (A : Arith) (a : Args) :
    (∀ y, a.y = some y → (∀ X, ¬ AsMatrix a.x X) ∨ (∀ Y, ¬ AsMatrix y Y) → ∃ t, dtw A a = .error (.valueError t)) ∧
    (a.y = none → (∀ M, a.x ≠ .d2 M) → ∃ t, dtw A a = .error (.valueError t)) := by
  have asm : ∀ x : Nd, (∃ X, AsMatrix x X ∧ asColumns x = .ok X) ∨ ∃ t, asColumns x = .error (.valueError t) := by
    intro x
    cases x with
    | d0 v => exact .inr ⟨_, rfl⟩
    | d1 xs => exact .inl ⟨_, .d1 _, rfl⟩
    | d2 M => exact .inl ⟨_, .d2 _, rfl⟩
    | dn => exact .inr ⟨_, rfl⟩
  have fin : (∃ t, localCost a = .error (.valueError t)) → ∃ t, dtw A a = .error (.valueError t) := by
    rintro ⟨t, e⟩
    refine ⟨t, ?_⟩
    unfold dtw
    rw [e]; rfl
  constructor
  · intro y hy hbad
    apply fin
    rcases asm a.x with ⟨X, hX, eX⟩ | ⟨t, eX⟩
    · rcases asm y with ⟨Y, hY, eY⟩ | ⟨t, eY⟩
      · rcases hbad with h | h
        · exact absurd hX (h X)
        · exact absurd hY (h Y)
      · refine ⟨t, ?_⟩
        simp only [localCost, hy, eX, eY, Except_bind_ok]
        rfl
    · refine ⟨t, ?_⟩
      simp only [localCost, hy, eX]
      rfl
  · intro hy hx
    apply fin
    refine ⟨"A 2D local distance matrix was expected", ?_⟩
    cases e : a.x with
    | d2 M => exact absurd e (hx M)
    | _ => simp only [localCost, hy, e]

example : (∀ X, ¬ AsMatrix .dn X) ∧ (∀ X, ¬ AsMatrix (.d0 (fin 1)) X) ∧ ∀ M, Nd.d1 [fin 1] ≠ .d2 M :=
  ⟨(fun _ h => nomatch h), (fun _ h => nomatch h), (fun _ h => nomatch h)⟩

example : Ex.series.y = some (.d1 [fin 4, fin 2, fin 3, fin 1]) ∧
    AsMatrix Ex.series.x ⟨3, 1, [fin 1, fin 3, fin 2]⟩ := ⟨rfl, .d1 _⟩

end DTW
