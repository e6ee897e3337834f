import Verif.Props.Plot

/-!
# C45, continued: explicit series and positions, labels of the step-pattern plot
-/

namespace DTW
open F64

variable {A : Arith} {rs : List Rule} {W : Nat → Nat → Bool} {n m : Nat} {p : StepPattern}
  {a : Args} {d r : Result} {L : Nat → Nat → F64} {mp : Mapping}

/-- A position of a vector of `len` elements as Python writes it: `0..len-1`, or `-len..-1` counted from the end;
`k` is the element meant. -/
def Names (len : Nat) (v : Int) (k : Nat) : Prop := k < len ∧ (v = k ∨ v = (k : Int) - len)

theorem pyIdx_names {α} {l : List α} {v : Int} {k : Nat} (h : Names l.length v k) : ∃ x, l[k]? = some x ∧ pyIdx l v = .ok x := by
  obtain ⟨hk, hv⟩ := h
  refine ⟨l[k], List.getElem?_eq_getElem hk, ?_⟩
  unfold pyIdx
  have e : (if v < 0 then v + l.length else v) = (k : Int) := by split_ifs <;> omega
  simp only [e]
  rw [if_pos (by omega), Int.toNat_natCast, List.getElem?_eq_getElem hk]

theorem pyIdx_bad {α} {l : List α} {v : Int} (h : v < -l.length ∨ (l.length : Int) ≤ v) : pyIdx l v = .error .indexError := by
  unfold pyIdx
  simp only
  split_ifs with h1 h2 h2
  · omega
  · rfl
  · rw [List.getElem?_eq_none (by omega)]
  · rfl

theorem names_of_range {len : Nat} {v : Int} (h0 : -(len : Int) ≤ v) (h1 : v < len) : ∃ k, Names len v k := by
  by_cases hv : v < 0
  · exact ⟨(v + len).toNat, by omega, by omega⟩
  · exact ⟨v.toNat, by omega, by omega⟩

theorem mapM_list {α β : Type} {f : α → Except Err β} {P : α → β → Prop} :
    ∀ {l : List α}, (∀ x ∈ l, ∃ y, f x = .ok y ∧ P x y) → ∃ ys, l.mapM f = .ok ys ∧ List.Forall₂ P l ys := by
  intro l
  induction l with
  | nil => intro _; exact ⟨[], rfl, .nil⟩
  | cons x l ih =>
    intro h
    obtain ⟨y, hy, hP⟩ := h x (by simp)
    obtain ⟨ys, hys, hF⟩ := ih fun z hz => h z (by simp [hz])
    exact ⟨y :: ys, by rw [List.mapM_cons, hy, Except_bind_ok, hys, Except_bind_ok]; rfl, .cons hP hF⟩

theorem mapM_first_error {α β : Type} {f : α → Except Err β} {e : Err} :
    ∀ {l : List α}, (∀ x ∈ l, (∃ y, f x = .ok y) ∨ f x = .error e) → (∃ x ∈ l, f x = .error e) → l.mapM f = .error e := by
  intro l
  induction l with
  | nil => rintro _ ⟨x, hx, _⟩; simp at hx
  | cons x l ih =>
    rintro h ⟨z, hz, hze⟩
    rw [List.mapM_cons]
    rcases h x (by simp) with ⟨y, hy⟩ | he
    · rw [hy, Except_bind_ok, ih (fun w hw => h w (by simp [hw])) ?_]
      · rfl
      · rcases List.mem_cons.1 hz with rfl | hz
        · rw [hy] at hze; simp at hze
        · exact ⟨z, hz, hze⟩
    · rw [he]; rfl

theorem col_rows (zs : List F64) : (⟨zs.length, 1, zs⟩ : Mat F64).toRows = zs.map fun v => [v] := by
  unfold Mat.toRows Mat.row
  apply List.ext_getElem?
  intro t
  rw [List.getElem?_map, List.getElem?_map]
  by_cases ht : t < zs.length
  · rw [List.getElem?_range ht, List.getElem?_eq_getElem ht]
    simp only [Option.map_some, mul_one, Option.some.injEq]
    rw [List.drop_eq_getElem_cons ht]
    rfl
  · rw [List.getElem?_eq_none (by simp; omega), List.getElem?_eq_none (by omega)]
    rfl

/-- A path whose two components have equal length and stay inside series of `nx` and `ny` elements. -/
structure PathWithin (mp : Mapping) (nx ny : Nat) : Prop where
  length : mp.index1.length = mp.index2.length
  range1 : ∀ i ∈ mp.index1, 0 ≤ i ∧ i < nx
  range2 : ∀ j ∈ mp.index2, 0 ≤ j ∧ j < ny

/-- Paths of `dtw` are such. -/
theorem PathWithin.of_dtw (h : Problem a n m L W p rs) (hr : dtw A a = .ok r) (hmp : r.mapping = some mp)
    (hside : a.openBegin = true → ∀ q ∈ rs, ∀ t ∈ q.terms, 0 < q.a → t.di < q.a) : PathWithin mp n m := by
  obtain ⟨h1, _, h2, h3⟩ := path_in_range h hr hmp hside
  exact ⟨h1, h2, h3⟩

/-- The guide the two-way plot draws for element `k` of the path. -/
def TwoWayGuideAt (A : Arith) (mp : Mapping) (xs ys : List F64) (offset : ℚ) (k : Nat) (g : Pt × Pt) : Prop :=
  ∃ (i j : Nat) (vx vy : F64), mp.index1[k]? = some (i : Int) ∧ mp.index2[k]? = some (j : Int) ∧
    xs[i]? = some vx ∧ ys[j]? = some vy ∧ g = ((fin (i : ℚ), vx), (fin (j : ℚ), A.add (fin offset) vy))

theorem twoWayGuide_at (hmp : d.mapping = some mp) {xs ys : List F64} (hw : PathWithin mp xs.length ys.length) (offset : ℚ)
    {v : Int} {k : Nat} (hk : Names mp.index1.length v k) :
    ∃ g, twoWayGuide A d ⟨xs.length, 1, xs⟩ ⟨ys.length, 1, ys⟩ offset v = .ok g ∧
      TwoWayGuideAt A mp xs ys offset k g := by
  obtain ⟨i, e1, g1⟩ := pyIdx_names hk
  obtain ⟨j, e2, g2⟩ := pyIdx_names (l := mp.index2) (v := v) (k := k) (by rw [← hw.length]; exact hk)
  have hi := hw.range1 i (List.mem_of_getElem? e1)
  have hj := hw.range2 j (List.mem_of_getElem? e2)
  obtain ⟨vx, hvx, gx⟩ := col_pyGet (xs := xs) hi.1 hi.2
  obtain ⟨vy, hvy, gy⟩ := col_pyGet (xs := ys) hj.1 hj.2
  refine ⟨((fin (i : ℚ), vx), (fin (j : ℚ), A.add (fin offset) vy)), ?_, i.toNat, j.toNat, vx, vy, ?_, ?_, hvx, hvy, ?_⟩
  · unfold twoWayGuide
    rw [hmp]
    simp only
    rw [g1, Except_bind_ok, gx, Except_bind_ok, g2, Except_bind_ok, gy, Except_bind_ok]
    rfl
  · rw [e1, Int.toNat_of_nonneg hi.1]
  · rw [e2, Int.toNat_of_nonneg hj.1]
  · have c1 : ((i.toNat : Nat) : ℚ) = (i : ℚ) := by exact_mod_cast congrArg (Int.cast (R := ℚ)) (Int.toNat_of_nonneg hi.1)
    have c2 : ((j.toNat : Nat) : ℚ) = (j : ℚ) := by exact_mod_cast congrArg (Int.cast (R := ℚ)) (Int.toNat_of_nonneg hj.1)
    rw [c1, c2]

/-- **C45** (two-way plot, series and positions given).  When both series are supplied as single-column matrices, they are
the ones drawn, the first as the query and the second (displaced by `offset`) as the reference; with a vector of positions
there is one guide per position, in the order given, for the path element that position names (negative positions count
from the end). -/
theorem C45_twoway_given (hmp : d.mapping = some mp) {xs ys : List F64} (hw : PathWithin mp xs.length ys.length)
    {o : PlotOpts} (hx : o.xts = some (.d2 ⟨xs.length, 1, xs⟩)) (hy : o.yts = some (.d2 ⟨ys.length, 1, ys⟩)) {l : List Int}
    (hl : o.matchIndices = .list l) (hpos : ∀ v ∈ l, -(mp.index1.length : Int) ≤ v ∧ v < mp.index1.length) :
    ∃ dr, dtwPlot A d "twoway" o = .ok dr ∧ dr.query = xs.map (fun v => [v]) ∧
      dr.reference = ys.map (fun v => [A.add v (fin o.offset)]) ∧ dr.curve = [] ∧
      List.Forall₂ (fun v g => ∃ k, Names mp.index1.length v k ∧ TwoWayGuideAt A mp xs ys o.offset k g) l dr.guides := by
  obtain ⟨gs, hgs, hF⟩ := mapM_list (f := twoWayGuide A d ⟨xs.length, 1, xs⟩ ⟨ys.length, 1, ys⟩ o.offset)
    (P := fun v g => ∃ k, Names mp.index1.length v k ∧ TwoWayGuideAt A mp xs ys o.offset k g) (l := l) (by
      intro v hv
      obtain ⟨k, hk⟩ := names_of_range (hpos v hv).1 (hpos v hv).2
      obtain ⟨g, h1, h2⟩ := twoWayGuide_at (A := A) hmp hw o.offset hk
      exact ⟨g, h1, k, hk, h2⟩)
  refine ⟨⟨[], xs.map (fun v => [v]), ys.map (fun v => [A.add v (fin o.offset)]), gs, none⟩, ?_, rfl, rfl, rfl, hF⟩
  show plotTwoWay A d o = _
  unfold plotTwoWay plotSeries
  rw [hx, hy]
  simp only [Except_bind_ok, univariate]
  rw [if_neg (by simp), Except_bind_ok, if_neg (by simp), Except_bind_ok, hl]
  simp only [guidePositions, Except_bind_ok]
  rw [hgs, Except_bind_ok, col_rows, col_rows, List.map_map]
  rfl

/-- C45.  A position outside the path is an IndexError, in both styles. -/
theorem C45_bad_position (hmp : d.mapping = some mp) {xs ys : List F64} (hw : PathWithin mp xs.length ys.length)
    {o : PlotOpts} (hx : o.xts = some (.d2 ⟨xs.length, 1, xs⟩)) (hy : o.yts = some (.d2 ⟨ys.length, 1, ys⟩)) {l : List Int}
    (hl : o.matchIndices = .list l) (hbad : ∃ v ∈ l, v < -(mp.index1.length : Int) ∨ (mp.index1.length : Int) ≤ v)
    {t : String} (ht : t = "twoway" ∨ t = "threeway") : dtwPlot A d t o = .error .indexError := by
  rcases ht with rfl | rfl
  · show plotTwoWay A d o = _
    unfold plotTwoWay plotSeries
    rw [hx, hy]
    simp only [Except_bind_ok, univariate]
    rw [if_neg (by simp), Except_bind_ok, if_neg (by simp), Except_bind_ok, hl]
    simp only [guidePositions, Except_bind_ok]
    rw [mapM_first_error (e := .indexError) ?_ ?_]
    · rfl
    · intro v _
      by_cases hv : -(mp.index1.length : Int) ≤ v ∧ v < mp.index1.length
      · obtain ⟨k, hk⟩ := names_of_range hv.1 hv.2
        obtain ⟨g, h1, _⟩ := twoWayGuide_at (A := A) hmp hw o.offset hk
        exact .inl ⟨g, h1⟩
      · right
        unfold twoWayGuide
        rw [hmp]
        simp only
        rw [pyIdx_bad (by omega)]; rfl
    · obtain ⟨v, hv, hb⟩ := hbad
      refine ⟨v, hv, ?_⟩
      unfold twoWayGuide
      rw [hmp]
      simp only
      rw [pyIdx_bad (by omega)]; rfl
  · show plotThreeWay A d o = _
    unfold plotThreeWay plotSeries
    rw [hx, hy]
    simp only [Except_bind_ok, rowsOf, hmp]
    rw [hl]
    simp only [guidePositions, Except_bind_ok]
    rw [mapM_first_error (e := .indexError) ?_ ?_]
    · rfl
    · intro v _
      by_cases hv : -(mp.index1.length : Int) ≤ v ∧ v < mp.index1.length
      · obtain ⟨k, hk⟩ := names_of_range hv.1 hv.2
        obtain ⟨i, _, g1⟩ := pyIdx_names hk
        obtain ⟨j, _, g2⟩ := pyIdx_names (l := mp.index2) (v := v) (k := k) (by rw [← hw.length]; exact hk)
        left
        unfold threeWayGuides
        rw [g1, Except_bind_ok, g2, Except_bind_ok]
        exact ⟨_, rfl⟩
      · right
        unfold threeWayGuides
        rw [pyIdx_bad (by omega)]; rfl
    · obtain ⟨v, hv, hb⟩ := hbad
      refine ⟨v, hv, ?_⟩
      unfold threeWayGuides
      rw [pyIdx_bad (by omega)]; rfl

/-- C45.  The two-way plot rejects multivariate series with ValueError, whichever of the two is. -/
theorem C45_twoway_multivariate {X Y : Mat F64} {o : PlotOpts} (hs : plotSeries d o = .ok (.d2 X, .d2 Y))
    (hc : X.cols ≠ 1 ∨ Y.cols ≠ 1) :
    dtwPlot A d "twoway" o =
      .error (.valueError "Only single-variate timeseries can be plotted in the two-way style") := by
  show plotTwoWay A d o = _
  unfold plotTwoWay
  rw [hs]
  simp only [Except_bind_ok, univariate]
  by_cases h1 : X.cols = 1
  · rw [if_neg (by simpa using h1), Except_bind_ok, if_pos (by omega)]; rfl
  · rw [if_pos h1]; rfl

/-- C45, which series are drawn: both as supplied if both are, otherwise both as recorded in the alignment; a single
supplied series is ignored. -/
theorem C45_which_series (d : Result) (o : PlotOpts) :
    (∀ x y, o.xts = some x → o.yts = some y → plotSeries d o = .ok (x, y)) ∧
    (∀ X Y, o.xts = none ∨ o.yts = none → d.queryReference = some (X, Y) → plotSeries d o = .ok (.d2 X, .d2 Y)) ∧
    (o.xts = none ∨ o.yts = none → ∀ t, dtwPlot A d t o = dtwPlot A d t { o with xts := none, yts := none }) := by
  have key : o.xts = none ∨ o.yts = none → plotSeries d o = plotSeries d { o with xts := none, yts := none } := by
    intro h
    unfold plotSeries
    rcases h with h | h <;> rw [h] <;> (try (cases o.xts <;> rfl))
  refine ⟨?_, ?_, ?_⟩
  · intro x y h1 h2; simp [plotSeries, h1, h2]
  · intro X Y h hq
    rw [key h]; simp [plotSeries, hq]
  · intro h t
    unfold dtwPlot plotTwoWay plotThreeWay plotDensity
    rw [key h]

/-- **C45** (three-way plot, series and positions given).  Query and reference panels show the rows of the two arrays, the
middle panel the warping curve; a vector of positions gives two guides per position, from the path element it names to its
two projections. -/
theorem C45_threeway_given (hmp : d.mapping = some mp) (hlen : mp.index1.length = mp.index2.length) {X Y : Mat F64}
    {o : PlotOpts} (hs : plotSeries d o = .ok (.d2 X, .d2 Y)) {l : List Int}
    (hl : o.matchIndices = .list l) (hpos : ∀ v ∈ l, -(mp.index1.length : Int) ≤ v ∧ v < mp.index1.length) :
    ∃ dr gs, dtwPlot A d "threeway" o = .ok dr ∧ dr.curve = mp.index1.zip mp.index2 ∧
      dr.query = X.toRows ∧ dr.reference = Y.toRows ∧ dr.guides = gs.flatten ∧
      List.Forall₂ (fun v g => ∃ k i j, Names mp.index1.length v k ∧ mp.index1[k]? = some i ∧ mp.index2[k]? = some j ∧
        g = [((fin (i : ℚ), fin 0), (fin (i : ℚ), fin (j : ℚ))),
             ((fin 0, fin (j : ℚ)), (fin (i : ℚ), fin (j : ℚ)))]) l gs := by
  obtain ⟨gs, hgs, hF⟩ := mapM_list (f := threeWayGuides mp)
    (P := fun v g => ∃ k i j, Names mp.index1.length v k ∧ mp.index1[k]? = some i ∧ mp.index2[k]? = some j ∧
        g = [((fin (i : ℚ), fin 0), (fin (i : ℚ), fin (j : ℚ))),
             ((fin 0, fin (j : ℚ)), (fin (i : ℚ), fin (j : ℚ)))]) (l := l) (by
      intro v hv
      obtain ⟨k, hk⟩ := names_of_range (hpos v hv).1 (hpos v hv).2
      obtain ⟨i, e1, g1⟩ := pyIdx_names hk
      obtain ⟨j, e2, g2⟩ := pyIdx_names (l := mp.index2) (v := v) (k := k) (by rw [← hlen]; exact hk)
      refine ⟨_, ?_, k, i, j, hk, e1, e2, rfl⟩
      unfold threeWayGuides
      rw [g1, Except_bind_ok, g2, Except_bind_ok]
      rfl)
  refine ⟨⟨mp.index1.zip mp.index2, X.toRows, Y.toRows, gs.flatten, none⟩, gs, ?_, rfl, rfl, rfl, rfl, hF⟩
  show plotThreeWay A d o = _
  unfold plotThreeWay
  rw [hs]
  simp only [Except_bind_ok, rowsOf, hmp]
  rw [hl]
  simp only [guidePositions, Except_bind_ok]
  rw [hgs, Except_bind_ok]

/-- C45.  Unlike the two-way plot, the three-way plot also takes one-dimensional arrays; it treats them as single-column
matrices. -/
theorem C45_threeway_vectors (xs ys : List F64) (o : PlotOpts) :
    dtwPlot A d "threeway" { o with xts := some (.d1 xs), yts := some (.d1 ys) } =
      dtwPlot A d "threeway" { o with xts := some (.d2 ⟨xs.length, 1, xs⟩), yts := some (.d2 ⟨ys.length, 1, ys⟩) } := by
  show plotThreeWay A d _ = plotThreeWay A d _
  unfold plotThreeWay plotSeries
  simp only [Except_bind_ok, rowsOf, col_rows]

/-- Non-vacuity: the alignment of the two example series, explicit series and positions (the last one negative). -/
example : (dtw Arith.exact Ex.series).toOption.bind (fun d =>
    (dtwPlot Arith.exact d "twoway"
      { xts := some (.d2 ⟨3, 1, [fin 5, fin 6, fin 7]⟩)
        yts := some (.d2 ⟨4, 1, [fin 1, fin 2, fin 3, fin 4]⟩)
        offset := 10
        matchIndices := .list [1, -1] }).toOption.map (·.guides)) =
    some [((fin 0, fin 5), (fin 1, fin 12)), ((fin 2, fin 7), (fin 3, fin 14))] := by decide +kernel

example : PathWithin ⟨[0, 1, 2, 2], [0, 1, 1, 2], [], [], []⟩ 3 4 := by
  constructor <;> decide

/-! ### Labels of the step-pattern plot -/

/-- **C45** (labels of the step-pattern plot).  Each label stands half way between the two consecutive points of the
polyline that it refers to, and is the weight of the second. -/
theorem C45_pattern_labels (rows : List Step) (k : Nat) (u v : Int × Int) (s : Step)
    (hu : (ruleDrawing rows).line[k]? = some u) (hv : (ruleDrawing rows).line[k + 1]? = some v) (hs : rows[k + 1]? = some s) :
    (ruleDrawing rows).labels[k]? = some ((((u.1 : ℚ) + v.1) / 2, ((u.2 : ℚ) + v.2) / 2), s.w) := by
  simp only [ruleDrawing, List.getElem?_map, Option.map_eq_some_iff] at hu hv ⊢
  obtain ⟨x, hx, rfl⟩ := hu
  obtain ⟨y, hy, rfl⟩ := hv
  rw [hs] at hy
  cases hy
  refine ⟨(x, s), ?_, ?_⟩
  · rw [List.getElem?_zip_eq_some]
    refine ⟨hx, ?_⟩
    rw [List.getElem?_tail]; exact hs
  · push_cast
    congr 1
    congr 1 <;> ring

/-- Non-vacuity: the first rule of `asymmetricP1`. -/
example : ((ruleDrawing [⟨1, 1, 2, -1⟩, ⟨1, 0, 1, 1 / 2⟩, ⟨1, 0, 0, 1 / 2⟩]).labels) =
    [((-1 / 2, -3 / 2), 1 / 2), ((0, -1 / 2), 1 / 2)] := by decide +kernel

end DTW
