import Verif.Proofs.PlotProof

/-!
# C45: plots

`Spread len num k` (PlotProof.lean): `k` picks `num` positions out of `len`, in order, starting with the first
and ending with the last.  `RelErrOn`, `ExactUpTo`: accuracy of the arithmetic (`linspace` is computed in
floating point); both hold for exact arithmetic, for double precision with `u = 2^-53`.
-/

namespace DTW
open F64

variable {A : Arith} {rs : List Rule} {W : Nat → Nat → Bool} {n m : Nat} {p : StepPattern}
  {a : Args} {d r : Result} {L : Nat → Nat → F64} {mp : Mapping}

/-! ### Dispatch -/

/-- C45.  Only the four documented plot types are accepted (no abbreviations). -/
theorem C45_unknown_type {t : String} (ht : t ∉ ["alignment", "twoway", "threeway", "density"]) (o : PlotOpts) :
    dtwPlot A d t o = .error (.valueError "Unknown plot type: ") := by
  simp only [List.mem_cons, List.not_mem_nil, or_false, not_or] at ht
  simp [dtwPlot, ht]

/-- C45.  The default plot draws exactly the warping curve. -/
theorem C45_alignment (hmp : d.mapping = some mp) (o : PlotOpts) :
    ∃ dr, dtwPlot A d "alignment" o = .ok dr ∧ dr.curve = mp.index1.zip mp.index2 ∧ dr.guides = [] ∧
      dr.image = none := by
  simp [dtwPlot, plotAlignment, hmp]

/-- C45.  Every plot of an alignment computed with `distance_only=True` fails, except two- and three-way plots
given an explicit vector of positions that is empty. -/
theorem C45_distance_only (hd : d.mapping = none) (t : String) (o : PlotOpts)
    (hl : ∀ l, o.matchIndices ≠ .list l) : ∃ e, dtwPlot A d t o = .error e := by
  unfold dtwPlot
  split_ifs
  · exact ⟨_, by simp [plotAlignment, hd]; rfl⟩
  · unfold plotTwoWay
    cases plotSeries d o with
    | error e => exact ⟨e, rfl⟩
    | ok xy =>
      rw [Except_bind_ok]
      simp only
      cases univariate xy.1 with
      | error e => exact ⟨e, rfl⟩
      | ok x =>
        rw [Except_bind_ok]
        cases univariate xy.2 with
        | error e => exact ⟨e, rfl⟩
        | ok y =>
          rw [Except_bind_ok]
          have : guidePositions A d (defaultTwoWay A d) o.matchIndices = .error .attributeError := by
            cases hm : o.matchIndices with
            | default => simp [guidePositions, defaultTwoWay, hd]
            | num k => simp [guidePositions, hd]
            | list l => exact absurd hm (hl l)
          rw [this]; exact ⟨_, rfl⟩
  · unfold plotThreeWay
    cases plotSeries d o with
    | error e => exact ⟨e, rfl⟩
    | ok xy =>
      rw [Except_bind_ok]
      simp only
      cases rowsOf xy.1 with
      | error e => exact ⟨e, rfl⟩
      | ok x =>
        rw [Except_bind_ok]
        cases rowsOf xy.2 with
        | error e => exact ⟨e, rfl⟩
        | ok y => rw [Except_bind_ok, hd]; exact ⟨_, rfl⟩
  · unfold plotDensity
    cases densityMatrix A d o.normalize with
    | error e => exact ⟨e, rfl⟩
    | ok x => rw [Except_bind_ok, hd]; exact ⟨_, rfl⟩
  · exact ⟨_, rfl⟩

/-! ### Paths of alignments -/

/-- The path of a result of `dtw` is not empty, has two components of equal length, and stays inside the two
series (with open begin: for patterns whose rules charge no cell in the row they start from, as all bundled
ones do). -/
theorem path_in_range (h : Problem a n m L W p rs) (hr : dtw A a = .ok r) (hmp : r.mapping = some mp)
    (hside : a.openBegin = true → ∀ q ∈ rs, ∀ t ∈ q.terms, 0 < q.a → t.di < q.a) :
    mp.index1.length = mp.index2.length ∧ 0 < mp.index1.length ∧
      (∀ i ∈ mp.index1, 0 ≤ i ∧ i < n) ∧ (∀ j ∈ mp.index2, 0 ≤ j ∧ j < m) := by
  cases hob : a.openBegin with
  | false =>
    obtain ⟨_, h1, h2, _⟩ := C04_end_points h hob hr hmp
    obtain ⟨l1, _, r1, r2, _⟩ := C05_monotone_in_range h hob hr hmp
    refine ⟨l1, ?_, r1, r2⟩
    cases hi : mp.index1 with
    | nil => rw [hi] at h1; simp at h1
    | cons x t => simp
  | true =>
    obtain ⟨mp', j, j0, hm', _, _, _, hl, _, _, hlast, _, _, _, hrange⟩ := C22_open_begin_indices h hob hr
    rw [hmp] at hm'
    cases hm'
    refine ⟨hl, ?_, hrange (hside hob)⟩
    cases hi : mp.index1 with
    | nil => rw [hi] at hlast; simp at hlast
    | cons x t => simp

theorem mapM_positions {β : Type} [Nonempty β] {f : Int → Except Err β} {num : Nat} {k : Nat → Nat} {P : Nat → β → Prop}
    (h : ∀ t < num, ∃ y, f (k t : Int) = .ok y ∧ P t y) :
    ∃ ys, ((List.range num).map fun t => (k t : Int)).mapM f = .ok ys ∧ ys.length = num ∧
      ∀ t < num, ∃ y, ys[t]? = some y ∧ P t y := by
  choose! g hg using h
  refine ⟨(List.range num).map g, ?_, by simp, ?_⟩
  · rw [List.mapM_map]
    exact mapM_ok _ g _ fun t ht => (hg t (List.mem_range.1 ht)).1
  · intro t ht
    exact ⟨g t, by rw [List.getElem?_map, List.getElem?_range ht]; rfl, (hg t ht).2⟩

/-- The number of guides: 50 by default, or as asked for. -/
def MatchIndices.count : MatchIndices → Option Nat
  | .default => some 50
  | .num k => if 0 ≤ k then some k.toNat else none
  | .list _ => none

/-- **C45** (two-way plot; any rounding with small relative error).  For the alignment of two one-dimensional
series computed with `keep_internals=True`, the two-way plot with a default or integer `match_indices`
succeeds; it draws the two series (the reference displaced by `offset`) and `num` guides; guide `t` joins
`(i, x[i])` and `(j, offset + y[j])` where `(i,j)` is element `k t` of the warping path; the guides are in path
order, and the first and last elements of the path are among them (if `num ≥ 2`). -/
theorem C45_twoway {u lo hi : ℚ} (hA : RelErrOn A u lo hi) {xs ys : List F64} (h : Problem a n m L W p rs)
    (hx : a.x = .d1 xs) (hy : a.y = some (.d1 ys)) (hki : a.keepInternals = true)
    (hr : dtw A a = .ok r) (hmp : r.mapping = some mp)
    (hside : a.openBegin = true → ∀ q ∈ rs, ∀ t ∈ q.terms, 0 < q.a → t.di < q.a)
    {o : PlotOpts} (hxo : o.xts = none) {num : Nat} (hnum : o.matchIndices.count = some num)
    (hE : ExactUpTo A mp.index1.length) (hu0 : 0 ≤ u) (hu : 3 * u * num ≤ 1) (hlo : 2 * lo * num ≤ 1)
    (hhi : 2 * (mp.index1.length : ℚ) ≤ hi) :
    ∃ dr k, dtwPlot A r "twoway" o = .ok dr ∧ Spread mp.index1.length num k ∧
      dr.query = xs.map (fun v => [v]) ∧ dr.reference = ys.map (fun v => [A.add v (fin o.offset)]) ∧
      dr.guides.length = num ∧
      ∀ t < num, ∃ (i j : Nat) (vx vy : F64), mp.index1[k t]? = some (i : Int) ∧ mp.index2[k t]? = some (j : Int) ∧
        xs[i]? = some vx ∧ ys[j]? = some vy ∧
        dr.guides[t]? = some ((fin (i : ℚ), vx), (fin (j : ℚ), A.add (fin o.offset) vy)) := by
  obtain ⟨hl, hpos, r1, r2⟩ := path_in_range h hr hmp hside
  have hnm : xs.length = n ∧ ys.length = m := by
    cases h.cost with
    | matrix h1 => rw [hy] at h1; simp at h1
    | series y X Y h1 h2 h3 _ h4 h5 _ =>
      rw [hy] at h1
      cases h1
      rw [hx] at h2
      cases h2
      cases h3
      exact ⟨h4, h5⟩
  have hqr := C25_series_kept hy (by rw [hx]; exact AsMatrix.d1 xs) (AsMatrix.d1 ys) hr
  rw [hki] at hqr
  simp only [if_true] at hqr
  obtain ⟨k, hk, hlin⟩ := linspaceInt_spread hA hE hpos hu0 hu hlo hhi
  have hser : plotSeries r o = .ok (.d2 ⟨xs.length, 1, xs⟩, .d2 ⟨ys.length, 1, ys⟩) := by
    unfold plotSeries
    rw [hxo, hqr]
  have hpositions : guidePositions A r (defaultTwoWay A r) o.matchIndices =
      .ok ((List.range num).map fun t => (k t : Int)) := by
    cases hm : o.matchIndices with
    | default =>
      rw [hm] at hnum
      simp only [MatchIndices.count, Option.some.injEq] at hnum
      simp only [guidePositions, defaultTwoWay, hmp]
      rw [← hlin, ← hnum]; rfl
    | num c =>
      rw [hm] at hnum
      simp only [MatchIndices.count] at hnum
      split_ifs at hnum with hc
      simp only [Option.some.injEq] at hnum
      simp only [guidePositions, hmp]
      rw [← hlin, ← hnum, Int.toNat_of_nonneg hc]
    | list l => rw [hm] at hnum; simp [MatchIndices.count] at hnum
  have hguide : ∀ t < num, ∃ g, twoWayGuide A r ⟨xs.length, 1, xs⟩ ⟨ys.length, 1, ys⟩ o.offset (k t : Int) = .ok g ∧
      ∃ (i j : Nat) (vx vy : F64), mp.index1[k t]? = some (i : Int) ∧ mp.index2[k t]? = some (j : Int) ∧
        xs[i]? = some vx ∧ ys[j]? = some vy ∧
        g = ((fin (i : ℚ), vx), (fin (j : ℚ), A.add (fin o.offset) vy)) := by
    intro t ht
    have hkt := hk.lt t ht
    have e1 := List.getElem?_eq_getElem hkt
    have e2 := List.getElem?_eq_getElem (hl ▸ hkt : k t < mp.index2.length)
    have hi := r1 _ (List.getElem_mem hkt)
    have hj := r2 _ (List.getElem_mem (hl ▸ hkt : k t < mp.index2.length))
    obtain ⟨i, hi'⟩ := Int.eq_ofNat_of_zero_le hi.1
    obtain ⟨j, hj'⟩ := Int.eq_ofNat_of_zero_le hj.1
    rw [hi'] at e1 hi
    rw [hj'] at e2 hj
    obtain ⟨vx, hvx, gx⟩ := col_pyGet (xs := xs) hi.1 (by omega)
    obtain ⟨vy, hvy, gy⟩ := col_pyGet (xs := ys) hj.1 (by omega)
    refine ⟨_, ?_, i, j, vx, vy, e1, e2, by simpa using hvx, by simpa using hvy, rfl⟩
    unfold twoWayGuide
    rw [hmp]
    simp only
    rw [pyIdx_nat e1, Except_bind_ok, gx, Except_bind_ok, pyIdx_nat e2, Except_bind_ok, gy, Except_bind_ok]
    rfl
  obtain ⟨gs, hgs, hglen, hgt⟩ := mapM_positions hguide
  have hrows : ∀ zs : List F64, (⟨zs.length, 1, zs⟩ : Mat F64).toRows = zs.map fun v => [v] := by
    intro zs
    unfold Mat.toRows Mat.row
    apply List.ext_getElem?
    intro t
    rw [List.getElem?_map, List.getElem?_map]
    by_cases ht : t < zs.length
    · rw [List.getElem?_range ht, List.getElem?_eq_getElem ht]
      simp only [Option.map_some, mul_one, Option.some.injEq]
      rw [List.drop_eq_getElem_cons ht]
      rfl
    · rw [List.getElem?_eq_none (by simp; omega), List.getElem?_eq_none (by omega)]
      rfl
  refine ⟨⟨[], xs.map (fun v => [v]), ys.map (fun v => [A.add v (fin o.offset)]), gs, none⟩, k, ?_, hk, rfl, rfl, hglen, ?_⟩
  · show plotTwoWay A r o = _
    unfold plotTwoWay
    rw [hser, Except_bind_ok]
    simp only
    have huni : ∀ zs : List F64, univariate (.d2 ⟨zs.length, 1, zs⟩) = .ok ⟨zs.length, 1, zs⟩ := by
      intro zs; simp [univariate]
    rw [huni, Except_bind_ok, huni, Except_bind_ok, hpositions, Except_bind_ok, hgs, Except_bind_ok, hrows, hrows,
      List.map_map]
    rfl
  · intro t ht
    obtain ⟨g, hg, i, j, vx, vy, q1, q2, q3, q4, rfl⟩ := hgt t ht
    exact ⟨i, j, vx, vy, q1, q2, q3, q4, hg⟩

/-- **C45** (three-way plot).  The panels show the two series and the curve; the guides with integer `match_indices` join each selected
path element `(i,j)` with its projections `(i,0)` and `(0,j)`; by default there are none. -/
theorem C45_threeway {u lo hi : ℚ} (hA : RelErrOn A u lo hi) {X Y : Mat F64} (h : Problem a n m L W p rs)
    {y : Nd} (hy : a.y = some y) (hX : AsMatrix a.x X) (hY : AsMatrix y Y) (hki : a.keepInternals = true)
    (hr : dtw A a = .ok r) (hmp : r.mapping = some mp)
    (hside : a.openBegin = true → ∀ q ∈ rs, ∀ t ∈ q.terms, 0 < q.a → t.di < q.a)
    {o : PlotOpts} (hxo : o.xts = none) {num : Nat} (hnum : o.matchIndices = .num num)
    (hE : ExactUpTo A mp.index1.length) (hu0 : 0 ≤ u) (hu : 3 * u * num ≤ 1) (hlo : 2 * lo * num ≤ 1)
    (hhi : 2 * (mp.index1.length : ℚ) ≤ hi) :
    ∃ dr k, dtwPlot A r "threeway" o = .ok dr ∧ Spread mp.index1.length num k ∧
      dr.curve = mp.index1.zip mp.index2 ∧ dr.query = X.toRows ∧ dr.reference = Y.toRows ∧
      ∃ gs : List (List (Pt × Pt)), dr.guides = gs.flatten ∧ gs.length = num ∧
        ∀ t < num, ∃ i j : Nat, i < n ∧ j < m ∧ mp.index1[k t]? = some (i : Int) ∧ mp.index2[k t]? = some (j : Int) ∧
          gs[t]? = some [((fin (i : ℚ), fin 0), (fin (i : ℚ), fin (j : ℚ))),
                         ((fin 0, fin (j : ℚ)), (fin (i : ℚ), fin (j : ℚ)))] := by
  obtain ⟨hl, hpos, r1, r2⟩ := path_in_range h hr hmp hside
  have hqr := C25_series_kept hy hX hY hr
  rw [hki] at hqr
  simp only [if_true] at hqr
  obtain ⟨k, hk, hlin⟩ := linspaceInt_spread hA hE hpos hu0 hu hlo hhi
  have hser : plotSeries r o = .ok (.d2 X, .d2 Y) := by
    unfold plotSeries
    rw [hxo, hqr]
  have hguide : ∀ t < num, ∃ g, threeWayGuides mp (k t : Int) = .ok g ∧
      ∃ i j : Nat, i < n ∧ j < m ∧ mp.index1[k t]? = some (i : Int) ∧ mp.index2[k t]? = some (j : Int) ∧
          g = [((fin (i : ℚ), fin 0), (fin (i : ℚ), fin (j : ℚ))),
               ((fin 0, fin (j : ℚ)), (fin (i : ℚ), fin (j : ℚ)))] := by
    intro t ht
    have hkt := hk.lt t ht
    have e1 := List.getElem?_eq_getElem hkt
    have e2 := List.getElem?_eq_getElem (hl ▸ hkt : k t < mp.index2.length)
    have hi := r1 _ (List.getElem_mem hkt)
    have hj := r2 _ (List.getElem_mem (hl ▸ hkt : k t < mp.index2.length))
    obtain ⟨i, hi'⟩ := Int.eq_ofNat_of_zero_le hi.1
    obtain ⟨j, hj'⟩ := Int.eq_ofNat_of_zero_le hj.1
    rw [hi'] at e1 hi
    rw [hj'] at e2 hj
    refine ⟨_, ?_, i, j, by omega, by omega, e1, e2, rfl⟩
    unfold threeWayGuides
    rw [pyIdx_nat e1, Except_bind_ok, pyIdx_nat e2, Except_bind_ok]
    rfl
  obtain ⟨gs, hgs, hglen, hgt⟩ := mapM_positions hguide
  refine ⟨⟨mp.index1.zip mp.index2, X.toRows, Y.toRows, gs.flatten, none⟩, k, ?_, hk, rfl, rfl, rfl, gs, rfl, hglen, ?_⟩
  · show plotThreeWay A r o = _
    unfold plotThreeWay
    rw [hser, Except_bind_ok]
    simp only [rowsOf, Except_bind_ok]
    rw [hmp]
    simp only
    have : guidePositions A r (.ok []) o.matchIndices = .ok ((List.range num).map fun t => (k t : Int)) := by
      rw [hnum]
      simp only [guidePositions, hmp]
      exact hlin
    rw [this, Except_bind_ok, hgs, Except_bind_ok]
  · intro t ht
    obtain ⟨g, hg, i, j, q1, q2, q3, q4, rfl⟩ := hgt t ht
    exact ⟨i, j, q1, q2, q3, q4, hg⟩

/-- C45.  Two- and three-way plots of an alignment that does not hold its two series (one-argument call, or no
`keep_internals`) raise ValueError unless both are supplied. -/
theorem C45_series_required (hq : d.queryReference = none) {o : PlotOpts} (hxo : o.xts = none ∨ o.yts = none)
    {t : String} (ht : t = "twoway" ∨ t = "threeway") :
    dtwPlot A d t o = .error (.valueError "Original timeseries are required") := by
  have hs : plotSeries d o = .error (.valueError "Original timeseries are required") := by
    unfold plotSeries
    rw [hq]
    rcases hxo with h | h <;> rw [h]
    cases o.xts <;> rfl
  rcases ht with rfl | rfl
  · show plotTwoWay A d o = _
    unfold plotTwoWay; rw [hs]; rfl
  · show plotThreeWay A d o = _
    unfold plotThreeWay; rw [hs]; rfl

/-- C45, negative witness: one-dimensional arrays cannot be supplied to the two-way plot (IndexError), although
`dtw` itself accepts them. -/
theorem C45_twoway_rejects_vectors {xs ys : List F64} {o : PlotOpts} (hx : o.xts = some (.d1 xs)) (hy : o.yts = some (.d1 ys)) :
    dtwPlot A d "twoway" o = .error .indexError := by
  show plotTwoWay A d o = _
  unfold plotTwoWay plotSeries
  rw [hx, hy]
  rfl

/-! ### Density -/

/-- **C45** (density plot).  With `normalize=True` the displayed value of cell `(i,j)` is the cumulative cost
divided by what the hint says (`i+1`, `j+1` or `i+j+2`), without it the cumulative cost itself; any other hint
leaves it unchanged, "NA" is an error. -/
theorem C45_density (h : Problem a n m L W p rs) (hki : a.keepInternals = true) (hr : dtw A a = .ok r)
    (hmp : r.mapping = some mp) (o : PlotOpts) (hna : o.normalize = true → p.hint ≠ "NA") :
    ∃ (dr : Drawing) (G : Nat → Nat → F64), r.costMatrix = some (Mat.ofFn n m G) ∧
      dtwPlot A r "density" o = .ok dr ∧ dr.curve = mp.index1.zip mp.index2 ∧
      dr.image = some (Mat.ofFn n m fun i j => if o.normalize then normBy A p.hint (i + 1) j (G i j) else G i j) := by
  obtain ⟨q, S, L', G, D, qr, lm', j, mp', hq, _, _, hq1, hq2, hres⟩ := any_ok h hr
  obtain ⟨G', hG'⟩ : ∃ G', r.costMatrix = some (Mat.ofFn n m G') := by
    rw [hres]
    simp only [mkResult, hki, if_true]
    cases hob : a.openBegin with
    | false => obtain rfl := hq1 hob; exact ⟨G, by simp⟩
    | true => obtain rfl := hq2 hob; exact ⟨fun i j => G (i + 1) j, by simp [dropRow_ofFn]⟩
  have hpat : r.stepPattern = p := by rw [hres]; rfl
  refine ⟨⟨mp.index1.zip mp.index2, [], [], [], _⟩, G', hG', ?_, rfl, rfl⟩
  show plotDensity A r o = _
  unfold plotDensity densityMatrix
  rw [hG', hpat]
  simp only
  have hmap : ∀ f : Nat → F64 → F64, (Mat.ofFn n m G').data.mapIdx f =
      (Mat.ofFn n m fun i j => f (i * m + j) (G' i j)).data := by
    intro f
    unfold Mat.ofFn
    simp only
    apply List.ext_getElem?
    intro t
    rw [List.getElem?_mapIdx, List.getElem?_map, List.getElem?_map]
    by_cases ht : t < n * m
    · rw [List.getElem?_range ht]
      simp only [Option.map_some]
      rw [Nat.div_add_mod' t m]
    · rw [List.getElem?_eq_none (by simpa using ht)]; rfl
  have hm := h.m_pos
  have fin' : ∀ (f : Nat → F64 → F64) (g : Nat → Nat → F64),
      (∀ i j, j < m → f (i * m + j) (G' i j) = g i j) →
      (⟨(Mat.ofFn n m G').rows, (Mat.ofFn n m G').cols, (Mat.ofFn n m G').data.mapIdx f⟩ : Mat F64) = Mat.ofFn n m g := by
    intro f g hfg
    rw [hmap]
    unfold Mat.ofFn
    simp only [Mat.mk.injEq, true_and]
    apply List.map_congr_left
    intro t ht
    exact hfg _ _ (Nat.mod_lt _ hm)
  have hdiv : ∀ i j, j < m → (i * m + j) / m = i ∧ (i * m + j) % m = j := by
    intro i j hj
    constructor
    · rw [Nat.add_comm, Nat.add_mul_div_right _ _ hm, Nat.div_eq_of_lt hj, Nat.zero_add]
    · rw [Nat.add_comm, Nat.add_mul_mod_self_right, Nat.mod_eq_of_lt hj]
  have hcols : (Mat.ofFn n m G').cols = m := rfl
  cases hn : o.normalize with
  | false =>
    simp only [Bool.false_eq_true, if_false, Except_bind_ok, hmp]
  | true =>
    simp only [if_true]
    rw [if_neg (hna hn)]
    by_cases h1 : p.hint = "N"
    · rw [if_pos h1, fin' _ _ (fun i j hj => by rw [hcols, (hdiv i j hj).1]), Except_bind_ok, hmp]
      simp only [normBy, h1]
      simp
    · rw [if_neg h1]
      by_cases h2 : p.hint = "N+M"
      · rw [if_pos h2, fin' _ _ (fun i j hj => by rw [hcols, (hdiv i j hj).1, (hdiv i j hj).2]), Except_bind_ok, hmp]
        simp only [normBy, h2, if_true]
        have e : ∀ i j : Nat, (i : ℚ) + j + 2 = ((i + 1 : Nat) : ℚ) + j + 1 := by intro i j; push_cast; ring
        simp only [e]
      · rw [if_neg h2]
        by_cases h3 : p.hint = "M"
        · rw [if_pos h3, fin' _ _ (fun i j hj => by rw [hcols, (hdiv i j hj).2]), Except_bind_ok, hmp]
          simp only [normBy, h3]
          have e : ∀ j : Nat, (j : ℚ) + 1 = 1 + (j : ℚ) := by intro j; ring
          simp only [e]
          simp
        · rw [if_neg h3, Except_bind_ok, hmp]
          simp only [normBy, h1, h2, h3, if_false]

/-- C45.  The normalised density at the end point of the alignment is its normalized distance. -/
theorem C45_density_at_end (h : Problem a n m L W p rs) (hki : a.keepInternals = true) (hr : dtw A a = .ok r)
    (hmp : r.mapping = some mp) (o : PlotOpts) (ho : o.normalize = true) (hna : p.hint ≠ "NA") :
    ∃ (dr : Drawing) (img : Mat F64), dtwPlot A r "density" o = .ok dr ∧ dr.image = some img ∧
      img.pyGet (-1) r.jmin = .ok r.normalizedDistance := by
  obtain ⟨dr, G, hG, hd, _, himg⟩ := C45_density h hki hr hmp o fun _ => hna
  refine ⟨dr, _, hd, himg, ?_⟩
  obtain ⟨q, S, L', G', D, qr, lm', j, mp', hq, _, he, hq1, hq2, hres⟩ := any_ok h hr
  have hn := h.n_pos
  have hj : r.jmin = (j : Int) := by rw [hres]; rfl
  rw [hj, pyGet_neg_one _ hn he.lt, if_pos ho]
  have hnd : r.normalizedDistance = normBy A p.hint n j (G' (q - 1) j) := by
    rw [hres]; simp only [mkResult, if_neg hna]
  rw [hnd, show n - 1 + 1 = n by omega]
  have hcm : Mat.ofFn n m G = (if a.openBegin then (Mat.ofFn q m G').dropRow else Mat.ofFn q m G') := by
    have : r.costMatrix = some (if a.openBegin then (Mat.ofFn q m G').dropRow else Mat.ofFn q m G') := by
      rw [hres]; simp [mkResult, hki]
    rw [hG] at this
    simpa using this
  have hval : G (n - 1) j = G' (q - 1) j := by
    have hl : (Mat.ofFn n m G).pyGet (-1) (j : Int) = .ok (G (n - 1) j) := pyGet_neg_one G hn he.lt
    rw [hcm] at hl
    cases hob : a.openBegin with
    | false =>
      obtain rfl := hq1 hob
      rw [hob] at hl
      simp only [Bool.false_eq_true, if_false] at hl
      rw [pyGet_neg_one G' hn he.lt] at hl
      simpa using hl.symm
    | true =>
      obtain rfl := hq2 hob
      rw [hob] at hl
      simp only [if_true, dropRow_ofFn] at hl
      rw [pyGet_neg_one _ hn he.lt] at hl
      simp only [Except.ok.injEq] at hl
      rw [← hl]
      congr 1
      omega
  rw [hval]

/-- C45: the two error cases of the density plot. -/
theorem C45_density_errors (o : PlotOpts) :
    (d.costMatrix = none → ∃ t, dtwPlot A d "density" o = .error (.valueError t)) ∧
    (o.normalize = true → d.stepPattern.hint = "NA" → ∃ t, dtwPlot A d "density" o = .error (.valueError t)) := by
  have key : ∀ t, densityMatrix A d o.normalize = .error (.valueError t) →
      dtwPlot A d "density" o = .error (.valueError t) := by
    intro t ht
    show plotDensity A d o = _
    unfold plotDensity; rw [ht]; rfl
  constructor
  · intro hc
    exact ⟨_, key _ (by unfold densityMatrix; rw [hc])⟩
  · intro hn hh
    cases hc : d.costMatrix with
    | none => exact ⟨_, key _ (by unfold densityMatrix; rw [hc])⟩
    | some cm =>
      exact ⟨"Step pattern has no normalization", key _ (by unfold densityMatrix; rw [hc]; simp only [hn, hh, if_true])⟩

/-! ### StepPattern.plot -/

/-- **C45** (plot of a step pattern).  For a well-formed pattern there is one polyline per rule: it starts at
`(-a,-b)`, the origin of the rule relative to its arrival, and goes through its charged cells; the labels are
the weights of the charged cells, in order; the filled points are the origins of the rules. -/
theorem C45_pattern_plot (h : WF p rs) :
    ∃ dr, patternPlot p = .ok (dr, rs.map fun q => (-(q.a : Int), -(q.b : Int))) ∧
      dr.map (·.line) = rs.map (fun q => (-(q.a : Int), -(q.b : Int)) :: q.terms.map fun t => (-(t.di : Int), -(t.dj : Int))) ∧
      dr.map (fun x => x.labels.map Prod.snd) = rs.map (fun q => q.terms.map (·.w)) := by
  unfold patternPlot
  rw [getNPatterns_WF h, Except_bind_ok]
  have hends : ∀ (rs : List Rule) (k : Nat), (∀ q ∈ rs, q.Valid) →
      ((encodeFrom k rs).filter fun s => s.w = -1).map (fun s => (-s.di, -s.dj)) =
        rs.map fun q => (-(q.a : Int), -(q.b : Int)) := by
    intro rs
    induction rs with
    | nil => intro k _; rfl
    | cons q rs ih =>
      intro k hv
      rw [encodeFrom, List.filter_append, List.map_append, ih _ fun x hx => hv x (by simp [hx])]
      have hq := hv q (by simp)
      unfold Rule.rows
      rw [List.filter_cons_of_pos (by simp)]
      have : (q.terms.map fun t => (⟨(k : Int) + 1, t.di, t.dj, t.w⟩ : Step)).filter (fun s => decide (s.w = -1)) = [] := by
        rw [List.filter_eq_nil_iff]
        intro s hs
        obtain ⟨t, ht, rfl⟩ := List.mem_map.1 hs
        simpa using (hq.2 t ht).1
      rw [this]
      rfl
  refine ⟨_, by rw [h.rows]; unfold encode; rw [hends rs 0 h.valid], ?_, ?_⟩
  · rw [List.map_map]
    apply List.ext_getElem?
    intro k
    rw [List.getElem?_map, List.getElem?_map]
    simp only [Int.toNat_natCast]
    cases hk : rs[k]? with
    | none =>
      have : rs.length ≤ k := List.getElem?_eq_none_iff.1 hk
      rw [List.getElem?_eq_none (by simpa using this)]; rfl
    | some q =>
      have hlt : k < rs.length := (List.getElem?_eq_some_iff.1 hk).1
      rw [List.getElem?_range hlt]
      simp only [Option.map_some, Function.comp_apply, ruleDrawing]
      have := filter_encode hk
      unfold encode at this
      rw [this]
      unfold Rule.rows
      rw [List.map_cons, List.map_map]
      rfl
  · rw [List.map_map]
    apply List.ext_getElem?
    intro k
    rw [List.getElem?_map, List.getElem?_map]
    simp only [Int.toNat_natCast]
    cases hk : rs[k]? with
    | none =>
      have : rs.length ≤ k := List.getElem?_eq_none_iff.1 hk
      rw [List.getElem?_eq_none (by simpa using this)]; rfl
    | some q =>
      have hlt : k < rs.length := (List.getElem?_eq_some_iff.1 hk).1
      rw [List.getElem?_range hlt]
      simp only [Option.map_some, Function.comp_apply, ruleDrawing]
      have := filter_encode hk
      unfold encode at this
      rw [this, List.map_map]
      have hz : ∀ (s : Step) (l : List Step), ((s :: l).zip l).map (fun p : Step × Step => p.2.w) = l.map (·.w) := by
        intro s l
        induction l generalizing s with
        | nil => rfl
        | cons x l ih => rw [List.zip_cons_cons, List.map_cons, List.map_cons, ih]
      have hz' := hz ⟨(k : Int) + 1, q.a, q.b, -1⟩ (q.terms.map fun t => ⟨(k : Int) + 1, t.di, t.dj, t.w⟩)
      unfold Rule.rows
      simp only [Function.comp_def, List.tail_cons]
      rw [hz', List.map_map]
      rfl

/-! ### Concrete cases -/

/-- The hypotheses of `C45_twoway` and `C45_threeway` hold for an open-begin, open-end alignment of two
one-dimensional series, with 2 guides. -/
example {r : Result} {mp : Mapping} (hr : dtw Arith.exact Ex.openBoth = .ok r) (hmp : r.mapping = some mp) :
    ∃ dr k, dtwPlot Arith.exact r "twoway" { matchIndices := .num 2 } = .ok dr ∧ Spread mp.index1.length 2 k := by
  obtain ⟨dr, k, h1, h2, _⟩ := C45_twoway (u := 0) (lo := 0) (hi := 2 * mp.index1.length) (relErrOn_exact _ _)
    Ex.openBoth_problem rfl rfl rfl hr hmp (fun _ => by decide +kernel) (o := { matchIndices := .num 2 }) rfl
    (num := 2) rfl (exactUpTo_exact _) (by norm_num) (by norm_num) (by norm_num) (le_refl _)
  exact ⟨dr, k, h1, h2⟩

example : (dtw Arith.exact Ex.openBoth).toOption.isSome = true := Ex.openBoth_ok

/-- The drawing for that alignment. -/
example : (dtw Arith.exact Ex.openBoth).toOption.bind (fun d =>
    (dtwPlot Arith.exact d "twoway" { matchIndices := .num 2, offset := 10 }).toOption.map (·.guides)) =
    some [((fin 0, fin 1), (fin 1, fin 12)), ((fin 2, fin 2), (fin 1, fin 12))] := by decide +kernel

example : (dtw Arith.exact Ex.series).toOption.bind (fun d =>
    (dtwPlot Arith.exact d "density" { normalize := true }).toOption.map (fun dr => (dr.image.map (·.data), dr.curve.length))) =
    some (some [fin (3/2), fin (4/3), fin (3/2), fin (6/5), fin (4/3), fin (5/4), fin (4/5), fin 1, fin (3/2), fin (4/5), fin (5/6), fin (6/7)], 4) := by
  decide +kernel

/-- The plot of `asymmetricP05` has five polylines. -/
example : (patternPlot Pat.asymmetricP05).toOption.map (fun x => x.1.map (fun y => (y.line.length, y.labels.length))) =
    some [(4, 3), (3, 2), (2, 1), (3, 2), (4, 3)] := by decide +kernel

end DTW
