import Verif.Proofs.Relate

/-!
# Calls with the same local costs and windows have the same outcome; summary of closed-begin/closed-end runs
-/

namespace DTW
open F64

variable {A : Arith} {rs rs' : List Rule} {n m : Nat} {W W' : Nat → Nat → Bool}
  {L L' S S' G G' : Nat → Nat → F64} {D D' : Nat → Nat → Int} {p : StepPattern} {a a' : Args}

theorem pickEnd_options (ho : SameOptions a a') (hint : String) (m : Nat) (cm : Mat F64) (l : List F64) :
    pickEnd a hint m cm l = pickEnd a' hint m cm l := by
  unfold pickEnd; rw [ho.openEnd]

theorem pickMapping_options (ho : SameOptions a a') (p : StepPattern) (sm : Mat Int) (j : Int) :
    pickMapping a p sm j = pickMapping a' p sm j := by
  unfold pickMapping; rw [ho.openBegin, ho.distanceOnly]

theorem finish_core (ho : SameOptions a a') {q : Nat} {qr qr' : Option (Mat F64 × Mat F64)} (hq : 0 < q)
    (hG : ∀ i < q, ∀ j < m, G i j = G' i j) (hD : ∀ i < q, ∀ j < m, D i j = D' i j) (lm : Mat F64) :
    (finish A a p n m qr q lm G D).map Result.core = (finish A a' p n m qr' q lm G' D').map Result.core := by
  unfold finish
  have e1 : tab m (G (q - 1)) = tab m (G' (q - 1)) := by
    unfold tab
    apply List.map_congr_left
    intro j hj
    exact hG _ (by omega) _ (List.mem_range.1 hj)
  rw [e1, ofFn_congr hG, ofFn_congr hD]
  simp only
  rw [pickEnd_options ho]
  cases pickEnd a' p.hint m (Mat.ofFn q m G') (normalise A p.hint n (tab m (G' (q - 1)))) with
  | error e => rfl
  | ok jd =>
    simp only [Except_bind_ok]
    cases pickNorm p.hint (normalise A p.hint n (tab m (G' (q - 1)))) jd.1 with
    | error e => rfl
    | ok v =>
      simp only [Except_bind_ok]
      rw [pickMapping_options ho]
      cases pickMapping a' p (Mat.ofFn q m D') jd.1 with
      | error e => rfl
      | ok mp =>
        simp only [Except_bind_ok, Except.map, Result.core, ho.keepInternals, ho.openBegin]

/-- Two calls with the same options and pattern, whose local costs and windows agree cell by cell, have
the same outcome. -/
theorem dtw_core_congr (ho : SameOptions a a') (h : Problem a n m L W p rs) (h' : Problem a' n m L' W' p rs)
    (hL : ∀ i < n, ∀ j < m, L i j = L' i j)
    (hW : ∀ i < gridRows a n, ∀ j < m, W i j = W' i j) :
    (dtw A a).map Result.core = (dtw A a').map Result.core := by
  have hn := h.n_pos
  have hm := h.m_pos
  cases hob : a.openBegin with
  | false =>
    have hob' : a'.openBegin = false := by rw [← ho.openBegin]; exact hob
    have hg : gridRows a n = n := by simp [gridRows, hob]
    rw [hg] at hW
    obtain ⟨G, D, qr, hB, _, hd⟩ := dtw_closed A h hob
    obtain ⟨G', D', qr', hB', _, hd'⟩ := dtw_closed A h' hob'
    have hu := hB.unique h.wf.valid hB' le_rfl le_rfl le_rfl le_rfl hW hL (by
      intro i hi j hj
      unfold closedSeed
      rw [hL 0 hn 0 hm])
    rw [hd, hd', ofFn_congr hL]
    exact finish_core ho hn (fun i hi j hj => (hu i hi j hj).1) (fun i hi j hj => (hu i hi j hj).2) _
  | true =>
    have hob' : a'.openBegin = true := by rw [← ho.openBegin]; exact hob
    have hg : gridRows a n = n + 1 := by simp [gridRows, hob]
    rw [hg] at hW
    by_cases hh : p.hint = "N"
    · obtain ⟨G, D, qr, hB, _, hd⟩ := dtw_open A h hob hh
      obtain ⟨G', D', qr', hB', _, hd'⟩ := dtw_open A h' hob' hh
      have hL' : ∀ i < n + 1, ∀ j < m, nullRow L i j = nullRow L' i j := by
        intro i hi j hj
        unfold nullRow
        split
        · rfl
        · exact hL _ (by omega) j hj
      have hu := hB.unique h.wf.valid hB' le_rfl le_rfl le_rfl le_rfl hW hL' (fun _ _ _ _ => rfl)
      rw [hd, hd', ofFn_congr hL']
      exact finish_core ho (Nat.succ_pos n) (fun i hi j hj => (hu i hi j hj).1)
        (fun i hi j hj => (hu i hi j hj).2) _
    · rw [open_bad_hint h hob hh, open_bad_hint h' hob' hh]

/-- Everything about closed-begin, closed-end runs in one place. -/
theorem closed_facts (A : Arith) (h : Problem a n m L W p rs) (hob : a.openBegin = false)
    (hoe : a.openEnd = false) :
    ∃ G D, Bellman A rs n m W L (closedSeed L) G D ∧
      ((∃ r, dtw A a = .ok r) ↔ G (n - 1) (m - 1) ≠ nan) ∧
      (G (n - 1) (m - 1) = nan →
        dtw A a = .error (.valueError "No warping path found compatible with the local constraints")) ∧
      ∀ r, dtw A a = .ok r → r.distance = G (n - 1) (m - 1) ∧ r.jmin = (m : Int) - 1 ∧
        (a.keepInternals = true → r.costMatrix = some (Mat.ofFn n m G) ∧
          r.directionMatrix = some (Mat.ofFn n m D)) ∧
        (r.normalizedDistance =
          if p.hint = "NA" then nan else normBy A p.hint n (m - 1) (G (n - 1) (m - 1))) ∧
        ∃ ks, Trace rs D (closedSeed L) 0 0 ks (n - 1) (m - 1) ∧
          WarpPath A rs W L ks (n - 1) (m - 1) (G (n - 1) (m - 1)) ∧
          r.mapping = if a.distanceOnly then none else some (curve rs 0 0 ks) := by
  obtain ⟨G, D, qr, hB, _, hd⟩ := dtw_closed A h hob
  have hm := h.m_pos
  refine ⟨G, D, hB, ?_, ?_, ?_⟩
  · rcases closed_closed h hob hoe hB hd with ⟨h1, h2⟩ | ⟨h1, h2⟩
    · exact ⟨by rintro ⟨r, hr⟩; rw [h2] at hr; simp at hr, fun hc => absurd h1 hc⟩
    · exact ⟨fun _ => h1, fun _ => h2⟩
  · intro hG
    rcases closed_closed h hob hoe hB hd with ⟨h1, h2⟩ | ⟨h1, h2⟩
    · exact h2
    · exact absurd hG h1
  · intro r hr
    obtain ⟨j, ks, hrun⟩ := closed_ok h hob hB hd hr
    obtain rfl := hrun.endAt.closed hoe
    refine ⟨by rw [hrun.result]; rfl, ?_, ?_, by rw [hrun.result]; rfl, ks, hrun.trace, hrun.path, ?_⟩
    · rw [hrun.result]; simp only [mkResult]; omega
    · intro hki; rw [hrun.result]; simp [mkResult, hki, hob]
    · rw [hrun.result]; rfl

/-! ### Scaling and the end of the computation -/

theorem firstMin_map {f : F64 → F64} (hf : ∀ x y, lt (f x) (f y) = lt x y) : ∀ (l : List F64) (i ii : Nat)
    (v : F64), firstMin (l.map f) i ii (f v) = firstMin l i ii v := by
  intro l
  induction l with
  | nil => intro i ii v; rfl
  | cons x xs ih =>
    intro i ii v
    simp only [List.map_cons, firstMin, hf]
    split <;> exact ih _ _ _

theorem nanargmin_map {f : F64 → F64} (hf : ∀ x y, lt (f x) (f y) = lt x y)
    (hn : ∀ x, isNan (f x) = isNan x) (hp : f pinf = pinf) (l : List F64) :
    nanargmin (l.map f) = nanargmin l := by
  unfold nanargmin
  have e1 : (l.map f).all isNan = l.all isNan := by simp [Function.comp_def, hn]
  rw [e1]
  split
  · rfl
  · have e2 : (l.map f).map (fun v => if isNan v = true then pinf else v) =
        (l.map fun v => if isNan v = true then pinf else v).map f := by
      rw [List.map_map, List.map_map]
      apply List.map_congr_left
      intro v _
      simp only [Function.comp_apply, hn]
      split
      · exact hp.symm
      · rfl
    rw [e2]
    cases l.map (fun v => if isNan v = true then pinf else v) with
    | nil => rfl
    | cons x xs => simp only [List.map_cons, firstMin_map hf]

theorem scale_isNan {c : ℚ} (x : F64) : isNan (scaleF c x) = isNan x := by cases x <;> rfl

theorem scale_divQ {c : ℚ} {v : F64} {d : ℚ} (hd : 0 < d) :
    scaleF c (Arith.exact.divQ v d) = Arith.exact.divQ (scaleF c v) d := by
  have h1 : d ≠ 0 := ne_of_gt hd
  have h2 : ¬ d < 0 := not_lt.2 hd.le
  cases v <;> simp [Arith.divQ, scaleF, h1, h2, mul_div_assoc]

theorem scale_normBy {c : ℚ} {hint : String} {n j : Nat} (hn : 0 < n) (v : F64) :
    normBy Arith.exact hint n j (scaleF c v) = scaleF c (normBy Arith.exact hint n j v) := by
  have h1 : (0 : ℚ) < n := by exact_mod_cast hn
  have h2 : (0 : ℚ) ≤ j := by positivity
  unfold normBy
  split
  · rw [scale_divQ (by linarith)]
  · split
    · rw [scale_divQ h1]
    · split
      · rw [scale_divQ (by linarith)]
      · rfl

/-- The result of multiplying every cost by `c`. -/
def Core.scale (c : ℚ) (r : Core) : Core :=
  { r with
    distance := scaleF c r.distance
    normalizedDistance := scaleF c r.normalizedDistance
    costMatrix := r.costMatrix.map fun M => ⟨M.rows, M.cols, M.data.map (scaleF c)⟩
    localCostMatrix := r.localCostMatrix.map fun M => ⟨M.rows, M.cols, M.data.map (scaleF c)⟩ }

/-- Entrywise scaling of a matrix. -/
def scaleM (c : ℚ) (M : Mat F64) : Mat F64 := ⟨M.rows, M.cols, M.data.map (scaleF c)⟩

theorem scaleM_ofFn (c : ℚ) (n m : Nat) (f : Nat → Nat → F64) :
    Mat.ofFn n m (fun i j => scaleF c (f i j)) = scaleM c (Mat.ofFn n m f) := by
  simp [Mat.ofFn, scaleM, Function.comp_def]

theorem scaleM_dropRow (c : ℚ) (M : Mat F64) : (scaleM c M).dropRow = scaleM c M.dropRow := by
  simp [Mat.dropRow, scaleM, List.map_drop]

theorem scaleM_pyGet (c : ℚ) (M : Mat F64) (i j : Int) :
    (scaleM c M).pyGet i j = (M.pyGet i j).map (scaleF c) := by
  unfold Mat.pyGet scaleM
  simp only [List.getElem?_map]
  generalize (if i < 0 then i + (M.rows : Int) else i) = i'
  generalize (if j < 0 then j + (M.cols : Int) else j) = j'
  split
  · cases M.data[i'.toNat * M.cols + j'.toNat]? <;> rfl
  · rfl

theorem pickEnd_scale {c : ℚ} (hc : 0 < c) (a : Args) (hint : String) (m : Nat) (M : Mat F64)
    (l : List F64) :
    pickEnd a hint m (scaleM c M) (l.map (scaleF c)) =
      (pickEnd a hint m M l).map fun x => (x.1, scaleF c x.2) := by
  have key : ∀ j : Int,
      (do let distance ← (scaleM c M).pyGet (-1) j
          if isNan distance = true then
            .error (.valueError "No warping path found compatible with the local constraints")
          else .ok (j, distance) : Except Err (Int × F64)) =
      ((do let distance ← M.pyGet (-1) j
           if isNan distance = true then
             .error (.valueError "No warping path found compatible with the local constraints")
           else .ok (j, distance) : Except Err (Int × F64))).map fun x => (x.1, scaleF c x.2) := by
    intro j
    rw [scaleM_pyGet]
    cases M.pyGet (-1) j with
    | error e => rfl
    | ok v =>
      simp only [Except.map, Except_bind_ok, scale_isNan]
      cases isNan v <;> rfl
  unfold pickEnd
  rw [nanargmin_map (scale_lt hc) scale_isNan rfl]
  cases a.openEnd with
  | false => exact key _
  | true =>
    simp only [if_true]
    split
    · rfl
    · cases nanargmin l with
      | error e => rfl
      | ok k => exact key _

/-- The end of `dtw` commutes with scaling if the normalization does. -/
theorem finish_scale_of {A : Arith} {c : ℚ} (hc : 0 < c) (ho : SameOptions a a') {q : Nat}
    {qr qr' : Option (Mat F64 × Mat F64)} (lm : Mat F64)
    (hN : ∀ j < m, normBy A p.hint n j (scaleF c (G (q - 1) j)) = scaleF c (normBy A p.hint n j (G (q - 1) j))) :
    (finish A a' p n m qr' q (scaleM c lm) (fun i j => scaleF c (G i j)) D).map Result.core =
      ((finish A a p n m qr q lm G D).map Result.core).map (Core.scale c) := by
  unfold finish
  have e1 : normalise A p.hint n (tab m fun j => scaleF c (G (q - 1) j)) =
      (normalise A p.hint n (tab m (G (q - 1)))).map (scaleF c) := by
    rw [normalise_tab, normalise_tab]
    simp only [tab, List.map_map]
    apply List.map_congr_left
    intro j hj
    exact hN j (List.mem_range.1 hj)
  simp only
  rw [show (fun j => scaleF c (G (q - 1) j)) = fun j => scaleF c (G (q - 1) j) from rfl, e1, scaleM_ofFn,
    pickEnd_scale hc, ← pickEnd_options ho]
  cases pickEnd a p.hint m (Mat.ofFn q m G) (normalise A p.hint n (tab m (G (q - 1)))) with
  | error e => rfl
  | ok jd =>
    simp only [Except_bind_ok, Except.map]
    have e2 : pickNorm p.hint ((normalise A p.hint n (tab m (G (q - 1)))).map (scaleF c)) jd.1 =
        (pickNorm p.hint (normalise A p.hint n (tab m (G (q - 1)))) jd.1).map (scaleF c) := by
      unfold pickNorm
      rw [List.getElem?_map]
      split
      · cases (normalise A p.hint n (tab m (G (q - 1))))[jd.1.toNat]? <;> rfl
      · rfl
    rw [e2]
    cases pickNorm p.hint (normalise A p.hint n (tab m (G (q - 1)))) jd.1 with
    | error e => rfl
    | ok v =>
      simp only [Except_bind_ok, Except.map]
      rw [← pickMapping_options ho]
      cases pickMapping a p (Mat.ofFn q m D) jd.1 with
      | error e => rfl
      | ok mp =>
        simp only [Except_bind_ok, Result.core, Core.scale, ho.keepInternals, ho.openBegin]
        rw [scaleM_dropRow, scaleM_dropRow]
        cases a'.keepInternals <;> cases a'.openBegin <;> rfl

theorem finish_scale {c : ℚ} (hc : 0 < c) (ho : SameOptions a a') {q : Nat}
    {qr qr' : Option (Mat F64 × Mat F64)} (hn : 0 < n) (lm : Mat F64) :
    (finish Arith.exact a' p n m qr' q (scaleM c lm) (fun i j => scaleF c (G i j)) D).map Result.core =
      ((finish Arith.exact a p n m qr q lm G D).map Result.core).map (Core.scale c) :=
  finish_scale_of hc ho lm fun _ _ => scale_normBy hn _

end DTW
