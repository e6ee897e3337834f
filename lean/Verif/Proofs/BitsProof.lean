import Verif.Bits

/-!
# The machine code decodes to the model
-/

namespace DTW
open F64

variable {α β γ : Type}

/-- What a machine value, array, argument list, result stands for. -/
def Mat.decoded (φ : β → F64) (M : Mat β) : Mat F64 := ⟨M.rows, M.cols, M.data.map φ⟩

def RawNd.decoded (φ : β → F64) : RawNd β → Nd
  | .d0 x => .d0 (φ x)
  | .d1 xs => .d1 (xs.map φ)
  | .d2 m => .d2 (m.decoded φ)
  | .dn => .dn

def RawResult.decoded (φ : β → F64) (r : RawResult β) : Result where
  N := r.N
  M := r.M
  openEnd := r.openEnd
  openBegin := r.openBegin
  windowFunction := r.windowFunction
  windowArgs := r.windowArgs
  stepPattern := r.stepPattern
  jmin := r.jmin
  distance := φ r.distance
  normalizedDistance := φ r.normalizedDistance
  mapping := r.mapping
  costMatrix := r.costMatrix.map (Mat.decoded φ)
  directionMatrix := r.directionMatrix
  localCostMatrix := r.localCostMatrix.map (Mat.decoded φ)
  queryReference := r.queryReference.map fun q => (q.1.decoded φ, q.2.decoded φ)

/-- The arguments `a` of the machine stand for the arguments `b` of the model. -/
structure RawArgs.StandsFor (φ : β → F64) (a : RawArgs β) (b : Args) : Prop where
  x : b.x = a.x.decoded φ
  y : b.y = a.y.map (RawNd.decoded φ)
  dist : ∀ u v, φ (a.dist u v) = b.dist (u.map φ) (v.map φ)
  layout : b.layout = a.layout
  stackContig : b.stackContig = a.stackContig
  stepPattern : b.stepPattern = a.stepPattern
  windowType : b.windowType = a.windowType
  windowArgs : b.windowArgs = a.windowArgs
  keepInternals : b.keepInternals = a.keepInternals
  distanceOnly : b.distanceOnly = a.distanceOnly
  openEnd : b.openEnd = a.openEnd
  openBegin : b.openBegin = a.openBegin

/-- The machine operations compute what the arithmetic says, whatever sign they give a zero and whatever payload a NaN; comparisons and
`isnan` look at the value only. -/
structure Machine.Implements (M : Machine β) (φ : β → F64) (A : Arith) : Prop where
  nan : φ M.nan = F64.nan
  pinf : φ M.pinf = F64.pinf
  zero : φ M.zero = fin 0
  lt : ∀ x y, M.lt x y = F64.lt (φ x) (φ y)
  isNan : ∀ x, M.isNan x = F64.isNan (φ x)
  weight : ∀ w, φ (M.weight w) = A.rnd w
  mac : ∀ c w l, φ (M.mac c w l) = A.mac (φ c) (φ w) (φ l)
  divQ : ∀ x d, φ (M.divQ x d) = A.divQ (φ x) d

section generic

theorem map_bind_of {ε : Type} {x : Except ε α} {x' : Except ε β} {f : α → Except ε γ} {f' : β → Except ε δ} {φ : α → β} {ψ : γ → δ}
    (hx : x' = x.map φ) (hf : ∀ a, (f a).map ψ = f' (φ a)) : (x >>= f).map ψ = x' >>= f' := by
  subst hx
  cases x with
  | error e => rfl
  | ok a => exact hf a

theorem rd_map (φ : β → γ) (l : List β) (k : Int) : rd (l.map φ) k = (rd l k).map φ := by
  unfold rd
  split
  · rw [List.getElem?_map]
    cases l[k.toNat]? <;> rfl
  · rfl

theorem wr_map (φ : β → γ) (l : List β) (k : Int) (v : β) : wr (l.map φ) k (φ v) = (wr l k v).map (List.map φ) := by
  unfold wr
  rw [List.length_map]
  split
  · simp [Except.map, List.map_set]
  · rfl

theorem foldlM_map_state {ι : Type} (g : β → γ) (f : β → ι → Except Err β) (f' : γ → ι → Except Err γ)
    (h : ∀ s x, (f s x).map g = f' (g s) x) : ∀ (l : List ι) (s : β), (l.foldlM f s).map g = l.foldlM f' (g s)
  | [], s => rfl
  | x :: xs, s => by
    rw [List.foldlM_cons, List.foldlM_cons]
    exact map_bind_of (φ := g) (h s x).symm fun s' => foldlM_map_state g f f' h xs s'

end generic

theorem pyGet_decoded (φ : β → F64) (m : Mat β) (i j : Int) : (m.decoded φ).pyGet i j = (m.pyGet i j).map φ := by
  unfold Mat.pyGet Mat.decoded
  simp only [List.getElem?_map]
  generalize (if i < 0 then i + (m.rows : Int) else i) = i'
  generalize (if j < 0 then j + (m.cols : Int) else j) = j'
  split
  · cases m.data[i'.toNat * m.cols + j'.toNat]? <;> rfl
  · rfl

theorem row_decoded (φ : β → F64) (m : Mat β) (i : Nat) : (m.decoded φ).row i = (m.row i).map φ := by
  simp [Mat.row, Mat.decoded, List.map_drop, List.map_take]

theorem dropRow_decoded (φ : β → F64) (m : Mat β) : (m.dropRow).decoded φ = (m.decoded φ).dropRow := by
  simp [Mat.dropRow, Mat.decoded, List.map_drop]

namespace Machine.Implements
variable {M : Machine β} {φ : β → F64} {A : Arith} (h : M.Implements φ A)
include h

theorem argminLoop (l : List β) (i ii : Int) (vv : β) : DTW.argminLoop (l.map φ) i ii (φ vv) = M.argminLoop l i ii vv := by
  induction l generalizing i ii vv with
  | nil => rfl
  | cons x xs ih =>
    simp only [List.map_cons, DTW.argminLoop, Machine.argminLoop, h.lt]
    split <;> exact ih _ _ _

theorem argmin (l : List β) : DTW.argmin (l.map φ) = M.argmin l := by
  unfold DTW.argmin Machine.argmin
  rw [← h.pinf]
  exact h.argminLoop l 0 (-1) M.pinf

theorem relax (n : Int) (lm cm : List β) (i j : Int) (cl : List β) (s : CStep) :
    (M.relax n lm cm i j cl s).map (List.map φ) = DTW.relax A n (lm.map φ) (cm.map φ) i j (cl.map φ) s := by
  unfold Machine.relax DTW.relax
  refine map_bind_of (φ := id) (by cases i32 (i - s.di) <;> rfl) fun ii => ?_
  refine map_bind_of (φ := id) (by cases i32 (j - s.dj) <;> rfl) fun jj => ?_
  simp only [id]
  split
  · split
    · refine map_bind_of (φ := id) (by cases em n ii jj <;> rfl) fun k => ?_
      refine map_bind_of (φ := φ) (rd_map φ _ _) fun v => ?_
      exact (wr_map φ _ _ _).symm
    · refine map_bind_of (φ := φ) (rd_map φ _ _) fun c => ?_
      refine map_bind_of (φ := id) (by cases em n ii jj <;> rfl) fun k => ?_
      refine map_bind_of (φ := φ) (rd_map φ _ _) fun l => ?_
      rw [← h.weight, ← h.mac]
      exact (wr_map φ _ _ _).symm
  · rfl

/-- The state of the kernel. -/
theorem cell (n : Int) (wm : List Int) (lm : List β) (steps : List CStep) (npats : Nat) (st : List β × List Int) (i j : Int) :
    (M.cell n wm lm steps npats st i j).map (Prod.map (List.map φ) id) =
      DTW.cell A n wm (lm.map φ) steps npats (Prod.map (List.map φ) id st) i j := by
  unfold Machine.cell DTW.cell
  refine map_bind_of (φ := id) (by cases em n i j <;> rfl) fun k => ?_
  refine map_bind_of (φ := id) (by simp only [id]; cases rd wm k <;> rfl) fun w => ?_
  simp only [id, Prod.map_fst, Prod.map_snd]
  split
  · rfl
  · refine map_bind_of (φ := φ) (rd_map φ _ _) fun c => ?_
    rw [h.isNan]
    split
    · rfl
    · refine map_bind_of (φ := List.map φ) ?_ fun cl => ?_
      · rw [foldlM_map_state (List.map φ) _ _ (fun s x => h.relax n lm st.1 i j s x), List.map_replicate, h.nan]
      · rw [h.argmin]
        split
        · refine map_bind_of (φ := φ) (rd_map φ _ _) fun v => ?_
          refine map_bind_of (φ := List.map φ) (wr_map φ _ _ _) fun cm => ?_
          refine map_bind_of (φ := id) (by cases wr st.2 k (M.argmin cl + 1) <;> rfl) fun sm => ?_
          rfl
        · rfl

theorem computeCM (n m : Nat) (wm : List Int) (lm : List β) (nsteps : Nat) (dir : List ℚ) (cm : List β) (sm : List Int) :
    (M.computeCM n m wm lm nsteps dir cm sm).map (Prod.map (List.map φ) id) =
      DTW.computeCM A n m wm (lm.map φ) nsteps dir (cm.map φ) sm := by
  unfold Machine.computeCM DTW.computeCM
  refine map_bind_of (φ := id) (by cases decode nsteps dir <;> rfl) fun steps => ?_
  simp only [id]
  cases steps.getLast? with
  | none => rfl
  | some last =>
    simp only
    refine map_bind_of (φ := id) (by cases i32 (last.pn + 1) <;> rfl) fun np => ?_
    refine map_bind_of (φ := id) (by cases i32 ((m : Int) * n) <;> rfl) fun mn => ?_
    refine map_bind_of (φ := id) (by
      simp only [id]
      cases (List.range mn.toNat).foldlM (fun (sm : List Int) (i : Nat) => wr sm i intMin) sm <;> rfl) fun sm' => ?_
    refine foldlM_map_state (Prod.map (List.map φ) id) (fun st (j : Nat) => (List.range n).foldlM (fun st (i : Nat) =>
      M.cell n wm lm steps np.toNat st i j) st) _ (fun s j => ?_) _ (cm, sm')
    exact foldlM_map_state (Prod.map (List.map φ) id) (fun st (i : Nat) => M.cell n wm lm steps np.toNat st i j) _
      (fun s i => h.cell n wm lm steps _ s i j) _ s

theorem wrapper (wm : Mat Int) (lm : Mat β) (lay : Layout) (nsteps : Nat) (dir : List ℚ) (cm : Mat β) :
    (M.computeCMWrapper wm lm lay nsteps dir cm).map (Prod.map (Mat.decoded φ) id) =
      DTW.computeCMWrapper A wm (lm.decoded φ) lay nsteps dir (cm.decoded φ) := by
  unfold Machine.computeCMWrapper DTW.computeCMWrapper
  split
  · rfl
  · split
    · rfl
    · refine map_bind_of (φ := Prod.map (List.map φ) id) (h.computeCM _ _ _ _ _ _ _ _).symm fun s => ?_
      rfl

theorem initialCM (lm : Mat β) (seed : Option (Mat β)) :
    (M.initialCM lm seed).map (Mat.decoded φ) = DTW.initialCM (lm.decoded φ) (seed.map (Mat.decoded φ)) := by
  cases seed with
  | some s => rfl
  | none =>
    simp only [Machine.initialCM, DTW.initialCM, Option.map_none]
    show _ = if lm.rows = 0 ∨ lm.cols = 0 then _ else _
    split
    · rfl
    · refine map_bind_of (φ := φ) (pyGet_decoded φ _ _ _) fun v => ?_
      simp [Except.map, Mat.decoded, List.map_set, h.nan]

theorem globalCostMatrix (lm : Mat β) (lay : Layout) (p : StepPattern) (wf : WinFn) (seed : Option (Mat β)) (args : WinArgs) :
    (M.globalCostMatrix lm lay p wf seed args).map (Prod.map (Mat.decoded φ) id) =
      DTW.globalCostMatrix A (lm.decoded φ) lay p wf (seed.map (Mat.decoded φ)) args := by
  unfold Machine.globalCostMatrix DTW.globalCostMatrix
  refine map_bind_of (φ := id) ?_ fun wm => ?_
  · show windowMatrix lm.rows lm.cols wf args = _
    cases windowMatrix lm.rows lm.cols wf args <;> rfl
  · refine map_bind_of (φ := Mat.decoded φ) (h.initialCM lm seed).symm fun cm => ?_
    exact h.wrapper _ _ _ _ _ _

theorem runGCM {a : RawArgs β} {b : Args} (hab : a.StandsFor φ b) (lm : Mat β) (lay : Layout) (wf : WinFn) (p : StepPattern) :
    (M.runGCM a lm lay wf p).map (Prod.map (Mat.decoded φ) (Prod.map (Mat.decoded φ) id)) = DTW.runGCM A b (lm.decoded φ) lay wf p := by
  unfold Machine.runGCM DTW.runGCM
  rw [hab.openBegin, hab.stackContig, hab.windowArgs, hab.y, Option.isSome_map]
  have e1 : (M.prependZeros lm).decoded φ = DTW.prependZeros (lm.decoded φ) := by
    simp [Machine.prependZeros, DTW.prependZeros, Mat.decoded, h.zero]
  have e2 : (M.precm lm).decoded φ = DTW.precm (lm.decoded φ) := by
    simp [Machine.precm, DTW.precm, Mat.decoded, h.zero, h.nan]
  split
  · split
    · rfl
    · refine map_bind_of (φ := Prod.map (Mat.decoded φ) id) ?_ fun s => ?_
      · rw [h.globalCostMatrix, e1, Option.map_some, e2]
      · simp [Except.map, e1, Prod.map]
  · refine map_bind_of (φ := Prod.map (Mat.decoded φ) id) ?_ fun s => ?_
    · rw [h.globalCostMatrix, Option.map_none]
    · rfl

theorem normalise (norm : String) (n : Nat) (l : List β) : (M.normalise norm n l).map φ = DTW.normalise A norm n (l.map φ) := by
  unfold Machine.normalise DTW.normalise
  split
  · rfl
  · split
    · apply List.ext_getElem?
      intro i
      simp only [List.getElem?_map, List.getElem?_mapIdx]
      cases l[i]? <;> simp [h.divQ]
    · split
      · simp [Function.comp_def, h.divQ]
      · split
        · apply List.ext_getElem?
          intro i
          simp only [List.getElem?_map, List.getElem?_mapIdx]
          cases l[i]? <;> simp [h.divQ]
        · rfl

theorem firstMin (l : List β) (i ii : Nat) (vv : β) : DTW.firstMin (l.map φ) i ii (φ vv) = M.firstMin l i ii vv := by
  induction l generalizing i ii vv with
  | nil => rfl
  | cons x xs ih =>
    simp only [List.map_cons, DTW.firstMin, Machine.firstMin, h.lt]
    split <;> exact ih _ _ _

theorem nanargmin (l : List β) : DTW.nanargmin (l.map φ) = M.nanargmin l := by
  unfold DTW.nanargmin Machine.nanargmin
  have e1 : (l.map φ).all F64.isNan = l.all M.isNan := by
    rw [List.all_map]
    congr 1
    funext x
    exact (h.isNan x).symm
  have e2 : (l.map φ).map (fun v => if F64.isNan v then F64.pinf else v) = (l.map fun v => if M.isNan v then M.pinf else v).map φ := by
    rw [List.map_map, List.map_map]
    apply List.map_congr_left
    intro x _
    simp only [Function.comp, h.isNan]
    split
    · exact h.pinf.symm
    · rfl
  rw [e1, e2]
  split
  · rfl
  · cases (l.map fun v => if M.isNan v then M.pinf else v) with
    | nil => rfl
    | cons x xs =>
      simp only [List.map_cons]
      rw [h.firstMin]

theorem pickEnd {a : RawArgs β} {b : Args} (hab : a.StandsFor φ b) (norm : String) (m : Nat) (cm : Mat β) (lc : List β) :
    (M.pickEnd a norm m cm lc).map (Prod.map id φ) = DTW.pickEnd b norm m (cm.decoded φ) (lc.map φ) := by
  unfold Machine.pickEnd DTW.pickEnd
  have jp : ∀ j : Int, (do
      let distance ← cm.pyGet (-1) j
      if M.isNan distance then .error (.valueError "No warping path found compatible with the local constraints")
      else .ok (j, distance) : Except Err (Int × β)).map (Prod.map id φ) = (do
      let distance ← (cm.decoded φ).pyGet (-1) j
      if F64.isNan distance then .error (.valueError "No warping path found compatible with the local constraints")
      else .ok (j, distance)) := by
    intro j
    refine map_bind_of (φ := φ) (pyGet_decoded φ _ _ _) fun d => ?_
    rw [h.isNan]
    split <;> rfl
  rw [hab.openEnd, h.nanargmin]
  dsimp only
  split
  · split
    · rfl
    · cases M.nanargmin lc with
      | error e => rfl
      | ok k => exact jp _
  · exact jp _

theorem pickNorm (norm : String) (lc : List β) (j : Int) : (M.pickNorm norm lc j).map φ = DTW.pickNorm norm (lc.map φ) j := by
  unfold Machine.pickNorm DTW.pickNorm
  split
  · rw [List.getElem?_map]
    cases lc[j.toNat]? <;> rfl
  · simp [Except.map, h.nan]

end Machine.Implements

theorem asColumns_decoded (φ : β → F64) (x : RawNd β) : DTW.asColumns (x.decoded φ) = (Machine.asColumns x).map (Mat.decoded φ) := by
  cases x <;> simp [DTW.asColumns, Machine.asColumns, RawNd.decoded, Except.map, Mat.decoded]

theorem localCost_decoded {φ : β → F64} {a : RawArgs β} {b : Args} (hab : a.StandsFor φ b) :
    DTW.localCost b = (Machine.localCost a).map fun s => (s.1.decoded φ, s.2.1, s.2.2.map fun q => (q.1.decoded φ, q.2.decoded φ)) := by
  unfold DTW.localCost Machine.localCost
  rw [hab.y, hab.x, hab.layout]
  cases hy : a.y with
  | none =>
    simp only [Option.map_none]
    cases a.x <;> rfl
  | some y =>
    simp only [Option.map_some]
    symm
    refine map_bind_of (φ := Mat.decoded φ) (asColumns_decoded φ _) fun x' => ?_
    refine map_bind_of (φ := Mat.decoded φ) (asColumns_decoded φ _) fun y' => ?_
    refine map_bind_of (φ := Mat.decoded φ) ?_ fun lm => rfl
    unfold DTW.cdist Machine.cdist
    show (if x'.cols ≠ y'.cols then _ else _) = _
    split
    · rfl
    · simp only [Except.map, Mat.ofFn, Mat.decoded, List.map_map]
      congr 2
      apply List.map_congr_left
      intro k _
      show b.dist ((x'.decoded φ).row _) ((y'.decoded φ).row _) = φ (a.dist _ _)
      rw [hab.dist, row_decoded, row_decoded]

theorem pickMapping_decoded {φ : β → F64} {a : RawArgs β} {b : Args} (hab : a.StandsFor φ b) (p : StepPattern) (sm : Mat Int) (j : Int) :
    DTW.pickMapping b p sm j = Machine.pickMapping a p sm j := by
  unfold DTW.pickMapping Machine.pickMapping
  rw [hab.distanceOnly, hab.openBegin]
  rfl

theorem Machine.Implements.dtw {M : Machine β} {φ : β → F64} {A : Arith} (h : M.Implements φ A) {a : RawArgs β} {b : Args}
    (hab : a.StandsFor φ b) : (M.dtw a).map (RawResult.decoded φ) = DTW.dtw A b := by
  unfold Machine.dtw DTW.dtw
  refine map_bind_of (φ := fun s => (s.1.decoded φ, s.2.1, s.2.2.map fun q => (q.1.decoded φ, q.2.decoded φ))) (localCost_decoded hab)
    fun s => ?_
  obtain ⟨lm, lay, qr⟩ := s
  simp only
  rw [hab.windowType, hab.stepPattern]
  refine map_bind_of (φ := id) (by cases canonPattern a.stepPattern <;> rfl) fun p => ?_
  simp only [id]
  refine map_bind_of (φ := Prod.map (Mat.decoded φ) (Prod.map (Mat.decoded φ) id)) (h.runGCM hab lm lay _ p).symm fun s => ?_
  obtain ⟨lm', cm, sm⟩ := s
  simp only [Prod.map_apply, id]
  have e : DTW.normalise A p.hint (lm.decoded φ).rows ((cm.decoded φ).row ((cm.decoded φ).rows - 1)) =
      (M.normalise p.hint lm.rows (cm.row (cm.rows - 1))).map φ := by
    rw [h.normalise, row_decoded]
    rfl
  rw [e]
  refine map_bind_of (φ := Prod.map id φ) (h.pickEnd hab _ _ _ _).symm fun s => ?_
  obtain ⟨j, d⟩ := s
  simp only [Prod.map_apply, id]
  refine map_bind_of (φ := φ) (h.pickNorm _ _ _).symm fun nd => ?_
  refine map_bind_of (φ := id) (by rw [pickMapping_decoded hab]; cases Machine.pickMapping a p sm j <;> rfl) fun mp => ?_
  simp only [Except.map, RawResult.decoded, hab.openEnd, hab.openBegin, hab.windowArgs, hab.keepInternals, id]
  congr 2 <;> (split <;> (try split) <;> simp [dropRow_decoded] )

end DTW
