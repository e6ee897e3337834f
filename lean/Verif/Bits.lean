import Verif.Dtw

/-!
# The same code on machine representations of doubles

`Verif/Num.lean` identifies `0.0` with `-0.0` and all NaNs.  Here the code of `dtw()` is modelled a second time, on values of an arbitrary
type `β` (in `Verif/Props/Bits.lean`: 64-bit patterns) with machine operations, so that zeros keep their signs and NaNs their payloads.
Only what touches a number is repeated; integer parts (`decode`, `backtrack`, windows, patterns) are those of `Kernel.lean`, `Dtw.lean`.
-/

namespace DTW

/-- What the code asks of the machine: constants (`numpy.nan`, C `INFINITY`, `0.0`), comparison, `isnan`, a weight of the step pattern as a
double, `acc += w*l`, division by a length. -/
structure Machine (β : Type) where
  nan : β
  pinf : β
  zero : β
  lt : β → β → Bool
  isNan : β → Bool
  weight : ℚ → β
  mac : β → β → β → β
  divQ : β → ℚ → β

namespace Machine
variable {β : Type} (M : Machine β)

/-- dtw_core.c:68-83 `argmin`, the loop from position `i` with current best `(ii, vv)`. -/
def argminLoop : List β → Int → Int → β → Int
  | [], _, ii, _ => ii
  | x :: xs, i, ii, vv =>
    if M.lt x vv then argminLoop xs (i + 1) i x else argminLoop xs (i + 1) ii vv

/-- dtw_core.c:68-83 `argmin`. -/
def argmin (l : List β) : Int := M.argminLoop l 0 (-1) M.pinf

/-- dtw_core.c:170-181. -/
def relax (n : Int) (lm cm : List β) (i j : Int) (clist : List β) (s : CStep) : Except Err (List β) := do
  let ii ← i32 (i - s.di)
  let jj ← i32 (j - s.dj)
  if 0 ≤ ii ∧ 0 ≤ jj then
    if s.sc = -1 then
      let v ← rd cm (← em n ii jj)
      wr clist s.pn v
    else
      let c ← rd clist s.pn
      let l ← rd lm (← em n ii jj)
      wr clist s.pn (M.mac c (M.weight s.sc) l)
  else .ok clist

/-- dtw_core.c:158-189. -/
def cell (n : Int) (wm : List Int) (lm : List β) (steps : List CStep) (npats : Nat)
    (st : List β × List Int) (i j : Int) : Except Err (List β × List Int) := do
  let k ← em n i j
  let w ← rd wm k
  if w = 0 then .ok st
  else
    let c ← rd st.1 k
    if M.isNan c = false then .ok st
    else
      let clist ← steps.foldlM (M.relax n lm st.1 i j) (List.replicate npats M.nan)
      let minc := M.argmin clist
      if minc > -1 then
        let v ← rd clist minc
        let cm ← wr st.1 k v
        let sm ← wr st.2 k (minc + 1)
        .ok (cm, sm)
      else .ok st

/-- dtw_core.c:98-191 `computeCM`. -/
def computeCM (n m : Nat) (wm : List Int) (lm : List β) (nsteps : Nat) (dir : List ℚ)
    (cm : List β) (sm : List Int) : Except Err (List β × List Int) := do
  let steps ← decode nsteps dir
  match steps.getLast? with
  | none => .error .ub
  | some last =>
    let npats ← i32 (last.pn + 1)
    let mn ← i32 ((m : Int) * n)
    let sm ← (List.range mn.toNat).foldlM (fun (sm : List Int) (i : Nat) => wr sm i intMin) sm
    (List.range m).foldlM (fun st (j : Nat) =>
      (List.range n).foldlM (fun st (i : Nat) =>
        M.cell n wm lm steps npats.toNat st i j) st) (cm, sm)

/-- _dtw_utils.pyx:57-80 `_computeCM_wrapper`. -/
def computeCMWrapper (wm : Mat Int) (lm : Mat β) (lay : Layout) (nsteps : Nat)
    (dir : List ℚ) (cm : Mat β) : Except Err (Mat β × Mat Int) := do
  if lay.isDouble = false ∨ lay.cContig = false then .error (.valueError "buffer mismatch")
  else if wm.rows = 0 ∨ wm.cols = 0 ∨ dir = [] then .error .indexError
  else
    let sm0 : List Int := List.replicate (lm.rows * lm.cols) (-1)
    let (c, s) ← M.computeCM wm.cols wm.rows wm.data lm.data nsteps dir cm.data sm0
    .ok (⟨cm.rows, cm.cols, c⟩, ⟨lm.rows, lm.cols, s⟩)

/-- _globalCostMatrix.py:29-33. -/
def initialCM (lm : Mat β) (seed : Option (Mat β)) : Except Err (Mat β) :=
  match seed with
  | some s => .ok s
  | none =>
    if lm.rows = 0 ∨ lm.cols = 0 then .error .indexError
    else do
      let v ← lm.pyGet 0 0
      .ok ⟨lm.rows, lm.cols, (List.replicate (lm.rows * lm.cols) M.nan).set 0 v⟩

/-- _globalCostMatrix.py:6-43 `_globalCostMatrix`. -/
def globalCostMatrix (lm : Mat β) (lay : Layout) (p : StepPattern) (wf : WinFn)
    (seed : Option (Mat β)) (args : WinArgs) : Except Err (Mat β × Mat Int) := do
  let wm ← windowMatrix lm.rows lm.cols wf args
  let cm ← M.initialCM lm seed
  M.computeCMWrapper wm lm lay p.getNRows p.getP cm

end Machine

/-- An array-like argument (`Nd` in Dtw.lean). -/
inductive RawNd (β : Type) where
  | d0 (x : β)
  | d1 (xs : List β)
  | d2 (m : Mat β)
  | dn

/-- Arguments of dtw() (dtw.py:130-138), `Args` in Dtw.lean. -/
structure RawArgs (β : Type) where
  x : RawNd β
  y : Option (RawNd β)
  dist : List β → List β → β
  layout : Layout
  stackContig : Bool
  stepPattern : PatArg
  windowType : WinArg
  windowArgs : WinArgs
  keepInternals : Bool
  distanceOnly : Bool
  openEnd : Bool
  openBegin : Bool

/-- The DTW result object (dtw.py:45-76, 425-486), `Result` in Dtw.lean. -/
structure RawResult (β : Type) where
  N : Nat
  M : Nat
  openEnd : Bool
  openBegin : Bool
  windowFunction : WinFn
  windowArgs : WinArgs
  stepPattern : StepPattern
  jmin : Int
  distance : β
  normalizedDistance : β
  mapping : Option Mapping
  costMatrix : Option (Mat β)
  directionMatrix : Option (Mat Int)
  localCostMatrix : Option (Mat β)
  queryReference : Option (Mat β × Mat β)

namespace Machine
variable {β : Type} (M : Machine β)

/-- dtw.py:395-398. -/
def asColumns : RawNd β → Except Err (Mat β)
  | .d0 _ => .error (.valueError "cdist: 2-dimensional array expected")
  | .d1 xs => .ok ⟨xs.length, 1, xs⟩
  | .d2 m => .ok m
  | .dn => .error (.valueError "Input arrays should be 1 or 2 dimensional")

/-- `scipy.spatial.distance.cdist(x, y, metric)`. -/
def cdist (dist : List β → List β → β) (x y : Mat β) : Except Err (Mat β) :=
  if x.cols ≠ y.cols then .error (.valueError "cdist: same number of columns expected")
  else .ok (Mat.ofFn x.rows y.rows fun i j => dist (x.row i) (y.row j))

/-- dtw.py:387-399. -/
def localCost (a : RawArgs β) : Except Err (Mat β × Layout × Option (Mat β × Mat β)) :=
  match a.y with
  | none =>
    match a.x with
    | .d2 m => .ok (m, a.layout, none)
    | _ => .error (.valueError "A 2D local distance matrix was expected")
  | some y => do
    let x' ← asColumns a.x
    let y' ← asColumns y
    let lm ← cdist a.dist x' y'
    .ok (lm, ⟨true, true⟩, some (x', y'))

/-- dtw.py:412 `vstack([zeros((1,m)), lm])`. -/
def prependZeros (lm : Mat β) : Mat β :=
  ⟨lm.rows + 1, lm.cols, List.replicate lm.cols M.zero ++ lm.data⟩

/-- dtw.py:414-415 `precm`. -/
def precm (lm : Mat β) : Mat β :=
  ⟨lm.rows + 1, lm.cols, List.replicate lm.cols M.zero ++ List.replicate (lm.rows * lm.cols) M.nan⟩

/-- dtw.py:438-445. -/
def normalise (norm : String) (n : Nat) (lastrow : List β) : List β :=
  if norm = "NA" then lastrow
  else if norm = "N+M" then lastrow.mapIdx fun j v => M.divQ v ((n : ℚ) + j + 1)
  else if norm = "N" then lastrow.map fun v => M.divQ v n
  else if norm = "M" then lastrow.mapIdx fun j v => M.divQ v (1 + (j : ℚ))
  else lastrow

/-- numpy `argmin` on a list without NaN. -/
def firstMin : List β → Nat → Nat → β → Nat
  | [], _, ii, _ => ii
  | x :: xs, i, ii, vv => if M.lt x vv then firstMin xs (i + 1) i x else firstMin xs (i + 1) ii vv

/-- `numpy.nanargmin` (dtw.py:452). -/
def nanargmin (l : List β) : Except Err Nat :=
  if l.all M.isNan then .error (.valueError "All-NaN slice encountered")
  else
    match l.map (fun v => if M.isNan v then M.pinf else v) with
    | [] => .error (.valueError "empty")
    | x :: xs => .ok (M.firstMin xs 1 0 x)

/-- dtw.py:408-424. -/
def runGCM (a : RawArgs β) (lm : Mat β) (lay : Layout) (wf : WinFn) (p : StepPattern) :
    Except Err (Mat β × Mat β × Mat Int) := do
  if a.openBegin then
    if p.hint ≠ "N" then .error (.valueError "Open-begin requires step patterns with 'N' normalization")
    else
      let lm' := M.prependZeros lm
      let (cm, sm) ← M.globalCostMatrix lm' ⟨true, if a.y.isSome then true else a.stackContig⟩ p wf
        (some (M.precm lm)) a.windowArgs
      .ok (lm', cm, sm)
  else
    let (cm, sm) ← M.globalCostMatrix lm lay p wf none a.windowArgs
    .ok (lm, cm, sm)

/-- dtw.py:447-457. -/
def pickEnd (a : RawArgs β) (norm : String) (m : Nat) (cm : Mat β) (lastcol : List β) :
    Except Err (Int × β) := do
  let jmin : Int ←
    if a.openEnd then
      if norm = "NA" then .error (.valueError "Open-end alignments require normalizable step patterns")
      else do let k ← M.nanargmin lastcol; .ok (k : Int)
    else .ok ((m : Int) - 1)
  let distance ← cm.pyGet (-1) jmin
  if M.isNan distance then .error (.valueError "No warping path found compatible with the local constraints")
  else .ok (jmin, distance)

/-- dtw.py:459-462. -/
def pickNorm (norm : String) (lastcol : List β) (jmin : Int) : Except Err β :=
  if norm ≠ "NA" then
    match lastcol[jmin.toNat]? with
    | some v => .ok v
    | none => .error .indexError
  else .ok M.nan

/-- dtw.py:464-475. -/
def pickMapping (a : RawArgs β) (p : StepPattern) (sm : Mat Int) (jmin : Int) :
    Except Err (Option Mapping) := do
  let mp ← if a.distanceOnly then .ok none else do let mp ← backtrack p sm jmin; .ok (some mp)
  if a.openBegin then
    match mp with
    | none => .error .attributeError
    | some mp => .ok (some mp.dropNull)
  else .ok mp

/-- dtw.py:130-486 `dtw`. -/
def dtw (a : RawArgs β) : Except Err (RawResult β) := do
  let (lm, lay, qr) ← localCost a
  let wf := canonWindow a.windowType
  let p ← canonPattern a.stepPattern
  let norm := p.hint
  let n := lm.rows
  let m := lm.cols
  let (lm', cm, sm) ← M.runGCM a lm lay wf p
  let lastcol := M.normalise norm n (cm.row (cm.rows - 1))
  let (jmin, distance) ← M.pickEnd a norm m cm lastcol
  let normalizedDistance ← M.pickNorm norm lastcol jmin
  let mapping ← pickMapping a p sm jmin
  let lm'' := if a.openBegin then lm'.dropRow else lm'
  let cm' := if a.openBegin then cm.dropRow else cm
  let sm' := if a.openBegin then sm.dropRow else sm
  .ok
    { N := n, M := m, openEnd := a.openEnd, openBegin := a.openBegin
      windowFunction := wf, windowArgs := a.windowArgs, stepPattern := p
      jmin := jmin, distance := distance, normalizedDistance := normalizedDistance
      mapping := mapping
      costMatrix := if a.keepInternals then some cm' else none
      directionMatrix := if a.keepInternals then some sm' else none
      localCostMatrix := if a.keepInternals then some lm'' else none
      queryReference := if a.keepInternals then qr else none }

end Machine

/-! ### Bit patterns -/

/-- The double that a 64-bit pattern stands for (IEEE 754-2019, 3.4: sign, 11 bits of exponent, 52 bits of significand), with `0.0` and
`-0.0` the number 0 and all NaNs one value. -/
def ofBits (b : BitVec 64) : F64 :=
  let negative : Bool := 2 ^ 63 ≤ b.toNat
  let e : Nat := b.toNat / 2 ^ 52 % 2 ^ 11
  let t : Nat := b.toNat % 2 ^ 52
  if e = 2047 then
    if t = 0 then (if negative then .ninf else .pinf) else .nan
  else
    .fin ((if negative then -1 else 1) * (if e = 0 then (t : ℚ) * 2 ^ (-1074 : ℤ) else (2 ^ 52 + t) * 2 ^ ((e : ℤ) - 1075)))

end DTW
