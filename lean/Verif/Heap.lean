import Verif.Dtw

/-!
# Objects, aliasing and histories of calls

The same entry point `dtw` as in Dtw.lean, executed on a heap of mutable Python objects: which arrays are
copied, which are created, which buffers are written in place, which objects of the caller (or of the module)
end up inside the returned object.
-/

namespace DTW
open F64

/-- A mutable object. -/
inductive Obj where
  /-- a numpy array of doubles -/
  | arr (v : Nd)
  /-- a numpy array of integers with two dimensions -/
  | imat (m : Mat Int)
  /-- a numpy array of integers with one dimension -/
  | ivec (l : List Int)
  /-- a dict of window arguments -/
  | dict (d : WinArgs)
  /-- a StepPattern object -/
  | pat (p : StepPattern)

/-- The heap: an object's address is its position; allocation appends. -/
abbrev Heap := List Obj

/-- The address of an object. -/
abbrev Addr := Nat

/-- A Python computation: it may change the heap, and return or raise (the heap effects that precede an
exception remain). -/
def Py (α : Type) := Heap → Except Err α × Heap

namespace Py

/-- Return a value. -/
def pure {α} (a : α) : Py α := fun h => (.ok a, h)

/-- Sequencing. -/
def bind {α β} (x : Py α) (f : α → Py β) : Py β := fun h =>
  match x h with
  | (.ok a, h') => f a h'
  | (.error e, h') => (.error e, h')

instance : Monad Py where
  pure := pure
  bind := bind

/-- Raise. -/
def raise {α} (e : Err) : Py α := fun h => (.error e, h)

/-- A computation on values that touches no object. -/
def lift {α} (x : Except Err α) : Py α := fun h => (x, h)

/-- Create an object. -/
def alloc (o : Obj) : Py Addr := fun h => (.ok h.length, h ++ [o])

/-- Overwrite the contents of an object. -/
def write (a : Addr) (o : Obj) : Py Unit := fun h => (.ok (), h.set a o)

/-- Read an object (an address that is not one is a TypeError; it does not occur in the calls considered). -/
def read (a : Addr) : Py Obj := fun h =>
  match h[a]? with
  | some o => (.ok o, h)
  | none => (.error .typeError, h)

/-- Read a matrix of doubles. -/
def readMat (a : Addr) : Py (Mat F64) := do
  match ← read a with
  | .arr (.d2 m) => Py.pure m
  | _ => raise .typeError

/-- Read a matrix of integers. -/
def readIMat (a : Addr) : Py (Mat Int) := do
  match ← read a with
  | .imat m => Py.pure m
  | _ => raise .typeError

/-- Read an array of doubles. -/
def readArr (a : Addr) : Py Nd := do
  match ← read a with
  | .arr v => Py.pure v
  | _ => raise .typeError

/-- Read a dict. -/
def readDict (a : Addr) : Py WinArgs := do
  match ← read a with
  | .dict d => Py.pure d
  | _ => raise .typeError

/-- Read a step pattern; an object without attribute `mx` is an AttributeError (dtw.py:507-508). -/
def readPat (a : Addr) : Py StepPattern := do
  match ← read a with
  | .pat p => Py.pure p
  | _ => raise .attributeError

end Py

/-- The `step_pattern` argument: the name of a module-level object, or an object. -/
inductive PatRef where
  | name (s : String)
  | obj (a : Addr)

/-- A call of dtw() with its arguments as references.  `windowArgs = none` is the default argument. -/
structure Call where
  x : Addr
  y : Option Addr := none
  dist : List F64 → List F64 → F64 := fun _ _ => nan
  layout : Layout := ⟨true, true⟩
  stackContig : Bool := true
  stepPattern : PatRef := .name "symmetric2"
  windowType : WinArg := .none
  windowArgs : Option Addr := none
  keepInternals : Bool := false
  distanceOnly : Bool := false
  openEnd : Bool := false
  openBegin : Bool := false

/-- dtw.py:130-138: `window_args={}` in the signature is evaluated once, when the module is loaded: the
object at address 0. -/
def defaultWindowArgs : Addr := 0

/-- stepPattern.py:639: `symmetricP0 = symmetric2` is a second name of one object. -/
def patternObject (s : String) : String := if s = "symmetricP0" then "symmetric2" else s

/-- The module-level step patterns follow it. -/
def patternAddr (s : String) : Option Addr :=
  match Pat.table.findIdx? (fun q => q.1 = patternObject s) with
  | some k => some (k + 1)
  | none => none

/-- The heap when the module has been loaded. -/
def moduleHeap : Heap := .dict [] :: Pat.table.map fun q => .pat q.2

/-- An array attribute that is a view on another array: `atleast_2d(x).T` of a one-dimensional array (dtw.py:395-398)
shares its memory. -/
structure View where
  base : Addr
  column : Bool

/-- The returned object: references for all its mutable attributes. -/
structure HResult where
  N : Nat
  M : Nat
  openEnd : Bool
  openBegin : Bool
  windowFunction : WinFn
  windowArgs : Addr
  stepPattern : Addr
  jmin : Int
  distance : F64
  normalizedDistance : F64
  index1 : Option Addr
  index2 : Option Addr
  index1s : Option Addr
  index2s : Option Addr
  stepsTaken : Option Addr
  costMatrix : Option Addr
  directionMatrix : Option Addr
  localCostMatrix : Option Addr
  queryReference : Option (View × View)

/-- dtw.py:393-398: the two-dimensional form of a series, as a view, and its contents. -/
def columnView (a : Addr) : Py (View × Mat F64) := do
  let v ← Py.readArr a
  let m ← Py.lift (asColumns v)
  Py.pure (⟨a, match v with | .d1 _ => true | _ => false⟩, m)

/-- dtw.py:387-399: the local cost matrix is always a new array (`numpy.array` copies). -/
def hLocalCost (c : Call) : Py (Addr × Layout × Option (View × View)) := do
  match c.y with
  | none =>
    match ← Py.readArr c.x with
    | .d2 m =>
      let lm ← Py.alloc (.arr (.d2 m))
      Py.pure (lm, c.layout, none)
    | _ => Py.raise (.valueError "A 2D local distance matrix was expected")
  | some y =>
    let (vx, x') ← columnView c.x
    let (vy, y') ← columnView y
    let m ← Py.lift (cdist c.dist x' y')
    let lm ← Py.alloc (.arr (.d2 m))
    Py.pure (lm, ⟨true, true⟩, some (vx, vy))

/-- dtw.py:505-510. -/
def hPattern (c : Call) : Py (Addr × StepPattern) := do
  match c.stepPattern with
  | .obj a =>
    let p ← Py.readPat a
    Py.pure (a, p)
  | .name s =>
    match patternAddr s with
    | none => Py.raise .attributeError
    | some a =>
      let p ← Py.readPat a
      Py.pure (a, p)

/-- _globalCostMatrix.py:29-33: the initial cost matrix: the seed array itself, or a new array of NaN whose
first cell is then written. -/
def hInitialCM (lm : Mat F64) (seed : Option Addr) : Py Addr :=
  match seed with
  | some s => Py.pure s
  | none => do
    let a ← Py.alloc (.arr (.d2 ⟨lm.rows, lm.cols, List.replicate (lm.rows * lm.cols) nan⟩))
    if lm.rows = 0 ∨ lm.cols = 0 then Py.raise .indexError
    else
      let v ← Py.lift (lm.pyGet 0 0)
      let cm ← Py.readMat a
      Py.write a (.arr (.d2 ⟨cm.rows, cm.cols, cm.data.set 0 v⟩))
      Py.pure a

/-- _globalCostMatrix.py:6-43 and _dtw_utils.pyx:57-80: the window matrix, the cost matrix (unless a seed is
given) and the direction matrix are new arrays; the kernel writes the last two in place. -/
def hGlobalCostMatrix (A : Arith) (lmA : Addr) (lay : Layout) (p : StepPattern) (wf : WinFn) (seed : Option Addr)
    (args : WinArgs) : Py (Addr × Addr) := do
  let lm ← Py.readMat lmA
  let wm ← Py.lift (windowMatrix lm.rows lm.cols wf args)
  let wmA ← Py.alloc (.imat wm)
  let cmA ← hInitialCM lm seed
  let wm ← Py.readIMat wmA
  let lm ← Py.readMat lmA
  let cm ← Py.readMat cmA
  let smA ← Py.alloc (.imat ⟨lm.rows, lm.cols, List.replicate (lm.rows * lm.cols) (-1)⟩)
  let (cm', sm') ← Py.lift (computeCMWrapper A wm lm lay p.getNRows p.getP cm)
  Py.write cmA (.arr (.d2 cm'))
  Py.write smA (.imat sm')
  Py.pure (cmA, smA)

/-- dtw.py:408-424. -/
def hRunGCM (A : Arith) (c : Call) (args : WinArgs) (lmA : Addr) (lay : Layout) (wf : WinFn) (p : StepPattern) :
    Py (Addr × Addr × Addr) := do
  if c.openBegin then
    if p.hint ≠ "N" then Py.raise (.valueError "Open-begin requires step patterns with 'N' normalization")
    else
      let lm ← Py.readMat lmA
      let lmA' ← Py.alloc (.arr (.d2 (prependZeros lm)))
      let seed ← Py.alloc (.arr (.d2 ⟨lm.rows + 1, lm.cols, List.replicate ((lm.rows + 1) * lm.cols) nan⟩))
      let s ← Py.readMat seed
      Py.write seed (.arr (.d2 ⟨s.rows, s.cols, List.replicate s.cols (fin 0) ++ s.data.drop s.cols⟩))
      let (cm, sm) ← hGlobalCostMatrix A lmA' ⟨true, if c.y.isSome then true else c.stackContig⟩ p wf (some seed) args
      Py.pure (lmA', cm, sm)
  else
    let (cm, sm) ← hGlobalCostMatrix A lmA lay p wf none args
    Py.pure (lmA, cm, sm)

/-- The arguments of a call as values, for the parts of `dtw` that only compute on values. -/
def Call.flags (c : Call) (args : WinArgs) : Args where
  x := .dn
  windowType := c.windowType
  windowArgs := args
  keepInternals := c.keepInternals
  distanceOnly := c.distanceOnly
  openEnd := c.openEnd
  openBegin := c.openBegin

/-- _backtrack.py:76-82: the five index arrays are new (with open_begin, dtw.py:469-472 replaces them by slices of
themselves or new arrays; SIMPLIFICATION: only the final ones are allocated). -/
def hMapping (mapping : Option Mapping) : Py (Option (Addr × Addr × Addr × Addr × Addr)) :=
  match mapping with
  | none => Py.pure none
  | some mp => do
    let a1 ← Py.alloc (.ivec mp.index1)
    let a2 ← Py.alloc (.ivec mp.index2)
    let a3 ← Py.alloc (.ivec mp.index1s)
    let a4 ← Py.alloc (.ivec mp.index2s)
    let a5 ← Py.alloc (.ivec mp.stepsTaken)
    Py.pure (some (a1, a2, a3, a4, a5))

/-- `M[1:,:]` of an array held by the result.  SIMPLIFICATION: numpy makes a view on an array that nothing
else refers to; the model makes a copy. -/
def hDropRow (openBegin : Bool) (a : Addr) : Py Addr :=
  if openBegin then do
    let m ← Py.readMat a
    Py.alloc (.arr (.d2 m.dropRow))
  else Py.pure a

/-- The same for integer arrays. -/
def hDropRowI (openBegin : Bool) (a : Addr) : Py Addr :=
  if openBegin then do
    let m ← Py.readIMat a
    Py.alloc (.imat m.dropRow)
  else Py.pure a

/-- dtw.py:130-486 `dtw`, on the heap. -/
def hdtw (A : Arith) (c : Call) : Py HResult := do
  let wa := c.windowArgs.getD defaultWindowArgs
  let (lmA, lay, qr) ← hLocalCost c
  let wf := canonWindow c.windowType
  let (pA, p) ← hPattern c
  let norm := p.hint
  let lm ← Py.readMat lmA
  let n := lm.rows
  let m := lm.cols
  let args ← Py.readDict wa
  let (lmA', cmA, smA) ← hRunGCM A c args lmA lay wf p
  let cm ← Py.readMat cmA
  let lastcol := normalise A norm n (cm.row (cm.rows - 1))
  let (jmin, distance) ← Py.lift (pickEnd (c.flags args) norm m cm lastcol)
  let normalizedDistance ← Py.lift (pickNorm norm lastcol jmin)
  let sm ← Py.readIMat smA
  let mapping ← Py.lift (pickMapping (c.flags args) p sm jmin)
  let idx ← hMapping mapping
  let lmA'' ← hDropRow c.openBegin lmA'
  let cmA' ← hDropRow c.openBegin cmA
  let smA' ← hDropRowI c.openBegin smA
  Py.pure
    { N := n
      M := m
      openEnd := c.openEnd
      openBegin := c.openBegin
      windowFunction := wf
      windowArgs := wa
      stepPattern := pA
      jmin := jmin
      distance := distance
      normalizedDistance := normalizedDistance
      index1 := idx.map (·.1)
      index2 := idx.map (·.2.1)
      index1s := idx.map (·.2.2.1)
      index2s := idx.map (·.2.2.2.1)
      stepsTaken := idx.map (·.2.2.2.2)
      costMatrix := if c.keepInternals then some cmA' else none
      directionMatrix := if c.keepInternals then some smA' else none
      localCostMatrix := if c.keepInternals then some lmA'' else none
      queryReference := if c.keepInternals then qr else none }

/-! ### What a reference denotes -/

/-- The array at an address. -/
def Heap.arr? (h : Heap) (a : Addr) : Option Nd :=
  match h[a]? with
  | some (.arr v) => some v
  | _ => none

/-- The matrix of doubles at an address. -/
def Heap.mat? (h : Heap) (a : Addr) : Option (Mat F64) :=
  match h[a]? with
  | some (.arr (.d2 m)) => some m
  | _ => none

/-- The integer matrix at an address. -/
def Heap.imat? (h : Heap) (a : Addr) : Option (Mat Int) :=
  match h[a]? with
  | some (.imat m) => some m
  | _ => none

/-- The integer vector at an address. -/
def Heap.ivec? (h : Heap) (a : Addr) : Option (List Int) :=
  match h[a]? with
  | some (.ivec m) => some m
  | _ => none

/-- The dict at an address. -/
def Heap.dict? (h : Heap) (a : Addr) : Option WinArgs :=
  match h[a]? with
  | some (.dict d) => some d
  | _ => none

/-- The step pattern at an address. -/
def Heap.pat? (h : Heap) (a : Addr) : Option StepPattern :=
  match h[a]? with
  | some (.pat p) => some p
  | _ => none

/-- The step-pattern argument by value: the contents of the object; a name without object stays a name. -/
def PatRef.deref (h : Heap) : PatRef → Option PatArg
  | .obj a => (h.pat? a).map PatArg.obj
  | .name s =>
    match patternAddr s with
    | none => some (.name s)
    | some a => (h.pat? a).map PatArg.obj

/-- The optional second series by value. -/
def derefY (h : Heap) : Option Addr → Option (Option Nd)
  | none => some none
  | some a => (h.arr? a).map some

/-- The arguments of a call by value: what its references denote in the heap. -/
def Call.deref (h : Heap) (c : Call) : Option Args :=
  match h.arr? c.x, derefY h c.y, c.stepPattern.deref h, h.dict? (c.windowArgs.getD defaultWindowArgs) with
  | some x, some y, some p, some w => some
      { x := x
        y := y
        dist := c.dist
        layout := c.layout
        stackContig := c.stackContig
        stepPattern := p
        windowType := c.windowType
        windowArgs := w
        keepInternals := c.keepInternals
        distanceOnly := c.distanceOnly
        openEnd := c.openEnd
        openBegin := c.openBegin }
  | _, _, _, _ => none

/-- An optional attribute by value: absent stays absent, present must be readable. -/
def derefOpt {α β : Type} (f : α → Option β) : Option α → Option (Option β)
  | none => some none
  | some a => (f a).map some

/-- The five index attributes by value. -/
def HResult.mapping? (h : Heap) (r : HResult) : Option (Option Mapping) :=
  match r.index1, r.index2, r.index1s, r.index2s, r.stepsTaken with
  | none, none, none, none, none => some none
  | some a, some b, some c, some d, some e =>
    match h.ivec? a, h.ivec? b, h.ivec? c, h.ivec? d, h.ivec? e with
    | some a, some b, some c, some d, some e => some (some ⟨a, b, c, d, e⟩)
    | _, _, _, _, _ => none
  | _, _, _, _, _ => none

/-- The array a view shows: the base array, turned into a column if it has one dimension. -/
def View.deref (h : Heap) (v : View) : Option (Mat F64) :=
  match h.arr? v.base with
  | some a =>
    match asColumns a with
    | .ok m => some m
    | .error _ => none
  | none => none

/-- Query and reference by value. -/
def derefQR (h : Heap) (q : View × View) : Option (Mat F64 × Mat F64) :=
  match q.1.deref h, q.2.deref h with
  | some x, some y => some (x, y)
  | _, _ => none

/-- The returned object by value. -/
def HResult.deref (h : Heap) (r : HResult) : Option Result :=
  match h.dict? r.windowArgs, h.pat? r.stepPattern, r.mapping? h, derefOpt h.mat? r.costMatrix,
    derefOpt h.imat? r.directionMatrix, derefOpt h.mat? r.localCostMatrix, derefOpt (derefQR h) r.queryReference with
  | some w, some p, some mp, some cm, some sm, some lm, some qr => some
      { N := r.N
        M := r.M
        openEnd := r.openEnd
        openBegin := r.openBegin
        windowFunction := r.windowFunction
        windowArgs := w
        stepPattern := p
        jmin := r.jmin
        distance := r.distance
        normalizedDistance := r.normalizedDistance
        mapping := mp
        costMatrix := cm
        directionMatrix := sm
        localCostMatrix := lm
        queryReference := qr }
  | _, _, _, _, _, _, _ => none

/-- Which objects a result refers to, for a call made when the heap had `n0` objects: all its arrays are new
objects; `windowArgs` is the argument (or the default object of the signature); `stepPattern` is the argument (or
the module's object of that name); query and reference show the arguments `x`, `y`. -/
structure HResult.OwnedBy (r : HResult) (c : Call) (n0 : Nat) : Prop where
  index1 : ∀ a, r.index1 = some a → n0 ≤ a
  index2 : ∀ a, r.index2 = some a → n0 ≤ a
  index1s : ∀ a, r.index1s = some a → n0 ≤ a
  index2s : ∀ a, r.index2s = some a → n0 ≤ a
  stepsTaken : ∀ a, r.stepsTaken = some a → n0 ≤ a
  costMatrix : ∀ a, r.costMatrix = some a → n0 ≤ a
  directionMatrix : ∀ a, r.directionMatrix = some a → n0 ≤ a
  localCostMatrix : ∀ a, r.localCostMatrix = some a → n0 ≤ a
  windowArgs : r.windowArgs = c.windowArgs.getD defaultWindowArgs
  stepPattern : c.stepPattern = .obj r.stepPattern ∨ ∃ s, c.stepPattern = .name s ∧ patternAddr s = some r.stepPattern
  queryReference : ∀ q, r.queryReference = some q → q.1.base = c.x ∧ c.y = some q.2.base

/-- The objects a call refers to: its arrays, its dict of window arguments (or the default one) and its step
pattern. -/
def Call.refs (c : Call) : List Addr :=
  [c.x, c.windowArgs.getD defaultWindowArgs] ++ c.y.toList ++
    match c.stepPattern with
    | .obj a => [a]
    | .name s => (patternAddr s).toList

/-! ### Histories -/

/-- What can happen in a session between two calls: the user creates an object, overwrites the contents of any
object (of their own, of the module, or of a returned alignment), or calls `dtw`. -/
inductive Op where
  | create (o : Obj)
  | mutate (a : Addr) (o : Obj)
  | call (c : Call)

/-- The heap after one operation. -/
def Op.run (A : Arith) (h : Heap) : Op → Heap
  | .create o => h ++ [o]
  | .mutate a o => h.set a o
  | .call c => (hdtw A c h).2

/-- The heap after a history. -/
def runHistory (A : Arith) (h : Heap) (ops : List Op) : Heap := ops.foldl (Op.run A) h

/-- What a call made in heap `h` gives: the exception, or the contents of the returned object at the moment it
is returned. -/
def Call.outcome (A : Arith) (h : Heap) (c : Call) : Except Err (Option Result) :=
  match hdtw A c h with
  | (.ok r, h') => .ok (r.deref h')
  | (.error e, _) => .error e

end DTW
