import Verif.Heap

/-!
# Several threads calling `dtw`, and calls that are interrupted

The execution of `dtw` on objects (Heap.lean) at the granularity of single accesses to objects: a call is a program whose
steps are "create an object", "read an object", "write an object", and anything can happen between two steps.  (In CPython
another thread can run between two bytecode instructions; numpy and the extension hold the interpreter lock while they work
on an array.  SIMPLIFICATION: one access to one array is one step.)

The definitions `pX` are those of Heap.lean (`hX`), as programs instead of functions on heaps; `run_pdtw` in
Proofs/ThreadsProof.lean shows that a call executed without interruption is the execution of Heap.lean.
-/

namespace DTW
open F64

/-- A program: finished (with a value or an exception), or about to access an object. -/
inductive Prog (α : Type) where
  | ret (r : Except Err α)
  | alloc (o : Obj) (k : Addr → Prog α)
  | read (a : Addr) (k : Option Obj → Prog α)
  | write (a : Addr) (o : Obj) (k : Prog α)

namespace Prog

/-- Sequencing: an exception ends the program. -/
def bind {α β} : Prog α → (α → Prog β) → Prog β
  | .ret (.ok a), f => f a
  | .ret (.error e), _ => .ret (.error e)
  | .alloc o k, f => .alloc o fun a => (k a).bind f
  | .read a k, f => .read a fun o => (k o).bind f
  | .write a o k, f => .write a o (k.bind f)

/-- Return a value. -/
def pure {α} (a : α) : Prog α := .ret (.ok a)

instance : Monad Prog where
  pure := pure
  bind := bind

/-- Raise. -/
def raise {α} (e : Err) : Prog α := .ret (.error e)

/-- A computation on values that touches no object. -/
def lift {α} (x : Except Err α) : Prog α := .ret x

/-- Create an object. -/
def create (o : Obj) : Prog Addr := .alloc o pure

/-- Overwrite the contents of an object. -/
def store (a : Addr) (o : Obj) : Prog Unit := .write a o (pure ())

/-- The contents of an object (`Py.read`). -/
def fetch (a : Addr) : Prog Obj := .read a fun
  | some o => pure o
  | none => raise .typeError

/-- Read a matrix of doubles. -/
def readMat (a : Addr) : Prog (Mat F64) := do
  match ← fetch a with
  | .arr (.d2 m) => Prog.pure m
  | _ => raise .typeError

/-- Read a matrix of integers. -/
def readIMat (a : Addr) : Prog (Mat Int) := do
  match ← fetch a with
  | .imat m => Prog.pure m
  | _ => raise .typeError

/-- Read an array of doubles. -/
def readArr (a : Addr) : Prog Nd := do
  match ← fetch a with
  | .arr v => Prog.pure v
  | _ => raise .typeError

/-- Read a dict. -/
def readDict (a : Addr) : Prog WinArgs := do
  match ← fetch a with
  | .dict d => Prog.pure d
  | _ => raise .typeError

/-- Read a step pattern. -/
def readPat (a : Addr) : Prog StepPattern := do
  match ← fetch a with
  | .pat p => Prog.pure p
  | _ => raise .attributeError

/-- Execute without interruption. -/
def run {α} : Prog α → Heap → Except Err α × Heap
  | .ret r, h => (r, h)
  | .alloc o k, h => (k h.length).run (h ++ [o])
  | .read a k, h => (k h[a]?).run h
  | .write a o k, h => k.run (h.set a o)

/-- One step. -/
def step {α} : Prog α → Heap → Prog α × Heap
  | .ret r, h => (.ret r, h)
  | .alloc o k, h => (k h.length, h ++ [o])
  | .read a k, h => (k h[a]?, h)
  | .write a o k, h => (k, h.set a o)

/-- Has it finished, and how? -/
def result {α} : Prog α → Option (Except Err α)
  | .ret r => some r
  | _ => none

end Prog

/-- dtw.py:393-398: the two-dimensional form of a series, as a view, and its contents. -/
def pcolumnView (a : Addr) : Prog (View × Mat F64) := do
  let v ← Prog.readArr a
  let m ← Prog.lift (asColumns v)
  Prog.pure (⟨a, match v with | .d1 _ => true | _ => false⟩, m)

/-- dtw.py:387-399: the local cost matrix is always a new array (`numpy.array` copies). -/
def pLocalCost (c : Call) : Prog (Addr × Layout × Option (View × View)) := do
  match c.y with
  | none =>
    match ← Prog.readArr c.x with
    | .d2 m =>
      let lm ← Prog.create (.arr (.d2 m))
      Prog.pure (lm, c.layout, none)
    | _ => Prog.raise (.valueError "A 2D local distance matrix was expected")
  | some y =>
    let (vx, x') ← pcolumnView c.x
    let (vy, y') ← pcolumnView y
    let m ← Prog.lift (cdist c.dist x' y')
    let lm ← Prog.create (.arr (.d2 m))
    Prog.pure (lm, ⟨true, true⟩, some (vx, vy))

/-- dtw.py:505-510. -/
def pPattern (c : Call) : Prog (Addr × StepPattern) := do
  match c.stepPattern with
  | .obj a =>
    let p ← Prog.readPat a
    Prog.pure (a, p)
  | .name s =>
    match patternAddr s with
    | none => Prog.raise .attributeError
    | some a =>
      let p ← Prog.readPat a
      Prog.pure (a, p)

/-- _globalCostMatrix.py:29-33: the initial cost matrix: the seed array itself, or a new array of NaN whose
first cell is then written. -/
def pInitialCM (lm : Mat F64) (seed : Option Addr) : Prog Addr :=
  match seed with
  | some s => Prog.pure s
  | none => do
    let a ← Prog.create (.arr (.d2 ⟨lm.rows, lm.cols, List.replicate (lm.rows * lm.cols) nan⟩))
    if lm.rows = 0 ∨ lm.cols = 0 then Prog.raise .indexError
    else
      let v ← Prog.lift (lm.pyGet 0 0)
      let cm ← Prog.readMat a
      Prog.store a (.arr (.d2 ⟨cm.rows, cm.cols, cm.data.set 0 v⟩))
      Prog.pure a

/-- _globalCostMatrix.py:6-43 and _dtw_utils.pyx:57-80: the window matrix, the cost matrix (unless a seed is
given) and the direction matrix are new arrays; the kernel writes the last two in place. -/
def pGlobalCostMatrix (A : Arith) (lmA : Addr) (lay : Layout) (p : StepPattern) (wf : WinFn) (seed : Option Addr)
    (args : WinArgs) : Prog (Addr × Addr) := do
  let lm ← Prog.readMat lmA
  let wm ← Prog.lift (windowMatrix lm.rows lm.cols wf args)
  let wmA ← Prog.create (.imat wm)
  let cmA ← pInitialCM lm seed
  let wm ← Prog.readIMat wmA
  let lm ← Prog.readMat lmA
  let cm ← Prog.readMat cmA
  let smA ← Prog.create (.imat ⟨lm.rows, lm.cols, List.replicate (lm.rows * lm.cols) (-1)⟩)
  let (cm', sm') ← Prog.lift (computeCMWrapper A wm lm lay p.getNRows p.getP cm)
  Prog.store cmA (.arr (.d2 cm'))
  Prog.store smA (.imat sm')
  Prog.pure (cmA, smA)

/-- dtw.py:408-424. -/
def pRunGCM (A : Arith) (c : Call) (args : WinArgs) (lmA : Addr) (lay : Layout) (wf : WinFn) (p : StepPattern) :
    Prog (Addr × Addr × Addr) := do
  if c.openBegin then
    if p.hint ≠ "N" then Prog.raise (.valueError "Open-begin requires step patterns with 'N' normalization")
    else
      let lm ← Prog.readMat lmA
      let lmA' ← Prog.create (.arr (.d2 (prependZeros lm)))
      let seed ← Prog.create (.arr (.d2 ⟨lm.rows + 1, lm.cols, List.replicate ((lm.rows + 1) * lm.cols) nan⟩))
      let s ← Prog.readMat seed
      Prog.store seed (.arr (.d2 ⟨s.rows, s.cols, List.replicate s.cols (fin 0) ++ s.data.drop s.cols⟩))
      let (cm, sm) ← pGlobalCostMatrix A lmA' ⟨true, if c.y.isSome then true else c.stackContig⟩ p wf (some seed) args
      Prog.pure (lmA', cm, sm)
  else
    let (cm, sm) ← pGlobalCostMatrix A lmA lay p wf none args
    Prog.pure (lmA, cm, sm)

/-- _backtrack.py:76-82: the five index arrays are new (with open_begin, dtw.py:469-472 replaces them by slices of
themselves or new arrays; SIMPLIFICATION: only the final ones are allocated). -/
def pMapping (mapping : Option Mapping) : Prog (Option (Addr × Addr × Addr × Addr × Addr)) :=
  match mapping with
  | none => Prog.pure none
  | some mp => do
    let a1 ← Prog.create (.ivec mp.index1)
    let a2 ← Prog.create (.ivec mp.index2)
    let a3 ← Prog.create (.ivec mp.index1s)
    let a4 ← Prog.create (.ivec mp.index2s)
    let a5 ← Prog.create (.ivec mp.stepsTaken)
    Prog.pure (some (a1, a2, a3, a4, a5))

/-- `M[1:,:]` of an array held by the result.  SIMPLIFICATION: numpy makes a view on an array that nothing
else refers to; the model makes a copy. -/
def pDropRow (openBegin : Bool) (a : Addr) : Prog Addr :=
  if openBegin then do
    let m ← Prog.readMat a
    Prog.create (.arr (.d2 m.dropRow))
  else Prog.pure a

/-- The same for integer arrays. -/
def pDropRowI (openBegin : Bool) (a : Addr) : Prog Addr :=
  if openBegin then do
    let m ← Prog.readIMat a
    Prog.create (.imat m.dropRow)
  else Prog.pure a

/-- dtw.py:130-486 `dtw`, on the heap. -/
def pdtw (A : Arith) (c : Call) : Prog HResult := do
  let wa := c.windowArgs.getD defaultWindowArgs
  let (lmA, lay, qr) ← pLocalCost c
  let wf := canonWindow c.windowType
  let (pA, p) ← pPattern c
  let norm := p.hint
  let lm ← Prog.readMat lmA
  let n := lm.rows
  let m := lm.cols
  let args ← Prog.readDict wa
  let (lmA', cmA, smA) ← pRunGCM A c args lmA lay wf p
  let cm ← Prog.readMat cmA
  let lastcol := normalise A norm n (cm.row (cm.rows - 1))
  let (jmin, distance) ← Prog.lift (pickEnd (c.flags args) norm m cm lastcol)
  let normalizedDistance ← Prog.lift (pickNorm norm lastcol jmin)
  let sm ← Prog.readIMat smA
  let mapping ← Prog.lift (pickMapping (c.flags args) p sm jmin)
  let idx ← pMapping mapping
  let lmA'' ← pDropRow c.openBegin lmA'
  let cmA' ← pDropRow c.openBegin cmA
  let smA' ← pDropRowI c.openBegin smA
  Prog.pure
    { N := n
      M := m
      openEnd := c.openEnd
      openBegin := c.openBegin
      windowFunction := wf
      windowArgs := wa
      stepPattern := pA
      jmin := jmin
      distance := distance
      normalizedDistance := normalizedDistance
      index1 := idx.map (·.1)
      index2 := idx.map (·.2.1)
      index1s := idx.map (·.2.2.1)
      index2s := idx.map (·.2.2.2.1)
      stepsTaken := idx.map (·.2.2.2.2)
      costMatrix := if c.keepInternals then some cmA' else none
      directionMatrix := if c.keepInternals then some smA' else none
      localCostMatrix := if c.keepInternals then some lmA'' else none
      queryReference := if c.keepInternals then qr else none }

/-! ### Threads -/

/-- The running program: the objects, and what each thread still has to do. -/
structure Sys where
  heap : Heap
  threads : List (Prog HResult)

/-- What happens next: a thread makes a step; or the rest of the program (other threads) creates or overwrites an
object. -/
inductive Event where
  | step (t : Nat)
  | create (o : Obj)
  | mutate (a : Addr) (o : Obj)

/-- The effect of an event.  A thread that has finished or does not exist makes no step. -/
def Event.run (s : Sys) : Event → Sys
  | .step t =>
    match s.threads[t]? with
    | some p => ⟨(p.step s.heap).2, s.threads.set t (p.step s.heap).1⟩
    | none => s
  | .create o => ⟨s.heap ++ [o], s.threads⟩
  | .mutate a o => ⟨s.heap.set a o, s.threads⟩

/-- A schedule: which thread makes a step when. -/
def runSchedule (s : Sys) (evs : List Event) : Sys := evs.foldl Event.run s

/-- Threads that are about to make the given calls. -/
def startCalls (A : Arith) (h : Heap) (cs : List Call) : Sys := ⟨h, cs.map (pdtw A)⟩

end DTW
