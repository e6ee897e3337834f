import Verif.Pattern

/-!
# The C kernel (dtw/dtw_core.c) and its Cython wrapper (dtw/_dtw_utils.pyx)

Flat C buffers are lists; every access is bounds-checked and every `int` computation range-checked, a
violation being the outcome `Err.ub` (undefined behaviour).
-/

namespace DTW

/-- `R_NaInt = INT_MIN` (dtw_core.c:35), also `_INT_MIN` of _backtrack.py:23. -/
def intMin : Int := -2147483648

/-- A C `int` expression: its value must fit in 32 bits, otherwise the behaviour is undefined. -/
def i32 (x : Int) : Except Err Int :=
  if -2147483648 ≤ x ∧ x ≤ 2147483647 then .ok x else .error .ub

/-- C array read `a[k]`; out of bounds is undefined behaviour. -/
def rd {α} (a : List α) (k : Int) : Except Err α :=
  if 0 ≤ k then
    match a[k.toNat]? with
    | some v => .ok v
    | none => .error .ub
  else .error .ub

/-- C array write `a[k] = v`; out of bounds is undefined behaviour. -/
def wr {α} (a : List α) (k : Int) (v : α) : Except Err (List α) :=
  if 0 ≤ k ∧ k.toNat < a.length then .ok (a.set k.toNat v) else .error .ub

/-- dtw_core.c:54 `#define EM(ii,jj) ((jj)*n+(ii))`. -/
def em (n ii jj : Int) : Except Err Int := do
  let a ← i32 (jj * n)
  i32 (a + ii)

/-- dtw_core.c:53 `#define EP(ii,jj) ((jj)*nsteps+(ii))`. -/
def ep (nsteps ii jj : Int) : Except Err Int := do
  let a ← i32 (jj * nsteps)
  i32 (a + ii)

/-- One row of the step pattern as decoded by dtw_core.c:127-131. -/
structure CStep where
  pn : Int
  di : Int
  dj : Int
  sc : ℚ
  deriving DecidableEq, Repr

/-- dtw_core.c:127-137, body of the decoding loop for row `i`. -/
def decodeRow (nsteps : Nat) (dir : List ℚ) (i : Nat) : Except Err CStep := do
  let p ← rd dir (← ep nsteps i 0)
  let pn ← i32 (trunc p)
  let pn ← i32 (pn - 1)
  let di ← i32 (trunc (← rd dir (← ep nsteps i 1)))
  let dj ← i32 (trunc (← rd dir (← ep nsteps i 2)))
  let sc ← rd dir (← ep nsteps i 3)
  if pn < 0 ∨ pn ≥ nsteps then .error .cExit
  else .ok ⟨pn, di, dj, sc⟩

/-- dtw_core.c:127-137, the decoding loop. -/
def decode (nsteps : Nat) (dir : List ℚ) : Except Err (List CStep) :=
  (List.range nsteps).mapM (decodeRow nsteps dir)

/-- dtw_core.c:68-83 `argmin`, the loop from position `i` with current best `(ii, vv)`. -/
def argminLoop : List F64 → Int → Int → F64 → Int
  | [], _, ii, _ => ii
  | x :: xs, i, ii, vv =>
    if F64.lt x vv then argminLoop xs (i + 1) i x else argminLoop xs (i + 1) ii vv

/-- dtw_core.c:68-83 `argmin`. -/
def argmin (l : List F64) : Int := argminLoop l 0 (-1) .pinf

/-- dtw_core.c:170-181: body of the loop over the rows `s` of the step pattern, for cell `(i,j)`;
`cc==-1.0` seeds the rule's cost with `cm[EM(ii,jj)]`, other rows accumulate `cc*lm[EM(ii,jj)]`. -/
def relax (A : Arith) (n : Int) (lm cm : List F64) (i j : Int) (clist : List F64) (s : CStep) :
    Except Err (List F64) := do
  let ii ← i32 (i - s.di)
  let jj ← i32 (j - s.dj)
  if 0 ≤ ii ∧ 0 ≤ jj then
    if s.sc = -1 then
      let v ← rd cm (← em n ii jj)
      wr clist s.pn v
    else
      let c ← rd clist s.pn
      let l ← rd lm (← em n ii jj)
      wr clist s.pn (A.mac c (A.rnd s.sc) l)
  else .ok clist

/-- dtw_core.c:158-189: body of the double loop for cell `(i,j)`. -/
def cell (A : Arith) (n : Int) (wm : List Int) (lm : List F64) (steps : List CStep) (npats : Nat)
    (st : List F64 × List Int) (i j : Int) : Except Err (List F64 × List Int) := do
  let k ← em n i j
  let w ← rd wm k
  if w = 0 then .ok st                                   -- out of window?
  else
    let c ← rd st.1 k
    if F64.isNan c = false then .ok st                   -- already initialized?
    else
      let clist ← steps.foldlM (relax A n lm st.1 i j) (List.replicate npats F64.nan)
      let minc := argmin clist
      if minc > -1 then
        let v ← rd clist minc
        let cm ← wr st.1 k v
        let sm ← wr st.2 k (minc + 1)
        .ok (cm, sm)
      else .ok st

/-- dtw_core.c:98-191 `computeCM`.  `n = s[0]`, `m = s[1]`; `sm` is cleared to `INT_MIN`
(lines 152-153); then `for j < m, for i < n`.  The kernel updates `cm`, `sm` in place: the model returns
the new contents. -/
def computeCM (A : Arith) (n m : Nat) (wm : List Int) (lm : List F64) (nsteps : Nat) (dir : List ℚ)
    (cm : List F64) (sm : List Int) : Except Err (List F64 × List Int) := do
  let steps ← decode nsteps dir
  match steps.getLast? with
  | none => .error .ub                                   -- pn[nsteps-1] with nsteps = 0
  | some last =>
    let npats ← i32 (last.pn + 1)
    let mn ← i32 ((m : Int) * n)
    let sm ← (List.range mn.toNat).foldlM (fun (sm : List Int) (i : Nat) => wr sm i intMin) sm
    (List.range m).foldlM (fun st (j : Nat) =>
      (List.range n).foldlM (fun st (i : Nat) =>
        cell A n wm lm steps npats.toNat st i j) st) (cm, sm)

/-- A two-dimensional numpy array: shape and row-major contents. -/
structure Mat (α : Type) where
  rows : Nat
  cols : Nat
  data : List α
  deriving DecidableEq, Repr

namespace Mat

/-- The matrix with entry `f i j` in row `i`, column `j`. -/
def ofFn {α} (n m : Nat) (f : Nat → Nat → α) : Mat α :=
  ⟨n, m, (List.range (n * m)).map fun k => f (k / m) (k % m)⟩

/-- numpy indexing `M[i,j]`: negative indices count from the end, others out of range raise
IndexError. -/
def pyGet {α} (M : Mat α) (i j : Int) : Except Err α :=
  let i' := if i < 0 then i + M.rows else i
  let j' := if j < 0 then j + M.cols else j
  if 0 ≤ i' ∧ i' < M.rows ∧ 0 ≤ j' ∧ j' < M.cols then
    match M.data[i'.toNat * M.cols + j'.toNat]? with
    | some v => .ok v
    | none => .error .indexError
  else .error .indexError

/-- Row `i` of a matrix as a list (empty if out of range). -/
def row {α} (M : Mat α) (i : Nat) : List α := (M.data.drop (i * M.cols)).take M.cols

/-- `M[1:,:]`. -/
def dropRow {α} (M : Mat α) : Mat α := ⟨M.rows - 1, M.cols, M.data.drop M.cols⟩

end Mat

/-- Memory attributes of a numpy matrix that matter to the Cython signature `double [:,::1]`
(_dtw_utils.pyx:57-62). -/
structure Layout where
  /-- dtype is float64 -/
  isDouble : Bool
  /-- C-contiguous (row-major) -/
  cContig : Bool
  deriving DecidableEq, Repr

/-- _dtw_utils.pyx:57-80 `_computeCM_wrapper`.  The typed memoryview arguments reject a matrix that is
not C-contiguous float64 (ValueError); `&wm[0,0]`, `&dir[0]` are bounds-checked (IndexError on empty
arrays).  The dimensions are passed *transposed*, `s = [cols, rows]`, so that the C index `EM(ii,jj)`
addresses row `jj`, column `ii` of the row-major numpy buffer.  `sm` starts as `full_like(lm, -1)`. -/
def computeCMWrapper (A : Arith) (wm : Mat Int) (lm : Mat F64) (lay : Layout) (nsteps : Nat)
    (dir : List ℚ) (cm : Mat F64) : Except Err (Mat F64 × Mat Int) := do
  if lay.isDouble = false ∨ lay.cContig = false then .error (.valueError "buffer mismatch")
  else if wm.rows = 0 ∨ wm.cols = 0 ∨ dir = [] then .error .indexError
  else
    let sm0 : List Int := List.replicate (lm.rows * lm.cols) (-1)
    let (c, s) ← computeCM A wm.cols wm.rows wm.data lm.data nsteps dir cm.data sm0
    .ok (⟨cm.rows, cm.cols, c⟩, ⟨lm.rows, lm.cols, s⟩)

end DTW
