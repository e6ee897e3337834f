import Verif.Dtw

/-!
# Specification

Independent of the algorithm: what a step pattern *means* (a list of production rules), what an
admissible warping path is, what it costs, which points it visits.  The algorithm's matrices do not occur
here, except in `Bellman`, which is the recursion the documentation prints.
-/

namespace DTW
open F64

/-! ### Step patterns as production rules -/

/-- A charged cell of a rule: `w * d[i-di, j-dj]`. -/
structure Term where
  di : Nat
  dj : Nat
  w : ℚ
  deriving DecidableEq, Repr

/-- A production rule `g[i,j] ← g[i-a, j-b] + Σ w * d[i-di, j-dj]`. -/
structure Rule where
  a : Nat
  b : Nat
  terms : List Term
  deriving DecidableEq, Repr

/-- The rows of `StepPattern.mx` that describe rule number `k+1`: the starting point (weight -1), then the
charged cells. -/
def Rule.rows (k : Nat) (r : Rule) : List Step :=
  ⟨(k : Int) + 1, r.a, r.b, -1⟩ :: r.terms.map fun t => ⟨(k : Int) + 1, t.di, t.dj, t.w⟩

/-- The rows of a list of rules, numbered from `k+1`. -/
def encodeFrom : Nat → List Rule → List Step
  | _, [] => []
  | k, r :: rs => r.rows k ++ encodeFrom (k + 1) rs

/-- The matrix `mx` of a list of rules. -/
def encode (rs : List Rule) : List Step := encodeFrom 0 rs

/-- A sensible rule: it makes progress, and charges only cells between its origin and its end. -/
def Rule.Valid (r : Rule) : Prop :=
  (0 < r.a ∨ 0 < r.b) ∧ ∀ t ∈ r.terms, t.w ≠ -1 ∧ t.di ≤ r.a ∧ t.dj ≤ r.b

instance (r : Rule) : Decidable r.Valid := inferInstanceAs (Decidable (_ ∧ _))

/-- `p` is the step pattern with the (non-empty list of sensible) rules `rs`. -/
structure WF (p : StepPattern) (rs : List Rule) : Prop where
  rows : p.mx = encode rs
  ne : rs ≠ []
  valid : ∀ r ∈ rs, r.Valid

/-- The problem fits the C `int` type: the matrix has fewer than 2^31 cells and the pattern is not
absurdly large. -/
structure Fits (n m : Nat) (rs : List Rule) : Prop where
  cells : n * m < 2147483648
  rows : 4 * (encode rs).length < 2147483648
  deltas : ∀ r ∈ rs, r.a < 2147483648 ∧ r.b < 2147483648

/-! ### Warping paths -/

/-- Accumulating the charges of rule `r` arriving at `(i,j)`, in the order of the rows, on top of the cost
`acc` of the origin. -/
def charge (A : Arith) (L : Nat → Nat → F64) (r : Rule) (i j : Nat) (acc : F64) : F64 :=
  r.terms.foldl (fun c t => A.mac c (A.rnd t.w) (L (i - t.di) (j - t.dj))) acc

/-- `Path A rs W L S i0 j0 ks i j c`: starting at a seeded cell `(i0,j0)` (where `S i0 j0` is not NaN),
applying the rules with 1-based numbers `ks`, one arrives at `(i,j)` having accumulated cost `c`; every
arrival cell is inside the window `W` and is not itself seeded. -/
inductive Path (A : Arith) (rs : List Rule) (W : Nat → Nat → Bool) (L S : Nat → Nat → F64) :
    Nat → Nat → List Int → Nat → Nat → F64 → Prop
  | start (i j : Nat) : S i j ≠ nan → Path A rs W L S i j [] i j (S i j)
  | step {i0 j0 ks i j c} (k : Nat) (r : Rule) :
      Path A rs W L S i0 j0 ks i j c →
      rs[k]? = some r →
      W (i + r.a) (j + r.b) = true →
      S (i + r.a) (j + r.b) = nan →
      Path A rs W L S i0 j0 (ks ++ [(k : Int) + 1]) (i + r.a) (j + r.b)
        (charge A L r (i + r.a) (j + r.b) c)

/-- The warping paths of a closed-begin alignment: they start at `(0,0)`, where they pay the local cost
once, and then apply rules whose arrival cells are inside the window. -/
inductive WarpPath (A : Arith) (rs : List Rule) (W : Nat → Nat → Bool) (L : Nat → Nat → F64) :
    List Int → Nat → Nat → F64 → Prop
  | start : WarpPath A rs W L [] 0 0 (L 0 0)
  | step {ks i j c} (k : Nat) (r : Rule) :
      WarpPath A rs W L ks i j c →
      rs[k]? = some r →
      W (i + r.a) (j + r.b) = true →
      WarpPath A rs W L (ks ++ [(k : Int) + 1]) (i + r.a) (j + r.b)
        (charge A L r (i + r.a) (j + r.b) c)

/-- The warping paths of an open-begin alignment.  `OpenPath A rs W L j0 ks i j c`: the path starts, at no
cost, at column `j0` of a null row placed before the query; after the rules `ks` it has consumed `i` query
elements (so the last one matched is number `i - 1`) and stands at column `j`; the null row costs nothing
and is left at once (a path never moves along it).  `W` is the window in the coordinates of the extended
matrix (row 0 is the null row). -/
inductive OpenPath (A : Arith) (rs : List Rule) (W : Nat → Nat → Bool) (L : Nat → Nat → F64) (j0 : Nat) :
    List Int → Nat → Nat → F64 → Prop
  | start : OpenPath A rs W L j0 [] 0 j0 (fin 0)
  | step {ks i j c} (k : Nat) (r : Rule) :
      OpenPath A rs W L j0 ks i j c →
      rs[k]? = some r →
      0 < i + r.a →
      W (i + r.a) (j + r.b) = true →
      OpenPath A rs W L j0 (ks ++ [(k : Int) + 1]) (i + r.a) (j + r.b)
        (charge A (fun i' j' => if i' = 0 then fin 0 else L (i' - 1) j') r (i + r.a) (j + r.b) c)

/-- Points visited by one application of a rule whose origin is `(i,j)`: the charged cells that differ
from the arrival cell, in order, then the arrival cell. -/
def Rule.fine (r : Rule) (i j : Int) : List (Int × Int) :=
  ((r.terms.filter fun t => t.di ≠ 0 ∨ t.dj ≠ 0).map fun t =>
    (i + r.a - t.di, j + r.b - t.dj)) ++ [(i + (r.a : Int), j + (r.b : Int))]

/-- The curve drawn from `(i,j)` by a list of 1-based rule numbers: its corner points
(`index1s`,`index2s`). -/
def coarse (rs : List Rule) : Int → Int → List Int → List (Int × Int)
  | i, j, [] => [(i, j)]
  | i, j, k :: ks =>
    match rs[(k - 1).toNat]? with
    | some r => (i, j) :: coarse rs (i + r.a) (j + r.b) ks
    | none => [(i, j)]

/-- The same curve with the intermediate points of multi-step rules (`index1`,`index2`), without its first
point. -/
def fineTail (rs : List Rule) : Int → Int → List Int → List (Int × Int)
  | _, _, [] => []
  | i, j, k :: ks =>
    match rs[(k - 1).toNat]? with
    | some r => r.fine i j ++ fineTail rs (i + r.a) (j + r.b) ks
    | none => []

/-- The full curve (`index1`,`index2`). -/
def fine (rs : List Rule) (i j : Int) (ks : List Int) : List (Int × Int) := (i, j) :: fineTail rs i j ks

/-- Admissible rule sequences without costs: from `(0,0)`, every arrival cell inside the window. -/
inductive RulePath (rs : List Rule) (W : Nat → Nat → Bool) : List Int → Nat → Nat → Prop
  | start : RulePath rs W [] 0 0
  | step {ks i j} (k : Nat) (r : Rule) :
      RulePath rs W ks i j → rs[k]? = some r → W (i + r.a) (j + r.b) = true →
      RulePath rs W (ks ++ [(k : Int) + 1]) (i + r.a) (j + r.b)

/-- Admissible rule sequences from any seeded cell: `SeededPath rs W seed i0 j0 ks i j`; arrival cells are
inside the window and not seeded. -/
inductive SeededPath (rs : List Rule) (W seed : Nat → Nat → Bool) :
    Nat → Nat → List Int → Nat → Nat → Prop
  | start (i j : Nat) : seed i j = true → SeededPath rs W seed i j [] i j
  | step {i0 j0 ks i j} (k : Nat) (r : Rule) :
      SeededPath rs W seed i0 j0 ks i j → rs[k]? = some r → W (i + r.a) (j + r.b) = true →
      seed (i + r.a) (j + r.b) = false →
      SeededPath rs W seed i0 j0 (ks ++ [(k : Int) + 1]) (i + r.a) (j + r.b)

/-- Exactly `k` objects satisfy `P`. -/
def HasCount {α : Type} (P : α → Prop) (k : Nat) : Prop :=
  ∃ l : List α, l.Nodup ∧ (∀ x, x ∈ l ↔ P x) ∧ l.length = k

/-- Integers up to `B` are represented exactly (double precision: `B = 2^53`). -/
def ExactUpTo (A : Arith) (B : Nat) : Prop := ∀ k : Nat, k ≤ B → A.rnd (k : ℚ) = fin (k : ℚ)

/-- The alignment object `d` has sizes `n`, `m`, step pattern `p`, and its recorded window function and
arguments, called with these sizes, say `W`. -/
structure AboutProblem (d : Result) (n m : Nat) (p : StepPattern) (W : Nat → Nat → Bool) : Prop where
  N : d.N = n
  M : d.M = m
  pattern : d.stepPattern = p
  window : ∀ i < n, ∀ j < m, d.windowFunction.call d.windowArgs n m i j = .ok (W i j)

/-- Every element of `ks` is the 1-based number of a rule. -/
def Legal (rs : List Rule) (ks : List Int) : Prop :=
  ∀ k ∈ ks, ∃ (q : Nat) (r : Rule), k = (q : Int) + 1 ∧ rs[q]? = some r

/-- What remains to be travelled (query, reference) at the successive points a rule visits: at its origin,
at its intermediate points, at its arrival. -/
def Rule.offsets (r : Rule) : List (Int × Int) :=
  ((r.a : Int), (r.b : Int)) ::
    ((r.terms.filter fun t => t.di ≠ 0 ∨ t.dj ≠ 0).map fun t => ((t.di : Int), (t.dj : Int))) ++ [(0, 0)]

/-- Consecutive points visited by the rule advance by amounts satisfying `P`. -/
def Rule.Advances (P : Int → Int → Prop) (r : Rule) : Prop :=
  r.offsets.IsChain fun u v => P (u.1 - v.1) (u.2 - v.2)

/-- The rule lists its intermediate points in walking order. -/
def Rule.Ordered (r : Rule) : Prop := r.Advances fun di dj => 0 ≤ di ∧ 0 ≤ dj

/-- The rule advances by unit steps: no element of either series is skipped. -/
def Rule.Continuous (r : Rule) : Prop :=
  r.Advances fun di dj => 0 ≤ di ∧ di ≤ 1 ∧ 0 ≤ dj ∧ dj ≤ 1 ∧ ¬ (di = 0 ∧ dj = 0)

instance (r : Rule) : Decidable r.Ordered := by unfold Rule.Ordered Rule.Advances; infer_instance
instance (r : Rule) : Decidable r.Continuous := by unfold Rule.Continuous Rule.Advances; infer_instance

/-- Total weight of the local costs charged by a rule. -/
def Rule.weight (r : Rule) : ℚ := (r.terms.map (·.w)).sum

/-- Total weight of the local costs charged along a path: one for the starting cell, then that of each rule
applied. -/
def pathWeight (rs : List Rule) (ks : List Int) : ℚ :=
  1 + (ks.map fun k => match rs[(k - 1).toNat]? with
    | some r => r.weight
    | none => 0).sum

/-- Adding the printed term `cc * d[i-di,j-dj]` at cell `(i,j)`; a second `g` on a line has no meaning. -/
def readTerm (A : Arith) (L : Nat → Nat → F64) (i j : Nat) (acc : F64) : StepPattern.Printed → F64
  | .d cc di dj => A.mac acc (A.rnd cc) (L ((i : Int) - di).toNat ((j : Int) - dj).toNat)
  | .g _ _ => nan

/-- Reading one line of the equation printed by `print(stepPattern)` at cell `(i,j)`: the cost `g[i-di,j-dj]`
(NaN if that cell does not exist) plus, from left to right, the terms `cc * d[i-di,j-dj]`. -/
def readLine (A : Arith) (L G : Nat → Nat → F64) (i j : Nat) : List StepPattern.Printed → F64
  | .g di dj :: ds =>
    ds.foldl (readTerm A L i j)
      (if di ≤ i ∧ dj ≤ j then G ((i : Int) - di).toNat ((j : Int) - dj).toNat else nan)
  | _ => nan

/-! ### The recursion -/

/-- The candidate cost of rule `r` at `(i,j)`: NaN if its origin is outside the matrix. -/
def cand (A : Arith) (L G : Nat → Nat → F64) (i j : Nat) (r : Rule) : F64 :=
  if r.a ≤ i ∧ r.b ≤ j then charge A L r i j (G (i - r.a) (j - r.b)) else nan

/-- `v` is the least usable entry of `l` and `d` the 1-based position of its first occurrence; or `l` has
no usable entry, `v` is NaN and `d` the NA sentinel. -/
def IsBest (l : List F64) (v : F64) (d : Int) : Prop :=
  (∃ k : Nat, l[k]? = some v ∧ d = (k : Int) + 1 ∧ usable v ∧
      (∀ x ∈ l, lt x v = false) ∧ (∀ k' < k, ∀ x, l[k']? = some x → x ≠ v)) ∨
  ((∀ x ∈ l, ¬ usable x) ∧ v = nan ∧ d = intMin)

/-- The dynamic-programming system on an `n × m` grid with seed `S`, window `W`, local costs `L`: `G` is
the cumulative cost matrix and `D` the direction matrix. -/
structure Bellman (A : Arith) (rs : List Rule) (n m : Nat) (W : Nat → Nat → Bool)
    (L S G : Nat → Nat → F64) (D : Nat → Nat → Int) : Prop where
  seeded : ∀ i < n, ∀ j < m, S i j ≠ nan → G i j = S i j ∧ D i j = intMin
  outside : ∀ i < n, ∀ j < m, S i j = nan → W i j = false → G i j = nan ∧ D i j = intMin
  inside : ∀ i < n, ∀ j < m, S i j = nan → W i j = true →
    IsBest (rs.map (cand A L G i j)) (G i j) (D i j)

/-! ### Calls -/

/-- The seed of a closed-begin alignment: alignments start at `(0,0)` and pay its local cost. -/
def closedSeed (L : Nat → Nat → F64) : Nat → Nat → F64 :=
  fun i j => if i = 0 ∧ j = 0 then L 0 0 else nan

/-- The seed of an open-begin alignment: any cell of the null row 0, at no cost. -/
def openSeed : Nat → Nat → F64 := fun i _ => if i = 0 then fin 0 else nan

/-- The local cost with a null row of zeros placed before the query. -/
def nullRow (L : Nat → Nat → F64) : Nat → Nat → F64 := fun i j => if i = 0 then fin 0 else L (i - 1) j

/-- A one-dimensional series is a matrix with one column; a matrix is itself. -/
inductive AsMatrix : Nd → Mat F64 → Prop
  | d1 (xs : List F64) : AsMatrix (.d1 xs) ⟨xs.length, 1, xs⟩
  | d2 (M : Mat F64) : AsMatrix (.d2 M) M

/-- The call is about the `n × m` local cost matrix `L`: either `L` itself is the argument (a C-contiguous
float64 matrix), or two series of lengths `n` and `m` are and `L i j` is the distance of element `i` of the
query and element `j` of the reference. -/
inductive CallCost (a : Args) (n m : Nat) (L : Nat → Nat → F64) : Prop
  | matrix : a.y = none → a.x = .d2 (Mat.ofFn n m L) → a.layout = ⟨true, true⟩ → a.stackContig = true →
      CallCost a n m L
  | series (y : Nd) (X Y : Mat F64) : a.y = some y → AsMatrix a.x X → AsMatrix y Y → X.cols = Y.cols →
      X.rows = n → Y.rows = m → (∀ i < n, ∀ j < m, L i j = a.dist (X.row i) (Y.row j)) → CallCost a n m L

/-- The window argument of the call admits exactly the cells `W` of the `q × m` matrix: no window at all,
or a window function that returns `W i j` when called with these sizes. -/
def WindowIs (a : Args) (q m : Nat) (W : Nat → Nat → Bool) : Prop :=
  (canonWindow a.windowType = .noWindow ∧ ∀ i < q, ∀ j < m, W i j = true) ∨
  (canonWindow a.windowType ≠ .noWindow ∧ ∀ i < q, ∀ j < m,
    (canonWindow a.windowType).call a.windowArgs q m i j = .ok (W i j))

/-- Number of rows of the matrix on which the recursion runs: one more (the null row) with open_begin. -/
def gridRows (a : Args) (n : Nat) : Nat := if a.openBegin then n + 1 else n

/-- `a` is a call of `dtw` with local costs `L` (`n × m`, not empty), step pattern `p` consisting of the
sensible rules `rs`, and window `W` (in the coordinates of the matrix on which the recursion runs), that
fits the C `int` type. -/
structure Problem (a : Args) (n m : Nat) (L : Nat → Nat → F64) (W : Nat → Nat → Bool) (p : StepPattern)
    (rs : List Rule) : Prop where
  n_pos : 0 < n
  m_pos : 0 < m
  cost : CallCost a n m L
  pattern : canonPattern a.stepPattern = .ok p
  wf : WF p rs
  fits : Fits (gridRows a n) m rs
  window : WindowIs a (gridRows a n) m W

/-- The normalisation announced by the hint: by query length, by matched reference length, by their sum;
otherwise none. -/
def normBy (A : Arith) (hint : String) (n j : Nat) (v : F64) : F64 :=
  if hint = "N+M" then A.divQ v ((n : ℚ) + j + 1)
  else if hint = "N" then A.divQ v n
  else if hint = "M" then A.divQ v (1 + (j : ℚ))
  else v

/-- `k` is the first position below `m` at which `f` (NaNs ignored) is minimal. -/
structure FirstBest (m : Nat) (f : Nat → F64) (k : Nat) : Prop where
  lt : k < m
  num : f k ≠ nan
  min : ∀ j < m, f j ≠ nan → F64.le (f k) (f j)
  first : ∀ j < k, f j ≠ nan → F64.lt (f k) (f j) = true

/-- The alignment fields that describe the curve drawn from `(i,j)` by the rules `ks`. -/
def curve (rs : List Rule) (i j : Int) (ks : List Int) : Mapping where
  index1 := (fine rs i j ks).map Prod.fst
  index2 := (fine rs i j ks).map Prod.snd
  index1s := (coarse rs i j ks).map Prod.fst
  index2s := (coarse rs i j ks).map Prod.snd
  stepsTaken := ks

/-- Everything a result says about the alignment: all its fields except the recorded window function and
arguments and the recorded query and reference. -/
structure Core where
  N : Nat
  M : Nat
  stepPattern : StepPattern
  jmin : Int
  distance : F64
  normalizedDistance : F64
  mapping : Option Mapping
  costMatrix : Option (Mat F64)
  directionMatrix : Option (Mat Int)
  localCostMatrix : Option (Mat F64)
  deriving DecidableEq

/-- The alignment part of a result. -/
def Result.core (r : Result) : Core :=
  ⟨r.N, r.M, r.stepPattern, r.jmin, r.distance, r.normalizedDistance, r.mapping, r.costMatrix,
   r.directionMatrix, r.localCostMatrix⟩

/-- Two calls ask for the same kind of result. -/
structure SameOptions (a a' : Args) : Prop where
  openBegin : a.openBegin = a'.openBegin
  openEnd : a.openEnd = a'.openEnd
  distanceOnly : a.distanceOnly = a'.distanceOnly
  keepInternals : a.keepInternals = a'.keepInternals

/-! ### Warping functions -/

/-- The indices matched to `k`, in path order: those `is[t]` with `js[t] = k`. -/
def matchedTo (js is : List Int) (k : Int) : List Int := ((js.zip is).filter fun p => p.1 = k).map Prod.snd

/-- Arithmetic mean. -/
def mean (l : List Int) : ℚ := (l.sum : ℚ) / l.length

/-- `v` is the ordinate at abscissa `x` of the curve through the points `(xs[t], ys[t])`: at a matched
abscissa, the ordinate of its last (`lastTie`) or first match; between two consecutive points, that of the
straight segment joining them. -/
def CurveAt (lastTie : Bool) (xs ys : List Int) (x : Int) (v : ℚ) : Prop :=
  (∃ y : Int, (if lastTie then (matchedTo xs ys x).getLast? else (matchedTo xs ys x).head?) = some y ∧ v = y) ∨
  (∃ l1 p q l2, xs.zip ys = l1 ++ p :: q :: l2 ∧ p.1 < x ∧ x < q.1 ∧
    v = p.2 + ((x : ℚ) - p.1) * ((q.2 : ℚ) - p.2) / ((q.1 : ℚ) - p.1))

end DTW
