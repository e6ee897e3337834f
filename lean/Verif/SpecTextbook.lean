import Mathlib.Order.Bounds.Basic
import Verif.Num

/-!
# Textbook definitions of dynamic time warping

Nothing here refers to step-pattern tables, rule numbers, cost matrices or the algorithm.
-/

namespace DTW

/-- An elementary move of a warping curve: advance in both series, in the reference only, in the query only. -/
inductive Move where
  | both
  | ref
  | query
  deriving DecidableEq, Repr

/-- How far a move advances in the query and in the reference. -/
def Move.delta : Move → Nat × Nat
  | .both => (1, 1)
  | .ref => (0, 1)
  | .query => (1, 0)

/-- The point reached from `u` by a move. -/
def Move.go (x : Move) (u : Nat × Nat) : Nat × Nat := (u.1 + x.delta.1, u.2 + x.delta.2)

/-- The points visited from `u` by a sequence of moves, `u` included. -/
def visited (u : Nat × Nat) : List Move → List (Nat × Nat)
  | [] => [u]
  | x :: w => u :: visited (x.go u) w

/-- The point at which a sequence of moves ends. -/
def endOf (u : Nat × Nat) : List Move → Nat × Nat
  | [] => u
  | x :: w => endOf (x.go u) w

/-- A warping curve from `(0,0)` to `(i,j)` all of whose points but the first are inside the window. -/
def IsCurve (W : Nat → Nat → Bool) (w : List Move) (i j : Nat) : Prop :=
  endOf (0, 0) w = (i, j) ∧ ∀ u ∈ (visited (0, 0) w).tail, W u.1 u.2 = true

/-- Sum over the moves of (weight of the move) × (local cost of the point reached). -/
def moveCost (wt : Move → ℚ) (ℓ : Nat → Nat → ℚ) (u : Nat × Nat) : List Move → ℚ
  | [] => 0
  | x :: w => wt x * ℓ (x.go u).1 (x.go u).2 + moveCost wt ℓ (x.go u) w

/-- White-Neely: the sum of the local costs of all the visited points. -/
def plainCost (ℓ : Nat → Nat → ℚ) (w : List Move) : ℚ := ((visited (0, 0) w).map fun u => ℓ u.1 u.2).sum

/-- Sakoe-Chiba, symmetric form: the local cost of the first point, plus that of every further point multiplied by the
number of elements (of either series) the move to it consumes. -/
def symmetricCost (ℓ : Nat → Nat → ℚ) (w : List Move) : ℚ :=
  ℓ 0 0 + moveCost (fun x => ((x.delta.1 + x.delta.2 : Nat) : ℚ)) ℓ (0, 0) w

/-- Sakoe-Chiba, asymmetric form: as above, counting the query elements consumed only. -/
def asymmetricCost (ℓ : Nat → Nat → ℚ) (w : List Move) : ℚ :=
  ℓ 0 0 + moveCost (fun x => ((x.delta.1 : Nat) : ℚ)) ℓ (0, 0) w

/-- Sakoe-Chiba slope constraint, P = 1: a move along one axis must directly follow a diagonal one. -/
def SlopeP1 (w : List Move) : Prop :=
  ∀ (k : Nat) (x : Move), w[k]? = some x → x ≠ .both → ∃ k', k = k' + 1 ∧ w[k']? = some .both

/-- Sakoe-Chiba slope constraint, P = 1/2: at most two moves along the same axis in a row, directly following a
diagonal one. -/
def SlopeP05 (w : List Move) : Prop :=
  ∀ (k : Nat) (x : Move), w[k]? = some x → x ≠ .both →
    (∃ k', k = k' + 1 ∧ w[k']? = some .both) ∨
    (∃ k', k = k' + 2 ∧ w[k']? = some .both ∧ w[k' + 1]? = some x)

/-- Sakoe-Chiba slope constraint, P = 2: a move along one axis must directly follow two diagonal ones. -/
def SlopeP2 (w : List Move) : Prop :=
  ∀ (k : Nat) (x : Move), w[k]? = some x → x ≠ .both →
    ∃ k', k = k' + 2 ∧ w[k']? = some .both ∧ w[k' + 1]? = some .both

/-- A warping function: query element `i` is matched to reference element `f i`; the first elements are matched, the
last one is matched to `j`, the jumps satisfy `jump`, and matches but the first are inside the window. -/
structure IsWarpFn (jump : Nat → Nat → Prop) (W : Nat → Nat → Bool) (n j : Nat) (f : Nat → Nat) : Prop where
  first : f 0 = 0
  last : f (n - 1) = j
  jumps : ∀ i, i + 1 < n → jump (f i) (f (i + 1))
  window : ∀ i, i + 1 < n → W (i + 1) (f (i + 1)) = true

/-- Sum of the local costs of the matched pairs. -/
def fnCost (ℓ : Nat → Nat → ℚ) (n : Nat) (f : Nat → Nat) : ℚ := ((List.range n).map fun i => ℓ i (f i)).sum

/-! ### Productions

The general textbook form (Sakoe-Chiba 1978, Myers-Rabiner 1980, Rabiner-Juang 1993): a warping path is a sequence of
*productions*, each a short walk of elementary steps `(Di, Dj)`; every point walked through is charged with a weight. -/

/-- A production: the successive displacements (query, reference) of a short walk. -/
abbrev Production := List (Nat × Nat)

/-- The point where a production started at `u` ends. -/
def prodEnd (u : Nat × Nat) : Production → Nat × Nat
  | [] => u
  | d :: b => prodEnd (u.1 + d.1, u.2 + d.2) b

/-- Weight × local cost, summed over the points a production started at `u` walks through (`u` itself excluded). -/
def prodCost (ℓ : Nat → Nat → ℚ) (u : Nat × Nat) : Production → List ℚ → ℚ
  | d :: b, w :: ws => w * ℓ (u.1 + d.1) (u.2 + d.2) + prodCost ℓ (u.1 + d.1, u.2 + d.2) b ws
  | _, _ => 0

/-- The corner points of a sequence of productions: where each of them ends. -/
def corners (u : Nat × Nat) : List Production → List (Nat × Nat)
  | [] => []
  | b :: w => prodEnd u b :: corners (prodEnd u b) w

/-- Where a sequence of productions ends. -/
def prodsEnd (u : Nat × Nat) : List Production → Nat × Nat
  | [] => u
  | b :: w => prodsEnd (prodEnd u b) w

/-- Total cost of a sequence of productions whose steps are weighted by `wts`. -/
def prodsCost (wts : Production → List ℚ) (ℓ : Nat → Nat → ℚ) (u : Nat × Nat) : List Production → ℚ
  | [] => 0
  | b :: w => prodCost ℓ u b (wts b) + prodsCost wts ℓ (prodEnd u b) w

/-- A path from `(0,0)` to `(i,j)` by productions of the family `fam`, whose corner points are inside the window. -/
structure IsProdPath (fam : List Production) (W : Nat → Nat → Bool) (i j : Nat) (w : List Production) : Prop where
  prods : ∀ b ∈ w, b ∈ fam
  window : ∀ u ∈ corners (0, 0) w, W u.1 u.2 = true
  ends : prodsEnd (0, 0) w = (i, j)

/-- The four slope weightings: (a) the smaller of the two displacements, (b) the larger, (c) the query displacement,
(d) their sum. -/
inductive Weighting where
  | minStep
  | maxStep
  | queryStep
  | bothSteps
  deriving DecidableEq, Repr

/-- Weight of one elementary step. -/
def Weighting.wt : Weighting → Nat × Nat → ℚ
  | .minStep, d => ((min d.1 d.2 : Nat) : ℚ)
  | .maxStep, d => ((max d.1 d.2 : Nat) : ℚ)
  | .queryStep, d => ((d.1 : Nat) : ℚ)
  | .bothSteps, d => ((d.1 + d.2 : Nat) : ℚ)

/-- The weights of the steps of a production; smoothing replaces them by their mean. -/
def stepWeights (s : Weighting) (smoothed : Bool) (b : Production) : List ℚ :=
  let w := b.map s.wt
  if smoothed then w.map fun _ => w.sum / w.length else w

/-- The seven families of Rabiner and Juang's table 4.5. -/
def family : Nat → List Production
  | 1 => [[(1, 0)], [(1, 1)], [(0, 1)]]
  | 2 => [[(1, 1), (1, 0)], [(1, 1)], [(1, 1), (0, 1)]]
  | 3 => [[(2, 1)], [(1, 1)], [(1, 2)]]
  | 4 => [[(1, 1), (1, 0)], [(1, 2), (1, 0)], [(1, 1)], [(1, 2)]]
  | 5 => [[(1, 1), (1, 0), (1, 0)], [(1, 1), (1, 0)], [(1, 1)], [(1, 1), (0, 1)], [(1, 1), (0, 1), (0, 1)]]
  | 6 => [[(1, 1), (1, 1), (1, 0)], [(1, 1)], [(1, 1), (1, 1), (0, 1)]]
  | 7 => [[(1, 1), (1, 0), (1, 0)], [(1, 2), (1, 0), (1, 0)], [(1, 3), (1, 0), (1, 0)], [(1, 1), (1, 0)],
      [(1, 2), (1, 0)], [(1, 3), (1, 0)], [(1, 1)], [(1, 2)], [(1, 3)]]
  | _ => []

/-- The named patterns as (name, family, slope weighting, smoothed). -/
def textbook : List (String × List Production × Weighting × Bool) := [
  ("symmetric1", family 1, .maxStep, false),
  ("symmetric2", family 1, .bothSteps, false),
  ("symmetricP0", family 1, .bothSteps, false),
  ("asymmetricP0", family 1, .queryStep, false),
  ("symmetricP05", family 5, .bothSteps, false),
  ("asymmetricP05", family 5, .queryStep, true),
  ("symmetricP1", family 2, .bothSteps, false),
  ("asymmetricP1", family 2, .queryStep, true),
  ("symmetricP2", family 6, .bothSteps, false),
  ("asymmetricP2", family 6, .queryStep, true),
  ("typeIa", family 2, .minStep, false),
  ("typeIb", family 2, .maxStep, false),
  ("typeIc", family 2, .queryStep, false),
  ("typeId", family 2, .bothSteps, false),
  ("typeIas", family 2, .minStep, true),
  ("typeIbs", family 2, .maxStep, true),
  ("typeIcs", family 2, .queryStep, true),
  ("typeIds", family 2, .bothSteps, true),
  ("typeIIa", family 3, .minStep, false),
  ("typeIIb", family 3, .maxStep, false),
  ("typeIIc", family 3, .queryStep, false),
  ("typeIId", family 3, .bothSteps, false),
  ("typeIIIc", family 4, .queryStep, false),
  ("typeIVc", family 7, .queryStep, false),
  ("_asymmetricItakura", family 4, .queryStep, false),
  ("asymmetric", [[(1, 0)], [(1, 1)], [(1, 2)]], .queryStep, false),
  ("rigid", [[(1, 1)]], .queryStep, false)]

/-- Mori's weights: three per reference element, those of a query-consuming production split 2 + 1. -/
def moriWeights (b : Production) : List ℚ :=
  if b = [(1, 1), (1, 0)] then [2, 1] else b.map fun _ => 3

end DTW
