import Verif.Spec

/-!
# Specification: rounding errors

What it means that an arithmetic is accurate on a range, and how many floating-point charges a path makes.
-/

namespace DTW
open F64

/-- Between `lo` and `hi` rounding changes a number by a factor between `1 - u` and `1 + u`, and does not bring it below
`lo`.  (For doubles: `u = 2^-53`, `lo = 2^-1022`, `hi = 2^1023`.) -/
structure RelErr (A : Arith) (u lo hi : ℚ) : Prop where
  u_nonneg : 0 ≤ u
  u_le : u ≤ 1
  lo_pos : 0 < lo
  err : ∀ q, lo ≤ q → q ≤ hi → ∃ v, A.rnd q = fin v ∧ (1 - u) * q ≤ v ∧ v ≤ (1 + u) * q ∧ lo ≤ v

/-- The number of local costs charged by rule number `k` (1-based). -/
def termCount (rs : List Rule) (k : Int) : Nat :=
  match rs[(k - 1).toNat]? with
  | some r => r.terms.length
  | none => 0

/-- The number of local costs that a path charges (besides that of its starting cell). -/
def charges (rs : List Rule) (ks : List Int) : Nat := (ks.map (termCount rs)).sum

/-- The local costs and weights stay clear of underflow: every product of a weight and a local cost is zero or
comfortably above `lo`, and at most `P`. -/
structure Tame (u lo hi P : ℚ) (rs : List Rule) (n m : Nat) (ℓ : Nat → Nat → ℚ) : Prop where
  cost : ∀ i < n, ∀ j < m, ℓ i j = 0 ∨ lo ≤ ℓ i j
  cost_le : ∀ i < n, ∀ j < m, ℓ i j ≤ P
  weight : ∀ r ∈ rs, ∀ t ∈ r.terms, t.w = 0 ∨ (lo ≤ t.w ∧ t.w ≤ hi)
  product : ∀ r ∈ rs, ∀ t ∈ r.terms, ∀ i < n, ∀ j < m,
    t.w * ℓ i j = 0 ∨ (lo ≤ (1 - u) * (t.w * ℓ i j) ∧ t.w * ℓ i j ≤ P)

end DTW
