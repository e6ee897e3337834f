import Verif.Proofs.OnePer
import Mathlib.Tactic.Positivity
import Mathlib.Tactic.FieldSimp
import Mathlib.Algebra.Order.Floor.Ring
import Mathlib.Data.Rat.Floor

/-!
# Reachability of cells inside a window
-/

namespace DTW
open F64

variable {rs : List Rule} {W : Nat → Nat → Bool} {n m : Nat}

/-- Some rule moves by `(a,b)`. -/
def HasMove (rs : List Rule) (a b : Nat) : Prop := ∃ r ∈ rs, r.a = a ∧ r.b = b

instance (rs : List Rule) (a b : Nat) : Decidable (HasMove rs a b) := by unfold HasMove; infer_instance

/-- `(i,j)` is reachable from `(0,0)`. -/
def Reach (rs : List Rule) (W : Nat → Nat → Bool) (i j : Nat) : Prop := ∃ ks, RulePath rs W ks i j

theorem Reach.start : Reach rs W 0 0 := ⟨[], .start⟩

theorem Reach.step {i j a b : Nat} (h : Reach rs W i j) (hm : HasMove rs a b) (hW : W (i + a) (j + b) = true) :
    Reach rs W (i + a) (j + b) := by
  obtain ⟨ks, hp⟩ := h
  obtain ⟨r, hr, rfl, rfl⟩ := hm
  obtain ⟨k, hk, rfl⟩ := List.getElem_of_mem hr
  exact ⟨_, .step k rs[k] hp (List.getElem?_eq_getElem hk) hW⟩

/-- Repeating a move. -/
theorem Reach.repeat {i j a b : Nat} (h : Reach rs W i j) (hm : HasMove rs a b) (t : Nat)
    (hW : ∀ s, 0 < s → s ≤ t → W (i + s * a) (j + s * b) = true) : Reach rs W (i + t * a) (j + t * b) := by
  induction t with
  | zero => simpa using h
  | succ t ih =>
    have h' := ih fun s h0 h1 => hW s h0 (by omega)
    have e1 : i + (t + 1) * a = i + t * a + a := by ring
    have e2 : j + (t + 1) * b = j + t * b + b := by ring
    have hw := hW (t + 1) (by omega) (Nat.le_refl _)
    rw [e1, e2] at hw ⊢
    exact h'.step hm hw

/-- The last move of a path other than the empty one arrives inside the window. -/
theorem Reach.window {i j : Nat} (h : Reach rs W i j) (h0 : ¬ (i = 0 ∧ j = 0)) : W i j = true := by
  obtain ⟨ks, hp⟩ := h
  cases hp with
  | start => exact absurd ⟨rfl, rfl⟩ h0
  | step k r _ _ hw => exact hw

/-- From a cell satisfying an invariant `P`, one can make progress towards `(n-1,m-1)` within `P`. -/
theorem Reach.progress {P : Nat → Nat → Prop} (hW : ∀ i j, i < n → j < m → P i j → W i j = true)
    (hstep : ∀ i j, i < n → j < m → P i j → ¬ (i = n - 1 ∧ j = m - 1) →
      ∃ a b, HasMove rs a b ∧ 0 < a + b ∧ i + a < n ∧ j + b < m ∧ P (i + a) (j + b)) :
    ∀ N i j, n + m - (i + j) = N → i < n → j < m → P i j → Reach rs W i j → Reach rs W (n - 1) (m - 1) := by
  intro N
  induction N using Nat.strong_induction_on with
  | _ N ih =>
    intro i j hN hi hj hP hr
    by_cases hend : i = n - 1 ∧ j = m - 1
    · rw [← hend.1, ← hend.2]; exact hr
    · obtain ⟨a, b, hm, hpos, hi', hj', hP'⟩ := hstep i j hi hj hP hend
      exact ih (n + m - (i + a + (j + b))) (by omega) (i + a) (j + b) rfl hi' hj' hP'
        (hr.step hm (hW _ _ hi' hj' hP'))

end DTW
