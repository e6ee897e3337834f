import Mathlib.Data.List.Perm.Basic
import Mathlib.Data.List.Forall2
import Mathlib.Algebra.BigOperators.Group.List.Basic
import Verif.NpSum
import Verif.Spec

/-!
# numpy.sum adds every element exactly once, in some order
-/

namespace DTW
open F64

variable {A : Arith}

/-- `v` is obtained by adding up the elements of `l`, each once, in some order and grouping. -/
inductive SumOf (A : Arith) : List F64 → F64 → Prop
  | zero : SumOf A [] (fin 0)
  | one (x : F64) : SumOf A [x] x
  | add {l l1 l2 : List F64} {v1 v2 : F64} : SumOf A l1 v1 → SumOf A l2 v2 → l.Perm (l1 ++ l2) →
      SumOf A l (A.add v1 v2)

theorem SumOf.perm {l l' : List F64} {v : F64} (h : SumOf A l v) (hp : l'.Perm l) : SumOf A l' v := by
  cases h with
  | zero => rw [List.perm_nil.1 hp]; exact .zero
  | one => rw [List.perm_singleton.1 hp]; exact .one v
  | add h1 h2 h3 => exact .add h1 h2 (hp.trans h3)

theorem SumOf.foldl {l' : List F64} {v : F64} (h : SumOf A l' v) (l : List F64) :
    SumOf A (l' ++ l) (l.foldl A.add v) := by
  induction l generalizing l' v with
  | nil => simpa using h
  | cons x l ih =>
    have := ih (SumOf.add h (.one x) (List.Perm.refl _))
    simpa using this

theorem zipWith_flatten_perm (ps : List (List F64)) (l : List F64) (h : ps.length = l.length) :
    (ps.zipWith (fun p x => p ++ [x]) l).flatten.Perm (ps.flatten ++ l) := by
  induction ps generalizing l with
  | nil => cases l with
    | nil => simp
    | cons => simp at h
  | cons p ps ih =>
    cases l with
    | nil => simp at h
    | cons x l =>
      simp only [List.zipWith_cons_cons, List.flatten_cons]
      refine ((ih l (by simpa using h)).append_left (p ++ [x])).trans ?_
      simp only [List.append_assoc]
      refine List.Perm.append_left p ?_
      refine (List.perm_middle (a := x) (l₁ := ps.flatten) (l₂ := l)).symm.trans ?_ |>.trans (List.Perm.refl _)
      simp

theorem lanes_step {ps : List (List F64)} {r l : List F64} (h : List.Forall₂ (SumOf A) ps r)
    (hl : ps.length = l.length) :
    List.Forall₂ (SumOf A) (ps.zipWith (fun p x => p ++ [x]) l) (r.zipWith A.add l) := by
  induction h generalizing l with
  | nil => simp
  | cons h1 _ ih =>
    cases l with
    | nil => simp at hl
    | cons x l =>
      simp only [List.zipWith_cons_cons]
      exact .cons (.add h1 (.one x) (List.Perm.refl _)) (ih (by simpa using hl))

theorem sumLanes_spec (fuel : Nat) {ps : List (List F64)} {r l : List F64} (h : List.Forall₂ (SumOf A) ps r)
    (h8 : ps.length = 8) :
    ∃ ps', List.Forall₂ (SumOf A) ps' (sumLanes A fuel r l).1 ∧ ps'.length = 8 ∧
      (ps'.flatten ++ (sumLanes A fuel r l).2).Perm (ps.flatten ++ l) := by
  induction fuel generalizing ps r l with
  | zero => exact ⟨ps, h, h8, List.Perm.refl _⟩
  | succ fuel ih =>
    unfold sumLanes
    split
    · exact ⟨ps, h, h8, List.Perm.refl _⟩
    · rename_i hl
      have ht : ps.length = (l.take 8).length := by rw [h8, List.length_take]; omega
      obtain ⟨ps', h1, h2, h3⟩ := ih (l := l.drop 8) (lanes_step h ht) (by
        rw [List.length_zipWith, ← ht, h8]; rfl)
      refine ⟨ps', h1, h2, h3.trans ?_⟩
      refine ((zipWith_flatten_perm ps (l.take 8) ht).append_right _).trans ?_
      rw [List.append_assoc, List.take_append_drop]

theorem sumEight_spec {ps : List (List F64)} {r : List F64} (h : List.Forall₂ (SumOf A) ps r) (h8 : ps.length = 8) :
    SumOf A ps.flatten (sumEight A r) := by
  match ps, h8 with
  | [p0, p1, p2, p3, p4, p5, p6, p7], _ =>
    cases h with | cons a0 h =>
    cases h with | cons a1 h =>
    cases h with | cons a2 h =>
    cases h with | cons a3 h =>
    cases h with | cons a4 h =>
    cases h with | cons a5 h =>
    cases h with | cons a6 h =>
    cases h with | cons a7 h =>
    cases h
    refine SumOf.add (.add (.add a0 a1 (.refl _)) (.add a2 a3 (.refl _)) (.refl _))
      (.add (.add a4 a5 (.refl _)) (.add a6 a7 (.refl _)) (.refl _)) ?_
    simp

theorem sumBlock_spec {l : List F64} (h8 : 8 ≤ l.length) : SumOf A l (sumBlock A l) := by
  have h0 : List.Forall₂ (SumOf A) ((l.take 8).map fun x => [x]) (l.take 8) := by
    generalize l.take 8 = z
    induction z with
    | nil => simp
    | cons x z ih => exact .cons (.one x) ih
  obtain ⟨ps, h1, h2, h3⟩ := sumLanes_spec (A := A) l.length (l := l.drop 8) h0 (by simp; omega)
  unfold sumBlock
  refine ((sumEight_spec h1 h2).foldl _).perm ?_
  refine (h3.trans ?_).symm
  have : ((l.take 8).map fun x => [x]).flatten = l.take 8 := by
    generalize l.take 8 = z
    induction z with
    | nil => rfl
    | cons x z ih => simp [ih]
  rw [this, List.take_append_drop]

theorem pairwiseSum_spec (fuel : Nat) (l : List F64) : SumOf A l (pairwiseSum A fuel l) := by
  induction fuel generalizing l with
  | zero => unfold pairwiseSum; simpa using (SumOf.zero (A := A)).foldl l
  | succ fuel ih =>
    unfold pairwiseSum
    split
    · simpa using (SumOf.zero (A := A)).foldl l
    · split
      · exact sumBlock_spec (by omega)
      · refine .add (ih _) (ih _) ?_
        rw [List.take_append_drop]

/-- `numpy.sum` adds every element exactly once. -/
theorem npSum_spec (l : List F64) : SumOf A l (npSum A l) :=
  .add .zero (pairwiseSum_spec _ l) (by simp)

/-- Values closed under addition. -/
theorem SumOf.invariant {P : F64 → Prop} {l : List F64} {v : F64} (h : SumOf A l v) (h0 : P (fin 0))
    (ha : ∀ x y, P x → P y → P (A.add x y)) (hl : ∀ x ∈ l, P x) : P v := by
  induction h with
  | zero => exact h0
  | one x => exact hl x (by simp)
  | add _ _ hp ih1 ih2 =>
    exact ha _ _ (ih1 fun x hx => hl x (hp.mem_iff.2 (by simp [hx]))) (ih2 fun x hx => hl x (hp.mem_iff.2 (by simp [hx])))

theorem map_of_forall {α : Type} (g : α → F64) (l : List F64) (h : ∀ x ∈ l, ∃ u, x = g u) :
    ∃ z : List α, l = z.map g := by
  induction l with
  | nil => exact ⟨[], rfl⟩
  | cons x l ih =>
    obtain ⟨u, rfl⟩ := h x (by simp)
    obtain ⟨z, rfl⟩ := ih fun y hy => h y (by simp [hy])
    exact ⟨u :: z, rfl⟩

/-- If every sum of some of the elements is representable, the order does not matter. -/
theorem SumOf.value {α : Type} [AddCommMonoid α] {g : α → F64} {Q : α → Prop} (hinj : Function.Injective g)
    (h0 : fin 0 = g 0) (hadd : ∀ u v, Q (u + v) → A.add (g u) (g v) = g (u + v))
    (hQ : ∀ u v, Q (u + v) → Q u ∧ Q v) {l : List F64} {v : F64} (h : SumOf A l v) :
    ∀ z : List α, l = z.map g → Q z.sum → v = g z.sum := by
  induction h with
  | zero => intro z hz _; rw [List.map_eq_nil_iff.1 hz.symm]; simpa using h0
  | one x =>
    intro z hz _
    match z, hz with
    | [u], hz => simp only [List.map_cons, List.map_nil, List.cons.injEq, and_true] at hz; simp [hz]
  | @add l l1 l2 v1 v2 _ _ hp ih1 ih2 =>
    intro z hz hq
    have hall : ∀ x ∈ l, ∃ u, x = g u := by
      intro x hx; rw [hz] at hx
      obtain ⟨u, _, rfl⟩ := List.mem_map.1 hx
      exact ⟨u, rfl⟩
    obtain ⟨z1, hz1⟩ := map_of_forall g l1 fun x hx => hall x (hp.mem_iff.2 (by simp [hx]))
    obtain ⟨z2, hz2⟩ := map_of_forall g l2 fun x hx => hall x (hp.mem_iff.2 (by simp [hx]))
    rw [hz, hz1, hz2, ← List.map_append] at hp
    have hs := ((List.map_perm_map_iff hinj).1 hp).sum_eq
    rw [List.sum_append] at hs
    rw [hs] at hq ⊢
    obtain ⟨q1, q2⟩ := hQ _ _ hq
    rw [ih1 z1 hz1 q1, ih2 z2 hz2 q2, hadd _ _ hq]

/-- In exact arithmetic the order does not matter. -/
theorem npSum_exact (z : List ℚ) : npSum Arith.exact (z.map fin) = fin z.sum :=
  SumOf.value (Q := fun _ => True) (fun _ _ h => F64.fin.inj h) rfl (fun _ _ _ => rfl) (fun _ _ _ => ⟨trivial, trivial⟩)
    (npSum_spec _) z rfl trivial

/-- Nor for natural numbers whose total is exactly representable, with everything below it. -/
theorem npSum_nat {B : Nat} (hA : ExactUpTo A B) (z : List Nat) (hz : z.sum ≤ B) :
    npSum A (z.map fun k : Nat => fin (k : ℚ)) = fin ((z.sum : Nat) : ℚ) :=
  SumOf.value (Q := fun k => k ≤ B) (g := fun k : Nat => fin (k : ℚ))
    (fun a b h => by have := F64.fin.inj h; exact_mod_cast this) (by simp)
    (fun u v h => by
      show A.rnd ((u : ℚ) + v) = _
      rw [← Nat.cast_add]; exact hA _ h)
    (fun u v h => ⟨by omega, by omega⟩) (npSum_spec _) z rfl hz

end DTW
