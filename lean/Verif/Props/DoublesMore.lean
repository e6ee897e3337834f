import Verif.Props.Doubles
import Verif.Props.Relational
import Verif.Props.Windows

/-!
# More about doubles: weights (C12, C14, C15)
-/

namespace DTW
open F64

variable {A : Arith} {a a' : Args} {n m : Nat} {W : Nat → Nat → Bool} {p : StepPattern} {rs : List Rule}
  {ℓ : Nat → Nat → ℚ}

/-! ### Weights -/

/-- C12, C14, C15 in IEEE doubles: non-negative weights up to `2^53` are non-negative weights in binary64, so the
theorems apply with the arithmetic the code actually uses. -/
theorem C12_weights_double (f : Bool) (h : ∀ r ∈ rs, ∀ t ∈ r.terms, 0 ≤ t.w ∧ t.w ≤ 2 ^ 53) :
    NonnegWeights (binary64 f) rs := by
  intro r hr t ht
  obtain ⟨h0, h1⟩ := h r hr t ht
  refine ⟨h0, fun hc => ?_⟩
  have h2 := (binary64 f).rnd_mono t.w (((2 ^ 53 : ℕ) : ℚ)) (by push_cast; exact h1)
  rw [C50_binary64_integers f (2 ^ 53) (_root_.le_refl _), hc] at h2
  simp [F64.lt] at h2

/-- Every bundled pattern but the private one with a reward, in binary64. -/
theorem C12_C14_C15_bundled_double (f : Bool) (q : String × StepPattern) (hq : q ∈ Pat.table)
    (hne : q.1 ≠ "_symmetricVelichkoZagoruyko") : NonnegWeights (binary64 f) (rulesOf q.2) := by
  apply C12_weights_double
  have hm := C49_bundled q hq hne
  intro r hr t ht
  rcases (hm r hr).2 t ht with h | ⟨h1, h2⟩
  · rw [h]; norm_num
  · exact ⟨by linarith, by linarith⟩

/-- So are those of the Rabiner-Juang family. -/
theorem C12_C14_C15_rabinerJuang_double (f : Bool) (t : Int) (s : String) (sm : Bool) (p : StepPattern)
    (hp : rabinerJuang t s sm = .ok p) (ht : 1 ≤ t ∧ t ≤ 7) (hs : s = "a" ∨ s = "b" ∨ s = "c" ∨ s = "d") :
    NonnegWeights (binary64 f) (rulesOf p) := by
  apply C12_weights_double
  have hm := C49_rabinerJuang t s sm p hp ht hs
  intro r hr t ht
  rcases (hm r hr).2 t ht with h | ⟨h1, h2⟩
  · rw [h]; norm_num
  · exact ⟨by linarith, by linarith⟩

/-- C15 in binary64: a series aligned with itself has distance exactly 0 (no rounding residue), for every bundled
pattern with a plain diagonal rule. -/
theorem C15_double (f : Bool) (q : String × StepPattern) (hq : q ∈ Pat.table)
    (hne : q.1 ≠ "_symmetricVelichkoZagoruyko")
    (h : Problem a n n (fun i j => fin (ℓ i j)) W q.2 (rulesOf q.2))
    (hob : a.openBegin = false) (hoe : a.openEnd = false)
    (hl : ∀ i < n, ∀ j < n, 0 ≤ ℓ i j) (hdiag : ∀ i < n, ℓ i i = 0) (hWd : ∀ i < n, W i i = true) :
    ∃ r, dtw (binary64 f) a = .ok r ∧ r.distance = fin 0 := by
  refine C15_self_alignment h hob hoe (C12_C14_C15_bundled_double f q hq hne) hl hdiag hWd ?_
  have key : (Pat.table.all fun q => decide (q.1 = "_symmetricVelichkoZagoruyko") ||
      (rulesOf q.2).any fun q => q.a == 1 && q.b == 1 &&
          (match q.terms with | [t] => t.di == 0 && t.dj == 0 | _ => false)) = true := by decide +kernel
  have hk := List.all_eq_true.1 key q hq
  simp only [hne, decide_false, Bool.false_or, List.any_eq_true] at hk
  obtain ⟨x, hx, hx'⟩ := hk
  simp only [Bool.and_eq_true, beq_iff_eq] at hx'
  refine ⟨x, hx, hx'.1.1, hx'.1.2, ?_⟩
  have h3 := hx'.2
  match ht : x.terms with
  | [] => rw [ht] at h3; simp at h3
  | [t] =>
    rw [ht] at h3
    simp only [Bool.and_eq_true, beq_iff_eq] at h3
    refine ⟨t.w, ?_⟩
    obtain ⟨di, dj, w⟩ := t
    simp only at h3 ⊢
    rw [h3.1, h3.2]
  | _ :: _ :: _ => rw [ht] at h3; simp at h3

/-! ### C49: infinities and NaN -/

/-- The sign of a double that is not NaN: -1, 0 or 1. -/
def signOf : F64 → ℤ
  | nan => 0
  | ninf => -1
  | fin q => if q < 0 then -1 else if q = 0 then 0 else 1
  | pinf => 1

/-- Is it `inf` or `-inf`? -/
def isInf (a : F64) : Prop := a = pinf ∨ a = ninf

/-- C49, special values of the addition (IEEE-754 §6.1, §7.2), in every rounding: NaN comes from a NaN operand or from
adding opposite infinities, and from nothing else; otherwise an infinite operand is the result; finite operands are added
exactly and rounded once. -/
theorem C49_ieee_add (A : Arith) (a b : F64) :
    (A.add a b = nan ↔ a = nan ∨ b = nan ∨ (isInf a ∧ b = a.neg)) ∧
    (isInf a → b ≠ nan → b ≠ a.neg → A.add a b = a) ∧ (isInf b → a ≠ nan → b ≠ a.neg → A.add a b = b) ∧
    (∀ p q, a = fin p → b = fin q → A.add a b = A.rnd (p + q)) := by
  refine ⟨?_, ?_, ?_, ?_⟩
  · cases a <;> cases b <;> simp [Arith.add, isInf, F64.neg, A.rnd_ne_nan]
  · cases a <;> cases b <;> simp [Arith.add, isInf, F64.neg]
  · cases a <;> cases b <;> simp [Arith.add, isInf, F64.neg]
  · rintro p q rfl rfl; rfl

/-- C49, special values of the multiplication: NaN comes from a NaN operand or from 0 times an infinity, and from nothing
else; otherwise an infinite factor makes an infinity of the product's sign; finite factors are multiplied exactly and
rounded once. -/
theorem C49_ieee_mul (A : Arith) (a b : F64) :
    (A.mul a b = nan ↔ a = nan ∨ b = nan ∨ (isInf a ∧ b = fin 0) ∨ (isInf b ∧ a = fin 0)) ∧
    (isInf a ∨ isInf b → A.mul a b ≠ nan →
      isInf (A.mul a b) ∧ signOf (A.mul a b) = signOf a * signOf b) ∧
    (∀ p q, a = fin p → b = fin q → A.mul a b = A.rnd (p * q)) := by
  have key : ∀ q : ℚ, q = 0 ∧ infTimes q = nan ∨ 0 < q ∧ ¬ q < 0 ∧ q ≠ 0 ∧ infTimes q = pinf ∨ q < 0 ∧ q ≠ 0 ∧ infTimes q = ninf := by
    intro q
    unfold infTimes
    rcases lt_trichotomy q 0 with h | h | h
    · exact .inr (.inr ⟨h, h.ne, by rw [if_neg h.ne, if_neg (asymm h)]⟩)
    · exact .inl ⟨h, by rw [if_pos h]⟩
    · exact .inr (.inl ⟨h, asymm h, h.ne', by rw [if_neg h.ne', if_pos h]⟩)
  refine ⟨?_, ?_, ?_⟩
  · cases a with
    | fin p =>
      have k1 := key p; have k2 := key (-p)
      cases b <;> simp [Arith.mul, Arith.mulWith, isInf, A.rnd_ne_nan] <;>
        rcases k1 with h | h | h <;> rcases k2 with g | g | g <;> simp_all
    | _ =>
      cases b with
      | fin q =>
        have k1 := key q; have k2 := key (-q)
        simp [Arith.mul, Arith.mulWith, isInf] <;>
          rcases k1 with h | h | h <;> rcases k2 with g | g | g <;> simp_all
      | _ => simp [Arith.mul, Arith.mulWith, isInf]
  · cases a with
    | fin p =>
      have k1 := key p; have k2 := key (-p)
      cases b <;> simp [Arith.mul, Arith.mulWith, isInf, A.rnd_ne_nan, signOf] <;>
        rcases k1 with h | h | h <;> rcases k2 with g | g | g <;> simp_all <;> linarith [h.1, g.1]
    | _ =>
      cases b with
      | fin q =>
        have k1 := key q; have k2 := key (-q)
        simp [Arith.mul, Arith.mulWith, isInf, signOf] <;>
          rcases k1 with h | h | h <;> rcases k2 with g | g | g <;> simp_all <;> linarith [h.1, g.1]
      | _ => simp [Arith.mul, Arith.mulWith, isInf, signOf]
  · rintro p q rfl rfl; rfl

/-- C49, special values of the division by a finite number (the normalisation): NaN comes from NaN or 0/0; an infinity
stays infinite, and so is a non-zero number over 0; otherwise the exact quotient is rounded once. -/
theorem C49_ieee_div (A : Arith) (a : F64) (q : ℚ) :
    (A.divQ a q = nan ↔ a = nan ∨ (a = fin 0 ∧ q = 0)) ∧
    (isInf a → isInf (A.divQ a q)) ∧ (∀ p, a = fin p → p ≠ 0 → q = 0 → isInf (A.divQ a q)) ∧
    (0 ≤ q → isInf (A.divQ a q) → isInf a ∨ q = 0 → signOf (A.divQ a q) = signOf a) ∧
    (∀ p, a = fin p → q ≠ 0 → A.divQ a q = A.rnd (p / q)) := by
  refine ⟨?_, ?_, ?_, ?_, ?_⟩
  · cases a <;> simp only [Arith.divQ] <;> (try split_ifs) <;> simp_all [A.rnd_ne_nan]
  · cases a <;> simp only [Arith.divQ, isInf] <;> (try split_ifs) <;> simp_all
  · rintro p rfl hp rfl
    simp only [Arith.divQ, isInf, if_true, hp, if_false]
    split_ifs <;> simp
  · intro hq
    cases a with
    | fin p =>
      simp only [Arith.divQ, isInf, signOf]
      rcases lt_trichotomy p 0 with h | h | h <;> split_ifs <;> simp_all <;> linarith
    | _ => simp [Arith.divQ, isInf, signOf, not_lt.2 hq]
  · rintro p rfl hq
    simp [Arith.divQ, hq]

/-- Non-vacuity: the three NaN-producing operations, and one of each that is not. -/
example : Arith.exact.add pinf ninf = nan ∧ Arith.exact.add pinf (fin (-3)) = pinf ∧
    Arith.exact.mul (fin 0) pinf = nan ∧ Arith.exact.mul (fin (-2)) pinf = ninf ∧
    Arith.exact.divQ (fin 0) 0 = nan ∧ Arith.exact.divQ (fin (-1)) 0 = ninf := by decide +kernel

end DTW
