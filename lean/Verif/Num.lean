import Mathlib.Algebra.Order.Ring.Rat
import Mathlib.Algebra.Order.Field.Basic
import Mathlib.Tactic.Linarith
import Mathlib.Tactic.Ring
import Mathlib.Tactic.NormNum

/-!
# Doubles

Model of the C `double` / numpy `float64` values used all over the package.

* every finite double is a rational number, so the finite values are `ℚ`;
* `+inf`, `-inf` and NaN are explicit;
* SIMPLIFICATION: `-0.0` and `0.0` are identified, and so are all NaN payloads;
* arithmetic is exact rational arithmetic followed by a rounding function `Arith.rnd`, which is a
  *parameter*: any monotone function (all IEEE rounding modes are; overflow to ±inf included).
  A compiler may contract `clist[p] += cc*lm[..]` (dtw_core.c:179) to a fused multiply-add; the flag
  `Arith.fused` covers both compilations.
-/

namespace DTW

/-- A double: NaN, -inf, a finite rational, +inf. -/
inductive F64 where
  | nan
  | ninf
  | fin (q : ℚ)
  | pinf
  deriving DecidableEq, Repr, Inhabited

namespace F64

/-- C `a < b` on doubles (used by dtw_core.c:77); false as soon as one side is NaN. -/
def lt : F64 → F64 → Bool
  | nan, _ => false
  | _, nan => false
  | _, ninf => false
  | ninf, _ => true
  | pinf, _ => false
  | _, pinf => true
  | fin a, fin b => decide (a < b)

/-- C `isnan` / `numpy.isnan` (dtw_core.c:165, dtw.py:456). -/
def isNan : F64 → Bool
  | nan => true
  | _ => false

/-- `numpy.isfinite` (countPaths.py:83). -/
def isFinite : F64 → Bool
  | fin _ => true
  | _ => false

/-- Specification order: `le a b` says both are numbers (not NaN) and `a ≤ b`. -/
def le (a b : F64) : Prop := a ≠ nan ∧ b ≠ nan ∧ lt b a = false

/-- "usable" costs: a number strictly below +inf.  These are the only values `argmin`
(dtw_core.c:68-83) can select, because its running minimum starts at `INFINITY`. -/
def usable (a : F64) : Prop := lt a pinf = true

instance (a : F64) : Decidable (usable a) := inferInstanceAs (Decidable (_ = _))
instance (a b : F64) : Decidable (le a b) := inferInstanceAs (Decidable (_ ∧ _ ∧ _))

/-- Sign-aware infinity: `inf` with the sign of a non-zero rational, NaN for 0 (IEEE `inf*x`). -/
def infTimes (q : ℚ) : F64 := if q = 0 then nan else if 0 < q then pinf else ninf

/-- Negation of a double. -/
def neg : F64 → F64
  | nan => nan
  | ninf => pinf
  | fin q => fin (-q)
  | pinf => ninf

end F64

/-- A floating point arithmetic: a monotone rounding of rationals to doubles, and whether
multiply-add is fused.  `exact` below is the arithmetic without rounding. -/
structure Arith where
  /-- rounding of an exact rational result -/
  rnd : ℚ → F64
  /-- does the C compiler contract `acc += w*l` into an fma? -/
  fused : Bool
  rnd_ne_nan : ∀ q, rnd q ≠ F64.nan
  rnd_mono : ∀ a b, a ≤ b → F64.lt (rnd b) (rnd a) = false
  rnd_zero : rnd 0 = F64.fin 0

namespace Arith
open F64

/-- Exact arithmetic (no rounding). -/
def exact : Arith where
  rnd := fin
  fused := false
  rnd_ne_nan := by intro q; simp
  rnd_mono := by intro a b h; simp [F64.lt, h]
  rnd_zero := rfl

variable (A : Arith)

/-- Floating point addition. -/
def add : F64 → F64 → F64
  | nan, _ => nan
  | _, nan => nan
  | pinf, ninf => nan
  | ninf, pinf => nan
  | pinf, _ => pinf
  | _, pinf => pinf
  | ninf, _ => ninf
  | _, ninf => ninf
  | fin a, fin b => A.rnd (a + b)

/-- Floating point product, with the final rounding `f` (either `A.rnd` or none, for fma). -/
def mulWith (f : ℚ → F64) : F64 → F64 → F64
  | nan, _ => nan
  | _, nan => nan
  | fin a, fin b => f (a * b)
  | fin a, pinf => infTimes a
  | fin a, ninf => infTimes (-a)
  | pinf, fin b => infTimes b
  | ninf, fin b => infTimes (-b)
  | pinf, pinf => pinf
  | pinf, ninf => ninf
  | ninf, pinf => ninf
  | ninf, ninf => pinf

/-- Rounded product. -/
def mul : F64 → F64 → F64 := mulWith A.rnd

/-- `acc += w*l` (dtw_core.c:179), possibly contracted to a fused multiply-add. -/
def mac (acc w l : F64) : F64 :=
  A.add acc (if A.fused then mulWith fin w l else A.mul w l)

/-- Division by a finite number (normalisation dtw.py:438-445, `s/n` in warp.py:30). -/
def divQ : F64 → ℚ → F64
  | nan, _ => nan
  | fin a, b => if b = 0 then (if a = 0 then nan else if 0 < a then pinf else ninf) else A.rnd (a / b)
  | pinf, b => if b < 0 then ninf else pinf
  | ninf, b => if b < 0 then pinf else ninf

end Arith

/-! ### Order and arithmetic lemmas -/

namespace F64

@[simp] theorem lt_nan_left (a : F64) : lt nan a = false := by cases a <;> rfl
@[simp] theorem lt_nan_right (a : F64) : lt a nan = false := by cases a <;> rfl
@[simp] theorem lt_irrefl (a : F64) : lt a a = false := by cases a <;> simp [lt]
@[simp] theorem lt_pinf_left (a : F64) : lt pinf a = false := by cases a <;> rfl
@[simp] theorem lt_fin (a b : ℚ) : lt (fin a) (fin b) = decide (a < b) := rfl

theorem lt_trans {a b c : F64} (h1 : lt a b = true) (h2 : lt b c = true) : lt a c = true := by
  cases a <;> cases b <;> cases c <;> simp_all [lt]
  linarith

theorem lt_tri {a b : F64} (ha : a ≠ nan) (hb : b ≠ nan) (h1 : lt a b = false)
    (h2 : lt b a = false) : a = b := by
  cases a <;> cases b <;> simp_all [lt]
  linarith

theorem ne_nan_of_lt_left {a b : F64} (h : lt a b = true) : a ≠ nan := by
  rintro rfl; simp at h
theorem ne_nan_of_lt_right {a b : F64} (h : lt a b = true) : b ≠ nan := by
  rintro rfl; simp at h

theorem le_refl {a : F64} (h : a ≠ nan) : le a a := ⟨h, h, lt_irrefl a⟩
theorem le_of_lt {a b : F64} (h : lt a b = true) : le a b := by
  refine ⟨ne_nan_of_lt_left h, ne_nan_of_lt_right h, ?_⟩
  cases hb : lt b a with
  | false => rfl
  | true => have := lt_trans h hb; simp at this
theorem le_antisymm {a b : F64} (h1 : le a b) (h2 : le b a) : a = b :=
  lt_tri h1.1 h1.2.1 h2.2.2 h1.2.2
theorem lt_of_lt_of_le {a b c : F64} (h1 : lt a b = true) (h2 : le b c) : lt a c = true := by
  obtain ⟨hb, hc, h⟩ := h2
  cases hac : lt a c with
  | true => rfl
  | false =>
    exfalso
    cases hca : lt c a with
    | true => have := lt_trans hca h1; simp [h] at this
    | false =>
      have := lt_tri (ne_nan_of_lt_left h1) hc hac hca
      subst this; simp [h1] at h
theorem lt_of_le_of_lt {a b c : F64} (h1 : le a b) (h2 : lt b c = true) : lt a c = true := by
  obtain ⟨ha, hb, h⟩ := h1
  cases hab : lt a b with
  | true => exact lt_trans hab h2
  | false => have := lt_tri ha hb hab h; subst this; exact h2
theorem le_trans {a b c : F64} (h1 : le a b) (h2 : le b c) : le a c := by
  refine ⟨h1.1, h2.2.1, ?_⟩
  cases hca : lt c a with
  | false => rfl
  | true =>
    have := lt_of_lt_of_le hca h1
    rw [h2.2.2] at this; simp at this
theorem le_total {a b : F64} (ha : a ≠ nan) (hb : b ≠ nan) : le a b ∨ le b a := by
  cases h : lt b a with
  | false => exact .inl ⟨ha, hb, h⟩
  | true => exact .inr (le_of_lt h)
theorem le_iff_not_lt {a b : F64} (ha : a ≠ nan) (hb : b ≠ nan) : le a b ↔ lt b a = false := by
  simp [le, ha, hb]

@[simp] theorem le_fin (a b : ℚ) : le (fin a) (fin b) ↔ a ≤ b := by simp [le]
@[simp] theorem usable_fin (a : ℚ) : usable (fin a) := rfl
@[simp] theorem not_usable_nan : ¬ usable nan := by simp [usable]
@[simp] theorem not_usable_pinf : ¬ usable pinf := by simp [usable]
theorem usable_ne_nan {a : F64} (h : usable a) : a ≠ nan := ne_nan_of_lt_left h
theorem usable_iff {a : F64} : usable a ↔ a ≠ nan ∧ a ≠ pinf := by
  cases a <;> simp [usable, lt]
theorem usable_of_le {a b : F64} (h : le a b) (hb : usable b) : usable a := lt_of_le_of_lt h hb
theorem le_pinf {a : F64} (h : a ≠ nan) : le a pinf := ⟨h, by simp, by simp⟩
@[simp] theorem isNan_iff (a : F64) : isNan a = true ↔ a = nan := by cases a <;> simp [isNan]
@[simp] theorem isNan_false_iff (a : F64) : isNan a = false ↔ a ≠ nan := by
  cases a <;> simp [isNan]

end F64

namespace Arith
open F64
variable (A : Arith)

theorem rnd_le {a b : ℚ} (h : a ≤ b) : F64.le (A.rnd a) (A.rnd b) :=
  ⟨A.rnd_ne_nan _, A.rnd_ne_nan _, A.rnd_mono _ _ h⟩

@[simp] theorem add_nan_left (x : F64) : A.add nan x = nan := by cases x <;> rfl
@[simp] theorem add_nan_right (x : F64) : A.add x nan = nan := by cases x <;> rfl

theorem add_usable_left {a v : F64} (h : usable (A.add a v)) : usable a := by
  cases a <;> cases v <;> simp_all [add, usable, F64.lt]

theorem add_mono_left {a b v : F64} (h : F64.le a b) (hu : usable (A.add b v)) :
    F64.le (A.add a v) (A.add b v) := by
  cases a <;> cases b <;> cases v <;>
    simp_all [add, usable, F64.le, F64.lt] <;>
    first
      | exact ⟨A.rnd_ne_nan _, A.rnd_ne_nan _, A.rnd_mono _ _ (by linarith)⟩
      | (cases hq : A.rnd _ <;> simp_all)

@[simp] theorem mac_nan (w l : F64) : A.mac nan w l = nan := by simp [mac]

theorem mac_usable {a w l : F64} (h : usable (A.mac a w l)) : usable a := A.add_usable_left h

theorem mac_mono {a b w l : F64} (h : F64.le a b) (hu : usable (A.mac b w l)) :
    F64.le (A.mac a w l) (A.mac b w l) := A.add_mono_left h hu

@[simp] theorem exact_rnd (q : ℚ) : exact.rnd q = fin q := rfl
@[simp] theorem exact_add (a b : ℚ) : exact.add (fin a) (fin b) = fin (a + b) := rfl
@[simp] theorem exact_mul (a b : ℚ) : exact.mul (fin a) (fin b) = fin (a * b) := rfl
@[simp] theorem exact_mac (a w l : ℚ) : exact.mac (fin a) (fin w) (fin l) = fin (a + w * l) := rfl

end Arith
end DTW
