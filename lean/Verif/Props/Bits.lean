import Verif.Proofs.BitsProof
import Verif.Props.OpenEnd
import Verif.Props.Witnesses

/-!
# C87: signs of zeros and payloads of NaNs do not matter
-/

namespace DTW
open F64

variable {β β' : Type} {M : Machine β} {φ : β → F64} {A : Arith} {a : RawArgs β} {b : Args}

/-- **C87** (refinement).  The code, run on machine values, returns what the model returns for what they stand for: the same outcome
(error or result), the same path, directions and end point, and numbers that stand for those of the model.  `φ` may forget signs of zeros and
payloads of NaNs; the machine may produce any of them. -/
theorem C87_machine (h : M.Implements φ A) (hab : a.StandsFor φ b) : (M.dtw a).map (RawResult.decoded φ) = dtw A b := h.dtw hab

/-- **C87**.  Two machines, two calls that mean the same (they may differ in signs of zeros and payloads of NaNs): both fail in the same way or
both succeed, with the same alignment, direction matrix, end point, and with distances and cost matrices that mean the same. -/
theorem C87_signs_do_not_matter {M' : Machine β'} {φ' : β' → F64} (h : M.Implements φ A) (h' : M'.Implements φ' A) {a' : RawArgs β'}
    (hab : a.StandsFor φ b) (hab' : a'.StandsFor φ' b) :
    (∀ e, M.dtw a = .error e ↔ M'.dtw a' = .error e) ∧
    ∀ r, M.dtw a = .ok r → ∃ r', M'.dtw a' = .ok r' ∧ r'.mapping = r.mapping ∧ r'.jmin = r.jmin ∧ r'.directionMatrix = r.directionMatrix ∧
      φ' r'.distance = φ r.distance ∧ φ' r'.normalizedDistance = φ r.normalizedDistance ∧
      r'.costMatrix.map (Mat.decoded φ') = r.costMatrix.map (Mat.decoded φ) := by
  have e1 := h.dtw hab
  have e2 := h'.dtw hab'
  cases h1 : M.dtw a with
  | error e =>
    cases h2 : M'.dtw a' with
    | error e' =>
      rw [h1] at e1
      rw [h2] at e2
      rw [← e2] at e1
      have : e = e' := Except.error.inj e1
      subst this
      exact ⟨fun _ => ⟨fun h => by cases h; rfl, fun h => by cases h; rfl⟩, fun r hr => by cases hr⟩
    | ok r' =>
      rw [h1] at e1
      rw [h2] at e2
      rw [← e2] at e1
      cases e1
  | ok r =>
    cases h2 : M'.dtw a' with
    | error e' =>
      rw [h1] at e1
      rw [h2] at e2
      rw [← e2] at e1
      cases e1
    | ok r' =>
      rw [h1] at e1
      rw [h2] at e2
      rw [← e2] at e1
      have e := Except.ok.inj e1
      refine ⟨fun e => by simp, fun r0 hr0 => ⟨r', rfl, ?_⟩⟩
      obtain rfl := Except.ok.inj hr0
      exact ⟨(congrArg Result.mapping e).symm, (congrArg Result.jmin e).symm, (congrArg Result.directionMatrix e).symm,
        (congrArg Result.distance e).symm, (congrArg Result.normalizedDistance e).symm, (congrArg Result.costMatrix e).symm⟩

/-! ### 64-bit patterns -/

/-- A magnitude in units of 2^-1074. -/
def units (e t : Nat) : Nat := if e = 0 then t else (2 ^ 52 + t) * 2 ^ (e - 1)

/-- Sign, exponent and significand of a pattern. -/
theorem ofBits_fields (b : BitVec 64) : ∃ s e t : Nat, s < 2 ∧ e < 2048 ∧ t < 2 ^ 52 ∧ b.toNat = s * 2 ^ 63 + e * 2 ^ 52 + t ∧
    ofBits b = if e = 2047 then (if t = 0 then (if s = 1 then ninf else pinf) else nan)
      else fin ((if s = 1 then -1 else 1) * ((units e t : ℕ) : ℚ) * 2 ^ (-1074 : ℤ)) := by
  have hb := b.isLt
  refine ⟨b.toNat / 2 ^ 63, b.toNat / 2 ^ 52 % 2 ^ 11, b.toNat % 2 ^ 52, by omega, by omega, by omega, by omega, ?_⟩
  have hs : (b.toNat / 2 ^ 63 = 1) ↔ 2 ^ 63 ≤ b.toNat := by omega
  unfold ofBits
  simp only [hs, decide_eq_true_eq]
  generalize b.toNat / 2 ^ 52 % 2 ^ 11 = e
  generalize b.toNat % 2 ^ 52 = t
  split
  · rfl
  · congr 1
    rw [mul_assoc]
    congr 1
    unfold units
    split
    · rfl
    · rename_i h1 h2
      rw [Nat.cast_mul, Nat.cast_pow, Nat.cast_add, Nat.cast_pow, mul_assoc, Nat.cast_ofNat, ← zpow_natCast (2 : ℚ) (e - 1),
        ← zpow_add₀ (by norm_num : (2 : ℚ) ≠ 0)]
      congr 2
      omega

/-- Every choice of the fields occurs. -/
theorem fields_occur {s e t : Nat} (hs : s < 2) (he : e < 2048) (ht : t < 2 ^ 52) :
    ∃ b : BitVec 64, b.toNat = s * 2 ^ 63 + e * 2 ^ 52 + t ∧
    ofBits b = if e = 2047 then (if t = 0 then (if s = 1 then ninf else pinf) else nan)
      else fin ((if s = 1 then -1 else 1) * ((units e t : ℕ) : ℚ) * 2 ^ (-1074 : ℤ)) := by
  have hlt : s * 2 ^ 63 + e * 2 ^ 52 + t < 2 ^ 64 := by omega
  have hn : (BitVec.ofNat 64 (s * 2 ^ 63 + e * 2 ^ 52 + t)).toNat = s * 2 ^ 63 + e * 2 ^ 52 + t := by
    rw [BitVec.toNat_ofNat, Nat.mod_eq_of_lt hlt]
  refine ⟨BitVec.ofNat 64 (s * 2 ^ 63 + e * 2 ^ 52 + t), hn, ?_⟩
  obtain ⟨s', e', t', h1, h2, h3, h4, h5⟩ := ofBits_fields (BitVec.ofNat 64 (s * 2 ^ 63 + e * 2 ^ 52 + t))
  rw [hn] at h4
  obtain ⟨rfl, rfl, rfl⟩ : s = s' ∧ e = e' ∧ t = t' := by omega
  exact h5

theorem units_inj {e t e' t' : Nat} (ht : t < 2 ^ 52) (ht' : t' < 2 ^ 52) (h : units e t = units e' t') : e = e' ∧ t = t' := by
  have key : ∀ {e t e' t' : Nat}, t < 2 ^ 52 → t' < 2 ^ 52 → e < e' → units e t < units e' t' := by
    intro e t e' t' ht ht' hlt
    have h1 : units e t < 2 ^ 52 * 2 ^ e := by
      unfold units
      split
      · rename_i h
        subst h
        omega
      · rename_i h
        obtain ⟨k, rfl⟩ : ∃ k, e = k + 1 := ⟨e - 1, by omega⟩
        rw [Nat.add_sub_cancel]
        have e3 : 2 ^ 52 * 2 ^ (k + 1) = 2 ^ 52 * 2 * 2 ^ k := by rw [pow_succ 2 k]; ac_rfl
        rw [e3]
        have := Nat.mul_lt_mul_of_pos_right (show 2 ^ 52 + t < 2 ^ 52 * 2 by omega) (show 0 < 2 ^ k from Nat.pow_pos (by decide))
        exact this
    have h2 : 2 ^ 52 * 2 ^ e ≤ units e' t' := by
      unfold units
      rw [if_neg (by omega)]
      exact Nat.mul_le_mul (by omega) (Nat.pow_le_pow_right (by decide) (by omega))
    omega
  rcases Nat.lt_trichotomy e e' with h1 | h1 | h1
  · have := key ht ht' h1
    omega
  · subst h1
    refine ⟨rfl, ?_⟩
    unfold units at h
    split at h
    · exact h
    · have := Nat.eq_of_mul_eq_mul_right (Nat.pow_pos (by decide : 0 < 2)) h
      omega
  · have := key ht' ht h1
    omega

/-- **C87** (what is forgotten).  Two patterns stand for the same value of the model only if they are equal, or the two zeros, or two NaNs. -/
theorem C87_only_zeros_and_nans (x y : BitVec 64) (h : ofBits x = ofBits y) : x = y ∨ (ofBits x = fin 0) ∨ ofBits x = nan := by
  obtain ⟨s, e, t, hs, he, ht, hx, hvx⟩ := ofBits_fields x
  obtain ⟨s', e', t', hs', he', ht', hy, hvy⟩ := ofBits_fields y
  have hxy : (s = s' ∧ e = e' ∧ t = t') → x = y := by
    rintro ⟨rfl, rfl, rfl⟩
    exact BitVec.eq_of_toNat_eq (hx.trans hy.symm)
  rw [hvx, hvy] at h
  rw [hvx]
  by_cases e1 : e = 2047 <;> by_cases e2 : e' = 2047
  · rw [if_pos e1, if_pos e2] at h
    rw [if_pos e1]
    by_cases t1 : t = 0 <;> by_cases t2 : t' = 0
    · rw [if_pos t1, if_pos t2] at h
      left
      apply hxy
      refine ⟨?_, by omega, by omega⟩
      by_cases s1 : s = 1 <;> by_cases s2 : s' = 1 <;> simp [s1, s2] at h <;> omega
    · rw [if_pos t1, if_neg t2] at h
      split at h <;> cases h
    · rw [if_neg t1]; exact .inr (.inr rfl)
    · rw [if_neg t1]; exact .inr (.inr rfl)
  · rw [if_pos e1, if_neg e2] at h
    by_cases t1 : t = 0
    · rw [if_pos t1] at h
      split at h <;> cases h
    · rw [if_neg t1] at h
      cases h
  · rw [if_neg e1, if_pos e2] at h
    by_cases t1 : t' = 0
    · rw [if_pos t1] at h
      exfalso
      revert h
      generalize (if s = 1 then (-1 : ℚ) else 1) * ((units e t : ℕ) : ℚ) * 2 ^ (-1074 : ℤ) = z
      split <;> simp
    · rw [if_neg t1] at h
      cases h
  · rw [if_neg e1, if_neg e2] at h
    rw [if_neg e1]
    have hz : (2 : ℚ) ^ (-1074 : ℤ) ≠ 0 := (two_zpow_pos _).ne'
    have h1 := mul_right_cancel₀ hz (F64.fin.inj h)
    by_cases hu : units e t = 0
    · right; left
      rw [hu]
      simp
    · left
      apply hxy
      have hpos : (0 : ℚ) < (units e t : ℕ) := by exact_mod_cast Nat.pos_of_ne_zero hu
      have hnn : (0 : ℚ) ≤ (units e' t' : ℕ) := Nat.cast_nonneg _
      have hss : s = s' ∧ ((units e t : ℕ) : ℚ) = (units e' t' : ℕ) := by
        by_cases s1 : s = 1 <;> by_cases s2 : s' = 1
        · rw [if_pos s1, if_pos s2] at h1
          exact ⟨by omega, by linarith⟩
        · rw [if_pos s1, if_neg s2] at h1
          exfalso; linarith
        · rw [if_neg s1, if_pos s2] at h1
          exfalso; linarith
        · rw [if_neg s1, if_neg s2] at h1
          exact ⟨by omega, by linarith⟩
      exact ⟨hss.1, units_inj ht ht' (by exact_mod_cast hss.2)⟩

/-- Every multiple of a power of two with at most 53 significant bits can be written in the fields. -/
theorem units_onto {k s E : Nat} (hk : k < 2 ^ 53) (hlt : k * 2 ^ s < 2 ^ 52 * 2 ^ E) :
    ∃ e t, e < E + 1 ∧ t < 2 ^ 52 ∧ units e t = k * 2 ^ s := by
  induction s generalizing k with
  | zero =>
    by_cases h : k < 2 ^ 52
    · exact ⟨0, k, by omega, h, by simp [units]⟩
    · refine ⟨1, k - 2 ^ 52, ?_, by omega, ?_⟩
      · rcases Nat.eq_zero_or_pos E with rfl | h'
        · omega
        · omega
      · simp only [units, one_ne_zero, if_false, Nat.sub_self, pow_zero, Nat.mul_one]
        omega
  | succ s ih =>
    by_cases h : k < 2 ^ 52
    · have e1 : k * 2 ^ (s + 1) = (k * 2) * 2 ^ s := by rw [Nat.pow_succ]; ac_rfl
      rw [e1] at hlt ⊢
      exact ih (by omega) hlt
    · refine ⟨s + 2, k - 2 ^ 52, ?_, by omega, ?_⟩
      · by_contra hc
        exact absurd (Nat.mul_le_mul (by omega : 2 ^ 52 ≤ k) (Nat.pow_le_pow_right (by decide : 0 < 2) (by omega : E ≤ s + 1)))
          (Nat.not_le.2 hlt)
      · unfold units
        rw [if_neg (by omega), show s + 2 - 1 = s + 1 by omega, show 2 ^ 52 + (k - 2 ^ 52) = k by omega]

/-- **C87** (nothing is missing).  Every double of the model - NaN, the infinities, every `m 2^e` with 53 bits in range - has a pattern; zero has
one with either sign. -/
theorem C87_every_double : (∃ b, ofBits b = nan) ∧ (∃ b, ofBits b = pinf) ∧ (∃ b, ofBits b = ninf) ∧
    (∀ q, IsDouble q → ∃ b, ofBits b = fin q) ∧ ∃ b b', b ≠ b' ∧ ofBits b = fin 0 ∧ ofBits b' = fin 0 := by
  refine ⟨⟨0x7ff8000000000000#64, by decide +kernel⟩, ⟨0x7ff0000000000000#64, by decide +kernel⟩, ⟨0xfff0000000000000#64, by decide +kernel⟩,
    ?_, ⟨0#64, 0x8000000000000000#64, by decide, by decide +kernel, by decide +kernel⟩⟩
  rintro q ⟨m, e, hm, he, rfl, hlt⟩
  obtain ⟨s, hs⟩ := Int.eq_ofNat_of_zero_le (show 0 ≤ e + 1074 by omega)
  have hq : (m : ℚ) * 2 ^ e = (if m < 0 then -1 else 1) * ((m.natAbs * 2 ^ s : ℕ) : ℚ) * 2 ^ (-1074 : ℤ) := by
    have h1 : (m : ℚ) = (if m < 0 then -1 else 1) * (m.natAbs : ℚ) := by
      split
      · rename_i h
        rw [Nat.cast_natAbs, abs_of_neg h]
        push_cast; ring
      · rename_i h
        rw [Nat.cast_natAbs, abs_of_nonneg (by omega)]
        ring
    have h2 : (2 : ℚ) ^ e = 2 ^ s * 2 ^ (-1074 : ℤ) := by
      rw [← zpow_natCast (2 : ℚ), ← zpow_add₀ (by norm_num)]
      congr 1
      omega
    rw [h2, Nat.cast_mul, Nat.cast_pow, Nat.cast_ofNat]
    conv_lhs => rw [h1]
    ring
  have hk : m.natAbs < 2 ^ 53 := by
    have : ((m.natAbs : ℕ) : ℤ) < 2 ^ 53 := by rw [Int.natCast_natAbs]; exact hm
    exact_mod_cast this
  have hl : m.natAbs * 2 ^ s < 2 ^ 52 * 2 ^ 2046 := by
    have h1 : |(m : ℚ) * 2 ^ e| = ((m.natAbs * 2 ^ s : ℕ) : ℚ) * 2 ^ (-1074 : ℤ) := by
      rw [hq, abs_mul, abs_mul, abs_of_pos (two_zpow_pos _), abs_of_nonneg (Nat.cast_nonneg (α := ℚ) _)]
      have : |(if m < 0 then (-1 : ℚ) else 1)| = 1 := by split <;> simp
      rw [this, one_mul]
    have h0 : (2 : ℚ) ^ (1024 : ℤ) = 2 ^ 52 * 2 ^ (2046 : ℕ) * 2 ^ (-1074 : ℤ) := by
      rw [← zpow_natCast (2 : ℚ) 52, ← zpow_natCast (2 : ℚ) 2046, ← zpow_add₀ (by norm_num : (2 : ℚ) ≠ 0),
        ← zpow_add₀ (by norm_num : (2 : ℚ) ≠ 0)]
      rfl
    rw [h1, h0] at hlt
    have h2 := lt_of_mul_lt_mul_right hlt (_root_.le_of_lt (two_zpow_pos _))
    have h3 : ((m.natAbs * 2 ^ s : ℕ) : ℚ) < ((2 ^ 52 * 2 ^ 2046 : ℕ) : ℚ) := by
      rw [Nat.cast_mul (2 ^ 52), Nat.cast_pow, Nat.cast_pow]
      exact h2
    exact Nat.cast_lt.1 h3
  obtain ⟨e', t, he', ht, hu⟩ := units_onto hk hl
  obtain ⟨b, -, hb⟩ := fields_occur (s := if m < 0 then 1 else 0) (by split <;> omega) (by omega : e' < 2048) ht
  refine ⟨b, ?_⟩
  rw [hb, if_neg (by omega), hq, hu]
  congr 3
  by_cases h : m < 0 <;> simp [h]

/-! ### The machine exists -/

/-- The values of the model that have a pattern. -/
def HasPattern (x : F64) : Prop := ∃ b, ofBits b = x

theorem hasPattern_rnd (q : ℚ) : HasPattern (rnd64 q) := by
  obtain ⟨-, h2, h3, h4, -⟩ := C87_every_double
  cases hq : rnd64 q with
  | nan => exact absurd hq ((binary64 false).rnd_ne_nan q)
  | pinf => exact h2
  | ninf => exact h3
  | fin v => exact h4 v ((C49_nearest q).1 v hq).1

theorem hasPattern_add (f : Bool) (x y : F64) : HasPattern ((binary64 f).add x y) := by
  obtain ⟨h1, h2, h3, -⟩ := C87_every_double
  cases x <;> cases y <;> first
    | exact h1
    | exact h2
    | exact h3
    | exact hasPattern_rnd _

theorem hasPattern_divQ (f : Bool) (x : F64) (d : ℚ) : HasPattern ((binary64 f).divQ x d) := by
  obtain ⟨h1, h2, h3, -⟩ := C87_every_double
  cases x with
  | nan => exact h1
  | pinf =>
    show HasPattern (if d < 0 then ninf else pinf)
    split <;> assumption
  | ninf =>
    show HasPattern (if d < 0 then pinf else ninf)
    split <;> assumption
  | fin v =>
    show HasPattern (if d = 0 then (if v = 0 then nan else if 0 < v then pinf else ninf) else rnd64 (v / d))
    split
    · split
      · exact h1
      · split <;> assumption
    · exact hasPattern_rnd _

open Classical in
/-- Some pattern of a value, by an arbitrary preference `pick` among the patterns that stand for it (which sign a zero gets, which payload a
NaN). -/
noncomputable def encodeBy (pick : F64 → BitVec 64) (x : F64) : BitVec 64 :=
  if ofBits (pick x) = x then pick x else if h : HasPattern x then h.choose else 0

theorem encodeBy_spec (pick : F64 → BitVec 64) {x : F64} (h : HasPattern x) : ofBits (encodeBy pick x) = x := by
  unfold encodeBy
  split
  · assumption
  · exact h.choose_spec

/-- A machine on 64-bit patterns.  `pick` says which pattern an operation produces, depending on the operands (IEEE 754 fixes the signs of zeros
but not the payloads of NaNs). -/
noncomputable def bitsMachine (f : Bool) (pick : List (BitVec 64) → F64 → BitVec 64) : Machine (BitVec 64) where
  nan := encodeBy (pick []) F64.nan
  pinf := encodeBy (pick []) F64.pinf
  zero := encodeBy (pick []) (fin 0)
  lt x y := F64.lt (ofBits x) (ofBits y)
  isNan x := F64.isNan (ofBits x)
  weight w := encodeBy (pick []) (rnd64 w)
  mac c w l := encodeBy (pick [c, w, l]) ((binary64 f).mac (ofBits c) (ofBits w) (ofBits l))
  divQ x d := encodeBy (pick [x]) ((binary64 f).divQ (ofBits x) d)

/-- **C87** (the machine exists).  There are machines on 64-bit patterns that compute in IEEE double precision, whatever preference they have
for signs of zeros and payloads of NaNs. -/
theorem C87_bits (f : Bool) (pick : List (BitVec 64) → F64 → BitVec 64) : (bitsMachine f pick).Implements ofBits (binary64 f) := by
  obtain ⟨h1, h2, h3, h4, ⟨z, -, -, h5, -⟩⟩ := C87_every_double
  exact
    { nan := encodeBy_spec _ h1
      pinf := encodeBy_spec _ h2
      zero := encodeBy_spec _ ⟨z, h5⟩
      lt := fun _ _ => rfl
      isNan := fun _ => rfl
      weight := fun _ => encodeBy_spec _ (hasPattern_rnd _)
      mac := fun _ _ _ => encodeBy_spec _ (hasPattern_add _ _ _)
      divQ := fun _ _ => encodeBy_spec _ (hasPattern_divQ _ _ _) }

/-- A call on bit patterns: a 2 × 2 matrix of local costs with a negative zero in the corner `(0,0)` and a positive one in `(1,1)`, or both
positive. -/
def Ex.zeros (negative : Bool) : RawArgs (BitVec 64) where
  x := .d2 ⟨2, 2, [if negative then 0x8000000000000000#64 else 0#64, 0x3ff0000000000000#64, 0x4000000000000000#64, 0#64]⟩
  y := none
  dist := fun _ _ => 0
  layout := ⟨true, true⟩
  stackContig := true
  stepPattern := .name "symmetric2"
  windowType := .none
  windowArgs := []
  keepInternals := false
  distanceOnly := false
  openEnd := false
  openBegin := false

/-- The hypotheses are met: two calls that differ in the sign of a zero, on machines with any preferences; both find the diagonal at a distance
that stands for 0. -/
example (pick pick' : List (BitVec 64) → F64 → BitVec 64) :
    ∃ r r', (bitsMachine false pick).dtw (Ex.zeros true) = .ok r ∧ (bitsMachine true pick').dtw (Ex.zeros false) = .ok r' ∧
      r.mapping = r'.mapping ∧ ofBits r.distance = fin 0 ∧ ofBits r'.distance = fin 0 := by
  let b : Args := { x := .d2 ⟨2, 2, [fin 0, fin 1, fin 2, fin 0]⟩ }
  have hs : ∀ s, RawArgs.StandsFor ofBits (Ex.zeros s) { b with dist := fun _ _ => fin 0 } := fun s =>
    { x := by
        have e1 : ofBits 0x8000000000000000#64 = fin 0 := by decide +kernel
        have e2 : ofBits 0#64 = fin 0 := by decide +kernel
        have e3 : ofBits 0x3ff0000000000000#64 = fin 1 := by decide +kernel
        have e4 : ofBits 0x4000000000000000#64 = fin 2 := by decide +kernel
        cases s <;> simp [b, Ex.zeros, RawNd.decoded, Mat.decoded, e1, e2, e3, e4]
      y := rfl
      dist := fun _ _ => (by decide +kernel : ofBits 0#64 = fin 0)
      layout := rfl
      stackContig := rfl
      stepPattern := rfl
      windowType := rfl
      windowArgs := rfl
      keepInternals := rfl
      distanceOnly := rfl
      openEnd := rfl
      openBegin := rfl }
  have g1 : (dtw (binary64 false) { b with dist := fun _ _ => fin 0 }).toOption.map (fun r => (r.distance, r.mapping.map (·.index2))) =
      some (fin 0, some [0, 1]) := by decide +kernel
  have g2 : (dtw (binary64 true) { b with dist := fun _ _ => fin 0 }).toOption.map (fun r => (r.distance, r.mapping)) =
      (dtw (binary64 false) { b with dist := fun _ _ => fin 0 }).toOption.map (fun r => (r.distance, r.mapping)) := by decide +kernel
  have m1 := C87_machine (C87_bits false pick) (hs true)
  have m2 := C87_machine (C87_bits true pick') (hs false)
  cases h1 : (bitsMachine false pick).dtw (Ex.zeros true) with
  | error e => rw [h1] at m1; rw [← m1] at g1; simp [Except.map, Except.toOption] at g1
  | ok r =>
    cases h2 : (bitsMachine true pick').dtw (Ex.zeros false) with
    | error e => rw [h1] at m1; rw [h2] at m2; rw [← m1, ← m2] at g2; simp [Except.map, Except.toOption] at g2
    | ok r' =>
      rw [h1] at m1
      rw [h2] at m2
      rw [← m1, ← m2] at g2
      rw [← m1] at g1
      simp only [Except.map, Except.toOption, Option.map_some, Option.some.injEq, Prod.mk.injEq, RawResult.decoded] at g1 g2
      exact ⟨r, r', rfl, rfl, g2.2.symm, g1.1, g2.1.trans g1.1⟩

end DTW
