import Verif.Plot
import Verif.Props.WarpArea
import Verif.Props.Options2

/-!
# Lemmas about plots
-/

namespace DTW
open F64

variable {A : Arith}

/-- Rounding has relative error at most `u` on `[lo, hi]` (double precision: `u = 2^-53`,
`lo = 2^-1022`, `hi = 2^1023`; exact arithmetic: `u = 0`, any interval). -/
def RelErrOn (A : Arith) (u lo hi : ℚ) : Prop :=
  ∀ q, lo ≤ q → q ≤ hi → ∃ q', A.rnd q = fin q' ∧ |q' - q| ≤ u * q

theorem relErrOn_exact (lo hi : ℚ) : RelErrOn Arith.exact 0 lo hi := fun q _ _ => ⟨q, rfl, by simp⟩
theorem exactUpTo_exact (B : Nat) : ExactUpTo Arith.exact B := fun _ _ => rfl

/-- `k` picks `num` positions of a vector of `len` elements: in range and in order, starting with the first
and (if there are at least two) ending with the last. -/
structure Spread (len num : Nat) (k : Nat → Nat) : Prop where
  lt : ∀ t < num, k t < len
  mono : ∀ t t', t ≤ t' → t' < num → k t ≤ k t'
  first : k 0 = 0
  last : 2 ≤ num → k (num - 1) = len - 1

theorem toNat_floor_lt {v : ℚ} {len : Nat} (h0 : 0 ≤ v) (h1 : v ≤ (len : ℚ) - 1) (hl : 0 < len) :
    ∃ k : Nat, ⌊v⌋ = (k : Int) ∧ k < len := by
  have hf : 0 ≤ ⌊v⌋ := Int.floor_nonneg.2 h0
  obtain ⟨k, hk⟩ := Int.eq_ofNat_of_zero_le hf
  refine ⟨k, hk, ?_⟩
  have h2 : (⌊v⌋ : ℚ) ≤ v := Int.floor_le v
  rw [hk] at h2
  have h3 : (((k : Nat) : Int) : ℚ) ≤ (len : ℚ) - 1 := le_trans h2 h1
  have h4 : (k : ℚ) + 1 ≤ len := by push_cast at h3; linarith
  have : k + 1 ≤ len := by exact_mod_cast h4
  omega

theorem linspaceInt_spread {u lo hi : ℚ} (hA : RelErrOn A u lo hi) {len num : Nat} (hE : ExactUpTo A len)
    (hlen : 0 < len) (hu0 : 0 ≤ u) (hu : 3 * u * num ≤ 1) (hlo : 2 * lo * num ≤ 1) (hhi : 2 * (len : ℚ) ≤ hi) :
    ∃ k : Nat → Nat, Spread len num k ∧
      linspaceInt A len num = .ok ((List.range num).map fun t => (k t : Int)) := by
  have hval : ∀ t : Nat, ∃ v : ℚ, t < num → linspaceAt A len num t = fin v ∧ 0 ≤ v ∧ v ≤ (len : ℚ) - 1 ∧
      (t = 0 → v = 0) ∧ (2 ≤ num → t = num - 1 → v = (len : ℚ) - 1) := by
    intro t
    by_cases ht : t < num
    swap
    · exact ⟨0, fun h => absurd h ht⟩
    have hl1 : (1 : ℚ) ≤ len := by exact_mod_cast hlen
    unfold linspaceAt
    by_cases h1 : num ≤ 1
    · exact ⟨0, fun _ => by rw [if_pos h1]; exact ⟨rfl, by norm_num, by linarith, fun _ => rfl, fun h => by omega⟩⟩
    rw [if_neg h1]
    by_cases hlast : t = num - 1
    · rw [if_pos hlast]
      refine ⟨(len : ℚ) - 1, fun _ => ?_⟩
      have : A.rnd ((len : ℚ) - 1) = fin ((len : ℚ) - 1) := by
        have h2 := hE (len - 1) (by omega)
        rw [Nat.cast_sub hlen] at h2
        simpa using h2
      exact ⟨this, by linarith, by linarith, fun h => by omega, fun _ _ => rfl⟩
    rw [if_neg hlast]
    have hn2 : (2 : ℚ) ≤ num := by exact_mod_cast (by omega : 2 ≤ num)
    have hdiv : (0 : ℚ) < (num : ℚ) - 1 := by linarith
    by_cases ht0 : t = 0
    · -- 0 * step
      refine ⟨0, fun _ => ?_⟩
      subst ht0
      have hdz : A.divQ (fin ((len : ℚ) - 1)) ((num : ℚ) - 1) = A.rnd (((len : ℚ) - 1) / ((num : ℚ) - 1)) := by
        simp only [Arith.divQ, if_neg hdiv.ne']
      rw [hdz]
      have hfin : ∃ q, A.rnd (((len : ℚ) - 1) / ((num : ℚ) - 1)) = fin q := by
        by_cases hl : len = 1
        · subst hl; exact ⟨0, by simp [A.rnd_zero]⟩
        · have hl2 : (2 : ℚ) ≤ len := by exact_mod_cast (by omega : 2 ≤ len)
          obtain ⟨q', hq', _⟩ := hA (((len : ℚ) - 1) / ((num : ℚ) - 1)) (by
            rw [le_div_iff₀ hdiv]; nlinarith) (by
            rw [div_le_iff₀ hdiv]; nlinarith)
          exact ⟨q', hq'⟩
      obtain ⟨q, hq⟩ := hfin
      rw [hq]
      refine ⟨?_, by norm_num, by linarith, fun _ => rfl, fun _ h => by omega⟩
      simp [Arith.mul, Arith.mulWith, A.rnd_zero]
    by_cases hl : len = 1
    · subst hl
      refine ⟨0, fun _ => ?_⟩
      simp only [Nat.cast_one, sub_self, Arith.divQ, if_neg hdiv.ne', zero_div, A.rnd_zero, Arith.mul,
        Arith.mulWith, mul_zero]
      exact ⟨trivial, by norm_num, by norm_num, fun _ => trivial, fun _ h => by omega⟩
    have hl2 : (2 : ℚ) ≤ len := by exact_mod_cast (by omega : 2 ≤ len)
    have ht1 : (1 : ℚ) ≤ t := by exact_mod_cast (by omega : 1 ≤ t)
    have ht2 : (t : ℚ) ≤ (num : ℚ) - 2 := by
      have : t + 2 ≤ num := by omega
      have : (t : ℚ) + 2 ≤ num := by exact_mod_cast this
      linarith
    have hdz : A.divQ (fin ((len : ℚ) - 1)) ((num : ℚ) - 1) = A.rnd (((len : ℚ) - 1) / ((num : ℚ) - 1)) := by
      simp only [Arith.divQ, if_neg hdiv.ne']
    rw [hdz]
    set s : ℚ := ((len : ℚ) - 1) / ((num : ℚ) - 1) with hs
    have hspos : 0 < s := div_pos (by linarith) hdiv
    have hsn : s * ((num : ℚ) - 1) = (len : ℚ) - 1 := by rw [hs, div_mul_cancel₀ _ hdiv.ne']
    obtain ⟨s', hs', he⟩ := hA s (by rw [hs, le_div_iff₀ hdiv]; nlinarith) (by rw [hs, div_le_iff₀ hdiv]; nlinarith)
    rw [hs']
    rw [abs_le] at he
    have hu6 : 6 * u ≤ 1 := by nlinarith
    have hs1 : s' ≤ (1 + u) * s := by linarith [he.2]
    have hs2 : (1 - u) * s ≤ s' := by linarith [he.1]
    have hs3 : s / 2 ≤ s' := by nlinarith
    have hs4 : 0 < s' := by linarith
    have htu : (t : ℚ) * s' ≤ (1 + u) * (t * s) := by nlinarith
    have hb1 : lo ≤ (t : ℚ) * s' := by
      have h1 : lo ≤ s / 2 := by
        have : 2 * lo * ((num : ℚ) - 1) ≤ 1 ∨ lo ≤ 0 := by
          by_cases h0 : 0 ≤ lo
          · left; nlinarith
          · right; linarith
        rcases this with h | h
        · have h2 : 2 * lo ≤ s := by rw [hs, le_div_iff₀ hdiv]; linarith
          linarith
        · linarith
      nlinarith
    have hts : (t : ℚ) * s ≤ ((num : ℚ) - 2) * s := by nlinarith
    have htop : (t : ℚ) * s' ≤ hi := by
      have : (1 + u) * (t * s) ≤ 2 * len := by
        have h1 : (t : ℚ) * s ≤ (len : ℚ) - 1 := by nlinarith
        have hx : 0 ≤ (t : ℚ) * s := by positivity
        nlinarith
      linarith
    obtain ⟨v, hv, hve⟩ := hA (t * s') hb1 htop
    rw [abs_le] at hve
    refine ⟨v, fun _ => ⟨?_, ?_, ?_, fun h => absurd h ht0, fun _ h => absurd h hlast⟩⟩
    · simp only [Arith.mul, Arith.mulWith]; exact hv
    · have h1 : 0 < (t : ℚ) * s' := by positivity
      nlinarith [hve.1]
    · have h1 : v ≤ (1 + u) * (t * s') := by linarith [hve.2]
      have hx : 0 ≤ (t : ℚ) * s := by positivity
      have h2 : v ≤ (1 + u) * ((1 + u) * (t * s)) := le_trans h1 (mul_le_mul_of_nonneg_left htu (by linarith))
      have h3 : (1 + u) * (1 + u) ≤ 1 + 3 * u := by nlinarith
      have h4 : v ≤ (1 + 3 * u) * (((num : ℚ) - 2) * s) := by
        calc v ≤ ((1 + u) * (1 + u)) * (t * s) := by linarith
          _ ≤ (1 + 3 * u) * (t * s) := mul_le_mul_of_nonneg_right h3 hx
          _ ≤ _ := mul_le_mul_of_nonneg_left hts (by linarith)
      have h5 : (1 + 3 * u) * ((num : ℚ) - 2) ≤ (num : ℚ) - 1 := by nlinarith
      calc v ≤ (1 + 3 * u) * (((num : ℚ) - 2) * s) := h4
        _ = ((1 + 3 * u) * ((num : ℚ) - 2)) * s := by ring
        _ ≤ ((num : ℚ) - 1) * s := mul_le_mul_of_nonneg_right h5 hspos.le
        _ = (len : ℚ) - 1 := by rw [mul_comm]; exact hsn
  choose v hv using hval
  have hk : ∀ t : Nat, ∃ k : Nat, t < num → ⌊v t⌋ = (k : Int) ∧ k < len := by
    intro t
    by_cases ht : t < num
    · obtain ⟨_, h0, h1, _⟩ := hv t ht
      obtain ⟨k, hk⟩ := toNat_floor_lt h0 h1 hlen
      exact ⟨k, fun _ => hk⟩
    · exact ⟨0, fun h => absurd h ht⟩
  choose k hk using hk
  have hmono : ∀ t t', t ≤ t' → t' < num → v t ≤ v t' := by
    intro t t' htt ht'
    have ht : t < num := by omega
    by_cases heq : t = t'
    · rw [heq]
    obtain ⟨e, h0, h1, z, _⟩ := hv t ht
    obtain ⟨e', h0', h1', z', l'⟩ := hv t' ht'
    by_cases hl : t' = num - 1
    · rw [l' (by omega) hl]; exact h1
    · unfold linspaceAt at e e'
      rw [if_neg (by omega), if_neg (by omega)] at e
      rw [if_neg (by omega), if_neg hl] at e'
      have hn2 : (2 : ℚ) ≤ num := by exact_mod_cast (by omega : 2 ≤ num)
      have hdiv : (0 : ℚ) < (num : ℚ) - 1 := by linarith
      have hl1 : (1 : ℚ) ≤ len := by exact_mod_cast hlen
      cases hs : A.divQ (fin ((len : ℚ) - 1)) ((num : ℚ) - 1) with
      | nan => rw [hs] at e; simp [Arith.mul, Arith.mulWith] at e
      | pinf =>
        rw [hs] at e'; simp only [Arith.mul, Arith.mulWith, infTimes] at e'
        split_ifs at e'
      | ninf =>
        rw [hs] at e'; simp only [Arith.mul, Arith.mulWith, infTimes] at e'
        split_ifs at e'
      | fin s =>
        rw [hs] at e e'
        simp only [Arith.mul, Arith.mulWith] at e e'
        have hs0 : 0 ≤ s := by
          simp only [Arith.divQ, if_neg hdiv.ne'] at hs
          have := A.rnd_le (a := 0) (b := ((len : ℚ) - 1) / ((num : ℚ) - 1)) (div_nonneg (by linarith) hdiv.le)
          rw [A.rnd_zero, hs] at this
          simpa using this
        have htt' : (t : ℚ) ≤ t' := by exact_mod_cast htt
        have := A.rnd_le (a := t * s) (b := t' * s) (mul_le_mul_of_nonneg_right htt' hs0)
        rw [e, e'] at this
        simpa using this
  by_cases hnum : num = 0
  · subst hnum
    exact ⟨fun _ => 0, ⟨by simp, by simp, rfl, by simp⟩, rfl⟩
  refine ⟨k, ⟨fun t ht => (hk t ht).2, ?_, ?_, ?_⟩, ?_⟩
  · intro t t' htt ht'
    have h1 := (hk t (by omega)).1
    have h2 := (hk t' ht').1
    have := Int.floor_le_floor (hmono t t' htt ht')
    omega
  · have h1 := (hk 0 (by omega)).1
    rw [(hv 0 (by omega)).2.2.2.1 rfl] at h1
    simp at h1; omega
  · intro h2
    have h1 := (hk (num - 1) (by omega)).1
    rw [(hv (num - 1) (by omega)).2.2.2.2 h2 rfl] at h1
    have : ((len : ℚ) - 1) = (((len : Int) - 1 : Int) : ℚ) := by push_cast; ring
    rw [this, Int.floor_intCast] at h1
    omega
  · unfold linspaceInt
    rw [if_neg (by omega)]
    congr 1
    simp only [Int.toNat_natCast]
    apply List.map_congr_left
    intro t ht
    rw [List.mem_range] at ht
    obtain ⟨e, h0, _⟩ := hv t ht
    rw [e]
    show trunc (v t) = _
    rw [trunc_floor h0]
    exact (hk t ht).1

theorem pyIdx_nat {α} {l : List α} {k : Nat} {v : α} (h : l[k]? = some v) : pyIdx l (k : Int) = .ok v := by
  unfold pyIdx
  simp only [show ¬ ((k : Int) < 0) by omega, if_false]
  rw [if_pos (by omega), Int.toNat_natCast, h]

theorem col_pyGet {xs : List F64} {i : Int} (h0 : 0 ≤ i) (h1 : i < xs.length) :
    ∃ v, xs[i.toNat]? = some v ∧ (⟨xs.length, 1, xs⟩ : Mat F64).pyGet i 0 = .ok v := by
  have hlt : i.toNat < xs.length := by omega
  refine ⟨xs[i.toNat], List.getElem?_eq_getElem hlt, ?_⟩
  unfold Mat.pyGet
  simp only [show ¬ (i < 0) by omega, if_false]
  rw [if_pos ⟨h0, h1, by norm_num, by norm_num⟩]
  simp [List.getElem?_eq_getElem hlt]

end DTW
