import Verif.SpecDoubles
import Verif.Proofs.CurveProof
import Verif.Proofs.OnePer

/-!
# Rounding errors along a path
-/

namespace DTW
open F64

variable {A : Arith} {u lo hi P : ℚ} {rs : List Rule} {W : Nat → Nat → Bool} {L : Nat → Nat → F64} {ℓ : Nat → Nat → ℚ}
  {n m : Nat}

/-- A rule sequence determines the path. -/
theorem WarpPath.functional {ks i j c} (h : WarpPath A rs W L ks i j c) : ∀ {i' j' c'},
    WarpPath A rs W L ks i' j' c' → i = i' ∧ j = j' ∧ c = c' := by
  induction h with
  | start =>
    intro i' j' c' h'
    generalize hk : ([] : List Int) = ks' at h'
    cases h' with
    | start => exact ⟨rfl, rfl, rfl⟩
    | step => simp at hk
  | @step ks i j c k r hp hr hW ih =>
    intro i' j' c' h'
    generalize hk : ks ++ [(k : Int) + 1] = ks' at h'
    cases h' with
    | start => simp at hk
    | @step ks2 i2 j2 c2 k2 r2 hp2 hr2 hW2 =>
      have h1 := List.append_inj' hk (by simp)
      obtain ⟨e1, e2⟩ := h1
      subst e1
      have e3 : k = k2 := by simpa using e2
      subst e3
      rw [hr] at hr2
      cases hr2
      obtain ⟨rfl, rfl, rfl⟩ := ih hp2
      exact ⟨rfl, rfl, rfl⟩

/-- `v` approximates `x` after `k` roundings. -/
structure Approx (u lo : ℚ) (k : Nat) (x v : ℚ) : Prop where
  x_nonneg : 0 ≤ x
  clear : v = 0 ∨ lo ≤ v
  lower : (1 - u) ^ k * x ≤ v
  upper : v ≤ (1 + u) ^ k * x

theorem Approx.weaken {k k' : Nat} {x v : ℚ} (hu : 0 ≤ u) (hu1 : u ≤ 1) (h : Approx u lo k x v) (hk : k ≤ k') :
    Approx u lo k' x v where
  x_nonneg := h.x_nonneg
  clear := h.clear
  lower := le_trans (mul_le_mul_of_nonneg_right (pow_le_pow_of_le_one (by linarith) (by linarith) hk) h.x_nonneg) h.lower
  upper := le_trans h.upper (mul_le_mul_of_nonneg_right (pow_le_pow_right₀ (by linarith) hk) h.x_nonneg)

/-- One rounding of a non-negative quantity. -/
theorem Approx.round {k : Nat} {x v : ℚ} (hA : RelErr A u lo hi) (h : Approx u lo k x v)
    (hhi : (1 + u) ^ k * x ≤ hi) : ∃ v', A.rnd v = fin v' ∧ Approx u lo (k + 1) x v' := by
  have hu := hA.u_nonneg
  have hu1 := hA.u_le
  rcases h.clear with h0 | h0
  · subst h0
    exact ⟨0, A.rnd_zero, (h.weaken hu hu1 (Nat.le_succ k))⟩
  · obtain ⟨v', e, h1, h2, h3⟩ := hA.err v h0 (le_trans h.upper hhi)
    refine ⟨v', e, h.x_nonneg, .inr h3, ?_, ?_⟩
    · calc (1 - u) ^ (k + 1) * x = (1 - u) * ((1 - u) ^ k * x) := by ring
        _ ≤ (1 - u) * v := mul_le_mul_of_nonneg_left h.lower (by linarith)
        _ ≤ v' := h1
    · calc v' ≤ (1 + u) * v := h2
        _ ≤ (1 + u) * ((1 + u) ^ k * x) := mul_le_mul_of_nonneg_left h.upper (by linarith)
        _ = _ := by ring

theorem Approx.add {k : Nat} {x y v w : ℚ} (hA : RelErr A u lo hi) (h : Approx u lo k x v) (h' : Approx u lo k y w) :
    Approx u lo k (x + y) (v + w) := by
  have hl := hA.lo_pos
  refine ⟨add_nonneg h.x_nonneg h'.x_nonneg, ?_, ?_, ?_⟩
  · rcases h.clear with h0 | h0 <;> rcases h'.clear with h0' | h0'
    · left; rw [h0, h0', add_zero]
    · right; rw [h0, zero_add]; exact h0'
    · right; rw [h0', add_zero]; exact h0
    · right; linarith
  · rw [mul_add]; exact add_le_add h.lower h'.lower
  · rw [mul_add]; exact add_le_add h.upper h'.upper

/-- One charge `acc += w*l`: the accumulator suffers one rounding more. -/
theorem Approx.mac {k : Nat} {x v w l : ℚ} (hA : RelErr A u lo hi) (h : Approx u lo (k + 2) x v)
    (hw : w = 0 ∨ (lo ≤ w ∧ w ≤ hi)) (hl : 0 ≤ l) (hp : w * l = 0 ∨ lo ≤ (1 - u) * (w * l))
    (hhi : (1 + u) ^ (k + 2) * (x + w * l) ≤ hi) :
    ∃ v', A.mac (fin v) (A.rnd w) (fin l) = fin v' ∧ Approx u lo (k + 3) (x + w * l) v' := by
  have hu := hA.u_nonneg
  have hu1 := hA.u_le
  have hlo := hA.lo_pos
  have hw0 : 0 ≤ w := by rcases hw with rfl | ⟨h1, _⟩ <;> linarith
  have hwl : 0 ≤ w * l := mul_nonneg hw0 hl
  have hpow : (1 : ℚ) ≤ (1 + u) ^ (k + 2) := one_le_pow₀ (by linarith)
  have hwl_hi : (1 + u) * (w * l) ≤ hi := by
    refine le_trans ?_ hhi
    refine le_trans ?_ (mul_le_mul_of_nonneg_left (by linarith [h.x_nonneg] : w * l ≤ x + w * l) (by linarith))
    refine mul_le_mul_of_nonneg_right ?_ hwl
    calc 1 + u = (1 + u) ^ 1 := by ring
      _ ≤ _ := pow_le_pow_right₀ (by linarith) (by omega)
  -- the rounded weight
  obtain ⟨w', hw', hw'0, hw1, hw2⟩ : ∃ w', A.rnd w = fin w' ∧ (w = 0 → w' = 0) ∧ (1 - u) * w ≤ w' ∧ w' ≤ (1 + u) * w := by
    rcases hw with rfl | ⟨h1, h2⟩
    · exact ⟨0, A.rnd_zero, fun _ => rfl, by simp, by simp⟩
    · obtain ⟨w', e, a, b, _⟩ := hA.err w h1 h2
      exact ⟨w', e, fun h0 => by exfalso; linarith, a, b⟩
  -- the product
  have hprod : Approx u lo 1 (w * l) (w' * l) := by
    refine ⟨hwl, ?_, ?_, ?_⟩
    · rcases hp with h0 | h0
      · left
        rcases mul_eq_zero.1 h0 with h1 | h1
        · rw [hw'0 h1, zero_mul]
        · rw [h1, mul_zero]
      · right
        calc lo ≤ (1 - u) * w * l := by linarith
          _ ≤ _ := mul_le_mul_of_nonneg_right hw1 hl
    · rw [pow_one, ← mul_assoc]; exact mul_le_mul_of_nonneg_right hw1 hl
    · rw [pow_one, ← mul_assoc]; exact mul_le_mul_of_nonneg_right hw2 hl
  obtain ⟨q, hq, hqa⟩ := hprod.round hA (by rw [pow_one]; exact hwl_hi)
  have fin_case : ∀ z, Approx u lo (k + 2) (w * l) z →
      ∃ v', A.rnd (v + z) = fin v' ∧ Approx u lo (k + 3) (x + w * l) v' := fun z hz =>
    (h.add hA hz).round hA hhi
  unfold Arith.mac
  rw [hw']
  cases hf : A.fused with
  | true =>
    obtain ⟨v', e, ha⟩ := fin_case (w' * l) (hprod.weaken hu hu1 (by omega))
    exact ⟨v', by simpa [Arith.mulWith, Arith.add] using e, ha⟩
  | false =>
    obtain ⟨v', e, ha⟩ := fin_case q (hqa.weaken hu hu1 (by omega))
    refine ⟨v', ?_, ha⟩
    simp only [Arith.mul, Arith.mulWith, hq, Bool.false_eq_true, if_false, Arith.add]
    exact e

/-- Rounding errors along a list of charges. -/
theorem Approx.foldl (hA : RelErr A u lo hi) (hP : 0 ≤ P) (i j : Nat) (ts : List Term) : ∀ (k : Nat) (x v : ℚ),
    Approx u lo (k + 2) x v →
    (∀ t ∈ ts, (t.w = 0 ∨ (lo ≤ t.w ∧ t.w ≤ hi)) ∧ 0 ≤ ℓ (i - t.di) (j - t.dj) ∧
      (t.w * ℓ (i - t.di) (j - t.dj) = 0 ∨
        (lo ≤ (1 - u) * (t.w * ℓ (i - t.di) (j - t.dj)) ∧ t.w * ℓ (i - t.di) (j - t.dj) ≤ P))) →
    (1 + u) ^ (k + ts.length + 2) * (x + ts.length * P) ≤ hi →
    ∃ x' v', ts.foldl (fun c t => A.mac c (A.rnd t.w) (fin (ℓ (i - t.di) (j - t.dj)))) (fin v) = fin v' ∧
      ts.foldl (fun c t => Arith.exact.mac c (Arith.exact.rnd t.w) (fin (ℓ (i - t.di) (j - t.dj)))) (fin x) = fin x' ∧
      Approx u lo (k + ts.length + 2) x' v' ∧ x' ≤ x + ts.length * P := by
  have hu := hA.u_nonneg
  induction ts with
  | nil => intro k x v h _ _; exact ⟨x, v, rfl, rfl, by simpa using h, by simp⟩
  | cons t ts ih =>
    intro k x v h ht hhi
    obtain ⟨h1, h2, h3⟩ := ht t (by simp)
    have h3le : t.w * ℓ (i - t.di) (j - t.dj) ≤ P := by
      rcases h3 with h0 | h0
      · rw [h0]; exact hP
      · exact h0.2
    have hlen : (0 : ℚ) ≤ (ts.length : ℚ) * P := mul_nonneg (by positivity) hP
    have hlen' : (((t :: ts).length : ℕ) : ℚ) * P = P + ts.length * P := by push_cast [List.length_cons]; ring
    rw [hlen'] at hhi
    have hsum : 0 ≤ x + (P + ts.length * P) := by have := h.x_nonneg; linarith
    obtain ⟨v', e, ha⟩ := h.mac hA h1 h2 (h3.imp id And.left) (by
      refine le_trans ?_ hhi
      refine mul_le_mul (pow_le_pow_right₀ (by linarith) (by simp)) (by linarith) ?_ (by positivity)
      have : 0 ≤ t.w * ℓ (i - t.di) (j - t.dj) := mul_nonneg (by
        rcases h1 with h0 | ⟨h0, _⟩
        · rw [h0]
        · have := hA.lo_pos; linarith) h2
      have := h.x_nonneg
      linarith)
    obtain ⟨x2, v2, e1, e2, ha2, hle⟩ := ih (k + 1) _ _ (by
      have : k + 1 + 2 = k + 3 := by omega
      rw [this]; exact ha) (fun t' ht' => ht t' (List.mem_cons_of_mem _ ht')) (by
        refine le_trans ?_ hhi
        refine mul_le_mul (pow_le_pow_right₀ (by linarith) (by simp; omega)) (by linarith) ?_ (by positivity)
        have := ha.x_nonneg
        linarith)
    refine ⟨x2, v2, ?_, ?_, ?_, ?_⟩
    · rw [List.foldl_cons, e]; exact e1
    · rw [List.foldl_cons]; simpa using e2
    · have : k + (t :: ts).length + 2 = k + 1 + ts.length + 2 := by simp; omega
      rw [this]; exact ha2
    · rw [hlen']; linarith

theorem charges_snoc (ks : List Int) (k : Nat) {r : Rule} (hr : rs[k]? = some r) :
    charges rs (ks ++ [(k : Int) + 1]) = charges rs ks + r.terms.length := by
  simp [charges, termCount, hr]

/-- A path in an arithmetic with relative error `u`, and the same path in exact arithmetic. -/
theorem WarpPath.approx (hA : RelErr A u lo hi) (hP : 0 ≤ P) (ht : Tame u lo hi P rs n m ℓ) {K : Nat}
    (hK : (1 + u) ^ (K + 2) * ((K + 1) * P) ≤ hi) {ks i j c}
    (h : WarpPath A rs W (fun i j => fin (ℓ i j)) ks i j c) : i < n → j < m → charges rs ks ≤ K →
    ∃ x v, c = fin v ∧ WarpPath Arith.exact rs W (fun i j => fin (ℓ i j)) ks i j (fin x) ∧
      Approx u lo (charges rs ks + 2) x v ∧ x ≤ (charges rs ks + 1) * P := by
  have hu := hA.u_nonneg
  have hu1 := hA.u_le
  have nonneg : ∀ i < n, ∀ j < m, 0 ≤ ℓ i j := fun i hi j hj => by
    rcases ht.cost i hi j hj with h0 | h0
    · rw [h0]
    · exact le_trans hA.lo_pos.le h0
  induction h with
  | start =>
    intro hi0 hj0 _
    have h0 := nonneg 0 hi0 0 hj0
    refine ⟨ℓ 0 0, ℓ 0 0, rfl, .start, ?_, ?_⟩
    · have : Approx u lo 0 (ℓ 0 0) (ℓ 0 0) := ⟨h0, ht.cost 0 hi0 0 hj0, by simp, by simp⟩
      exact this.weaken hu hu1 (by omega)
    · simpa [charges] using ht.cost_le 0 hi0 0 hj0
  | @step ks i j c k r hp hr hW ih =>
    intro hi' hj' hc
    have hmem := List.mem_of_getElem? hr
    rw [charges_snoc ks k hr] at hc ⊢
    obtain ⟨x, v, rfl, hx, ha, hle⟩ := ih (by omega) (by omega) (by omega)
    obtain ⟨x', v', e1, e2, ha', hle'⟩ := Approx.foldl (ℓ := ℓ) hA hP (i + r.a) (j + r.b) r.terms
      (charges rs ks) x v ha (fun t htm => ⟨ht.weight r hmem t htm, nonneg _ (by omega) _ (by omega),
        ht.product r hmem t htm _ (by omega) _ (by omega)⟩) (by
        refine le_trans ?_ hK
        refine mul_le_mul (pow_le_pow_right₀ (by linarith) (by omega)) ?_
          (add_nonneg ha.x_nonneg (mul_nonneg (by positivity) hP)) (by positivity)
        calc x + r.terms.length * P ≤ (charges rs ks + 1) * P + r.terms.length * P := by linarith
          _ = ((charges rs ks + r.terms.length : ℕ) + 1 : ℚ) * P := by push_cast; ring
          _ ≤ _ := mul_le_mul_of_nonneg_right (by
              have : ((charges rs ks + r.terms.length : ℕ) : ℚ) ≤ K := by exact_mod_cast hc
              linarith) hP)
    have hex := WarpPath.step k r hx hr hW
    have hch : charge Arith.exact (fun i j => fin (ℓ i j)) r (i + r.a) (j + r.b) (fin x) = fin x' := e2
    rw [hch] at hex
    exact ⟨x', v', e1, hex, ha', by push_cast; linarith⟩

theorem charges_le {T : Nat} (hT : ∀ r ∈ rs, r.terms.length ≤ T) (ks : List Int) : charges rs ks ≤ T * ks.length := by
  induction ks with
  | nil => simp [charges]
  | cons k ks ih =>
    have h1 : charges rs (k :: ks) = termCount rs k + charges rs ks := by simp [charges]
    have h2 : termCount rs k ≤ T := by
      unfold termCount
      split
      · rename_i r hr; exact hT r (List.mem_of_getElem? hr)
      · omega
    rw [h1, List.length_cons, Nat.mul_succ]
    omega

end DTW
