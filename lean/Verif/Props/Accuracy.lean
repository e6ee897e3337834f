import Verif.Props.Doubles
import Verif.Props.OpenEnd
import Verif.Props.Witnesses

/-!
# C49 for every combination of open ends: accuracy of the whole cost matrix and of the normalized distance
-/

namespace DTW
open F64

variable {A : Arith} {u lo hi P : ℚ} {rs : List Rule} {W : Nat → Nat → Bool} {ℓ : Nat → Nat → ℚ}
  {n m q : Nat} {S G G0 : Nat → Nat → F64} {D D0 : Nat → Nat → Int} {a : Args} {p : StepPattern}

/-- Seeds are absent (NaN) or numbers clear of underflow, at most `P`. -/
def TameSeeds (lo P : ℚ) (n m : Nat) (S : Nat → Nat → F64) : Prop :=
  ∀ i < n, ∀ j < m, S i j = nan ∨ ∃ s, S i j = fin s ∧ (s = 0 ∨ lo ≤ s) ∧ s ≤ P

theorem Path.approx (hA : RelErr A u lo hi) (hP : 0 ≤ P) (ht : Tame u lo hi P rs n m ℓ) (hS : TameSeeds lo P n m S)
    {K : Nat} (hK : (1 + u) ^ (K + 2) * ((K + 1) * P) ≤ hi) {i0 j0 ks i j c}
    (h : Path A rs W (fun i j => fin (ℓ i j)) S i0 j0 ks i j c) : i < n → j < m → charges rs ks ≤ K →
    ∃ x v, c = fin v ∧ Path Arith.exact rs W (fun i j => fin (ℓ i j)) S i0 j0 ks i j (fin x) ∧
      Approx u lo (charges rs ks + 2) x v ∧ x ≤ (charges rs ks + 1) * P := by
  have hu := hA.u_nonneg
  have hu1 := hA.u_le
  have nonneg : ∀ i < n, ∀ j < m, 0 ≤ ℓ i j := fun i hi j hj => by
    rcases ht.cost i hi j hj with h0 | h0
    · rw [h0]
    · exact le_trans hA.lo_pos.le h0
  induction h with
  | start hne =>
    intro hi0 hj0 _
    obtain ⟨s, e, h1, h2⟩ := (hS _ hi0 _ hj0).resolve_left hne
    have hs0 : 0 ≤ s := by
      rcases h1 with h0 | h0
      · rw [h0]
      · exact le_trans hA.lo_pos.le h0
    refine ⟨s, s, e, ?_, ?_, ?_⟩
    · have := Path.start (A := Arith.exact) (rs := rs) (W := W) (L := fun i j => fin (ℓ i j)) (S := S) _ _ hne
      rw [e] at this; exact this
    · have : Approx u lo 0 s s := ⟨hs0, h1, by simp, by simp⟩
      exact this.weaken hu hu1 (by omega)
    · simpa [charges] using h2
  | @step ks i j c k r hp hr hW hSn ih =>
    intro hi' hj' hc
    have hmem := List.mem_of_getElem? hr
    rw [charges_snoc ks k hr] at hc ⊢
    obtain ⟨x, v, rfl, hx, ha, hle⟩ := ih (by omega) (by omega) (by omega)
    obtain ⟨x', v', e1, e2, ha', hle'⟩ := Approx.foldl (ℓ := ℓ) hA hP (i + r.a) (j + r.b) r.terms
      (charges rs ks) x v ha (fun t htm => ⟨ht.weight r hmem t htm, nonneg _ (by omega) _ (by omega),
        ht.product r hmem t htm _ (by omega) _ (by omega)⟩) (by
        refine le_trans ?_ hK
        refine mul_le_mul (pow_le_pow_right₀ (by linarith) (by omega)) ?_
          (add_nonneg ha.x_nonneg (mul_nonneg (by positivity) hP)) (by positivity)
        calc x + r.terms.length * P ≤ (charges rs ks + 1) * P + r.terms.length * P := by linarith
          _ = ((charges rs ks + r.terms.length : ℕ) + 1 : ℚ) * P := by push_cast; ring
          _ ≤ _ := mul_le_mul_of_nonneg_right (by
              have : ((charges rs ks + r.terms.length : ℕ) : ℚ) ≤ K := by exact_mod_cast hc
              linarith) hP)
    have hex := Path.step k r hx hr hW hSn
    have hch : charge Arith.exact (fun i j => fin (ℓ i j)) r (i + r.a) (j + r.b) (fin x) = fin x' := e2
    rw [hch] at hex
    exact ⟨x', v', e1, hex, ha', by push_cast; linarith⟩

theorem Path.change {A' : Arith} {L : Nat → Nat → F64} {i0 j0 ks i j c} (h : Path A rs W L S i0 j0 ks i j c) :
    ∃ c', Path A' rs W L S i0 j0 ks i j c' := by
  induction h with
  | start hne => exact ⟨_, .start _ _ hne⟩
  | step k r hp hr hW hS ih => obtain ⟨c', ih⟩ := ih; exact ⟨_, .step k r ih hr hW hS⟩

theorem Path.functional {L : Nat → Nat → F64} {i0 j0 ks i j c} (h : Path A rs W L S i0 j0 ks i j c) : ∀ {i' j' c'},
    Path A rs W L S i0 j0 ks i' j' c' → i = i' ∧ j = j' ∧ c = c' := by
  induction h with
  | start hne =>
    intro i' j' c' h'
    generalize hk : ([] : List Int) = ks' at h'
    cases h' with
    | start => exact ⟨rfl, rfl, rfl⟩
    | step => simp at hk
  | @step ks i j c k r hp hr hW hS ih =>
    intro i' j' c' h'
    generalize hk : ks ++ [(k : Int) + 1] = ks' at h'
    cases h' with
    | start => simp at hk
    | @step ks2 i2 j2 c2 k2 r2 hp2 hr2 hW2 hS2 =>
      obtain ⟨e1, e2⟩ := List.append_inj' hk (by simp)
      subst e1
      have e3 : k = k2 := by simpa using e2
      subst e3
      rw [hr] at hr2
      cases hr2
      obtain ⟨rfl, rfl, rfl⟩ := ih hp2
      exact ⟨rfl, rfl, rfl⟩

/-- Every entry of the cost matrix is accurate. -/
theorem Bellman.accurate (hA : RelErr A u lo hi) (hP : 0 ≤ P) (hv : ∀ r ∈ rs, r.Valid) (ht : Tame u lo hi P rs n m ℓ)
    (hS : TameSeeds lo P n m S) {T : Nat} (hT : ∀ r ∈ rs, r.terms.length ≤ T)
    (hK : (1 + u) ^ (T * (n + m) + 2) * (((T * (n + m) : ℕ) + 1) * P) ≤ hi)
    (hB : Bellman A rs n m W (fun i j => fin (ℓ i j)) S G D)
    (hB0 : Bellman Arith.exact rs n m W (fun i j => fin (ℓ i j)) S G0 D0) {i j : Nat} (hi' : i < n) (hj : j < m) :
    (G i j = nan ∧ G0 i j = nan) ∨
    ∃ x v, G0 i j = fin x ∧ G i j = fin v ∧ Approx u lo (T * (n + m) + 2) x v ∧ v ≤ hi ∧
      ∀ i0 j0 ks, Path A rs W (fun i j => fin (ℓ i j)) S i0 j0 ks i j (fin v) →
        ∃ x', Path Arith.exact rs W (fun i j => fin (ℓ i j)) S i0 j0 ks i j (fin x') ∧
          Approx u lo (T * (n + m) + 2) x' v := by
  have hu := hA.u_nonneg
  have hu1 := hA.u_le
  set K := T * (n + m) with hKdef
  have both : ∀ {i0 j0 ks c}, Path A rs W (fun i j => fin (ℓ i j)) S i0 j0 ks i j c →
      ∃ x v, c = fin v ∧ Path Arith.exact rs W (fun i j => fin (ℓ i j)) S i0 j0 ks i j (fin x) ∧
        Approx u lo (K + 2) x v ∧ v ≤ hi := by
    intro i0 j0 ks c hp
    have hlen := hp.toWalk.length_le hv
    have hc : charges rs ks ≤ K := le_trans (charges_le hT ks) (by rw [hKdef]; exact Nat.mul_le_mul_left _ (by omega))
    obtain ⟨x, v, e, hx, ha, hle⟩ := hp.approx hA hP ht hS hK hi' hj hc
    have ha' := ha.weaken hu hu1 (k' := K + 2) (by omega)
    refine ⟨x, v, e, hx, ha', le_trans ha'.upper (le_trans ?_ hK)⟩
    refine mul_le_mul_of_nonneg_left (le_trans hle (mul_le_mul_of_nonneg_right ?_ hP)) (by positivity)
    have : (charges rs ks : ℚ) ≤ K := by exact_mod_cast hc
    linarith
  by_cases hG : G i j = nan
  · left
    refine ⟨hG, ?_⟩
    by_contra hG0
    obtain ⟨i0, j0, ks, hp, _⟩ := hB0.sound hv _ i j rfl hi' hj hG0
    obtain ⟨c, hc⟩ := hp.change (A' := A)
    obtain ⟨x, v, e, _, _, _⟩ := both hc
    rw [e] at hc
    exact (hB.optimal hc hi' hj (usable_fin v)).1 hG
  · right
    obtain ⟨i0, j0, ks, hp, _⟩ := hB.sound hv _ i j rfl hi' hj hG
    obtain ⟨x, v, e, hx, ha, hvhi⟩ := both hp
    have hopt := hB0.optimal hx hi' hj (usable_fin x)
    obtain ⟨i1, j1, ks1, hp1, _⟩ := hB0.sound hv _ i j rfl hi' hj hopt.1
    obtain ⟨c, hc⟩ := hp1.change (A' := A)
    obtain ⟨x1, v1, e1, hx1, ha1, _⟩ := both hc
    obtain ⟨_, _, e0⟩ := hp1.functional hx1
    rw [e1] at hc
    have l1 := hB.optimal hc hi' hj (usable_fin v1)
    rw [e] at l1
    rw [e0] at hopt
    have l1 : v ≤ v1 := by simpa using l1
    have l2 : x1 ≤ x := by simpa using hopt
    refine ⟨x1, v, e0, e, ⟨ha1.x_nonneg, ha.clear, ?_, le_trans l1 ha1.upper⟩, hvhi, ?_⟩
    · exact le_trans (mul_le_mul_of_nonneg_left l2 (pow_nonneg (by linarith) _)) ha.lower
    · intro i2 j2 ks2 hp2
      obtain ⟨x2, v2, e2, hx2, ha2, _⟩ := both hp2
      obtain rfl := F64.fin.inj e2
      exact ⟨x2, hx2, ha2⟩

/-- When the end of the computation succeeds. -/
theorem finish_succeeds_iff {L : Nat → Nat → F64} {qr : Option (Mat F64 × Mat F64)} {lm' : Mat F64} (hp : WF p rs)
    (hn : 0 < n) (hm : 0 < m) (hq : 0 < q) (hB : Bellman A rs q m W L S G D)
    (hfin : ∀ j < m, G (q - 1) j ≠ nan → usable (normBy A p.hint n j (G (q - 1) j))) :
    (∃ r, finish A a p n m qr q lm' G D = .ok r) ↔
      (if a.openEnd then p.hint ≠ "NA" ∧ ∃ j < m, G (q - 1) j ≠ nan else G (q - 1) (m - 1) ≠ nan) ∧
      ¬ (a.openBegin = true ∧ a.distanceOnly = true) := by
  have hmap : ∀ j < m, G (q - 1) j ≠ nan → ((∃ mp, pickMapping a p (Mat.ofFn q m D) j = .ok mp) ↔
      ¬ (a.openBegin = true ∧ a.distanceOnly = true)) := by
    intro j hj hne
    obtain ⟨i0, j0, ks, _, ht⟩ := hB.sound hp.valid _ (q - 1) j rfl (by omega) hj hne
    rw [pickMapping_trace hp hq ht hj]
    cases a.openBegin <;> cases a.distanceOnly <;> simp
  constructor
  · rintro ⟨r, hr⟩
    obtain ⟨j, mp, he, hmp, _⟩ := finish_ok hn hq hm hr
    refine ⟨?_, (hmap j he.lt he.ne_nan).1 ⟨mp, hmp⟩⟩
    cases hoe : a.openEnd with
    | false =>
      simp only [Bool.false_eq_true, if_false]
      have := he.ne_nan
      rwa [he.closed hoe] at this
    | true =>
      simp only [if_true]
      exact ⟨(he.opened hoe).1, j, he.lt, he.ne_nan⟩
  · rintro ⟨h1, h2⟩
    cases hoe : a.openEnd with
    | false =>
      rw [hoe] at h1
      simp only [Bool.false_eq_true, if_false] at h1
      have hpe := pickEnd_closed (A := A) (hint := p.hint) (n := n) (G := G) hq hm hoe
      rw [if_neg (by simpa using h1)] at hpe
      obtain ⟨mp, hmp⟩ := (hmap (m - 1) (by omega) h1).2 h2
      rw [finish_of (by omega) hpe, hmp]
      exact ⟨_, rfl⟩
    | true =>
      rw [hoe] at h1
      simp only [if_true] at h1
      obtain ⟨hNA, j, hj, hne⟩ := h1
      obtain ⟨k, hk, hkn, hpe⟩ := pickEnd_open_ok (a := a) (G := G) hq hoe hNA hj (hfin j hj hne)
      obtain ⟨mp, hmp⟩ := (hmap k hk hkn).2 h2
      rw [finish_of hk hpe, hmp]
      exact ⟨_, rfl⟩

/-- Normalising loses at most one more rounding. -/
theorem normBy_approx {lo2 : ℚ} (hA : RelErr A u lo2 hi) (hlo : lo2 * (n + m) ≤ lo) (hn : 0 < n) {j k : Nat} (hj : j < m)
    {x v : ℚ} (h : Approx u lo k x v) (hv : v ≤ hi) (hint : String) :
    ∃ y w, normBy Arith.exact hint n j (fin x) = fin y ∧ normBy A hint n j (fin v) = fin w ∧ 0 ≤ y ∧
      (1 - u) ^ (k + 1) * y ≤ w ∧ w ≤ (1 + u) ^ (k + 1) * y := by
  have hu := hA.u_nonneg
  have hu1 := hA.u_le
  have hx := h.x_nonneg
  have hn0 : (n : ℚ) ≠ 0 := by
    have : (0 : ℚ) < n := by exact_mod_cast hn
    exact this.ne'
  have hj0 : (0 : ℚ) ≤ j := by positivity
  have hn1 : (0 : ℚ) < n := by exact_mod_cast hn
  have same : ∃ y w, fin x = fin y ∧ fin v = fin w ∧ 0 ≤ y ∧ (1 - u) ^ (k + 1) * y ≤ w ∧ w ≤ (1 + u) ^ (k + 1) * y := by
    have := h.weaken hu hu1 (k' := k + 1) (by omega)
    exact ⟨x, v, rfl, rfl, hx, this.lower, this.upper⟩
  have quot : ∀ c : Nat, 1 ≤ c → c ≤ n + m → ∃ y w, fin (x / c) = fin y ∧ A.rnd (v / c) = fin w ∧ 0 ≤ y ∧
      (1 - u) ^ (k + 1) * y ≤ w ∧ w ≤ (1 + u) ^ (k + 1) * y := by
    intro c hc1 hc2
    have hc : (0 : ℚ) < c := by exact_mod_cast hc1
    have hc1' : (1 : ℚ) ≤ c := by exact_mod_cast hc1
    have hc2' : (c : ℚ) ≤ n + m := by exact_mod_cast hc2
    have hy : 0 ≤ x / c := div_nonneg hx hc.le
    have l1 : (1 - u) ^ k * (x / c) ≤ v / c := by
      rw [← mul_div_assoc]; exact div_le_div_of_nonneg_right h.lower hc.le
    have l2 : v / c ≤ (1 + u) ^ k * (x / c) := by
      rw [← mul_div_assoc]; exact div_le_div_of_nonneg_right h.upper hc.le
    have hp : (0 : ℚ) ≤ (1 - u) ^ k := pow_nonneg (by linarith) _
    have hp' : (0 : ℚ) ≤ (1 + u) ^ k := pow_nonneg (by linarith) _
    rcases h.clear with h0 | h0
    · refine ⟨x / c, 0, rfl, by rw [h0, zero_div, A.rnd_zero], hy, ?_, by positivity⟩
      rw [h0, zero_div] at l1
      rw [pow_succ, mul_right_comm]
      exact mul_nonpos_of_nonpos_of_nonneg l1 (by linarith)
    · obtain ⟨w, e, w1, w2, _⟩ := hA.err (v / c) (by
        rw [le_div_iff₀ hc]
        exact le_trans (mul_le_mul_of_nonneg_left hc2' hA.lo_pos.le) (le_trans hlo h0)) (by
        refine le_trans (div_le_self ?_ hc1') hv
        exact le_trans (mul_nonneg hp hx) h.lower)
      refine ⟨x / c, w, rfl, e, hy, ?_, ?_⟩
      · calc (1 - u) ^ (k + 1) * (x / c) = (1 - u) * ((1 - u) ^ k * (x / c)) := by rw [pow_succ]; ring
          _ ≤ (1 - u) * (v / c) := mul_le_mul_of_nonneg_left l1 (by linarith)
          _ ≤ w := w1
      · calc w ≤ (1 + u) * (v / c) := w2
          _ ≤ (1 + u) * ((1 + u) ^ k * (x / c)) := mul_le_mul_of_nonneg_left l2 (by linarith)
          _ = (1 + u) ^ (k + 1) * (x / c) := by rw [pow_succ]; ring
  unfold normBy
  by_cases h1 : hint = "N+M"
  · rw [if_pos h1, if_pos h1]
    simp only [Arith.divQ]
    rw [if_neg (by positivity), if_neg (by positivity)]
    have := quot (n + j + 1) (by omega) (by omega)
    push_cast at this
    exact this
  · rw [if_neg h1, if_neg h1]
    by_cases h2 : hint = "N"
    · rw [if_pos h2, if_pos h2]
      simp only [Arith.divQ]
      rw [if_neg hn0, if_neg hn0]
      exact quot n (by omega) (by omega)
    · rw [if_neg h2, if_neg h2]
      by_cases h3 : hint = "M"
      · rw [if_pos h3, if_pos h3]
        simp only [Arith.divQ]
        rw [if_neg (by positivity), if_neg (by positivity)]
        have := quot (1 + j) (by omega) (by omega)
        push_cast at this
        exact this
      · rw [if_neg h3, if_neg h3]
        exact same

/-- `v` is within `k` roundings of the exact value `v0`. -/
def Within (u : ℚ) (k : Nat) (v v0 : F64) : Prop :=
  (v = nan ∧ v0 = nan) ∨ ∃ d d0, v = fin d ∧ v0 = fin d0 ∧ 0 ≤ d0 ∧ (1 - u) ^ k * d0 ≤ d ∧ d ≤ (1 + u) ^ k * d0

/-- The end of the computation is accurate. -/
theorem finish_accurate {lo2 : ℚ} {qr qr0 : Option (Mat F64 × Mat F64)} {lm lm0 : Mat F64} (hp : WF p rs) (hn : 0 < n)
    (hm : 0 < m) (hq : 0 < q) (hA : RelErr A u lo hi) (hA2 : RelErr A u lo2 hi) (hlo : lo2 * (n + m) ≤ lo) (hP : 0 ≤ P)
    (ht : Tame u lo hi P rs q m ℓ) (hS : TameSeeds lo P q m S) {T : Nat} (hT : ∀ r ∈ rs, r.terms.length ≤ T)
    (hK : (1 + u) ^ (T * (q + m) + 2) * (((T * (q + m) : ℕ) + 1) * P) ≤ hi)
    (hB : Bellman A rs q m W (fun i j => fin (ℓ i j)) S G D)
    (hB0 : Bellman Arith.exact rs q m W (fun i j => fin (ℓ i j)) S G0 D0) :
    ((∃ r, finish A a p n m qr q lm G D = .ok r) ↔ ∃ r0, finish Arith.exact a p n m qr0 q lm0 G0 D0 = .ok r0) ∧
    ∀ r r0, finish A a p n m qr q lm G D = .ok r → finish Arith.exact a p n m qr0 q lm0 G0 D0 = .ok r0 →
      Within u (T * (q + m) + 3) r.normalizedDistance r0.normalizedDistance ∧
      (a.openEnd = false → Within u (T * (q + m) + 3) r.distance r0.distance) ∧
      ∃ j i0 j0 ks x, j < m ∧ r.jmin = j ∧ Path Arith.exact rs W (fun i j => fin (ℓ i j)) S i0 j0 ks (q - 1) j (fin x) ∧
        (∀ mp, r.mapping = some mp → mp.stepsTaken = ks) ∧ Within u (T * (q + m) + 3) r.distance (fin x) ∧
        (p.hint ≠ "NA" → ∃ y y0, normBy Arith.exact p.hint n j (fin x) = fin y ∧ r0.normalizedDistance = fin y0 ∧
          0 ≤ y0 ∧ (1 - u) ^ (T * (q + m) + 3) * y ≤ (1 + u) ^ (T * (q + m) + 3) * y0) := by
  have hu := hA.u_nonneg
  have hu1 := hA.u_le
  have acc := fun {i j : Nat} (hi' : i < q) (hj : j < m) => Bellman.accurate hA hP hp.valid ht hS hT hK hB hB0 hi' hj
  set K := T * (q + m) with hKdef
  have nrm : ∀ j < m, G (q - 1) j ≠ nan → ∃ x v y w, G0 (q - 1) j = fin x ∧ G (q - 1) j = fin v ∧
      Approx u lo (K + 2) x v ∧ normBy Arith.exact p.hint n j (fin x) = fin y ∧ normBy A p.hint n j (fin v) = fin w ∧
      0 ≤ y ∧ (1 - u) ^ (K + 3) * y ≤ w ∧ w ≤ (1 + u) ^ (K + 3) * y := by
    intro j hj hne
    rcases acc (i := q - 1) (by omega) hj with ⟨h1, _⟩ | ⟨x, v, e0, e, ha, hv, _⟩
    · exact absurd h1 hne
    · obtain ⟨y, w, h1, h2, h3, h4, h5⟩ := normBy_approx hA2 hlo hn hj ha hv p.hint
      exact ⟨x, v, y, w, e0, e, ha, h1, h2, h3, h4, h5⟩
  have nan_iff : ∀ j < m, G (q - 1) j = nan ↔ G0 (q - 1) j = nan := by
    intro j hj
    rcases acc (i := q - 1) (by omega) hj with ⟨h1, h2⟩ | ⟨x, v, e0, e, _⟩
    · simp [h1, h2]
    · simp [e0, e]
  constructor
  · rw [finish_succeeds_iff hp hn hm hq hB (by
      intro j hj hne
      obtain ⟨x, v, y, w, e0, e, _, h1, h2, _⟩ := nrm j hj hne
      rw [e, h2]; exact usable_fin _),
      finish_succeeds_iff hp hn hm hq hB0 (by
      intro j hj hne
      obtain ⟨x, v, y, w, e0, e, _, h1, h2, _⟩ := nrm j hj (by rwa [Ne, nan_iff j hj])
      rw [e0, h1]; exact usable_fin _)]
    have e1 : (G (q - 1) (m - 1) ≠ nan) ↔ (G0 (q - 1) (m - 1) ≠ nan) := not_congr (nan_iff _ (by omega))
    have e2 : (∃ j < m, G (q - 1) j ≠ nan) ↔ (∃ j < m, G0 (q - 1) j ≠ nan) := by
      constructor
      · rintro ⟨j, hj, h⟩; exact ⟨j, hj, (not_congr (nan_iff _ hj)).1 h⟩
      · rintro ⟨j, hj, h⟩; exact ⟨j, hj, (not_congr (nan_iff _ hj)).2 h⟩
    rw [e1, e2]
  · intro r r0 hr hr0
    obtain ⟨j, mp, he, hmp, rfl⟩ := finish_ok hn hq hm hr
    obtain ⟨j0, mp0, he0, _, rfl⟩ := finish_ok hn hq hm hr0
    obtain ⟨x, v, y, w, e0, e, ha, n0, n1, hy, w1, w2⟩ := nrm j he.lt he.ne_nan
    obtain ⟨x', v', y', w', e0', e', ha', n0', n1', hy', w1', w2'⟩ :=
      nrm j0 he0.lt (by rw [Ne, nan_iff _ he0.lt]; exact he0.ne_nan)
    -- the chosen columns are the same, or both are minimal
    have cmp : w ≤ w' ∧ y' ≤ y := by
      cases hoe : a.openEnd with
      | false =>
        have e : j = j0 := (he.closed hoe).trans (he0.closed hoe).symm
        subst e
        rw [e0] at e0'
        rw [e] at e'
        obtain rfl := F64.fin.inj e0'
        obtain rfl := F64.fin.inj e'
        rw [n0] at n0'
        rw [n1] at n1'
        obtain rfl := F64.fin.inj n0'
        obtain rfl := F64.fin.inj n1'
        exact ⟨_root_.le_refl _, _root_.le_refl _⟩
      | true =>
        have h1 := (he.opened hoe).2.min j0 he0.lt (by rw [e', n1']; simp)
        have h2 := (he0.opened hoe).2.min j he.lt (by rw [e0, n0]; simp)
        rw [e, e', n1, n1'] at h1
        rw [e0, e0', n0, n0'] at h2
        exact ⟨by simpa using h1, by simpa using h2⟩
    have hw' : w ≤ (1 + u) ^ (K + 3) * y' := le_trans cmp.1 w2'
    have nd : p.hint ≠ "NA" → (mkResult A a p n m q qr lm G D j mp).normalizedDistance = fin w := by
      intro h
      simp only [mkResult, if_neg h]
      rw [e, n1]
    have nd0 : p.hint ≠ "NA" → (mkResult Arith.exact a p n m q qr0 lm0 G0 D0 j0 mp0).normalizedDistance = fin y' := by
      intro h
      simp only [mkResult, if_neg h]
      rw [e0', n0']
    refine ⟨?_, ?_, ?_⟩
    · by_cases hNA : p.hint = "NA"
      · left; simp [mkResult, hNA]
      · right
        refine ⟨w, y', nd hNA, nd0 hNA, hy', ?_, hw'⟩
        exact le_trans (mul_le_mul_of_nonneg_left cmp.2 (pow_nonneg (by linarith) _)) w1
    · intro hoe
      right
      have ej : j = j0 := (he.closed hoe).trans (he0.closed hoe).symm
      subst ej
      have := ha.weaken hu hu1 (k' := K + 3) (by omega)
      exact ⟨v, x, e, e0, this.x_nonneg, this.lower, this.upper⟩
    · obtain ⟨i1, j1, ks, hpth, htr⟩ := hB.sound hp.valid _ (q - 1) j rfl (by omega) he.lt he.ne_nan
      have hpm := hmp
      rw [pickMapping_trace hp hq htr he.lt] at hpm
      rcases acc (i := q - 1) (by omega) he.lt with ⟨h1, _⟩ | ⟨x2, v2, _, e2, _, hvhi, hall⟩
      · exact absurd h1 he.ne_nan
      rw [e] at e2
      obtain rfl := F64.fin.inj e2
      rw [e] at hpth
      obtain ⟨x3, hx3, ha3⟩ := hall _ _ _ hpth
      obtain ⟨y3, w3, m0, m1, hy3, w31, _⟩ := normBy_approx hA2 hlo hn he.lt ha3 hvhi p.hint
      rw [n1] at m1
      obtain rfl := F64.fin.inj m1
      refine ⟨j, i1, j1, ks, x3, he.lt, rfl, hx3, ?_, ?_, ?_⟩
      · intro mp1 hmp1
        have : mp = some mp1 := hmp1
        rw [this] at hpm
        revert hpm
        cases a.openBegin <;> cases a.distanceOnly <;> simp
        · rintro rfl; rfl
        · rintro rfl; rfl
      · right
        have := ha3.weaken hu hu1 (k' := K + 3) (by omega)
        exact ⟨v, x3, e, rfl, this.x_nonneg, this.lower, this.upper⟩
      · intro hNA
        exact ⟨y3, y', m0, nd0 hNA, hy', le_trans w31 hw'⟩

/-- A range of accuracy can be cut from below at a representable number. -/
theorem RelErr.raise {lo' : ℚ} (h : RelErr A u lo hi) (hle : lo ≤ lo') (hr : A.rnd lo' = fin lo') : RelErr A u lo' hi where
  u_nonneg := h.u_nonneg
  u_le := h.u_le
  lo_pos := lt_of_lt_of_le h.lo_pos hle
  err := by
    intro x h1 h2
    obtain ⟨v, e, v1, v2, _⟩ := h.err x (le_trans hle h1) h2
    refine ⟨v, e, v1, v2, ?_⟩
    have := A.rnd_mono _ _ h1
    rw [hr, e] at this
    simpa using this

/-- `v` agrees with the exact value `v0`: both are NaN, or both are numbers and the relative error of `v` is at most
`ε`. -/
def Close (ε : ℚ) (v v0 : F64) : Prop :=
  (v = nan ∧ v0 = nan) ∨ ∃ d d0, v = fin d ∧ v0 = fin d0 ∧ 0 ≤ d0 ∧ |d - d0| ≤ ε * d0


theorem Within.weaken {k k' : Nat} {v v0 : F64} (hu : 0 ≤ u) (hu1 : u ≤ 1) (h : Within u k v v0) (hk : k ≤ k') :
    Within u k' v v0 := by
  rcases h with h | ⟨d, d0, e, e0, h0, h1, h2⟩
  · exact .inl h
  · refine .inr ⟨d, d0, e, e0, h0, ?_, ?_⟩
    · exact le_trans (mul_le_mul_of_nonneg_right (pow_le_pow_of_le_one (by linarith) (by linarith) hk) h0) h1
    · exact le_trans h2 (mul_le_mul_of_nonneg_right (pow_le_pow_right₀ (by linarith) hk) h0)

theorem small_count {k : Nat} (hk : k ≤ 2 ^ 33) : (k : ℚ) * (1 / 2 ^ 53) ≤ 1 / 2 ^ 20 := by
  have hk1 : (k : ℚ) ≤ 2 ^ 33 := by exact_mod_cast hk
  have : (k : ℚ) * (1 / 2 ^ 53) ≤ 2 ^ 33 * (1 / 2 ^ 53) := mul_le_mul_of_nonneg_right hk1 (by norm_num)
  refine le_trans this ?_
  norm_num

theorem pow_up {k : Nat} (hk : k ≤ 2 ^ 33) : (1 + 1 / 2 ^ 53 : ℚ) ^ k ≤ 1 + 2 * k * (1 / 2 ^ 53) :=
  pow_le_linear (by norm_num) k (le_trans (small_count hk) (by norm_num))

theorem pow_down (k : Nat) : 1 - (k : ℚ) * (1 / 2 ^ 53) ≤ (1 - 1 / 2 ^ 53) ^ k := by
  have := one_add_mul_le_pow (a := -(1 / 2 ^ 53 : ℚ)) (by norm_num) k
  calc 1 - (k : ℚ) * (1 / 2 ^ 53) = 1 + (k : ℚ) * (-(1 / 2 ^ 53)) := by ring
    _ ≤ _ := this
    _ = _ := by rw [← sub_eq_add_neg]

theorem Within.close {k : Nat} {v v0 : F64} (hk : k ≤ 2 ^ 33) (h : Within (1 / 2 ^ 53) k v v0) :
    Close ((k : ℚ) / 2 ^ 52) v v0 := by
  rcases h with h | ⟨d, d0, e, e0, h0, b1, b2⟩
  · exact .inl h
  · refine .inr ⟨d, d0, e, e0, h0, ?_⟩
    have l1 := mul_le_mul_of_nonneg_right (pow_down k) h0
    have l2 := mul_le_mul_of_nonneg_right (pow_up hk) h0
    have hkd : 0 ≤ (k : ℚ) * d0 := mul_nonneg (by positivity) h0
    have e : (k : ℚ) / 2 ^ 52 * d0 = 2 * ((k : ℚ) * d0) / 2 ^ 53 := by ring
    rw [e, abs_le]
    have l1' : d0 - (k * d0) / 2 ^ 53 ≤ d := by
      refine le_trans (le_of_eq ?_) (le_trans l1 b1); ring
    have l2' : d ≤ d0 + 2 * (k * d0) / 2 ^ 53 := by
      refine le_trans b2 (le_trans l2 (le_of_eq ?_)); ring
    constructor <;> linarith

theorem near_of_pow {k : Nat} {y y0 : ℚ} (hk : k ≤ 2 ^ 33) (hy0 : 0 ≤ y0)
    (h : (1 - 1 / 2 ^ 53) ^ k * y ≤ (1 + 1 / 2 ^ 53) ^ k * y0) : y ≤ (1 + (k : ℚ) / 2 ^ 50) * y0 := by
  have hsm := small_count hk
  have l2 := mul_le_mul_of_nonneg_right (pow_up hk) hy0
  generalize hs' : (k : ℚ) * (1 / 2 ^ 53) = s at hsm
  have hs0 : 0 ≤ s := by rw [← hs']; positivity
  have e3 : (1 + 2 * (k : ℚ) * (1 / 2 ^ 53)) = 1 + 2 * s := by rw [← hs']; ring
  have e4 : (1 + (k : ℚ) / 2 ^ 50) = 1 + 8 * s := by rw [← hs']; ring
  rw [e3] at l2
  rw [e4]
  have hs1 : s ≤ 1 / 2 := le_trans hsm (by norm_num)
  rcases le_total y 0 with hy | hy
  · exact le_trans hy (mul_nonneg (by linarith) hy0)
  · have l3 := mul_le_mul_of_nonneg_right (pow_down k) hy
    rw [hs'] at l3
    have key : (1 + 2 * s) ≤ (1 - s) * (1 + 8 * s) := by nlinarith
    have : (1 - s) * y ≤ (1 - s) * ((1 + 8 * s) * y0) := by
      refine le_trans (le_trans l3 (le_trans h l2)) ?_
      rw [← mul_assoc]
      exact mul_le_mul_of_nonneg_right key hy0
    exact le_of_mul_le_mul_left this (by linarith)

/-- A local cost that is zero or between 2^-900 and 2^900. -/
def ModestCost (x : ℚ) : Prop := x = 0 ∨ (1 / 2 ^ 900 ≤ x ∧ x ≤ 2 ^ 900)

/-- Doubles meet the requirements of the general analysis on modest costs and weights. -/
theorem modest_setup (f : Bool) (hw : ModestWeights rs) (hc : ∀ i < q, ∀ j < m, ModestCost (ℓ i j))
    (hsm : q + m ≤ 2147483649) (hsm' : n + m ≤ 2147483649) :
    ∃ lo lo2 hi P : ℚ, RelErr (binary64 f) (1 / 2 ^ 53) lo hi ∧ RelErr (binary64 f) (1 / 2 ^ 53) lo2 hi ∧
      lo2 * (n + m) ≤ lo ∧ 0 ≤ P ∧ Tame (1 / 2 ^ 53) lo hi P rs q m ℓ ∧
      (1 + 1 / 2 ^ 53 : ℚ) ^ (3 * (q + m) + 2) * (((3 * (q + m) : ℕ) + 1) * P) ≤ hi ∧
      ∀ s, ModestCost s → (s = 0 ∨ lo ≤ s) ∧ s ≤ P := by
  have z1 : (2 : ℚ) ^ (-950 : ℤ) ≤ 1 / 2 * (1 / 4 * (1 / 2 ^ 900)) := by
    have e : (1 / 2 * (1 / 4 * (1 / 2 ^ 900)) : ℚ) = 2 ^ (-903 : ℤ) := by
      rw [show (-903 : ℤ) = -1 + (-2 + -(900 : ℕ)) by norm_num, zpow_add₀ (by norm_num), zpow_add₀ (by norm_num),
        zpow_neg _ ((900 : ℕ) : ℤ), zpow_natCast]
      generalize (2 : ℚ) ^ 900 = X
      rw [show ((2 : ℚ) ^ (-1 : ℤ)) = 1 / 2 by norm_num, show ((2 : ℚ) ^ (-2 : ℤ)) = 1 / 4 by norm_num, one_div X]
    rw [e]; exact two_zpow_le (by norm_num)
  have z2 : (2 : ℚ) * (2 ^ 33 * (4 * 2 ^ 900)) ≤ 2 ^ (1023 : ℤ) := by
    have e : (2 * (2 ^ 33 * (4 * 2 ^ 900)) : ℚ) = 2 ^ (936 : ℤ) := by
      rw [show (936 : ℤ) = 36 + (900 : ℕ) by norm_num, zpow_add₀ (by norm_num), zpow_natCast]
      generalize (2 : ℚ) ^ 900 = X
      rw [show ((2 : ℚ) ^ (36 : ℤ)) = 68719476736 by norm_num]
      ring
    rw [e]; exact two_zpow_le (by norm_num)
  have z4 : (2 : ℚ) ^ (-950 : ℤ) ≤ 1 / 4 := by
    rw [show (1 / 4 : ℚ) = 2 ^ (-2 : ℤ) by norm_num]; exact two_zpow_le (by norm_num)
  have z5 : (2 : ℚ) ^ (-1022 : ℤ) ≤ 2 ^ (-950 : ℤ) := two_zpow_le (by norm_num)
  have z6 : (2 : ℚ) ^ (-1022 : ℤ) * 2 ^ (32 : ℤ) ≤ 2 ^ (-950 : ℤ) := by
    rw [← zpow_add₀ (by norm_num)]; exact two_zpow_le (by norm_num)
  have z7 : ((n : ℚ) + m) ≤ 2 ^ (32 : ℤ) := by
    rw [show ((2 : ℚ) ^ (32 : ℤ)) = 4294967296 by norm_num]
    have : n + m ≤ 4294967296 := by omega
    exact_mod_cast this
  have z8 : (0 : ℚ) < 2 ^ (-1022 : ℤ) := two_zpow_pos _
  have z9 : (binary64 f).rnd (2 ^ (-950 : ℤ)) = fin (2 ^ (-950 : ℤ)) := rnd64_double (isDouble_zpow (by norm_num) (by norm_num))
  have z0 : (0 : ℚ) < 1 / 2 ^ 900 := by positivity
  have z3 : (1 : ℚ) ≤ 2 ^ 900 := one_le_pow₀ (by norm_num)
  have hA2 := C49_binary64_relerr f
  have hA := hA2.raise z5 z9
  have hkk : 3 * (q + m) + 2 ≤ 2 ^ 33 := by omega
  have hup := pow_up hkk
  have hsc := small_count hkk
  have hk1 : (((3 * (q + m) : ℕ) : ℚ) + 1) ≤ 2 ^ 33 := by
    have : 3 * (q + m) + 1 ≤ 2 ^ 33 := by omega
    exact_mod_cast this
  unfold ModestCost at hc ⊢
  generalize (1 : ℚ) / 2 ^ 900 = c0 at hc z0 z1 ⊢
  generalize (2 : ℚ) ^ 900 = c1 at hc z2 z3 ⊢
  generalize (2 : ℚ) ^ (-1022 : ℤ) = lo2 at *
  generalize (2 : ℚ) ^ (-950 : ℤ) = lo at *
  generalize (2 : ℚ) ^ (1023 : ℤ) = hi at *
  generalize (2 : ℚ) ^ (32 : ℤ) = c32 at *
  refine ⟨lo, lo2, hi, 4 * c1, hA, hA2, le_trans (mul_le_mul_of_nonneg_left z7 z8.le) z6, by linarith, ⟨?_, ?_, ?_, ?_⟩, ?_, ?_⟩
  · intro i hi' j hj
    rcases hc i hi' j hj with h0 | ⟨h0, _⟩
    · exact .inl h0
    · right; linarith
  · intro i hi' j hj
    rcases hc i hi' j hj with h0 | ⟨_, h0⟩ <;> linarith
  · intro r hr t ht
    rcases (hw r hr).2 t ht with h0 | ⟨h1, h2⟩
    · exact .inl h0
    · right
      exact ⟨by linarith, by linarith⟩
  · intro r hr t ht i hi' j hj
    rcases (hw r hr).2 t ht with h0 | ⟨h1, h2⟩
    · left; rw [h0, zero_mul]
    · rcases hc i hi' j hj with h3 | ⟨h3, h4⟩
      · left; rw [h3, mul_zero]
      · right
        have h5 : 1 / 4 * c0 ≤ t.w * ℓ i j := mul_le_mul h1 h3 z0.le (by linarith)
        have h6 : t.w * ℓ i j ≤ 4 * c1 := mul_le_mul h2 h4 (by linarith) (by norm_num)
        refine ⟨le_trans z1 ?_, h6⟩
        exact mul_le_mul (by norm_num) h5 (by linarith) (by norm_num)
  · refine le_trans ?_ z2
    refine mul_le_mul ?_ (mul_le_mul_of_nonneg_right hk1 (by linarith)) (by positivity) (by norm_num)
    refine le_trans hup ?_
    generalize ((3 * (q + m) + 2 : ℕ) : ℚ) = k at hsc ⊢
    have : 2 * k * (1 / 2 ^ 53) = 2 * (k * (1 / 2 ^ 53)) := by ring
    rw [this]; linarith
  · intro s hs
    rcases hs with h0 | ⟨h0, h1⟩
    · exact ⟨.inl h0, by rw [h0]; linarith⟩
    · exact ⟨.inr (by linarith), by linarith⟩

/-- C49 for every combination of open ends, in double precision (with or without fused multiply-add), for every pattern
with modest weights and every matrix of modest local costs.  The call succeeds exactly when it does in exact arithmetic;
every entry of the cost matrix, the normalized distance and (when the end is fixed) the distance have relative error at
most `(3(N+M)+6) * 2^-52`; and the rules taken form a path, to the end point that was chosen, whose exact cost is that
close to the distance returned and, normalized, at most a factor `1 + (3(N+M)+6) * 2^-50` above the best possible. -/
theorem C49_any_ends (f : Bool) (h : Problem a n m (fun i j => fin (ℓ i j)) W p rs) (hw : ModestWeights rs)
    (hc : ∀ i < n, ∀ j < m, ModestCost (ℓ i j)) :
    ((∃ r, dtw (binary64 f) a = .ok r) ↔ ∃ r0, dtw Arith.exact a = .ok r0) ∧
    ∀ r r0, dtw (binary64 f) a = .ok r → dtw Arith.exact a = .ok r0 →
      Close (((3 * (n + m) + 6 : ℕ) : ℚ) / 2 ^ 52) r.normalizedDistance r0.normalizedDistance ∧
      (a.openEnd = false → Close (((3 * (n + m) + 6 : ℕ) : ℚ) / 2 ^ 52) r.distance r0.distance) ∧
      (∀ C C0, r.costMatrix = some C → r0.costMatrix = some C0 → ∃ g g0, C = Mat.ofFn n m g ∧ C0 = Mat.ofFn n m g0 ∧
        ∀ i < n, ∀ j < m, Close (((3 * (n + m) + 6 : ℕ) : ℚ) / 2 ^ 52) (g i j) (g0 i j)) ∧
      ∃ j ks x, j < m ∧ r.jmin = (j : Int) ∧ (∀ mp, r.mapping = some mp → mp.stepsTaken = ks) ∧
        (if a.openBegin then ∃ j0, OpenPath Arith.exact rs W (fun i j => fin (ℓ i j)) j0 ks n j (fin x)
          else WarpPath Arith.exact rs W (fun i j => fin (ℓ i j)) ks (n - 1) j (fin x)) ∧
        Close (((3 * (n + m) + 6 : ℕ) : ℚ) / 2 ^ 52) r.distance (fin x) ∧
        (p.hint ≠ "NA" → ∃ y y0, normBy Arith.exact p.hint n j (fin x) = fin y ∧ r0.normalizedDistance = fin y0 ∧
          y ≤ (1 + ((3 * (n + m) + 6 : ℕ) : ℚ) / 2 ^ 50) * y0) := by
  have hn := h.n_pos
  have hm := h.m_pos
  have hcell := h.fits.cells
  have u0 : (0 : ℚ) ≤ 1 / 2 ^ 53 := by norm_num
  have u1 : (1 / 2 ^ 53 : ℚ) ≤ 1 := by norm_num
  have size : ∀ q, 0 < q → q * m ≤ 2147483648 → q + m ≤ 2147483649 := by
    intro q hq hqm
    have h2 : q + m ≤ q * m + 1 := by
      obtain ⟨n', rfl⟩ := Nat.exists_eq_add_of_lt hq
      obtain ⟨m', rfl⟩ := Nat.exists_eq_add_of_lt hm
      nlinarith [Nat.zero_le (n' * m')]
    omega
  cases hob : a.openBegin with
  | false =>
    have hsm : n + m ≤ 2147483649 := size n hn (by
      simp only [gridRows, hob, Bool.false_eq_true, if_false] at hcell; omega)
    have hk : 3 * (n + m) + 6 ≤ 2 ^ 33 := by omega
    obtain ⟨lo, lo2, hi, P, hA, hA2, hlo, hP, ht, hK, hsd⟩ := modest_setup f hw hc hsm hsm
    have hS : TameSeeds lo P n m (closedSeed fun i j => fin (ℓ i j)) := by
      intro i hi' j hj
      unfold closedSeed
      split
      · exact .inr ⟨_, rfl, hsd _ (hc 0 hn 0 hm)⟩
      · exact .inl rfl
    obtain ⟨qr, hall⟩ := dtw_closed_all h hob
    obtain ⟨G, D, hB, hd⟩ := hall (binary64 f)
    obtain ⟨G0, D0, hB0, hd0⟩ := hall Arith.exact
    obtain ⟨hs, hmain⟩ := finish_accurate (a := a) (qr := qr) (qr0 := qr) (lm := Mat.ofFn n m fun i j => fin (ℓ i j))
      (lm0 := Mat.ofFn n m fun i j => fin (ℓ i j)) h.wf hn hm hn hA hA2 hlo hP ht hS (fun r hr => (hw r hr).1) hK hB hB0
    rw [← hd, ← hd0] at hs
    refine ⟨hs, ?_⟩
    intro r r0 hr hr0
    have hr' := hr
    have hr0' := hr0
    rw [hd] at hr'
    rw [hd0] at hr0'
    obtain ⟨c1, c2, j, i0, j0, ks, x, hj, hjm, hpth, hks, hdx, hnx⟩ := hmain r r0 hr' hr0'
    have wk : ∀ {v v0}, Within (1 / 2 ^ 53) (3 * (n + m) + 3) v v0 → Close (((3 * (n + m) + 6 : ℕ) : ℚ) / 2 ^ 52) v v0 :=
      fun h => (h.weaken u0 u1 (by omega)).close hk
    refine ⟨wk c1, fun hoe => wk (c2 hoe), ?_, j, ks, x, hj, hjm, hks, ?_, wk hdx, ?_⟩
    · intro C C0 e e0
      obtain ⟨j1, mp1, _, _, rfl⟩ := finish_ok hn hn hm hr'
      obtain ⟨j2, mp2, _, _, rfl⟩ := finish_ok hn hn hm hr0'
      have hki : a.keepInternals = true := by
        by_contra hki
        simp [mkResult, hki] at e
      simp only [mkResult, hki, if_true, hob, Bool.false_eq_true, if_false, Option.some.injEq] at e e0
      refine ⟨G, G0, e.symm, e0.symm, ?_⟩
      intro i hi' j hj
      apply wk
      rcases Bellman.accurate hA hP h.wf.valid ht hS (fun r hr => (hw r hr).1) hK hB hB0 hi' hj with h1 | ⟨x, v, e0, e, ha, _⟩
      · exact .inl h1
      · have := ha.weaken u0 u1 (k' := 3 * (n + m) + 3) (by omega)
        exact .inr ⟨v, x, e, e0, this.x_nonneg, this.lower, this.upper⟩
    · simp only [Bool.false_eq_true, if_false]
      exact hpth.toWarpPath.2.2
    · intro hNA
      obtain ⟨y, y0, h1, h2, h3, h4⟩ := hnx hNA
      refine ⟨y, y0, h1, h2, near_of_pow hk h3 ?_⟩
      have hy : 0 ≤ y ∨ y ≤ 0 := le_total _ _
      rcases hy with hy | hy
      · refine le_trans ?_ (le_trans h4 ?_)
        · exact mul_le_mul_of_nonneg_right (pow_le_pow_of_le_one (by norm_num) (by norm_num) (by omega)) hy
        · exact mul_le_mul_of_nonneg_right (pow_le_pow_right₀ (by norm_num) (by omega)) h3
      · refine le_trans (mul_nonpos_of_nonneg_of_nonpos (pow_nonneg (by norm_num) _) hy) ?_
        exact mul_nonneg (pow_nonneg (by norm_num) _) h3
  | true =>
    by_cases hh : p.hint = "N"
    · have hsm' : (n + 1) + m ≤ 2147483649 := size (n + 1) (by omega) (by
        simp only [gridRows, hob, if_true] at hcell; omega)
      have hsm : n + m ≤ 2147483649 := by omega
      have hk : 3 * (n + m) + 6 ≤ 2 ^ 33 := by omega
      have eL : nullRow (fun i j => fin (ℓ i j)) = fun i j => fin (if i = 0 then 0 else ℓ (i - 1) j) := by
        funext i j
        unfold nullRow
        split <;> simp
      have hc' : ∀ i < n + 1, ∀ j < m, ModestCost (if i = 0 then 0 else ℓ (i - 1) j) := by
        intro i hi' j hj
        split
        · exact .inl rfl
        · exact hc _ (by omega) _ hj
      obtain ⟨lo, lo2, hi, P, hA, hA2, hlo, hP, ht, hK, hsd⟩ := modest_setup f hw hc' hsm' hsm
      have hS : TameSeeds lo P (n + 1) m openSeed := by
        intro i hi' j hj
        unfold openSeed
        split
        · exact .inr ⟨0, rfl, .inl rfl, hP⟩
        · exact .inl rfl
      obtain ⟨qr, hall⟩ := dtw_open_all h hob hh
      obtain ⟨G, D, hB, hd⟩ := hall (binary64 f)
      obtain ⟨G0, D0, hB0, hd0⟩ := hall Arith.exact
      rw [eL] at hB hB0 hd hd0
      obtain ⟨hs, hmain⟩ := finish_accurate (a := a) (qr := qr) (qr0 := qr)
        (lm := Mat.ofFn (n + 1) m fun i j => fin (if i = 0 then 0 else ℓ (i - 1) j))
        (lm0 := Mat.ofFn (n + 1) m fun i j => fin (if i = 0 then 0 else ℓ (i - 1) j))
        h.wf hn hm (Nat.succ_pos n) hA hA2 hlo hP ht hS (fun r hr => (hw r hr).1) hK hB hB0
      rw [← hd, ← hd0] at hs
      refine ⟨hs, ?_⟩
      intro r r0 hr hr0
      have hr' := hr
      have hr0' := hr0
      rw [hd] at hr'
      rw [hd0] at hr0'
      obtain ⟨c1, c2, j, i0, j0, ks, x, hj, hjm, hpth, hks, hdx, hnx⟩ := hmain r r0 hr' hr0'
      have wk : ∀ {v v0}, Within (1 / 2 ^ 53) (3 * (n + 1 + m) + 3) v v0 →
          Close (((3 * (n + m) + 6 : ℕ) : ℚ) / 2 ^ 52) v v0 :=
        fun h => (h.weaken u0 u1 (k' := 3 * (n + m) + 6) (by omega)).close hk
      refine ⟨wk c1, fun hoe => wk (c2 hoe), ?_, j, ks, x, hj, hjm, hks, ?_, wk hdx, ?_⟩
      · intro C C0 e e0
        obtain ⟨j1, mp1, _, _, rfl⟩ := finish_ok hn (Nat.succ_pos n) hm hr'
        obtain ⟨j2, mp2, _, _, rfl⟩ := finish_ok hn (Nat.succ_pos n) hm hr0'
        have hki : a.keepInternals = true := by
          by_contra hki
          simp [mkResult, hki] at e
        simp only [mkResult, hki, if_true, hob, Option.some.injEq] at e e0
        rw [dropRow_ofFn] at e e0
        refine ⟨fun i j => G (i + 1) j, fun i j => G0 (i + 1) j, e.symm, e0.symm, ?_⟩
        intro i hi' j hj
        apply wk
        rcases Bellman.accurate hA hP h.wf.valid ht hS (fun r hr => (hw r hr).1) hK hB hB0 (i := i + 1) (by omega) hj with
          h1 | ⟨x, v, e0, e, ha, _⟩
        · exact .inl h1
        · have := ha.weaken u0 u1 (k' := 3 * (n + 1 + m) + 3) (by omega)
          exact .inr ⟨v, x, e, e0, this.x_nonneg, this.lower, this.upper⟩
      · simp only [if_true]
        rw [← eL] at hpth
        exact ⟨j0, hpth.toOpenPath.2⟩
      · intro hNA
        obtain ⟨y, y0, h1, h2, h3, h4⟩ := hnx hNA
        exact ⟨y, y0, h1, h2, near_of_pow hk h3 (by
          rw [show 3 * (n + 1 + m) + 3 = 3 * (n + m) + 6 by ring] at h4; exact h4)⟩
    · have e1 := open_bad_hint (A := binary64 f) h hob hh
      have e2 := open_bad_hint (A := Arith.exact) h hob hh
      rw [e1, e2]
      simp

/-- A witness: 4 × 5 costs that are thirds of integers, both ends open, `asymmetric`. -/
example : ∃ r r0, dtw (binary64 true) { Ex.call 4 5 (fun i j => fin (Ex.lat i j / 3)) "asymmetric" with
      openBegin := true, openEnd := true } = .ok r ∧
    dtw Arith.exact { Ex.call 4 5 (fun i j => fin (Ex.lat i j / 3)) "asymmetric" with
      openBegin := true, openEnd := true } = .ok r0 ∧
    Close ((33 : ℚ) / 2 ^ 52) r.normalizedDistance r0.normalizedDistance := by
  have hm : ("asymmetric", Pat.asymmetric) ∈ Pat.table := by decide +kernel
  have hp0 := bundled_problem (n := 4) (m := 5) (by decide) (by decide) (by decide) (fun i j => fin (Ex.lat i j / 3)) _ hm
  have hp : Problem { Ex.call 4 5 (fun i j => fin (Ex.lat i j / 3)) "asymmetric" with openBegin := true, openEnd := true }
      4 5 (fun i j => fin (Ex.lat i j / 3)) (fun _ _ => true) Pat.asymmetric (rulesOf Pat.asymmetric) :=
    ⟨by decide, by decide, .matrix rfl rfl rfl rfl, hp0.pattern, hp0.wf, table_fits (n := 5) (m := 5) (by decide) _ hm,
      .inl ⟨rfl, fun _ _ _ _ => rfl⟩⟩
  obtain ⟨r0, hr0⟩ := Ex.get_ok (x := dtw Arith.exact { Ex.call 4 5 (fun i j => fin (Ex.lat i j / 3)) "asymmetric" with
    openBegin := true, openEnd := true }) (by decide +kernel)
  have hc : ∀ i < 4, ∀ j < 5, ModestCost (Ex.lat i j / 3) := by
    have : ∀ i ∈ List.range 4, ∀ j ∈ List.range 5, Ex.lat i j / 3 = 0 ∨ (1 / 3 ≤ Ex.lat i j / 3 ∧ Ex.lat i j / 3 ≤ 1) := by
      decide +kernel
    intro i hi j hj
    rcases this i (List.mem_range.2 hi) j (List.mem_range.2 hj) with h | ⟨h1, h2⟩
    · exact .inl h
    · refine .inr ⟨le_trans ?_ h1, h2.trans ?_⟩
      · rw [div_le_div_iff₀ (by positivity) (by norm_num)]
        rw [one_mul, one_mul]
        exact le_trans (by norm_num : (3 : ℚ) ≤ 2 ^ 2) (pow_le_pow_right₀ (by norm_num) (by norm_num))
      · exact one_le_pow₀ (by norm_num)
  obtain ⟨h1, h2⟩ := C49_any_ends true hp (C49_bundled _ hm (by decide)) hc
  obtain ⟨r, hr⟩ := h1.2 ⟨r0, hr0⟩
  exact ⟨r, r0, hr, hr0, by simpa using (h2 r r0 hr hr0).1⟩

end DTW
