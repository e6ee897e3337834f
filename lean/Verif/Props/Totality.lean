import Verif.Props.Stability
import Verif.Props.Features
import Verif.Props.Slope

/-!
# C74: finite data never overflow, and succeed as in exact arithmetic
-/

namespace DTW
open F64

variable {a : Args} {n m : Nat} {W : Nat → Nat → Bool} {p : StepPattern} {rs : List Rule} {r : Result} {ℓ : Nat → Nat → ℚ}

/-- Multiples of a large unit `2^E` up to the `2^53`-fold are doubles. -/
theorem isDouble_units {E : ℤ} (h1 : -1074 ≤ E) (h2 : E ≤ 910) {k : ℕ} (hk : k ≤ 2 ^ 53) : IsDouble ((k : ℚ) * 2 ^ E) := by
  have hlt : |(k : ℚ) * 2 ^ E| < 2 ^ (1024 : ℤ) := by
    rw [abs_of_nonneg (by positivity), show (1024 : ℤ) = (1024 - E) + E by ring, zpow_add₀ (by norm_num : (2 : ℚ) ≠ 0)]
    apply mul_lt_mul_of_pos_right _ (two_zpow_pos _)
    have e1 : (k : ℚ) ≤ 2 ^ 53 := by exact_mod_cast hk
    have e2 : (2 : ℚ) ^ (114 : ℤ) ≤ 2 ^ (1024 - E) := two_zpow_le (by omega)
    exact lt_of_le_of_lt e1 (lt_of_lt_of_le (by norm_num) e2)
  rcases Nat.lt_or_ge k (2 ^ 53) with h | h
  · refine ⟨k, E, ?_, h1, by push_cast; rfl, hlt⟩
    rw [abs_of_nonneg (by positivity)]
    exact_mod_cast h
  · have : k = 2 ^ 53 := le_antisymm hk h
    subst this
    refine ⟨1, 53 + E, by norm_num, by omega, ?_, hlt⟩
    rw [zpow_add₀ (by norm_num : (2 : ℚ) ≠ 0)]
    norm_num

/-- A double of size at most `k` units of `2^E`. -/
def Sized (E : ℤ) (k : ℕ) (v : F64) : Prop := ∃ q : ℚ, v = fin q ∧ IsDouble q ∧ |q| ≤ k * 2 ^ E

theorem sized_rnd (f : Bool) {E : ℤ} (h1 : -1074 ≤ E) (h2 : E ≤ 910) {k : ℕ} (hk : k ≤ 2 ^ 53) {x : ℚ} (hx : |x| ≤ k * 2 ^ E) :
    Sized E k ((binary64 f).rnd x) := by
  have hd := isDouble_units h1 h2 hk
  have hd' := neg_isDouble hd
  obtain ⟨x1, x2⟩ := abs_le.1 hx
  have e1 := rnd64_mono x1
  have e2 := rnd64_mono x2
  rw [rnd64_double hd] at e2
  rw [rnd64_double hd'] at e1
  show Sized E k (rnd64 x)
  cases hv : rnd64 x with
  | nan => exact absurd hv ((binary64 f).rnd_ne_nan x)
  | ninf => rw [hv] at e1; simp [F64.lt] at e1
  | pinf => rw [hv] at e2; simp [F64.lt] at e2
  | fin q =>
    rw [hv] at e1 e2
    simp only [lt_fin, decide_eq_false_iff_not, not_lt] at e1 e2
    exact ⟨q, rfl, ((C49_nearest x).1 q hv).1, abs_le.2 ⟨e1, e2⟩⟩

theorem isDouble_zero : IsDouble 0 := ⟨0, 0, by norm_num, by norm_num, by norm_num, by rw [abs_zero]; exact two_zpow_pos _⟩

theorem sized_mac (f : Bool) {E : ℤ} (h1 : -1074 ≤ E) (h2 : E ≤ 910) {k : ℕ} (hk : k + 1 ≤ 2 ^ 53) {acc : F64}
    (ha : Sized E k acc) {w l : ℚ} (hwl : |w * l| ≤ 2 ^ E) : Sized E (k + 1) ((binary64 f).mac acc (fin w) (fin l)) := by
  obtain ⟨q, rfl, -, hq⟩ := ha
  have hp : ∃ y : ℚ, (if (binary64 f).fused then Arith.mulWith fin (fin w) (fin l) else (binary64 f).mul (fin w) (fin l)) = fin y ∧
      |y| ≤ 2 ^ E := by
    split
    · exact ⟨_, rfl, hwl⟩
    · obtain ⟨y, e1, -, e2⟩ := sized_rnd f h1 h2 (k := 1) (by norm_num) (x := w * l) (by rw [Nat.cast_one, one_mul]; exact hwl)
      rw [Nat.cast_one, one_mul] at e2
      exact ⟨y, e1, e2⟩
  obtain ⟨y, hy, hyb⟩ := hp
  unfold Arith.mac
  rw [hy]
  refine sized_rnd f h1 h2 hk ?_
  refine (abs_add_le q y).trans ?_
  push_cast
  rw [add_mul, one_mul]
  exact add_le_add hq hyb

/-- Local costs and weights for which nothing overflows: costs up to 2^900 in size, weights up to 2^9, at most 2^20 charged cells
per rule.  The costs are doubles. -/
structure BoundedData (n m : Nat) (ℓ : Nat → Nat → ℚ) (rs : List Rule) : Prop where
  doubles : ∀ i < n, ∀ j < m, IsDouble (ℓ i j)
  costs : ∀ i < n, ∀ j < m, |ℓ i j| ≤ 2 ^ (900 : ℤ)
  weights : ∀ q ∈ rs, ∀ t ∈ q.terms, |t.w| ≤ 2 ^ 9
  terms : ∀ q ∈ rs, q.terms.length ≤ 2 ^ 20

theorem rnd_weight_le (f : Bool) {w : ℚ} (hw : |w| ≤ 2 ^ 9) : ∃ v, (binary64 f).rnd w = fin v ∧ |v| ≤ 2 ^ 9 := by
  obtain ⟨h1, h2⟩ := abs_le.1 hw
  obtain ⟨v, hv, v1, v2⟩ := rnd_between f (lo := -512) (hi := 512) (x := w) (by norm_num) (by norm_num)
    (by push_cast; linarith) (by push_cast; linarith)
  push_cast at v1 v2
  exact ⟨v, hv, abs_le.2 ⟨by linarith, by linarith⟩⟩

theorem sized_charge (f : Bool) {ts : List Term} (hw : ∀ t ∈ ts, |t.w| ≤ 2 ^ 9) {L : Term → ℚ}
    (hL : ∀ t ∈ ts, |L t| ≤ 2 ^ (900 : ℤ)) {k : ℕ} {acc : F64} (ha : Sized 910 k acc) (hk : k + ts.length ≤ 2 ^ 53) :
    Sized 910 (k + ts.length) (ts.foldl (fun c t => (binary64 f).mac c ((binary64 f).rnd t.w) (fin (L t))) acc) := by
  induction ts generalizing k acc with
  | nil => exact ha
  | cons t ts ih =>
    simp only [List.length_cons] at hk ⊢
    rw [List.foldl_cons, show k + (ts.length + 1) = (k + 1) + ts.length by omega]
    refine ih (fun t ht => hw t (by simp [ht])) (fun t ht => hL t (by simp [ht])) ?_ (by omega)
    obtain ⟨v, hv, hv2⟩ := rnd_weight_le f (hw t (by simp))
    rw [hv]
    refine sized_mac f (by norm_num) (by norm_num) (by omega) ha ?_
    rw [abs_mul, show (910 : ℤ) = 10 + 900 by norm_num, zpow_add₀ (by norm_num : (2 : ℚ) ≠ 0)]
    refine mul_le_mul ?_ (hL t (by simp)) (abs_nonneg _) (by norm_num)
    exact hv2.trans (by norm_num)

theorem sized_start {x : ℚ} (hx : IsDouble x) (h : |x| ≤ 2 ^ (900 : ℤ)) {k : ℕ} (hk : 1 ≤ k) : Sized 910 k (fin x) := by
  refine ⟨x, rfl, hx, h.trans ?_⟩
  have h1 : (2 : ℚ) ^ (900 : ℤ) ≤ 2 ^ (910 : ℤ) := two_zpow_le (by norm_num)
  have h2 : (1 : ℚ) ≤ k := by exact_mod_cast hk
  exact h1.trans (le_mul_of_one_le_left (two_zpow_pos 910).le h2)

/-- The size of the cost of a path. -/
theorem WarpPath.sized (f : Bool) (hm : BoundedData n m ℓ rs) (hv : ∀ q ∈ rs, q.Valid) {ks : List Int} {i j : Nat} {c : F64}
    (h : WarpPath (binary64 f) rs W (fun i j => fin (ℓ i j)) ks i j c) :
    i < n → j < m → n + m ≤ 2 ^ 32 → Sized 910 (1 + 2 ^ 20 * (i + j)) c := by
  induction h with
  | start =>
    intro hi hj _
    exact sized_start (hm.doubles 0 hi 0 hj) (hm.costs 0 hi 0 hj) (by omega)
  | @step ks i j c k q hp hq hW ih =>
    intro hi hj hnm
    have hmem := List.mem_of_getElem? hq
    have hval := hv q hmem
    have h0 := ih (by omega) (by omega) hnm
    have hT := hm.terms q hmem
    have := sized_charge f (ts := q.terms) (hm.weights q hmem)
      (L := fun t => ℓ (i + q.a - t.di) (j + q.b - t.dj)) (fun t _ => hm.costs _ (by omega) _ (by omega)) h0 (by omega)
    obtain ⟨x, hx, hxd, hxb⟩ := this
    refine ⟨x, hx, hxd, hxb.trans ?_⟩
    apply mul_le_mul_of_nonneg_right _ (two_zpow_pos _).le
    have hab := hval.1
    exact_mod_cast (by omega : 1 + 2 ^ 20 * (i + j) + q.terms.length ≤ 1 + 2 ^ 20 * (i + q.a + (j + q.b)))

/-- The same, open begin. -/
theorem OpenPath.sized (f : Bool) (hm : BoundedData n m ℓ rs) (hv : ∀ q ∈ rs, q.Valid) {j0 : Nat} {ks : List Int} {i j : Nat}
    {c : F64} (h : OpenPath (binary64 f) rs W (fun i j => fin (ℓ i j)) j0 ks i j c) :
    i ≤ n → j < m → n + m ≤ 2 ^ 32 → Sized 910 (1 + 2 ^ 20 * (i + j)) c := by
  induction h with
  | start =>
    intro _ hj _
    exact sized_start isDouble_zero (by rw [abs_zero]; exact (two_zpow_pos _).le) (by omega)
  | @step ks i j c k q hp hq h0' hW ih =>
    intro hi hj hnm
    have hmem := List.mem_of_getElem? hq
    have hval := hv q hmem
    have h0 := ih (by omega) (by omega) hnm
    have hT := hm.terms q hmem
    have := sized_charge f (ts := q.terms) (hm.weights q hmem)
      (L := fun t => if i + q.a - t.di = 0 then 0 else ℓ (i + q.a - t.di - 1) (j + q.b - t.dj)) (fun t _ => by
        split
        · rw [abs_zero]; exact (two_zpow_pos _).le
        · exact hm.costs _ (by omega) _ (by omega)) h0 (by omega)
    obtain ⟨x, hx, hxd, hxb⟩ := this
    refine ⟨x, ?_, hxd, hxb.trans ?_⟩
    · rw [← hx]
      unfold charge
      congr 1
      funext c t
      simp only
      by_cases h0 : i + q.a - t.di = 0
      · rw [if_pos h0, if_pos h0]
      · rw [if_neg h0, if_neg h0]
    · apply mul_le_mul_of_nonneg_right _ (two_zpow_pos _).le
      have hab := hval.1
      exact_mod_cast (by omega : 1 + 2 ^ 20 * (i + j) + q.terms.length ≤ 1 + 2 ^ 20 * (i + q.a + (j + q.b)))

theorem Sized.usable {E : ℤ} {k : ℕ} {v : F64} (h : Sized E k v) : usable v := by
  obtain ⟨q, rfl, -⟩ := h
  exact usable_fin q

theorem fits_sum (h : Problem a n m (fun i j => fin (ℓ i j)) W p rs) : n + m ≤ 2 ^ 32 := by
  have h1 := h.fits.cells
  have h2 : n ≤ gridRows a n := by unfold gridRows; split <;> omega
  have h3 := h.n_pos
  have h4 := h.m_pos
  have h5 : n * 1 ≤ n * m := Nat.mul_le_mul_left n h4
  have h6 : 1 * m ≤ n * m := Nat.mul_le_mul_right m h3
  have h7 : n * m ≤ gridRows a n * m := Nat.mul_le_mul_right m h2
  omega

/-- **C74** In doubles, with finite local costs of size at most 2^900, whether a call returns an alignment depends on the sizes,
the window, the pattern and the options only, not on the costs, and is what exact arithmetic gives: nothing overflows.  Any
combination of open ends, `distance_only`, any pattern with weights up to 2^9. -/
theorem C74_success (f : Bool) {a' : Args} {ℓ' : Nat → Nat → ℚ} (h : Problem a n m (fun i j => fin (ℓ i j)) W p rs)
    (h' : Problem a' n m (fun i j => fin (ℓ' i j)) W p rs) (ho : SameOptions a a')
    (ht : BoundedData n m ℓ rs) :
    (∃ r, dtw (binary64 f) a = .ok r) ↔ ∃ r', dtw Arith.exact a' = .ok r' := by
  rw [← C62_existence h h' ho]
  have hn := h.n_pos
  have hm := h.m_pos
  have hnm := fits_sum h
  cases hob : a.openBegin with
  | false =>
    cases hoe : a.openEnd with
    | false =>
      rw [exact_success_iff h hob hoe, (C02_no_path_iff (A := binary64 f) h hob hoe).2]
      constructor
      · rintro (⟨ks, c, hp, -⟩ | ⟨-, -, hc⟩)
        · exact ⟨ks, hp.toRulePath⟩
        · cases hc
      · rintro ⟨ks, hp⟩
        obtain ⟨c, hc⟩ := hp.toWarpPath (A := binary64 f) (L := fun i j => fin (ℓ i j))
        exact .inl ⟨ks, c, hc, (hc.sized f ht h.wf.valid (by omega) (by omega) hnm).usable⟩
    | true =>
      by_cases hNA : p.hint = "NA"
      · constructor
        · rintro ⟨r, hr⟩
          obtain ⟨t, ht⟩ := C20_rejects_NA (A := binary64 f) h hoe hNA
          rw [hr] at ht; cases ht
        · rintro ⟨r, hr⟩
          obtain ⟨t, ht⟩ := C20_rejects_NA (A := Arith.exact) h hoe hNA
          rw [hr] at ht; cases ht
      rw [C20_open_end_succeeds_any (C20_C22_double_idempotent f) h hob hoe hNA (by
          intro q hq
          cases hq
          exact rnd64_double (ht.doubles 0 hn 0 hm)) (by simp),
        C20_open_end_succeeds_iff h hob hoe hNA]
      constructor
      · rintro ⟨ks, j, c, hj, hp, -⟩
        obtain ⟨c', hc'⟩ := hp.toRulePath.toWarpPath (A := Arith.exact) (L := fun i j => fin (ℓ i j))
        obtain ⟨q, rfl⟩ := hc'.finite
        exact .inl ⟨ks, j, _, hj, hc', usable_fin q⟩
      · rintro (⟨ks, j, c, hj, hp, -⟩ | ⟨-, hc⟩)
        · obtain ⟨c', hc'⟩ := hp.toRulePath.toWarpPath (A := binary64 f) (L := fun i j => fin (ℓ i j))
          exact ⟨ks, j, _, hj, hc', (hc'.sized f ht h.wf.valid (by omega) hj hnm).usable⟩
        · cases hc
  | true =>
    cases hod : a.distanceOnly with
    | true =>
      exact ⟨fun ⟨r, hr⟩ => absurd hr (C24_open_begin_always_fails hob hod r),
        fun ⟨r, hr⟩ => absurd hr (C24_open_begin_always_fails hob hod r)⟩
    | false =>
      by_cases hh : p.hint = "N"
      · have recost : ∀ {A : Arith} (B : Arith) {j0 : Nat} {ks : List Int} {i j : Nat} {c : F64},
            OpenPath A rs W (fun i j => fin (ℓ i j)) j0 ks i j c →
            ∃ c', OpenPath B rs W (fun i j => fin (ℓ i j)) j0 ks i j c' := by
          intro A B j0 ks i j c hp
          induction hp with
          | start => exact ⟨_, .start⟩
          | step k q _ hq h0 hW ih =>
            obtain ⟨c', hc'⟩ := ih
            exact ⟨_, .step k q hc' hq h0 hW⟩
        cases hoe : a.openEnd with
        | false =>
          rw [C22_open_begin_succeeds_iff h hob hoe hod hh, C22_open_begin_succeeds_iff h hob hoe hod hh]
          constructor
          · rintro ⟨j0, ks, c, hp, -⟩
            obtain ⟨c1, hc1⟩ := recost Arith.exact hp
            obtain ⟨c', hc'⟩ := hc1.recost ℓ
            exact ⟨j0, ks, _, hc', usable_fin c'⟩
          · rintro ⟨j0, ks, c, hp, -⟩
            obtain ⟨c', hc'⟩ := recost (binary64 f) hp
            exact ⟨j0, ks, c', hc', (hc'.sized f ht h.wf.valid le_rfl (by omega) hnm).usable⟩
        | true =>
          rw [C22_open_both_succeeds_iff (C20_C22_double_idempotent f) h hob hoe hod hh,
            C22_open_both_succeeds_iff exact_idempotent h hob hoe hod hh]
          constructor
          · rintro ⟨j0, ks, j, c, hj, hp, -⟩
            obtain ⟨c1, hc1⟩ := recost Arith.exact hp
            obtain ⟨c', hc'⟩ := hc1.recost ℓ
            exact ⟨j0, ks, j, _, hj, hc', usable_fin c'⟩
          · rintro ⟨j0, ks, j, c, hj, hp, -⟩
            obtain ⟨c', hc'⟩ := recost (binary64 f) hp
            exact ⟨j0, ks, j, c', hj, hc', (hc'.sized f ht h.wf.valid le_rfl hj hnm).usable⟩
      · constructor
        · rintro ⟨r, hr⟩
          rw [open_bad_hint h hob hh] at hr; cases hr
        · rintro ⟨r, hr⟩
          rw [open_bad_hint h hob hh] at hr; cases hr


theorem sized_div (f : Bool) {k : ℕ} (hk : k ≤ 2 ^ 53) {v : F64} (hv : Sized 910 k v) {q : ℚ} (hq : 1 ≤ q) :
    Sized 910 k ((binary64 f).divQ v q) := by
  obtain ⟨d, rfl, -, hd⟩ := hv
  have hq0 : 0 < q := lt_of_lt_of_le one_pos hq
  rw [Arith.divQ, if_neg hq0.ne']
  refine sized_rnd f (by norm_num) (by norm_num) hk ?_
  rw [abs_div, abs_of_pos hq0]
  exact (div_le_self (abs_nonneg d) hq).trans hd

/-- **C74** Every number of a result is finite, and a double: the distance (with a bound), the normalized distance for every
pattern that has one, and the entries of the cost matrix that are not NaN; whatever the options. -/
theorem C74_finite (f : Bool) (h : Problem a n m (fun i j => fin (ℓ i j)) W p rs) (ht : BoundedData n m ℓ rs)
    (hr : dtw (binary64 f) a = .ok r) :
    (∃ d : ℚ, r.distance = fin d ∧ IsDouble d ∧ |d| ≤ (1 + 2 ^ 20 * (n + m)) * 2 ^ (910 : ℤ)) ∧
    (p.hint = "N" ∨ p.hint = "M" ∨ p.hint = "N+M" → ∃ v : ℚ, r.normalizedDistance = fin v ∧ IsDouble v) ∧
    (a.keepInternals = true → ∃ G : Nat → Nat → F64, r.costMatrix = some (Mat.ofFn n m G) ∧
      ∀ i < n, ∀ j < m, G i j = nan ∨ ∃ v : ℚ, G i j = fin v ∧ IsDouble v) := by
  have hn := h.n_pos
  have hm := h.m_pos
  have hnm := fits_sum h
  have weaken : ∀ {v : F64} {k : ℕ}, k ≤ n + m → Sized 910 (1 + 2 ^ 20 * k) v → Sized 910 (1 + 2 ^ 20 * (n + m)) v := by
    rintro v k hk ⟨d, hd, h1, h2⟩
    refine ⟨d, hd, h1, h2.trans ?_⟩
    apply mul_le_mul_of_nonneg_right _ (two_zpow_pos _).le
    exact_mod_cast (by omega : 1 + 2 ^ 20 * k ≤ 1 + 2 ^ 20 * (n + m))
  have hdist : Sized 910 (1 + 2 ^ 20 * (n + m)) r.distance := by
    cases hob : a.openBegin with
    | false =>
      obtain ⟨G, D, qr, hB, _, hd⟩ := dtw_closed (binary64 f) h hob
      obtain ⟨j, ks, hrun⟩ := closed_ok h hob hB hd hr
      have hj := hrun.endAt.lt
      have hdist : r.distance = G (n - 1) j := by rw [hrun.result]; rfl
      rw [hdist]
      exact weaken (by omega) (hrun.path.sized f ht h.wf.valid (by omega) hj hnm)
    | true =>
      obtain ⟨mp, j, j0, _, _, hj, _, hp, _⟩ := C22_open_begin_optimal h hob hr
      exact weaken (by omega) (hp.sized f ht h.wf.valid (Nat.le_refl n) hj hnm)
  refine ⟨?_, ?_, ?_⟩
  · obtain ⟨d, h1, h2, h3⟩ := hdist
    refine ⟨d, h1, h2, h3.trans_eq ?_⟩
    congr 1
    push_cast
    ring
  · obtain ⟨j, _, hj, e1, e2, e3, _⟩ := C18_normalized_distance h hr
    have hn1 : (1 : ℚ) ≤ n := by exact_mod_cast hn
    have hj0 : (0 : ℚ) ≤ j := Nat.cast_nonneg j
    have hk : 1 + 2 ^ 20 * (n + m) ≤ 2 ^ 53 := by omega
    rintro (hh | hh | hh)
    · obtain ⟨v, h1, h2, -⟩ := sized_div f hk hdist hn1
      exact ⟨v, (e1 hh).trans h1, h2⟩
    · obtain ⟨v, h1, h2, -⟩ := sized_div f hk hdist (q := (j : ℚ) + 1) (by linarith)
      exact ⟨v, (e3 hh).trans h1, h2⟩
    · obtain ⟨v, h1, h2, -⟩ := sized_div f hk hdist (q := (n : ℚ) + ((j : ℚ) + 1)) (by linarith)
      exact ⟨v, (e2 hh).trans h1, h2⟩
  · intro hki
    cases hob : a.openBegin with
    | false =>
      obtain ⟨G, hG, hc⟩ := C09_every_cell_optimal h hob hki hr
      refine ⟨G, hG, fun i hi j hj => ?_⟩
      by_cases hnan : G i j = nan
      · exact .inl hnan
      · obtain ⟨ks, hp⟩ := (hc i hi j hj).1 hnan
        obtain ⟨v, h1, h2, -⟩ := hp.sized f ht h.wf.valid hi hj hnm
        exact .inr ⟨v, h1, h2⟩
    | true =>
      obtain ⟨G, hG, hc⟩ := C09_open_begin h hob hki hr
      refine ⟨G, hG, fun i hi j hj => ?_⟩
      by_cases hnan : G i j = nan
      · exact .inl hnan
      · obtain ⟨j0, ks, hp⟩ := (hc i hi j hj).1 hnan
        obtain ⟨v, h1, h2, -⟩ := hp.sized f ht h.wf.valid (by omega) hj hnm
        exact .inr ⟨v, h1, h2⟩

/-- **C74** The bundled patterns are within the bounds on weights and terms. -/
theorem C74_bundled : ∀ q ∈ Pat.table, ∀ x ∈ rulesOf q.2, (∀ t ∈ x.terms, |t.w| ≤ 2 ^ 9) ∧ x.terms.length ≤ 2 ^ 20 := by
  decide +kernel

theorem bounded_bundled {q : String × StepPattern} (hq : q ∈ Pat.table) (h1 : ∀ i < n, ∀ j < m, IsDouble (ℓ i j))
    (h2 : ∀ i < n, ∀ j < m, |ℓ i j| ≤ 2 ^ (900 : ℤ)) : BoundedData n m ℓ (rulesOf q.2) :=
  ⟨h1, h2, fun x hx => (C74_bundled q hq x hx).1, fun x hx => (C74_bundled q hq x hx).2⟩

theorem same_options (a : Args) : SameOptions a a := ⟨rfl, rfl, rfl, rfl⟩

/-- **C74** In doubles, without window: the patterns with slope bounds `lo .. hi` (C51) align series of lengths `N`, `M`, both ends
closed, exactly when `lo (N-1) ≤ M-1 ≤ hi (N-1)`. -/
theorem C74_slope (f : Bool) {lo hi : ℚ} (hs : SlopeFamily lo hi rs)
    (h : Problem a n m (fun i j => fin (ℓ i j)) (fun _ _ => true) p rs) (ht : BoundedData n m ℓ rs)
    (hob : a.openBegin = false) (hoe : a.openEnd = false) :
    (∃ r, dtw (binary64 f) a = .ok r) ↔ lo * ((n : ℚ) - 1) ≤ (m : ℚ) - 1 ∧ (m : ℚ) - 1 ≤ hi * ((n : ℚ) - 1) := by
  rw [C74_success f h h (same_options a) ht, C51_exists_iff hs h hob hoe]

/-- **C74** In doubles, without window: `symmetric1`, `symmetric2` and the other patterns without slope bounds align series of any
lengths. -/
theorem C74_unrestricted (f : Bool) (h10 : HasMove rs 1 0) (h01 : HasMove rs 0 1)
    (h : Problem a n m (fun i j => fin (ℓ i j)) (fun _ _ => true) p rs) (ht : BoundedData n m ℓ rs)
    (hob : a.openBegin = false) (hoe : a.openEnd = false) : ∃ r, dtw (binary64 f) a = .ok r := by
  rw [C74_success f h h (same_options a) ht]
  exact C51_unrestricted_exists h10 h01 h hob hoe


/-! ### Series -/

theorem sized_absSub (f : Bool) {u v : ℚ} (hu : |u| ≤ 2 ^ (400 : ℤ)) (hv : |v| ≤ 2 ^ (400 : ℤ)) :
    ∃ d : ℚ, absSub (binary64 f) (fin u) (fin v) = fin d ∧ IsDouble d ∧ 0 ≤ d ∧ d ≤ 2 ^ (401 : ℤ) := by
  have hx : |u + -v| ≤ ((2 : ℕ) : ℚ) * 2 ^ (400 : ℤ) := by
    refine (abs_add_le u (-v)).trans ?_
    rw [abs_neg, Nat.cast_ofNat, two_mul]
    exact add_le_add hu hv
  obtain ⟨q, h1, h2, h3⟩ := sized_rnd f (E := 400) (by norm_num) (by norm_num) (by norm_num) hx
  refine ⟨|q|, ?_, ?_, abs_nonneg q, h3.trans_eq ?_⟩
  · show fabs ((binary64 f).rnd (u + -v)) = _
    rw [h1]
    rfl
  · rcases abs_choice q with h | h <;> rw [h]
    · exact h2
    · exact neg_isDouble h2
  · rw [show (401 : ℤ) = 1 + 400 by norm_num, zpow_add₀ (by norm_num : (2 : ℚ) ≠ 0)]
    norm_num

theorem sized_foldl {E : ℤ} {step : F64 → F64 → F64 → F64} {l : List (ℚ × ℚ)}
    (hs : ∀ p ∈ l, ∀ (k : ℕ) (acc : F64), k + 1 ≤ 2 ^ 53 → Sized E k acc → Sized E (k + 1) (step acc (fin p.1) (fin p.2)))
    {k : ℕ} {acc : F64} (ha : Sized E k acc) (hk : k + l.length ≤ 2 ^ 53) :
    Sized E (k + l.length) ((l.map fun p => (fin p.1, fin p.2)).foldl (fun acc p => step acc p.1 p.2) acc) := by
  induction l generalizing k acc with
  | nil => exact ha
  | cons p l ih =>
    simp only [List.length_cons] at hk ⊢
    rw [List.map_cons, List.foldl_cons, show k + (l.length + 1) = (k + 1) + l.length by omega]
    exact ih (fun p hp => hs p (by simp [hp])) (hs p (by simp) k acc (by omega) ha) (by omega)

theorem zip_map_fin (u v : List ℚ) : (u.map fin).zip (v.map fin) = (u.zip v).map fun p => (fin p.1, fin p.2) := by
  rw [List.zip_map]
  rfl

theorem sized_zero {E : ℤ} : Sized E 0 (fin 0) := ⟨0, rfl, isDouble_zero, by simp⟩

theorem zpow_units {k : ℕ} {E e : ℤ} {K : ℕ} (hk : k ≤ 2 ^ K) (h : K + E ≤ e) : (k : ℚ) * 2 ^ E ≤ 2 ^ e := by
  have h1 : (k : ℚ) ≤ 2 ^ (K : ℤ) := by exact_mod_cast hk
  refine (mul_le_mul_of_nonneg_right h1 (two_zpow_pos E).le).trans ?_
  rw [← zpow_add₀ (by norm_num : (2 : ℚ) ≠ 0)]
  exact two_zpow_le h

/-- The four metrics are finite on rows of up to 2^40 samples of size up to 2^400. -/
theorem metric_bounded (f : Bool) {M : List F64 → List F64 → F64} (hM : M ∈ metrics (binary64 f)) {u v : List ℚ}
    (hl : u.length = v.length) (hk : u.length ≤ 2 ^ 40) (hu : ∀ x ∈ u, |x| ≤ 2 ^ (400 : ℤ)) (hv : ∀ x ∈ v, |x| ≤ 2 ^ (400 : ℤ)) :
    ∃ d : ℚ, M (u.map fin) (v.map fin) = fin d ∧ IsDouble d ∧ |d| ≤ 2 ^ (900 : ℤ) := by
  have hlen : (u.zip v).length = u.length := by rw [List.length_zip, ← hl, Nat.min_self]
  have hpair : ∀ p ∈ u.zip v, |p.1| ≤ 2 ^ (400 : ℤ) ∧ |p.2| ≤ 2 ^ (400 : ℤ) := fun p hp =>
    ⟨hu _ (List.of_mem_zip hp).1, hv _ (List.of_mem_zip hp).2⟩
  have hsq : Sized 802 u.length (sqEuclidean (binary64 f) (u.map fin) (v.map fin)) := by
    unfold sqEuclidean accumulate
    rw [if_pos (by simpa using hl), zip_map_fin]
    have := sized_foldl (E := 802) (l := u.zip v)
      (step := fun acc u v => (binary64 f).mac acc (absSub (binary64 f) u v) (absSub (binary64 f) u v))
      (fun p hp k acc hk ha => by
        obtain ⟨d, h1, _, h2, h3⟩ := sized_absSub f (hpair p hp).1 (hpair p hp).2
        show Sized 802 (k + 1) ((binary64 f).mac acc (absSub (binary64 f) (fin p.1) (fin p.2)) (absSub (binary64 f) (fin p.1) (fin p.2)))
        rw [h1]
        refine sized_mac f (by norm_num) (by norm_num) hk ha ?_
        rw [abs_mul, abs_of_nonneg h2, show (802 : ℤ) = 401 + 401 by norm_num, zpow_add₀ (by norm_num : (2 : ℚ) ≠ 0)]
        exact mul_le_mul h3 h3 h2 (two_zpow_pos _).le)
      (k := 0) sized_zero (by rw [hlen]; omega)
    rw [hlen, Nat.zero_add] at this
    exact this
  have hcb : Sized 401 u.length (cityblock (binary64 f) (u.map fin) (v.map fin)) := by
    unfold cityblock accumulate
    rw [if_pos (by simpa using hl), zip_map_fin]
    have := sized_foldl (E := 401) (l := u.zip v)
      (step := fun acc u v => (binary64 f).add acc (absSub (binary64 f) u v))
      (fun p hp k acc hk ha => by
        obtain ⟨d, h1, _, h2, h3⟩ := sized_absSub f (hpair p hp).1 (hpair p hp).2
        obtain ⟨q, rfl, _, h4⟩ := ha
        show Sized 401 (k + 1) ((binary64 f).add (fin q) (absSub (binary64 f) (fin p.1) (fin p.2)))
        rw [h1]
        refine sized_rnd f (by norm_num) (by norm_num) hk ?_
        refine (abs_add_le q d).trans ?_
        rw [Nat.cast_add, Nat.cast_one, add_mul, one_mul, abs_of_nonneg h2]
        exact add_le_add h4 h3)
      (k := 0) sized_zero (by rw [hlen]; omega)
    rw [hlen, Nat.zero_add] at this
    exact this
  simp only [metrics, List.mem_cons, List.not_mem_nil, or_false] at hM
  rcases hM with rfl | rfl | rfl | rfl
  · obtain ⟨q, h1, h2, h3⟩ := hsq
    unfold euclidean
    rw [h1]
    have hq0 : 0 ≤ q := by
      have h0 := (foldl_nonneg (accumulates_of (C20_C22_double_idempotent f)
        (step := fun acc u v => (binary64 f).mac acc (absSub (binary64 f) u v) (absSub (binary64 f) u v))
        (t := fun u v => if (binary64 f).fused then Arith.mulWith fin (absSub (binary64 f) u v) (absSub (binary64 f) u v)
          else (binary64 f).mul (absSub (binary64 f) u v) (absSub (binary64 f) u v)) (fun _ _ _ => rfl)
        fun u v => square_nonneg (absSub_nonneg u v)) (u.zip v) (fin 0) (fin 0) zero_le_zero zero_le_zero).2
      unfold sqEuclidean accumulate at h1
      rw [if_pos (by simpa using hl), zip_map_fin] at h1
      rw [h1] at h0
      simpa [F64.le, F64.lt] using h0
    rcases hq0.eq_or_lt with rfl | hpos
    · exact ⟨0, rfl, isDouble_zero, by rw [abs_zero]; exact (two_zpow_pos _).le⟩
    · refine ⟨sqrtPos q, by rw [sqrt64, if_pos hpos], sqrtPos_double h2 hpos, ?_⟩
      rw [abs_of_pos (sqrtPos_pos hpos)]
      have hle : q ≤ 2 ^ (900 : ℤ) := (le_abs_self q).trans (h3.trans (zpow_units hk (by norm_num)))
      refine (sqrtPos_mono hpos hle).trans ?_
      have : sqrtPos (2 ^ (900 : ℤ)) = ((2 ^ 52 : ℕ) : ℚ) * 2 ^ (398 : ℤ) := by
        refine sqrtPos_near (by norm_num) (by norm_num) (two_zpow_le (by norm_num)) ?_
        have e : ((2 ^ 52 : ℕ) : ℚ) * 2 ^ (398 : ℤ) = 2 ^ (450 : ℤ) := by
          rw [show (450 : ℤ) = 52 + 398 by norm_num, zpow_add₀ (by norm_num : (2 : ℚ) ≠ 0)]
          congr 1
        rw [e, pow_two, ← zpow_add₀ (by norm_num : (2 : ℚ) ≠ 0), show (450 : ℤ) + 450 = 900 by norm_num, sub_self, abs_zero]
        exact div_nonneg (two_zpow_pos _).le (by norm_num)
      rw [this]
      exact zpow_units (K := 52) (by norm_num) (by norm_num)
  · obtain ⟨q, h1, h2, h3⟩ := hsq
    exact ⟨q, h1, h2, h3.trans (zpow_units hk (by norm_num))⟩
  · obtain ⟨q, h1, h2, h3⟩ := hcb
    exact ⟨q, h1, h2, h3.trans (zpow_units hk (by norm_num))⟩
  · have e1 : (u.zip v).map (fun q => fin q.1) = u.map fin := by
      rw [show (fun p : ℚ × ℚ => fin p.1) = fin ∘ Prod.fst from rfl, ← List.map_map, List.map_fst_zip]
      rw [hl]
    have e2 : (u.zip v).map (fun q => fin q.2) = v.map fin := by
      rw [show (fun p : ℚ × ℚ => fin p.2) = fin ∘ Prod.snd from rfl, ← List.map_map, List.map_snd_zip]
      rw [hl]
    rw [← e1, ← e2, C66_chebyshev_exact]
    have hle : 0 ≤ maxAbs (u.zip v) ∧ maxAbs (u.zip v) ≤ 2 ^ (401 : ℤ) := by
      unfold maxAbs
      generalize u.zip v = l at hpair
      induction l with
      | nil => exact ⟨_root_.le_refl _, (two_zpow_pos _).le⟩
      | cons p l ih =>
        simp only [List.map_cons, List.foldr_cons]
        refine ⟨le_max_of_le_left (abs_nonneg _), max_le ?_ (ih fun p hp => hpair p (List.mem_cons_of_mem _ hp)).2⟩
        obtain ⟨a, b⟩ := hpair p (List.mem_cons_self ..)
        refine (abs_sub _ _).trans ?_
        rw [show (401 : ℤ) = 400 + 1 by norm_num, zpow_add_one₀ (by norm_num : (2 : ℚ) ≠ 0), mul_two]
        exact add_le_add a b
    obtain ⟨q, h1, h2, h3⟩ := sized_rnd f (E := 401) (k := 1) (x := maxAbs (u.zip v)) (by norm_num) (by norm_num) (by norm_num) (by
      rw [abs_of_nonneg hle.1, Nat.cast_one, one_mul]; exact hle.2)
    exact ⟨q, h1, h2, h3.trans (zpow_units (K := 0) (by norm_num) (by norm_num))⟩


/-- A series of finite samples of size up to 2^400 (about 10^120), `k` columns. -/
structure FiniteSeries (x : Nd) (X : Mat F64) (u : Nat → List ℚ) (k : Nat) : Prop where
  series : Series x X u k
  cols : k ≤ 2 ^ 40
  size : ∀ i < X.rows, ∀ z ∈ u i, |z| ≤ 2 ^ (400 : ℤ)

theorem finiteSeries_bounded (f : Bool) {M : List F64 → List F64 → F64} (hM : M ∈ metrics (binary64 f)) {x y : Nd} {X Y : Mat F64}
    {u v : Nat → List ℚ} {k : Nat} (hx : FiniteSeries x X u k) (hy : FiniteSeries y Y v k) {i j : Nat} (hi : i < X.rows) (hj : j < Y.rows) :
    M (X.row i) (Y.row j) = fin (number (M (X.row i) (Y.row j))) ∧ IsDouble (number (M (X.row i) (Y.row j))) ∧
      |number (M (X.row i) (Y.row j))| ≤ 2 ^ (900 : ℤ) := by
  obtain ⟨a1, a2⟩ := hx.series.row i hi
  obtain ⟨b1, b2⟩ := hy.series.row j hj
  obtain ⟨d, h1, h2, h3⟩ := metric_bounded f hM (a2.trans b2.symm) (by rw [a2]; exact hx.cols) (hx.size i hi) (hy.size j hj)
  rw [a1, b1, h1]
  exact ⟨rfl, h2, h3⟩

theorem finiteSeries_problem (f : Bool) {M : List F64 → List F64 → F64} (hM : M ∈ metrics (binary64 f)) {o : Args} {x y : Nd}
    {X Y : Mat F64} {u v : Nat → List ℚ} {k : Nat} (hx : FiniteSeries x X u k) (hy : FiniteSeries y Y v k) {q : String × StepPattern}
    (h : Sensible o X.rows Y.rows W q) :
    Problem (callWith M o x y) X.rows Y.rows (fun i j => fin (number (M (X.row i) (Y.row j)))) W q.2 (rulesOf q.2) ∧
    BoundedData X.rows Y.rows (fun i j => number (M (X.row i) (Y.row j))) (rulesOf q.2) :=
  ⟨callWith_problem hx.series.mat hy.series.mat (hx.series.cols.trans hy.series.cols.symm) h
      fun _ hi _ hj => (finiteSeries_bounded f hM hx hy hi hj).1.symm,
    bounded_bundled h.mem (fun _ hi _ hj => (finiteSeries_bounded f hM hx hy hi hj).2.1)
      fun _ hi _ hj => (finiteSeries_bounded f hM hx hy hi hj).2.2⟩

/-- **C74** Whether `dtw(x, y, …)` finds an alignment, with one of the four metrics and a bundled pattern, depends on the lengths
of the series and on the options only: two pairs of series of the same lengths, of any finite samples, numbers of columns and
metrics, both succeed or both fail. -/
theorem C74_series (f : Bool) {M M' : List F64 → List F64 → F64} (hM : M ∈ metrics (binary64 f)) (hM' : M' ∈ metrics (binary64 f))
    {o : Args} {x y x' y' : Nd} {X Y X' Y' : Mat F64} {u v u' v' : Nat → List ℚ} {k k' : Nat}
    (hx : FiniteSeries x X u k) (hy : FiniteSeries y Y v k) (hx' : FiniteSeries x' X' u' k') (hy' : FiniteSeries y' Y' v' k')
    (hX : X'.rows = X.rows) (hY : Y'.rows = Y.rows) {q : String × StepPattern} (h : Sensible o X.rows Y.rows W q) :
    (∃ r, dtw (binary64 f) (callWith M o x y) = .ok r) ↔ ∃ r, dtw (binary64 f) (callWith M' o x' y') = .ok r := by
  obtain ⟨h1, b1⟩ := finiteSeries_problem f hM hx hy h
  obtain ⟨h2, b2⟩ := finiteSeries_problem f hM' hx' hy' (o := o) (W := W) (q := q) (by rw [hX, hY]; exact h)
  rw [hX, hY] at h2 b2
  rw [C74_success f h1 h1 (same_options _) b1, C74_success f h2 h1 (by exact ⟨rfl, rfl, rfl, rfl⟩) b2]

/-- **C74** The default call: for finite series, `dtw(x, y)` (any of the four metrics; `symmetric2`, `symmetric1` or another pattern
without slope bounds; no window; closed ends) always succeeds, and its distance is a finite double. -/
theorem C74_default_call (f : Bool) {M : List F64 → List F64 → F64} (hM : M ∈ metrics (binary64 f)) {o : Args} {x y : Nd}
    {X Y : Mat F64} {u v : Nat → List ℚ} {k : Nat} (hx : FiniteSeries x X u k) (hy : FiniteSeries y Y v k) {q : String × StepPattern}
    (h : Sensible o X.rows Y.rows (fun _ _ => true) q)
    (hq : q.1 ∈ ["symmetric1", "symmetric2", "symmetricP0", "asymmetricP0", "_asymmetricP0b", "_symmetricVelichkoZagoruyko"])
    (hob : o.openBegin = false) (hoe : o.openEnd = false) :
    ∃ r, dtw (binary64 f) (callWith M o x y) = .ok r ∧ ∃ d : ℚ, r.distance = fin d ∧ IsDouble d := by
  obtain ⟨h1, b1⟩ := finiteSeries_problem f hM hx hy h
  have hmv : ∀ q ∈ Pat.table,
      q.1 ∈ ["symmetric1", "symmetric2", "symmetricP0", "asymmetricP0", "_asymmetricP0b", "_symmetricVelichkoZagoruyko"] →
      HasMove (rulesOf q.2) 1 0 ∧ HasMove (rulesOf q.2) 0 1 := by
    intro q hq hm
    rcases C51_bundled_rest q hq with hr | hr
    · exfalso
      revert hr
      simp only [List.mem_cons, List.not_mem_nil, or_false] at hm ⊢
      rcases hm with e | e | e | e | e | e <;> rw [e] <;> decide
    · exact hr
  obtain ⟨m1, m2⟩ := hmv q h.mem hq
  obtain ⟨r, hr⟩ := C74_unrestricted f m1 m2 h1 b1 hob hoe
  obtain ⟨⟨d, e1, e2, _⟩, -⟩ := C74_finite f h1 b1 hr
  exact ⟨r, hr, d, e1, e2⟩


/-- Two bivariate series; the hypotheses of the theorems on series are met. -/
theorem Ex.bi_finite : FiniteSeries (.d2 Ex.biX) Ex.biX Ex.biU 2 ∧ FiniteSeries (.d2 Ex.biY) Ex.biY Ex.biV 2 := by
  have big : ∀ z : ℚ, |z| ≤ 5 → |z| ≤ 2 ^ (400 : ℤ) := fun z hz =>
    hz.trans (_root_.le_trans (by norm_num) (two_zpow_le (show (3 : ℤ) ≤ 400 by norm_num)))
  have h1 : ∀ i < 2, ∀ z ∈ Ex.biU i, |z| ≤ 5 := by decide +kernel
  have h2 : ∀ i < 2, ∀ z ∈ Ex.biV i, |z| ≤ 5 := by decide +kernel
  exact ⟨⟨Ex.bi_series.1, by norm_num, fun i hi z hz => big z (h1 i hi z hz)⟩,
    ⟨Ex.bi_series.2, by norm_num, fun i hi z hz => big z (h2 i hi z hz)⟩⟩

example (f : Bool) : ∃ r, dtw (binary64 f) (callWith (euclidean (binary64 f)) Ex.serOpts (.d2 Ex.biX) (.d2 Ex.biY)) = .ok r ∧
    ∃ d : ℚ, r.distance = fin d ∧ IsDouble d :=
  C74_default_call f (by simp [metrics]) Ex.bi_finite.1 Ex.bi_finite.2 Ex.bi_sensible (by simp) rfl rfl

/-- Another pair of the same lengths, one column, another metric. -/
example (f : Bool) (a b c d : ℤ) (ha : |a| < 2 ^ 53) (hb : |b| < 2 ^ 53) (hc : |c| < 2 ^ 53) (hd : |d| < 2 ^ 53) :
    ∃ r, dtw (binary64 f) (callWith (cityblock (binary64 f)) Ex.serOpts (.d1 [fin a, fin b]) (.d1 [fin c, fin d])) = .ok r := by
  have big : ∀ z : ℤ, |z| < 2 ^ 53 → |(z : ℚ)| ≤ 2 ^ (400 : ℤ) := fun z hz => by
    have h1 : |(z : ℚ)| ≤ 2 ^ (53 : ℤ) := by exact_mod_cast hz.le
    exact h1.trans (two_zpow_le (by norm_num))
  have ser : ∀ a b : ℤ, |a| < 2 ^ 53 → |b| < 2 ^ 53 →
      FiniteSeries (.d1 [fin a, fin b]) ⟨2, 1, [fin a, fin b]⟩ (fun i => if i = 0 then [(a : ℚ)] else [(b : ℚ)]) 1 := by
    intro a b ha hb
    refine ⟨⟨.d1 _, rfl, fun i hi => ?_⟩, by norm_num, fun i hi z hz => ?_⟩
    · have hi' : i < 2 := hi
      have h2 : i = 0 ∨ i = 1 := by omega
      rcases h2 with rfl | rfl <;> exact ⟨rfl, rfl⟩
    · split at hz <;> rw [List.mem_singleton] at hz <;> subst hz
      · exact big a ha
      · exact big b hb
  exact (C74_series f (by simp [metrics]) (by simp [metrics]) Ex.bi_finite.1 Ex.bi_finite.2 (ser a b ha hb) (ser c d hc hd) rfl rfl
    Ex.bi_sensible).1 ((C74_default_call f (M := euclidean (binary64 f)) (by simp [metrics]) Ex.bi_finite.1 Ex.bi_finite.2
      Ex.bi_sensible (by simp) rfl rfl).imp fun _ h => h.1)

/-- The hypotheses are met with each of the three windows, too. -/
example : ∀ x ∈ [("sakoechiba", [("window_size", 1)]), ("itakura", []), ("slantedband", [("window_size", 1)])],
    Problem (Ex.windowed x.1 x.2) 3 4 (fun i j => fin ((i : ℚ) * j)) (Ex.windowedW x.1 x.2) Pat.symmetric2
      (rulesOf Pat.symmetric2) ∧ BoundedData 3 4 (fun i j => (i : ℚ) * j) (rulesOf Pat.symmetric2) := by
  intro x hx
  refine ⟨Ex.windowed_problem x hx, bounded_bundled (q := ("symmetric2", Pat.symmetric2)) Ex.sym2_mem (fun i hi j hj => ?_)
    fun i hi j hj => ?_⟩
  · have h1 : i * j ≤ 3 * 4 := Nat.mul_le_mul (by omega) (by omega)
    have := isDouble_int (z := ((i * j : ℕ) : ℤ)) (by rw [Nat.abs_cast]; exact_mod_cast lt_of_le_of_lt h1 (by norm_num))
    push_cast at this
    exact this
  · have h1 : i * j ≤ 3 * 4 := Nat.mul_le_mul (by omega) (by omega)
    have h2 : (i : ℚ) * j ≤ 12 := by exact_mod_cast h1
    rw [abs_of_nonneg (by positivity)]
    exact h2.trans (_root_.le_trans (by norm_num) (two_zpow_le (show (4 : ℤ) ≤ 900 by norm_num)))

end DTW
