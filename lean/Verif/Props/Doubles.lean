import Verif.Proofs.Binary64Proof
import Verif.Proofs.Rounding
import Verif.Props.Weights

/-!
# C49, C50: what double-precision rounding does to a result
-/

namespace DTW
open F64

variable {A : Arith} {a : Args} {n m : Nat} {W : Nat → Nat → Bool} {p : StepPattern} {rs : List Rule}
  {ℓ : Nat → Nat → ℚ} {u lo hi P : ℚ}

/-! ### The arithmetic of doubles -/

/-- C49, the arithmetic itself.  The model's double rounding yields a double, no double is closer to the exact value,
and it is infinite exactly from half a unit beyond the largest double on. -/
theorem C49_nearest (q : ℚ) :
    (∀ v, (binary64 false).rnd q = fin v → IsDouble v ∧ ∀ d, IsDouble d → |v - q| ≤ |d - q|) ∧
    ((binary64 false).rnd q = pinf ↔ (2 ^ 53 - 1 / 2) * 2 ^ (971 : ℤ) ≤ q) ∧
    ((binary64 false).rnd q = ninf ↔ q ≤ -((2 ^ 53 - 1 / 2) * 2 ^ (971 : ℤ))) := by
  have hT : (0 : ℚ) < (2 ^ 53 - 1 / 2) * 2 ^ (971 : ℤ) := mul_pos (by norm_num) (two_zpow_pos _)
  have ho : ∀ x : ℚ, 0 < x → (overflow (roundPos x) = pinf ∧ (2 ^ 53 - 1 / 2) * 2 ^ (971 : ℤ) ≤ x) ∨
      (overflow (roundPos x) = fin (roundPos x) ∧ roundPos x < 2 ^ (1024 : ℤ) ∧
        x < (2 ^ 53 - 1 / 2) * 2 ^ (971 : ℤ)) := by
    intro x hx
    have := roundPos_overflow hx
    unfold overflow
    by_cases h : (2 : ℚ) ^ (1024 : ℤ) ≤ roundPos x
    · left; exact ⟨if_pos h, this.1 h⟩
    · right; exact ⟨if_neg h, not_le.1 h, not_le.1 fun hc => h (this.2 hc)⟩
  generalize (2 ^ 53 - 1 / 2) * (2 : ℚ) ^ (971 : ℤ) = B at hT ho ⊢
  show (∀ v, rnd64 q = fin v → _) ∧ (rnd64 q = pinf ↔ _) ∧ (rnd64 q = ninf ↔ _)
  rcases lt_trichotomy q 0 with hq | rfl | hq
  · have e : rnd64 q = (overflow (roundPos (-q))).neg := by
      unfold rnd64; rw [if_neg (not_lt.2 hq.le), if_pos hq]
    rw [e]
    rcases ho (-q) (by linarith) with ⟨h1, h2⟩ | ⟨h1, h2, h3⟩
    · rw [h1]
      refine ⟨by simp [F64.neg], ⟨by simp [F64.neg], fun hc => by exfalso; linarith⟩, ?_⟩
      exact ⟨fun _ => by linarith, fun _ => rfl⟩
    · rw [h1]
      refine ⟨?_, ⟨by simp [F64.neg], fun hc => by exfalso; linarith⟩,
        ⟨by simp [F64.neg], fun hc => by exfalso; linarith⟩⟩
      intro v hv
      simp only [F64.neg, fin.injEq] at hv
      subst hv
      refine ⟨neg_isDouble (roundPos_isDouble (by linarith) h2), ?_⟩
      intro d hd
      have := roundPos_nearest (q := -q) (by linarith) (neg_isDouble hd)
      rw [show -roundPos (-q) - q = -(roundPos (-q) - -q) by ring, abs_neg]
      rw [show -d - -q = -(d - q) by ring, abs_neg] at this
      exact this
  · have e : rnd64 0 = fin 0 := by simp [rnd64]
    rw [e]
    refine ⟨?_, ⟨by simp, fun hc => by exfalso; linarith⟩, ⟨by simp, fun hc => by exfalso; linarith⟩⟩
    intro v hv
    simp only [fin.injEq] at hv
    subst hv
    exact ⟨⟨0, 0, by norm_num, by norm_num, by simp, by rw [abs_zero]; exact two_zpow_pos _⟩, fun d _ => by simp⟩
  · have e : rnd64 q = overflow (roundPos q) := by unfold rnd64; rw [if_pos hq]
    rw [e]
    rcases ho q hq with ⟨h1, h2⟩ | ⟨h1, h2, h3⟩
    · rw [h1]
      exact ⟨by simp, ⟨fun _ => h2, fun _ => rfl⟩, ⟨by simp, fun hc => by exfalso; linarith⟩⟩
    · rw [h1]
      refine ⟨?_, ⟨by simp, fun hc => by exfalso; linarith⟩, ⟨by simp, fun hc => by exfalso; linarith⟩⟩
      intro v hv
      simp only [fin.injEq] at hv
      subst hv
      exact ⟨roundPos_isDouble hq h2, fun d hd => roundPos_nearest hq hd⟩

/-- C49, ties: halfway between two consecutive doubles the one with even mantissa is chosen. -/
theorem C49_ties_to_even (f : Bool) {k e : ℤ} (h1 : 2 ^ 52 ≤ k) (h2 : k < 2 ^ 53) (h3 : -1074 ≤ e) (h4 : e ≤ 970) :
    (binary64 f).rnd (((k : ℚ) + 1 / 2) * 2 ^ e) = fin ((if k % 2 = 0 then (k : ℚ) else k + 1) * 2 ^ e) := by
  have hp := two_zpow_pos e
  have hk1 : (2 : ℚ) ^ 52 ≤ k := by exact_mod_cast h1
  have hk2 : (k : ℚ) + 1 ≤ 2 ^ 53 := by
    have : k + 1 ≤ 2 ^ 53 := h2
    exact_mod_cast this
  have hq : (0 : ℚ) < ((k : ℚ) + 1 / 2) * 2 ^ e := mul_pos (by linarith [show (0 : ℚ) < 2 ^ 52 by norm_num]) hp
  have hlog : Int.log 2 (((k : ℚ) + 1 / 2) * 2 ^ e) = 52 + e := by
    apply _root_.le_antisymm
    · have : Int.log 2 (((k : ℚ) + 1 / 2) * 2 ^ e) < 53 + e := by
        rw [← Int.lt_zpow_iff_log_lt (by norm_num) hq, Nat.cast_ofNat, zpow_add₀ (by norm_num)]
        refine mul_lt_mul_of_pos_right ?_ hp
        rw [show ((2 : ℚ) ^ (53 : ℤ)) = 2 ^ 53 by norm_num]; linarith
      omega
    · rw [← Int.zpow_le_iff_le_log (by norm_num) hq, Nat.cast_ofNat, zpow_add₀ (by norm_num)]
      refine mul_le_mul_of_nonneg_right ?_ hp.le
      rw [show ((2 : ℚ) ^ (52 : ℤ)) = 2 ^ 52 by norm_num]; linarith
  have hulp : ulpExp (((k : ℚ) + 1 / 2) * 2 ^ e) = e := by unfold ulpExp; rw [hlog]; omega
  have hfl : ⌊(k : ℚ) + 1 / 2⌋ = k := by rw [Int.floor_eq_iff]; constructor <;> linarith
  have hre : roundEven ((k : ℚ) + 1 / 2) = if k % 2 = 0 then k else k + 1 := by
    unfold roundEven
    dsimp only
    rw [hfl, if_neg (by rw [add_sub_cancel_left]; exact lt_irrefl _), if_neg (by rw [add_sub_cancel_left]; exact lt_irrefl _)]
  have hr : roundPos (((k : ℚ) + 1 / 2) * 2 ^ e) = (if k % 2 = 0 then (k : ℚ) else k + 1) * 2 ^ e := by
    unfold roundPos
    rw [hulp, mul_div_assoc, div_self hp.ne', mul_one, hre]
    split <;> simp
  show rnd64 _ = _
  unfold rnd64
  rw [if_pos hq, hr]
  unfold overflow
  rw [if_neg]
  rw [not_le]
  have e1 : (2 : ℚ) ^ (53 : ℤ) * 2 ^ (970 : ℤ) < 2 ^ (1024 : ℤ) := by
    rw [← zpow_add₀ (by norm_num)]
    exact zpow_lt_zpow_right₀ (by norm_num) (by norm_num)
  refine lt_of_le_of_lt (mul_le_mul ?_ (two_zpow_le h4) hp.le (two_zpow_pos _).le) e1
  rw [show ((2 : ℚ) ^ (53 : ℤ)) = 2 ^ 53 by norm_num]
  split <;> linarith

/-- Powers of two in range are doubles. -/
theorem isDouble_zpow {e : ℤ} (h1 : -1074 ≤ e) (h2 : e < 1024) : IsDouble (2 ^ e) :=
  ⟨1, e, by norm_num, h1, by rw [Int.cast_one, one_mul], by
    rw [abs_of_pos (two_zpow_pos _)]; exact zpow_lt_zpow_right₀ (by norm_num) h2⟩

/-- C49: doubles have relative error 2^-53 between 2^-1022 and 2^1023. -/
theorem C49_binary64_relerr (f : Bool) : RelErr (binary64 f) (1 / 2 ^ 53) (2 ^ (-1022 : ℤ)) (2 ^ (1023 : ℤ)) where
  u_nonneg := by norm_num
  u_le := by norm_num
  lo_pos := two_zpow_pos _
  err := by
    intro q h1 h2
    have hone : IsDouble (2 ^ (-1022 : ℤ)) := isDouble_zpow (by norm_num) (by norm_num)
    have hq : 0 < q := lt_of_lt_of_le (two_zpow_pos _) h1
    obtain ⟨v, e, hv⟩ := rnd64_error (q := q) (le_of_le_of_eq h1 (abs_of_pos hq).symm) (le_of_eq_of_le (abs_of_pos hq) h2)
    rw [abs_of_pos hq, abs_le] at hv
    refine ⟨v, e, by linarith [hv.1], by linarith [hv.2], ?_⟩
    have hd : rnd64 (2 ^ (-1022 : ℤ)) = fin (2 ^ (-1022 : ℤ)) := rnd64_double hone
    have := rnd64_mono h1
    rw [hd, show rnd64 q = fin v from e] at this
    simpa using this

/-! ### Accuracy of the distance -/

/-- C49, general form.  In an arithmetic of relative accuracy `u`, if no product or sum under- or overflows, a closed
alignment exists exactly when it does in exact arithmetic, and the computed distance differs from the true one by a
factor between `(1-u)^(k+2)` and `(1+u)^(k+2)`, where `k = T*(N+M)` bounds the number of local costs a path charges;
and the path returned, evaluated exactly, is optimal up to the same factors. -/
theorem C49_rounding_error (h : Problem a n m (fun i j => fin (ℓ i j)) W p rs) (hob : a.openBegin = false)
    (hoe : a.openEnd = false) (hA : RelErr A u lo hi) (ht : Tame u lo hi P rs n m ℓ) {T : Nat}
    (hT : ∀ r ∈ rs, r.terms.length ≤ T)
    (hK : (1 + u) ^ (T * (n + m) + 2) * (((T * (n + m) : ℕ) + 1) * P) ≤ hi) :
    ((∃ r, dtw A a = .ok r) ↔ ∃ r0, dtw Arith.exact a = .ok r0) ∧
    ∀ r r0, dtw A a = .ok r → dtw Arith.exact a = .ok r0 → ∃ d d0, r.distance = fin d ∧ r0.distance = fin d0 ∧
      0 ≤ d0 ∧ (1 - u) ^ (T * (n + m) + 2) * d0 ≤ d ∧ d ≤ (1 + u) ^ (T * (n + m) + 2) * d0 ∧
      ∀ mp, r.mapping = some mp → ∃ x, WarpPath Arith.exact rs W (fun i j => fin (ℓ i j)) mp.stepsTaken (n - 1) (m - 1) (fin x) ∧
        (1 - u) ^ (T * (n + m) + 2) * x ≤ (1 + u) ^ (T * (n + m) + 2) * d0 := by
  have hn := h.n_pos
  have hm := h.m_pos
  have hu := hA.u_nonneg
  have hu1 := hA.u_le
  have hP : 0 ≤ P := by
    have h1 := ht.cost_le 0 hn 0 hm
    rcases ht.cost 0 hn 0 hm with h0 | h0
    · rw [h0] at h1; exact h1
    · exact le_trans (le_trans hA.lo_pos.le h0) h1
  set K := T * (n + m) with hKdef
  -- a path in machine arithmetic and in exact arithmetic
  have both : ∀ {ks c}, WarpPath A rs W (fun i j => fin (ℓ i j)) ks (n - 1) (m - 1) c →
      ∃ x v, c = fin v ∧ WarpPath Arith.exact rs W (fun i j => fin (ℓ i j)) ks (n - 1) (m - 1) (fin x) ∧
        Approx u lo (K + 2) x v := by
    intro ks c hp
    have hlen := hp.toWalk.length_le h.wf.valid
    have hc : charges rs ks ≤ K := le_trans (charges_le hT ks) (by rw [hKdef]; exact Nat.mul_le_mul_left _ (by omega))
    obtain ⟨x, v, e, hx, ha, _⟩ := hp.approx hA hP ht hK (by omega) (by omega) hc
    exact ⟨x, v, e, hx, ha.weaken hu hu1 (by omega)⟩
  have ex_usable : ∀ {ks c}, WarpPath A rs W (fun i j => fin (ℓ i j)) ks (n - 1) (m - 1) c → usable c := by
    intro ks c hp
    obtain ⟨x, v, e, _, _⟩ := both hp
    rw [e]; exact usable_fin _
  constructor
  · rw [exact_success_iff h hob hoe, (C02_no_path_iff (A := A) h hob hoe).2]
    constructor
    · rintro (⟨ks, c, hp, _⟩ | ⟨_, _, hc⟩)
      · exact ⟨ks, hp.toRulePath⟩
      · simp at hc
    · rintro ⟨ks, hp⟩
      obtain ⟨c, hc⟩ := hp.toWarpPath (A := A) (L := fun i j => fin (ℓ i j))
      exact .inl ⟨ks, c, hc, ex_usable hc⟩
  · intro r r0 hr hr0
    obtain ⟨⟨ks, hp⟩, hmin⟩ := C01_distance_optimal h hob hoe hr
    obtain ⟨⟨ks0, hp0⟩, hmin0⟩ := C01_distance_optimal h hob hoe hr0
    obtain ⟨x, v, hd, hx, ha⟩ := both hp
    obtain ⟨c0, hc0⟩ := hp0.toRulePath.toWarpPath (A := A) (L := fun i j => fin (ℓ i j))
    obtain ⟨x0, v0, e0, hx0, ha0⟩ := both hc0
    obtain ⟨_, _, hd0⟩ := hp0.functional hx0
    have l1 : v ≤ v0 := by
      have := hmin ks0 c0 hc0 (by rw [e0]; simp)
      rw [hd, e0] at this; simpa using this
    have l2 : x0 ≤ x := by
      have := hmin0 ks _ hx (by simp)
      rw [hd0] at this; simpa using this
    refine ⟨v, x0, hd, hd0, ha0.x_nonneg, ?_, le_trans l1 ha0.upper, ?_⟩
    · exact le_trans (mul_le_mul_of_nonneg_left l2 (pow_nonneg (by linarith) _)) ha.lower
    · intro mp hmp
      have hdo : a.distanceOnly = false := by
        by_contra hc
        obtain ⟨G, D, qr, hB, _, hd'⟩ := dtw_closed A h hob
        obtain ⟨j, ks', hrun⟩ := closed_ok h hob hB hd' hr
        rw [hrun.result] at hmp
        simp [mkResult, hc] at hmp
      obtain ⟨mp', j, hmp', hj, hw⟩ := C03_path_realises_distance h hob hdo hr
      rw [hmp] at hmp'
      obtain rfl := Option.some.inj hmp'
      obtain ⟨G, D, _, _, _, hf⟩ := closed_facts A h hob hoe
      obtain ⟨_, hj', _⟩ := hf r hr
      have hjm : j = m - 1 := by rw [hj] at hj'; omega
      subst hjm
      obtain ⟨y, w, ew, hy, hya⟩ := both hw
      rw [hd] at ew
      obtain rfl := F64.fin.inj ew
      exact ⟨y, hy, le_trans hya.lower (le_trans l1 ha0.upper)⟩

/-- Bernoulli upwards, for small exponents. -/
theorem pow_le_linear (hu : 0 ≤ u) : ∀ k : Nat, (k : ℚ) * u ≤ 1 / 2 → (1 + u) ^ k ≤ 1 + 2 * k * u := by
  intro k
  induction k with
  | zero => intro _; simp
  | succ k ih =>
    intro hk
    push_cast at hk ⊢
    have h1 : (k : ℚ) * u ≤ 1 / 2 := by nlinarith
    have h2 := ih h1
    calc (1 + u) ^ (k + 1) = (1 + u) ^ k * (1 + u) := pow_succ _ _
      _ ≤ (1 + 2 * k * u) * (1 + u) := mul_le_mul_of_nonneg_right h2 (by linarith)
      _ = 1 + 2 * k * u + u + 2 * (k * u) * u := by ring
      _ ≤ 1 + 2 * (k + 1) * u := by nlinarith

/-- The weights of a rule are zero or between 1/4 and 4, and it charges at most three local costs. -/
def ModestWeights (rs : List Rule) : Prop :=
  ∀ r ∈ rs, r.terms.length ≤ 3 ∧ ∀ t ∈ r.terms, t.w = 0 ∨ (1 / 4 ≤ t.w ∧ t.w ≤ 4)

instance (rs : List Rule) : Decidable (ModestWeights rs) := inferInstanceAs (Decidable (∀ _ ∈ _, _))

/-- All bundled patterns are such, except the private one with a negative weight. -/
theorem C49_bundled (q : String × StepPattern) (hq : q ∈ Pat.table) (hne : q.1 ≠ "_symmetricVelichkoZagoruyko") :
    ModestWeights (rulesOf q.2) := by
  have : (Pat.table.all fun q => decide (q.1 = "_symmetricVelichkoZagoruyko") ||
      decide (ModestWeights (rulesOf q.2))) = true := by decide +kernel
  have := List.all_eq_true.1 this q hq
  simp only [hne, decide_false, Bool.false_or, decide_eq_true_eq] at this
  exact this

/-- All constructed Rabiner-Juang patterns too. -/
theorem C49_rabinerJuang (t : Int) (s : String) (sm : Bool) (p : StepPattern) (hp : rabinerJuang t s sm = .ok p)
    (ht : 1 ≤ t ∧ t ≤ 7) (hs : s = "a" ∨ s = "b" ∨ s = "c" ∨ s = "d") : ModestWeights (rulesOf p) := by
  have key : ([1, 2, 3, 4, 5, 6, 7].all fun t : Int => ["a", "b", "c", "d"].all fun s => [true, false].all fun sm =>
      match rabinerJuang t s sm with
        | .ok p => decide (ModestWeights (rulesOf p))
        | .error _ => true) = true := by decide +kernel
  have hmem : t ∈ ([1, 2, 3, 4, 5, 6, 7] : List Int) := by
    simp only [List.mem_cons, List.not_mem_nil, or_false]; omega
  have h1 := List.all_eq_true.1 (List.all_eq_true.1 (List.all_eq_true.1 key t hmem) s (by
    rcases hs with rfl | rfl | rfl | rfl <;> simp)) sm (by cases sm <;> simp)
  rw [hp] at h1
  simpa using h1

/-- C49.  In double precision (with or without fused multiply-add), for every bundled pattern with positive weights and
every matrix of local costs that are zero or between 2^-1000 and 2^900: a closed alignment exists exactly when it does
in exact arithmetic, and the relative error of the computed distance is at most `(3(N+M)+2) * 2^-52`; the path returned
costs at most a factor `1 + (3(N+M)+2) * 2^-50` more than the best one. -/
theorem C49_double_accuracy (f : Bool) (h : Problem a n m (fun i j => fin (ℓ i j)) W p rs)
    (hob : a.openBegin = false) (hoe : a.openEnd = false) (hw : ModestWeights rs)
    (hc : ∀ i < n, ∀ j < m, ℓ i j = 0 ∨ (1 / 2 ^ 1000 ≤ ℓ i j ∧ ℓ i j ≤ 2 ^ 900)) :
    ((∃ r, dtw (binary64 f) a = .ok r) ↔ ∃ r0, dtw Arith.exact a = .ok r0) ∧
    ∀ r r0, dtw (binary64 f) a = .ok r → dtw Arith.exact a = .ok r0 →
      ∃ d d0, r.distance = fin d ∧ r0.distance = fin d0 ∧ |d - d0| ≤ ((3 * (n + m) + 2 : ℕ) : ℚ) / 2 ^ 52 * d0 ∧
      ∀ mp, r.mapping = some mp → ∃ x, WarpPath Arith.exact rs W (fun i j => fin (ℓ i j)) mp.stepsTaken (n - 1) (m - 1) (fin x) ∧
        d0 ≤ x ∧ x ≤ (1 + ((3 * (n + m) + 2 : ℕ) : ℚ) / 2 ^ 50) * d0 := by
  have hn := h.n_pos
  have hm := h.m_pos
  have hsmall : n + m ≤ 2147483648 := by
    have := h.fits.cells
    simp only [gridRows, hob, Bool.false_eq_true, if_false] at this
    have h2 : n + m ≤ n * m + 1 := by
      obtain ⟨n', rfl⟩ := Nat.exists_eq_add_of_lt hn
      obtain ⟨m', rfl⟩ := Nat.exists_eq_add_of_lt hm
      nlinarith [Nat.zero_le (n' * m')]
    omega
  have hk1 : (((3 * (n + m) + 2 : ℕ)) : ℚ) ≤ 2 ^ 33 := by
    have : 3 * (n + m) + 2 ≤ 2 ^ 33 := by omega
    exact_mod_cast this
  set k := 3 * (n + m) + 2 with hkdef
  have hk0 : (0 : ℚ) ≤ (k : ℚ) := by positivity
  have hsm : (k : ℚ) * (1 / 2 ^ 53) ≤ 1 / 2 ^ 20 := by
    have : (k : ℚ) * (1 / 2 ^ 53) ≤ 2 ^ 33 * (1 / 2 ^ 53) := mul_le_mul_of_nonneg_right hk1 (by norm_num)
    refine le_trans this ?_
    norm_num
  have hup := pow_le_linear (u := 1 / 2 ^ 53) (by norm_num) k (le_trans hsm (by norm_num))
  have hlow : 1 - (k : ℚ) * (1 / 2 ^ 53) ≤ (1 - 1 / 2 ^ 53) ^ k := by
    have := one_add_mul_le_pow (a := -(1 / 2 ^ 53 : ℚ)) (by norm_num) k
    calc 1 - (k : ℚ) * (1 / 2 ^ 53) = 1 + (k : ℚ) * (-(1 / 2 ^ 53)) := by ring
      _ ≤ _ := this
      _ = _ := by rw [← sub_eq_add_neg]
  have z1 : (2 : ℚ) ^ (-1022 : ℤ) ≤ 1 / 2 * (1 / 4 * (1 / 2 ^ 1000)) := by
    have e : (1 / 2 * (1 / 4 * (1 / 2 ^ 1000)) : ℚ) = 2 ^ (-1003 : ℤ) := by
      rw [show (-1003 : ℤ) = -1 + (-2 + -(1000 : ℕ)) by norm_num, zpow_add₀ (by norm_num), zpow_add₀ (by norm_num),
        zpow_neg _ ((1000 : ℕ) : ℤ), zpow_natCast]
      generalize (2 : ℚ) ^ 1000 = X
      rw [show ((2 : ℚ) ^ (-1 : ℤ)) = 1 / 2 by norm_num, show ((2 : ℚ) ^ (-2 : ℤ)) = 1 / 4 by norm_num, one_div X]
    rw [e]; exact two_zpow_le (by norm_num)
  have z2 : (2 : ℚ) * (2 ^ 33 * (4 * 2 ^ 900)) ≤ 2 ^ (1023 : ℤ) := by
    have e : (2 * (2 ^ 33 * (4 * 2 ^ 900)) : ℚ) = 2 ^ (936 : ℤ) := by
      rw [show (936 : ℤ) = 36 + (900 : ℕ) by norm_num, zpow_add₀ (by norm_num), zpow_natCast]
      generalize (2 : ℚ) ^ 900 = X
      rw [show ((2 : ℚ) ^ (36 : ℤ)) = 68719476736 by norm_num]
      ring
    rw [e]; exact two_zpow_le (by norm_num)
  have z4 : (2 : ℚ) ^ (-1022 : ℤ) ≤ 1 / 4 := by
    rw [show (1 / 4 : ℚ) = 2 ^ (-2 : ℤ) by norm_num]; exact two_zpow_le (by norm_num)
  have z0 : (0 : ℚ) < 1 / 2 ^ 1000 := by positivity
  have z3 : (1 : ℚ) ≤ 2 ^ 900 := one_le_pow₀ (by norm_num)
  generalize (1 : ℚ) / 2 ^ 1000 = c0 at hc z0 z1
  generalize (2 : ℚ) ^ 900 = c1 at hc z2 z3
  have hA := C49_binary64_relerr f
  generalize (2 : ℚ) ^ (-1022 : ℤ) = lo at hA z1 z4
  generalize (2 : ℚ) ^ (1023 : ℤ) = hi at hA z2
  have hlo1 : lo ≤ 1 / 2 * (1 / 4 * c0) := z1
  have ht : Tame (1 / 2 ^ 53) lo hi (4 * c1) rs n m ℓ := by
    refine ⟨?_, ?_, ?_, ?_⟩
    · intro i hi' j hj
      rcases hc i hi' j hj with h0 | ⟨h0, _⟩
      · exact .inl h0
      · right; linarith
    · intro i hi' j hj
      rcases hc i hi' j hj with h0 | ⟨_, h0⟩ <;> linarith
    · intro r hr t ht
      rcases (hw r hr).2 t ht with h0 | ⟨h1, h2⟩
      · exact .inl h0
      · right
        exact ⟨by linarith, by linarith⟩
    · intro r hr t ht i hi' j hj
      rcases (hw r hr).2 t ht with h0 | ⟨h1, h2⟩
      · left; rw [h0, zero_mul]
      · rcases hc i hi' j hj with h3 | ⟨h3, h4⟩
        · left; rw [h3, mul_zero]
        · right
          have h5 : 1 / 4 * c0 ≤ t.w * ℓ i j := mul_le_mul h1 h3 z0.le (by linarith)
          have h6 : t.w * ℓ i j ≤ 4 * c1 := mul_le_mul h2 h4 (by linarith) (by norm_num)
          refine ⟨le_trans hlo1 ?_, h6⟩
          exact mul_le_mul (by norm_num) h5 (by linarith) (by norm_num)
  obtain ⟨hs, hb⟩ := C49_rounding_error h hob hoe hA ht (T := 3) (fun r hr => (hw r hr).1) (by
    rw [← hkdef]
    refine le_trans ?_ z2
    refine mul_le_mul ?_ ?_ (by positivity) (by norm_num)
    · refine le_trans hup ?_
      have : 2 * (k : ℚ) * (1 / 2 ^ 53) = 2 * ((k : ℚ) * (1 / 2 ^ 53)) := by ring
      rw [this]; linarith
    · refine mul_le_mul_of_nonneg_right ?_ (by linarith)
      refine le_trans ?_ hk1
      rw [hkdef]; push_cast; linarith)
  refine ⟨hs, ?_⟩
  intro r r0 hr hr0
  obtain ⟨d, d0, e1, e2, hpos, b1, b2, b3⟩ := hb r r0 hr hr0
  rw [← hkdef] at b1 b2 b3
  have l1 := mul_le_mul_of_nonneg_right hlow hpos
  have l2 := mul_le_mul_of_nonneg_right hup hpos
  refine ⟨d, d0, e1, e2, ?_, ?_⟩
  · have hkd : 0 ≤ (k : ℚ) * d0 := mul_nonneg hk0 hpos
    have e : (k : ℚ) / 2 ^ 52 * d0 = 2 * ((k : ℚ) * d0) / 2 ^ 53 := by ring
    rw [e, abs_le]
    have l1' : d0 - (k * d0) / 2 ^ 53 ≤ d := by
      refine le_trans (le_of_eq ?_) (le_trans l1 b1); ring
    have l2' : d ≤ d0 + 2 * (k * d0) / 2 ^ 53 := by
      refine le_trans b2 (le_trans l2 (le_of_eq ?_)); ring
    constructor <;> linarith
  · intro mp hmp
    obtain ⟨x, hx, hxb⟩ := b3 mp hmp
    have hmin : d0 ≤ x := by
      have := (C01_distance_optimal h hob hoe hr0).2 _ _ hx (by simp)
      rw [e2] at this; simpa using this
    refine ⟨x, hx, hmin, ?_⟩
    have hx0 : 0 ≤ x := le_trans hpos hmin
    have l3 := mul_le_mul_of_nonneg_right hlow hx0
    have l4 : (1 - k * (1 / 2 ^ 53)) * x ≤ (1 + 2 * k * (1 / 2 ^ 53)) * d0 := le_trans l3 (le_trans hxb l2)
    -- (1 + 2s)/(1 - s) ≤ 1 + 8s for small s
    generalize hs' : (k : ℚ) * (1 / 2 ^ 53) = s at hsm l4
    have hs0 : 0 ≤ s := by rw [← hs']; positivity
    have e3 : (1 + 2 * (k : ℚ) * (1 / 2 ^ 53)) = 1 + 2 * s := by rw [← hs']; ring
    have e4 : (1 + (k : ℚ) / 2 ^ 50) = 1 + 8 * s := by rw [← hs']; ring
    rw [e3] at l4
    rw [e4]
    have hs1 : s ≤ 1 / 2 := le_trans hsm (by norm_num)
    have key : (1 + 2 * s) ≤ (1 - s) * (1 + 8 * s) := by nlinarith
    have : (1 - s) * x ≤ (1 - s) * ((1 + 8 * s) * d0) := by
      refine le_trans l4 ?_
      rw [← mul_assoc]
      exact mul_le_mul_of_nonneg_right key hpos
    exact le_of_mul_le_mul_left this (by linarith)

/-! ### Integer costs -/

/-- C50: doubles represent the natural numbers up to 2^53 exactly. -/
theorem C50_binary64_integers (f : Bool) : ExactUpTo (binary64 f) (2 ^ 53) := by
  intro k hk
  have hlt : ((2 : ℚ)) ^ 53 < 2 ^ (1024 : ℤ) := by
    rw [show ((2 : ℚ)) ^ 53 = 2 ^ (53 : ℤ) by norm_num]
    exact zpow_lt_zpow_right₀ (by norm_num) (by norm_num)
  have hk' : (k : ℚ) ≤ 2 ^ 53 := by exact_mod_cast hk
  refine rnd64_double ?_
  have habs : |(k : ℚ)| < 2 ^ (1024 : ℤ) := by
    rw [abs_of_nonneg (Nat.cast_nonneg k)]; exact lt_of_le_of_lt hk' hlt
  rcases hk.eq_or_lt with e | e
  · refine ⟨1, 53, by norm_num, by norm_num, ?_, habs⟩
    rw [e]; norm_num
  · refine ⟨k, 0, ?_, by norm_num, ?_, habs⟩
    · rw [abs_of_nonneg (by positivity)]; exact_mod_cast e
    · rw [zpow_zero, mul_one]; simp

/-- The weights are natural numbers up to `w`, and no rule charges more than `T` local costs. -/
def NaturalWeights (w T : Nat) (rs : List Rule) : Prop :=
  ∀ r ∈ rs, r.terms.length ≤ T ∧ ∀ t ∈ r.terms, ∃ k : Nat, k ≤ w ∧ t.w = k

/-- Charging natural costs with natural weights is exact. -/
theorem charge_nat {B C w : Nat} {ℓ : Nat → Nat → ℕ} (hA : ExactUpTo A B) (hw1 : ExactUpTo A w) {i j : Nat} (hi : i < n) (hj : j < m)
    (hC : ∀ i < n, ∀ j < m, ℓ i j ≤ C) : ∀ (ts : List Term) (g : Nat),
    (∀ t ∈ ts, ∃ k : Nat, k ≤ w ∧ t.w = k) → g + ts.length * (w * C) ≤ B →
    ∃ g' : Nat, g' ≤ g + ts.length * (w * C) ∧
      ts.foldl (fun c t => A.mac c (A.rnd t.w) (fin (ℓ (i - t.di) (j - t.dj) : ℚ))) (fin g) = fin g' ∧
      ts.foldl (fun c t => Arith.exact.mac c (Arith.exact.rnd t.w) (fin (ℓ (i - t.di) (j - t.dj) : ℚ))) (fin g) = fin g' := by
  intro ts
  induction ts with
  | nil => intro g _ _; exact ⟨g, by simp, rfl, rfl⟩
  | cons t ts ih =>
    intro g ht hB
    obtain ⟨k, hk, hkw⟩ := ht t (by simp)
    have hl := hC (i - t.di) (by omega) (j - t.dj) (by omega)
    have hprod : k * ℓ (i - t.di) (j - t.dj) ≤ w * C := Nat.mul_le_mul hk hl
    have hlen : (t :: ts).length * (w * C) = w * C + ts.length * (w * C) := by
      rw [List.length_cons, Nat.succ_mul, Nat.add_comm]
    rw [hlen] at hB
    obtain ⟨g', h1, h2, h3⟩ := ih (g + k * ℓ (i - t.di) (j - t.dj))
      (fun t' ht' => ht t' (List.mem_cons_of_mem _ ht')) (by omega)
    refine ⟨g', by rw [hlen]; omega, ?_, ?_⟩
    · rw [List.foldl_cons]
      have e : A.mac (fin (g : ℚ)) (A.rnd t.w) (fin (ℓ (i - t.di) (j - t.dj) : ℚ)) =
          fin ((g + k * ℓ (i - t.di) (j - t.dj) : ℕ) : ℚ) := by
        rw [hkw, hw1 k hk]
        unfold Arith.mac
        have hsum : A.add (fin (g : ℚ)) (fin ((k : ℚ) * (ℓ (i - t.di) (j - t.dj) : ℚ))) =
            fin ((g + k * ℓ (i - t.di) (j - t.dj) : ℕ) : ℚ) := by
          have := hA (g + k * ℓ (i - t.di) (j - t.dj)) (by omega)
          push_cast at this ⊢
          exact this
        cases A.fused with
        | true => exact hsum
        | false =>
          have := hA (k * ℓ (i - t.di) (j - t.dj)) (by omega)
          push_cast at this
          simp only [Bool.false_eq_true, if_false, Arith.mul, Arith.mulWith]
          rw [this]; exact hsum
      rw [e]; exact h2
    · rw [List.foldl_cons]
      have e : Arith.exact.mac (fin (g : ℚ)) (Arith.exact.rnd t.w) (fin (ℓ (i - t.di) (j - t.dj) : ℚ)) =
          fin ((g + k * ℓ (i - t.di) (j - t.dj) : ℕ) : ℚ) := by
        rw [hkw, Arith.exact_rnd, Arith.exact_mac]; push_cast; rfl
      rw [e]; exact h3

/-- The exact solution of the recursion on natural costs is also the machine's. -/
theorem Bellman.exact_nat {B C w T : Nat} {ℓ : Nat → Nat → ℕ} {S G : Nat → Nat → F64} {D : Nat → Nat → Int}
    (hA : ExactUpTo A B) (hw : NaturalWeights w T rs) (hw1 : ExactUpTo A w) (hv : ∀ r ∈ rs, r.Valid)
    (hC : ∀ i < n, ∀ j < m, ℓ i j ≤ C) (hB : (T * w * (n + m) + 1) * C ≤ B)
    (hSeed : ∀ i < n, ∀ j < m, S i j = nan ∨ ∃ g : Nat, S i j = fin g ∧ g ≤ C)
    (h : Bellman Arith.exact rs n m W (fun i j => fin (ℓ i j : ℚ)) S G D) :
    Bellman A rs n m W (fun i j => fin (ℓ i j : ℚ)) S G D ∧
    ∀ i < n, ∀ j < m, G i j = nan ∨ ∃ g : Nat, G i j = fin g ∧ g ≤ (T * w * (n + m) + 1) * C := by
  -- every cell is NaN or a natural number of bounded size
  have step : ∀ i j, i < n → j < m → ∀ r ∈ rs, r.a ≤ i → r.b ≤ j →
      (G (i - r.a) (j - r.b) = nan ∨ ∃ g : Nat, G (i - r.a) (j - r.b) = fin g ∧
        g ≤ (T * w * (i - r.a + (j - r.b)) + 1) * C) →
      cand A (fun i j => fin (ℓ i j : ℚ)) G i j r = cand Arith.exact (fun i j => fin (ℓ i j : ℚ)) G i j r ∧
      (cand Arith.exact (fun i j => fin (ℓ i j : ℚ)) G i j r = nan ∨
        ∃ g : Nat, cand Arith.exact (fun i j => fin (ℓ i j : ℚ)) G i j r = fin g ∧ g ≤ (T * w * (i + j) + 1) * C) := by
    intro i j hi hj r hr ha hb hg
    have hval := (hv r hr).1
    unfold cand
    rw [if_pos ⟨ha, hb⟩, if_pos ⟨ha, hb⟩]
    rcases hg with hg | ⟨g, hg, hgle⟩
    · rw [hg]
      have hn : ∀ (A : Arith) (ts : List Term), ts.foldl (fun c t => A.mac c (A.rnd t.w)
          (fin (ℓ (i - t.di) (j - t.dj) : ℚ))) nan = nan := by
        intro A ts
        induction ts with
        | nil => rfl
        | cons t ts ih => rw [List.foldl_cons, Arith.mac_nan]; exact ih
      refine ⟨?_, .inl ?_⟩
      · unfold charge; rw [hn, hn]
      · unfold charge; rw [hn]
    · rw [hg]
      have hlen := (hw r hr).1
      have e1 : T * w * (i - r.a + (j - r.b)) + T * w ≤ T * w * (i + j) := by
        rw [← Nat.mul_succ]; exact Nat.mul_le_mul_left _ (by omega)
      have e2 : r.terms.length * (w * C) ≤ T * w * C := by
        rw [Nat.mul_assoc]; exact Nat.mul_le_mul_right _ hlen
      have e3 : (T * w * (i - r.a + (j - r.b)) + 1) * C + T * w * C ≤ (T * w * (i + j) + 1) * C := by
        rw [← Nat.add_mul]; exact Nat.mul_le_mul_right _ (by omega)
      have e4 : (T * w * (i + j) + 1) * C ≤ (T * w * (n + m) + 1) * C :=
        Nat.mul_le_mul_right _ (by
          have : T * w * (i + j) ≤ T * w * (n + m) := Nat.mul_le_mul_left _ (by omega)
          omega)
      obtain ⟨g', h1, h2, h3⟩ := charge_nat (ℓ := ℓ) hA hw1 hi hj hC r.terms g (hw r hr).2 (by omega)
      refine ⟨?_, .inr ⟨g', h3, by omega⟩⟩
      exact h2.trans h3.symm
  have nat : ∀ N i j, i + j = N → i < n → j < m →
      G i j = nan ∨ ∃ g : Nat, G i j = fin g ∧ g ≤ (T * w * (i + j) + 1) * C := by
    intro N
    induction N using Nat.strong_induction_on with
    | _ N ih =>
      intro i j hN hi hj
      by_cases hS : S i j = nan
      · cases hW : W i j with
        | false => exact .inl (h.outside i hi j hj hS hW).1
        | true =>
          rcases h.inside i hi j hj hS hW with ⟨k, h1, _⟩ | ⟨_, h2, _⟩
          · rw [List.getElem?_map] at h1
            cases hr : rs[k]? with
            | none => rw [hr] at h1; simp at h1
            | some r =>
              rw [hr] at h1
              simp only [Option.map_some, Option.some.injEq] at h1
              have hmem := List.mem_of_getElem? hr
              have hval := (hv r hmem).1
              by_cases hle : r.a ≤ i ∧ r.b ≤ j
              · have := (step i j hi hj r hmem hle.1 hle.2
                  (ih (i - r.a + (j - r.b)) (by omega) _ _ rfl (by omega) (by omega))).2
                rw [h1] at this; exact this
              · left; rw [← h1]; unfold cand; rw [if_neg hle]
          · exact .inl h2
      · obtain ⟨g, hg, hgC⟩ := (hSeed i hi j hj).resolve_left hS
        refine .inr ⟨g, by rw [(h.seeded i hi j hj hS).1, hg], hgC.trans ?_⟩
        rw [Nat.add_mul, Nat.one_mul]; exact Nat.le_add_left _ _
  refine ⟨⟨h.seeded, h.outside, ?_⟩, fun i hi j hj => (nat _ i j rfl hi hj).imp_right fun ⟨g, hg, hle⟩ =>
    ⟨g, hg, hle.trans (Nat.mul_le_mul_right _ (Nat.succ_le_succ (Nat.mul_le_mul_left _ (by omega))))⟩⟩
  intro i hi j hj hS hW
  have := h.inside i hi j hj hS hW
  have e : rs.map (cand A (fun i j => fin (ℓ i j : ℚ)) G i j) =
      rs.map (cand Arith.exact (fun i j => fin (ℓ i j : ℚ)) G i j) := by
    apply List.map_congr_left
    intro r hr
    by_cases hle : r.a ≤ i ∧ r.b ≤ j
    · exact (step i j hi hj r hr hle.1 hle.2 (nat _ _ _ rfl (by omega) (by omega))).1
    · unfold cand; rw [if_neg hle, if_neg hle]
  rw [e]; exact this

/-- The result with its normalized distance rounded. -/
def roundNorm (A : Arith) (r : Result) : Result :=
  { r with normalizedDistance := match r.normalizedDistance with
      | fin q => A.rnd q
      | v => v }

/-- Different quotients `x / k` with `x ≤ X` and `1 ≤ k ≤ K` are still different, and in the same order, after rounding. -/
def SeparatesQuotients (A : Arith) (X K : Nat) : Prop :=
  ∀ x y k l : Nat, x ≤ X → y ≤ X → 1 ≤ k → k ≤ K → 1 ≤ l → l ≤ K →
    (x : ℚ) / k < (y : ℚ) / l → F64.lt (A.rnd ((x : ℚ) / k)) (A.rnd ((y : ℚ) / l)) = true

theorem nanargmin_congr {m : Nat} {f g : Nat → F64} (h0 : ∀ j < m, f j = nan ↔ g j = nan)
    (hfin : ∀ j < m, g j ≠ nan → g j ≠ pinf) (hfin' : ∀ j < m, f j ≠ nan → f j ≠ pinf)
    (hlt : ∀ j < m, ∀ k < m, g j ≠ nan → g k ≠ nan → F64.lt (g j) (g k) = true → F64.lt (f j) (f k) = true)
    (heq : ∀ j < m, ∀ k < m, g j ≠ nan → g j = g k → f j = f k) :
    nanargmin (tab m f) = nanargmin (tab m g) := by
  by_cases hall : ∀ j < m, g j = nan
  · rw [nanargmin_all_nan hall, nanargmin_all_nan fun j hj => (h0 j hj).2 (hall j hj)]
  · push Not at hall
    obtain ⟨j0, hj0, hne0⟩ := hall
    obtain ⟨k, hk⟩ := nanargmin_tab_error.2 ⟨j0, hj0, hne0⟩
    obtain ⟨k', hk'⟩ := nanargmin_tab_error.2 ⟨j0, hj0, fun hc => hne0 ((h0 j0 hj0).1 hc)⟩
    have pick : ∀ {f : Nat → F64} {k : Nat}, f j0 ≠ nan → f j0 ≠ pinf → nanargmin (tab m f) = .ok k → f k ≠ nan := by
      intro f k hn hp hk hc
      obtain ⟨_, h2, _⟩ := nanargmin_tab hk
      have := h2 j0 hj0
      rw [unNan_of hn, hc] at this
      revert this hp hn
      cases f j0 <;> simp [unNan, isNan, F64.lt]
    have b := firstBest_of_nanargmin hk (pick hne0 (hfin j0 hj0 hne0) hk)
    have hf0 : f j0 ≠ nan := fun hc => hne0 ((h0 j0 hj0).1 hc)
    have b' := firstBest_of_nanargmin hk' (pick hf0 (hfin' j0 hj0 hf0) hk')
    have hgk' : g k' ≠ nan := fun hc => b'.num ((h0 k' b'.lt).2 hc)
    have hfk : f k ≠ nan := fun hc => b.num ((h0 k b.lt).1 hc)
    rw [hk, hk']
    congr 1
    rcases lt_trichotomy k k' with hlt' | heq' | hgt
    · -- `f k' < f k` although `g k ≤ g k'`
      have h1 := b'.first k hlt' hfk
      have h2 := b.min k' b'.lt hgk'
      exfalso
      cases hc : F64.lt (g k) (g k') with
      | true =>
        have := hlt k b.lt k' b'.lt b.num hgk' hc
        have := F64.lt_trans h1 this
        simp at this
      | false =>
        have e := lt_tri hgk' b.num h2.2.2 hc
        rw [heq k' b'.lt k b.lt hgk' e] at h1
        simp at h1
    · exact heq'.symm
    · have h1 := b.first k' hgt hgk'
      have := hlt k b.lt k' b'.lt b.num hgk' h1
      have h2 := (b'.min k b.lt hfk).2.2
      rw [this] at h2
      simp at h2

/-- The end of the computation, in the two arithmetics. -/
theorem finish_nat {X : Nat} {qr : Option (Mat F64 × Mat F64)} {q : Nat} {lm' : Mat F64} {G : Nat → Nat → F64}
    {D : Nat → Nat → Int} (hn : 0 < n) (hm : 0 < m) (hq : 0 < q) (hA : ExactUpTo A X)
    (hsep : a.openEnd = true → SeparatesQuotients A X (n + m))
    (hG : ∀ j < m, G (q - 1) j = nan ∨ ∃ g : Nat, G (q - 1) j = fin g ∧ g ≤ X) :
    finish A a p n m qr q lm' G D = (finish Arith.exact a p n m qr q lm' G D).map (roundNorm A) := by
  -- the normalised last row
  have hnorm : ∀ j < m, ∀ g : Nat, g ≤ X → ∃ k : Nat, 1 ≤ k ∧ k ≤ n + m ∧
      normBy Arith.exact p.hint n j (fin (g : ℚ)) = fin ((g : ℚ) / k) ∧
      normBy A p.hint n j (fin (g : ℚ)) = A.rnd ((g : ℚ) / k) := by
    intro j hj g hg
    have hn0 : (n : ℚ) ≠ 0 := by
      have : (0 : ℚ) < n := by exact_mod_cast hn
      exact this.ne'
    have hj0 : (0 : ℚ) ≤ j := by positivity
    have hn1 : (0 : ℚ) < n := by exact_mod_cast hn
    unfold normBy
    by_cases h1 : p.hint = "N+M"
    · refine ⟨n + j + 1, by omega, by omega, ?_, ?_⟩ <;>
      · rw [if_pos h1]
        simp only [Arith.divQ]
        rw [if_neg (by positivity)]
        push_cast; rfl
    · by_cases h2 : p.hint = "N"
      · refine ⟨n, by omega, by omega, ?_, ?_⟩ <;>
        · rw [if_neg h1, if_pos h2]
          simp only [Arith.divQ]
          rw [if_neg hn0]
          try rfl
      · by_cases h3 : p.hint = "M"
        · refine ⟨1 + j, by omega, by omega, ?_, ?_⟩ <;>
          · rw [if_neg h1, if_neg h2, if_pos h3]
            simp only [Arith.divQ]
            rw [if_neg (by positivity)]
            push_cast; rfl
        · refine ⟨1, le_rfl, by omega, ?_, ?_⟩
          · rw [if_neg h1, if_neg h2, if_neg h3]; simp
          · rw [if_neg h1, if_neg h2, if_neg h3]
            rw [Nat.cast_one, div_one, hA g hg]
  have hpe : pickEnd a p.hint m (Mat.ofFn q m G) (normalise A p.hint n (tab m (G (q - 1)))) =
      pickEnd a p.hint m (Mat.ofFn q m G) (normalise Arith.exact p.hint n (tab m (G (q - 1)))) := by
    cases hoe : a.openEnd with
    | false => rw [pickEnd_closed hq hm hoe, pickEnd_closed hq hm hoe]
    | true =>
      have hs := hsep hoe
      rw [normalise_tab, normalise_tab]
      unfold pickEnd
      rw [hoe]
      simp only [if_true]
      have e : nanargmin (tab m fun j => normBy A p.hint n j (G (q - 1) j)) =
          nanargmin (tab m fun j => normBy Arith.exact p.hint n j (G (q - 1) j)) := by
        apply nanargmin_congr
        · intro j _; rw [normBy_eq_nan_iff A hn, normBy_eq_nan_iff Arith.exact hn]
        · intro j hj hne
          rcases hG j hj with h | ⟨g, h, hg⟩
          · rw [h, normBy_nan] at hne; exact absurd rfl hne
          · obtain ⟨k, _, _, e1, _⟩ := hnorm j hj g hg
            rw [h, e1]; simp
        · intro j hj hne
          rcases hG j hj with h | ⟨g, h, hg⟩
          · rw [h, normBy_nan] at hne; exact absurd rfl hne
          · obtain ⟨k, hk1, hk2, _, e2⟩ := hnorm j hj g hg
            rw [h, e2]
            intro hc
            have hle : (g : ℚ) / k ≤ g := div_le_self (by positivity) (by exact_mod_cast hk1)
            have := A.rnd_mono _ _ hle
            rw [hA g hg, hc] at this
            simp [F64.lt] at this
        · intro j hj k hk hj1 hk1 hlt
          rcases hG j hj with h | ⟨g, h, hg⟩
          · rw [h, normBy_nan] at hj1; exact absurd rfl hj1
          rcases hG k hk with h' | ⟨g', h', hg'⟩
          · rw [h', normBy_nan] at hk1; exact absurd rfl hk1
          obtain ⟨c, hc1, hc2, e1, e2⟩ := hnorm j hj g hg
          obtain ⟨c', hc1', hc2', e1', e2'⟩ := hnorm k hk g' hg'
          rw [h, h', e1, e1'] at hlt
          rw [h, h', e2, e2']
          exact hs g g' c c' hg hg' hc1 hc2 hc1' hc2' (by simpa [F64.lt] using hlt)
        · intro j hj k hk hj1 heq
          rcases hG j hj with h | ⟨g, h, hg⟩
          · rw [h, normBy_nan] at hj1; exact absurd rfl hj1
          obtain ⟨c, hc1, hc2, e1, e2⟩ := hnorm j hj g hg
          rcases hG k hk with h' | ⟨g', h', hg'⟩
          · rw [h, h', e1, normBy_nan] at heq; simp at heq
          obtain ⟨c', hc1', hc2', e1', e2'⟩ := hnorm k hk g' hg'
          rw [h, h', e1, e1'] at heq
          rw [h, h', e2, e2']
          rw [F64.fin.inj heq]
      rw [e]
  cases hk : pickEnd a p.hint m (Mat.ofFn q m G) (normalise Arith.exact p.hint n (tab m (G (q - 1)))) with
  | error e => rw [finish_error hk, finish_error (hpe.trans hk)]; rfl
  | ok jd =>
    obtain ⟨j, d⟩ := jd
    obtain ⟨k, h1, rfl, rfl, h4, _, _⟩ := pickEnd_ok hn hq hm hk
    rw [finish_of h1 hk, finish_of h1 (hpe.trans hk)]
    cases pickMapping a p (Mat.ofFn q m D) k with
    | error e => rfl
    | ok mp =>
      simp only [Except.map]
      congr 1
      obtain ⟨g, hg, hgX⟩ := (hG k h1).resolve_left h4
      obtain ⟨c, _, _, e1, e2⟩ := hnorm k h1 g hgX
      unfold roundNorm mkResult
      by_cases hNA : p.hint = "NA"
      · simp [hNA]
      · simp only [hNA, if_false, hg, e1, e2]

/-- Both runs of the same call go through the same series; only the arithmetic differs. -/
theorem dtw_closed_all {L : Nat → Nat → F64} (h : Problem a n m L W p rs) (hob : a.openBegin = false) :
    ∃ qr, ∀ A, ∃ G D, Bellman A rs n m W L (closedSeed L) G D ∧
      dtw A a = finish A a p n m qr n (Mat.ofFn n m L) G D := by
  obtain ⟨qr, hl, _, _⟩ := localCost_of h.cost
  refine ⟨qr, fun A => ?_⟩
  obtain ⟨G, D, qr', hB, _, hd⟩ := dtw_closed A h hob
  obtain ⟨G', D', hB', hrun⟩ := runGCM_closed A h hob
  refine ⟨G', D', hB', ?_⟩
  unfold dtw finish
  rw [hl, Except_bind_ok]
  simp only
  rw [h.pattern, Except_bind_ok, hrun, Except_bind_ok]
  have hr : ∀ {α : Type} (f : Nat → Nat → α), (Mat.ofFn n m f).rows = n := fun _ => rfl
  have hc : ∀ {α : Type} (f : Nat → Nat → α), (Mat.ofFn n m f).cols = m := fun _ => rfl
  simp only [hr, hc]
  rw [row_ofFn _ (by have := h.n_pos; omega)]

theorem dtw_open_all {L : Nat → Nat → F64} (h : Problem a n m L W p rs) (hob : a.openBegin = true)
    (hh : p.hint = "N") :
    ∃ qr, ∀ A, ∃ G D, Bellman A rs (n + 1) m W (nullRow L) openSeed G D ∧
      dtw A a = finish A a p n m qr (n + 1) (Mat.ofFn (n + 1) m (nullRow L)) G D := by
  obtain ⟨qr, hl, _, hst⟩ := localCost_of h.cost
  refine ⟨qr, fun A => ?_⟩
  obtain ⟨G, D, hB, hrun⟩ := runGCM_open A h hob hh hst
  refine ⟨G, D, hB, ?_⟩
  unfold dtw finish
  rw [hl, Except_bind_ok]
  simp only
  rw [h.pattern, Except_bind_ok, hrun, Except_bind_ok]
  have hr : ∀ {α : Type} (f : Nat → Nat → α), (Mat.ofFn n m f).rows = n := fun _ => rfl
  have hc : ∀ {α : Type} (f : Nat → Nat → α), (Mat.ofFn n m f).cols = m := fun _ => rfl
  have hr' : ∀ {α : Type} (f : Nat → Nat → α), (Mat.ofFn (n + 1) m f).rows = n + 1 := fun _ => rfl
  simp only [hr, hc, hr']
  rw [row_ofFn _ (by omega)]

theorem finish_congr {qr : Option (Mat F64 × Mat F64)} {q : Nat} {lm' : Mat F64} {G G' : Nat → Nat → F64}
    {D D' : Nat → Nat → Int} (hq : 0 < q) (hG : ∀ i < q, ∀ j < m, G i j = G' i j)
    (hD : ∀ i < q, ∀ j < m, D i j = D' i j) :
    finish A a p n m qr q lm' G D = finish A a p n m qr q lm' G' D' := by
  have e1 : Mat.ofFn q m G = Mat.ofFn q m G' := ofFn_congr hG
  have e2 : Mat.ofFn q m D = Mat.ofFn q m D' := ofFn_congr hD
  have e3 : tab m (G (q - 1)) = tab m (G' (q - 1)) := by
    apply List.map_congr_left
    intro j hj
    exact hG _ (by omega) _ (List.mem_range.1 hj)
  unfold finish
  rw [e1, e2, e3]

/-- C50.  Let local costs be natural numbers up to `C` and weights natural numbers up to `w`, at most `T` per rule, and
let the integers up to `(T w (N+M+1) + 1) C`, which bounds the cost of every path, be represented exactly (doubles: it is
at most 2^53; with an open end, at most 2^52 / (N+M), see `C50_binary64_quotients`).  Then `dtw` in machine arithmetic
returns exactly what it returns in exact arithmetic - success or error, distance, end point, path, cost matrix, direction
matrix, everything - with any combination of open ends; only the normalized distance is rounded, once. -/
theorem C50_integer_costs_exact {C w T : Nat} {ℓ : Nat → Nat → ℕ}
    (h : Problem a n m (fun i j => fin (ℓ i j : ℚ)) W p rs) (hw : NaturalWeights w T rs)
    (hA : ExactUpTo A ((T * w * (n + m + 1) + 1) * C)) (hw1 : ExactUpTo A w)
    (hsep : a.openEnd = true → SeparatesQuotients A ((T * w * (n + m + 1) + 1) * C) (n + m))
    (hC : ∀ i < n, ∀ j < m, ℓ i j ≤ C) :
    dtw A a = (dtw Arith.exact a).map (roundNorm A) := by
  have hn := h.n_pos
  have hm := h.m_pos
  have hle : ∀ k, k ≤ n + m + 1 → (T * w * k + 1) * C ≤ (T * w * (n + m + 1) + 1) * C := fun k hk =>
    Nat.mul_le_mul_right _ (Nat.succ_le_succ (Nat.mul_le_mul_left _ hk))
  cases hob : a.openBegin with
  | false =>
    obtain ⟨qr, hall⟩ := dtw_closed_all h hob
    obtain ⟨G, D, hB0, hd0⟩ := hall Arith.exact
    obtain ⟨G', D', hB', hd⟩ := hall A
    obtain ⟨hE, hnat⟩ := hB0.exact_nat hA hw hw1 h.wf.valid hC (hle (n + m) (by omega)) (by
      intro i hi j hj
      by_cases h0 : i = 0 ∧ j = 0
      · obtain ⟨rfl, rfl⟩ := h0
        exact .inr ⟨ℓ 0 0, by simp [closedSeed], hC 0 hn 0 hm⟩
      · left; unfold closedSeed; rw [if_neg h0])
    have hu := hB'.unique h.wf.valid hE le_rfl le_rfl le_rfl le_rfl
      (fun _ _ _ _ => rfl) (fun _ _ _ _ => rfl) (fun _ _ _ _ => rfl)
    rw [hd, hd0, finish_congr hn (fun i hi j hj => (hu i hi j hj).1) (fun i hi j hj => (hu i hi j hj).2)]
    exact finish_nat hn hm hn hA hsep fun j hj => (hnat (n - 1) (by omega) j hj).imp_right fun ⟨g, h1, h2⟩ =>
      ⟨g, h1, h2.trans (hle _ (by omega))⟩
  | true =>
    by_cases hh : p.hint = "N"
    · obtain ⟨qr, hall⟩ := dtw_open_all h hob hh
      have eL : nullRow (fun i j => fin (ℓ i j : ℚ)) =
          fun i j => fin ((if i = 0 then 0 else ℓ (i - 1) j : ℕ) : ℚ) := by
        funext i j
        unfold nullRow
        split <;> simp
      obtain ⟨G, D, hB0, hd0⟩ := hall Arith.exact
      obtain ⟨G', D', hB', hd⟩ := hall A
      rw [eL] at hB0 hB'
      obtain ⟨hE, hnat⟩ := hB0.exact_nat hA hw hw1 h.wf.valid (C := C) (by
        intro i hi j hj
        split
        · omega
        · exact hC _ (by omega) _ hj) (hle (n + 1 + m) (by omega)) (by
        intro i hi j hj
        unfold openSeed
        split
        · exact .inr ⟨0, by simp, by omega⟩
        · exact .inl rfl)
      have hu := hB'.unique h.wf.valid hE le_rfl le_rfl le_rfl le_rfl
        (fun _ _ _ _ => rfl) (fun _ _ _ _ => rfl) (fun _ _ _ _ => rfl)
      rw [hd, hd0, finish_congr (Nat.succ_pos n) (fun i hi j hj => (hu i hi j hj).1) (fun i hi j hj => (hu i hi j hj).2)]
      exact finish_nat hn hm (Nat.succ_pos n) hA hsep fun j hj =>
        (hnat (n + 1 - 1) (by omega) j hj).imp_right fun ⟨g, h1, h2⟩ => ⟨g, h1, h2.trans (hle _ (by omega))⟩
    · rw [open_bad_hint h hob hh, open_bad_hint h hob hh]; rfl

/-- C50: the order of quotients survives rounding to double as long as numerator times denominator stays below 2^52. -/
theorem C50_binary64_quotients (f : Bool) {X K : Nat} (h : X * K < 2 ^ 52) (hK : K < 2 ^ 52) :
    SeparatesQuotients (binary64 f) X K := by
  intro x y k l hx hy hk1 hk2 hl1 hl2 hlt
  have hA := C49_binary64_relerr f
  have hk0 : (0 : ℚ) < k := by exact_mod_cast hk1
  have hl0 : (0 : ℚ) < l := by exact_mod_cast hl1
  have hlo : (2 : ℚ) ^ (-1022 : ℤ) ≤ 1 / 2 ^ 52 := by
    rw [show (1 : ℚ) / 2 ^ 52 = 2 ^ (-52 : ℤ) by norm_num]
    exact zpow_le_zpow_right₀ (by norm_num) (by norm_num)
  have hhi : (2 : ℚ) ^ 52 ≤ 2 ^ (1023 : ℤ) := by
    rw [show ((2 : ℚ)) ^ 52 = 2 ^ (52 : ℤ) by norm_num]
    exact zpow_le_zpow_right₀ (by norm_num) (by norm_num)
  have rng : ∀ z c : Nat, 1 ≤ z → z ≤ X → 1 ≤ c → c ≤ K →
      (2 : ℚ) ^ (-1022 : ℤ) ≤ (z : ℚ) / c ∧ (z : ℚ) / c ≤ 2 ^ (1023 : ℤ) := by
    intro z c hz hzX hc hcK
    have hc0 : (0 : ℚ) < c := by exact_mod_cast hc
    have hz1 : (1 : ℚ) ≤ z := by exact_mod_cast hz
    have hcK' : (c : ℚ) ≤ 2 ^ 52 := by exact_mod_cast (hcK.trans hK.le)
    have hzX' : (z : ℚ) ≤ 2 ^ 52 := by
      have : z ≤ 2 ^ 52 := by nlinarith
      exact_mod_cast this
    constructor
    · refine hlo.trans ?_
      rw [div_le_div_iff₀ (by positivity) hc0]
      nlinarith
    · refine le_trans ?_ hhi
      exact (div_le_self (by positivity) (by exact_mod_cast hc)).trans hzX'
  have hy0 : 1 ≤ y := by
    rcases Nat.eq_zero_or_pos y with rfl | h
    · rw [Nat.cast_zero, zero_div] at hlt
      exact absurd hlt (not_lt.2 (div_nonneg (Nat.cast_nonneg x) hk0.le))
    · exact h
  obtain ⟨v, e, h1, _, _⟩ := hA.err _ (rng y l hy0 hy hl1 hl2).1 (rng y l hy0 hy hl1 hl2).2
  have hq0 : (0 : ℚ) < (y : ℚ) / l := div_pos (by exact_mod_cast hy0) hl0
  rcases Nat.eq_zero_or_pos x with rfl | hx0
  · rw [Nat.cast_zero, zero_div, (binary64 f).rnd_zero, e]
    have : (0 : ℚ) < v := lt_of_lt_of_le (mul_pos (by norm_num) hq0) h1
    simpa [F64.lt] using this
  · obtain ⟨u, e', _, h2, _⟩ := hA.err _ (rng x k hx0 hx hk1 hk2).1 (rng x k hx0 hx hk1 hk2).2
    rw [e, e']
    have key : u < v := by
      refine lt_of_le_of_lt h2 (lt_of_lt_of_le ?_ h1)
      -- the two quotients differ by at least 1 / (k l)
      have hcross : (x : ℚ) * l + 1 ≤ y * k := by
        rw [div_lt_div_iff₀ hk0 hl0] at hlt
        have : x * l < y * k := by exact_mod_cast hlt
        have : x * l + 1 ≤ y * k := this
        exact_mod_cast this
      have hyk : (y : ℚ) * k ≤ 2 ^ 52 - 1 := by
        have : y * k ≤ X * K := Nat.mul_le_mul hy hk2
        have : y * k + 1 ≤ 2 ^ 52 := by omega
        have : ((y * k + 1 : ℕ) : ℚ) ≤ 2 ^ 52 := by exact_mod_cast this
        push_cast at this
        linarith
      rw [← mul_div_assoc, ← mul_div_assoc, div_lt_div_iff₀ hk0 hl0]
      have hxl : (0 : ℚ) ≤ x * l := by positivity
      have e1 : (1 + 1 / 2 ^ 53) * (x : ℚ) * l = x * l + 1 / 2 ^ 53 * (x * l) := by ring
      have e2 : (1 - 1 / 2 ^ 53) * (y : ℚ) * k = y * k - 1 / 2 ^ 53 * (y * k) := by ring
      rw [e1, e2]
      have : (1 : ℚ) / 2 ^ 53 * (y * k) < 1 / 2 := by
        have : (1 : ℚ) / 2 ^ 53 * (y * k) ≤ 1 / 2 ^ 53 * (2 ^ 52 - 1) := mul_le_mul_of_nonneg_left hyk (by norm_num)
        refine lt_of_le_of_lt this (by norm_num)
      have : (1 : ℚ) / 2 ^ 53 * (x * l) ≤ 1 / 2 ^ 53 * (y * k) :=
        mul_le_mul_of_nonneg_left (by linarith) (by norm_num)
      linarith
    simpa [F64.lt] using key

instance (w T : Nat) (rs : List Rule) : Decidable (NaturalWeights w T rs) :=
  decidable_of_iff (∀ r ∈ rs, r.terms.length ≤ T ∧ ∀ t ∈ r.terms, t.w.den = 1 ∧ 0 ≤ t.w.num ∧ t.w.num.toNat ≤ w) (by
    have key : ∀ q : ℚ, (q.den = 1 ∧ 0 ≤ q.num ∧ q.num.toNat ≤ w) ↔ ∃ k : Nat, k ≤ w ∧ q = k := by
      intro q
      constructor
      · rintro ⟨h1, h2, h3⟩
        refine ⟨q.num.toNat, h3, ?_⟩
        have e : (q.num.toNat : ℤ) = q.num := Int.toNat_of_nonneg h2
        have : (q.num : ℚ) = q := Rat.coe_int_num_of_den_eq_one h1
        rw [← this]
        exact_mod_cast e.symm
      · rintro ⟨k, hk, rfl⟩
        exact ⟨by simp, by simp, by simpa using hk⟩
    unfold NaturalWeights
    simp only [key])

/-- C50: the patterns with integer weights: all of Sakoe-Chiba's symmetric family, typeIa-d, typeIIa-d, typeIIIc, typeIVc,
mori2006, rigid, asymmetric: weights at most 3, at most 3 charges per rule. -/
theorem C50_bundled : ∀ q ∈ Pat.table, q.1 ∈ ["symmetric1", "symmetric2", "asymmetric", "_asymmetricItakura",
    "symmetricP0", "asymmetricP0", "_asymmetricP0b", "symmetricP05", "symmetricP1", "symmetricP2", "typeIa", "typeIb",
    "typeIc", "typeId", "typeIbs", "typeIIa", "typeIIb", "typeIIc", "typeIId", "typeIIIc", "typeIVc", "mori2006", "rigid"] →
    NaturalWeights 3 3 (rulesOf q.2) := by
  have : (Pat.table.all fun q => !decide (q.1 ∈ ["symmetric1", "symmetric2", "asymmetric", "_asymmetricItakura",
    "symmetricP0", "asymmetricP0", "_asymmetricP0b", "symmetricP05", "symmetricP1", "symmetricP2", "typeIa", "typeIb",
    "typeIc", "typeId", "typeIbs", "typeIIa", "typeIIb", "typeIIc", "typeIId", "typeIIIc", "typeIVc", "mori2006", "rigid"]) ||
      decide (NaturalWeights 3 3 (rulesOf q.2))) = true := by decide +kernel
  intro q hq hne
  have := List.all_eq_true.1 this q hq
  simp only [hne, decide_true, Bool.not_true, Bool.false_or, decide_eq_true_eq] at this
  exact this

/-- C50: and `mvmStepPattern(e)`. -/
theorem C50_mvm (e : Nat) : NaturalWeights 1 1 (mvmRules e) := by
  intro r hr
  obtain ⟨k, _, rfl⟩ := List.mem_map.1 hr
  refine ⟨by simp, ?_⟩
  intro t ht
  simp only [List.mem_singleton] at ht
  exact ⟨1, le_refl _, by rw [ht]; simp⟩

/-- C50: 2^53 is sharp: a cost of 2^53 followed by a cost of 1 gives 2^53 in doubles. -/
theorem C50_sharp (f : Bool) :
    (dtw (binary64 f) { x := .d2 ⟨2, 1, [fin (2 ^ 53), fin 1]⟩ }).toOption.map (·.distance) = some (fin (2 ^ 53)) ∧
    (dtw Arith.exact { x := .d2 ⟨2, 1, [fin (2 ^ 53), fin 1]⟩ }).toOption.map (·.distance) = some (fin (2 ^ 53 + 1)) := by
  cases f <;> decide +kernel

/-- C50 for double precision and the patterns of `C50_bundled`: with natural local costs up to `C`, `dtw` computes in
doubles exactly what it computes in exact arithmetic, if `(9 (N+M+1) + 1) C` is at most 2^53 and, with an open end, that
number times `N + M` is below 2^52. -/
theorem C50_doubles (f : Bool) {C : Nat} {ℓ : Nat → Nat → ℕ}
    (h : Problem a n m (fun i j => fin (ℓ i j : ℚ)) W p rs) (hw : NaturalWeights 3 3 rs)
    (hC : ∀ i < n, ∀ j < m, ℓ i j ≤ C) (hB : (9 * (n + m + 1) + 1) * C ≤ 2 ^ 53)
    (hoe : a.openEnd = true → (9 * (n + m + 1) + 1) * C * (n + m) < 2 ^ 52 ∧ n + m < 2 ^ 52) :
    dtw (binary64 f) a = (dtw Arith.exact a).map (roundNorm (binary64 f)) :=
  C50_integer_costs_exact h hw (fun k hk => C50_binary64_integers f k (hk.trans hB))
    (fun k hk => C50_binary64_integers f k (hk.trans (by norm_num)))
    (fun ho => C50_binary64_quotients f (hoe ho).1 (hoe ho).2) hC

/-- C50: with an open end exact sums are not enough: here all the costs are integers below 2^53, but the two normalized
costs 6004799503160661 / 2 and 9007199254740991 / 3 round to the same double, so the first end point is returned although
the second one is better. -/
theorem C50_open_end_tie (f : Bool) :
    (dtw (binary64 f) { x := .d2 ⟨1, 2, [fin 6004799503160661, fin 3002399751580330]⟩, openEnd := true }
      ).toOption.map (fun r => (r.distance, r.jmin)) = some (fin 6004799503160661, 0) ∧
    (dtw Arith.exact { x := .d2 ⟨1, 2, [fin 6004799503160661, fin 3002399751580330]⟩, openEnd := true }
      ).toOption.map (fun r => (r.distance, r.jmin)) = some (fin 9007199254740991, 1) := by
  cases f <;> decide +kernel

/-! ### Non-vacuity -/

/-- The costs of `Ex.plain`, as natural numbers. -/
def Ex.natL : Nat → Nat → ℕ := fun i j => (i * 2 + j * 3) % 5

example : Problem Ex.plain 3 4 (fun i j => fin ((Ex.natL i j : ℕ) : ℚ)) (fun _ _ => true) Pat.symmetric2
      (rulesOf Pat.symmetric2) ∧ ModestWeights (rulesOf Pat.symmetric2) ∧ NaturalWeights 3 3 (rulesOf Pat.symmetric2) ∧
    (∀ i < 3, ∀ j < 4, Ex.natL i j ≤ 4) ∧ (3 * 3 * (3 + 4) + 1) * 4 ≤ 2 ^ 53 ∧
    (∀ i < 3, ∀ j < 4, ((Ex.natL i j : ℕ) : ℚ) = 0 ∨
      (1 / 2 ^ 1000 ≤ ((Ex.natL i j : ℕ) : ℚ) ∧ ((Ex.natL i j : ℕ) : ℚ) ≤ 2 ^ 900)) ∧
    (dtw (binary64 true) Ex.plain).toOption.map (·.distance) = some (fin 3) := by
  have hle : ∀ i j, Ex.natL i j ≤ 4 := fun i j => by unfold Ex.natL; omega
  refine ⟨Ex.plain_problem, by decide +kernel, by decide +kernel, fun i _ j _ => hle i j, by norm_num, ?_, by decide +kernel⟩
  intro i _ j _
  have h4 := hle i j
  generalize Ex.natL i j = k at h4
  have h0 : (1 : ℚ) / 2 ^ 1000 ≤ 1 := (div_le_one (by positivity)).2 (one_le_pow₀ (by norm_num))
  have h1 : (2 : ℚ) ^ 2 ≤ 2 ^ 900 := pow_le_pow_right₀ (by norm_num) (by norm_num)
  generalize (1 : ℚ) / 2 ^ 1000 = x at h0 ⊢
  generalize (2 : ℚ) ^ 900 = y at h1 ⊢
  rcases Nat.eq_zero_or_pos k with rfl | hk
  · left; simp
  · right
    have e1 : (1 : ℚ) ≤ k := by exact_mod_cast hk
    have e2 : (k : ℚ) ≤ 4 := by exact_mod_cast h4
    constructor
    · linarith
    · norm_num at h1; linarith

end DTW
