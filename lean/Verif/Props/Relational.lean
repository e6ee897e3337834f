import Verif.Proofs.Core
import Verif.Props.Optimal

/-!
# C11-C17, C21, C34, C39: laws relating two calls
-/

namespace DTW
open F64

variable {A : Arith} {a a' : Args} {n m : Nat} {L L' : Nat → Nat → F64} {W W' : Nat → Nat → Bool}
  {p p' : StepPattern} {rs rs' : List Rule} {r r' : Result}

/-- C11.  Enlarging the window never hurts: if every cell allowed by the window of `a` is allowed by that of
`a'`, then whenever `a` succeeds `a'` does, with a distance that is not larger. -/
theorem C11_larger_window (h : Problem a n m L W p rs) (h' : Problem a' n m L W' p' rs)
    (hob : a.openBegin = false) (hoe : a.openEnd = false)
    (hob' : a'.openBegin = false) (hoe' : a'.openEnd = false)
    (hsub : ∀ i < n, ∀ j < m, W i j = true → W' i j = true) (hr : dtw A a = .ok r) :
    ∃ r', dtw A a' = .ok r' ∧ F64.le r'.distance r.distance := by
  have hn := h.n_pos
  have hm := h.m_pos
  have lift : ∀ {ks i j c}, WarpPath A rs W L ks i j c → i < n → j < m → WarpPath A rs W' L ks i j c := by
    intro ks i j c hp
    induction hp with
    | start => intro _ _; exact .start
    | step k q _ hq hW ih =>
      intro hi hj
      exact .step k q (ih (by omega) (by omega)) hq (hsub _ hi _ hj hW)
  obtain ⟨⟨ks, hp⟩, _⟩ := C01_distance_optimal h hob hoe hr
  have hnan := C02_distance_never_nan h hr
  have hs := (C02_no_path_iff (A := A) h hob hoe).2.1 ⟨r, hr⟩
  have hs' : (∃ ks c, WarpPath A rs W' L ks (n - 1) (m - 1) c ∧ usable c) ∨
      (n = 1 ∧ m = 1 ∧ L 0 0 = pinf) := by
    rcases hs with ⟨ks', c, hp', hu⟩ | h1
    · exact .inl ⟨ks', c, lift hp' (by omega) (by omega), hu⟩
    · exact .inr h1
  obtain ⟨r', hr'⟩ := (C02_no_path_iff (A := A) h' hob' hoe').2.2 hs'
  refine ⟨r', hr', ?_⟩
  exact (C01_distance_optimal h' hob' hoe' hr').2 ks _ (lift hp (by omega) (by omega)) hnan

/-- Non-vacuity: a Sakoe-Chiba band and no window at all. -/
example : Problem Ex.band 3 4 Ex.L Ex.bandW Pat.asymmetric (rulesOf Pat.asymmetric) ∧
    Problem { Ex.band with windowType := .none, windowArgs := [] } 3 4 Ex.L (fun _ _ => true)
      Pat.asymmetric (rulesOf Pat.asymmetric) ∧
    (∀ i < 3, ∀ j < 4, Ex.bandW i j = true → (fun _ _ => true : Nat → Nat → Bool) i j = true) :=
  ⟨Ex.band_problem,
   { n_pos := by decide, m_pos := by decide, cost := .matrix rfl rfl rfl rfl
     pattern := Ex.band_problem.pattern, wf := Ex.band_problem.wf, fits := Ex.band_problem.fits
     window := .inl ⟨rfl, fun _ _ _ _ => rfl⟩ },
   fun _ _ _ _ _ => rfl⟩

/-- C12.  Lowering local costs pointwise (to finite values) never raises the distance nor makes a feasible
alignment infeasible, when the weights are non-negative; in any monotone rounding mode. -/
theorem C12_monotone_in_costs {ℓ : Nat → Nat → ℚ} (h : Problem a n m (fun i j => fin (ℓ i j)) W p rs)
    (h' : Problem a' n m L' W p rs) (hob : a.openBegin = false) (hoe : a.openEnd = false)
    (hob' : a'.openBegin = false) (hoe' : a'.openEnd = false) (hw : NonnegWeights A rs)
    (hle : ∀ i < n, ∀ j < m, F64.le (fin (ℓ i j)) (L' i j)) (hr' : dtw A a' = .ok r') :
    ∃ r, dtw A a = .ok r ∧ F64.le r.distance r'.distance := by
  have hn := h.n_pos
  have hm := h.m_pos
  have low : ∀ {ks c'}, WarpPath A rs W L' ks (n - 1) (m - 1) c' → c' ≠ nan → (ks ≠ [] → usable c') →
      ∃ c, WarpPath A rs W (fun i j => fin (ℓ i j)) ks (n - 1) (m - 1) c ∧ F64.le c c' :=
    fun hp h1 h2 => hp.mono hw (fun i hi j hj => hle i (by omega) j (by omega)) h1 h2
  obtain ⟨⟨ks, hp⟩, _⟩ := C01_distance_optimal h' hob' hoe' hr'
  have hnan := C02_distance_never_nan h' hr'
  have hs := (C02_no_path_iff (A := A) h' hob' hoe').2.1 ⟨r', hr'⟩
  have hks : ks ≠ [] → usable r'.distance := by
    intro hne
    by_contra hu
    have hpi : r'.distance = pinf := by
      by_contra hne'; exact hu (usable_iff.2 ⟨hnan, hne'⟩)
    rcases hs with ⟨ks', c', hp', hu'⟩ | ⟨rfl, rfl, hL⟩
    · exact hu (usable_of_le ((C01_distance_optimal h' hob' hoe' hr').2 ks' c' hp' (usable_ne_nan hu')) hu')
    · have := hp.toWalk.length_le h'.wf.valid
      exact hne (List.length_eq_zero_iff.1 (by omega))
  obtain ⟨c, hc, hcle⟩ := low hp hnan hks
  have hs' : ∃ r, dtw A a = .ok r := by
    refine (C02_no_path_iff (A := A) h hob hoe).2.2 ?_
    left
    rcases hs with ⟨ks', c', hp', hu'⟩ | ⟨rfl, rfl, hL⟩
    · obtain ⟨c2, hc2, hle2⟩ := low hp' (usable_ne_nan hu') (fun _ => hu')
      exact ⟨ks', c2, hc2, usable_of_le hle2 hu'⟩
    · exact ⟨[], _, .start, usable_fin _⟩
  obtain ⟨r, hr⟩ := hs'
  exact ⟨r, hr, F64.le_trans ((C01_distance_optimal h hob hoe hr).2 ks c hc hcle.1) hcle⟩

example : NonnegWeights Arith.exact (rulesOf Pat.symmetric2) ∧
    (∀ i < 3, ∀ j < 4, F64.le (fin ((fun _ _ => 0 : Nat → Nat → ℚ) i j)) (Ex.L i j)) := by
  refine ⟨?_, ?_⟩
  · intro r hr t ht
    have : ∀ r ∈ rulesOf Pat.symmetric2, ∀ t ∈ r.terms, 0 ≤ t.w := by decide +kernel
    exact ⟨this r hr t ht, by simp⟩
  · intro i _ j _; simp [Ex.L]

/-- Every bundled pattern has non-negative weights (finite in exact arithmetic), except the private
`_symmetricVelichkoZagoruyko`, whose diagonal weight is -1.001 (a reward). -/
theorem C12_bundled_weights (q : String × StepPattern) (hq : q ∈ Pat.table)
    (hne : q.1 ≠ "_symmetricVelichkoZagoruyko") :
    NonnegWeights Arith.exact (rulesOf q.2) := by
  have : (Pat.table.all fun q => decide (q.1 = "_symmetricVelichkoZagoruyko") ||
      (rulesOf q.2).all fun r => r.terms.all fun t => decide (0 ≤ t.w)) = true := by
    decide +kernel
  intro r hr t ht
  have := List.all_eq_true.1 this q hq
  simp only [hne, decide_false, Bool.false_or] at this
  have := List.all_eq_true.1 (List.all_eq_true.1 this r hr) t ht
  exact ⟨of_decide_eq_true this, by simp⟩

/-- C12/C14, negative witness: with the private pattern's reward the distance of a non-negative matrix is
negative. -/
theorem C14_velichko_negative :
    (dtw Arith.exact { x := .d2 (Mat.ofFn 3 3 fun i j => fin (if i = 0 ∧ j = 0 then 0 else 1))
                       stepPattern := .name "_symmetricVelichkoZagoruyko" }).toOption.map (·.distance) =
      some (fin (-1001 / 500)) := by decide +kernel

/-- C13.  In exact arithmetic, multiplying every local cost by `c > 0` multiplies distance, normalized
distance and cost matrix by `c` and changes nothing else: not the end point, not the path, not the direction
matrix, not success or failure.  All options (open ends, windows, patterns) and all costs, infinite and NaN
ones included. -/
theorem C13_homogeneous {c : ℚ} (hc : 0 < c) (h : Problem a n m L W p rs)
    (h' : Problem a' n m (fun i j => scaleF c (L i j)) W p rs) (ho : SameOptions a a') :
    (dtw Arith.exact a').map Result.core = ((dtw Arith.exact a).map Result.core).map (Core.scale c) := by
  have hn := h.n_pos
  have hm := h.m_pos
  cases hob : a.openBegin with
  | false =>
    have hob' : a'.openBegin = false := by rw [← ho.openBegin]; exact hob
    obtain ⟨G, D, qr, hB, _, hd⟩ := dtw_closed Arith.exact h hob
    obtain ⟨G', D', qr', hB', _, hd'⟩ := dtw_closed Arith.exact h' hob'
    have hmap := hB.map (L' := fun i j => scaleF c (L i j)) (scale_lt hc) (scale_inj hc) rfl rfl
      (fun r _ i j v => scale_charge L r i j v)
    have hu := hB'.unique h.wf.valid hmap le_rfl le_rfl le_rfl le_rfl (fun _ _ _ _ => rfl)
      (fun _ _ _ _ => rfl) (by
        intro i _ j _
        unfold closedSeed
        split <;> rfl)
    rw [hd, hd', ← finish_scale (qr' := qr) hc ho hn]
    rw [← scaleM_ofFn]
    refine finish_core ?_ hn (fun i hi j hj => (hu i hi j hj).1) (fun i hi j hj => (hu i hi j hj).2) _
    exact ⟨rfl, rfl, rfl, rfl⟩
  | true =>
    have hob' : a'.openBegin = true := by rw [← ho.openBegin]; exact hob
    by_cases hh : p.hint = "N"
    · obtain ⟨G, D, qr, hB, _, hd⟩ := dtw_open Arith.exact h hob hh
      obtain ⟨G', D', qr', hB', _, hd'⟩ := dtw_open Arith.exact h' hob' hh
      have hmap := hB.map (L' := fun i j => scaleF c (nullRow L i j)) (scale_lt hc) (scale_inj hc) rfl rfl
        (fun r _ i j v => scale_charge (nullRow L) r i j v)
      have hnull : ∀ i j, nullRow (fun i j => scaleF c (L i j)) i j = scaleF c (nullRow L i j) := by
        intro i j
        unfold nullRow
        split <;> simp [scaleF]
      have hu := hB'.unique h.wf.valid hmap le_rfl le_rfl le_rfl le_rfl (fun _ _ _ _ => rfl)
        (fun i _ j _ => hnull i j) (by
          intro i _ j _
          unfold openSeed
          split <;> simp [scaleF])
      rw [hd, hd', ← finish_scale (qr' := qr) hc ho hn]
      rw [← scaleM_ofFn, ofFn_congr (fun i _ j _ => hnull i j)]
      refine finish_core ?_ (Nat.succ_pos n) (fun i hi j hj => (hu i hi j hj).1)
        (fun i hi j hj => (hu i hi j hj).2) _
      exact ⟨rfl, rfl, rfl, rfl⟩
    · rw [open_bad_hint h hob hh, open_bad_hint h' hob' hh]
      rfl

example : Problem Ex.plain 3 4 Ex.L (fun _ _ => true) Pat.symmetric2 (rulesOf Pat.symmetric2) ∧
    Problem { Ex.plain with x := .d2 (Mat.ofFn 3 4 fun i j => scaleF (3/2) (Ex.L i j)) } 3 4
      (fun i j => scaleF (3/2) (Ex.L i j)) (fun _ _ => true) Pat.symmetric2 (rulesOf Pat.symmetric2) :=
  ⟨Ex.plain_problem,
   { n_pos := by decide, m_pos := by decide, cost := .matrix rfl rfl rfl rfl
     pattern := Ex.plain_problem.pattern, wf := Ex.plain_problem.wf, fits := Ex.plain_problem.fits
     window := .inl ⟨rfl, fun _ _ _ _ => rfl⟩ }⟩

/-- C14.  Non-negative finite local costs and non-negative weights give non-negative distances, in any
monotone rounding mode (closed begin, either end). -/
theorem C14_nonnegative {ℓ : Nat → Nat → ℚ} (h : Problem a n m (fun i j => fin (ℓ i j)) W p rs)
    (hob : a.openBegin = false) (hw : NonnegWeights A rs) (hl : ∀ i < n, ∀ j < m, 0 ≤ ℓ i j)
    (hr : dtw A a = .ok r) :
    F64.le (fin 0) r.distance ∧
    (a.keepInternals = true → ∃ G : Nat → Nat → F64, r.costMatrix = some (Mat.ofFn n m G) ∧
      ∀ i < n, ∀ j < m, G i j = nan ∨ F64.le (fin 0) (G i j)) := by
  obtain ⟨G, D, qr, hB, _, hd⟩ := dtw_closed A h hob
  obtain ⟨j, ks, hrun⟩ := closed_ok h hob hB hd hr
  have hn := h.n_pos
  have hj := hrun.endAt.lt
  constructor
  · rw [hrun.result]
    exact hrun.path.nonneg hw (fun i hi j hj' => hl i (by omega) j (by omega))
  · intro hki
    refine ⟨G, by rw [hrun.result]; simp [mkResult, hki, hob], ?_⟩
    intro i hi j hj
    by_cases hG : G i j = nan
    · exact .inl hG
    · obtain ⟨i0, j0, ks, hp, _⟩ := hB.sound h.wf.valid _ i j rfl hi hj hG
      exact .inr (hp.toWarpPath.2.2.nonneg hw (fun i' hi' j' hj' => hl i' (by omega) j' (by omega)))

example : ∀ i < 3, ∀ j < 4, (0 : ℚ) ≤ (((i * 2 + j * 3) % 5 : Nat) : ℚ) := by intro i _ j _; positivity

/-- C15.  Self-alignment: if the local costs are non-negative and vanish on the diagonal of a square matrix,
the pattern has a rule `(1,1)` that charges only the arrival cell, and the window allows the diagonal, then
the closed-end alignment exists and its distance is 0. -/
theorem C15_self_alignment {ℓ : Nat → Nat → ℚ} (h : Problem a n n (fun i j => fin (ℓ i j)) W p rs)
    (hob : a.openBegin = false) (hoe : a.openEnd = false) (hw : NonnegWeights A rs)
    (hl : ∀ i < n, ∀ j < n, 0 ≤ ℓ i j) (hdiag : ∀ i < n, ℓ i i = 0)
    (hWd : ∀ i < n, W i i = true) (hrule : ∃ q ∈ rs, q.a = 1 ∧ q.b = 1 ∧ ∃ w, q.terms = [⟨0, 0, w⟩]) :
    ∃ r, dtw A a = .ok r ∧ r.distance = fin 0 := by
  have hn := h.n_pos
  obtain ⟨q, hq, ha, hb, w, ht⟩ := hrule
  obtain ⟨k, hk⟩ := List.mem_iff_getElem?.1 hq
  obtain ⟨w', hw', _⟩ := rnd_weight (A := A) (hw q hq ⟨0, 0, w⟩ (by rw [ht]; simp))
  have diag : ∀ i < n, ∃ ks, WarpPath A rs W (fun i j => fin (ℓ i j)) ks i i (fin 0) := by
    intro i
    induction i with
    | zero => intro h0; exact ⟨[], by have := WarpPath.start (A := A) (rs := rs) (W := W) (L := fun i j => fin (ℓ i j)); simpa [hdiag 0 h0] using this⟩
    | succ i ih =>
      intro hi
      obtain ⟨ks, hp⟩ := ih (by omega)
      have := WarpPath.step k q hp hk (by rw [ha, hb]; exact hWd _ hi)
      rw [ha, hb] at this
      have e : charge A (fun i j => fin (ℓ i j)) q (i + 1) (i + 1) (fin 0) = fin 0 := by
        unfold charge
        rw [ht]
        simp only at hw'
        simp only [List.foldl_cons, List.foldl_nil, hw', Nat.sub_zero, hdiag _ hi, Arith.mac, Arith.mul,
          Arith.mulWith, mul_zero, A.rnd_zero, ite_self, Arith.add, add_zero]
      rw [e] at this
      exact ⟨_, this⟩
  obtain ⟨ks, hp⟩ := diag (n - 1) (by omega)
  obtain ⟨r, hr⟩ := (C02_no_path_iff (A := A) h hob hoe).2.2 (.inl ⟨ks, _, hp, usable_fin 0⟩)
  refine ⟨r, hr, ?_⟩
  have h1 := (C01_distance_optimal h hob hoe hr).2 ks _ hp (by simp)
  have h2 := (C14_nonnegative h hob hw hl hr).1
  exact F64.le_antisymm h1 h2

/-- The bundled patterns with such a rule. -/
theorem C15_bundled : ∀ s ∈ ["symmetric1", "symmetric2", "asymmetric", "symmetricP0", "symmetricP05",
      "symmetricP1", "symmetricP2", "asymmetricP0", "asymmetricP05", "asymmetricP1", "asymmetricP2",
      "_asymmetricP0b", "_asymmetricItakura", "typeIa", "typeIb", "typeIc",
      "typeId", "typeIas", "typeIbs", "typeIcs", "typeIds", "typeIIa", "typeIIb", "typeIIc", "typeIId",
      "typeIIIc", "typeIVc", "mori2006", "rigid"],
    ∃ p, canonPattern (.name s) = .ok p ∧ NonnegWeights Arith.exact (rulesOf p) ∧
      ∃ q ∈ rulesOf p, q.a = 1 ∧ q.b = 1 ∧ ∃ w, q.terms = [⟨0, 0, w⟩] := by
  intro s hs
  have key : (["symmetric1", "symmetric2", "asymmetric", "symmetricP0", "symmetricP05",
      "symmetricP1", "symmetricP2", "asymmetricP0", "asymmetricP05", "asymmetricP1", "asymmetricP2",
      "_asymmetricP0b", "_asymmetricItakura", "typeIa", "typeIb", "typeIc",
      "typeId", "typeIas", "typeIbs", "typeIcs", "typeIds", "typeIIa", "typeIIb", "typeIIc", "typeIId",
      "typeIIIc", "typeIVc", "mori2006", "rigid"].all
    fun s => match Pat.table.lookup s with
      | some p => (rulesOf p).any fun q => q.a == 1 && q.b == 1 &&
          (match q.terms with | [t] => t.di == 0 && t.dj == 0 | _ => false)
      | none => false) = true := by decide +kernel
  have := List.all_eq_true.1 key s hs
  cases hp : Pat.table.lookup s with
  | none => rw [hp] at this; simp at this
  | some p =>
    rw [hp] at this
    refine ⟨p, by simp [canonPattern, hp], ?_, ?_⟩
    · have hmem : (s, p) ∈ Pat.table := by
        rw [List.lookup_eq_some_iff] at hp
        obtain ⟨l1, l2, he, _⟩ := hp
        rw [he]; simp
      refine C12_bundled_weights _ hmem ?_
      rintro rfl
      revert hs
      decide
    · simp only [List.any_eq_true, Bool.and_eq_true, beq_iff_eq] at this
      obtain ⟨q, hq, ⟨h1, h2⟩, h3⟩ := this
      refine ⟨q, hq, h1, h2, ?_⟩
      split at h3
      · rename_i t hts
        simp only [Bool.and_eq_true, beq_iff_eq] at h3
        exact ⟨t.w, by rw [hts]; cases t; simp_all⟩
      · simp at h3

end DTW
