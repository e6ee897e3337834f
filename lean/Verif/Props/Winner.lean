import Verif.Props.Outliers
import Verif.Props.Lockstep

/-!
# C85: a clear winner survives noise

If the alignment returned is cheaper than every other admissible one by more than twice what the noise can change, the noisy problem has
the same alignment.  Exact arithmetic, finite local costs, non-negative weights.
-/

namespace DTW
open F64

variable {a a' : Args} {n m : Nat} {ℓ ℓ' : Nat → Nat → ℚ} {W : Nat → Nat → Bool}
  {p : StepPattern} {rs : List Rule} {r r' : Result} {mp : Mapping} {ε : ℚ}

/-- What a closed-begin result consists of. -/
theorem mapping_of_steps {A A' : Arith} {L L' : Nat → Nat → F64} {mp' : Mapping} (h : Problem a n m L W p rs) (hob : a.openBegin = false)
    (h' : Problem a' n m L' W p rs) (hob' : a'.openBegin = false)
    (hr : dtw A a = .ok r) (hmp : r.mapping = some mp) (hr' : dtw A' a' = .ok r') (hmp' : r'.mapping = some mp')
    (he : mp'.stepsTaken = mp.stepsTaken) : mp' = mp := by
  obtain ⟨_, ks, -, -, -, rfl, -⟩ := closed_mapping h hob hr hmp
  obtain ⟨_, ks', -, -, -, rfl, -⟩ := closed_mapping h' hob' hr' hmp'
  have : ks' = ks := he
  rw [this]

/-- **C85**, closed ends, any pattern with non-negative weights.  `K` bounds the total weight of a complete path; every local cost moves
by at most `ε`.  If every other admissible path costs more than the one returned by more than `2 * ε * K`, the noisy call returns the same
alignment. -/
theorem C85_winner {K d : ℚ} (h : Problem a n m (fun i j => fin (ℓ i j)) W p rs)
    (h' : Problem a' n m (fun i j => fin (ℓ' i j)) W p rs)
    (hob : a.openBegin = false) (hoe : a.openEnd = false) (hob' : a'.openBegin = false) (hoe' : a'.openEnd = false)
    (hdo' : a'.distanceOnly = false) (hp : PosWeights rs) (hw : CloseBy ε n m ℓ ℓ')
    (hK : ∀ ks, RulePath rs W ks (n - 1) (m - 1) → pathWeight rs ks ≤ K)
    (hr : dtw Arith.exact a = .ok r) (hmp : r.mapping = some mp) (hd : r.distance = fin d)
    (hclear : ∀ ks c, WarpPath Arith.exact rs W (fun i j => fin (ℓ i j)) ks (n - 1) (m - 1) (fin c) → ks ≠ mp.stepsTaken →
      d + 2 * (ε * K) < c) :
    ∃ r', dtw Arith.exact a' = .ok r' ∧ r'.mapping = some mp ∧ r'.jmin = r.jmin := by
  have hn := h.n_pos
  have hm := h.m_pos
  have hε : 0 ≤ ε := _root_.le_trans (abs_nonneg _) (hw 0 hn 0 hm)
  obtain ⟨hex, hdist⟩ := C62_stable h h' hob hoe hob' hoe' hp hw hK
  obtain ⟨r', hr'⟩ := hex.1 ⟨r, hr⟩
  obtain ⟨mp', j, hmp', hj, hpath⟩ := C03_path_realises_distance h' hob' hdo' hr'
  obtain ⟨_, e, h1, h2, h3⟩ := hdist r r' hr hr'
  obtain ⟨j1, -, hj1, -, hjc1, -, -⟩ := closed_mapping h hob hr hmp
  obtain ⟨j2, -, hj2, -, hjc2, -, -⟩ := closed_mapping h' hob' hr' hmp'
  have ejj : j = m - 1 := by
    have := hjc2 hoe'
    rw [hj] at hj2
    omega
  subst ejj
  rw [hd] at h1
  cases h1
  rw [h2] at hpath
  obtain ⟨_, c, e1, e2, e3⟩ := hpath.stable hp hw.symm (by omega) (by omega)
  cases e1
  have hk := mul_le_mul_of_nonneg_left (hK _ hpath.toRulePath) hε
  have hsame : mp'.stepsTaken = mp.stepsTaken := by
    by_contra hne
    have h4 := hclear _ _ e2 hne
    have h5 := (abs_le.1 (_root_.le_trans e3 hk)).2
    have h6 := (abs_le.1 h3).2
    linarith
  refine ⟨r', hr', ?_, ?_⟩
  · rw [hmp', mapping_of_steps h hob h' hob' hr hmp hr' hmp' hsame]
  · rw [hj, hj1, hjc1 hoe]

/-- **C85**, noise in some of the samples only (`C84`), closed ends. -/
theorem C85_winner_outliers {δ η : Nat → ℚ} {K K' d : ℚ} (h : Problem a n m (fun i j => fin (ℓ i j)) W p rs)
    (h' : Problem a' n m (fun i j => fin (ℓ' i j)) W p rs)
    (hob : a.openBegin = false) (hoe : a.openEnd = false) (hob' : a'.openBegin = false) (hoe' : a'.openEnd = false)
    (hdo' : a'.distanceOnly = false) (hp : PosWeights rs) (hK : 1 ≤ K) (hK' : 1 ≤ K')
    (hrow : RowShare K rs ∨ ∀ i, δ i = 0) (hcol : ColShare K' rs ∨ ∀ j, η j = 0) (hw : Moved n m δ η ℓ ℓ')
    (hr : dtw Arith.exact a = .ok r) (hmp : r.mapping = some mp) (hd : r.distance = fin d)
    (hclear : ∀ ks c, WarpPath Arith.exact rs W (fun i j => fin (ℓ i j)) ks (n - 1) (m - 1) (fin c) → ks ≠ mp.stepsTaken →
      d + 2 * (K * ∑ i ∈ Finset.range n, δ i + K' * ∑ j ∈ Finset.range m, η j) < c) :
    ∃ r', dtw Arith.exact a' = .ok r' ∧ r'.mapping = some mp ∧ r'.jmin = r.jmin := by
  have hn := h.n_pos
  have hm := h.m_pos
  have hex : ∃ r', dtw Arith.exact a' = .ok r' := by
    rw [exact_success_iff h' hob' hoe', ← exact_success_iff h hob hoe]
    exact ⟨r, hr⟩
  obtain ⟨r', hr'⟩ := hex
  obtain ⟨mp', j, hmp', hj, hpath⟩ := C03_path_realises_distance h' hob' hdo' hr'
  obtain ⟨_, e, h1, h2, h3⟩ := C84_outliers h h' hob hoe hob' hoe' hp hK hK' hrow hcol hw hr hr'
  obtain ⟨j1, -, hj1, -, hjc1, -, -⟩ := closed_mapping h hob hr hmp
  obtain ⟨j2, -, hj2, -, hjc2, -, -⟩ := closed_mapping h' hob' hr' hmp'
  have ejj : j = m - 1 := by
    have := hjc2 hoe'
    rw [hj] at hj2
    omega
  subst ejj
  rw [hd] at h1
  cases h1
  rw [h2] at hpath
  obtain ⟨_, c, e1, e2, e3⟩ := hpath.moved h.wf.valid hp hK hK' hrow hcol hw.symm (by omega) (by omega)
  cases e1
  rw [Nat.sub_add_cancel hn, Nat.sub_add_cancel hm] at e3
  have hsame : mp'.stepsTaken = mp.stepsTaken := by
    by_contra hne
    have h4 := hclear _ _ e2 hne
    have h5 := (abs_le.1 e3).2
    have h6 := (abs_le.1 h3).2
    linarith
  refine ⟨r', hr', ?_, ?_⟩
  · rw [hmp', mapping_of_steps h hob h' hob' hr hmp hr' hmp' hsame]
  · rw [hj, hj1, hjc1 hoe]

/-! ### Open ends -/

/-- The columns passed by a sequence of rules. -/
def columnsPassed (rs : List Rule) (ks : List Int) : Nat :=
  (ks.map fun k => match rs[(k - 1).toNat]? with
    | some q => q.b
    | none => 0).sum

theorem OpenPath.start_column {A : Arith} {L : Nat → Nat → F64} {j0 : Nat} {ks : List Int} {i j : Nat} {c : F64}
    (h : OpenPath A rs W L j0 ks i j c) : j = j0 + columnsPassed rs ks := by
  induction h with
  | start => simp [columnsPassed]
  | @step ks i j c k q hp hq h0 hW ih =>
    unfold columnsPassed at ih ⊢
    rw [List.map_append, List.sum_append, ← add_assoc, ← ih]
    have e : ((k : Int) + 1 - 1).toNat = k := by omega
    simp only [List.map_cons, List.map_nil, List.sum_cons, List.sum_nil, e, hq, add_zero]

theorem mapping_of_steps_open {A A' : Arith} {L L' : Nat → Nat → F64} {mp' : Mapping} (h : Problem a n m L W p rs) (hob : a.openBegin = true)
    (h' : Problem a' n m L' W p rs) (hob' : a'.openBegin = true)
    (hr : dtw A a = .ok r) (hmp : r.mapping = some mp) (hr' : dtw A' a' = .ok r') (hmp' : r'.mapping = some mp')
    (he : mp'.stepsTaken = mp.stepsTaken) (hj : r'.jmin = r.jmin) : mp' = mp := by
  obtain ⟨j, j0, ks, e1, -, rfl, hp⟩ := open_mapping h hob hr hmp
  obtain ⟨j', j0', ks', e1', -, rfl, hp'⟩ := open_mapping h' hob' hr' hmp'
  have : ks' = ks := he
  subst this
  have h1 := hp.start_column
  have h2 := hp'.start_column
  have : j0' = j0 := by omega
  rw [this]

/-- **C85**, any combination of open and closed ends, patterns with hint N.  Every other path (with open_end: to any column; with
open_begin: from any column) must cost more by more than `2 * ε * N`. -/
theorem C85_any_ends {d : ℚ} (h : Problem a n m (fun i j => fin (ℓ i j)) W p rs)
    (h' : Problem a' n m (fun i j => fin (ℓ' i j)) W p rs) (hN : p.hint = "N") (ho : SameOptions a a') (hdo : a.distanceOnly = false)
    (hp : PosWeights rs) (hlin : LinearWeights 1 0 rs) (hw : CloseBy ε n m ℓ ℓ')
    (hr : dtw Arith.exact a = .ok r) (hmp : r.mapping = some mp) (hd : r.distance = fin d)
    (hclear : a.openBegin = false → ∀ ks j c, (a.openEnd = false → j = m - 1) → j < m →
      WarpPath Arith.exact rs W (fun i j => fin (ℓ i j)) ks (n - 1) j (fin c) → ks ≠ mp.stepsTaken → d + 2 * (ε * n) < c)
    (hclear' : a.openBegin = true → ∀ j0 ks j c, (a.openEnd = false → j = m - 1) → j < m →
      OpenPath Arith.exact rs W (fun i j => fin (ℓ i j)) j0 ks n j (fin c) → (ks ≠ mp.stepsTaken ∨ (j : Int) ≠ r.jmin) →
      d + 2 * (ε * n) < c) :
    ∃ r', dtw Arith.exact a' = .ok r' ∧ r'.mapping = some mp ∧ r'.jmin = r.jmin := by
  have hn := h.n_pos
  have hm := h.m_pos
  have hε : 0 ≤ ε := _root_.le_trans (abs_nonneg _) (hw 0 hn 0 hm)
  obtain ⟨r', hr'⟩ := (C62_existence h h' ho).1 ⟨r, hr⟩
  have hdo' : a'.distanceOnly = false := ho.distanceOnly ▸ hdo
  obtain ⟨_, e1, -, e3⟩ := best_hint_N h hN hr
  obtain ⟨d', e1', -, e3'⟩ := best_hint_N h' hN hr'
  rw [hd] at e1
  cases e1
  have e1n : ((n - 1 : Nat) : ℚ) = (n : ℚ) - 1 := by rw [Nat.cast_sub hn]; simp
  rcases e3 with ⟨hob, ⟨ks, j, hj, hjc, hks⟩, hopt⟩ | ⟨hob, ⟨j0, ks, j, hj, hjc, hks⟩, hopt⟩
  · rcases e3' with ⟨hob', -, hopt'⟩ | ⟨hob', -⟩
    · obtain ⟨mp', j', hmp', hj', hpath⟩ := C03_path_realises_distance h' hob' hdo' hr'
      obtain ⟨j2, -, hj2, hlt2, hjc2, -, -⟩ := closed_mapping h' hob' hr' hmp'
      obtain rfl : j' = j2 := by rw [hj'] at hj2; exact_mod_cast hj2
      obtain ⟨_, x, h1, h2, h3⟩ := hks.stable hp hw (by omega) hj
      cases h1
      rw [e1'] at hpath
      obtain ⟨_, c, h4, h5, h6⟩ := hpath.stable hp hw.symm (by omega) hlt2
      cases h4
      rw [C19_path_weight hlin hks.toRulePath, e1n] at h3
      rw [C19_path_weight hlin hpath.toRulePath, e1n] at h6
      have o' := hopt' _ _ _ hj (fun hh => hjc (ho.openEnd ▸ hh)) h2
      have hsame : mp'.stepsTaken = mp.stepsTaken := by
        by_contra hne
        have h7 := hclear hob _ _ _ (fun hh => hjc2 (ho.openEnd ▸ hh)) hlt2 h5 hne
        have h8 := (abs_le.1 h6).2
        have h9 := (abs_le.1 h3).2
        nlinarith
      have hmm := mapping_of_steps h hob h' hob' hr hmp hr' hmp' hsame
      subst hmm
      refine ⟨r', hr', hmp', ?_⟩
      have g1 := (C04_end_points h hob hr hmp).2.2.2.2.2.2.1
      have g2 := (C04_end_points h' hob' hr' hmp').2.2.2.2.2.2.1
      rw [g1] at g2
      exact (Option.some.inj g2).symm
    · rw [← ho.openBegin, hob] at hob'
      cases hob'
  · rcases e3' with ⟨hob', -⟩ | ⟨hob', -, hopt'⟩
    · rw [← ho.openBegin, hob] at hob'
      cases hob'
    · obtain ⟨mp', j', j0', hmp', hj', hlt', hjc', hpath, -⟩ := C22_open_begin_optimal h' hob' hr'
      obtain ⟨_, x, h1, h2, h3⟩ := hks.stable hp hw hε (_root_.le_refl n) hj
      cases h1
      rw [e1'] at hpath
      obtain ⟨_, c, h4, h5, h6⟩ := hpath.stable hp hw.symm hε (_root_.le_refl n) hlt'
      cases h4
      rw [openPath_weight hlin hks] at h3
      rw [openPath_weight hlin hpath] at h6
      have o' := hopt' _ _ _ _ hj (fun hh => hjc (ho.openEnd ▸ hh)) h2
      have hsame : mp'.stepsTaken = mp.stepsTaken ∧ (j' : Int) = r.jmin := by
        by_contra hne
        have h7 := hclear' hob _ _ _ _ (fun hh => hjc' (ho.openEnd ▸ hh)) hlt' h5 (by
          by_contra hc
          rw [not_or, not_not, not_not] at hc
          exact hne hc)
        have h8 := (abs_le.1 h6).2
        have h9 := (abs_le.1 h3).2
        nlinarith
      have hjj : r'.jmin = r.jmin := by rw [hj', hsame.2]
      exact ⟨r', hr', by rw [hmp', mapping_of_steps_open h hob h' hob' hr hmp hr' hmp' hsame.1 hjj], hjj⟩

/-! ### A noisy copy -/

/-- Leaving the diagonal costs: a rule that leaves it charges cells off the diagonal with total weight at least `ω`. -/
def Strays (ω : ℚ) (rs : List Rule) : Prop :=
  ∀ q ∈ rs, q.a ≠ q.b → ω ≤ ((q.terms.filter fun t => q.a - t.di ≠ q.b - t.dj).map (·.w)).sum

theorem charge_stray {q : Rule} {g : ℚ} {i : Nat} (hq : ∀ t ∈ q.terms, 0 ≤ t.w) (hv : ∀ t ∈ q.terms, t.di ≤ q.a ∧ t.dj ≤ q.b)
    (hi : i + q.a < n) (hj : i + q.b < n) (h0 : ∀ i < n, ∀ j < n, 0 ≤ ℓ i j) (hg : ∀ i < n, ∀ j < n, i ≠ j → g ≤ ℓ i j) (c : ℚ) :
    ∃ c', charge Arith.exact (fun i j => fin (ℓ i j)) q (i + q.a) (i + q.b) (fin c) = fin c' ∧ c ≤ c' ∧
      c + ((q.terms.filter fun t => q.a - t.di ≠ q.b - t.dj).map (·.w)).sum * g ≤ c' := by
  unfold charge
  revert hq hv c
  generalize q.terms = ts
  induction ts with
  | nil => intro _ _ c; exact ⟨c, rfl, _root_.le_refl _, by simp⟩
  | cons t ts ih =>
    intro hq hv c
    obtain ⟨c', h1, h2, h3⟩ := ih (fun t ht => hq t (by simp [ht])) (fun t ht => hv t (by simp [ht]))
      (c + t.w * ℓ (i + q.a - t.di) (i + q.b - t.dj))
    have ht := hq t (by simp)
    obtain ⟨hd1, hd2⟩ := hv t (by simp)
    have hnn : 0 ≤ t.w * ℓ (i + q.a - t.di) (i + q.b - t.dj) := mul_nonneg ht (h0 _ (by omega) _ (by omega))
    refine ⟨c', by rw [← h1]; rfl, by linarith, ?_⟩
    by_cases hne : q.a - t.di ≠ q.b - t.dj
    · rw [List.filter_cons_of_pos (by simpa using hne), List.map_cons, List.sum_cons]
      have := mul_le_mul_of_nonneg_left (hg (i + q.a - t.di) (by omega) (i + q.b - t.dj) (by omega) (by omega)) ht
      linarith
    · rw [List.filter_cons_of_neg (by simpa using hne)]
      linarith

/-- A path is the diagonal or costs at least `ω * g`. -/
theorem WarpPath.stray {w ω g : ℚ} {k : Nat} (ho : OnlyMove rs 1 1 w k) (hp : PosWeights rs) (hv : ∀ q ∈ rs, q.Valid) (hst : Strays ω rs)
    (hg0 : 0 ≤ g) (h0 : ∀ i < n, ∀ j < n, 0 ≤ ℓ i j) (hg : ∀ i < n, ∀ j < n, i ≠ j → g ≤ ℓ i j)
    {ks : List Int} {i j : Nat} {c : F64} (h : WarpPath Arith.exact rs W (fun i j => fin (ℓ i j)) ks i j c) : i < n → j < n →
    ∃ x, c = fin x ∧ 0 ≤ x ∧ ((i = j ∧ ks = List.replicate i ((k : Int) + 1)) ∨ ω * g ≤ x) := by
  induction h with
  | start => exact fun hi _ => ⟨_, rfl, h0 0 hi 0 hi, .inl ⟨rfl, rfl⟩⟩
  | @step ks i j c k' q hp' hq hW ih =>
    intro hi hj
    have hqr := List.mem_of_getElem? hq
    obtain ⟨x, rfl, hx, hx2⟩ := ih (by omega) (by omega)
    rcases hx2 with ⟨rfl, rfl⟩ | hbig
    · obtain ⟨c', h1, h2, h3⟩ := charge_stray (fun t ht => hp q hqr t ht) (fun t ht => ((hv q hqr).2 t ht).2) hi hj h0 hg x
      refine ⟨c', h1, by linarith, ?_⟩
      by_cases hab : q.a = q.b
      · left
        have hk : k' = k := ho.only k' q q.a hq (by simp) (by simp [hab])
        subst hk
        rw [ho.rule] at hq
        obtain rfl := Option.some.inj hq
        exact ⟨rfl, by rw [List.replicate_succ']⟩
      · right
        have := mul_le_mul_of_nonneg_right (hst q hqr hab) hg0
        linarith
    · have hmono : ∀ ts : List Term, (∀ t ∈ ts, 0 ≤ t.w) → ∀ y : ℚ, ∃ y', ts.foldl (fun acc t => Arith.exact.mac acc (Arith.exact.rnd t.w)
          (fin (ℓ (i + q.a - t.di) (j + q.b - t.dj)))) (fin y) = fin y' ∧ y ≤ y' := by
        intro ts
        induction ts with
        | nil => exact fun _ y => ⟨y, rfl, _root_.le_refl _⟩
        | cons t ts ih2 =>
          intro hts y
          obtain ⟨y', e1, e2⟩ := ih2 (fun t ht => hts t (by simp [ht])) (y + t.w * ℓ (i + q.a - t.di) (j + q.b - t.dj))
          have := mul_nonneg (hts t (by simp)) (h0 (i + q.a - t.di) (by omega) (j + q.b - t.dj) (by omega))
          exact ⟨y', by rw [← e1]; rfl, by linarith⟩
      obtain ⟨y', e1, e2⟩ := hmono q.terms (hp q hqr) x
      exact ⟨y', e1, by linarith, .inr (by linarith)⟩

/-- Total weight of a complete path, bundled patterns (as in `C62_bundled`). -/
def weightBound (hint : String) (n m : Nat) : ℚ :=
  if hint = "N" then (n : ℚ) else if hint = "M" then 3 * m - 2 else (n : ℚ) + m - 1

theorem weightBound_spec (q : String × StepPattern) (hq : q ∈ Pat.table) (hn : 0 < n) (hm : 0 < m) {ks : List Int}
    (hks : RulePath (rulesOf q.2) W ks (n - 1) (m - 1)) : pathWeight (rulesOf q.2) ks ≤ weightBound q.2.hint n m := by
  have key2 : (Pat.table.all fun x => decide (x.2.hint = "N") || decide (x.2.hint = "M") ||
      (rulesOf x.2).all fun q => decide (q.weight ≤ 1 * (q.a + q.b))) = true := by decide +kernel
  have e1 : ((n - 1 : Nat) : ℚ) = (n : ℚ) - 1 := by rw [Nat.cast_sub hn]; simp
  have e2 : ((m - 1 : Nat) : ℚ) = (m : ℚ) - 1 := by rw [Nat.cast_sub hm]; simp
  obtain ⟨t1, t2, t3⟩ := C19_bundled q hq
  unfold weightBound
  split_ifs with c1 c2
  · exact _root_.le_of_eq ((C19_total_weight hn hm hks).1 (t1 c1))
  · exact _root_.le_of_eq ((C19_total_weight hn hm hks).2.2 (t3 c2))
  · have := List.all_eq_true.1 key2 q hq
    simp only [Bool.or_eq_true, decide_eq_true_eq, List.all_eq_true, c1, c2, false_or] at this
    have := pathWeight_le this hks
    rw [e1, e2] at this
    linarith

/-- The patterns for which leaving the diagonal costs, and how much (weight charged off the diagonal). -/
def strayWeights : List (String × ℚ) := [
  ("symmetric1", 1), ("symmetric2", 1), ("asymmetric", 1), ("symmetricP0", 1), ("symmetricP05", 1), ("asymmetricP05", 1 / 2),
  ("symmetricP1", 1), ("asymmetricP1", 1 / 2), ("symmetricP2", 1), ("asymmetricP2", 2 / 3), ("typeIb", 1), ("typeId", 1),
  ("typeIas", 1 / 2), ("typeIbs", 1), ("typeIcs", 1 / 2), ("typeIds", 3 / 2), ("typeIIa", 1), ("typeIIb", 2), ("typeIIc", 1),
  ("typeIId", 3), ("mori2006", 1)]

theorem C85_strays (s : String × ℚ) (hs : s ∈ strayWeights) (P : StepPattern) (hP : (s.1, P) ∈ Pat.table) :
    PosWeights (rulesOf P) ∧ Strays s.2 (rulesOf P) ∧ 0 < s.2 ∧ ∃ w, (s.1, w) ∈ diagonalMoves := by
  have key : (Pat.table.all fun x => strayWeights.all fun s => !decide (s.1 = x.1) ||
      (((rulesOf x.2).all fun q => q.terms.all fun t => decide (0 ≤ t.w)) &&
       ((rulesOf x.2).all fun q => decide (q.a = q.b) ||
          decide (s.2 ≤ ((q.terms.filter fun t => q.a - t.di ≠ q.b - t.dj).map (·.w)).sum)) && decide (0 < s.2) &&
       diagonalMoves.any fun d => decide (d.1 = s.1))) = true := by decide +kernel
  have := List.all_eq_true.1 (List.all_eq_true.1 key _ hP) s hs
  simp only [Bool.or_eq_true, Bool.and_eq_true, List.all_eq_true, List.any_eq_true, decide_eq_true_eq, decide_true, Bool.not_true,
    Bool.false_eq_true, false_or] at this
  obtain ⟨⟨⟨h1, h2⟩, h3⟩, d, hd, e⟩ := this
  exact ⟨fun q hq t ht => h1 q hq t ht, fun q hq hne => (h2 q hq).resolve_left hne, h3, d.2, by rw [← e]; exact hd⟩

/-- A series whose samples are pairwise at least `g` apart, aligned with itself: the diagonal, at distance 0, and everything else costs at
least `ω * g`. -/
theorem self_copy {o : Args} {x : List ℚ} {q : String × StepPattern} {ω g : ℚ} (h : Sensible o x.length x.length W q)
    (hob : o.openBegin = false) (hoe : o.openEnd = false) (hdo : o.distanceOnly = false)
    (hs : (q.1, ω) ∈ strayWeights) (hW : ∀ i < x.length, W i i = true)
    (hg : ∀ i < x.length, ∀ j < x.length, i ≠ j → g ≤ |x.getD i 0 - x.getD j 0|) (hg0 : 0 < g) :
    ∃ r mp, dtw Arith.exact (ask o x x) = .ok r ∧ r.mapping = some mp ∧ r.distance = fin 0 ∧
      (∀ ks c, WarpPath Arith.exact (rulesOf q.2) W (fun i j => fin (gap x x i j)) ks (x.length - 1) (x.length - 1) (fin c) →
        ks ≠ mp.stepsTaken → ω * g ≤ c) ∧
      mp.index1 = (List.range x.length).map (fun (i : Nat) => (i : Int)) ∧ mp.index2 = mp.index1 := by
  have hn := h.n_pos
  have h1 := ask_problem h
  obtain ⟨s1, s2, s3, w, hw⟩ := C85_strays _ hs q.2 h.mem
  obtain ⟨P, hP, k, ho⟩ := diagonal_only _ hw
  have hpq : P = q.2 := by
    have : ∀ q ∈ Pat.table, Pat.table.lookup q.1 = some q.2 := by decide +kernel
    exact Option.some.inj ((this _ hP).symm.trans (this q h.mem))
  subst hpq
  have stray := fun {ks : List Int} {i j : Nat} {c : F64} (hp : WarpPath Arith.exact (rulesOf q.2) W (fun i j => fin (gap x x i j)) ks i j c) =>
    hp.stray (n := x.length) ho s1 h1.wf.valid s2 (_root_.le_of_lt hg0) (fun i _ j _ => abs_nonneg _) hg
  obtain ⟨r, hr, hd⟩ : ∃ r, dtw Arith.exact (ask o x x) = .ok r ∧ r.distance = fin 0 := by
    have hwalk : WarpPath Arith.exact (rulesOf q.2) W (fun i j => fin (gap x x i j)) (List.replicate (x.length - 1) ((k : Int) + 1))
        (x.length - 1) (x.length - 1) (along Arith.exact (fun i j => fin (gap x x i j)) w 1 1 (x.length - 1)) := by
      have : WarpPath Arith.exact (rulesOf q.2) W (fun i j => fin (gap x x i j)) _ _ _ _ :=
        WarpPath.walk ho (x.length - 1) (fun s _ hs => hW _ (by omega))
      simpa using this
    have hal : ∀ t, along Arith.exact (fun i j => fin (gap x x i j)) w 1 1 t = fin 0 := by
      intro t
      induction t with
      | zero => simp [along, gap]
      | succ t ih =>
        have e : gap x x ((t + 1) * 1) ((t + 1) * 1) = 0 := by simp [gap]
        rw [along, ih, e]
        show fin (0 + w * 0) = fin 0
        simp
    rw [hal] at hwalk
    obtain ⟨r, hr⟩ := (exact_success_iff h1 hob hoe).2 ⟨_, hwalk.toRulePath⟩
    obtain ⟨⟨ks, hks⟩, hopt⟩ := C01_distance_optimal h1 hob hoe hr
    obtain ⟨d, e1, e2, -⟩ := stray hks (by omega) (by omega)
    have h4 := hopt _ _ hwalk
    rw [e1] at h4
    refine ⟨r, hr, ?_⟩
    rw [e1]
    have : d ≤ 0 := by simpa [F64.le] using h4
    rw [_root_.le_antisymm this e2]
  obtain ⟨mp, j, hmp, hj, hpath⟩ := C03_path_realises_distance h1 hob hdo hr
  obtain ⟨j2, ks, hj2, -, hjc, hcur, -⟩ := closed_mapping h1 hob hr hmp
  have ej : j = x.length - 1 := by
    have := hjc hoe
    rw [hj] at hj2
    omega
  subst ej
  have hpos : 0 < ω * g := mul_pos s3 hg0
  rw [hd] at hpath
  have hst : mp.stepsTaken = List.replicate (x.length - 1) ((k : Int) + 1) := by
    obtain ⟨d, e1, -, e3⟩ := stray hpath (by omega) (by omega)
    cases e1
    rcases e3 with ⟨-, e3⟩ | e3
    · exact e3
    · linarith
  refine ⟨r, mp, hr, hmp, hd, ?_, ?_⟩
  · intro ks c hks hne
    obtain ⟨d, e1, -, e3⟩ := stray hks (by omega) (by omega)
    cases e1
    rcases e3 with ⟨-, e3⟩ | e3
    · exact absurd (e3.trans hst.symm) hne
    · linarith
  · have hks : ks = List.replicate (x.length - 1) ((k : Int) + 1) := by
      rw [← hst, hcur]; rfl
    rw [hcur, hks, curve_replicate ho, Nat.sub_add_cancel hn]
    simp

theorem weightBound_nonneg (s : String) {n m : Nat} (hn : 0 < n) (hm : 0 < m) : 0 ≤ weightBound s n m := by
  have h5 : (1 : ℚ) ≤ n := by exact_mod_cast hn
  have h6 : (1 : ℚ) ≤ m := by exact_mod_cast hm
  unfold weightBound
  split_ifs <;> linarith

theorem gap_close {x x' y' : List ℚ} {δ η : ℚ}
    (hδ : ∀ i < x.length, |x'.getD i 0 - x.getD i 0| ≤ δ) (hη : ∀ i < x.length, |y'.getD i 0 - x.getD i 0| ≤ η) :
    CloseBy (δ + η) x.length x.length (gap x x) (gap x' y') := by
  intro i hi j hj
  have e : x'.getD i 0 - y'.getD j 0 - (x.getD i 0 - x.getD j 0) =
    (x'.getD i 0 - x.getD i 0) - (y'.getD j 0 - x.getD j 0) := by ring
  refine _root_.le_trans (abs_abs_sub_abs_le _ _) ?_
  rw [e]
  exact _root_.le_trans (abs_sub _ _) (add_le_add (hδ i hi) (hη j hj))

/-- **C85**, a noisy copy.  `x` is a series whose samples are pairwise at least `g` apart; the query and the reference are two noisy copies
of it, the samples off by at most `δ` and `η`.  If the noise is small, `2 * (δ + η) * (total weight) < ω * g`, the alignment found matches
sample `i` with sample `i`, for every `i`, and nothing else.  Any window that admits the diagonal. -/
theorem C85_noisy_copy {o : Args} {x x' y' : List ℚ} {q : String × StepPattern} {ω g δ η : ℚ} (h : Sensible o x.length x.length W q)
    (hob : o.openBegin = false) (hoe : o.openEnd = false) (hdo : o.distanceOnly = false)
    (hs : (q.1, ω) ∈ strayWeights) (hW : ∀ i < x.length, W i i = true)
    (hx : x'.length = x.length) (hy : y'.length = x.length)
    (hδ : ∀ i < x.length, |x'.getD i 0 - x.getD i 0| ≤ δ) (hη : ∀ i < x.length, |y'.getD i 0 - x.getD i 0| ≤ η)
    (hg : ∀ i < x.length, ∀ j < x.length, i ≠ j → g ≤ |x.getD i 0 - x.getD j 0|) (hg0 : 0 < g)
    (hsmall : 2 * ((δ + η) * weightBound q.2.hint x.length x.length) < ω * g) :
    ∃ r mp, dtw Arith.exact (ask o x' y') = .ok r ∧ r.mapping = some mp ∧
      mp.index1 = (List.range x.length).map (fun (i : Nat) => (i : Int)) ∧ mp.index2 = mp.index1 := by
  have hn := h.n_pos
  have h1 := ask_problem h
  have h2 := ask_problem (o := o) (x := x') (y := y') (W := W) (q := q) (by rw [hx, hy]; exact h)
  rw [hx, hy] at h2
  obtain ⟨r, mp, hr, hmp, hd, hother, hi1, hi2⟩ := self_copy h hob hoe hdo hs hW hg hg0
  obtain ⟨r', hr', hmp', -⟩ := C85_winner h1 h2 hob hoe hob hoe hdo (C85_strays _ hs q.2 h.mem).1 (gap_close hδ hη)
    (fun ks hks => weightBound_spec q h.mem hn hn hks) hr hmp hd (fun ks c hks hne => by
      have := hother ks c hks hne
      linarith)
  exact ⟨r', mp, hr', hmp', hi1, hi2⟩

/-- The hypotheses are met: samples 3 apart, noise 1/20 and 1/10. -/
example : ∃ r mp, dtw Arith.exact (ask { x := .d1 [], stepPattern := .name "symmetric2" } [0 + 1 / 20, 6, 3 - 1 / 20, 9] [0, 6 + 1 / 10, 3, 9]) =
      .ok r ∧ r.mapping = some mp ∧ mp.index1 = (List.range 4).map (fun (i : Nat) => (i : Int)) ∧ mp.index2 = mp.index1 := by
  have hb : Sensible { x := .d1 [], stepPattern := .name "symmetric2" } 4 4 (fun _ _ => true) ("symmetric2", Pat.symmetric2) :=
    sensible_free (by decide) (by decide) (by decide) Ex.sym2_mem rfl rfl
  refine C85_noisy_copy (x := [0, 6, 3, 9]) (ω := 1) (g := 3) (δ := 1 / 20) (η := 1 / 10) hb rfl rfl rfl (by decide) (fun _ _ => rfl) rfl
    rfl ?_ ?_ ?_ (by norm_num) (by
      show 2 * ((1 / 20 + 1 / 10) * weightBound "N+M" 4 4) < 1 * 3
      rw [weightBound, if_neg (by decide), if_neg (by decide)]
      norm_num)
  · intro i hi
    have : i = 0 ∨ i = 1 ∨ i = 2 ∨ i = 3 := by simp at hi; omega
    rcases this with rfl | rfl | rfl | rfl <;> norm_num [abs_le]
  · intro i hi
    have : i = 0 ∨ i = 1 ∨ i = 2 ∨ i = 3 := by simp at hi; omega
    rcases this with rfl | rfl | rfl | rfl <;> norm_num [abs_le]
  · intro i hi j hj hne
    have h1 : i = 0 ∨ i = 1 ∨ i = 2 ∨ i = 3 := by simp at hi; omega
    have h2 : j = 0 ∨ j = 1 ∨ j = 2 ∨ j = 3 := by simp at hj; omega
    rcases h1 with rfl | rfl | rfl | rfl <;> rcases h2 with rfl | rfl | rfl | rfl <;>
      first
        | exact absurd rfl hne
        | (norm_num [le_abs])

end DTW
