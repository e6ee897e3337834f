import Verif.Props.Hierarchy
import Verif.Props.Stability

/-!
# C83: weights within a factor; the slope weightings compared

Two step patterns with the same moves, the weights of one at most `K` times those of the other: both find alignments for
the same problems, and the distance of the one is at most `K` times that of the other (exact arithmetic, non-negative
finite local costs, closed ends, any window).  The four Rabiner-Juang slope weightings are related in this way.
-/

namespace DTW
open F64

variable {a a' : Args} {n m : Nat} {ℓ : Nat → Nat → ℚ} {W : Nat → Nat → Bool} {p p' : StepPattern} {rs rs' : List Rule}
  {r r' : Result} {K : ℚ}

/-- Terms charge the same cells, the second ones at weights at most `K` times the first. -/
def TermsWithin (K : ℚ) : List Term → List Term → Prop
  | [], [] => True
  | t :: ts, t' :: ts' => t'.di = t.di ∧ t'.dj = t.dj ∧ t'.w ≤ K * t.w ∧ TermsWithin K ts ts'
  | _, _ => False

/-- Rule by rule: the same moves through the same cells, the second ones at weights at most `K` times the first. -/
def RulesWithin (K : ℚ) : List Rule → List Rule → Prop
  | [], [] => True
  | q :: qs, q' :: qs' => q'.a = q.a ∧ q'.b = q.b ∧ TermsWithin K q.terms q'.terms ∧ RulesWithin K qs qs'
  | _, _ => False

def termsWithin (K : ℚ) : List Term → List Term → Bool
  | [], [] => true
  | t :: ts, t' :: ts' => decide (t'.di = t.di ∧ t'.dj = t.dj ∧ t'.w ≤ K * t.w) && termsWithin K ts ts'
  | _, _ => false

def rulesWithin (K : ℚ) : List Rule → List Rule → Bool
  | [], [] => true
  | q :: qs, q' :: qs' => decide (q'.a = q.a ∧ q'.b = q.b) && termsWithin K q.terms q'.terms && rulesWithin K qs qs'
  | _, _ => false

theorem termsWithin_sound : ∀ {ts ts' : List Term}, termsWithin K ts ts' = true → TermsWithin K ts ts'
  | [], [], _ => trivial
  | t :: ts, t' :: ts', h => by
    simp only [termsWithin, Bool.and_eq_true, decide_eq_true_eq] at h
    exact ⟨h.1.1, h.1.2.1, h.1.2.2, termsWithin_sound h.2⟩
  | [], _ :: _, h => by simp [termsWithin] at h
  | _ :: _, [], h => by simp [termsWithin] at h

theorem rulesWithin_sound : ∀ {qs qs' : List Rule}, rulesWithin K qs qs' = true → RulesWithin K qs qs'
  | [], [], _ => trivial
  | q :: qs, q' :: qs', h => by
    simp only [rulesWithin, Bool.and_eq_true, decide_eq_true_eq] at h
    exact ⟨h.1.1.1, h.1.1.2, termsWithin_sound h.1.2, rulesWithin_sound h.2⟩
  | [], _ :: _, h => by simp [rulesWithin] at h
  | _ :: _, [], h => by simp [rulesWithin] at h

theorem RulesWithin.get : ∀ {qs qs' : List Rule}, RulesWithin K qs qs' → ∀ {k : Nat} {q : Rule}, qs[k]? = some q →
    ∃ q', qs'[k]? = some q' ∧ q'.a = q.a ∧ q'.b = q.b ∧ TermsWithin K q.terms q'.terms
  | [], _, _, k, q, h => by simp at h
  | q :: qs, q' :: qs', ⟨h1, h2, h3, _⟩, 0, _, h => by
    simp only [List.getElem?_cons_zero, Option.some.injEq] at h
    subst h
    exact ⟨q', rfl, h1, h2, h3⟩
  | q :: qs, q' :: qs', ⟨_, _, _, h4⟩, k + 1, _, h => by
    simp only [List.getElem?_cons_succ] at h ⊢
    exact h4.get h

theorem RulesWithin.get' : ∀ {qs qs' : List Rule}, RulesWithin K qs qs' → ∀ {k : Nat} {q' : Rule}, qs'[k]? = some q' →
    ∃ q, qs[k]? = some q ∧ q'.a = q.a ∧ q'.b = q.b
  | [], [], _, k, q, h => by simp at h
  | q :: qs, q' :: qs', ⟨h1, h2, _, _⟩, 0, _, h => by
    simp only [List.getElem?_cons_zero, Option.some.injEq] at h
    subst h
    exact ⟨q, rfl, h1, h2⟩
  | q :: qs, q' :: qs', ⟨_, _, _, h4⟩, k + 1, _, h => by
    simp only [List.getElem?_cons_succ] at h ⊢
    exact h4.get' h

theorem charge_within {q q' : Rule} (hw : TermsWithin K q.terms q'.terms) {i j : Nat} (hi : i < n) (hj : j < m)
    (hl : ∀ i < n, ∀ j < m, 0 ≤ ℓ i j) (c c' : ℚ) (hc : c' ≤ K * c) :
    ∃ d d', charge Arith.exact (fun i j => fin (ℓ i j)) q i j (fin c) = fin d ∧
      charge Arith.exact (fun i j => fin (ℓ i j)) q' i j (fin c') = fin d' ∧ d' ≤ K * d := by
  unfold charge
  revert hw hc c c'
  generalize q.terms = ts
  generalize q'.terms = ts'
  intro hw
  induction ts generalizing ts' with
  | nil =>
    cases ts' with
    | nil => intro c c' hc; exact ⟨c, c', rfl, rfl, hc⟩
    | cons t ts' => exact hw.elim
  | cons t ts ih =>
    cases ts' with
    | nil => exact hw.elim
    | cons t' ts' =>
      intro c c' hc
      obtain ⟨h1, h2, h3, h4⟩ := hw
      have h0 := hl (i - t.di) (by omega) (j - t.dj) (by omega)
      obtain ⟨d, d', g1, g2, g3⟩ := ih _ h4 (c + t.w * ℓ (i - t.di) (j - t.dj)) (c' + t'.w * ℓ (i - t.di) (j - t.dj))
        (by have := mul_le_mul_of_nonneg_right h3 h0; linarith)
      refine ⟨d, d', ?_, ?_, g3⟩
      · rw [← g1]; rfl
      · rw [← g2, ← h1, ← h2]; rfl

theorem WarpPath.within (hR : RulesWithin K rs rs') (hK : 1 ≤ K) (hl : ∀ i < n, ∀ j < m, 0 ≤ ℓ i j) {ks : List Int}
    {i j : Nat} {c : F64} (h : WarpPath Arith.exact rs W (fun i j => fin (ℓ i j)) ks i j c) (hi : i < n) (hj : j < m) :
    ∃ d d', c = fin d ∧ WarpPath Arith.exact rs' W (fun i j => fin (ℓ i j)) ks i j (fin d') ∧ d' ≤ K * d := by
  induction h with
  | start =>
    refine ⟨_, _, rfl, .start, ?_⟩
    have := hl 0 hi 0 hj
    nlinarith
  | @step ks i j c k q hp hq hW ih =>
    obtain ⟨d, d', rfl, h2, h3⟩ := ih (by omega) (by omega)
    obtain ⟨q', hq', ea, eb, hT⟩ := hR.get hq
    obtain ⟨e, e', h4, h5, h6⟩ := charge_within hT hi hj hl d d' h3
    refine ⟨e, e', h4, ?_, h6⟩
    rw [← h5, ← ea, ← eb]
    rw [← ea, ← eb] at hW
    exact .step k q' h2 hq' hW

theorem RulesWithin.rulePath (hR : RulesWithin K rs rs') {ks : List Int} {i j : Nat} :
    RulePath rs W ks i j ↔ RulePath rs' W ks i j := by
  constructor
  · intro h
    induction h with
    | start => exact .start
    | step k q _ hq hW ih =>
      obtain ⟨q', hq', ea, eb, _⟩ := hR.get hq
      rw [← ea, ← eb] at hW ⊢
      exact .step k q' ih hq' hW
  · intro h
    induction h with
    | start => exact .start
    | step k q' _ hq' hW ih =>
      obtain ⟨q, hq, ea, eb⟩ := hR.get' hq'
      rw [ea, eb] at hW ⊢
      exact .step k q ih hq hW

/-- **C83.**  Two step patterns with the same moves through the same cells, the weights of the second at most `K ≥ 1`
times those of the first: with non-negative local costs and any window, the second finds an alignment iff the first does,
and its distance is at most `K` times as large. -/
theorem C83_factor (hR : RulesWithin K rs rs') (hK : 1 ≤ K) (hl : ∀ i < n, ∀ j < m, 0 ≤ ℓ i j)
    (h : Problem a n m (fun i j => fin (ℓ i j)) W p rs) (h' : Problem a' n m (fun i j => fin (ℓ i j)) W p' rs')
    (hob : a.openBegin = false) (hoe : a.openEnd = false) (hob' : a'.openBegin = false) (hoe' : a'.openEnd = false) :
    ((∃ r, dtw Arith.exact a = .ok r) ↔ ∃ r', dtw Arith.exact a' = .ok r') ∧
    ∀ r r', dtw Arith.exact a = .ok r → dtw Arith.exact a' = .ok r' →
      ∃ d d', r.distance = fin d ∧ r'.distance = fin d' ∧ d' ≤ K * d := by
  have hn := h.n_pos
  have hm := h.m_pos
  constructor
  · rw [exact_success_iff h hob hoe, exact_success_iff h' hob' hoe']
    simp only [hR.rulePath]
  · intro r r' hr hr'
    obtain ⟨⟨ks, hks⟩, _⟩ := C01_distance_optimal h hob hoe hr
    obtain ⟨⟨ks', hks'⟩, hopt'⟩ := C01_distance_optimal h' hob' hoe' hr'
    obtain ⟨d, e', h1, h2, h3⟩ := hks.within hR hK hl (by omega) (by omega)
    obtain ⟨d', hd'⟩ := hks'.finite
    refine ⟨d, d', h1, hd', ?_⟩
    have o := hopt' _ _ h2 (by simp)
    rw [hd', F64.le_fin] at o
    linarith

/-- **C83**, Rabiner-Juang slope weightings.  For every type and both smoothings, the weights of `a` are at most those of
`c`, those of `c` at most those of `b`, those of `b` at most those of `d`, and those of `d` at most twice those of `b`:
so (with `C83_factor`) `d_a ≤ d_c ≤ d_b ≤ d_d ≤ 2 d_b`. -/
theorem C83_rabinerJuang (t : Int) (ht : 1 ≤ t ∧ t ≤ 7) (sm : Bool) :
    ∃ pa pb pc pd, rabinerJuang t "a" sm = .ok pa ∧ rabinerJuang t "b" sm = .ok pb ∧ rabinerJuang t "c" sm = .ok pc ∧
      rabinerJuang t "d" sm = .ok pd ∧
      RulesWithin 1 (rulesOf pc) (rulesOf pa) ∧ RulesWithin 1 (rulesOf pb) (rulesOf pc) ∧
      RulesWithin 1 (rulesOf pd) (rulesOf pb) ∧ RulesWithin 2 (rulesOf pb) (rulesOf pd) := by
  have key : ([1, 2, 3, 4, 5, 6, 7].all fun t : Int => [true, false].all fun sm =>
      match rabinerJuang t "a" sm, rabinerJuang t "b" sm, rabinerJuang t "c" sm, rabinerJuang t "d" sm with
      | .ok pa, .ok pb, .ok pc, .ok pd => rulesWithin 1 (rulesOf pc) (rulesOf pa) && rulesWithin 1 (rulesOf pb) (rulesOf pc) &&
          rulesWithin 1 (rulesOf pd) (rulesOf pb) && rulesWithin 2 (rulesOf pb) (rulesOf pd)
      | _, _, _, _ => false) = true := by decide +kernel
  have hmem : t ∈ ([1, 2, 3, 4, 5, 6, 7] : List Int) := by
    simp only [List.mem_cons, List.not_mem_nil, or_false]; omega
  have h1 := List.all_eq_true.1 (List.all_eq_true.1 key t hmem) sm (by cases sm <;> simp)
  revert h1
  cases rabinerJuang t "a" sm with
  | error e => simp
  | ok pa =>
    cases rabinerJuang t "b" sm with
    | error e => simp
    | ok pb =>
      cases rabinerJuang t "c" sm with
      | error e => simp
      | ok pc =>
        cases rabinerJuang t "d" sm with
        | error e => simp
        | ok pd =>
          intro h1
          simp only [Bool.and_eq_true] at h1
          exact ⟨pa, pb, pc, pd, rfl, rfl, rfl, rfl, rulesWithin_sound h1.1.1.1, rulesWithin_sound h1.1.1.2,
            rulesWithin_sound h1.1.2, rulesWithin_sound h1.2⟩

/-- Pairs of bundled patterns `(K, name, name')` with the same moves, the weights of the second at most `K` times those of
the first. -/
def factorPairs : List (ℚ × String × String) := [
  (1, "symmetric2", "symmetric1"), (2, "symmetric1", "symmetric2"), (2, "symmetric1", "symmetricP0"),
  (1, "typeIc", "typeIa"), (1, "typeIb", "typeIc"), (1, "typeId", "typeIb"), (2, "typeIb", "typeId"),
  (1, "typeIcs", "typeIas"), (1, "typeIbs", "typeIcs"), (1, "typeIds", "typeIbs"), (2, "typeIbs", "typeIds"),
  (1, "typeIIb", "typeIIa"), (1, "typeIId", "typeIIb"), (2, "typeIIb", "typeIId")]

/-- **C83**, bundled patterns: in particular the distance with `symmetric2` (the default) lies between that with
`symmetric1` and twice that. -/
theorem C83_bundled : ∀ x ∈ factorPairs, ∃ q ∈ Pat.table, ∃ q' ∈ Pat.table, q.1 = x.2.1 ∧ q'.1 = x.2.2 ∧
    RulesWithin x.1 (rulesOf q.2) (rulesOf q'.2) := by
  have key : (factorPairs.all fun x => Pat.table.any fun q => Pat.table.any fun q' =>
      decide (q.1 = x.2.1) && decide (q'.1 = x.2.2) && rulesWithin x.1 (rulesOf q.2) (rulesOf q'.2)) = true := by
    decide +kernel
  intro x hx
  have h := List.all_eq_true.1 key x hx
  obtain ⟨q, hq, h⟩ := List.any_eq_true.1 h
  obtain ⟨q', hq', h⟩ := List.any_eq_true.1 h
  simp only [Bool.and_eq_true, decide_eq_true_eq] at h
  exact ⟨q, hq, q', hq', h.1.1, h.1.2, rulesWithin_sound h.2⟩

/-- **C83**, the default pattern: `d_symmetric1 ≤ d_symmetric2 ≤ 2 d_symmetric1`, for every window. -/
theorem C83_symmetric (hl : ∀ i < n, ∀ j < m, 0 ≤ ℓ i j)
    (h : Problem a n m (fun i j => fin (ℓ i j)) W Pat.symmetric1 (rulesOf Pat.symmetric1))
    (h' : Problem a' n m (fun i j => fin (ℓ i j)) W Pat.symmetric2 (rulesOf Pat.symmetric2))
    (hob : a.openBegin = false) (hoe : a.openEnd = false) (hob' : a'.openBegin = false) (hoe' : a'.openEnd = false)
    (hr : dtw Arith.exact a = .ok r) (hr' : dtw Arith.exact a' = .ok r') :
    ∃ d d', r.distance = fin d ∧ r'.distance = fin d' ∧ d ≤ d' ∧ d' ≤ 2 * d := by
  have k1 : rulesWithin 1 (rulesOf Pat.symmetric2) (rulesOf Pat.symmetric1) = true := by decide +kernel
  have k2 : rulesWithin 2 (rulesOf Pat.symmetric1) (rulesOf Pat.symmetric2) = true := by decide +kernel
  obtain ⟨d', d, e1, e2, e3⟩ := (C83_factor (rulesWithin_sound k1) (by norm_num) hl h' h hob' hoe' hob hoe).2 r' r hr' hr
  obtain ⟨d1, d1', e4, e5, e6⟩ := (C83_factor (rulesWithin_sound k2) (by norm_num) hl h h' hob hoe hob' hoe').2 r r' hr hr'
  rw [e2] at e4
  rw [e1] at e5
  cases e4
  cases e5
  exact ⟨d, d', e2, e1, by linarith, e6⟩

/-- C83, both bounds are sharp: along a column nothing is charged twice, along a diagonal of which only the first pair is
free everything is. -/
theorem C83_sharp :
    (dtw Arith.exact (Ex.call 1 3 (fun _ j => fin j) "symmetric1")).toOption.map (·.distance) = some (fin 3) ∧
    (dtw Arith.exact (Ex.call 1 3 (fun _ j => fin j) "symmetric2")).toOption.map (·.distance) = some (fin 3) ∧
    (dtw Arith.exact (Ex.call 3 3 (fun i j => fin (if i = j then i else 9)) "symmetric1")).toOption.map (·.distance) =
      some (fin 3) ∧
    (dtw Arith.exact (Ex.call 3 3 (fun i j => fin (if i = j then i else 9)) "symmetric2")).toOption.map (·.distance) =
      some (fin 6) := by decide +kernel

end DTW
