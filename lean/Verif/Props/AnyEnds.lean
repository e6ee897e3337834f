import Verif.Props.OpenEnd
import Verif.Props.Patterns
import Verif.Props.Count
import Verif.Props.Invariance

/-!
# C05, C14, C21, C30, C33, C34, C35: the remaining statements about open ends

The closed-begin/closed-end versions are elsewhere; here the same laws for alignments with open begin and/or open end.
-/

namespace DTW
open F64

variable {A : Arith} {a a' : Args} {n m : Nat} {L L' S : Nat → Nat → F64} {W W' : Nat → Nat → Bool}
  {p p' : StepPattern} {rs rs' : List Rule} {r r' : Result} {mp : Mapping}

/-! ### C34, C33: the order of the rules -/

/-- The numbers of a result: everything that does not refer to rules or paths. -/
structure Numbers where
  N : Nat
  M : Nat
  jmin : Int
  distance : F64
  normalizedDistance : F64
  hasPath : Bool
  costMatrix : Option (Mat F64)
  localCostMatrix : Option (Mat F64)
  deriving DecidableEq

/-- The numbers of a result. -/
def Result.numbers (r : Result) : Numbers :=
  ⟨r.N, r.M, r.jmin, r.distance, r.normalizedDistance, r.mapping.isSome, r.costMatrix, r.localCostMatrix⟩

theorem finish_numbers (ho : SameOptions a a') (hh : p.hint = p'.hint) (hp : WF p rs) (hp' : WF p' rs') {q : Nat}
    {qr qr' : Option (Mat F64 × Mat F64)} (hn : 0 < n) (hq : 0 < q) (hm : 0 < m)
    {G G' : Nat → Nat → F64} {D D' : Nat → Nat → Int}
    (hB : Bellman A rs q m W L S G D) (hB' : Bellman A rs' q m W L S G' D')
    (hG : ∀ i < q, ∀ j < m, G i j = G' i j) (lm : Mat F64) :
    (finish A a p n m qr q lm G D).map Result.numbers = (finish A a' p' n m qr' q lm G' D').map Result.numbers := by
  have e1 : tab m (G (q - 1)) = tab m (G' (q - 1)) := by
    unfold tab
    apply List.map_congr_left
    intro j hj
    exact hG _ (by omega) _ (List.mem_range.1 hj)
  have hpe : pickEnd a p.hint m (Mat.ofFn q m G) (normalise A p.hint n (tab m (G (q - 1)))) =
      pickEnd a' p'.hint m (Mat.ofFn q m G') (normalise A p'.hint n (tab m (G' (q - 1)))) := by
    rw [e1, ofFn_congr hG, hh, pickEnd_options ho]
  cases hk : pickEnd a p.hint m (Mat.ofFn q m G) (normalise A p.hint n (tab m (G (q - 1)))) with
  | error e =>
    rw [finish_error hk, finish_error (hpe.symm.trans hk)]
  | ok jd =>
    obtain ⟨j, d⟩ := jd
    obtain ⟨k, h1, rfl, rfl, h4, -, -⟩ := pickEnd_ok hn hq hm hk
    have hc := hG (q - 1) (by omega) k h1
    have hk' := hpe.symm.trans hk
    rw [hc] at hk'
    obtain ⟨i0, j0, ks, -, ht⟩ := hB.sound hp.valid _ (q - 1) k rfl (by omega) h1 h4
    obtain ⟨i0', j0', ks', -, ht'⟩ := hB'.sound hp'.valid _ (q - 1) k rfl (by omega) h1 (hc ▸ h4)
    rw [finish_of h1 hk, finish_of h1 hk', pickMapping_trace hp hq ht h1, pickMapping_trace hp' hq ht' h1,
      ← ho.openBegin, ← ho.distanceOnly]
    cases hob : a.openBegin <;> cases hdo : a.distanceOnly <;>
      simp [Except.map, Result.numbers, mkResult, hh, hc, ofFn_congr hG, ← ho.keepInternals, ← ho.openBegin, hob]

/-- C34, any ends and options.  Two patterns with the same set of rules (in any order, with any multiplicity) and the same
hint give the same outcome: the same error, or the same numbers (sizes, end column, distance, normalised distance, cost
matrix), to the last bit. -/
theorem C34_any_ends (h : Problem a n m L W p rs) (h' : Problem a' n m L W p' rs')
    (hset : ∀ q, q ∈ rs ↔ q ∈ rs') (hh : p.hint = p'.hint) (ho : SameOptions a a') :
    (dtw A a).map Result.numbers = (dtw A a').map Result.numbers := by
  have hn := h.n_pos
  have hm := h.m_pos
  cases hob : a.openBegin with
  | false =>
    have hob' : a'.openBegin = false := by rw [← ho.openBegin]; exact hob
    obtain ⟨G, D, qr, hB, _, hd⟩ := dtw_closed A h hob
    obtain ⟨G', D', qr', hB', _, hd'⟩ := dtw_closed A h' hob'
    rw [hd, hd']
    exact finish_numbers ho hh h.wf h'.wf hn hn hm hB hB' (hB.same_rules h.wf.valid hset hB') _
  | true =>
    have hob' : a'.openBegin = true := by rw [← ho.openBegin]; exact hob
    by_cases hN : p.hint = "N"
    · obtain ⟨G, D, qr, hB, _, hd⟩ := dtw_open A h hob hN
      obtain ⟨G', D', qr', hB', _, hd'⟩ := dtw_open A h' hob' (hh ▸ hN)
      rw [hd, hd']
      exact finish_numbers ho hh h.wf h'.wf hn (Nat.succ_pos n) hm hB hB' (hB.same_rules h.wf.valid hset hB') _
    · rw [open_bad_hint h hob hN, open_bad_hint h' hob' (hh ▸ hN)]

/-- C33, any ends and options: `typeII?`, `typeIIIc`, `typeIVc` and the corresponding Rabiner-Juang patterns give the same
error or the same numbers on every input. -/
theorem C33_any_ends {s t : String} {k : Int}
    (hx : (s, k, t) ∈ [("typeIIa", (3 : Int), "a"), ("typeIIb", 3, "b"), ("typeIIc", 3, "c"),
      ("typeIId", 3, "d"), ("typeIIIc", 4, "c"), ("typeIVc", 7, "c")])
    (hp' : rabinerJuang k t false = .ok p') (hs : a.stepPattern = .name s)
    (h : Problem a n m L W p (rulesOf p)) :
    (dtw A { a with stepPattern := .obj p' }).map Result.numbers = (dtw A a).map Result.numbers := by
  obtain ⟨q, q', h1, h2, h3, h4, h5, h6, h7⟩ := C33_same_rules _ hx
  simp only at h1 h2
  have hpq : p = q := by
    have := h.pattern; rw [hs, h1] at this; simpa using this.symm
  subst hpq
  have hpq' : p' = q' := by rw [hp'] at h2; simpa using h2
  subst hpq'
  have hc : CallCost { a with stepPattern := .obj p' } n m L := by
    cases h.cost with
    | matrix h1 h2 h3 h4 => exact .matrix h1 h2 h3 h4
    | series y X Y h1 h2 h3 h4 h5 h6 h7 => exact .series y X Y h1 h2 h3 h4 h5 h6 h7
  have h' : Problem { a with stepPattern := .obj p' } n m L W p' (rulesOf p') :=
    { n_pos := h.n_pos, m_pos := h.m_pos, cost := hc, pattern := rfl, wf := h4
      fits := h7 _ _ h.fits.cells, window := h.window }
  exact (C34_any_ends h h' h6 h5 ⟨rfl, rfl, rfl, rfl⟩).symm

/-- Non-vacuity: `typeIIc` with both ends open, and its Rabiner-Juang counterpart. -/
example : ∃ p', rabinerJuang 3 "c" false = .ok p' ∧
    (dtw Arith.exact { x := .d2 (Mat.ofFn 3 4 Ex.L), stepPattern := .name "typeIIc", openBegin := true
                       openEnd := true }).toOption.map Result.numbers =
    (dtw Arith.exact { x := .d2 (Mat.ofFn 3 4 Ex.L), stepPattern := .obj p', openBegin := true
                       openEnd := true }).toOption.map Result.numbers ∧
    (dtw Arith.exact { x := .d2 (Mat.ofFn 3 4 Ex.L), stepPattern := .obj p', openBegin := true
                       openEnd := true }).toOption.isSome = true :=
  ⟨_, rfl, by decide +kernel, by decide +kernel⟩

/-- The named patterns that are Rabiner-Juang patterns: (name, type, sub-type, smoothed). -/
def rjNames : List (String × Int × String × Bool) := [
  ("symmetric1", 1, "b", false), ("symmetric2", 1, "d", false), ("symmetricP0", 1, "d", false),
  ("asymmetricP0", 1, "c", false), ("symmetricP05", 5, "d", false), ("asymmetricP05", 5, "c", true),
  ("symmetricP1", 2, "d", false), ("asymmetricP1", 2, "c", true), ("symmetricP2", 6, "d", false),
  ("asymmetricP2", 6, "c", true), ("typeIa", 2, "a", false), ("typeIb", 2, "b", false), ("typeIc", 2, "c", false),
  ("typeId", 2, "d", false), ("typeIas", 2, "a", true), ("typeIbs", 2, "b", true), ("typeIcs", 2, "c", true),
  ("typeIds", 2, "d", true), ("typeIIa", 3, "a", false), ("typeIIb", 3, "b", false), ("typeIIc", 3, "c", false),
  ("typeIId", 3, "d", false), ("typeIIIc", 4, "c", false), ("typeIVc", 7, "c", false)]

/-- **C33** (all named patterns, any ends, options and rounding).  The Sakoe-Chiba and Rabiner-Myers patterns, symmetric1
and symmetric2 are Rabiner-Juang patterns: on every input the same error or the same numbers. -/
theorem C33_named_are_rabinerJuang {s t : String} {k : Int} {sm : Bool} (hx : (s, k, t, sm) ∈ rjNames)
    (hp' : rabinerJuang k t sm = .ok p') (hs : a.stepPattern = .name s) (h : Problem a n m L W p (rulesOf p)) :
    (dtw A { a with stepPattern := .obj p' }).map Result.numbers = (dtw A a).map Result.numbers := by
  have key : (rjNames.all fun x => match Pat.table.lookup x.1, rabinerJuang x.2.1 x.2.2.1 x.2.2.2 with
    | some p, .ok p' => wfCheck p' (rulesOf p') && decide (p.hint = p'.hint) &&
        (rulesOf p).all (fun q => decide (q ∈ rulesOf p')) && (rulesOf p').all (fun q => decide (q ∈ rulesOf p)) &&
        decide (4 * (encode (rulesOf p')).length < 2147483648) &&
        (rulesOf p').all (fun r => decide (r.a < 2147483648 ∧ r.b < 2147483648))
    | _, _ => false) = true := by decide +kernel
  have h1 := List.all_eq_true.1 key _ hx
  have hpat := h.pattern
  rw [hs] at hpat
  simp only [canonPattern] at hpat
  cases hl : Pat.table.lookup s with
  | none => rw [hl] at hpat; simp at hpat
  | some q =>
    rw [hl] at hpat
    simp only [Except.ok.injEq] at hpat
    subst hpat
    simp only [hl, hp', Bool.and_eq_true, List.all_eq_true, decide_eq_true_eq] at h1
    obtain ⟨⟨⟨⟨⟨h3, h5⟩, h4⟩, h4'⟩, h6⟩, h7⟩ := h1
    have hc : CallCost { a with stepPattern := .obj p' } n m L := by
      cases h.cost with
      | matrix h1 h2 h3 h4 => exact .matrix h1 h2 h3 h4
      | series y X Y h1 h2 h3 h4 h5 h6 h7 => exact .series y X Y h1 h2 h3 h4 h5 h6 h7
    have h' : Problem { a with stepPattern := .obj p' } n m L W p' (rulesOf p') :=
      { n_pos := h.n_pos, m_pos := h.m_pos, cost := hc, pattern := rfl, wf := wf_of_check h3
        fits := ⟨h.fits.cells, h6, h7⟩, window := h.window }
    exact (C34_any_ends h h' (fun q => ⟨h4 q, h4' q⟩) h5 ⟨rfl, rfl, rfl, rfl⟩).symm

/-! ### C05: the indices of an open-begin alignment are in range -/

/-- C05, open begin: every index is in range.  The corner points always are; so are all points when no rule charges a cell
in the row it starts from (all bundled patterns that accept open begin, `C22_bundled`); `index2` always is. -/
theorem C05_open_begin_in_range (h : Problem a n m L W p rs) (hob : a.openBegin = true)
    (hr : dtw A a = .ok r) (hmp : r.mapping = some mp) :
    (∀ x ∈ mp.index1s, 0 ≤ x ∧ x < n) ∧ (∀ x ∈ mp.index2s, 0 ≤ x ∧ x < m) ∧
    (∀ x ∈ mp.index1, -1 ≤ x ∧ x < n) ∧ (∀ x ∈ mp.index2, 0 ≤ x ∧ x < m) ∧
    ((∀ q ∈ rs, ∀ t ∈ q.terms, 0 < q.a → t.di < q.a) → ∀ x ∈ mp.index1, 0 ≤ x) := by
  have h10 := C10_open_begin h hob hr hmp
  obtain ⟨mp', j', j0', hmp', -, hz, hzs, hlen, hl1, hl2, -, -, -, -, hin⟩ := C22_open_begin_indices h hob hr
  rw [hmp] at hmp'
  cases hmp'
  obtain ⟨j, j0, ks, hj, hlt, rfl, hp⟩ := open_mapping h hob hr hmp
  refine ⟨?_, ?_, ?_, ?_, fun hs x hx => ((hin hs).1 x hx).1⟩
  · intro x hx
    obtain ⟨k, hk⟩ := List.getElem?_of_mem hx
    have hk2 := (List.getElem?_eq_some_iff.1 hk).1
    obtain ⟨y, hy⟩ : ∃ y, (curve rs 0 j0 ks).dropNull.index2s[k]? = some y :=
      ⟨_, List.getElem?_eq_getElem (by omega)⟩
    obtain ⟨i', j'', e, hi', -, -⟩ := h10 (x, y) (List.mem_of_getElem? (i := k) (by
      rw [List.getElem?_zip_eq_some]; exact ⟨hk, hy⟩))
    simp only [Prod.mk.injEq] at e
    omega
  · intro y hy
    obtain ⟨k, hk⟩ := List.getElem?_of_mem hy
    have hk2 := (List.getElem?_eq_some_iff.1 hk).1
    obtain ⟨x, hx⟩ : ∃ x, (curve rs 0 j0 ks).dropNull.index1s[k]? = some x :=
      ⟨_, List.getElem?_eq_getElem (by omega)⟩
    obtain ⟨i', j'', e, -, hj', -⟩ := h10 (x, y) (List.mem_of_getElem? (i := k) (by
      rw [List.getElem?_zip_eq_some]; exact ⟨hx, hk⟩))
    simp only [Prod.mk.injEq] at e
    omega
  · intro x hx
    have hR := hp.toPath.toWalk.fine_range h.wf.valid
    simp only [Mapping.dropNull, curve] at hx
    rw [List.mem_map] at hx
    obtain ⟨v, hv, rfl⟩ := hx
    rw [← List.map_tail, List.mem_map] at hv
    obtain ⟨u, hu, rfl⟩ := hv
    have := hR u (List.mem_of_mem_tail hu)
    omega
  · intro y hy
    have hR := hp.toPath.toWalk.fine_range h.wf.valid
    simp only [Mapping.dropNull, curve] at hy
    rw [← List.map_tail, List.mem_map] at hy
    obtain ⟨u, hu, rfl⟩ := hy
    have := hR u (List.mem_of_mem_tail hu)
    omega

/-! ### C14, C30 -/

/-- C14, open begin: all cumulative costs are non-negative (or NaN). -/
theorem C14_open_begin_matrix {ℓ : Nat → Nat → ℚ} (h : Problem a n m (fun i j => fin (ℓ i j)) W p rs)
    (hob : a.openBegin = true) (hw : NonnegWeights A rs) (hl : ∀ i < n, ∀ j < m, 0 ≤ ℓ i j)
    (hki : a.keepInternals = true) (hr : dtw A a = .ok r) :
    ∃ G : Nat → Nat → F64, r.costMatrix = some (Mat.ofFn n m G) ∧
      ∀ i < n, ∀ j < m, G i j = nan ∨ F64.le (fin 0) (G i j) := by
  obtain ⟨G, hG, hc⟩ := C09_open_begin h hob hki hr
  refine ⟨G, hG, ?_⟩
  intro i hi j hj
  by_cases hn : G i j = nan
  · exact .inl hn
  · obtain ⟨j0, ks, hp⟩ := (hc i hi j hj).1 hn
    exact .inr (hp.nonneg hw fun i' hi' j' hj' => hl i' (by omega) j' (by omega))

/-- C30, open begin: the path has at most `N + M - 1` steps. -/
theorem C30_open_begin (h : Problem a n m L W p rs) (hob : a.openBegin = true) (hr : dtw A a = .ok r)
    (hmp : r.mapping = some mp) : mp.stepsTaken.length + 1 ≤ n + m := by
  have hh : p.hint = "N" := by
    by_contra hh; rw [open_bad_hint h hob hh] at hr; simp at hr
  obtain ⟨G, D, qr, hB, _, hd⟩ := dtw_open A h hob hh
  obtain ⟨j, j0, ks, hrun⟩ := open_ok h hob hB hd hr
  have hlen := hrun.trace.length_le h.wf.valid
  have hj := hrun.endAt.lt
  rw [hrun.result] at hmp
  simp only [mkResult, Option.some.injEq] at hmp
  rw [← hmp]
  simp only [Mapping.dropNull, curve]
  omega

/-! ### C21: prefixes -/

/-- C21, open begin: if the local costs and the windows (in the coordinates of the extended matrix) of two open-begin calls
agree on the common part, so do their cost and direction matrices. -/
theorem C21_open_begin_prefix {n' m' : Nat} (h : Problem a n m L W p rs) (h' : Problem a' n' m' L' W' p rs)
    (hn' : n' ≤ n) (hm' : m' ≤ m) (hL : ∀ i < n', ∀ j < m', L i j = L' i j)
    (hW : ∀ i < n' + 1, ∀ j < m', W i j = W' i j)
    (hob : a.openBegin = true) (hob' : a'.openBegin = true)
    (hki : a.keepInternals = true) (hki' : a'.keepInternals = true)
    (hr : dtw A a = .ok r) (hr' : dtw A a' = .ok r') :
    ∃ G D, r.costMatrix = some (Mat.ofFn n m G) ∧ r'.costMatrix = some (Mat.ofFn n' m' G) ∧
      r.directionMatrix = some (Mat.ofFn n m D) ∧ r'.directionMatrix = some (Mat.ofFn n' m' D) := by
  have hh : p.hint = "N" := by
    by_contra hh; rw [open_bad_hint h hob hh] at hr; simp at hr
  obtain ⟨G, D, qr, hB, _, hd⟩ := dtw_open A h hob hh
  obtain ⟨G', D', qr', hB', _, hd'⟩ := dtw_open A h' hob' hh
  obtain ⟨j, j0, ks, hrun⟩ := open_ok h hob hB hd hr
  obtain ⟨j', j0', ks', hrun'⟩ := open_ok h' hob' hB' hd' hr'
  have hu := hB'.unique h.wf.valid hB le_rfl (by omega : n' + 1 ≤ n + 1) le_rfl hm'
    (fun i hi j hj => (hW i hi j hj).symm) (by
      intro i hi j hj
      unfold nullRow
      split
      · rfl
      · exact (hL _ (by omega) _ hj).symm) (fun _ _ _ _ => rfl)
  refine ⟨fun i j => G (i + 1) j, fun i j => D (i + 1) j, ?_, ?_, ?_, ?_⟩
  · rw [hrun.result]; simp [mkResult, hki, hob, dropRow_ofFn]
  · rw [hrun'.result, ← ofFn_congr fun i hi j hj => (hu (i + 1) (by omega) j hj).1]
    simp [mkResult, hki', hob', dropRow_ofFn]
  · rw [hrun.result]; simp [mkResult, hki, hob, dropRow_ofFn]
  · rw [hrun'.result, ← ofFn_congr fun i hi j hj => (hu (i + 1) (by omega) j hj).2]
    simp [mkResult, hki', hob', dropRow_ofFn]

/-- C21, both ends open: the alignment that ends at `jmin` is exactly the open-begin, closed-end alignment against the
prefix `reference[:jmin+1]` (same distance, normalised distance and path), for windows that do not look at the sizes. -/
theorem C21_open_both_is_prefix {j : Nat} (h : Problem a n m L W p rs)
    (hob : a.openBegin = true) (hr : dtw A a = .ok r) (hj : r.jmin = j)
    (h' : Problem a' n (j + 1) L W p rs) (hob' : a'.openBegin = true) (hoe' : a'.openEnd = false)
    (hdo : a'.distanceOnly = false) :
    ∃ r', dtw A a' = .ok r' ∧ r'.distance = r.distance ∧ r'.normalizedDistance = r.normalizedDistance ∧
      r'.mapping = r.mapping := by
  have hh : p.hint = "N" := by
    by_contra hh; rw [open_bad_hint h hob hh] at hr; simp at hr
  obtain ⟨G, D, qr, hB, _, hd⟩ := dtw_open A h hob hh
  obtain ⟨G', D', qr', hB', _, hd'⟩ := dtw_open A h' hob' hh
  obtain ⟨j1, j0, ks, hrun⟩ := open_ok h hob hB hd hr
  have hj1 : j1 = j := by
    have : r.jmin = (j1 : Int) := by rw [hrun.result]; rfl
    omega
  subst hj1
  have hlt := hrun.endAt.lt
  have hu := hB'.unique h.wf.valid hB le_rfl le_rfl le_rfl (by omega : j1 + 1 ≤ m) (fun _ _ _ _ => rfl)
    (fun _ _ _ _ => rfl) (fun _ _ _ _ => rfl)
  have hc := (hu n (by omega) j1 (by omega)).1
  have hne : G n j1 ≠ nan := hrun.endAt.ne_nan
  obtain ⟨r', hrr'⟩ : ∃ r', dtw A a' = .ok r' := by
    rcases open_closed h' hob' hoe' hB' hd' with ⟨h1, _⟩ | ⟨_, h2⟩
    · exact absurd (by simpa [hc] using h1) hne
    · rw [hdo] at h2; simpa using h2
  obtain ⟨j2, j0', ks', hrun'⟩ := open_ok h' hob' hB' hd' hrr'
  have ej : j2 = j1 := by have := hrun'.endAt.closed hoe'; omega
  subst ej
  have conv : ∀ {i0 j0 ks i j}, Trace rs D openSeed i0 j0 ks i j →
      i < n + 1 → j < j2 + 1 → Trace rs D' openSeed i0 j0 ks i j := by
    intro i0 j0 ks i j ht
    induction ht with
    | start hS hD => intro hi hj; exact .start _ _ hS (by rw [(hu _ hi _ hj).2]; exact hD)
    | step k q _ hq hS hD ih =>
      intro hi hj
      exact .step k q (ih (by omega) (by omega)) hq hS (by rw [(hu _ hi _ hj).2]; exact hD)
  obtain ⟨-, e2, e3⟩ := hrun'.trace.det h.wf.valid (conv hrun.trace (by omega) (by omega))
  subst e2 e3
  refine ⟨r', hrr', ?_, ?_, ?_⟩
  · rw [hrun.result, hrun'.result]; exact hc
  · rw [hrun.result, hrun'.result]; simp [mkResult, hc]
  · rw [hrun.result, hrun'.result]; rfl

/-- Non-vacuity: the open-begin, open-end example and its prefix. -/
example : Problem Ex.openBoth 3 4 Ex.openL (fun _ _ => true) Pat.asymmetric (rulesOf Pat.asymmetric) ∧
    (dtw Arith.exact Ex.openBoth).toOption.map (·.jmin) = some 1 ∧
    (dtw Arith.exact { Ex.openBoth with x := .d2 (Mat.ofFn 3 2 Ex.openL), y := none, openEnd := false }).toOption.map (·.distance) =
      (dtw Arith.exact Ex.openBoth).toOption.map (·.distance) := by
  refine ⟨Ex.openBoth_problem, by decide +kernel, by decide +kernel⟩

/-! ### C35: open begin and end -/

/-- **C35** (both ends open, what is counted): the number of triples (end column, start column `j0`, rule sequence from
`(0,j0)` to that column of the last row) whose arrival cells are inside the window and below row 0. -/
theorem C35_open_both {d : Result} (hp : WF p rs) (ht : MarkersSurvive rs)
    (hd : AboutProblem d n m p W) (hob : d.openBegin = true) (hoe : d.openEnd = true) (hn : 0 < n) (hm : 0 < m) :
    ∃ k : Nat, countPaths Arith.exact d = .ok (k : Int) ∧
      HasCount (fun x : Nat × Nat × List Int => x.1 < m ∧
        SeededPath rs W (fun i _ => decide (i = 0)) 0 x.2.1 x.2.2 (n - 1) x.1) k := by
  obtain ⟨f, h0, h1, h2, h3⟩ := exists_table (W := W) (seed := countSeed true) hp.valid
  obtain ⟨B, hB⟩ := exists_bound n m f
  have hcm := countMatrix_spec (A := Arith.exact) (B := B) (fun k _ => rfl) hp ht hd hn hm
    (by rw [hob]; exact h1) (by rw [hob]; exact h2) (by rw [hob]; exact h3) hB
  refine ⟨((List.range m).map (f (n - 1))).sum, ?_, ?_⟩
  · unfold countPaths
    rw [hcm, Except_bind_ok, hoe]
    simp only [if_true]
    rw [show (Mat.ofFn n m fun i j => fin (f i j : ℚ)).rows = n from rfl, row_ofFn _ (by omega),
      npSum_tab (A := Arith.exact) (B := ((List.range m).map (f (n - 1))).sum) (fun k _ => rfl) _ _ le_rfl,
      Except_bind_ok, pyInt_nat]
  · have hs : countSeed true = fun i _ => decide (i = 0) := by funext i j; simp [countSeed]
    have key : ∀ x i j, To rs W (countSeed true) i j x → x.1.1 = 0 := by
      rintro ⟨⟨i0, j0⟩, ks⟩ i j hx
      simp only [To] at hx
      induction hx with
      | start h => simpa [countSeed] using h
      | step _ _ _ _ _ _ ih => exact ih
    have hrow : ∀ j < m, HasCount (fun x : Nat × Nat × List Int => x.1 = j ∧
        SeededPath rs W (fun i _ => decide (i = 0)) 0 x.2.1 x.2.2 (n - 1) x.1) (f (n - 1) j) := by
      intro j _
      refine ((h0 (n - 1) j).image (fun x => (j, x.1.2, x.2)) ?_).congr ?_
      · rintro ⟨⟨i0, j0⟩, ks⟩ ⟨⟨i0', j0'⟩, ks'⟩ hx hy hxy
        have e1 := key _ _ _ hx
        have e2 := key _ _ _ hy
        simp only at e1 e2
        simp only [Prod.mk.injEq, true_and] at hxy ⊢
        exact ⟨⟨e1.trans e2.symm, hxy.1⟩, hxy.2⟩
      · rintro ⟨j', j0, ks⟩
        rw [← hs]
        constructor
        · rintro ⟨⟨⟨i0, j0'⟩, ks'⟩, hx, hxy⟩
          have e1 := key _ _ _ hx
          simp only [Prod.mk.injEq] at hxy e1
          obtain ⟨rfl, rfl, rfl⟩ := hxy
          subst e1
          exact ⟨rfl, hx⟩
        · rintro ⟨rfl, hx⟩
          exact ⟨((0, j0), ks), hx, rfl⟩
    refine (HasCount.sum m hrow ?_).congr ?_
    · rintro k _ k' _ x ⟨h1, _⟩ ⟨h2, _⟩
      exact h1.symm.trans h2
    · rintro ⟨j, j0, ks⟩
      constructor
      · rintro ⟨k, hk, rfl, h⟩; exact ⟨hk, h⟩
      · rintro ⟨h1, h2⟩; exact ⟨j, h1, rfl, h2⟩

example : ((dtw Arith.exact Ex.openBoth).toOption.map fun d => (countPaths Arith.exact d).toOption) = some (some 18) := by
  decide +kernel

end DTW
