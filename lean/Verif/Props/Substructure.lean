import Verif.Props.OpenEnd
import Verif.Props.Witnesses

/-!
# C68: every beginning of an alignment is an alignment;  C69: early abandoning

An optimal alignment, cut at any of its corner points, is the alignment `dtw` returns for the two beginnings; the cells of
the cost matrix do not decrease along it, so that the minimum over any band of rows bounds the final distance from below.
-/

namespace DTW
open F64

variable {A : Arith} {a a' : Args} {n m : Nat} {L S G : Nat → Nat → F64} {W : Nat → Nat → Bool} {D : Nat → Nat → Int}
  {p : StepPattern} {rs : List Rule} {r : Result} {mp : Mapping}

/-! ### Cutting a trace -/

theorem Trace.cut {i0 j0 ks i j} (h : Trace rs D S i0 j0 ks i j) : ∀ k ≤ ks.length, ∃ i' j',
    Trace rs D S i0 j0 (ks.take k) i' j' ∧ i' ≤ i ∧ j' ≤ j ∧
    (coarse rs i0 j0 ks)[k]? = some ((i' : Int), (j' : Int)) ∧
    coarse rs i0 j0 (ks.take k) = (coarse rs i0 j0 ks).take (k + 1) ∧
    fineTail rs i0 j0 (ks.take k) <+: fineTail rs i0 j0 ks := by
  induction h with
  | start hS hD =>
    intro k hk
    simp only [List.length_nil, Nat.le_zero] at hk
    subst hk
    refine ⟨_, _, .start _ _ hS hD, le_rfl, le_rfl, by simp [coarse], by simp [coarse], by simp⟩
  | @step ks i j q r ht hr hS hD ih =>
    intro k hk
    have hc := ht.coarse_snoc hr
    obtain ⟨pts, h1, h2⟩ := ht.coarse_end
    have hl : (coarse rs i0 j0 ks).length = ks.length + 1 := by rw [h1]; simp [h2]
    have hf : fineTail rs i0 j0 (ks ++ [(q : Int) + 1]) = fineTail rs i0 j0 ks ++ r.fine i j := by
      have := ht.fine_snoc hr
      unfold fine at this
      simpa using this
    rcases Nat.lt_or_ge k (ks.length + 1) with hlt | hge
    · obtain ⟨i', j', t, l1, l2, e1, e2, e3⟩ := ih k (by omega)
      refine ⟨i', j', ?_, by omega, by omega, ?_, ?_, ?_⟩
      · rw [List.take_append_of_le_length (by omega)]; exact t
      · rw [hc, List.getElem?_append_left (by omega)]; exact e1
      · rw [hc, List.take_append_of_le_length (by omega), List.take_append_of_le_length (by omega)]; exact e2
      · rw [hf, List.take_append_of_le_length (by omega)]
        exact e3.trans (List.prefix_append _ _)
    · have hk' : k = ks.length + 1 := by simp at hk; omega
      subst hk'
      have et : (ks ++ [(q : Int) + 1]).take (ks.length + 1) = ks ++ [(q : Int) + 1] := by
        rw [List.take_of_length_le]; simp
      rw [et]
      refine ⟨_, _, .step q r ht hr hS hD, le_rfl, le_rfl, ?_, ?_, List.prefix_rfl⟩
      · rw [hc, List.getElem?_append_right (by omega)]
        simp [hl]
      · rw [List.take_of_length_le]
        rw [hc]
        simp [hl]

/-- Two traces in equal direction matrices. -/
theorem Trace.restrict {D' : Nat → Nat → Int} {N M : Nat} (hu : ∀ i < N, ∀ j < M, D i j = D' i j) {i0 j0 ks i j}
    (ht : Trace rs D S i0 j0 ks i j) : i < N → j < M → Trace rs D' S i0 j0 ks i j := by
  induction ht with
  | start hS hD => intro hi hj; exact .start _ _ hS (by rw [← hu _ hi _ hj]; exact hD)
  | step k q _ hq hS hD ih =>
    intro hi hj
    exact .step k q (ih (by omega) (by omega)) hq hS (by rw [← hu _ hi _ hj]; exact hD)

/-- On a trace no cell is NaN. -/
theorem Bellman.trace_ne_nan (hB : Bellman A rs n m W L S G D) {i0 j0 ks i j}
    (ht : Trace rs D S i0 j0 ks i j) (hi : i < n) (hj : j < m) : G i j ≠ nan := by
  cases ht with
  | start hS hD => rw [(hB.seeded _ hi _ hj hS).1]; exact hS
  | @step ks i j k r ht hr hS hD =>
    cases hW : W (i + r.a) (j + r.b) with
    | false =>
      rw [(hB.outside _ hi _ hj hS hW).2] at hD
      unfold intMin at hD
      omega
    | true =>
      rcases hB.inside _ hi _ hj hS hW with ⟨k', _, _, h3, _⟩ | ⟨_, _, h3⟩
      · exact usable_ne_nan h3
      · rw [h3] at hD
        unfold intMin at hD
        omega

/-! ### C68 -/

/-- C68.  Let `dtw` return an alignment (closed begin) and cut it at its `k`-th corner point `(i,j)`.  The closed call about
the two beginnings, `query[:i+1]` and `reference[:j+1]`, succeeds; it returns exactly the first `k` steps, the first `k+1`
corner points, the corresponding beginning of the curve, and its distance is the cell `(i,j)` of the cost matrix.  In every
arithmetic; for windows that do not look at the sizes. -/
theorem C68_prefix (h : Problem a n m L W p rs) (hob : a.openBegin = false) (hr : dtw A a = .ok r)
    (hmp : r.mapping = some mp) {k i j : Nat} (hi : mp.index1s[k]? = some (i : Int)) (hj : mp.index2s[k]? = some (j : Int))
    (h' : Problem a' (i + 1) (j + 1) L W p rs) (hob' : a'.openBegin = false) (hoe' : a'.openEnd = false)
    (hdo' : a'.distanceOnly = false) :
    ∃ r' mp', dtw A a' = .ok r' ∧ r'.mapping = some mp' ∧
      mp'.stepsTaken = mp.stepsTaken.take k ∧
      mp'.index1s = mp.index1s.take (k + 1) ∧ mp'.index2s = mp.index2s.take (k + 1) ∧
      mp'.index1 <+: mp.index1 ∧ mp'.index2 <+: mp.index2 ∧
      (a.keepInternals = true → ∃ C, r.costMatrix = some (Mat.ofFn n m C) ∧ i < n ∧ j < m ∧ C i j = r'.distance) := by
  obtain ⟨G, D, qr, hB, _, hd⟩ := dtw_closed A h hob
  obtain ⟨j1, ks, hrun⟩ := closed_ok h hob hB hd hr
  have hmp' : mp = curve rs 0 0 ks := by
    have : r.mapping = if a.distanceOnly then none else some (curve rs 0 0 ks) := by rw [hrun.result]; rfl
    rw [hmp] at this
    split at this
    · cases this
    · exact Option.some.inj this
  subst hmp'
  have hn := h.n_pos
  have hlt := hrun.endAt.lt
  obtain ⟨pts, hp1, hp2⟩ := hrun.trace.coarse_end
  have hlen : (coarse rs 0 0 ks).length = ks.length + 1 := by
    have := congrArg List.length hp1
    simpa [hp2] using this
  have hk : k ≤ ks.length := by
    have := (List.getElem?_eq_some_iff.1 hi).1
    simp only [curve, List.length_map, hlen] at this
    omega
  obtain ⟨i', j', t, l1, l2, e1, e2, e3⟩ := hrun.trace.cut k hk
  simp only [Nat.cast_zero] at e1 e2 e3
  obtain ⟨rfl, rfl⟩ : i = i' ∧ j = j' := by
    simp only [curve, List.getElem?_map, e1, Option.map_some, Option.some.injEq] at hi hj
    omega
  obtain ⟨G', D', hB', hs', _, hr'⟩ := closed_facts A h' hob' hoe'
  have hu := hB.unique h.wf.valid hB' (by omega : i + 1 ≤ n) le_rfl (by omega : j + 1 ≤ m) le_rfl (fun _ _ _ _ => rfl)
    (fun _ _ _ _ => rfl) (fun _ _ _ _ => rfl)
  have hc := (hu i (by omega) j (by omega)).1
  have hne := hB.trace_ne_nan t (by omega) (by omega)
  obtain ⟨r', hrr'⟩ := hs'.2 (by simp only [Nat.add_sub_cancel]; rw [← hc]; exact hne)
  obtain ⟨d2, _, _, _, ks', t2, _, m2⟩ := hr' r' hrr'
  simp only [Nat.add_sub_cancel] at d2 t2
  have hks := (t2.det h.wf.valid (t.restrict (fun i hi j hj => (hu i hi j hj).2) (by omega) (by omega))).2.2
  subst hks
  rw [hdo'] at m2
  refine ⟨r', _, hrr', m2, rfl, ?_, ?_, ?_, ?_, ?_⟩
  · simp only [curve, e2, List.map_take]
  · simp only [curve, e2, List.map_take]
  · simp only [curve, fine, List.map_cons]
    exact (List.prefix_cons_inj _).2 (e3.map _)
  · simp only [curve, fine, List.map_cons]
    exact (List.prefix_cons_inj _).2 (e3.map _)
  · intro hki
    refine ⟨G, by rw [hrun.result]; simp [mkResult, hki, hob], by omega, by omega, ?_⟩
    rw [d2, hc]

/-- C68, open begin: cut at its `k`-th corner point `(i,j)`, an open-begin alignment is the open-begin alignment of
`query[:i+1]` in `reference[:j+1]`. -/
theorem C68_prefix_open_begin (h : Problem a n m L W p rs) (hob : a.openBegin = true) (hr : dtw A a = .ok r)
    (hmp : r.mapping = some mp) {k i j : Nat} (hi : mp.index1s[k]? = some (i : Int)) (hj : mp.index2s[k]? = some (j : Int))
    (h' : Problem a' (i + 1) (j + 1) L W p rs) (hob' : a'.openBegin = true) (hoe' : a'.openEnd = false)
    (hdo' : a'.distanceOnly = false) :
    ∃ r' mp', dtw A a' = .ok r' ∧ r'.mapping = some mp' ∧
      mp'.stepsTaken = mp.stepsTaken.take (k + 1) ∧
      mp'.index1s = mp.index1s.take (k + 1) ∧ mp'.index2s = mp.index2s.take (k + 1) ∧
      mp'.index1 <+: mp.index1 ∧ mp'.index2 <+: mp.index2 ∧
      (a.keepInternals = true → ∃ C, r.costMatrix = some (Mat.ofFn n m C) ∧ i < n ∧ j < m ∧ C i j = r'.distance) := by
  have hh : p.hint = "N" := by
    by_contra hc
    rw [open_bad_hint h hob hc] at hr
    cases hr
  obtain ⟨G, D, qr, hB, _, hd⟩ := dtw_open A h hob hh
  obtain ⟨j1, j0, ks, hrun⟩ := open_ok h hob hB hd hr
  have hmp' : mp = (curve rs 0 j0 ks).dropNull := by
    have : r.mapping = some (curve rs 0 j0 ks).dropNull := by rw [hrun.result]; rfl
    rw [hmp] at this
    exact Option.some.inj this
  subst hmp'
  have hn := h.n_pos
  have hlt := hrun.endAt.lt
  obtain ⟨pts, hp1, hp2⟩ := hrun.trace.coarse_end
  have hlen : (coarse rs 0 j0 ks).length = ks.length + 1 := by
    have := congrArg List.length hp1
    simpa [hp2] using this
  have hk : k + 1 ≤ ks.length := by
    have := (List.getElem?_eq_some_iff.1 hi).1
    simp only [curve, Mapping.dropNull, List.length_map, List.length_tail, hlen] at this
    omega
  obtain ⟨i', j', t, l1, l2, e1, e2, e3⟩ := hrun.trace.cut (k + 1) hk
  simp only [Nat.cast_zero] at e1 e2 e3
  obtain ⟨rfl, rfl⟩ : i' = i + 1 ∧ j' = j := by
    simp only [curve, Mapping.dropNull, List.getElem?_map, List.getElem?_tail, e1, Option.map_some, Option.some.injEq] at hi hj
    omega
  obtain ⟨G', D', qr', hB', _, hd'⟩ := dtw_open A h' hob' hh
  have hu := hB.unique h.wf.valid hB' (by omega : i + 1 + 1 ≤ n + 1) le_rfl (by omega : j' + 1 ≤ m) le_rfl (fun _ _ _ _ => rfl)
    (fun _ _ _ _ => rfl) (fun _ _ _ _ => rfl)
  have hc := (hu (i + 1) (by omega) j' (by omega)).1
  have hne := hB.trace_ne_nan t (by omega) (by omega)
  obtain ⟨r', hrr'⟩ : ∃ r', dtw A a' = .ok r' := by
    rcases open_closed h' hob' hoe' hB' hd' with ⟨h1, _⟩ | ⟨_, h2⟩
    · simp only [Nat.add_sub_cancel] at h1
      rw [← hc] at h1
      exact absurd h1 hne
    · rw [hdo'] at h2
      exact h2
  obtain ⟨j2, j02, ks', hrun'⟩ := open_ok h' hob' hB' hd' hrr'
  obtain rfl : j2 = j' := by
    have := hrun'.endAt.closed hoe'
    omega
  have hks := hrun'.trace.det h.wf.valid (t.restrict (fun i hi j hj => (hu i hi j hj).2) (by omega) (by omega))
  obtain ⟨_, rfl, rfl⟩ := hks
  refine ⟨r', _, hrr', by rw [hrun'.result]; rfl, rfl, ?_, ?_, ?_, ?_, ?_⟩
  · simp only [curve, Mapping.dropNull, e2, List.map_take, ← List.drop_one, List.drop_take, Nat.add_sub_cancel]
  · simp only [curve, Mapping.dropNull, e2, List.map_take, ← List.drop_one, List.drop_take, Nat.add_sub_cancel]
  · simp only [curve, fine, Mapping.dropNull, List.map_cons, List.tail_cons]
    exact (e3.map _).map _
  · simp only [curve, fine, Mapping.dropNull, List.map_cons, List.tail_cons]
    exact e3.map _
  · intro hki
    refine ⟨fun i j => G (i + 1) j, ?_, by omega, by omega, ?_⟩
    · rw [hrun.result]; simp [mkResult, hki, hob, dropRow_ofFn]
    · rw [hrun'.result]; exact hc

/-! ### C69 -/

theorem add_ge {c x : F64} (hc : Representable A c) (hx : F64.le (fin 0) x) (hcn : c ≠ nan)
    (hne : A.add c x ≠ nan) : F64.le c (A.add c x) := by
  refine ⟨hcn, hne, ?_⟩
  cases x with
  | nan => exact absurd rfl hx.2.1
  | ninf => simp [F64.le, F64.lt] at hx
  | pinf => cases c <;> simp_all [Arith.add, F64.lt]
  | fin y =>
    have hy : 0 ≤ y := by simpa [F64.le, F64.lt] using hx
    cases c with
    | nan => exact absurd rfl hcn
    | ninf => rfl
    | pinf => rfl
    | fin q =>
      have := A.rnd_mono q (q + y) (by linarith)
      rw [hc q rfl] at this
      exact this

theorem mac_ge {c l : F64} {w : ℚ} (hc : Representable A c) (hw : 0 ≤ w ∧ A.rnd w ≠ pinf)
    (hl : l = nan ∨ F64.le (fin 0) l) (hcn : c ≠ nan) (hne : A.mac c (A.rnd w) l ≠ nan) :
    F64.le c (A.mac c (A.rnd w) l) := by
  obtain ⟨w', e, h0⟩ := rnd_weight hw
  unfold Arith.mac at hne ⊢
  refine add_ge hc ?_ hcn hne
  have hx : ∀ x : F64, A.add c x ≠ nan → x ≠ nan := by
    rintro x hx rfl
    cases c <;> exact hx rfl
  have hxn := hx _ hne
  rw [e] at hxn ⊢
  rcases hl with rfl | hl
  · exfalso
    apply hxn
    split <;> rfl
  · cases l with
    | nan => exact absurd rfl hl.2.1
    | ninf => simp [F64.le, F64.lt] at hl
    | pinf =>
      have hi : infTimes w' ≠ nan → F64.le (fin 0) (infTimes w') := by
        intro hn
        unfold infTimes at hn ⊢
        split at hn
        · exact absurd rfl hn
        · rename_i hz
          have : 0 < w' := lt_of_le_of_ne h0 (Ne.symm hz)
          simp [hz, this, F64.le, F64.lt]
      split at hxn
      · rename_i hf; simp only [hf, if_true]; exact hi hxn
      · rename_i hf; simp only [hf]; exact hi hxn
    | fin y =>
      have hy : 0 ≤ y := by simpa [F64.le, F64.lt] using hl
      split
      · simp only [Arith.mulWith, F64.le, F64.lt, ne_eq, reduceCtorEq, not_false_eq_true, true_and, decide_eq_false_iff_not,
          not_lt]
        exact mul_nonneg h0 hy
      · have := A.rnd_mono 0 (w' * y) (mul_nonneg h0 hy)
        rw [A.rnd_zero] at this
        exact ⟨by simp, A.rnd_ne_nan _, this⟩

theorem charge_ge (hA : Idempotent A) {q : Rule} {i j : Nat} {c : F64} (hc : Representable A c)
    (hw : ∀ t ∈ q.terms, 0 ≤ t.w ∧ A.rnd t.w ≠ pinf)
    (hl : ∀ t ∈ q.terms, L (i - t.di) (j - t.dj) = nan ∨ F64.le (fin 0) (L (i - t.di) (j - t.dj)))
    (hne : charge A L q i j c ≠ nan) : F64.le c (charge A L q i j c) := by
  unfold charge at hne ⊢
  generalize q.terms = ts at *
  induction ts generalizing c with
  | nil => exact ⟨hne, hne, by cases c <;> simp [F64.lt]⟩
  | cons t ts ih =>
    simp only [List.foldl_cons] at hne ⊢
    have h2 := ih (c := A.mac c (A.rnd t.w) (L (i - t.di) (j - t.dj))) (representable_add hA _ _)
      (fun t ht => hw t (List.mem_cons_of_mem _ ht)) (fun t ht => hl t (List.mem_cons_of_mem _ ht)) hne
    have hcn : c ≠ nan := by
      rintro rfl
      exact h2.1 rfl
    exact F64.le_trans (mac_ge hc (hw t (List.mem_cons_self ..)) (hl t (List.mem_cons_self ..)) hcn h2.1) h2

/-- What is assumed of the costs: weights and local costs are not negative (a local cost may be NaN or infinite), and the
arithmetic is one whose values are representable - doubles, or exact numbers. -/
structure Rising (A : Arith) (rs : List Rule) (n m : Nat) (L : Nat → Nat → F64) : Prop where
  idem : Idempotent A
  weights : NonnegWeights A rs
  costs : ∀ i < n, ∀ j < m, L i j = nan ∨ F64.le (fin 0) (L i j)
  corner : Representable A (L 0 0)

/-- One step back along the trace. -/
theorem Bellman.trace_step (hv : ∀ r ∈ rs, r.Valid) (hA : Idempotent A) (hw : NonnegWeights A rs)
    (hl : ∀ i < n, ∀ j < m, L i j = nan ∨ F64.le (fin 0) (L i j)) (hS : ∀ i j, S i j ≠ nan → Representable A (S i j))
    (hB : Bellman A rs n m W L S G D) {i0 j0 ks i j} (ht : Trace rs D S i0 j0 ks i j) : i < n → j < m →
    Representable A (G i j) ∧ ∀ (k i' j' : Nat), (coarse rs i0 j0 ks)[k]? = some ((i' : Int), (j' : Int)) →
      F64.le (G i' j') (G i j) := by
  induction ht with
  | start hs hd =>
    intro hi hj
    have e := (hB.seeded _ hi _ hj hs).1
    refine ⟨by rw [e]; exact hS _ _ hs, ?_⟩
    intro k i' j' hk
    simp only [coarse] at hk
    have : k = 0 := by
      have := (List.getElem?_eq_some_iff.1 hk).1
      simpa using this
    subst this
    simp only [List.getElem?_cons_zero, Option.some.injEq, Prod.mk.injEq, Nat.cast_inj] at hk
    obtain ⟨rfl, rfl⟩ := hk
    exact F64.le_refl (by rw [e]; exact hs)
  | @step ks i j k r ht hr hs hd ih =>
    intro hi hj
    have hvr := hv r (List.mem_of_getElem? hr)
    obtain ⟨ih1, ih2⟩ := ih (by omega) (by omega)
    have hne := hB.trace_ne_nan (.step k r ht hr hs hd) hi hj
    have hW : W (i + r.a) (j + r.b) = true := by
      cases hW : W (i + r.a) (j + r.b) with
      | true => rfl
      | false => exact absurd (hB.outside _ hi _ hj hs hW).1 hne
    have hG : G (i + r.a) (j + r.b) = charge A L r (i + r.a) (j + r.b) (G i j) := by
      obtain ⟨k', h1, h2, h3⟩ := (hB.inside _ hi _ hj hs hW).mem hne
      have : k' = k := by omega
      subst this
      rw [List.getElem?_map, hr, Option.map_some, Option.some.injEq] at h1
      rw [← h1]
      unfold cand
      rw [if_pos ⟨by omega, by omega⟩]
      simp only [Nat.add_sub_cancel]
    have hstep : F64.le (G i j) (G (i + r.a) (j + r.b)) := by
      rw [hG]
      refine charge_ge hA ih1 (hw r (List.mem_of_getElem? hr)) (fun t ht => hl _ (by omega) _ (by omega)) ?_
      rw [← hG]
      exact hne
    refine ⟨by rw [hG]; exact charge_representable hA ih1, ?_⟩
    intro k1 i' j' hk1
    rw [ht.coarse_snoc hr] at hk1
    rcases Nat.lt_or_ge k1 (coarse rs i0 j0 ks).length with hlt | hge
    · rw [List.getElem?_append_left hlt] at hk1
      exact F64.le_trans (ih2 k1 i' j' hk1) hstep
    · rw [List.getElem?_append_right hge] at hk1
      have h0 : k1 - (coarse rs i0 j0 ks).length = 0 := by
        have := (List.getElem?_eq_some_iff.1 hk1).1
        simpa using this
      rw [h0] at hk1
      simp only [List.getElem?_cons_zero, Option.some.injEq, Prod.mk.injEq] at hk1
      obtain ⟨rfl, rfl⟩ : i' = i + r.a ∧ j' = j + r.b := by omega
      exact F64.le_refl hne

/-- Where a trace crosses a band of rows, or of columns. -/
theorem Trace.cross {c : Nat} (hc : 1 ≤ c) (ha : ∀ r ∈ rs, r.a ≤ c) {i0 j0 ks i j} (ht : Trace rs D S i0 j0 ks i j) :
    ∀ t, i0 ≤ t → t ≤ i → ∃ k i' j' : Nat, (coarse rs i0 j0 ks)[k]? = some ((i' : Int), (j' : Int)) ∧ t ≤ i' ∧ i' < t + c ∧
      i' ≤ i ∧ j' ≤ j := by
  induction ht with
  | start hs hd =>
    intro t h1 h2
    exact ⟨0, i0, j0, by simp [coarse], by omega, by omega, le_rfl, le_rfl⟩
  | @step ks i j k r ht hr hs hd ih =>
    intro t h1 h2
    have har := ha r (List.mem_of_getElem? hr)
    have hl := ht.le_coords
    rw [ht.coarse_snoc hr]
    rcases Nat.lt_or_ge i t with hlt | hge
    · refine ⟨(coarse rs i0 j0 ks).length, i + r.a, j + r.b, ?_, h2, by omega, le_rfl, le_rfl⟩
      rw [List.getElem?_append_right le_rfl]
      simp
    · obtain ⟨k', i', j', e, b1, b2, b3, b4⟩ := ih t h1 hge
      refine ⟨k', i', j', ?_, b1, b2, by omega, by omega⟩
      rw [List.getElem?_append_left (List.getElem?_eq_some_iff.1 e).1]
      exact e

theorem Trace.cross_columns {c : Nat} (hc : 1 ≤ c) (hb : ∀ r ∈ rs, r.b ≤ c) {i0 j0 ks i j}
    (ht : Trace rs D S i0 j0 ks i j) :
    ∀ t, j0 ≤ t → t ≤ j → ∃ k i' j' : Nat, (coarse rs i0 j0 ks)[k]? = some ((i' : Int), (j' : Int)) ∧ t ≤ j' ∧ j' < t + c ∧
      i' ≤ i ∧ j' ≤ j := by
  induction ht with
  | start hs hd =>
    intro t h1 h2
    exact ⟨0, i0, j0, by simp [coarse], by omega, by omega, le_rfl, le_rfl⟩
  | @step ks i j k r ht hr hs hd ih =>
    intro t h1 h2
    have har := hb r (List.mem_of_getElem? hr)
    have hl := ht.le_coords
    rw [ht.coarse_snoc hr]
    rcases Nat.lt_or_ge j t with hlt | hge
    · refine ⟨(coarse rs i0 j0 ks).length, i + r.a, j + r.b, ?_, h2, by omega, le_rfl, le_rfl⟩
      rw [List.getElem?_append_right le_rfl]
      simp
    · obtain ⟨k', i', j', e, b1, b2, b3, b4⟩ := ih t h1 hge
      refine ⟨k', i', j', ?_, b1, b2, by omega, by omega⟩
      rw [List.getElem?_append_left (List.getElem?_eq_some_iff.1 e).1]
      exact e

theorem closed_rising (hR : Rising A rs n m L) :
    ∀ i j, closedSeed L i j ≠ nan → Representable A (closedSeed L i j) := by
  intro i j h
  unfold closedSeed at h ⊢
  split at h
  · rename_i hc; rw [if_pos hc]; exact hR.corner
  · exact absurd rfl h

/-- C69.  Along the returned alignment the cells of the cost matrix never decrease: each corner point costs at least as much
as the one before, and at most the distance. -/
theorem C69_along_path (hR : Rising A rs n m L) (h : Problem a n m L W p rs) (hob : a.openBegin = false)
    (hki : a.keepInternals = true) (hr : dtw A a = .ok r) (hmp : r.mapping = some mp) :
    ∃ C : Nat → Nat → F64, r.costMatrix = some (Mat.ofFn n m C) ∧
      ∀ (k l i j i' j' : Nat), k ≤ l → mp.index1s[k]? = some (i : Int) → mp.index2s[k]? = some (j : Int) →
        mp.index1s[l]? = some (i' : Int) → mp.index2s[l]? = some (j' : Int) →
        F64.le (C i j) (C i' j') ∧ F64.le (C i' j') r.distance := by
  obtain ⟨G, D, qr, hB, _, hd⟩ := dtw_closed A h hob
  obtain ⟨j1, ks, hrun⟩ := closed_ok h hob hB hd hr
  have hn := h.n_pos
  have hlt := hrun.endAt.lt
  have hmp' : mp = curve rs 0 0 ks := by
    have : r.mapping = if a.distanceOnly then none else some (curve rs 0 0 ks) := by rw [hrun.result]; rfl
    rw [hmp] at this
    split at this
    · cases this
    · exact Option.some.inj this
  subst hmp'
  refine ⟨G, by rw [hrun.result]; simp [mkResult, hki, hob], ?_⟩
  intro k l i j i' j' hkl hi hj hi' hj'
  obtain ⟨pts, hp1, hp2⟩ := hrun.trace.coarse_end
  have hlen : (coarse rs 0 0 ks).length = ks.length + 1 := by
    have := congrArg List.length hp1
    simpa [hp2] using this
  have pair : ∀ (q x y : Nat), (curve rs 0 0 ks).index1s[q]? = some (x : Int) → (curve rs 0 0 ks).index2s[q]? = some (y : Int) →
      (coarse rs 0 0 ks)[q]? = some ((x : Int), (y : Int)) := by
    intro q x y h1 h2
    simp only [curve, List.getElem?_map, Option.map_eq_some_iff] at h1 h2
    obtain ⟨u, hu, e1⟩ := h1
    obtain ⟨v, hv, e2⟩ := h2
    rw [hu] at hv
    cases hv
    rw [hu, ← e1, ← e2]
  have hl : l ≤ ks.length := by
    have := (List.getElem?_eq_some_iff.1 (pair l _ _ hi' hj')).1
    omega
  obtain ⟨i2, j2, t, l1, l2, e1, e2, _⟩ := hrun.trace.cut l hl
  simp only [Nat.cast_zero] at e1 e2
  have e3 := pair l _ _ hi' hj'
  rw [e1] at e3
  obtain ⟨rfl, rfl⟩ : i2 = i' ∧ j2 = j' := by
    simp only [Option.some.injEq, Prod.mk.injEq] at e3
    omega
  constructor
  · refine (hB.trace_step h.wf.valid hR.idem hR.weights hR.costs (closed_rising hR) t (by omega) (by omega)).2 k i j ?_
    simp only [Nat.cast_zero, e2]
    rw [List.getElem?_take_of_lt (by omega)]
    exact pair k _ _ hi hj
  · have := (hB.trace_step h.wf.valid hR.idem hR.weights hR.costs (closed_rising hR) hrun.trace (by omega) hlt).2 l i2 j2 (by
      simpa using e1)
    rw [hrun.result]
    exact this

/-- C69, early abandoning.  If no step of the pattern advances by more than `c` rows, then in every band of `c` consecutive
rows of the cost matrix some cell is at most the final distance.  (So as soon as `c` consecutive rows all exceed a
threshold, the distance exceeds it too, whatever follows.) -/
theorem C69_row_bound (hR : Rising A rs n m L) (h : Problem a n m L W p rs) (hob : a.openBegin = false)
    (hki : a.keepInternals = true) (hr : dtw A a = .ok r) {c : Nat} (hc : 1 ≤ c) (ha : ∀ q ∈ rs, q.a ≤ c) :
    ∃ C : Nat → Nat → F64, r.costMatrix = some (Mat.ofFn n m C) ∧
      ∀ t < n, ∃ i j, t ≤ i ∧ i < t + c ∧ i < n ∧ j < m ∧ F64.le (C i j) r.distance := by
  obtain ⟨G, D, qr, hB, _, hd⟩ := dtw_closed A h hob
  obtain ⟨j1, ks, hrun⟩ := closed_ok h hob hB hd hr
  have hn := h.n_pos
  have hlt := hrun.endAt.lt
  refine ⟨G, by rw [hrun.result]; simp [mkResult, hki, hob], ?_⟩
  intro t ht
  obtain ⟨k, i, j, e, b1, b2, b3, b4⟩ := hrun.trace.cross hc ha t (by omega) (by omega)
  refine ⟨i, j, b1, b2, by omega, by omega, ?_⟩
  rw [hrun.result]
  exact (hB.trace_step h.wf.valid hR.idem hR.weights hR.costs (closed_rising hR) hrun.trace (by omega) hlt).2 k i j e

/-- C69, early abandoning by columns (up to the end point `jmin`). -/
theorem C69_column_bound (hR : Rising A rs n m L) (h : Problem a n m L W p rs) (hob : a.openBegin = false)
    (hki : a.keepInternals = true) (hr : dtw A a = .ok r) {c : Nat} (hc : 1 ≤ c) (hb : ∀ q ∈ rs, q.b ≤ c) :
    ∃ C : Nat → Nat → F64, r.costMatrix = some (Mat.ofFn n m C) ∧
      ∀ t : Nat, (t : Int) ≤ r.jmin → ∃ i j, t ≤ j ∧ j < t + c ∧ i < n ∧ j < m ∧ F64.le (C i j) r.distance := by
  obtain ⟨G, D, qr, hB, _, hd⟩ := dtw_closed A h hob
  obtain ⟨j1, ks, hrun⟩ := closed_ok h hob hB hd hr
  have hn := h.n_pos
  have hlt := hrun.endAt.lt
  refine ⟨G, by rw [hrun.result]; simp [mkResult, hki, hob], ?_⟩
  intro t ht
  have hj : r.jmin = (j1 : Int) := by rw [hrun.result]; rfl
  obtain ⟨k, i, j, e, b1, b2, b3, b4⟩ := hrun.trace.cross_columns hc hb t (by omega) (by omega)
  refine ⟨i, j, b1, b2, by omega, by omega, ?_⟩
  rw [hrun.result]
  exact (hB.trace_step h.wf.valid hR.idem hR.weights hR.costs (closed_rising hR) hrun.trace (by omega) hlt).2 k i j e

/-- C69, as it is used: if, in `c` consecutive rows from row `t` on, every cell is NaN or above the threshold, no alignment
of distance at most the threshold is returned. -/
theorem C69_abandon (hR : Rising A rs n m L) (h : Problem a n m L W p rs) (hob : a.openBegin = false)
    (hki : a.keepInternals = true) (hr : dtw A a = .ok r) {c : Nat} (hc : 1 ≤ c) (ha : ∀ q ∈ rs, q.a ≤ c) {C : Nat → Nat → F64}
    (hC : r.costMatrix = some (Mat.ofFn n m C)) {t : Nat} (ht : t < n) {thr : F64}
    (hthr : ∀ i, t ≤ i → i < t + c → i < n → ∀ j < m, C i j = nan ∨ lt thr (C i j) = true) : lt thr r.distance = true := by
  obtain ⟨C', hC', hb⟩ := C69_row_bound hR h hob hki hr hc ha
  obtain ⟨i, j, b1, b2, b3, b4, hle⟩ := hb t ht
  have e : C' i j = C i j := by
    rw [hC, Option.some.injEq] at hC'
    have h1 := ofFn_getElem? C b3 b4
    have h2 := ofFn_getElem? C' b3 b4
    rw [hC', h2] at h1
    exact Option.some.inj h1
  rw [e] at hle
  rcases hthr i b1 b2 b3 j b4 with hn | hl
  · exact absurd hn hle.1
  · revert hl hle
    generalize C i j = x
    generalize r.distance = d
    intro hl hle
    cases thr <;> cases x <;> cases d <;> simp_all [F64.le, F64.lt]
    linarith

/-- C69: how far the steps of the bundled patterns advance at most in the query (`c` of the theorems above). -/
theorem C69_bundled : (∀ s ∈ ["symmetric1", "symmetric2", "asymmetric", "symmetricP0", "asymmetricP0", "rigid"],
      ∃ q, Pat.table.lookup s = some q ∧ ∀ u ∈ rulesOf q, u.a ≤ 1) ∧
    (∀ q ∈ Pat.table, ∀ u ∈ rulesOf q.2, u.a ≤ 4) ∧
    ∀ e, ∀ u ∈ mvmRules e, u.a ≤ 1 := by
  refine ⟨?_, ?_, ?_⟩
  · decide +kernel
  · decide +kernel
  · intro e u hu
    unfold mvmRules at hu
    simp only [List.mem_map] at hu
    obtain ⟨k, _, rfl⟩ := hu
    simp

/-- C69, open begin: the same bound over bands of `c` rows. -/
theorem C69_row_bound_open_begin (hA : Idempotent A) (hw : NonnegWeights A rs)
    (hl : ∀ i < n, ∀ j < m, L i j = nan ∨ F64.le (fin 0) (L i j)) (h : Problem a n m L W p rs) (hob : a.openBegin = true)
    (hki : a.keepInternals = true) (hr : dtw A a = .ok r) {c : Nat} (hc : 1 ≤ c) (ha : ∀ q ∈ rs, q.a ≤ c) :
    ∃ C : Nat → Nat → F64, r.costMatrix = some (Mat.ofFn n m C) ∧
      ∀ t < n, ∃ i j, t ≤ i ∧ i < t + c ∧ i < n ∧ j < m ∧ F64.le (C i j) r.distance := by
  have hh : p.hint = "N" := by
    by_contra hc
    rw [open_bad_hint h hob hc] at hr
    cases hr
  obtain ⟨G, D, qr, hB, _, hd⟩ := dtw_open A h hob hh
  obtain ⟨j1, j0, ks, hrun⟩ := open_ok h hob hB hd hr
  have hn := h.n_pos
  have hlt := hrun.endAt.lt
  refine ⟨fun i j => G (i + 1) j, by rw [hrun.result]; simp [mkResult, hki, hob, dropRow_ofFn], ?_⟩
  intro t ht
  obtain ⟨k, i, j, e, b1, b2, b3, b4⟩ := hrun.trace.cross hc ha (t + 1) (by omega) (by omega)
  refine ⟨i - 1, j, by omega, by omega, by omega, by omega, ?_⟩
  have hz : F64.le (fin 0) (fin 0) := F64.le_refl (by simp)
  have := (hB.trace_step h.wf.valid hA hw (fun i hi j hj => by
      unfold nullRow
      split
      · exact .inr hz
      · exact hl _ (by omega) _ hj) (fun i j hs => by
      unfold openSeed at hs ⊢
      split at hs
      · rename_i hc
        rw [if_pos hc]
        intro q hq
        cases hq
        exact A.rnd_zero
      · exact absurd rfl hs) hrun.trace (by omega) hlt).2 k i j e
  show F64.le (G (i - 1 + 1) j) _
  rw [hrun.result, show i - 1 + 1 = i by omega]
  exact this

/-! ### The hypotheses are met -/

/-- In double precision, for non-negative costs that are doubles and the shipped patterns. -/
theorem rising_double (f : Bool) (q : String × StepPattern) (hq : q ∈ Pat.table)
    (hne : q.1 ≠ "_symmetricVelichkoZagoruyko") {ℓ : Nat → Nat → ℚ} (h0 : ∀ i < n, ∀ j < m, 0 ≤ ℓ i j)
    (hd : IsDouble (ℓ 0 0)) : Rising (binary64 f) (rulesOf q.2) n m (fun i j => fin (ℓ i j)) where
  idem := C20_C22_double_idempotent f
  weights := C12_C14_C15_bundled_double f q hq hne
  costs := fun i hi j hj => .inr (by simpa [F64.le, F64.lt] using h0 i hi j hj)
  corner := by
    intro x hx
    cases hx
    exact rnd64_double hd

namespace Ex

/-- A wave and a delayed wave, local costs `|x_i - y_j|`. -/
def waveCosts : Nat → Nat → ℚ := fun i j =>
  |(([0, 2, 3, 1, 0] : List ℚ)[i]?.getD 0) - (([0, 0, 2, 3, 1] : List ℚ)[j]?.getD 0)|

/-- The call on the first `n` and `m` samples. -/
def wave (n m : Nat) : Args :=
  { x := .d2 (Mat.ofFn n m fun i j => fin (waveCosts i j)), stepPattern := .name "symmetric2", keepInternals := true }

theorem wave_problem {n m : Nat} (hn : 0 < n) (hm : 0 < m) (hc : n ≤ 5) (hc' : m ≤ 5) :
    Problem (wave n m) n m (fun i j => fin (waveCosts i j)) (fun _ _ => true) Pat.symmetric2 (rulesOf Pat.symmetric2) where
  n_pos := hn
  m_pos := hm
  cost := .matrix rfl rfl rfl rfl
  pattern := Ex.plain_problem.pattern
  wf := Ex.plain_problem.wf
  fits :=
    { cells := by
        have : n * m ≤ 5 * 5 := Nat.mul_le_mul hc hc'
        show n * m < 2147483648
        omega
      rows := Ex.plain_problem.fits.rows
      deltas := Ex.plain_problem.fits.deltas }
  window := .inl ⟨rfl, fun _ _ _ _ => rfl⟩

end Ex

/-- C68 is met: the third corner of the alignment of the two waves is (1,2); the alignment of the two samples with the first
three ends there, after the same two steps. -/
example : (dtw Arith.exact (Ex.wave 5 5)).toOption.map (fun r => r.mapping.map fun q => (q.index1s[2]?, q.index2s[2]?, q.stepsTaken)) =
      some (some (some 1, some 2, [2, 1, 1, 1, 3])) ∧
    (dtw Arith.exact (Ex.wave 2 3)).toOption.map (fun r => r.mapping.map fun q => (q.index1s, q.index2s, q.stepsTaken)) =
      some (some ([0, 0, 1], [0, 1, 2], [2, 1])) ∧
    Problem (Ex.wave 2 3) 2 3 (fun i j => fin (Ex.waveCosts i j)) (fun _ _ => true) Pat.symmetric2 (rulesOf Pat.symmetric2) := by
  refine ⟨by decide +kernel, by decide +kernel, Ex.wave_problem (by decide) (by decide) (by decide) (by decide)⟩

/-- C68 with an open begin is met: the query [1,3,2] placed in [4,2,3,1], cut after its second sample. -/
example : (dtw Arith.exact Ex.openBoth).toOption.map (fun r => r.mapping.map fun q => (q.index1s, q.index2s, q.stepsTaken)) =
      some (some ([0, 1, 2], [1, 1, 1], [1, 1, 1])) ∧
    Problem { Ex.openBoth with x := .d2 (Mat.ofFn 2 2 Ex.openL), y := none, openEnd := false } 2 2 Ex.openL (fun _ _ => true)
      Pat.asymmetric (rulesOf Pat.asymmetric) := by
  refine ⟨by decide +kernel, ?_⟩
  exact { n_pos := by decide, m_pos := by decide, cost := .matrix rfl rfl rfl rfl
          pattern := Ex.openBoth_problem.pattern, wf := Ex.openBoth_problem.wf
          fits := fits_of_check (by decide +kernel), window := .inl ⟨rfl, fun _ _ _ _ => rfl⟩ }

/-- C69 is met, in double precision. -/
example (f : Bool) : Rising (binary64 f) (rulesOf Pat.symmetric2) 5 5 (fun i j => fin (Ex.waveCosts i j)) ∧
    (∀ u ∈ rulesOf Pat.symmetric2, u.a ≤ 1) := by
  refine ⟨rising_double f ("symmetric2", Pat.symmetric2) Ex.sym2_mem (by decide) (fun _ _ _ _ => abs_nonneg _) ?_, by
    decide +kernel⟩
  have : Ex.waveCosts 0 0 = ((0 : Int) : ℚ) := by decide +kernel
  rw [this]
  exact ((C49_nearest ((0 : Int) : ℚ)).1 _ (rnd_int false 0 (by norm_num))).1

end DTW
