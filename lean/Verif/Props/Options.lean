import Verif.Proofs.OpenBegin

/-!
# C18, C20, C22-C26: normalisation, open ends, options
-/

namespace DTW
open F64

variable {A : Arith} {a a' : Args} {n m : Nat} {L L' : Nat → Nat → F64} {W W' : Nat → Nat → Bool}
  {p : StepPattern} {rs : List Rule} {r r' : Result}

/-- C18.  `normalizedDistance` is `distance` divided (in machine arithmetic) by the query length, by the
query length plus the matched reference length, or by the matched reference length, according to the hint;
NaN when the hint is "NA".  All options. -/
theorem C18_normalized_distance (h : Problem a n m L W p rs) (hr : dtw A a = .ok r) :
    ∃ j : Nat, r.jmin = j ∧ j < m ∧
      (p.hint = "N" → r.normalizedDistance = A.divQ r.distance n) ∧
      (p.hint = "N+M" → r.normalizedDistance = A.divQ r.distance (n + (j + 1))) ∧
      (p.hint = "M" → r.normalizedDistance = A.divQ r.distance (j + 1)) ∧
      (p.hint = "NA" → r.normalizedDistance = nan) := by
  obtain ⟨q, S, L', G, D, qr, lm', j, mp, _, _, he, _, _, hres⟩ := any_ok h hr
  refine ⟨j, by rw [hres]; rfl, he.lt, ?_, ?_, ?_, ?_⟩ <;> intro hh <;> rw [hres] <;>
    simp [mkResult, normBy, hh, add_assoc, add_comm]

/-- C18 in exact arithmetic: the plain quotient. -/
theorem C18_exact (h : Problem a n m L W p rs) (hr : dtw Arith.exact a = .ok r) {d : ℚ}
    (hd : r.distance = fin d) :
    ∃ j : Nat, r.jmin = j ∧
      (p.hint = "N" → r.normalizedDistance = fin (d / n)) ∧
      (p.hint = "N+M" → r.normalizedDistance = fin (d / (n + (j + 1)))) ∧
      (p.hint = "M" → r.normalizedDistance = fin (d / (j + 1))) := by
  obtain ⟨j, hj, _, h1, h2, h3, _⟩ := C18_normalized_distance h hr
  have hn : (n : ℚ) ≠ 0 := by have := h.n_pos; positivity
  have hn1 : (n : ℚ) + (j + 1) ≠ 0 := by positivity
  have hn2 : (j : ℚ) + 1 ≠ 0 := by positivity
  refine ⟨j, hj, ?_, ?_, ?_⟩ <;> intro hh
  · rw [h1 hh, hd]; simp [Arith.divQ, hn]
  · rw [h2 hh, hd]; simp [Arith.divQ, hn1]
  · rw [h3 hh, hd]; simp [Arith.divQ, hn2]

example : (dtw Arith.exact Ex.band).toOption.map (fun r => (r.distance, r.normalizedDistance)) =
    some (fin 3, fin 1) ∧
    (dtw Arith.exact Ex.plain).toOption.map (fun r => (r.distance, r.normalizedDistance)) =
    some (fin 3, fin (3 / 7)) := by decide +kernel

/-- C20.  With open_end the chosen end `jmin` is the first reference index at which the normalised last row
of the cumulative cost matrix (NaNs ignored) is least, and the distance is the cost of that cell; this is
so with open begin as well. -/
theorem C20_open_end_best_prefix (h : Problem a n m L W p rs) (hoe : a.openEnd = true)
    (hr : dtw A a = .ok r) :
    ∃ (G : Nat → Nat → F64) (j : Nat), (a.keepInternals = true → r.costMatrix = some (Mat.ofFn n m G)) ∧
      r.jmin = j ∧ r.distance = G (n - 1) j ∧
      r.normalizedDistance = normBy A p.hint n j (G (n - 1) j) ∧
      FirstBest m (fun j => normBy A p.hint n j (G (n - 1) j)) j := by
  obtain ⟨q, S, L', G, D, qr, lm', j, mp, _, _, he, h1, h2, hres⟩ := any_ok h hr
  obtain ⟨hna, hb⟩ := he.opened hoe
  have hn := h.n_pos
  cases hob : a.openBegin with
  | false =>
    obtain rfl := h1 hob
    exact ⟨G, j, by intro hki; rw [hres]; simp [mkResult, hki, hob], by rw [hres]; rfl, by rw [hres]; rfl,
      by rw [hres]; simp [mkResult, hna], hb⟩
  | true =>
    obtain rfl := h2 hob
    have e : n + 1 - 1 = n := by omega
    have e2 : n - 1 + 1 = n := by omega
    rw [e] at hb
    refine ⟨fun i j => G (i + 1) j, j, ?_, by rw [hres]; rfl, ?_, ?_, ?_⟩
    · intro hki; rw [hres]; simp [mkResult, hki, hob, dropRow_ofFn]
    · rw [hres]; simp only [e2]; rfl
    · rw [hres]; simp only [e2]; simp [mkResult, hna]
    · simp only [e2]; exact hb

/-- C20: the normalised distance of an open-end alignment is at most that of the closed-end alignment of
the same call. -/
theorem C20_open_end_le_closed_end (h : Problem a n m L W p rs) (hoe : a.openEnd = true)
    (hr : dtw A a = .ok r) (hr' : dtw A { a with openEnd := false } = .ok r') :
    F64.le r.normalizedDistance r'.normalizedDistance := by
  have hc : CallCost { a with openEnd := false } n m L := by
    cases h.cost with
    | matrix h1 h2 h3 h4 => exact .matrix h1 h2 h3 h4
    | series y X Y h1 h2 h3 h4 h5 h6 h7 => exact .series y X Y h1 h2 h3 h4 h5 h6 h7
  have h' : Problem { a with openEnd := false } n m L W p rs :=
    { n_pos := h.n_pos, m_pos := h.m_pos, cost := hc, pattern := h.pattern, wf := h.wf, fits := h.fits
      window := h.window }
  cases hob : a.openBegin with
  | false =>
    obtain ⟨G, D, qr, hB, _, hd⟩ := dtw_closed A h hob
    obtain ⟨G', D', qr', hB', _, hd'⟩ := dtw_closed A h' hob
    obtain ⟨j, ks, hrun⟩ := closed_ok h hob hB hd hr
    obtain ⟨j', ks', hrun'⟩ := closed_ok h' hob hB' hd' hr'
    obtain ⟨hna, hb⟩ := hrun.endAt.opened hoe
    have hn := h.n_pos
    have hu := (hB.unique h.wf.valid hB' le_rfl le_rfl le_rfl le_rfl (fun _ _ _ _ => rfl)
      (fun _ _ _ _ => rfl) (fun _ _ _ _ => rfl) (n - 1) (by omega) j' hrun'.endAt.lt).1
    have := hb.min j' hrun'.endAt.lt (normBy_ne_nan A hn (by rw [hu]; exact hrun'.endAt.ne_nan))
    rw [hrun.result, hrun'.result]
    simp only [mkResult, if_neg hna]
    rw [← hu]
    exact this
  | true =>
    by_cases hh : p.hint = "N"
    · obtain ⟨G, D, qr, hB, _, hd⟩ := dtw_open A h hob hh
      obtain ⟨G', D', qr', hB', _, hd'⟩ := dtw_open A h' hob hh
      obtain ⟨j, j0, ks, hrun⟩ := open_ok h hob hB hd hr
      obtain ⟨j', j0', ks', hrun'⟩ := open_ok h' hob hB' hd' hr'
      obtain ⟨hna, hb⟩ := hrun.endAt.opened hoe
      have hn := h.n_pos
      have hu := (hB.unique h.wf.valid hB' le_rfl le_rfl le_rfl le_rfl (fun _ _ _ _ => rfl)
        (fun _ _ _ _ => rfl) (fun _ _ _ _ => rfl) n (by omega) j' hrun'.endAt.lt).1
      have := hb.min j' hrun'.endAt.lt (normBy_ne_nan A hn (by
        simp only [Nat.add_sub_cancel]; rw [hu]; exact hrun'.endAt.ne_nan))
      rw [hrun.result, hrun'.result]
      simp only [mkResult, if_neg hna, Nat.add_sub_cancel] at this ⊢
      rw [← hu]
      exact this
    · rw [open_bad_hint h hob hh] at hr; simp at hr

/-- C20: a pattern without normalisation hint is rejected. -/
theorem C20_rejects_NA (h : Problem a n m L W p rs) (hoe : a.openEnd = true) (hNA : p.hint = "NA") :
    ∃ t, dtw A a = .error (.valueError t) := by
  cases hob : a.openBegin with
  | true => exact ⟨_, open_bad_hint h hob (by rw [hNA]; decide)⟩
  | false =>
    obtain ⟨G, D, qr, hB, _, hd⟩ := dtw_closed A h hob
    refine ⟨"Open-end alignments require normalizable step patterns", ?_⟩
    rw [hd, finish_error]
    unfold pickEnd
    simp [hoe, hNA]

/-- C20, success (exact arithmetic, closed begin): an open-end call with a normalisable pattern succeeds
exactly when some cell of the last query row is reached by a path of usable cost (degenerate exception: one
query element and a corner of +inf). -/
theorem C20_open_end_succeeds_iff (h : Problem a n m L W p rs) (hob : a.openBegin = false)
    (hoe : a.openEnd = true) (hNA : p.hint ≠ "NA") :
    (∃ r, dtw Arith.exact a = .ok r) ↔
      (∃ ks j c, j < m ∧ WarpPath Arith.exact rs W L ks (n - 1) j c ∧ usable c) ∨
      (n = 1 ∧ L 0 0 = pinf) := by
  have hn := h.n_pos
  have hm := h.m_pos
  obtain ⟨G, D, qr, hB, _, hd⟩ := dtw_closed Arith.exact h hob
  constructor
  · rintro ⟨r, hr⟩
    obtain ⟨j, ks, hrun⟩ := closed_ok h hob hB hd hr
    by_cases hu : usable (G (n - 1) j)
    · left; exact ⟨ks, j, _, hrun.endAt.lt, hrun.path, hu⟩
    · right
      by_cases hS : closedSeed L (n - 1) j = nan
      · exact absurd (hB.usable_of_ne_nan (by omega) hrun.endAt.lt hS hrun.endAt.ne_nan) hu
      · obtain ⟨h1, h2, _⟩ := closedSeed_ne_nan hS
        have hg := (hB.seeded _ (by omega) _ hrun.endAt.lt hS).1
        refine ⟨by omega, ?_⟩
        have e : closedSeed L (n - 1) j = L 0 0 := by simp [closedSeed, h1, h2]
        rw [← e, ← hg]
        by_contra hne; exact hu (usable_iff.2 ⟨hrun.endAt.ne_nan, hne⟩)
  · intro hyes
    -- the normalised last row has a number in it
    have huse : ∀ j, usable (normBy Arith.exact p.hint n j (G (n - 1) j)) ↔ usable (G (n - 1) j) := by
      intro j
      have h1 : (n : ℚ) ≠ 0 := by positivity
      have h2 : (n : ℚ) + j + 1 ≠ 0 := by positivity
      have h3 : (1 : ℚ) + j ≠ 0 := by positivity
      have h4 : ¬ (n : ℚ) < 0 := not_lt.2 (by positivity)
      have h5 : ¬ (n : ℚ) + j + 1 < 0 := not_lt.2 (by positivity)
      have h6 : ¬ (1 : ℚ) + j < 0 := not_lt.2 (by positivity)
      unfold normBy
      cases G (n - 1) j <;>
        (split; · simp [Arith.divQ, h2, h5]) <;> (split; · simp [Arith.divQ, h1, h4]) <;>
        (split; · simp [Arith.divQ, h3, h6]) <;> simp
    have hne : ∃ j < m, G (n - 1) j ≠ nan ∧ (usable (G (n - 1) j) ∨ (j = 0 ∧ ∀ j' < m, ¬ usable (G (n - 1) j'))) := by
      rcases hyes with ⟨ks, j, c, hj, hp, hu⟩ | ⟨rfl, hL⟩
      · have := hB.optimal (hp.toPath h.wf.valid (usable_ne_nan hu)) (by omega) hj hu
        exact ⟨j, hj, this.1, .inl (usable_of_le this hu)⟩
      · by_cases hex : ∃ j < m, usable (G (1 - 1) j)
        · obtain ⟨j, hj, hu⟩ := hex
          exact ⟨j, hj, usable_ne_nan hu, .inl hu⟩
        · have hS : closedSeed L 0 0 ≠ nan := by simp [closedSeed, hL]
          have := (hB.seeded 0 (by omega) 0 hm hS).1
          refine ⟨0, hm, by simp only [Nat.sub_self]; rw [this]; exact hS, .inr ⟨rfl, ?_⟩⟩
          intro j' hj' hu; exact hex ⟨j', hj', hu⟩
    obtain ⟨j, hj, hjn, hju⟩ := hne
    have hall : ∃ j < m, normBy Arith.exact p.hint n j (G (n - 1) j) ≠ nan :=
      ⟨j, hj, normBy_ne_nan _ hn hjn⟩
    obtain ⟨k, hk⟩ := nanargmin_tab_error.2 hall
    obtain ⟨hkm, hmin, hfirst⟩ := nanargmin_tab hk
    have hkne : G (n - 1) k ≠ nan := by
      rcases hju with hju | ⟨rfl, hno⟩
      · intro hc
        have := hmin j hj
        rw [hc, normBy_nan, unNan_of (normBy_ne_nan _ hn hjn)] at this
        have h2 := (huse j).2 hju
        unfold usable at h2
        simp [unNan, isNan, h2] at this
      · -- every entry is +inf or NaN, so the first one is taken
        have hk0 : k = 0 := by
          by_contra hk0
          have e : ∀ j' < m, unNan (normBy Arith.exact p.hint n j' (G (n - 1) j')) = pinf := by
            intro j' hj'
            have h2 := fun hc => hno j' hj' ((huse j').1 hc)
            cases hx : normBy Arith.exact p.hint n j' (G (n - 1) j') with
            | nan => rfl
            | pinf => rfl
            | fin q => rw [hx] at h2; simp at h2
            | ninf => rw [hx] at h2; simp [usable, lt] at h2
          exact hfirst 0 (by omega) (by rw [e 0 hj, e k hkm])
        subst hk0; exact hjn
    refine closed_succeeds h hob hB hd hkm hkne ?_
    unfold pickEnd
    rw [normalise_tab, hk, hoe]
    simp only [if_true, if_neg hNA, Except_bind_ok]
    rw [pyGet_neg_one G hn hkm, Except_bind_ok]
    rw [if_neg (by simpa using hkne)]

example : ∃ r, dtw Arith.exact { Ex.plain with openEnd := true } = .ok r ∧ r.jmin = 2 := by
  obtain ⟨r, hr⟩ := Ex.get_ok (x := dtw Arith.exact { Ex.plain with openEnd := true }) (by decide +kernel)
  refine ⟨r, hr, ?_⟩
  have : (dtw Arith.exact { Ex.plain with openEnd := true }).toOption.map (·.jmin) = some 2 := by
    decide +kernel
  rw [hr] at this
  simpa [Except.toOption] using this

/-! ### Open begin -/

/-- C22.  With open_begin, `stepsTaken` is an admissible open-begin path to the end point costing exactly
`distance`, and no open-begin path to that point whose cost is a number is cheaper, wherever it starts. -/
theorem C22_open_begin_optimal (h : Problem a n m L W p rs) (hob : a.openBegin = true)
    (hr : dtw A a = .ok r) :
    ∃ (mp : Mapping) (j j0 : Nat), r.mapping = some mp ∧ r.jmin = j ∧ j < m ∧
      (a.openEnd = false → j = m - 1) ∧
      OpenPath A rs W L j0 mp.stepsTaken n j r.distance ∧
      ∀ j0' ks c, OpenPath A rs W L j0' ks n j c → c ≠ nan → F64.le r.distance c := by
  have hh : p.hint = "N" := by
    by_contra hh; rw [open_bad_hint h hob hh] at hr; simp at hr
  obtain ⟨G, D, qr, hB, _, hd⟩ := dtw_open A h hob hh
  obtain ⟨j, j0, ks, hrun⟩ := open_ok h hob hB hd hr
  have hdist : r.distance = G n j := by rw [hrun.result]; rfl
  refine ⟨(curve rs 0 j0 ks).dropNull, j, j0, by rw [hrun.result]; rfl, by rw [hrun.result]; rfl,
    hrun.endAt.lt, hrun.endAt.closed, ?_, ?_⟩
  · rw [hdist, dropNull_curve]; exact hrun.path.toOpenPath.2
  · intro j0' ks' c hp hc
    rw [hdist]
    by_cases hu : usable c
    · exact hB.optimal hp.toPath (by omega) hrun.endAt.lt hu
    · have : c = pinf := by
        by_contra hne; exact hu (usable_iff.2 ⟨hc, hne⟩)
      rw [this]
      exact le_pinf hrun.endAt.ne_nan

/-- C22: success of a closed-end open-begin call. -/
theorem C22_open_begin_succeeds_iff (h : Problem a n m L W p rs) (hob : a.openBegin = true)
    (hoe : a.openEnd = false) (hdo : a.distanceOnly = false) (hh : p.hint = "N") :
    (∃ r, dtw A a = .ok r) ↔ ∃ j0 ks c, OpenPath A rs W L j0 ks n (m - 1) c ∧ usable c := by
  obtain ⟨G, D, qr, hB, _, hd⟩ := dtw_open A h hob hh
  have hn := h.n_pos
  have hm := h.m_pos
  have hS : openSeed n (m - 1) = nan := by unfold openSeed; rw [if_neg (by omega)]
  have key : G n (m - 1) ≠ nan ↔ ∃ j0 ks c, OpenPath A rs W L j0 ks n (m - 1) c ∧ usable c := by
    constructor
    · intro hG
      obtain ⟨i0, j0, ks, hp, _⟩ := hB.sound h.wf.valid _ n (m - 1) rfl (by omega) (by omega) hG
      exact ⟨j0, ks, _, hp.toOpenPath.2, hB.usable_of_ne_nan (by omega) (by omega) hS hG⟩
    · rintro ⟨j0, ks, c, hp, hu⟩
      exact (hB.optimal hp.toPath (by omega) (by omega) hu).1
  rw [← key]
  rcases open_closed h hob hoe hB hd with ⟨h1, h2⟩ | ⟨h1, h2⟩
  · simp [h1, h2]
  · rw [hdo] at h2
    exact ⟨fun _ => h1, fun _ => h2⟩

/-- C22: the returned indices.  They are the points drawn by `stepsTaken` from row `-1`, column `j0`,
without that starting point; they end at `(N-1, jmin)`; their corner points are among them, one per step;
and (for patterns whose rules charge no cell in the row they start from, as all bundled ones do) they stay
inside the two series. -/
theorem C22_open_begin_indices (h : Problem a n m L W p rs) (hob : a.openBegin = true)
    (hr : dtw A a = .ok r) :
    ∃ (mp : Mapping) (j j0 : Nat), r.mapping = some mp ∧ r.jmin = j ∧
      mp.index1.zip mp.index2 = fineTail rs (-1) j0 mp.stepsTaken ∧
      mp.index1s.zip mp.index2s = (coarse rs (-1) j0 mp.stepsTaken).tail ∧
      mp.index1.length = mp.index2.length ∧
      mp.index1s.length = mp.stepsTaken.length ∧ mp.index2s.length = mp.stepsTaken.length ∧
      mp.index1.getLast? = some ((n : Int) - 1) ∧ mp.index2.getLast? = some (j : Int) ∧
      mp.index1s.getLast? = some ((n : Int) - 1) ∧ mp.index2s.getLast? = some (j : Int) ∧
      ((∀ q ∈ rs, ∀ t ∈ q.terms, 0 < q.a → t.di < q.a) →
        (∀ i ∈ mp.index1, 0 ≤ i ∧ i < n) ∧ (∀ j ∈ mp.index2, 0 ≤ j ∧ j < m)) := by
  have hh : p.hint = "N" := by
    by_contra hh; rw [open_bad_hint h hob hh] at hr; simp at hr
  obtain ⟨G, D, qr, hB, _, hd⟩ := dtw_open A h hob hh
  obtain ⟨j, j0, ks, hrun⟩ := open_ok h hob hB hd hr
  have hw := hrun.path.toWalk
  have hn := h.n_pos
  have hks : ks ≠ [] := by
    rintro rfl
    have hlc := hw.coarse_end
    obtain ⟨pts, h1, h2⟩ := hlc
    obtain rfl := List.eq_nil_of_length_eq_zero h2
    simp [coarse] at h1
    omega
  have hf := hw.fine_end
  have hft : (fineTail rs (-1) j0 ks).getLast? = some ((n : Int) - 1, (j : Int)) := by
    have e := fineTail_shift rs ks 0 j0
    simp only [zero_sub] at e
    rw [← e, List.getLast?_map]
    unfold fine at hf
    have hne : fineTail rs ((0 : Nat) : Int) j0 ks ≠ [] := by
      intro hc
      rw [hc] at hf
      simp at hf
      omega
    rw [List.getLast?_cons] at hf
    cases hl : (fineTail rs ((0 : Nat) : Int) j0 ks).getLast? with
    | none => exact absurd (List.getLast?_eq_none_iff.1 hl) hne
    | some u =>
      rw [hl] at hf
      simp only [Option.getD_some, Option.some.injEq] at hf
      rw [hf]; rfl
  obtain ⟨pts, hc1, hc2⟩ := hw.coarse_end
  have hcs : (coarse rs (-1) j0 ks).tail = (pts.tail.map fun u => (u.1 - 1, u.2)) ++ [((n : Int) - 1, (j : Int))] := by
    have e := coarse_shift rs ks 0 j0
    simp only [zero_sub] at e
    have hc1' : coarse rs 0 j0 ks = pts ++ [((n : Int), (j : Int))] := hc1
    rw [← e, hc1']
    cases pts with
    | nil => simp at hc2; exact absurd (List.eq_nil_of_length_eq_zero hc2.symm) hks
    | cons u us => simp
  have hlen : (coarse rs (-1) j0 ks).tail.length = ks.length := by
    rw [hcs]
    have : 0 < pts.length := by rw [hc2]; exact List.length_pos_of_ne_nil hks
    simp; omega
  refine ⟨(curve rs 0 j0 ks).dropNull, j, j0, by rw [hrun.result]; rfl, by rw [hrun.result]; rfl, ?_⟩
  rw [dropNull_curve]
  refine ⟨zip_fst_snd _, zip_fst_snd _, by simp, by simpa using hlen, by simpa using hlen, ?_, ?_, ?_, ?_, ?_⟩
  · simp [hft]
  · simp [hft]
  · simp [hcs]
  · simp [hcs]
  · intro hpos
    have hrg := hrun.path.toOpenPath.2.fineTail_range h.wf.valid hpos rfl
    have hj := hrun.endAt.lt
    constructor
    · intro i hi
      obtain ⟨u, hu, rfl⟩ := List.mem_map.1 hi
      have := hrg u hu; omega
    · intro i hi
      obtain ⟨u, hu, rfl⟩ := List.mem_map.1 hi
      have := hrg u hu; omega

/-- C22: the bundled patterns that accept open begin charge no cell in the row they start from. -/
theorem C22_bundled : ∀ q ∈ Pat.table, q.2.hint = "N" →
    ∀ x ∈ rulesOf q.2, ∀ t ∈ x.terms, 0 < x.a → t.di < x.a := by decide +kernel

/-- C22: any other hint is rejected. -/
theorem C22_rejects (h : Problem a n m L W p rs) (hob : a.openBegin = true) (hh : p.hint ≠ "N") :
    ∃ t, dtw A a = .error (.valueError t) := ⟨_, open_bad_hint h hob hh⟩

example : Problem Ex.openBoth 3 4 Ex.openL (fun _ _ => true) Pat.asymmetric (rulesOf Pat.asymmetric) ∧
    (dtw Arith.exact Ex.openBoth).toOption.isSome = true ∧
    ((dtw Arith.exact Ex.openBoth).toOption.bind (·.mapping)).map (fun m => (m.index1, m.index2)) =
      some ([0, 1, 2], [1, 1, 1]) := ⟨Ex.openBoth_problem, Ex.openBoth_ok, by decide +kernel⟩

end DTW
