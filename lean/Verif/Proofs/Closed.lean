import Verif.Proofs.FinishProof

/-!
# Closed-begin and open-begin runs: summary of everything that is known about them
-/

namespace DTW
open F64

variable {A : Arith} {rs : List Rule} {W : Nat → Nat → Bool} {L : Nat → Nat → F64}

/-! ### Warping paths and seeded paths -/

theorem closedSeed_ne_nan {i j : Nat} (h : closedSeed L i j ≠ nan) : i = 0 ∧ j = 0 ∧ L 0 0 ≠ nan := by
  unfold closedSeed at h
  split at h
  · rename_i h0; exact ⟨h0.1, h0.2, h⟩
  · exact absurd rfl h

theorem closedSeed_eq_nan {i j : Nat} (h : 0 < i ∨ 0 < j) : closedSeed L i j = nan := by
  unfold closedSeed; rw [if_neg (by omega)]

theorem WarpPath.toPath (hv : ∀ r ∈ rs, r.Valid) {ks : List Int} {i j : Nat} {c : F64}
    (h : WarpPath A rs W L ks i j c) (hc : c ≠ nan) :
    Path A rs W L (closedSeed L) 0 0 ks i j c := by
  induction h with
  | start =>
    have := Path.start (A := A) (rs := rs) (W := W) (L := L) (S := closedSeed L) 0 0
      (by simpa [closedSeed] using hc)
    simpa [closedSeed] using this
  | @step ks i j c k r hp hr hW ih =>
    have hc' : c ≠ nan := charge_ne_nan hc
    have hprog := (hv r (List.mem_of_getElem? hr)).1
    exact Path.step k r (ih hc') hr hW (closedSeed_eq_nan (by omega))

theorem Path.toWarpPath {i0 j0 : Nat} {ks : List Int} {i j : Nat} {c : F64}
    (h : Path A rs W L (closedSeed L) i0 j0 ks i j c) : i0 = 0 ∧ j0 = 0 ∧ WarpPath A rs W L ks i j c := by
  induction h with
  | start hS =>
    obtain ⟨rfl, rfl, _⟩ := closedSeed_ne_nan hS
    refine ⟨rfl, rfl, ?_⟩
    have := WarpPath.start (A := A) (rs := rs) (W := W) (L := L)
    simpa [closedSeed] using this
  | step k r hp hr hW hS ih => exact ⟨ih.1, ih.2.1, WarpPath.step k r ih.2.2 hr hW⟩

/-! ### Closed begin -/

/-- Everything known about a successful closed-begin run. -/
structure ClosedRun (A : Arith) (a : Args) (n m : Nat) (L : Nat → Nat → F64) (W : Nat → Nat → Bool)
    (p : StepPattern) (rs : List Rule) (qr : Option (Mat F64 × Mat F64)) (G : Nat → Nat → F64)
    (D : Nat → Nat → Int) (r : Result) (j : Nat) (ks : List Int) : Prop where
  endAt : EndAt A a p.hint n m n G j
  path : WarpPath A rs W L ks (n - 1) j (G (n - 1) j)
  trace : Trace rs D (closedSeed L) 0 0 ks (n - 1) j
  result : r = mkResult A a p n m n qr (Mat.ofFn n m L) G D j
    (if a.distanceOnly then none else some (curve rs 0 0 ks))

theorem closed_ok {a : Args} {n m p} (h : Problem a n m L W p rs) (hob : a.openBegin = false)
    {G : Nat → Nat → F64} {D : Nat → Nat → Int} {qr} (hB : Bellman A rs n m W L (closedSeed L) G D)
    (hd : dtw A a = finish A a p n m qr n (Mat.ofFn n m L) G D) {r : Result} (hr : dtw A a = .ok r) :
    ∃ j ks, ClosedRun A a n m L W p rs qr G D r j ks := by
  rw [hd] at hr
  obtain ⟨j, mp, he, hmp, hres⟩ := finish_ok h.n_pos h.n_pos h.m_pos hr
  have hnp := h.n_pos
  obtain ⟨i0, j0, ks, hp, ht⟩ := hB.sound h.wf.valid _ (n - 1) j rfl (by omega) he.lt he.ne_nan
  obtain ⟨rfl, rfl, hw⟩ := hp.toWarpPath
  rw [pickMapping_trace h.wf h.n_pos ht he.lt, hob] at hmp
  simp only [Bool.false_eq_true, if_false, Except.ok.injEq] at hmp
  exact ⟨j, ks, he, hw, ht, by rw [hres, ← hmp]; rfl⟩

/-- Conversely, a run whose end column is determined succeeds. -/
theorem closed_succeeds {a : Args} {n m p} (h : Problem a n m L W p rs) (hob : a.openBegin = false)
    {G : Nat → Nat → F64} {D : Nat → Nat → Int} {qr} (hB : Bellman A rs n m W L (closedSeed L) G D)
    (hd : dtw A a = finish A a p n m qr n (Mat.ofFn n m L) G D) {j : Nat} (hj : j < m)
    (hne : G (n - 1) j ≠ nan)
    (hpe : pickEnd a p.hint m (Mat.ofFn n m G) (normalise A p.hint n (tab m (G (n - 1)))) =
      .ok ((j : Int), G (n - 1) j)) :
    ∃ r, dtw A a = .ok r := by
  have hnp := h.n_pos
  obtain ⟨i0, j0, ks, hp, ht⟩ := hB.sound h.wf.valid _ (n - 1) j rfl (by omega) hj hne
  rw [hd, finish_of hj hpe, pickMapping_trace h.wf h.n_pos ht hj, hob]
  exact ⟨_, rfl⟩

/-- Closed begin, closed end: success is decided by the corner cell. -/
theorem closed_closed {a : Args} {n m p} (h : Problem a n m L W p rs) (hob : a.openBegin = false)
    (hoe : a.openEnd = false)
    {G : Nat → Nat → F64} {D : Nat → Nat → Int} {qr} (hB : Bellman A rs n m W L (closedSeed L) G D)
    (hd : dtw A a = finish A a p n m qr n (Mat.ofFn n m L) G D) :
    (G (n - 1) (m - 1) = nan ∧
      dtw A a = .error (.valueError "No warping path found compatible with the local constraints")) ∨
    (G (n - 1) (m - 1) ≠ nan ∧ ∃ r, dtw A a = .ok r) := by
  have hpe := pickEnd_closed (A := A) (hint := p.hint) (n := n) (G := G) h.n_pos h.m_pos hoe
  by_cases hG : G (n - 1) (m - 1) = nan
  · left; refine ⟨hG, ?_⟩
    rw [if_pos (by simp [hG])] at hpe
    rw [hd, finish_error hpe]
  · right; refine ⟨hG, ?_⟩
    rw [if_neg (by simpa using hG)] at hpe
    have := h.m_pos
    exact closed_succeeds h hob hB hd (by omega) hG hpe

/-! ### Open begin -/

theorem openSeed_ne_nan {i j : Nat} (h : openSeed i j ≠ nan) : i = 0 := by
  unfold openSeed at h
  split at h
  · assumption
  · exact absurd rfl h

/-- Everything known about a successful open-begin run. -/
structure OpenRun (A : Arith) (a : Args) (n m : Nat) (L : Nat → Nat → F64) (W : Nat → Nat → Bool)
    (p : StepPattern) (rs : List Rule) (qr : Option (Mat F64 × Mat F64)) (G : Nat → Nat → F64)
    (D : Nat → Nat → Int) (r : Result) (j : Nat) (j0 : Nat) (ks : List Int) : Prop where
  endAt : EndAt A a p.hint n m (n + 1) G j
  path : Path A rs W (nullRow L) openSeed 0 j0 ks n j (G n j)
  trace : Trace rs D openSeed 0 j0 ks n j
  full : a.distanceOnly = false
  result : r = mkResult A a p n m (n + 1) qr (Mat.ofFn (n + 1) m (nullRow L)) G D j
    (some (curve rs 0 j0 ks).dropNull)

theorem open_ok {a : Args} {n m p} (h : Problem a n m L W p rs) (hob : a.openBegin = true)
    {G : Nat → Nat → F64} {D : Nat → Nat → Int} {qr}
    (hB : Bellman A rs (n + 1) m W (nullRow L) openSeed G D)
    (hd : dtw A a = finish A a p n m qr (n + 1) (Mat.ofFn (n + 1) m (nullRow L)) G D) {r : Result}
    (hr : dtw A a = .ok r) :
    ∃ j j0 ks, OpenRun A a n m L W p rs qr G D r j j0 ks := by
  rw [hd] at hr
  obtain ⟨j, mp, he, hmp, hres⟩ := finish_ok h.n_pos (Nat.succ_pos n) h.m_pos hr
  have hne : G n j ≠ nan := he.ne_nan
  obtain ⟨i0, j0, ks, hp, ht⟩ := hB.sound h.wf.valid _ n j rfl (by omega) he.lt hne
  obtain rfl := openSeed_ne_nan hp.seed_ne_nan
  rw [pickMapping_trace h.wf (Nat.succ_pos n) (by simpa using ht) he.lt, hob] at hmp
  simp only [if_true] at hmp
  cases hdo : a.distanceOnly with
  | true => rw [hdo] at hmp; simp at hmp
  | false =>
    rw [hdo] at hmp
    simp only [Bool.false_eq_true, if_false, Except.ok.injEq] at hmp
    exact ⟨j, j0, ks, he, hp, ht, hdo, by rw [hres, ← hmp]; rfl⟩

theorem open_closed {a : Args} {n m p} (h : Problem a n m L W p rs) (hob : a.openBegin = true)
    (hoe : a.openEnd = false) {G : Nat → Nat → F64} {D : Nat → Nat → Int} {qr}
    (hB : Bellman A rs (n + 1) m W (nullRow L) openSeed G D)
    (hd : dtw A a = finish A a p n m qr (n + 1) (Mat.ofFn (n + 1) m (nullRow L)) G D) :
    (G n (m - 1) = nan ∧
      dtw A a = .error (.valueError "No warping path found compatible with the local constraints")) ∨
    (G n (m - 1) ≠ nan ∧ if a.distanceOnly then dtw A a = .error .attributeError else
      ∃ r, dtw A a = .ok r) := by
  have hpe := pickEnd_closed (A := A) (hint := p.hint) (n := n) (G := G) (Nat.succ_pos n) h.m_pos hoe
  simp only [Nat.succ_eq_add_one, Nat.add_sub_cancel] at hpe
  by_cases hG : G n (m - 1) = nan
  · left; refine ⟨hG, ?_⟩
    rw [if_pos (by simp [hG])] at hpe
    rw [hd, finish_error (by simpa using hpe)]
  · right; refine ⟨hG, ?_⟩
    rw [if_neg (by simpa using hG)] at hpe
    have hm := h.m_pos
    obtain ⟨i0, j0, ks, hp, ht⟩ := hB.sound h.wf.valid _ n (m - 1) rfl (by omega) (by omega) hG
    rw [hd, finish_of (j := m - 1) (by omega) (by simpa using hpe),
      pickMapping_trace h.wf (Nat.succ_pos n) (by simpa using ht) (by omega), hob]
    cases a.distanceOnly
    · simp [Except.map]
    · simp [Except.map]

/-! ### How a call can fail -/

theorem finish_errors {a : Args} {n m p} (h : Problem a n m L W p rs) {q : Nat} (hq : 0 < q)
    {S L' G : Nat → Nat → F64} {D : Nat → Nat → Int} {qr lm'} (hB : Bellman A rs q m W L' S G D) {e : Err}
    (he : finish A a p n m qr q lm' G D = .error e) :
    (∃ t, e = .valueError t) ∨ (e = .attributeError ∧ a.openBegin = true ∧ a.distanceOnly = true) := by
  cases hpe : pickEnd a p.hint m (Mat.ofFn q m G) (normalise A p.hint n (tab m (G (q - 1)))) with
  | error e' =>
    rw [finish_error hpe] at he
    simp only [Except.error.injEq] at he
    subst he
    left
    cases hoe : a.openEnd with
    | false =>
      rw [pickEnd_closed (A := A) (n := n) (G := G) (hint := p.hint) hq h.m_pos hoe] at hpe
      split at hpe
      · simp at hpe; exact ⟨_, hpe.symm⟩
      · simp at hpe
    | true =>
      unfold pickEnd at hpe
      rw [hoe, normalise_tab] at hpe
      simp only [if_true] at hpe
      split at hpe
      · simp at hpe; exact ⟨_, hpe.symm⟩
      · cases hk : nanargmin (tab m fun j => normBy A p.hint n j (G (q - 1) j)) with
        | error e'' =>
          rw [hk] at hpe
          simp at hpe
          subst hpe
          unfold nanargmin at hk
          split at hk
          · simp at hk; exact ⟨_, hk.symm⟩
          · split at hk
            · simp at hk; exact ⟨_, hk.symm⟩
            · simp at hk
        | ok k =>
          rw [hk] at hpe
          simp only [Except_bind_ok] at hpe
          rw [pyGet_neg_one G hq (nanargmin_tab hk).1, Except_bind_ok] at hpe
          split at hpe
          · simp at hpe; exact ⟨_, hpe.symm⟩
          · simp at hpe
  | ok jd =>
    obtain ⟨j, d⟩ := jd
    obtain ⟨k, h1, rfl, rfl, h4, h5, h6⟩ := pickEnd_ok h.n_pos hq h.m_pos hpe
    obtain ⟨i0, j0, ks, hp, ht⟩ := hB.sound h.wf.valid _ (q - 1) k rfl (by omega) h1 h4
    rw [finish_of h1 hpe, pickMapping_trace h.wf hq ht h1] at he
    cases hob : a.openBegin <;> cases hdo : a.distanceOnly <;> rw [hob, hdo] at he <;>
      simp [Except.map] at he
    right; exact ⟨he.symm, rfl, rfl⟩

theorem open_bad_hint {a : Args} {n m p} (h : Problem a n m L W p rs) (hob : a.openBegin = true)
    (hh : p.hint ≠ "N") :
    dtw A a = .error (.valueError "Open-begin requires step patterns with 'N' normalization") := by
  obtain ⟨qr, hl, _, _⟩ := localCost_of h.cost
  unfold dtw
  rw [hl, Except_bind_ok]
  simp only
  rw [h.pattern, Except_bind_ok]
  simp [runGCM, hob, hh]

theorem dtw_errors {a : Args} {n m p} (h : Problem a n m L W p rs) : ∀ e, dtw A a = .error e →
    (∃ t, e = .valueError t) ∨ (e = .attributeError ∧ a.openBegin = true ∧ a.distanceOnly = true) := by
  intro e he
  cases hob : a.openBegin with
  | false =>
    obtain ⟨G, D, qr, hB, _, hd⟩ := dtw_closed A h hob
    rw [hd] at he
    have := finish_errors h h.n_pos hB he
    rwa [hob] at this
  | true =>
    by_cases hh : p.hint = "N"
    · obtain ⟨G, D, qr, hB, _, hd⟩ := dtw_open A h hob hh
      rw [hd] at he
      have := finish_errors h (Nat.succ_pos n) hB he
      rwa [hob] at this
    · rw [open_bad_hint h hob hh] at he
      simp at he
      exact .inl ⟨_, he.symm⟩

end DTW
