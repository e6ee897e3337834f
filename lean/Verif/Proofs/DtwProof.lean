import Verif.Proofs.BacktrackProof

/-!
# `dtw` in terms of the Bellman system
-/

namespace DTW
open F64

/-! ### Matrices -/

theorem ofFn_congr {α} {n m : Nat} {f g : Nat → Nat → α} (h : ∀ i < n, ∀ j < m, f i j = g i j) :
    Mat.ofFn n m f = Mat.ofFn n m g := by
  unfold Mat.ofFn
  congr 1
  apply List.map_congr_left
  intro k hk
  simp only [List.mem_range] at hk
  have hm : 0 < m := by
    rcases Nat.eq_zero_or_pos m with h | h
    · subst h; simp at hk
    · exact h
  exact h _ ((Nat.div_lt_iff_lt_mul hm).2 hk) _ (Nat.mod_lt _ hm)

theorem length_ofFn {α} (n m : Nat) (f : Nat → Nat → α) : (Mat.ofFn n m f).data.length = n * m := by
  simp [Mat.ofFn]

theorem eq_ofFn {α} {n m : Nat} {f : Nat → Nat → α} {l : List α} (hl : l.length = n * m)
    (h : ∀ i < n, ∀ j < m, l[i * m + j]? = some (f i j)) : l = (Mat.ofFn n m f).data := by
  apply List.ext_getElem?
  intro k
  by_cases hk : k < n * m
  · have hm : 0 < m := by
      rcases Nat.eq_zero_or_pos m with h | h
      · subst h; simp at hk
      · exact h
    have h1 : k / m < n := (Nat.div_lt_iff_lt_mul hm).2 hk
    have h2 : k % m < m := Nat.mod_lt _ hm
    have e : k / m * m + k % m = k := by rw [Nat.mul_comm]; exact Nat.div_add_mod k m
    have a := h _ h1 _ h2
    have b := ofFn_getElem? f h1 h2
    rw [e] at a b
    rw [a, b]
  · rw [List.getElem?_eq_none (by omega), List.getElem?_eq_none (by rw [length_ofFn]; omega)]

theorem row_ofFn {α} {n m i : Nat} (f : Nat → Nat → α) (hi : i < n) :
    (Mat.ofFn n m f).row i = tab m (f i) := by
  unfold Mat.row
  apply List.ext_getElem?
  intro j
  have hc : (Mat.ofFn n m f).cols = m := rfl
  rw [hc, getElem?_tab, List.getElem?_take]
  by_cases hj : j < m
  · rw [if_pos hj, if_pos hj, List.getElem?_drop, ofFn_getElem? f hi hj]
  · rw [if_neg hj, if_neg hj]

theorem dropRow_ofFn {α} {n m : Nat} (f : Nat → Nat → α) :
    (Mat.ofFn (n + 1) m f).dropRow = Mat.ofFn n m (fun i j => f (i + 1) j) := by
  unfold Mat.dropRow
  have hr : (Mat.ofFn (n + 1) m f).rows - 1 = n := rfl
  have hc : (Mat.ofFn (n + 1) m f).cols = m := rfl
  rw [hr, hc]
  have : (Mat.ofFn (n + 1) m f).data.drop m = (Mat.ofFn n m fun i j => f (i + 1) j).data := by
    apply eq_ofFn
    · rw [List.length_drop, length_ofFn, Nat.add_mul]; omega
    · intro i hi j hj
      rw [List.getElem?_drop]
      have e : m + (i * m + j) = (i + 1) * m + j := by ring
      rw [e, ofFn_getElem? f (by omega) hj]
  rw [this]
  rfl

theorem pyGet_neg_one {α} {n m j : Nat} (f : Nat → Nat → α) (hn : 0 < n) (hj : j < m) :
    (Mat.ofFn n m f).pyGet (-1) (j : Int) = .ok (f (n - 1) j) := by
  have := pyGet_ofFn (n := n) f (i := n - 1) (by omega) hj
  unfold Mat.pyGet at this ⊢
  have hr : (Mat.ofFn n m f).rows = n := rfl
  rw [hr] at this ⊢
  have h1 : ¬ (((n - 1 : Nat) : Int) < 0) := by omega
  have h2 : (-1 : Int) < 0 := by omega
  have e : (-1 : Int) + (n : Int) = ((n - 1 : Nat) : Int) := by omega
  simp only [h1, h2, if_true, if_false, e] at this ⊢
  exact this

theorem prependZeros_ofFn (n m : Nat) (L : Nat → Nat → F64) :
    prependZeros (Mat.ofFn n m L) = Mat.ofFn (n + 1) m (nullRow L) := by
  unfold prependZeros
  have hr : (Mat.ofFn n m L).rows = n := rfl
  have hc : (Mat.ofFn n m L).cols = m := rfl
  rw [hr, hc]
  have : List.replicate m (fin 0) ++ (Mat.ofFn n m L).data = (Mat.ofFn (n + 1) m (nullRow L)).data := by
    apply eq_ofFn
    · rw [List.length_append, length_ofFn]; simp; ring
    · intro i hi j hj
      cases i with
      | zero => rw [List.getElem?_append_left (by simp; omega)]; simp [nullRow, hj]
      | succ i =>
        rw [List.getElem?_append_right (by simp; nlinarith)]
        have e : (i + 1) * m + j - (List.replicate m (fin 0)).length = i * m + j := by
          simp [Nat.add_mul]; omega
        rw [e, ofFn_getElem? L (by omega) hj]
        simp [nullRow]
  rw [this]; rfl

theorem precm_ofFn (n m : Nat) (L : Nat → Nat → F64) :
    precm (Mat.ofFn n m L) = Mat.ofFn (n + 1) m openSeed := by
  unfold precm
  have hr : (Mat.ofFn n m L).rows = n := rfl
  have hc : (Mat.ofFn n m L).cols = m := rfl
  rw [hr, hc]
  have : List.replicate m (fin 0) ++ List.replicate (n * m) nan = (Mat.ofFn (n + 1) m openSeed).data := by
    apply eq_ofFn
    · simp; ring
    · intro i hi j hj
      cases i with
      | zero => rw [List.getElem?_append_left (by simp; omega)]; simp [openSeed, hj]
      | succ i =>
        rw [List.getElem?_append_right (by simp; nlinarith)]
        have e : (i + 1) * m + j - (List.replicate m (fin 0)).length = i * m + j := by
          simp [Nat.add_mul]; omega
        have := flat_lt (show i < n by omega) hj
        rw [e]; simp [openSeed, this]
  rw [this]; rfl

theorem initialCM_none {n m : Nat} (hn : 0 < n) (hm : 0 < m) (L : Nat → Nat → F64) :
    initialCM (Mat.ofFn n m L) none = .ok (Mat.ofFn n m (closedSeed L)) := by
  unfold initialCM
  have hr : (Mat.ofFn n m L).rows = n := rfl
  have hc : (Mat.ofFn n m L).cols = m := rfl
  simp only [hr, hc]
  rw [if_neg (by omega)]
  have := pyGet_ofFn (n := n) (m := m) L (i := 0) (j := 0) hn hm
  simp only [Nat.cast_zero] at this
  rw [this, Except_bind_ok]
  congr 1
  have : (List.replicate (n * m) nan).set 0 (L 0 0) = (Mat.ofFn n m (closedSeed L)).data := by
    apply eq_ofFn
    · simp
    · intro i hi j hj
      have h1 := flat_lt hi hj
      rw [List.getElem?_set]
      by_cases h0 : i = 0 ∧ j = 0
      · obtain ⟨rfl, rfl⟩ := h0
        have : 0 < n * m := by omega
        simp [closedSeed]; omega
      · have : ¬ (0 = i * m + j) := by
          intro h
          have hj0 : j = 0 := by omega
          have hi0 : i * m = 0 := by omega
          rcases Nat.mul_eq_zero.1 hi0 with h | h <;> omega
        rw [if_neg this]
        simp only [closedSeed, if_neg h0]
        simp [h1]
  rw [this]; rfl

/-! ### The window matrix -/

theorem windowMatrix_ok {a : Args} {q m : Nat} {W : Nat → Nat → Bool} (hq : 0 < q) (hm : 0 < m)
    (h : WindowIs a q m W) :
    windowMatrix q m (canonWindow a.windowType) a.windowArgs =
      .ok (Mat.ofFn q m fun i j => if W i j then (1 : Int) else 0) := by
  rcases h with ⟨h1, h2⟩ | ⟨h1, h2⟩
  · rw [h1]
    simp only [windowMatrix]
    congr 1
    apply ofFn_congr
    intro i hi j hj; simp [h2 i hi j hj]
  · unfold windowMatrix
    split
    · rename_i heq; exact absurd heq h1
    · rename_i heq
      have := h2 0 hq 0 hm
      rw [heq] at this
      simp [WinFn.call] at this
    · rename_i wf _ _
      rw [mapM_ok _ (fun (k : Nat) => if W (k / m) (k % m) then (1 : Int) else 0)]
      · simp [Mat.ofFn]
      · intro k hk
        simp only [List.mem_range] at hk
        have hm : 0 < m := by
          rcases Nat.eq_zero_or_pos m with h | h
          · subst h; simp at hk
          · exact h
        rw [h2 _ ((Nat.div_lt_iff_lt_mul hm).2 hk) _ (Nat.mod_lt _ hm)]
        simp

/-! ### The cost matrix computation -/

theorem getP_ne_nil {p : StepPattern} {rs : List Rule} (hp : WF p rs) : p.getP ≠ [] := by
  have : rs.length ≤ (encode rs).length := length_encodeFrom rs 0
  have h2 : rs.length ≠ 0 := by simpa using hp.ne
  have h3 : (encode rs).length ≠ 0 := by omega
  unfold StepPattern.getP
  rw [hp.rows]
  simp
  intro h; rw [h] at h3; simp at h3

theorem wrapper_spec (A : Arith) {p : StepPattern} {rs : List Rule} (hp : WF p rs) {q m : Nat}
    (hq : 0 < q) (hm : 0 < m) (hf : Fits q m rs) (W : Nat → Nat → Bool) (L S : Nat → Nat → F64) :
    ∃ G D, computeCMWrapper A (Mat.ofFn q m fun i j => if W i j then (1 : Int) else 0) (Mat.ofFn q m L)
        ⟨true, true⟩ p.getNRows p.getP (Mat.ofFn q m S) = .ok (Mat.ofFn q m G, Mat.ofFn q m D) ∧
      Bellman A rs q m W L S G D := by
  obtain ⟨G, D, h1, h2⟩ := computeCM_spec A p rs hp q m hf W L S (List.replicate (q * m) (-1)) (by simp)
  refine ⟨G, D, ?_, h2⟩
  unfold computeCMWrapper
  rw [if_neg (by simp), if_neg (by
    rintro (h | h | h)
    · have : q = 0 := h
      omega
    · have : m = 0 := h
      omega
    · exact getP_ne_nil hp h)]
  have hr : ∀ {α : Type} (f : Nat → Nat → α), (Mat.ofFn q m f).rows = q := fun _ => rfl
  have hc : ∀ {α : Type} (f : Nat → Nat → α), (Mat.ofFn q m f).cols = m := fun _ => rfl
  simp only [hr, hc]
  rw [h1]
  rfl

theorem asColumns_of {x : Nd} {X : Mat F64} (h : AsMatrix x X) : asColumns x = .ok X := by
  cases h <;> rfl

theorem localCost_of {a : Args} {n m : Nat} {L : Nat → Nat → F64} (h : CallCost a n m L) :
    ∃ qr, localCost a = .ok (Mat.ofFn n m L, ⟨true, true⟩, qr) ∧
      (a.y = none → qr = none) ∧ (a.y.isSome = true ∨ a.stackContig = true) := by
  cases h with
  | matrix h1 h2 h3 h4 => exact ⟨none, by simp [localCost, h1, h2, h3], by simp, .inr h4⟩
  | series y X Y h1 h2 h3 h4 h5 h6 h7 =>
    refine ⟨some (X, Y), ?_, by simp [h1], by simp [h1]⟩
    unfold localCost
    rw [h1]
    simp only
    rw [asColumns_of h2, Except_bind_ok, asColumns_of h3, Except_bind_ok]
    unfold cdist
    rw [if_neg (by simp [h4]), Except_bind_ok, h5, h6]
    congr 2
    apply ofFn_congr
    intro i hi j hj; exact (h7 i hi j hj).symm

/-- The part of dtw() after the cost-matrix computation (dtw.py:425-486), on explicit matrices. -/
def finish (A : Arith) (a : Args) (p : StepPattern) (n m : Nat) (qr : Option (Mat F64 × Mat F64))
    (q : Nat) (lm' : Mat F64) (G : Nat → Nat → F64) (D : Nat → Nat → Int) :
    Except Err Result := do
  let lastcol := normalise A p.hint n (tab m (G (q - 1)))
  let (jmin, distance) ← pickEnd a p.hint m (Mat.ofFn q m G) lastcol
  let normalizedDistance ← pickNorm p.hint lastcol jmin
  let mapping ← pickMapping a p (Mat.ofFn q m D) jmin
  .ok
    { N := n, M := m, openEnd := a.openEnd, openBegin := a.openBegin
      windowFunction := canonWindow a.windowType, windowArgs := a.windowArgs, stepPattern := p
      jmin := jmin, distance := distance, normalizedDistance := normalizedDistance
      mapping := mapping
      costMatrix := if a.keepInternals then
        some (if a.openBegin then (Mat.ofFn q m G).dropRow else Mat.ofFn q m G) else none
      directionMatrix := if a.keepInternals then
        some (if a.openBegin then (Mat.ofFn q m D).dropRow else Mat.ofFn q m D) else none
      localCostMatrix := if a.keepInternals then
        some (if a.openBegin then lm'.dropRow else lm') else none
      queryReference := if a.keepInternals then qr else none }

theorem runGCM_closed (A : Arith) {a : Args} {n m L W p rs} (h : Problem a n m L W p rs)
    (hob : a.openBegin = false) :
    ∃ G D, Bellman A rs n m W L (closedSeed L) G D ∧
      runGCM A a (Mat.ofFn n m L) ⟨true, true⟩ (canonWindow a.windowType) p =
        .ok (Mat.ofFn n m L, Mat.ofFn n m G, Mat.ofFn n m D) := by
  have hg : gridRows a n = n := by simp [gridRows, hob]
  have hfits := h.fits
  have hwin := h.window
  rw [hg] at hfits hwin
  obtain ⟨G, D, h1, h2⟩ := wrapper_spec A h.wf h.n_pos h.m_pos hfits W L (closedSeed L)
  refine ⟨G, D, h2, ?_⟩
  unfold runGCM globalCostMatrix
  rw [hob]
  have hr : (Mat.ofFn n m L).rows = n := rfl
  have hc : (Mat.ofFn n m L).cols = m := rfl
  simp only [Bool.false_eq_true, if_false, hr, hc]
  rw [windowMatrix_ok h.n_pos h.m_pos hwin, Except_bind_ok, initialCM_none h.n_pos h.m_pos, Except_bind_ok, h1]
  rfl

theorem runGCM_open (A : Arith) {a : Args} {n m L W p rs} (h : Problem a n m L W p rs)
    (hob : a.openBegin = true) (hh : p.hint = "N") (hst : a.y.isSome = true ∨ a.stackContig = true) :
    ∃ G D, Bellman A rs (n + 1) m W (nullRow L) openSeed G D ∧
      runGCM A a (Mat.ofFn n m L) ⟨true, true⟩ (canonWindow a.windowType) p =
        .ok (Mat.ofFn (n + 1) m (nullRow L), Mat.ofFn (n + 1) m G, Mat.ofFn (n + 1) m D) := by
  have hg : gridRows a n = n + 1 := by simp [gridRows, hob]
  have hfits := h.fits
  have hwin := h.window
  rw [hg] at hfits hwin
  obtain ⟨G, D, h1, h2⟩ := wrapper_spec A h.wf (Nat.succ_pos n) h.m_pos hfits W (nullRow L) openSeed
  refine ⟨G, D, h2, ?_⟩
  unfold runGCM globalCostMatrix
  rw [hob]
  simp only [if_true, hh, ne_eq, not_true_eq_false, if_false]
  rw [prependZeros_ofFn, precm_ofFn]
  have hr : (Mat.ofFn (n + 1) m (nullRow L)).rows = n + 1 := rfl
  have hc : (Mat.ofFn (n + 1) m (nullRow L)).cols = m := rfl
  have hlay : (if a.y.isSome = true then true else a.stackContig) = true := by
    rcases hst with h | h <;> simp [h]
  rw [hr, hc, windowMatrix_ok (Nat.succ_pos n) h.m_pos hwin, Except_bind_ok, hlay]
  simp only [initialCM, Except_bind_ok]
  rw [h1]
  rfl

theorem dtw_closed (A : Arith) {a : Args} {n m L W p rs} (h : Problem a n m L W p rs)
    (hob : a.openBegin = false) :
    ∃ G D qr, Bellman A rs n m W L (closedSeed L) G D ∧ (a.y = none → qr = none) ∧
      dtw A a = finish A a p n m qr n (Mat.ofFn n m L) G D := by
  obtain ⟨qr, hl, hqr, _⟩ := localCost_of h.cost
  obtain ⟨G, D, hB, hrun⟩ := runGCM_closed A h hob
  refine ⟨G, D, qr, hB, hqr, ?_⟩
  unfold dtw finish
  rw [hl, Except_bind_ok]
  simp only
  rw [h.pattern, Except_bind_ok, hrun, Except_bind_ok]
  have hr : ∀ {α : Type} (f : Nat → Nat → α), (Mat.ofFn n m f).rows = n := fun _ => rfl
  have hc : ∀ {α : Type} (f : Nat → Nat → α), (Mat.ofFn n m f).cols = m := fun _ => rfl
  simp only [hr, hc]
  rw [row_ofFn _ (by have := h.n_pos; omega)]

theorem dtw_open (A : Arith) {a : Args} {n m L W p rs} (h : Problem a n m L W p rs)
    (hob : a.openBegin = true) (hh : p.hint = "N") :
    ∃ G D qr, Bellman A rs (n + 1) m W (nullRow L) openSeed G D ∧ (a.y = none → qr = none) ∧
      dtw A a = finish A a p n m qr (n + 1) (Mat.ofFn (n + 1) m (nullRow L)) G D := by
  obtain ⟨qr, hl, hqr, hst⟩ := localCost_of h.cost
  obtain ⟨G, D, hB, hrun⟩ := runGCM_open A h hob hh hst
  refine ⟨G, D, qr, hB, hqr, ?_⟩
  unfold dtw finish
  rw [hl, Except_bind_ok]
  simp only
  rw [h.pattern, Except_bind_ok, hrun, Except_bind_ok]
  have hr : ∀ {α : Type} (f : Nat → Nat → α), (Mat.ofFn n m f).rows = n := fun _ => rfl
  have hc : ∀ {α : Type} (f : Nat → Nat → α), (Mat.ofFn n m f).cols = m := fun _ => rfl
  have hr' : ∀ {α : Type} (f : Nat → Nat → α), (Mat.ofFn (n + 1) m f).rows = n + 1 := fun _ => rfl
  simp only [hr, hc, hr']
  rw [row_ofFn _ (by omega)]

end DTW
