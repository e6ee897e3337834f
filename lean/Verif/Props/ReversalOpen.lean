import Verif.Props.Subsequence
import Verif.Props.Series

/-!
# C20, C56: open ends as warping functions, and time reversal with open ends

Exact arithmetic.  An open-end call with a functional pattern (`asymmetric`, `rigid`, mvm) computes the least cost over
the warping functions that start at the first pair and end anywhere.  With `asymmetric`, reversing both series exchanges
`open_begin` and `open_end`.
-/

namespace DTW
open F64

variable {a a' : Args} {n m : Nat} {ℓ ℓ' : Nat → Nat → ℚ} {W W' : Nat → Nat → Bool} {p : StepPattern} {rs : List Rule}

/-- Two calls whose candidates correspond, with equal costs, agree in success and distance. -/
theorem ComputesLeast.transfer {α β : Type} {P : α → Prop} {cost : α → ℚ} {Q : β → Prop} {cost' : β → ℚ}
    (h : ComputesLeast a P cost) (h' : ComputesLeast a' Q cost')
    (f : ∀ w, P w → ∃ v, Q v ∧ cost' v = cost w) (g : ∀ v, Q v → ∃ w, P w ∧ cost w = cost' v) :
    ((∃ r, dtw Arith.exact a = .ok r) ↔ ∃ r', dtw Arith.exact a' = .ok r') ∧
    ∀ r r', dtw Arith.exact a = .ok r → dtw Arith.exact a' = .ok r' → r'.distance = r.distance := by
  obtain ⟨h1, h2⟩ := h
  obtain ⟨h1', h2'⟩ := h'
  constructor
  · rw [h1, h1']
    constructor
    · rintro ⟨w, hw⟩; obtain ⟨v, hv, _⟩ := f w hw; exact ⟨v, hv⟩
    · rintro ⟨v, hv⟩; obtain ⟨w, hw, _⟩ := g v hv; exact ⟨w, hw⟩
  · intro r r' hr hr'
    obtain ⟨d, hd, ⟨w, hw, rfl⟩, hmin⟩ := h2 r hr
    obtain ⟨d', hd', ⟨v, hv, rfl⟩, hmin'⟩ := h2' r' hr'
    obtain ⟨v', hv', e1⟩ := f w hw
    obtain ⟨w', hw', e2⟩ := g v hv
    have a1 := hmin' ⟨v', hv', rfl⟩
    have a2 := hmin ⟨w', hw', rfl⟩
    rw [e1] at a1
    rw [e2] at a2
    rw [hd, hd', _root_.le_antisymm a1 a2]

/-- The open-end distance is the least cost of a warping function that starts at the first pair and ends anywhere. -/
theorem FnRules.prefixes {jump : Nat → Nat → Prop} (hF : FnRules rs jump)
    (h : Problem a n m (fun i j => fin (ℓ i j)) W p rs) (hob : a.openBegin = false) (hoe : a.openEnd = true)
    (hh : p.hint = "N") :
    ComputesLeast a (fun f => ∃ j < m, IsWarpFn jump W n j f) (fnCost ℓ n) := by
  have hn := h.n_pos
  obtain ⟨n, rfl⟩ : ∃ n', n = n' + 1 := ⟨n - 1, by omega⟩
  constructor
  · rw [C20_open_end_succeeds_any exact_idempotent h hob hoe (by rw [hh]; decide) (fun q _ => by simp [Arith.exact])
      (by simp)]
    constructor
    · rintro ⟨ks, j, c, hj, hp, _⟩
      obtain ⟨f, hf, _⟩ := hF.toFn hp
      exact ⟨f, j, hj, hf⟩
    · rintro ⟨f, j, hj, hf⟩
      obtain ⟨ks, hp⟩ := hF.toPath (ℓ := ℓ) n j hf
      exact ⟨ks, j, _, hj, hp, usable_fin _⟩
  · intro r hr
    obtain ⟨j, ks, _, hj, hp, hnd, hmin, _⟩ := C20_open_end_optimal h hob hoe hr
    obtain ⟨f, hf, hd⟩ := hF.toFn hp
    refine ⟨_, hd, ⟨f, ⟨j, hj, hf⟩, rfl⟩, ?_⟩
    rintro c ⟨g, ⟨j', hj', hg⟩, rfl⟩
    obtain ⟨ks', hp'⟩ := hF.toPath (ℓ := ℓ) n j' hg
    have := (hmin ks' j' _ hj' hp' (by simp)).2.2
    rw [hnd, hd, hh] at this
    have hpos : (0 : ℚ) < ((n + 1 : Nat) : ℚ) := by positivity
    have eN : ∀ j' c, normBy Arith.exact "N" (n + 1) j' c = Arith.exact.divQ c ((n + 1 : Nat) : ℚ) := fun _ _ => rfl
    rw [eN, eN] at this
    simp only [Arith.divQ, if_neg hpos.ne', Arith.exact, F64.lt, decide_eq_false_iff_not, not_lt] at this
    exact (div_le_div_iff_of_pos_right hpos).1 this

/-- C20.  `asymmetric` with an open end (and closed begin): the distance is the least sum of local costs over the ways of
matching every query element, in order, with steps of 0, 1 or 2, to a beginning of the reference of any length. -/
theorem C20_asymmetric_prefix (h : Problem a n m (fun i j => fin (ℓ i j)) W Pat.asymmetric (rulesOf Pat.asymmetric))
    (hob : a.openBegin = false) (hoe : a.openEnd = true) :
    ComputesLeast a
      (fun f : Nat → Nat => f 0 = 0 ∧ (∀ i < n, f i < m) ∧ (∀ i, i + 1 < n → f i ≤ f (i + 1) ∧ f (i + 1) ≤ f i + 2) ∧
        ∀ i, i + 1 < n → W (i + 1) (f (i + 1)) = true)
      (fnCost ℓ n) := by
  have hn := h.n_pos
  have := asymmetric_fnRules.prefixes h hob hoe (by decide +kernel)
  have e : ∀ f, (∃ j < m, IsWarpFn (fun j j' => j ≤ j' ∧ j' ≤ j + 2) W n j f) ↔
      (f 0 = 0 ∧ (∀ i < n, f i < m) ∧ (∀ i, i + 1 < n → f i ≤ f (i + 1) ∧ f (i + 1) ≤ f i + 2) ∧
        ∀ i, i + 1 < n → W (i + 1) (f (i + 1)) = true) := by
    intro f
    constructor
    · rintro ⟨j, hj, hf⟩
      refine ⟨hf.first, ?_, hf.jumps, hf.window⟩
      have hle : ∀ k i, i + k = n - 1 → f i ≤ j := by
        intro k
        induction k with
        | zero => intro i hi; rw [← hf.last]; simp only [Nat.add_zero] at hi; rw [hi]
        | succ k ih => intro i hi; exact (hf.jumps i (by omega)).1.trans (ih (i + 1) (by omega))
      exact fun i hi => lt_of_le_of_lt (hle (n - 1 - i) i (by omega)) hj
    · rintro ⟨h1, h2, h3, h4⟩
      exact ⟨f (n - 1), h2 _ (by omega), h1, rfl, h3, h4⟩
  unfold ComputesLeast at this ⊢
  simpa only [e] using this

/-- C20.  `rigid` with an open end: no warping and no choice — element `i` is matched to element `i`. -/
theorem C20_rigid_prefix (h : Problem a n m (fun i j => fin (ℓ i j)) (fun _ _ => true) Pat.rigid (rulesOf Pat.rigid))
    (hob : a.openBegin = false) (hoe : a.openEnd = true) :
    ((∃ r, dtw Arith.exact a = .ok r) ↔ n ≤ m) ∧
    ∀ r, dtw Arith.exact a = .ok r → r.distance = fin ((List.range n).map fun i => ℓ i i).sum := by
  have hn := h.n_pos
  obtain ⟨h1, h2⟩ := rigid_fnRules.prefixes h hob hoe (by decide +kernel)
  have key : ∀ {f j}, IsWarpFn (fun j j' => j' = j + 1) (fun _ _ => true) n j f → ∀ i < n, f i = i := by
    intro f j hf i
    induction i with
    | zero => intro _; exact hf.first
    | succ i ih => intro hi; rw [hf.jumps i hi, ih (by omega)]
  constructor
  · rw [h1]
    constructor
    · rintro ⟨f, j, hj, hf⟩
      have := key hf (n - 1) (by omega)
      rw [hf.last] at this
      omega
    · intro hnm
      exact ⟨id, n - 1, by omega, rfl, rfl, fun _ _ => rfl, fun _ _ => rfl⟩
  · intro r hr
    obtain ⟨d, hd, ⟨f, ⟨j, _, hf⟩, rfl⟩, _⟩ := h2 r hr
    rw [hd, fnCost_congr ℓ (g := fun i => i) (key hf)]
    rfl

/-! ### Reversal -/

theorem fnCost_flip {f : Nat → Nat} (hf : ∀ i < n, f i < m)
    (hℓ : ∀ i < n, ∀ j < m, ℓ' i j = ℓ (n - 1 - i) (m - 1 - j)) :
    fnCost ℓ' n (fun i => m - 1 - f (n - 1 - i)) = fnCost ℓ n f := by
  unfold fnCost
  rw [← List.sum_reverse, ← List.map_reverse]
  have hrev : (List.range n).reverse = (List.range n).map fun i => n - 1 - i := by
    apply List.ext_getElem
    · simp
    · intro k h1 h2
      simp
  rw [hrev, List.map_map]
  congr 1
  apply List.map_congr_left
  intro i hi
  have hi := List.mem_range.1 hi
  have h1 := hf i hi
  simp only [Function.comp_apply]
  rw [show n - 1 - (n - 1 - i) = i by omega, hℓ _ (by omega) _ (by omega),
    show n - 1 - (n - 1 - i) = i by omega, show m - 1 - (m - 1 - f i) = f i by omega]

theorem flip_back (hℓ : ∀ i < n, ∀ j < m, ℓ' i j = ℓ (n - 1 - i) (m - 1 - j)) :
    ∀ i < n, ∀ j < m, ℓ i j = ℓ' (n - 1 - i) (m - 1 - j) := by
  intro i hi j hj
  rw [hℓ _ (by omega) _ (by omega), show n - 1 - (n - 1 - i) = i by omega, show m - 1 - (m - 1 - j) = j by omega]

/-- C56, open ends.  With `asymmetric`, an open-begin alignment of two series and an open-end alignment of the two
reversed series agree in success and distance.  The window of the open-begin call has its rows shifted by one (the null
row); it must contain the corner where the open-begin alignment is anchored. -/
theorem C56_reversal_open
    (h : Problem a n m (fun i j => fin (ℓ i j)) W Pat.asymmetric (rulesOf Pat.asymmetric))
    (h' : Problem a' n m (fun i j => fin (ℓ' i j)) W' Pat.asymmetric (rulesOf Pat.asymmetric))
    (hob : a.openBegin = true) (hoe : a.openEnd = false) (hdo : a.distanceOnly = false)
    (hob' : a'.openBegin = false) (hoe' : a'.openEnd = true)
    (hc : W n (m - 1) = true)
    (hℓ : ∀ i < n, ∀ j < m, ℓ' i j = ℓ (n - 1 - i) (m - 1 - j))
    (hW : ∀ i < n, ∀ j < m, W' i j = W (n - i) (m - 1 - j)) :
    ((∃ r, dtw Arith.exact a = .ok r) ↔ ∃ r', dtw Arith.exact a' = .ok r') ∧
    ∀ r r', dtw Arith.exact a = .ok r → dtw Arith.exact a' = .ok r' → r'.distance = r.distance := by
  have hn := h.n_pos
  have hm := h.m_pos
  refine ComputesLeast.transfer (C59_asymmetric h hob hdo) (C20_asymmetric_prefix h' hob' hoe') ?_ ?_
  · rintro f ⟨h1, h2, h3, h4⟩
    refine ⟨fun i => m - 1 - f (n - 1 - i), ⟨?_, ?_, ?_, ?_⟩, fnCost_flip h1 hℓ⟩
    · simp only [Nat.sub_zero, h4 hoe, Nat.sub_self]
    · intro i hi; simp only; omega
    · intro i hi
      have hj := h2 (n - 1 - (i + 1)) (by omega)
      rw [show n - 1 - (i + 1) + 1 = n - 1 - i by omega] at hj
      have := h1 (n - 1 - i) (by omega)
      simp only; omega
    · intro i hi
      have hj := h1 (n - 1 - (i + 1)) (by omega)
      have hw := h3 (n - 1 - (i + 1)) (by omega)
      simp only
      rw [hW _ hi _ (by omega), show m - 1 - (m - 1 - f (n - 1 - (i + 1))) = f (n - 1 - (i + 1)) by omega,
        show n - (i + 1) = n - 1 - (i + 1) + 1 by omega]
      exact hw
  · rintro f ⟨h1, h2, h3, h4⟩
    refine ⟨fun i => m - 1 - f (n - 1 - i), ⟨?_, ?_, ?_, ?_⟩, fnCost_flip h2 (flip_back hℓ)⟩
    · intro i hi; simp only; omega
    · intro i hi
      have hj := h3 (n - 1 - (i + 1)) (by omega)
      rw [show n - 1 - (i + 1) + 1 = n - 1 - i by omega] at hj
      have := h2 (n - 1 - i) (by omega)
      simp only; omega
    · intro i hi
      simp only
      rcases Nat.eq_zero_or_pos (n - 1 - i) with h0 | h0
      · rw [h0, h1, Nat.sub_zero, show i + 1 = n by omega]; exact hc
      · have hw := h4 (n - 1 - i - 1) (by omega)
        rw [show n - 1 - i - 1 + 1 = n - 1 - i by omega, hW _ (by omega) _ (h2 _ (by omega)),
          show n - (n - 1 - i) = i + 1 by omega] at hw
        exact hw
    · intro _
      simp only [Nat.sub_self, h1, Nat.sub_zero]

/-- C56, both ends open: the search for the best placement does not depend on the direction of time. -/
theorem C56_reversal_open_both
    (h : Problem a n m (fun i j => fin (ℓ i j)) W Pat.asymmetric (rulesOf Pat.asymmetric))
    (h' : Problem a' n m (fun i j => fin (ℓ' i j)) W' Pat.asymmetric (rulesOf Pat.asymmetric))
    (hob : a.openBegin = true) (hoe : a.openEnd = true) (hdo : a.distanceOnly = false)
    (hob' : a'.openBegin = true) (hoe' : a'.openEnd = true) (hdo' : a'.distanceOnly = false)
    (hℓ : ∀ i < n, ∀ j < m, ℓ' i j = ℓ (n - 1 - i) (m - 1 - j))
    (hW : ∀ i < n, ∀ j < m, W' (i + 1) j = W (n - i) (m - 1 - j)) :
    ((∃ r, dtw Arith.exact a = .ok r) ↔ ∃ r', dtw Arith.exact a' = .ok r') ∧
    ∀ r r', dtw Arith.exact a = .ok r → dtw Arith.exact a' = .ok r' → r'.distance = r.distance := by
  have hn := h.n_pos
  have hm := h.m_pos
  have hW' : ∀ i < n, ∀ j < m, W (i + 1) j = W' (n - i) (m - 1 - j) := by
    intro i hi j hj
    rw [show n - i = n - 1 - i + 1 by omega, hW _ (by omega) _ (by omega), show n - (n - 1 - i) = i + 1 by omega,
      show m - 1 - (m - 1 - j) = j by omega]
  have flip : ∀ {b b' : Args} {W W' : Nat → Nat → Bool} (_ : b'.openEnd = true)
      (_ : ∀ i < n, ∀ j < m, W' (i + 1) j = W (n - i) (m - 1 - j)) (f : Nat → Nat),
      ((∀ i < n, f i < m) ∧ (∀ i, i + 1 < n → f i ≤ f (i + 1) ∧ f (i + 1) ≤ f i + 2) ∧
        (∀ i < n, W (i + 1) (f i) = true) ∧ (b.openEnd = false → f (n - 1) = m - 1)) →
      (∀ i < n, m - 1 - f (n - 1 - i) < m) ∧
        (∀ i, i + 1 < n → m - 1 - f (n - 1 - i) ≤ m - 1 - f (n - 1 - (i + 1)) ∧
          m - 1 - f (n - 1 - (i + 1)) ≤ m - 1 - f (n - 1 - i) + 2) ∧
        (∀ i < n, W' (i + 1) (m - 1 - f (n - 1 - i)) = true) ∧
        (b'.openEnd = false → m - 1 - f (n - 1 - (n - 1)) = m - 1) := by
    rintro b b' W W' hb hW f ⟨h1, h2, h3, -⟩
    refine ⟨fun i hi => by omega, ?_, ?_, fun hc => by rw [hb] at hc; cases hc⟩
    · intro i hi
      have hj := h2 (n - 1 - (i + 1)) (by omega)
      rw [show n - 1 - (i + 1) + 1 = n - 1 - i by omega] at hj
      have := h1 (n - 1 - i) (by omega)
      omega
    · intro i hi
      have hj := h1 (n - 1 - i) (by omega)
      rw [hW _ hi _ (by omega), show m - 1 - (m - 1 - f (n - 1 - i)) = f (n - 1 - i) by omega,
        show n - i = n - 1 - i + 1 by omega]
      exact h3 _ (by omega)
  exact ComputesLeast.transfer (C59_asymmetric h hob hdo) (C59_asymmetric h' hob' hdo')
    (fun f hf => ⟨_, flip (b := a) hoe' hW f hf, fnCost_flip hf.1 hℓ⟩)
    (fun f hf => ⟨_, flip (b := a') hoe hW' f hf, fnCost_flip hf.1 (flip_back hℓ)⟩)

theorem gap_reverse (x y : List ℚ) {i j : Nat} (hi : i < x.length) (hj : j < y.length) :
    gap x.reverse y.reverse i j = gap x y (x.length - 1 - i) (y.length - 1 - j) := by
  unfold gap
  have e : ∀ (z : List ℚ) (k : Nat), k < z.length → z.reverse.getD k 0 = z.getD (z.length - 1 - k) 0 := by
    intro z k hk
    simp only [List.getD_eq_getElem?_getD, List.getElem?_reverse hk]
  rw [e x i hi, e y j hj]

/-- C56, for series without window: `dtw(x, y, step_pattern="asymmetric", open_begin=True)` and
`dtw(x[::-1], y[::-1], step_pattern="asymmetric", open_end=True)` agree in success and distance; so do the two searches
with both ends open. -/
theorem C56_reversal_series {o o' : Args} (x y : List ℚ) (hx : x ≠ []) (hy : y ≠ [])
    (hs : (x.length + 1) * y.length < 2147483648)
    (hp : o.stepPattern = .name "asymmetric") (hp' : o'.stepPattern = .name "asymmetric")
    (hw : canonWindow o.windowType = .noWindow) (hw' : canonWindow o'.windowType = .noWindow)
    (hdo : o.distanceOnly = false) (hdo' : o'.distanceOnly = false) (hob : o.openBegin = true)
    (hflip : (o.openEnd = false ∧ o'.openBegin = false ∧ o'.openEnd = true) ∨
      (o.openEnd = true ∧ o'.openBegin = true ∧ o'.openEnd = true)) :
    ((∃ r, dtw Arith.exact (ask o x y) = .ok r) ↔ ∃ r', dtw Arith.exact (ask o' x.reverse y.reverse) = .ok r') ∧
    ∀ r r', dtw Arith.exact (ask o x y) = .ok r → dtw Arith.exact (ask o' x.reverse y.reverse) = .ok r' →
      r'.distance = r.distance := by
  have hxl := List.length_pos_iff.2 hx
  have hyl := List.length_pos_iff.2 hy
  have h1 : Sensible o x.length y.length (fun _ _ => true) ("asymmetric", Pat.asymmetric) :=
    sensible_free hxl hyl hs Ex.asym_mem hp hw
  have h2 : Sensible o' x.reverse.length y.reverse.length (fun _ _ => true) ("asymmetric", Pat.asymmetric) :=
    sensible_free (by simpa using hxl) (by simpa using hyl) (by simpa using hs) Ex.asym_mem hp' hw'
  have p1 := ask_problem h1
  have p2 := ask_problem h2
  rw [List.length_reverse, List.length_reverse] at p2
  rcases hflip with ⟨e1, e2, e3⟩ | ⟨e1, e2, e3⟩
  · exact C56_reversal_open p1 p2 hob e1 hdo e2 e3 rfl (fun i hi j hj => gap_reverse x y hi hj) (fun _ _ _ _ => rfl)
  · exact C56_reversal_open_both p1 p2 hob e1 hdo e2 e3 hdo' (fun i hi j hj => gap_reverse x y hi hj)
      (fun _ _ _ _ => rfl)

/-! ### Concrete cases -/

def Ex.tail : Args := { x := .d1 [], stepPattern := .name "asymmetric", openBegin := true }
def Ex.lead : Args := { x := .d1 [], stepPattern := .name "asymmetric", openEnd := true }

/-- C56: the query `[1,4,4]` in the reference `[9,1,4,5]`, anchored at the end, and its mirror image, anchored at the
beginning: both calls succeed, with distance 1, where the closed call gives another value. -/
theorem C56_reversal_example :
    (dtw Arith.exact (ask Ex.tail [1, 4, 4] [9, 1, 4, 5])).toOption.map (·.distance) = some (fin 1) ∧
    (dtw Arith.exact (ask Ex.lead [1, 4, 4].reverse [9, 1, 4, 5].reverse)).toOption.map (·.distance) = some (fin 1) ∧
    (dtw Arith.exact (ask { Ex.lead with openEnd := false } [1, 4, 4] [9, 1, 4, 5])).toOption.map (·.distance) =
      some (fin 9) := by decide +kernel

/-- C56, negative witness: `rigid` does not exchange the two options.  With an open begin it cannot start at the first
reference element (every rule leaving the null row advances), with an open end it can stop at the last: for series of
equal length the open-begin call fails and the mirrored open-end call succeeds. -/
theorem C56_rigid_not_exchanged :
    (dtw Arith.exact (ask { Ex.tail with stepPattern := .name "rigid" } [1, 4] [2, 7])).isOk = false ∧
    (dtw Arith.exact (ask { Ex.lead with stepPattern := .name "rigid" } [4, 1] [7, 2])).toOption.map (·.distance) =
      some (fin 4) := by decide +kernel

end DTW
