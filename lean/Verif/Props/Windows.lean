import Verif.Proofs.ReachProof
import Verif.Props.Optimal
import Verif.Props.PathShape
import Verif.Proofs.SlantedProof

/-!
# C37, C38: the bundled windows
-/

namespace DTW
open F64

variable {A : Arith} {rs : List Rule} {W : Nat → Nat → Bool} {n m : Nat} {p : StepPattern}
  {a : Args} {r : Result} {L : Nat → Nat → F64} {ℓ : Nat → Nat → ℚ} {w : ℚ}

/-- The moves of the symmetric recursions: one element of either series, or one of both. -/
structure FreeMoves (rs : List Rule) : Prop where
  right : HasMove rs 0 1
  down : HasMove rs 1 0
  diag : HasMove rs 1 1

/-- symmetric1 and symmetric2 have the free moves. -/
theorem C37_C38_free_moves : FreeMoves (rulesOf Pat.symmetric1) ∧ FreeMoves (rulesOf Pat.symmetric2) :=
  ⟨⟨by decide +kernel, by decide +kernel, by decide +kernel⟩, ⟨by decide +kernel, by decide +kernel, by decide +kernel⟩⟩

/-- The call uses the window `name` with no argument or with `window_size = w`. -/
structure Uses (a : Args) (name : String) (args : WinArgs) : Prop where
  type : a.windowType = .name name
  args : a.windowArgs = args

theorem window_of_uses {name : String} {args : WinArgs} (h : Problem a n m L W p rs) (hu : Uses a name args)
    (hne : canonWindow (.name name) ≠ .noWindow) :
    ∀ i < gridRows a n, ∀ j < m, (canonWindow (.name name)).call args (gridRows a n) m i j = .ok (W i j) := by
  rcases h.window with ⟨h1, _⟩ | ⟨_, h2⟩
  · rw [hu.type] at h1; exact absurd h1 hne
  · rw [hu.type, hu.args] at h2; exact h2

theorem gridRows_closed (hob : a.openBegin = false) : gridRows a n = n := by simp [gridRows, hob]

/-- A closed-end call whose final cell is outside the window raises (unless the problem is 1 × 1: the single
cell is the start of every alignment and is never checked). -/
theorem end_outside_raises (h : Problem a n m L W p rs) (hob : a.openBegin = false) (hoe : a.openEnd = false)
    (h1 : 1 < n ∨ 1 < m) (hW : W (n - 1) (m - 1) = false) :
    dtw A a = .error (.valueError "No warping path found compatible with the local constraints") := by
  rw [(C02_no_path_iff h hob hoe).1]
  have hn := h.n_pos
  have hm := h.m_pos
  refine ⟨?_, by omega⟩
  rintro ⟨ks, c, hp, _⟩
  have := Reach.window ⟨ks, hp.toRulePath⟩ (by omega)
  rw [hW] at this
  simp at this

/-! ### Sakoe-Chiba -/

/-- **C37** (which cells).  With `window_type="sakoechiba", window_args={"window_size": w}` the admitted cells
of a closed-begin call are exactly those with `|i-j| ≤ w`. -/
theorem C37_cells (h : Problem a n m L W p rs) (hob : a.openBegin = false)
    (hu : Uses a "sakoechiba" [("window_size", w)]) {i j : Nat} (hi : i < n) (hj : j < m) :
    W i j = true ↔ |(i : ℚ) - j| ≤ w := by
  have := window_of_uses h hu (by simp [canonWindow]) i (by rw [gridRows_closed hob]; exact hi) j hj
  simp only [canonWindow, WinFn.call] at this
  simp only [String.reduceEq, if_false, if_true, Except.ok.injEq] at this
  rw [← this]
  simp only [sakoeChibaVal, decide_eq_true_eq]
  push_cast
  rw [abs_sub_comm]

/-- **C37** (open begin).  With open begin the band is measured from the null row, i.e. it is shifted by one
query element: the admitted cells are `|i+1-j| ≤ w` (`i` the query index). -/
theorem C37_cells_open_begin (h : Problem a n m L W p rs) (hob : a.openBegin = true)
    (hu : Uses a "sakoechiba" [("window_size", w)]) {i j : Nat} (hi : i < n) (hj : j < m) :
    W (i + 1) j = true ↔ |((i : ℚ) + 1) - j| ≤ w := by
  have := window_of_uses h hu (by simp [canonWindow]) (i + 1) (by simp [gridRows, hob]; exact hi) j hj
  simp only [canonWindow, WinFn.call] at this
  simp only [String.reduceEq, if_false, if_true, Except.ok.injEq] at this
  rw [← this]
  simp only [sakoeChibaVal, decide_eq_true_eq]
  push_cast
  rw [abs_sub_comm]

/-- C37: every corner point of the alignment lies in the band (`w ≥ 0`). -/
theorem C37_alignment_in_band {mp : Mapping} (h : Problem a n m L W p rs) (hob : a.openBegin = false)
    (hu : Uses a "sakoechiba" [("window_size", w)]) (hw : 0 ≤ w) (hr : dtw A a = .ok r)
    (hmp : r.mapping = some mp) : ∀ u ∈ mp.index1s.zip mp.index2s, |(u.1 : ℚ) - u.2| ≤ w := by
  intro u hu'
  have h04 := C04_end_points h hob hr hmp
  have h10 := C10_window_respected h hob hr hmp
  cases hl : mp.index1s.zip mp.index2s with
  | nil => rw [hl] at hu'; simp at hu'
  | cons x xs =>
    rw [hl] at hu' h10
    rcases List.mem_cons.1 hu' with rfl | hm
    · have e : u = (0, 0) := by
        have h1 := h04.2.2.2.1
        have h2 := h04.2.2.2.2.1
        cases h3 : mp.index1s with
        | nil => rw [h3] at h1; simp at h1
        | cons y ys =>
          cases h4 : mp.index2s with
          | nil => rw [h4] at h2; simp at h2
          | cons z zs =>
            rw [h3] at h1 hl
            rw [h4] at h2 hl
            simp only [List.head?_cons, Option.some.injEq] at h1 h2
            rw [List.zip_cons_cons] at hl
            rw [← (List.cons.inj hl).1, h1, h2]
      rw [e]; simpa using hw
    · obtain ⟨i, j, rfl, hi, hj, hW⟩ := h10 u hm
      simpa using (C37_cells h hob hu hi hj).1 hW

/-- **C37** (too narrow).  If the lengths differ by more than the band width, a closed-begin closed-end
alignment always raises (every pattern, every cost matrix, every rounding). -/
theorem C37_too_narrow_raises (h : Problem a n m L W p rs) (hob : a.openBegin = false)
    (hoe : a.openEnd = false) (hu : Uses a "sakoechiba" [("window_size", w)]) (h1 : 1 < n ∨ 1 < m)
    (hw : w < |(n : ℚ) - m|) :
    dtw A a = .error (.valueError "No warping path found compatible with the local constraints") := by
  have hn := h.n_pos
  have hm := h.m_pos
  refine end_outside_raises h hob hoe h1 ?_
  by_contra hc
  have := (C37_cells h hob hu (i := n - 1) (j := m - 1) (by omega) (by omega)).1 (by simpa using hc)
  rw [Nat.cast_sub hn, Nat.cast_sub hm] at this
  simp only [Nat.cast_one, sub_sub_sub_cancel_right] at this
  exact absurd this (not_le.2 hw)

theorem band_le {i j n m : Nat} (hc : i ≤ j ∧ j - i ≤ m - n ∨ j ≤ i ∧ i - j ≤ n - m) :
    |(i : ℚ) - j| ≤ |(n : ℚ) - m| := by
  have key : ((|(i : Int) - j| : Int) : ℚ) ≤ ((|(n : Int) - m| : Int) : ℚ) := by
    have : |(i : Int) - j| ≤ |(n : Int) - m| := by
      rcases abs_cases ((i : Int) - j) with ⟨e1, _⟩ | ⟨e1, _⟩ <;>
        rcases abs_cases ((n : Int) - m) with ⟨e2, _⟩ | ⟨e2, _⟩ <;> rw [e1, e2] <;> omega
    exact_mod_cast this
  push_cast at key
  exact key

/-- **C37** (wide enough).  Otherwise, with a recursion that has the free moves (symmetric1, symmetric2, …),
finite costs and exact arithmetic, the alignment always succeeds. -/
theorem C37_wide_enough_succeeds (h : Problem a n m (fun i j => fin (ℓ i j)) W p rs) (hob : a.openBegin = false)
    (hoe : a.openEnd = false) (hu : Uses a "sakoechiba" [("window_size", w)]) (hf : FreeMoves rs)
    (hw : |(n : ℚ) - m| ≤ w) : ∃ r, dtw Arith.exact a = .ok r := by
  rw [exact_success_iff h hob hoe]
  have hn := h.n_pos
  have hm := h.m_pos
  have cells : ∀ i j : Nat, i < n → j < m → (i ≤ j ∧ j - i ≤ m - n ∨ j ≤ i ∧ i - j ≤ n - m) → W i j = true := by
    intro i j hi hj hc
    rw [C37_cells h hob hu hi hj]
    exact le_trans (band_le hc) hw
  have hdiag : Reach rs W (0 + (min n m - 1) * 1) (0 + (min n m - 1) * 1) :=
    Reach.start.repeat hf.diag _ fun s _ hs => cells _ _ (by omega) (by omega) (by omega)
  simp only [Nat.zero_add, Nat.mul_one] at hdiag
  rcases Nat.le_total n m with hle | hle
  · have := hdiag.repeat hf.right (m - n) fun s _ hs => cells _ _ (by omega) (by omega) (by omega)
    have e1 : min n m - 1 + (m - n) * 0 = n - 1 := by omega
    have e2 : min n m - 1 + (m - n) * 1 = m - 1 := by omega
    rw [e1, e2] at this
    exact this
  · have := hdiag.repeat hf.down (n - m) fun s _ hs => cells _ _ (by omega) (by omega) (by omega)
    have e1 : min n m - 1 + (n - m) * 0 = m - 1 := by omega
    have e2 : min n m - 1 + (n - m) * 1 = n - 1 := by omega
    rw [e1, e2] at this
    exact this

/-- **C37** (asymmetric).  The same for the asymmetric recursion (moves `(1,0)`, `(1,1)`, `(1,2)`): it succeeds
when the band is wide enough and the reference is at most twice as long as the query. -/
theorem C37_asymmetric_succeeds (h : Problem a n m (fun i j => fin (ℓ i j)) W p rs) (hob : a.openBegin = false)
    (hoe : a.openEnd = false) (hu : Uses a "sakoechiba" [("window_size", w)])
    (hd : HasMove rs 1 0) (hg : HasMove rs 1 1) (hs : HasMove rs 1 2)
    (hw : |(n : ℚ) - m| ≤ w) (hnm : m - 1 ≤ 2 * (n - 1)) : ∃ r, dtw Arith.exact a = .ok r := by
  rw [exact_success_iff h hob hoe]
  have hn := h.n_pos
  have hm := h.m_pos
  have cells : ∀ i j : Nat, i < n → j < m → (i ≤ j ∧ j - i ≤ m - n ∨ j ≤ i ∧ i - j ≤ n - m) → W i j = true := by
    intro i j hi hj hc
    rw [C37_cells h hob hu hi hj]
    exact le_trans (band_le hc) hw
  rcases Nat.le_total n m with hle | hle
  · have h1 := Reach.start.repeat (W := W) hs (m - n) fun s _ hs => cells _ _ (by omega) (by omega) (by omega)
    have h2 := h1.repeat hg (n - 1 - (m - n)) fun s _ hs => cells _ _ (by omega) (by omega) (by omega)
    have e1 : 0 + (m - n) * 1 + (n - 1 - (m - n)) * 1 = n - 1 := by omega
    have e2 : 0 + (m - n) * 2 + (n - 1 - (m - n)) * 1 = m - 1 := by omega
    rw [e1, e2] at h2
    exact h2
  · have h1 := Reach.start.repeat (W := W) hg (m - 1) fun s _ hs => cells _ _ (by omega) (by omega) (by omega)
    have h2 := h1.repeat hd (n - m) fun s _ hs => cells _ _ (by omega) (by omega) (by omega)
    have e1 : 0 + (m - 1) * 1 + (n - m) * 1 = n - 1 := by omega
    have e2 : 0 + (m - 1) * 1 + (n - m) * 0 = m - 1 := by omega
    rw [e1, e2] at h2
    exact h2

/-! ### Itakura -/

/-- **C38** (Itakura: which cells). -/
theorem C38_itakura_cells (h : Problem a n m L W p rs) (hob : a.openBegin = false) (hu : Uses a "itakura" [])
    {i j : Nat} (hi : i < n) (hj : j < m) :
    W i j = true ↔ (j : Int) < 2 * i ∧ (i : Int) ≤ 2 * j ∧ (n : Int) - 1 - i ≤ 2 * (m - j) ∧
      (m : Int) - 1 - j < 2 * (n - i) := by
  have := window_of_uses h hu (by simp [canonWindow]) i (by rw [gridRows_closed hob]; exact hi) j hj
  simp only [canonWindow, WinFn.call, gridRows_closed hob] at this
  simp only [String.reduceEq, if_false, if_true, Except.ok.injEq] at this
  rw [← this]
  simp only [itakuraVal, Bool.and_eq_true, decide_eq_true_eq]
  omega

/-- C38: the Itakura window never admits the cell `(0,0)` where every alignment starts, nor any other cell of
the first query row. -/
theorem C38_itakura_excludes_start (h : Problem a n m L W p rs) (hob : a.openBegin = false)
    (hu : Uses a "itakura" []) {j : Nat} (hj : j < m) : W 0 j = false := by
  by_contra hc
  have := (C38_itakura_cells h hob hu h.n_pos hj).1 (by simpa using hc)
  omega

/-- **C38** (Itakura: infeasible shapes).  If the reference is at least twice as long as the query
(`M-1 ≥ 2(N-1)`) or the query more than twice as long as the reference (`N-1 > 2(M-1)`), a closed-end
alignment raises. -/
theorem C38_itakura_raises (h : Problem a n m L W p rs) (hob : a.openBegin = false) (hoe : a.openEnd = false)
    (hu : Uses a "itakura" []) (h1 : 1 < n ∨ 1 < m) (hnm : 2 * (n - 1) ≤ m - 1 ∨ 2 * (m - 1) < n - 1) :
    dtw A a = .error (.valueError "No warping path found compatible with the local constraints") := by
  have hn := h.n_pos
  have hm := h.m_pos
  refine end_outside_raises h hob hoe h1 ?_
  by_contra hc
  have := (C38_itakura_cells h hob hu (i := n - 1) (j := m - 1) (by omega) (by omega)).1 (by simpa using hc)
  omega

/-- **C38** (Itakura: feasible shapes).  In all other cases, with the free moves, finite costs and exact
arithmetic, it succeeds. -/
theorem C38_itakura_succeeds (h : Problem a n m (fun i j => fin (ℓ i j)) W p rs) (hob : a.openBegin = false)
    (hoe : a.openEnd = false) (hu : Uses a "itakura" []) (hf : FreeMoves rs)
    (h1 : m - 1 < 2 * (n - 1)) (h2 : n - 1 ≤ 2 * (m - 1)) : ∃ r, dtw Arith.exact a = .ok r := by
  rw [exact_success_iff h hob hoe]
  have hn := h.n_pos
  have hm := h.m_pos
  have cells := fun i j (hi : i < n) (hj : j < m) => C38_itakura_cells h hob hu hi hj
  have s1 : Reach rs W (0 + 1) (0 + 1) :=
    Reach.start.step hf.diag ((cells 1 1 (by omega) (by omega)).2 (by omega))
  refine Reach.progress (n := n) (m := m) (P := fun i j => (j : Int) < 2 * i ∧ (i : Int) ≤ 2 * j ∧
      (n : Int) - 1 - i ≤ 2 * (m - j) ∧ (m : Int) - 1 - j < 2 * (n - i))
    (fun i j hi hj hP => (cells i j hi hj).2 hP) ?_ _ 1 1 rfl (by omega) (by omega) (by omega) s1
  intro i j hi hj hP hne
  by_cases c1 : n - 1 - i = 2 * (m - 1 - j) + 2
  · exact ⟨1, 0, hf.down, by omega, by omega, by omega, by omega⟩
  · by_cases c2 : m - 1 - j = 2 * (n - 1 - i) + 1
    · exact ⟨0, 1, hf.right, by omega, by omega, by omega, by omega⟩
    · by_cases c3 : j = m - 1
      · exact ⟨1, 0, hf.down, by omega, by omega, by omega, by omega⟩
      · exact ⟨1, 1, hf.diag, by omega, by omega, by omega, by omega⟩

/-! ### Slanted band -/

theorem slanted_of_uses (h : Problem a n m L W p rs) (hob : a.openBegin = false)
    (hu : Uses a "slantedband" [("window_size", w)]) {i j : Nat} (hi : i < n) (hj : j < m) :
    W i j = slantedBandVal w n m i j := by
  have := window_of_uses h hu (by simp [canonWindow]) i (by rw [gridRows_closed hob]; exact hi) j hj
  simp only [canonWindow, WinFn.call, gridRows_closed hob] at this
  simp only [String.reduceEq, if_false, if_true, Except.ok.injEq] at this
  rw [← this]

theorem cells_fit (h : Problem a n m L W p rs) (hob : a.openBegin = false) : n * m < 2147483648 := by
  have := h.fits.cells
  rw [gridRows_closed hob] at this
  exact this

/-- **C38** (slanted band: which cells).  With an integer `window_size` the band, although the code computes it in double
precision, is exactly the set of cells within `window_size` of the line `j = i*M/N`. -/
theorem C38_slanted_cells {w : ℤ} (h : Problem a n m L W p rs) (hob : a.openBegin = false)
    (hu : Uses a "slantedband" [("window_size", (w : ℚ))]) {i j : Nat} (hi : i < n) (hj : j < m) :
    W i j = true ↔ |(j : ℚ) - i * m / n| ≤ w := by
  rw [slanted_of_uses h hob hu hi hj, slanted_int w (cells_fit h hob) hi hj, decide_eq_true_eq]

/-- **C38** (slanted band, any width).  For any `window_size` the rounding errors of the band amount to at most `M·2^-51`. -/
theorem C38_slanted_cells_near (h : Problem a n m L W p rs) (hob : a.openBegin = false)
    (hu : Uses a "slantedband" [("window_size", w)]) {i j : Nat} (hi : i < n) (hj : j < m) :
    (|(j : ℚ) - i * m / n| ≤ w - m / 2 ^ 51 → W i j = true) ∧
    (W i j = true → |(j : ℚ) - i * m / n| ≤ w + m / 2 ^ 51) := by
  rw [slanted_of_uses h hob hu hi hj]
  exact slanted_near w (cells_fit h hob) hi hj

/-- C38: with a fractional `window_size` a cell on the very edge may be on the wrong side: `M/N = 1/3` and `window_size=1/3`
(the nearest double, which is below one third): the formula excludes the cell, the code includes it. -/
theorem C38_slanted_edge :
    WinFn.call .slantedBand [("window_size", 6004799503160661 / 2 ^ 54)] 3 1 1 0 = .ok true ∧
    ¬ |(0 : ℚ) - 1 * 1 / 3| ≤ 6004799503160661 / 2 ^ 54 := by
  constructor <;> decide +kernel

/-- C38: for equal lengths the slanted band is the Sakoe-Chiba band, whatever its width. -/
theorem C38_slanted_square (h : Problem a n n L W p rs) (hob : a.openBegin = false)
    (hu : Uses a "slantedband" [("window_size", w)]) {i j : Nat} (hi : i < n) (hj : j < n) :
    W i j = true ↔ |(i : ℚ) - j| ≤ w := by
  rw [slanted_of_uses h hob hu hi hj, slanted_square w (cells_fit h hob) hi hj, decide_eq_true_eq, abs_sub_comm]

theorem slanted_end_eq (hn : 0 < n) (hm : 0 < m) :
    (((m - 1 : Nat) : ℚ) - ((n - 1 : Nat) : ℚ) * m / n) = (m : ℚ) / n - 1 := by
  rw [Nat.cast_sub hn, Nat.cast_sub hm]
  have : (n : ℚ) ≠ 0 := by positivity
  push_cast
  field_simp
  ring

/-- C38: the final cell is admitted iff `|M/N - 1| ≤ w` (the centre line ends at `(N,M)`, not `(N-1,M-1)`). -/
theorem C38_slanted_end {w : ℤ} (h : Problem a n m L W p rs) (hob : a.openBegin = false)
    (hu : Uses a "slantedband" [("window_size", (w : ℚ))]) :
    W (n - 1) (m - 1) = true ↔ |(m : ℚ) / n - 1| ≤ w := by
  have hn := h.n_pos
  have hm := h.m_pos
  rw [C38_slanted_cells h hob hu (by omega) (by omega), slanted_end_eq hn hm]

/-- C38: a slanted band narrower than `|M/N - 1|` makes every closed-end alignment raise. -/
theorem C38_slanted_raises {w : ℤ} (h : Problem a n m L W p rs) (hob : a.openBegin = false) (hoe : a.openEnd = false)
    (hu : Uses a "slantedband" [("window_size", (w : ℚ))]) (h1 : 1 < n ∨ 1 < m) (hw : (w : ℚ) < |(m : ℚ) / n - 1|) :
    dtw A a = .error (.valueError "No warping path found compatible with the local constraints") := by
  refine end_outside_raises h hob hoe h1 ?_
  by_contra hc
  exact absurd ((C38_slanted_end h hob hu).1 (by simpa using hc)) (not_le.2 hw)

/-- C38: the same for any width, up to the rounding errors. -/
theorem C38_slanted_raises_any (h : Problem a n m L W p rs) (hob : a.openBegin = false) (hoe : a.openEnd = false)
    (hu : Uses a "slantedband" [("window_size", w)]) (h1 : 1 < n ∨ 1 < m) (hw : w + m / 2 ^ 51 < |(m : ℚ) / n - 1|) :
    dtw A a = .error (.valueError "No warping path found compatible with the local constraints") := by
  have hn := h.n_pos
  have hm := h.m_pos
  refine end_outside_raises h hob hoe h1 ?_
  by_contra hc
  have := (C38_slanted_cells_near h hob hu (i := n - 1) (j := m - 1) (by omega) (by omega)).2 (by simpa using hc)
  rw [slanted_end_eq hn hm] at this
  exact absurd this (not_le.2 hw)

theorem div_bounds (n m i : Nat) (hn : 0 < n) :
    ((i * m / n : Nat) : ℚ) ≤ i * m / n ∧ (i * m : ℚ) / n < ((i * m / n : Nat) : ℚ) + 1 := by
  have hn' : (0 : ℚ) < n := by positivity
  rw [le_div_iff₀ hn', div_lt_iff₀ hn']
  constructor
  · exact_mod_cast Nat.div_mul_le_self (i * m) n
  · have := Nat.lt_div_mul_add (a := i * m) hn
    have h2 : i * m < (i * m / n + 1) * n := by rw [Nat.add_mul]; omega
    exact_mod_cast h2

theorem slanted_suffices (h : Problem a n m (fun i j => fin (ℓ i j)) W p rs) (hob : a.openBegin = false)
    (hoe : a.openEnd = false) (cells : ∀ i j, i < n → j < m → |(j : ℚ) - i * m / n| ≤ w → W i j = true)
    (hf : FreeMoves rs)
    (hw : |(m : ℚ) / n - 1| ≤ w) (hw1 : 1 ≤ w ∨ (n = m ∧ 0 ≤ w)) : ∃ r, dtw Arith.exact a = .ok r := by
  rw [exact_success_iff h hob hoe]
  have hn := h.n_pos
  have hm := h.m_pos
  have hn' : (0 : ℚ) < n := by positivity
  by_cases heq : n = m
  · subst heq
    have hw0 : 0 ≤ w := by rcases hw1 with h1 | h1 <;> linarith
    have := Reach.start.repeat (W := W) hf.diag (n - 1) fun s _ hs => by
      refine cells _ _ (by omega) (by omega) ?_
      rw [Nat.mul_one, Nat.zero_add, mul_div_assoc, div_self hn'.ne', mul_one, sub_self, abs_zero]
      exact hw0
    simp only [Nat.mul_one, Nat.zero_add] at this
    exact this
  have hw1 : 1 ≤ w := by
    rcases hw1 with h1 | h1
    · exact h1
    · exact absurd h1.1 heq
  rcases Nat.le_total n m with hle | hle
  · refine Reach.progress (n := n) (m := m) (P := fun i j => i * m / n ≤ j ∧ j + 1 ≤ (i + 1) * m / n)
      (fun i j hi hj hP => ?_) ?_ _ 0 0 rfl hn hm ⟨by simp, ?_⟩ Reach.start
    · refine cells i j hi hj ?_
      have b1 := div_bounds n m i hn
      have b2 := div_bounds n m (i + 1) hn
      have c1 : ((i * m / n : Nat) : ℚ) ≤ j := by exact_mod_cast hP.1
      have c2 : (j : ℚ) + 1 ≤ (((i + 1) * m / n : Nat) : ℚ) := by exact_mod_cast hP.2
      have e : (((i + 1 : Nat) : ℚ) * m) / n = i * m / n + m / n := by push_cast; ring
      rw [e] at b2
      rw [abs_le] at hw ⊢
      constructor <;> linarith [b1.1, b1.2, b2.1, b2.2, hw.1, hw.2]
    · intro i j hi hj hP hne
      have hmul : (i + 1) * m / n ≤ m := by
        rw [Nat.div_le_iff_le_mul_add_pred hn]
        have := Nat.mul_le_mul_right m (show i + 1 ≤ n by omega)
        omega
      by_cases c : j + 2 ≤ (i + 1) * m / n
      · exact ⟨0, 1, hf.right, by omega, by omega, by omega, by simpa using ⟨by omega, c⟩⟩
      · have hj' : j + 1 = (i + 1) * m / n := by omega
        have hi' : i + 1 < n := by
          by_contra hc
          have : i + 1 = n := by omega
          rw [this, Nat.mul_div_cancel_left m hn] at hj'
          omega
        have hlt : (i + 1) * m / n + 1 ≤ (i + 1 + 1) * m / n := by
          rw [← Nat.add_div_right _ hn]
          exact Nat.div_le_div_right (by rw [Nat.add_mul (i + 1)]; omega)
        have hmul' : (i + 1 + 1) * m / n ≤ m := by
          rw [Nat.div_le_iff_le_mul_add_pred hn]
          have := Nat.mul_le_mul_right m (show i + 1 + 1 ≤ n by omega)
          omega
        exact ⟨1, 1, hf.diag, by omega, hi', by omega, by omega, by omega⟩
    · simp only [Nat.zero_add, Nat.one_mul]
      exact (Nat.one_le_div_iff hn).2 hle
  · have hlast : (n - 1) * m / n = m - 1 := by
      have : (n - 1) * m = (n - m) + n * (m - 1) := by
        obtain ⟨t, rfl⟩ : ∃ t, n = m + t := ⟨n - m, by omega⟩
        obtain ⟨u, rfl⟩ : ∃ u, m = u + 1 := ⟨m - 1, by omega⟩
        simp only [Nat.add_sub_cancel_left, Nat.add_sub_cancel]
        rw [show u + 1 + t - 1 = u + t by omega]
        ring
      rw [this, Nat.add_mul_div_left _ _ hn, Nat.div_eq_of_lt (by omega)]
      omega
    refine Reach.progress (n := n) (m := m) (P := fun i j => j = i * m / n)
      (fun i j hi hj hP => ?_) ?_ _ 0 0 rfl hn hm (by simp) Reach.start
    · refine cells i j hi hj ?_
      have b1 := div_bounds n m i hn
      rw [← hP] at b1
      rw [abs_le]
      constructor <;> linarith [b1.1, b1.2]
    · intro i j hi hj hP hne
      have hi' : i + 1 < n := by
        by_contra hc
        have : i = n - 1 := by omega
        rw [this, hlast] at hP
        exact hne ⟨this, hP⟩
      have h1 : i * m / n ≤ (i + 1) * m / n := Nat.div_le_div_right (Nat.mul_le_mul_right m (by omega))
      have h2 : (i + 1) * m / n ≤ i * m / n + 1 := by
        rw [← Nat.add_div_right _ hn]
        exact Nat.div_le_div_right (by rw [Nat.add_mul]; omega)
      have h3 : (i + 1) * m / n ≤ m - 1 := by
        rw [← hlast]
        exact Nat.div_le_div_right (Nat.mul_le_mul_right m (by omega))
      by_cases c : (i + 1) * m / n = i * m / n
      · exact ⟨1, 0, hf.down, by omega, hi', by omega, by omega⟩
      · exact ⟨1, 1, hf.diag, by omega, hi', by omega, by omega⟩

/-- **C38** (slanted band, sufficient width).  With the free moves, finite costs and exact arithmetic, a
closed-end alignment succeeds as soon as `w`, less the rounding errors, is at least `|M/N - 1|` and at least 1. -/
theorem C38_slanted_succeeds (h : Problem a n m (fun i j => fin (ℓ i j)) W p rs) (hob : a.openBegin = false)
    (hoe : a.openEnd = false) (hu : Uses a "slantedband" [("window_size", w)]) (hf : FreeMoves rs)
    (hw : |(m : ℚ) / n - 1| ≤ w - m / 2 ^ 51) (hw1 : 1 ≤ w - m / 2 ^ 51) : ∃ r, dtw Arith.exact a = .ok r :=
  slanted_suffices h hob hoe (fun _ _ hi hj => (C38_slanted_cells_near h hob hu hi hj).1) hf hw (.inl hw1)

/-- **C38** (slanted band, integer width).  For an integer `window_size`, free moves, finite costs and exact
arithmetic, a closed alignment succeeds iff `|M/N - 1| ≤ window_size`. -/
theorem C38_slanted_iff {w : Nat} (h : Problem a n m (fun i j => fin (ℓ i j)) W p rs) (hob : a.openBegin = false)
    (hoe : a.openEnd = false) (hu : Uses a "slantedband" [("window_size", (w : ℚ))]) (hf : FreeMoves rs) :
    (∃ r, dtw Arith.exact a = .ok r) ↔ |(m : ℚ) / n - 1| ≤ w := by
  have hn := h.n_pos
  have hm := h.m_pos
  have hn' : (0 : ℚ) < n := by positivity
  constructor
  · rintro ⟨r, hr⟩
    by_contra hc
    by_cases h1 : 1 < n ∨ 1 < m
    · rw [C38_slanted_raises (w := w) h hob hoe (by exact_mod_cast hu) h1 (by push_cast; exact not_le.1 hc)] at hr
      simp at hr
    · have e1 : n = 1 := by omega
      have e2 : m = 1 := by omega
      subst e1 e2
      apply hc
      simp
  · intro hw
    refine slanted_suffices h hob hoe (fun _ _ hi hj hc =>
      (C38_slanted_cells (w := w) h hob (by exact_mod_cast hu) hi hj).2 (by exact_mod_cast hc)) hf hw ?_
    rcases Nat.eq_zero_or_pos w with rfl | hpos
    · right
      simp only [Nat.cast_zero] at hw ⊢
      have := abs_eq_zero.1 (le_antisymm hw (abs_nonneg _))
      have h2 : (m : ℚ) = n := by
        rw [sub_eq_zero, div_eq_one_iff_eq hn'.ne'] at this
        exact this
      exact ⟨by exact_mod_cast h2.symm, le_refl _⟩
    · left
      exact_mod_cast hpos

/-! ### Concrete cases -/

/-- A 3 × 4 problem, symmetric2, with the given window. -/
def Ex.windowed (name : String) (args : WinArgs) : Args :=
  { x := .d2 (Mat.ofFn 3 4 fun i j => fin ((i : ℚ) * j)), windowType := .name name, windowArgs := args }

/-- The window matrix of `Ex.windowed`. -/
def Ex.windowedW (name : String) (args : WinArgs) : Nat → Nat → Bool := fun i j =>
  match (canonWindow (.name name)).call args 3 4 i j with
  | .ok b => b
  | .error _ => false

/-- The problems to which the theorems of this file apply: Sakoe-Chiba 1, Itakura, slanted band 1. -/
theorem Ex.windowed_problem : ∀ x ∈ [("sakoechiba", [("window_size", 1)]), ("itakura", []), ("slantedband", [("window_size", 1)])],
    Problem (Ex.windowed x.1 x.2) 3 4 (fun i j => fin ((i : ℚ) * j)) (Ex.windowedW x.1 x.2) Pat.symmetric2
      (rulesOf Pat.symmetric2) := by
  intro x hx
  refine ⟨by decide, by decide, .matrix rfl rfl rfl rfl,
    (by decide +kernel : canonPattern (.name "symmetric2") = .ok Pat.symmetric2), wf_of_check (by decide +kernel),
    (fits_of_check (by decide +kernel) : Fits 3 4 _), .inr ⟨?_, ?_⟩⟩
  · simp only [List.mem_cons, List.not_mem_nil, or_false] at hx
    rcases hx with rfl | rfl | rfl <;> simp [Ex.windowed, canonWindow]
  · have : ∀ x ∈ [("sakoechiba", [("window_size", 1)]), ("itakura", []), ("slantedband", [("window_size", 1)])],
        ∀ i ∈ List.range 3, ∀ j ∈ List.range 4, (canonWindow (.name x.1)).call x.2 3 4 i j =
          .ok (Ex.windowedW x.1 x.2 i j) := by decide +kernel
    intro i hi j hj
    exact this x hx i (List.mem_range.2 hi) j (List.mem_range.2 hj)

example : Uses (Ex.windowed "itakura" []) "itakura" [] := ⟨rfl, rfl⟩

example : ∃ r, dtw Arith.exact (Ex.windowed "sakoechiba" [("window_size", 1)]) = .ok r :=
  C37_wide_enough_succeeds (Ex.windowed_problem ("sakoechiba", [("window_size", 1)]) (by simp)) rfl rfl ⟨rfl, rfl⟩ C37_C38_free_moves.2
    (by norm_num [abs_le])

example : ∃ r, dtw Arith.exact (Ex.windowed "itakura" []) = .ok r :=
  C38_itakura_succeeds (Ex.windowed_problem ("itakura", []) (by simp)) rfl rfl ⟨rfl, rfl⟩ C37_C38_free_moves.2 (by decide) (by decide)

example : ∃ r, dtw Arith.exact (Ex.windowed "slantedband" [("window_size", 1)]) = .ok r :=
  (C38_slanted_iff (w := 1) (Ex.windowed_problem ("slantedband", [("window_size", 1)]) (by simp)) rfl rfl
    ⟨rfl, by simp [Ex.windowed]⟩ C37_C38_free_moves.2).2 (by norm_num [abs_le])

/-- C38, negative witness: a fractional width between `|M/N - 1|` and 1 is not sufficient (4 × 5, width 1/4:
row 2 has no admitted cell). -/
theorem C38_slanted_fractional_gap :
    (dtw Arith.exact { x := .d2 (Mat.ofFn 4 5 fun _ _ => fin 1), windowType := .name "slantedband"
                       windowArgs := [("window_size", 1 / 4)] }).toOption.isSome = false := by
  decide +kernel

/-- The infeasible cases are inhabited too: a slanted band of width 1/4 < |4/3 - 1|. -/
example : (dtw Arith.exact (Ex.windowed "slantedband" [("window_size", 1 / 4)])).toOption.isSome = false := by
  decide +kernel

/-- … and a feasible one of width 2/3 (the sufficient width 1 is not necessary). -/
example : (dtw Arith.exact (Ex.windowed "slantedband" [("window_size", 2 / 3)])).toOption.isSome = true := by
  decide +kernel

end DTW
