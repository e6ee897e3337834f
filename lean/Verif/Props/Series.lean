import Verif.SpecSeries
import Verif.Props.Stability
import Verif.Props.Invariance
import Verif.Props.Windows
import Verif.Props.Relational2
import Verif.Props.DoublesMore
import Verif.Props.Slope

/-!
# C63: one-dimensional series

What the general theorems say about `dtw(x, y)` for two series of numbers compared by `|x_i - y_j|`.
-/

namespace DTW
open F64

variable {A : Arith} {o : Args} {x y x' y' : List ℚ} {W : Nat → Nat → Bool} {q : String × StepPattern}

/-- The call is meaningful: non-empty series that fit C's `int`, a bundled step pattern, and the window `W`. -/
structure Sensible (o : Args) (n m : Nat) (W : Nat → Nat → Bool) (q : String × StepPattern) : Prop where
  n_pos : 0 < n
  m_pos : 0 < m
  size : (n + 1) * m < 2147483648
  mem : q ∈ Pat.table
  pattern : o.stepPattern = .name q.1
  window : WindowIs o (gridRows o n) m W

theorem ask_cost (o : Args) (x y : List ℚ) :
    CallCost (ask o x y) x.length y.length (fun i j => fin (gap x y i j)) := by
  refine .series _ _ _ rfl (.d1 _) (.d1 _) rfl (by simp) (by simp) ?_
  intro i hi j hj
  have e : ∀ (z : List ℚ) (k : Nat), k < z.length →
      (⟨(z.map fin).length, 1, z.map fin⟩ : Mat F64).row k = [fin (z.getD k 0)] := by
    intro z k hk
    simp only [Mat.row, Nat.mul_one]
    rw [← List.map_drop, List.drop_eq_getElem_cons hk, List.map_cons, List.take_succ_cons, List.take_zero]
    simp [List.getD, hk]
  rw [e x i hi, e y j hj]
  rfl

theorem ask_problem (h : Sensible o x.length y.length W q) :
    Problem (ask o x y) x.length y.length (fun i j => fin (gap x y i j)) W q.2 (rulesOf q.2) where
  n_pos := h.n_pos
  m_pos := h.m_pos
  cost := ask_cost o x y
  pattern := by
    have h2 : ∀ q ∈ Pat.table, Pat.table.lookup q.1 = some q.2 := by decide +kernel
    show canonPattern o.stepPattern = _
    rw [h.pattern]
    simp only [canonPattern, h2 q h.mem]
  wf := table_wf q h.mem
  fits := by
    refine table_fits ?_ q h.mem
    refine Nat.lt_of_le_of_lt (Nat.mul_le_mul_right _ ?_) h.size
    unfold gridRows; split <;> omega
  window := h.window

theorem ask_same (o : Args) (x y x' y' : List ℚ) : SameOptions (ask o x y) (ask o x' y') := ⟨rfl, rfl, rfl, rfl⟩

theorem getD_map {f : ℚ → ℚ} (h0 : f 0 = 0) (z : List ℚ) (k : Nat) : (z.map f).getD k 0 = f (z.getD k 0) := by
  simp only [List.getD, List.getElem?_map]
  cases z[k]? <;> simp [h0]

theorem getD_reverse {z : List ℚ} {k : Nat} (hk : k < z.length) : z.reverse.getD k 0 = z.getD (z.length - 1 - k) 0 := by
  simp only [List.getD]
  rw [List.getElem?_reverse hk]

/-- The band `|i - j| ≤ w`. -/
def bandOf (w : ℚ) (i j : Nat) : Bool := decide (|(i : ℚ) - j| ≤ w)

theorem sensible_free {n m : Nat} (hn : 0 < n) (hm : 0 < m) (hs : (n + 1) * m < 2147483648) (hq : q ∈ Pat.table)
    (hp : o.stepPattern = .name q.1) (hw : canonWindow o.windowType = .noWindow) :
    Sensible o n m (fun _ _ => true) q := ⟨hn, hm, hs, hq, hp, .inl ⟨hw, fun _ _ _ _ => rfl⟩⟩

theorem sensible_band {n m : Nat} {w : ℚ} (hn : 0 < n) (hm : 0 < m) (hs : (n + 1) * m < 2147483648) (hq : q ∈ Pat.table)
    (hp : o.stepPattern = .name q.1) (hu : Uses o "sakoechiba" [("window_size", w)]) :
    Sensible o n m (bandOf w) q := by
  refine ⟨hn, hm, hs, hq, hp, .inr ⟨?_, ?_⟩⟩
  · rw [hu.type]; simp [canonWindow]
  · intro i _ j _
    rw [hu.type, hu.args]
    simp only [canonWindow, WinFn.call, String.reduceEq, if_false, if_true, Except.ok.injEq, sakoeChibaVal, bandOf]
    push_cast
    rw [abs_sub_comm]

/-! ### Invariance -/

/-- **C63**, translation: adding the same number to both series changes nothing but the stored series. -/
theorem C63_translation (h : Sensible o x.length y.length W q) (t : ℚ) :
    (dtw A (ask o (x.map (· + t)) (y.map (· + t)))).map Result.core = (dtw A (ask o x y)).map Result.core := by
  have h1 := ask_problem h
  have h2 := ask_problem (o := o) (x := x.map (· + t)) (y := y.map (· + t)) (W := W) (q := q) (by simpa using h)
  rw [List.length_map, List.length_map] at h2
  refine dtw_core_congr (ask_same o _ _ _ _) h2 h1 ?_ (fun _ _ _ _ => rfl)
  intro i hi j hj
  simp [gap, List.getD, hi, hj]

/-- **C63**, scaling: multiplying both series by `c ≠ 0` (negative included) multiplies distance, normalized
distance and cost matrix by `|c|` and changes nothing else. -/
theorem C63_scaling (h : Sensible o x.length y.length W q) {c : ℚ} (hc : c ≠ 0) :
    (dtw Arith.exact (ask o (x.map (c * ·)) (y.map (c * ·)))).map Result.core =
      ((dtw Arith.exact (ask o x y)).map Result.core).map (Core.scale |c|) := by
  have h1 := ask_problem h
  have h2 := ask_problem (o := o) (x := x.map (c * ·)) (y := y.map (c * ·)) (W := W) (q := q) (by simpa using h)
  rw [List.length_map, List.length_map] at h2
  have h3 : Problem (ask o (x.map (c * ·)) (y.map (c * ·))) x.length y.length
      (fun i j => scaleF |c| (fin (gap x y i j))) W q.2 (rulesOf q.2) := by
    have e : (fun i j => scaleF |c| (fin (gap x y i j))) =
        fun i j => fin (gap (x.map (c * ·)) (y.map (c * ·)) i j) := by
      funext i j
      simp only [scaleF, gap, getD_map (f := (c * ·)) (mul_zero c), ← mul_sub, abs_mul]
    rw [e]
    exact h2
  exact C13_homogeneous (abs_pos.2 hc) h1 h3 (ask_same o _ _ _ _)

theorem gap_comm (x y : List ℚ) (i j : Nat) : gap x y i j = gap y x j i := abs_sub_comm _ _

/-- **C63**, symmetry: exchanging the series changes neither success nor distance, for the patterns symmetric in the
two series, without window or with a Sakoe-Chiba band. -/
theorem C63_symmetry (h : Sensible o x.length y.length W q) (h' : Sensible o y.length x.length W q)
    (hob : o.openBegin = false) (hoe : o.openEnd = false) (hW : ∀ i j, W i j = W j i)
    (hs : q.1 ∈ ["symmetric1", "symmetric2", "symmetricP0", "symmetricP05", "symmetricP1",
      "symmetricP2", "_symmetricVelichkoZagoruyko", "typeIa", "typeIb", "typeId", "typeIas", "typeIbs",
      "typeIds", "typeIIa", "typeIIb", "typeIId"]) :
    ((∃ r, dtw A (ask o x y) = .ok r) ↔ ∃ r', dtw A (ask o y x) = .ok r') ∧
    ∀ r r', dtw A (ask o x y) = .ok r → dtw A (ask o y x) = .ok r' → r'.distance = r.distance := by
  have h1 := ask_problem h
  have h2 := ask_problem h'
  have e : (fun i j => fin (gap y x i j)) = fun j i => fin (gap x y i j) := by
    funext i j; rw [gap_comm]
  rw [e, show W = fun j i => W i j from funext fun i => funext fun j => hW i j] at h2
  obtain ⟨p, hp, _, hsym⟩ := C17_bundled q.1 hs
  have hpq : p = q.2 := by
    have := h1.pattern
    rw [show (ask o x y).stepPattern = .name q.1 from h.pattern, hp] at this
    exact Except.ok.inj this
  subst hpq
  exact C17_symmetric h1 h2 hsym hob hoe hob hoe

/-- **C63**, identity: a series has distance 0 from itself (any bundled pattern but the internal one with negative
weights; any window that admits the diagonal; any rounding given by `binary64`, or exact). -/
theorem C63_identity (h : Sensible o x.length x.length W q) (hob : o.openBegin = false) (hoe : o.openEnd = false)
    (hne : q.1 ≠ "_symmetricVelichkoZagoruyko") (hWd : ∀ i < x.length, W i i = true) (f : Bool) :
    ∃ r, dtw (binary64 f) (ask o x x) = .ok r ∧ r.distance = fin 0 :=
  C15_double f q h.mem hne (ask_problem h) hob hoe (fun _ _ _ _ => abs_nonneg _) (fun i _ => by simp [gap]) hWd

/-- **C63**, time reversal (symmetric1, no window). -/
theorem C63_reversal (h : Sensible o x.length y.length (fun _ _ => true) ("symmetric1", Pat.symmetric1))
    (hob : o.openBegin = false) (hoe : o.openEnd = false) :
    ((∃ r, dtw Arith.exact (ask o x y) = .ok r) ↔ ∃ r', dtw Arith.exact (ask o x.reverse y.reverse) = .ok r') ∧
    ∀ r r', dtw Arith.exact (ask o x y) = .ok r → dtw Arith.exact (ask o x.reverse y.reverse) = .ok r' →
      r'.distance = r.distance := by
  have h1 := ask_problem h
  have h2 := ask_problem (o := o) (x := x.reverse) (y := y.reverse) (W := fun _ _ => true)
    (q := ("symmetric1", Pat.symmetric1)) (by simpa using h)
  rw [List.length_reverse, List.length_reverse] at h2
  exact C56_time_reversal h1 h2 hob hoe hob hoe rfl rfl (by
    intro i hi j hj
    unfold gap
    rw [getD_reverse hi, getD_reverse hj]) (fun _ _ _ _ => rfl)

/-! ### Zero distance -/

theorem squash_head (u : ℚ) (l : List ℚ) : ∃ t, squash (u :: l) = u :: t := by
  induction l generalizing u with
  | nil => exact ⟨[], rfl⟩
  | cons v l ih =>
    unfold squash
    split
    · rename_i h; subst h; exact ih u
    · exact ⟨_, rfl⟩

theorem squash_cons (u : ℚ) (l : List ℚ) :
    squash (u :: l) = if l.head? = some u then squash l else u :: squash l := by
  cases l with
  | nil => rfl
  | cons v l =>
    rw [squash]
    by_cases h : u = v
    · simp [h]
    · have : ¬ v = u := fun e => h e.symm
      simp [h, this]

theorem drop_getD {z : List ℚ} {k : Nat} (hk : k < z.length) : z.drop k = z.getD k 0 :: z.drop (k + 1) := by
  rw [List.drop_eq_getElem_cons hk]; simp [List.getD, hk]

theorem drop_head (z : List ℚ) {k : Nat} (hk : k < z.length) : (z.drop k).head? = some (z.getD k 0) := by
  rw [drop_getD hk]; rfl

theorem squash_of_curve (w : List Move) (u : Nat × Nat) (hx : 0 < x.length) (hy : 0 < y.length)
    (he : endOf u w = (x.length - 1, y.length - 1))
    (hv : ∀ v ∈ visited u w, x.getD v.1 0 = y.getD v.2 0) : squash (x.drop u.1) = squash (y.drop u.2) := by
  induction w generalizing u with
  | nil =>
    have e1 : u.1 = x.length - 1 := by rw [show u = _ from he]
    have e2 : u.2 = y.length - 1 := by rw [show u = _ from he]
    have h0 := hv u (by simp [visited])
    rw [drop_getD (z := x) (k := u.1) (by omega), drop_getD (z := y) (k := u.2) (by omega),
      List.drop_eq_nil_of_le (as := x) (by omega), List.drop_eq_nil_of_le (as := y) (by omega), h0]
  | cons mv w ih =>
    have h0 := hv u (by simp [visited])
    have hge := endOf_ge w (mv.go u)
    have he' : endOf (mv.go u) w = (x.length - 1, y.length - 1) := he
    rw [he'] at hge
    have h1 := hv (mv.go u) (by
      obtain ⟨t, ht⟩ := visited_head (mv.go u) w
      simp [visited, ht])
    have := ih (mv.go u) he' (fun v hv' => hv v (by simp [visited, hv']))
    cases mv with
    | both =>
      simp only [Move.go, Move.delta] at this h1 hge
      rw [drop_getD (z := x) (k := u.1) (by omega), drop_getD (z := y) (k := u.2) (by omega), squash_cons, squash_cons,
        drop_head x (by omega), drop_head y (by omega), h0, h1, this]
    | ref =>
      simp only [Move.go, Move.delta, Nat.add_zero] at this h1 hge
      rw [drop_getD (z := y) (k := u.2) (by omega), squash_cons, drop_head y (by omega), ← h1, ← h0, if_pos rfl, this]
    | query =>
      simp only [Move.go, Move.delta, Nat.add_zero] at this h1 hge
      rw [drop_getD (z := x) (k := u.1) (by omega), squash_cons, drop_head x (by omega), h1, ← h0, if_pos rfl, this]

theorem curve_of_squash (k : Nat) (u : Nat × Nat) (hu1 : u.1 < x.length) (hu2 : u.2 < y.length)
    (hk : (x.length - u.1) + (y.length - u.2) ≤ k) (hs : squash (x.drop u.1) = squash (y.drop u.2)) :
    ∃ w, endOf u w = (x.length - 1, y.length - 1) ∧ ∀ v ∈ visited u w, x.getD v.1 0 = y.getD v.2 0 := by
  induction k generalizing u with
  | zero => omega
  | succ k ih =>
    have h0 : x.getD u.1 0 = y.getD u.2 0 := by
      rw [drop_getD hu1, drop_getD hu2] at hs
      obtain ⟨t, ht⟩ := squash_head (x.getD u.1 0) (x.drop (u.1 + 1))
      obtain ⟨t', ht'⟩ := squash_head (y.getD u.2 0) (y.drop (u.2 + 1))
      rw [ht, ht'] at hs
      exact (List.cons.inj hs).1
    have step : ∀ mv : Move, (mv.go u).1 < x.length → (mv.go u).2 < y.length →
        squash (x.drop (mv.go u).1) = squash (y.drop (mv.go u).2) →
        ∃ w, endOf u w = (x.length - 1, y.length - 1) ∧ ∀ v ∈ visited u w, x.getD v.1 0 = y.getD v.2 0 := by
      intro mv g1 g2 hs'
      obtain ⟨w, hw1, hw2⟩ := ih (mv.go u) g1 g2 (by
        cases mv <;> simp only [Move.go, Move.delta] at g1 g2 ⊢ <;> omega) hs'
      refine ⟨mv :: w, hw1, ?_⟩
      intro v hv
      rcases List.mem_cons.1 hv with rfl | hv
      · exact h0
      · exact hw2 v hv
    have hs' := hs
    rw [drop_getD hu1, drop_getD hu2, squash_cons, squash_cons] at hs'
    by_cases hx : (x.drop (u.1 + 1)).head? = some (x.getD u.1 0)
    · refine step .query ?_ hu2 ?_
      · by_contra hc
        rw [List.drop_eq_nil_of_le (by simp only [Move.go, Move.delta] at hc; omega)] at hx
        cases hx
      · rw [drop_getD hu1, squash_cons, if_pos hx] at hs
        exact hs
    · by_cases hy : (y.drop (u.2 + 1)).head? = some (y.getD u.2 0)
      · refine step .ref hu1 ?_ ?_
        · by_contra hc
          rw [List.drop_eq_nil_of_le (by simp only [Move.go, Move.delta] at hc; omega)] at hy
          cases hy
        · rw [drop_getD hu2, squash_cons, if_pos hy] at hs
          exact hs
      · rw [if_neg hx, if_neg hy] at hs'
        have hs2 := (List.cons.inj hs').2
        by_cases hx1 : u.1 + 1 < x.length
        · by_cases hy1 : u.2 + 1 < y.length
          · exact step .both hx1 hy1 hs2
          · rw [List.drop_eq_nil_of_le (as := y) (by omega), drop_getD hx1] at hs2
            obtain ⟨t, ht⟩ := squash_head (x.getD (u.1 + 1) 0) (x.drop (u.1 + 1 + 1))
            rw [ht] at hs2
            cases hs2
        · by_cases hy1 : u.2 + 1 < y.length
          · rw [List.drop_eq_nil_of_le (as := x) (by omega), drop_getD hy1] at hs2
            obtain ⟨t, ht⟩ := squash_head (y.getD (u.2 + 1) 0) (y.drop (u.2 + 1 + 1))
            rw [ht] at hs2
            cases hs2
          · refine ⟨[], ?_, ?_⟩
            · show u = _
              refine Prod.ext ?_ ?_ <;> simp only <;> omega
            · intro v hv
              simp only [visited, List.mem_singleton] at hv
              rw [hv]; exact h0

theorem bundled_pos : ∀ q ∈ Pat.table, q.1 ≠ "_symmetricVelichkoZagoruyko" → PosWeights (rulesOf q.2) := by
  have key : (Pat.table.all fun q => decide (q.1 = "_symmetricVelichkoZagoruyko") ||
      (rulesOf q.2).all fun r => r.terms.all fun t => decide (0 ≤ t.w)) = true := by decide +kernel
  intro q hq hne r hr t ht
  have := List.all_eq_true.1 key q hq
  simp only [hne, decide_false, Bool.false_or, List.all_eq_true, decide_eq_true_eq] at this
  exact this r hr t ht

theorem bundled_nonneg : ∀ q ∈ Pat.table, q.1 ≠ "_symmetricVelichkoZagoruyko" →
    NonnegWeights Arith.exact (rulesOf q.2) := by
  intro q hq hne r hr t ht
  exact ⟨bundled_pos q hq hne r hr t ht, by simp [Arith.exact]⟩

/-- **C63**, zero distance: without window, with symmetric1, symmetric2 (the default) or symmetricP0, two series have
distance 0 exactly when they are equal once consecutive repetitions are removed. -/
theorem C63_zero_iff (h : Sensible o x.length y.length (fun _ _ => true) q)
    (hob : o.openBegin = false) (hoe : o.openEnd = false)
    (hs : q.1 ∈ ["symmetric1", "symmetric2", "symmetricP0"]) :
    ∃ r, dtw Arith.exact (ask o x y) = .ok r ∧ (r.distance = fin 0 ↔ squash x = squash y) := by
  have hP := ask_problem h
  have hn := h.n_pos
  have hm := h.m_pos
  have hs' : q.1 ∈ ["symmetric1", "symmetric2", "symmetricP0", "asymmetricP0"] := by
    simp only [List.mem_cons, List.not_mem_nil, or_false] at hs ⊢
    tauto
  have hne : q.1 ≠ "_symmetricVelichkoZagoruyko" := by
    intro hc; rw [hc] at hs; exact absurd hs (by decide)
  obtain ⟨r, hr⟩ : ∃ r, dtw Arith.exact (ask o x y) = .ok r := by
    rcases C51_bundled_rest q h.mem with hc | ⟨h1, h2⟩
    · simp only [List.mem_cons, List.not_mem_nil, or_false] at hs
      rcases hs with hs | hs | hs <;> rw [hs] at hc <;> exact absurd hc (by decide)
    · exact C51_unrestricted_exists h1 h2 hP hob hoe
  refine ⟨r, hr, ?_, ?_⟩
  · intro h0
    obtain ⟨w, hw, hz⟩ := C54_zero_curve_of_zero q h.mem hs hP hob hoe (fun _ _ _ _ => abs_nonneg _) hr h0
    have := squash_of_curve (x := x) (y := y) w (0, 0) hn hm hw.1 (by
      intro v hv
      have := hz v hv
      exact sub_eq_zero.1 (abs_eq_zero.1 this))
    simpa using this
  · intro hsq
    obtain ⟨w, hw1, hw2⟩ := curve_of_squash (x := x) (y := y) _ (0, 0) hn hm (Nat.le_refl _) (by simpa using hsq)
    obtain ⟨r', hr', h0⟩ := C54_zero_of_zero_curve (A := Arith.exact) q h.mem hs' hP hob hoe
      (bundled_nonneg q h.mem hne) (fun _ _ _ _ => abs_nonneg _)
      (w := w) ⟨hw1, fun _ _ => rfl⟩ (by intro v hv; simp only [gap, hw2 v hv, sub_self, abs_zero])
    rw [hr] at hr'
    rw [Except.ok.inj hr']
    exact h0

/-! ### Bounds -/

theorem outside_le {lo hi v z : ℚ} (h1 : lo ≤ z) (h2 : z ≤ hi) : outside lo hi v ≤ |v - z| := by
  unfold outside
  refine max_le (abs_nonneg _) (max_le ?_ ?_)
  · exact _root_.le_trans (by linarith) (le_abs_self (v - z))
  · exact _root_.le_trans (by linarith) (neg_le_abs (v - z))

/-- **C63**, LB_Keogh in a Sakoe-Chiba band: if `lo i ≤ y_j ≤ hi i` for all `j` with `|i - j| ≤ w`, the distance is at
least the sum over the query of how far `x_i` is outside `[lo i, hi i]`. -/
theorem C63_lb_keogh {w : ℚ} (h : Sensible o x.length y.length (bandOf w) q) (hw : 0 ≤ w)
    (hob : o.openBegin = false) (hoe : o.openEnd = false)
    (hs : q.1 ∈ ["symmetric1", "symmetric2", "symmetricP0", "asymmetricP0"]) {lo hi : Nat → ℚ}
    (hE : ∀ i < x.length, ∀ j < y.length, |(i : ℚ) - j| ≤ w → lo i ≤ y.getD j 0 ∧ y.getD j 0 ≤ hi i)
    {r : Result} (hr : dtw Arith.exact (ask o x y) = .ok r) :
    ∃ d, r.distance = fin d ∧ ((List.range x.length).map fun i => outside (lo i) (hi i) (x.getD i 0)).sum ≤ d := by
  refine C55_row_bound q h.mem hs (ask_problem h) hob hoe (fun _ _ _ _ => abs_nonneg _) ?_ hr
  intro i hi j hj hc
  have hb : |(i : ℚ) - j| ≤ w := by
    rcases hc with hc | ⟨rfl, rfl⟩
    · simpa [bandOf] using hc
    · simpa using hw
  obtain ⟨h1, h2⟩ := hE i hi j hj hb
  exact outside_le h1 h2

/-- **C63**, first and last elements: the distance is at least `|x_0 - y_0| + |x_last - y_last|`. -/
theorem C63_corners (h : Sensible o x.length y.length W q)
    (hob : o.openBegin = false) (hoe : o.openEnd = false)
    (hs : q.1 ∈ ["symmetric1", "symmetric2", "symmetricP0"]) (hbig : 1 < x.length ∨ 1 < y.length)
    {r : Result} (hr : dtw Arith.exact (ask o x y) = .ok r) :
    ∃ d, r.distance = fin d ∧
      |x.getD 0 0 - y.getD 0 0| + |x.getD (x.length - 1) 0 - y.getD (y.length - 1) 0| ≤ d :=
  C55_corner_bound q h.mem hs (ask_problem h) hob hoe (fun _ _ _ _ => abs_nonneg _) hbig hr

/-- **C63**, extremes: no element of the query is farther from the range of the reference than the distance. -/
theorem C63_extremes (h : Sensible o x.length y.length W q)
    (hob : o.openBegin = false) (hoe : o.openEnd = false)
    (hs : q.1 ∈ ["symmetric1", "symmetric2", "symmetricP0", "asymmetricP0"]) {lo hi : ℚ}
    (hE : ∀ z ∈ y, lo ≤ z ∧ z ≤ hi)
    {r : Result} (hr : dtw Arith.exact (ask o x y) = .ok r) :
    ∃ d, r.distance = fin d ∧ ∀ v ∈ x, outside lo hi v ≤ d := by
  have hy : ∀ j < y.length, lo ≤ y.getD j 0 ∧ y.getD j 0 ≤ hi := by
    intro j hj
    refine hE _ ?_
    simp [List.getD, hj]
  have hsum : ∃ d, r.distance = fin d ∧ ((List.range x.length).map fun i => outside lo hi (x.getD i 0)).sum ≤ d := by
    refine C55_row_bound q h.mem hs (ask_problem h) hob hoe (fun _ _ _ _ => abs_nonneg _) ?_ hr
    intro i _ j hj _
    exact outside_le (hy j hj).1 (hy j hj).2
  obtain ⟨d, hd, hle⟩ := hsum
  refine ⟨d, hd, ?_⟩
  intro v hv
  obtain ⟨i, hi', rfl⟩ := List.getElem_of_mem hv
  refine _root_.le_trans ?_ hle
  refine List.single_le_sum ?_ _ ?_
  · intro z hz
    obtain ⟨k, _, rfl⟩ := List.mem_map.1 hz
    exact le_max_left _ _
  · exact List.mem_map.2 ⟨i, List.mem_range.2 hi', by simp [List.getD, hi']⟩

/-- **C63**, lock step: for series of equal lengths and symmetric1 the distance is at most the sum of the
`|x_i - y_i|`, if the window admits the diagonal. -/
theorem C63_lock_step (hl : x.length = y.length)
    (h : Sensible o x.length y.length W ("symmetric1", Pat.symmetric1))
    (hob : o.openBegin = false) (hoe : o.openEnd = false) (hW : ∀ i < x.length, W i i = true) :
    ∃ r d, dtw Arith.exact (ask o x y) = .ok r ∧ r.distance = fin d ∧
      d ≤ ((List.range x.length).map fun i => |x.getD i 0 - y.getD i 0|).sum := by
  have hP := ask_problem h
  rw [← hl] at hP
  exact C55_diagonal_bound (a := ask o x y) (ℓ := gap x y) (W := W) hP hob hoe hW

/-- **C63**, noise: moving every element of the query by at most `δ` and every element of the reference by at most `δ'`
moves the distance by at most `(δ + δ')` times `N` (hint N), `N + M - 1` (symmetric1 and hint N+M) or `3 M - 2`
(mori2006). -/
theorem C63_noise {δ δ' : ℚ} (h : Sensible o x.length y.length W q) (hob : o.openBegin = false) (hoe : o.openEnd = false)
    (hne : q.1 ≠ "_symmetricVelichkoZagoruyko") (hx : x'.length = x.length) (hy : y'.length = y.length)
    (hδ : ∀ i < x.length, |x'.getD i 0 - x.getD i 0| ≤ δ) (hδ' : ∀ j < y.length, |y'.getD j 0 - y.getD j 0| ≤ δ')
    {r r' : Result} (hr : dtw Arith.exact (ask o x y) = .ok r) (hr' : dtw Arith.exact (ask o x' y') = .ok r') :
    ∃ d d', r.distance = fin d ∧ r'.distance = fin d' ∧
      |d' - d| ≤ (δ + δ') * (if q.2.hint = "N" then (x.length : ℚ) else if q.2.hint = "M" then 3 * y.length - 2
        else (x.length : ℚ) + y.length - 1) := by
  have h2 := ask_problem (o := o) (x := x') (y := y') (W := W) (q := q) (by rw [hx, hy]; exact h)
  rw [hx, hy] at h2
  refine C62_bundled q h.mem (ask_problem h) h2 hob hoe hob hoe hne ?_ hr hr'
  intro i hi j hj
  have e : x'.getD i 0 - y'.getD j 0 - (x.getD i 0 - y.getD j 0) =
      (x'.getD i 0 - x.getD i 0) - (y'.getD j 0 - y.getD j 0) := by ring
  refine _root_.le_trans (abs_abs_sub_abs_le _ _) ?_
  rw [e]
  refine _root_.le_trans (abs_sub _ _) (b := |x'.getD i 0 - x.getD i 0| + |y'.getD j 0 - y.getD j 0|) ?_
  exact add_le_add (hδ i hi) (hδ' j hj)

/-! ### Non-vacuity -/

/-- `dtw([0,2,1,3], [0,0,2,2,1,3])`: default pattern, no window. -/
def Ex.serX : List ℚ := [0, 2, 1, 3]
def Ex.serY : List ℚ := [0, 0, 2, 2, 1, 3]
def Ex.serZ : List ℚ := [0, 2, 0, 3]
def Ex.serOpts : Args := { x := .d1 [], stepPattern := .name "symmetric2" }
def Ex.serBand : Args :=
  { x := .d1 [], stepPattern := .name "symmetric1", windowType := .name "sakoechiba"
    windowArgs := [("window_size", 1)] }

theorem Ex.ser_sensible : Sensible Ex.serOpts 4 6 (fun _ _ => true) ("symmetric2", Pat.symmetric2) :=
  sensible_free (by decide) (by decide) (by decide) Ex.sym2_mem rfl rfl

theorem Ex.serBand_sensible : Sensible Ex.serBand 4 4 (bandOf 1) ("symmetric1", Pat.symmetric1) :=
  sensible_band (by decide) (by decide) (by decide) Ex.sym1_mem rfl ⟨rfl, rfl⟩

/-- `[0,2,1,3]` and `[0,0,2,2,1,3]` are the same series up to repetitions, `[0,2,0,3]` is not. -/
example : (∃ r, dtw Arith.exact (ask Ex.serOpts Ex.serX Ex.serY) = .ok r ∧ r.distance = fin 0) ∧
    ∃ r, dtw Arith.exact (ask Ex.serOpts Ex.serZ Ex.serY) = .ok r ∧ r.distance ≠ fin 0 := by
  constructor
  · obtain ⟨r, hr, h⟩ := C63_zero_iff (x := Ex.serX) (y := Ex.serY) Ex.ser_sensible rfl rfl (by decide)
    exact ⟨r, hr, h.2 (by decide +kernel)⟩
  · obtain ⟨r, hr, h⟩ := C63_zero_iff (x := Ex.serZ) (y := Ex.serY) Ex.ser_sensible rfl rfl (by decide)
    exact ⟨r, hr, fun hc => absurd (h.1 hc) (by decide +kernel)⟩

/-- LB_Keogh in a band of radius 1. -/
example : ∃ r d, dtw Arith.exact (ask Ex.serBand Ex.serX [1, 1, 4, 4]) = .ok r ∧ r.distance = fin d ∧ 1 ≤ d := by
  obtain ⟨r, hr⟩ := Ex.get_ok (x := dtw Arith.exact (ask Ex.serBand Ex.serX [1, 1, 4, 4])) (by decide +kernel)
  obtain ⟨d, hd, hle⟩ := C63_lb_keogh (x := Ex.serX) (y := [1, 1, 4, 4]) Ex.serBand_sensible (by norm_num) rfl rfl (by decide)
    (lo := fun i => if i = 3 then 4 else 1) (hi := fun i => if i = 0 then 1 else 4) (by decide +kernel) hr
  refine ⟨r, d, hr, hd, _root_.le_trans ?_ hle⟩
  decide +kernel

end DTW
