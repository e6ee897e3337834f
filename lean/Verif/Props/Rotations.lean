import Mathlib.Data.List.GetD
import Mathlib.Data.List.Rotate
import Verif.Props.Occurrences
import Verif.Props.RoundedWinner

/-!
# C98: comparing up to rotation

A query of `n` samples slid (`rigid`, both ends open) along a reference of `n` samples written down twice is compared with each rotation of the
reference.
-/

namespace DTW
open F64

variable {a : Args} {n : Nat} {ℓ : Nat → Nat → ℚ} {o : Args} {x y z x' y' : List ℚ}

theorem least_congr {S S' : Set ℚ} {d : ℚ} (h : ∀ c, c ∈ S' ↔ c ∈ S) (hd : IsLeast S d) : IsLeast S' d := (Set.ext h : S' = S) ▸ hd

/-- **C98** A reference of `n` elements repeated once: `rigid` with both ends open always succeeds and the distance is the least sum over all
rotations of the reference.  (The offset 0, which `rigid` never tries, is the rotation of the offset `n`.) -/
theorem C98_rotations (h : Problem a n (n + n) (fun i j => fin (ℓ i (j % n))) (fun _ _ => true) Pat.rigid (rulesOf Pat.rigid))
    (hob : a.openBegin = true) (hoe : a.openEnd = true) (hdo : a.distanceOnly = false) :
    ∃ r d, dtw Arith.exact a = .ok r ∧ r.distance = fin d ∧
      IsLeast {c | ∃ s < n, c = ((List.range n).map fun i => ℓ i ((s + i) % n)).sum} d := by
  have hn := h.n_pos
  obtain ⟨h1, h2⟩ := C59_rigid h hob hoe hdo
  obtain ⟨r, hr⟩ := h1.2 ⟨n, by omega, le_rfl⟩
  obtain ⟨d, hd, hl⟩ := h2 r hr
  refine ⟨r, d, hr, hd, ?_⟩
  refine least_congr (fun c => ?_) hl
  constructor
  · rintro ⟨s, hs, rfl⟩
    by_cases h0 : s = 0
    · refine ⟨n, ⟨hn, le_rfl⟩, ?_⟩
      subst h0
      congr 1
      apply List.map_congr_left
      intro i _
      rw [Nat.zero_add, Nat.add_mod_left]
    · exact ⟨s, ⟨by omega, by omega⟩, rfl⟩
  · rintro ⟨s, ⟨hs1, hs2⟩, rfl⟩
    refine ⟨s % n, Nat.mod_lt _ hn, ?_⟩
    simp only [Nat.mod_add_mod]

/-- The sum at the offset `j + 1 - n` is that of the rotation `j + 1`. -/
theorem rotation_sum {j : Nat} (hj : n ≤ j + 1) :
    ((List.range n).map fun i => ℓ i ((j + 1 - n + i) % n)).sum = ((List.range n).map fun i => ℓ i ((j + 1 + i) % n)).sum := by
  congr 1
  apply List.map_congr_left
  intro i _
  congr 1
  rw [← Nat.add_mod_right (j + 1 - n + i) n]
  congr 1
  omega

/-- **C98** Which rotation it is can be read off `jmin`, and the sample-by-sample match off `index1`, `index2`. -/
theorem C98_which (h : Problem a n (n + n) (fun i j => fin (ℓ i (j % n))) (fun _ _ => true) Pat.rigid (rulesOf Pat.rigid))
    (hob : a.openBegin = true) {r : Result} (hr : dtw Arith.exact a = .ok r) :
    ∃ (j : Nat) (mp : Mapping), r.jmin = (j : Int) ∧ n ≤ j ∧ j < n + n ∧ r.mapping = some mp ∧
      r.distance = fin ((List.range n).map fun i => ℓ i ((j + 1 + i) % n)).sum ∧
      mp.index1 = (List.range n).map (fun (i : Nat) => (i : Int)) ∧
      mp.index2 = (List.range n).map (fun (i : Nat) => ((j + 1 - n + i : Nat) : Int)) := by
  obtain ⟨mp, j, j0, hmp, hj, hjm, -, hpath, -⟩ := C22_open_begin_optimal h hob hr
  obtain ⟨e1, e2, e3⟩ := rigid_open hpath
  refine ⟨j, mp, hj, by omega, hjm, hmp, ?_, ?_⟩
  · rw [e3, ← rotation_sum (j := j) (by omega), e2, show j0 + n + 1 - n = j0 + 1 by omega]
  obtain ⟨j1, j01, ks1, f1, -, f3, f4⟩ := open_mapping h hob hr hmp
  obtain ⟨g1, g2, -⟩ := rigid_open f4
  have ho : OnlyMove (rulesOf Pat.rigid) 1 1 1 0 := by
    have e : rulesOf Pat.rigid = [⟨1, 1, [⟨0, 0, 1⟩]⟩] := by decide +kernel
    rw [e]
    refine ⟨rfl, fun k' r s hk _ _ => ?_⟩
    have := (List.getElem?_eq_some_iff.1 hk).1
    simpa using this
  have hj01 : j01 = j0 := by rw [hj] at f1; omega
  have e0 : ((0 : Nat) : Int) + 1 = 1 := rfl
  have hft := fineTail_replicate ho n (-1) j0
  rw [e0] at hft
  rw [f3, dropNull_curve, g1, hj01, hft]
  simp only [List.map_map]
  constructor <;> (apply List.map_congr_left; intro i hi; simp only [Function.comp]; push_cast; omega)

/-- **C98** In doubles: the call succeeds, the rotation it reports is the best one up to a factor `1 + (9n+6) * 2^-50`, and the distance is the
sum for that rotation up to a relative error `(9n+6) * 2^-52`. -/
theorem C98_doubles (f : Bool) (h : Problem a n (n + n) (fun i j => fin (ℓ i (j % n))) (fun _ _ => true) Pat.rigid (rulesOf Pat.rigid))
    (hc : ∀ i < n, ∀ j < n, ModestCost (ℓ i j))
    (hob : a.openBegin = true) (hoe : a.openEnd = true) (hdo : a.distanceOnly = false) :
    ∃ (r : Result) (d c : ℚ) (j : Nat) (d' : ℚ), dtw (binary64 f) a = .ok r ∧
      IsLeast {c | ∃ s < n, c = ((List.range n).map fun i => ℓ i ((s + i) % n)).sum} d ∧
      r.jmin = (j : Int) ∧ n ≤ j ∧ j < n + n ∧ c = ((List.range n).map fun i => ℓ i ((j + 1 + i) % n)).sum ∧
      c ≤ (1 + ((9 * n + 6 : ℕ) : ℚ) / 2 ^ 50) * d ∧ r.distance = fin d' ∧ |d' - c| ≤ ((9 * n + 6 : ℕ) : ℚ) / 2 ^ 52 * c := by
  have hn := h.n_pos
  obtain ⟨r0, d, hr0, hd, hleast⟩ := C98_rotations h hob hoe hdo
  have hW : ModestWeights (rulesOf Pat.rigid) := by decide +kernel
  have hhint : Pat.rigid.hint = "N" := by decide +kernel
  have hnq : (0 : ℚ) < n := by exact_mod_cast hn
  obtain ⟨hex, hall⟩ := C49_any_ends f h hW (fun i hi j _ => hc i hi _ (Nat.mod_lt _ hn))
  obtain ⟨r, hr⟩ := hex.2 ⟨r0, hr0⟩
  obtain ⟨-, -, -, j, ks, x, hjm, hj, -, hpath, hclose, hopt⟩ := hall r r0 hr hr0
  have e9 : 3 * (n + (n + n)) + 6 = 9 * n + 6 := by omega
  rw [if_pos hob] at hpath
  obtain ⟨j0, hpath⟩ := hpath
  obtain ⟨e1, e2, e3⟩ := rigid_open hpath
  obtain ⟨y, y0, hy, hy0, hle⟩ := hopt (by rw [hhint]; decide)
  have hyx : y = x / n := by
    rw [hhint] at hy
    have e : Arith.exact.divQ (fin x) n = fin y := hy
    rw [divQ_fin hnq] at e
    exact (F64.fin.inj e).symm
  have hy0d : y0 = d / n := by
    have := (C22_open_both_optimal h hob hoe hr0).1
    rw [hy0, hd, divQ_fin hnq] at this
    exact F64.fin.inj this
  rw [e9] at hle hclose
  rcases hclose with ⟨-, hbad⟩ | ⟨d', c', hd', hc', -, herr⟩
  · cases hbad
  obtain rfl := F64.fin.inj hc'
  refine ⟨r, d, x, j, d', hr, hleast, hj, by omega, hjm, ?_, ?_, hd', herr⟩
  · rw [← rotation_sum (j := j) (by omega), e2, show j0 + n + 1 - n = j0 + 1 by omega]
    exact F64.fin.inj e3
  · rw [hyx, hy0d, ← mul_div_assoc, div_le_div_iff_of_pos_right hnq] at hle
    exact hle

/-- The sum of the differences of two series, sample by sample. -/
def lockStep (x y : List ℚ) : ℚ := (List.zipWith (fun u v => |u - v|) x y).sum

theorem lockStep_rotate (h : x.length = y.length) (s : Nat) : lockStep (x.rotate s) (y.rotate s) = lockStep x y := by
  unfold lockStep
  rw [← List.zipWith_rotate_distrib _ _ _ _ h]
  exact (List.rotate_perm _ s).sum_eq

theorem lockStep_comm (x y : List ℚ) : lockStep x y = lockStep y x := by
  unfold lockStep
  rw [List.zipWith_comm]
  congr 2
  funext u v
  exact abs_sub_comm _ _

theorem lockStep_nonneg (x y : List ℚ) : 0 ≤ lockStep x y := by
  unfold lockStep
  apply List.sum_nonneg
  intro c hc
  obtain ⟨i, hi, rfl⟩ := List.mem_iff_getElem.1 hc
  rw [List.getElem_zipWith]
  exact abs_nonneg _

theorem lockStep_triangle : ∀ {x y z : List ℚ}, x.length = y.length → y.length = z.length → lockStep x z ≤ lockStep x y + lockStep y z
  | [], [], [], _, _ => by simp [lockStep]
  | u :: x, v :: y, w :: z, h1, h2 => by
    have ih := lockStep_triangle (x := x) (y := y) (z := z) (by simpa using h1) (by simpa using h2)
    have := abs_sub_le u v w
    unfold lockStep at ih ⊢
    simp only [List.zipWith_cons_cons, List.sum_cons]
    linarith

theorem lockStep_zero : ∀ {x y : List ℚ}, x.length = y.length → (lockStep x y = 0 ↔ x = y)
  | [], [], _ => by simp [lockStep]
  | u :: x, v :: y, h => by
    have ih := lockStep_zero (x := x) (y := y) (by simpa using h)
    have e : lockStep (u :: x) (v :: y) = |u - v| + lockStep x y := by simp [lockStep]
    have h1 := abs_nonneg (u - v)
    have h2 := lockStep_nonneg x y
    rw [e, List.cons.injEq, ← ih]
    constructor
    · intro hc
      exact ⟨sub_eq_zero.1 (abs_eq_zero.1 (by linarith)), by linarith⟩
    · rintro ⟨hc, hd⟩
      rw [hc, hd, sub_self, abs_zero, add_zero]

theorem lockStep_range (h : x.length = n) (h' : y.length = n) : lockStep x y = ((List.range n).map fun i => |x.getD i 0 - y.getD i 0|).sum := by
  unfold lockStep
  congr 1
  apply List.ext_getElem
  · simp [h, h']
  · intro i h1 h2
    simp only [List.length_map, List.length_range] at h2
    have e1 : x.getD i 0 = x[i]'(by omega) := by simp [List.getD, List.getElem?_eq_getElem (show i < x.length by omega)]
    have e2 : y.getD i 0 = y[i]'(by omega) := by simp [List.getD, List.getElem?_eq_getElem (show i < y.length by omega)]
    rw [List.getElem_zipWith, List.getElem_map, List.getElem_range, e1, e2]

/-- The options of a search that slides the query: `step_pattern=rigid, open_begin=True, open_end=True`, no window. -/
structure Slides (o : Args) : Prop where
  pattern : o.stepPattern = .name "rigid"
  begins : o.openBegin = true
  ends : o.openEnd = true
  full : o.distanceOnly = false
  free : canonWindow o.windowType = .noWindow

/-- **C98** Series: `dtw(x, y + y, step_pattern=rigid, open_begin=True, open_end=True)` is the least sum of |x - y'| over the rotations y' of y. -/
theorem C98_series (ho : Slides o) (hx : x.length = n) (hy : y.length = n) (hn : 0 < n) (hs : (n + 1) * (n + n) < 2147483648) :
    ∃ r d, dtw Arith.exact (ask o x (y ++ y)) = .ok r ∧ r.distance = fin d ∧ IsLeast {c | ∃ s, c = lockStep x (y.rotate s)} d := by
  have hl : (y ++ y).length = n + n := by rw [List.length_append, hy]
  have hP : Problem (ask o x (y ++ y)) n (n + n) (fun i j => fin |x.getD i 0 - y.getD (j % n) 0|) (fun _ _ => true) Pat.rigid
      (rulesOf Pat.rigid) := by
    have hb : Sensible o x.length (y ++ y).length (fun _ _ => true) ("rigid", Pat.rigid) :=
      { n_pos := by omega, m_pos := by omega, size := by rw [hx, hl]; exact hs, mem := by decide +kernel, pattern := ho.pattern
        window := .inl ⟨ho.free, fun _ _ _ _ => rfl⟩ }
    have h0 := ask_problem (o := o) hb
    rw [hx, hl] at h0
    refine { h0 with cost := ?_ }
    have hc := h0.cost
    cases hc with
    | matrix h1 h2 h3 h4 => cases h1
    | series y0 X Y h1 h2 h3 h4 h5 h6 h7 =>
      refine .series y0 X Y h1 h2 h3 h4 h5 h6 fun i hi j hj => ?_
      rw [← h7 i hi j hj]
      unfold gap
      congr 3
      by_cases hjn : j < n
      · rw [Nat.mod_eq_of_lt hjn, List.getD_append _ _ _ _ (by omega)]
      · rw [List.getD_append_right _ _ _ _ (by omega), hy]
        congr 1
        rw [Nat.mod_eq_sub_mod (by omega), Nat.mod_eq_of_lt (by omega)]
  obtain ⟨r, d, hr, hd, hleast⟩ := C98_rotations (ℓ := fun i j => |x.getD i 0 - y.getD j 0|) (a := ask o x (y ++ y)) hP ho.begins ho.ends ho.full
  refine ⟨r, d, hr, hd, ?_⟩
  have key : ∀ s, lockStep x (y.rotate s) = ((List.range n).map fun i => |x.getD i 0 - y.getD ((s + i) % n) 0|).sum := by
    intro s
    rw [lockStep_range hx (by rw [List.length_rotate, hy])]
    congr 1
    apply List.map_congr_left
    intro i hi
    have hi := List.mem_range.1 hi
    have h1 : i < (y.rotate s).length := by rw [List.length_rotate]; omega
    have h2 : (s + i) % n < y.length := by rw [hy]; exact Nat.mod_lt _ hn
    have e : (y.rotate s).getD i 0 = y.getD ((s + i) % n) 0 := by
      rw [List.getD_eq_getElem _ _ h1, List.getD_eq_getElem _ _ h2, List.getElem_rotate]
      simp only [hy, Nat.add_comm]
    rw [e]
  refine least_congr (fun c => ?_) hleast
  constructor
  · rintro ⟨s, rfl⟩
    refine ⟨s % n, Nat.mod_lt _ hn, ?_⟩
    rw [key]
    simp only [Nat.mod_add_mod]
  · rintro ⟨s, -, rfl⟩
    exact ⟨s, (key s).symm⟩

/-- What `dtw` answers in such a call. -/
def Turned (o : Args) (x y : List ℚ) (d : ℚ) : Prop := ∃ r, dtw Arith.exact (ask o x (y ++ y)) = .ok r ∧ r.distance = fin d

theorem turned_least (ho : Slides o) (hx : x.length = n) (hy : y.length = n) (hn : 0 < n) (hs : (n + 1) * (n + n) < 2147483648) {d : ℚ}
    (hd : Turned o x y d) : IsLeast {c | ∃ s, c = lockStep x (y.rotate s)} d := by
  obtain ⟨r, hr, hrd⟩ := hd
  obtain ⟨r', d', hr', hd', hl⟩ := C98_series ho hx hy hn hs
  rw [hr] at hr'
  obtain rfl := Except.ok.inj hr'
  obtain rfl := F64.fin.inj (hrd.symm.trans hd')
  exact hl

theorem rotate_back (y : List ℚ) (s t : Nat) : ∃ u, (y.rotate u).rotate t = y.rotate s := by
  refine ⟨s + (y.length * t - t), ?_⟩
  rw [List.rotate_rotate]
  rcases Nat.eq_zero_or_pos y.length with h0 | hpos
  · rw [List.length_eq_zero_iff.1 h0]; simp
  · have : t ≤ y.length * t := Nat.le_mul_of_pos_left _ hpos
    rw [Nat.add_assoc, Nat.sub_add_cancel this, ← List.rotate_mod, Nat.add_mul_mod_self_left, List.rotate_mod]

/-- **C98** Rotating either series changes nothing. -/
theorem C98_invariant (ho : Slides o) (hx : x.length = n) (hy : y.length = n) (hn : 0 < n) (hs : (n + 1) * (n + n) < 2147483648)
    (hxx : x ~r x') (hyy : y ~r y') {d d' : ℚ} (hd : Turned o x y d) (hd' : Turned o x' y' d') : d = d' := by
  obtain ⟨t, rfl⟩ := hxx
  obtain ⟨u, rfl⟩ := hyy
  have h1 := turned_least ho hx hy hn hs hd
  have h2 := turned_least ho (by rw [List.length_rotate, hx]) (by rw [List.length_rotate, hy]) hn hs hd'
  refine h1.unique ?_
  refine least_congr (fun c => ?_) h2
  constructor
  · rintro ⟨s, rfl⟩
    obtain ⟨w, hw⟩ := rotate_back y (s + t) u
    refine ⟨w, ?_⟩
    rw [← lockStep_rotate (by rw [List.length_rotate, hx, hy]) t, List.rotate_rotate y s t, ← hw, List.rotate_rotate, List.rotate_rotate, Nat.add_comm]
  · rintro ⟨s, rfl⟩
    rw [List.rotate_rotate]
    obtain ⟨w, hw⟩ := rotate_back y (u + s) t
    refine ⟨w, ?_⟩
    rw [← hw, lockStep_rotate (by rw [List.length_rotate, hx, hy])]

/-- **C98** The two series may be exchanged. -/
theorem C98_symmetric (ho : Slides o) (hx : x.length = n) (hy : y.length = n) (hn : 0 < n) (hs : (n + 1) * (n + n) < 2147483648)
    {d d' : ℚ} (hd : Turned o x y d) (hd' : Turned o y x d') : d = d' := by
  refine (turned_least ho hx hy hn hs hd).unique ?_
  have key : ∀ {x y : List ℚ}, x.length = y.length → ∀ s, ∃ w, lockStep x (y.rotate s) = lockStep y (x.rotate w) := by
    intro x y hxy s
    obtain ⟨w, hw⟩ := rotate_back x 0 s
    rw [List.rotate_zero] at hw
    refine ⟨w, ?_⟩
    conv_lhs => rw [← hw]
    rw [lockStep_rotate (by rw [List.length_rotate, hxy]), lockStep_comm]
  refine least_congr (fun c => ?_) (turned_least ho hy hx hn hs hd')
  constructor
  · rintro ⟨s, rfl⟩; exact key (by omega) s
  · rintro ⟨s, rfl⟩; exact key (by omega) s

/-- **C98** The triangle inequality. -/
theorem C98_triangle (ho : Slides o) (hx : x.length = n) (hy : y.length = n) (hz : z.length = n) (hn : 0 < n)
    (hs : (n + 1) * (n + n) < 2147483648) {d₁ d₂ d : ℚ} (h1 : Turned o x y d₁) (h2 : Turned o y z d₂) (h : Turned o x z d) : d ≤ d₁ + d₂ := by
  obtain ⟨⟨s, rfl⟩, -⟩ := turned_least ho hx hy hn hs h1
  obtain ⟨⟨t, rfl⟩, -⟩ := turned_least ho hy hz hn hs h2
  refine ((turned_least ho hx hz hn hs h).2 ⟨t + s, rfl⟩).trans ?_
  rw [← lockStep_rotate (x := y) (by rw [List.length_rotate, hy, hz]) s, List.rotate_rotate]
  exact lockStep_triangle (by rw [List.length_rotate, hx, hy]) (by rw [List.length_rotate, List.length_rotate, hy, hz])

/-- **C98** The distance is 0 exactly when one series is a rotation of the other. -/
theorem C98_zero (ho : Slides o) (hx : x.length = n) (hy : y.length = n) (hn : 0 < n) (hs : (n + 1) * (n + n) < 2147483648)
    {d : ℚ} (hd : Turned o x y d) : 0 ≤ d ∧ (d = 0 ↔ y ~r x) := by
  obtain ⟨⟨s, hsd⟩, hmin⟩ := turned_least ho hx hy hn hs hd
  have h0 : 0 ≤ d := by rw [hsd]; exact lockStep_nonneg _ _
  refine ⟨h0, fun hz => ?_, ?_⟩
  · rw [hz] at hsd
    exact ⟨s, ((lockStep_zero (by rw [List.length_rotate, hx, hy])).1 hsd.symm).symm⟩
  · rintro ⟨t, ht⟩
    have := hmin ⟨t, rfl⟩
    rw [ht, (lockStep_zero rfl).2 rfl] at this
    linarith

/-! ### Non-vacuity -/

def Ex.turn : Args := { x := .d1 [], stepPattern := .name "rigid", openBegin := true, openEnd := true }

theorem Ex.turn_slides : Slides Ex.turn := ⟨rfl, rfl, rfl, rfl, rfl⟩

/-- 1, 4, 2, 7 against 2, 7, 1, 4 (a rotation), and against 7, 1, 4, 3. -/
example : (dtw Arith.exact (ask Ex.turn [1, 4, 2, 7] ([2, 7, 1, 4] ++ [2, 7, 1, 4]))).toOption.map (·.distance) = some (fin 0) ∧
    (dtw Arith.exact (ask Ex.turn [1, 4, 2, 7] ([7, 1, 4, 3] ++ [7, 1, 4, 3]))).toOption.map (·.distance) = some (fin 1) ∧
    (dtw Arith.exact (ask Ex.turn [7, 1, 4, 3] ([1, 4, 2, 7] ++ [1, 4, 2, 7]))).toOption.map (·.distance) = some (fin 1) := by decide +kernel

example : ∃ d, Turned Ex.turn [1, 4, 2, 7] [7, 1, 4, 3] d ∧ ¬ ([7, 1, 4, 3] : List ℚ) ~r [1, 4, 2, 7] := by
  obtain ⟨r, d, hr, hd, -⟩ := C98_series (n := 4) Ex.turn_slides (x := [1, 4, 2, 7]) (y := [7, 1, 4, 3]) rfl rfl (by decide) (by decide)
  refine ⟨d, ⟨r, hr, hd⟩, ?_⟩
  rw [← (C98_zero (n := 4) Ex.turn_slides rfl rfl (by decide) (by decide) ⟨r, hr, hd⟩).2]
  have h1 : (dtw Arith.exact (ask Ex.turn [1, 4, 2, 7] ([7, 1, 4, 3] ++ [7, 1, 4, 3]))).toOption.map (·.distance) = some (fin 1) := by decide +kernel
  rw [hr] at h1
  have : r.distance = fin 1 := Option.some.inj h1
  rw [hd] at this
  rw [F64.fin.inj this]
  norm_num

/-- The hypotheses of `C98_which` and `C98_doubles`: the costs of `[1, 4]` against the rotations of `[4, 1 + 1/8]`. -/
def Ex.turnCost (i j : Nat) : ℚ := |([1, 4] : List ℚ).getD i 0 - ([4, 1 + 1 / 8] : List ℚ).getD j 0|

def Ex.turnCall : Args :=
  { x := .d2 (Mat.ofFn 2 4 fun i j => fin (Ex.turnCost i (j % 2)))
    stepPattern := .name "rigid"
    openBegin := true
    openEnd := true }

theorem Ex.turn_problem : Problem Ex.turnCall 2 (2 + 2) (fun i j => fin (Ex.turnCost i (j % 2))) (fun _ _ => true) Pat.rigid (rulesOf Pat.rigid) where
  n_pos := by decide
  m_pos := by decide
  cost := .matrix rfl rfl rfl rfl
  pattern := by decide +kernel
  wf := table_wf ("rigid", Pat.rigid) (by decide +kernel)
  fits := table_fits (n := 3) (m := 4) (by decide) ("rigid", Pat.rigid) (by decide +kernel)
  window := .inl ⟨rfl, fun _ _ _ _ => rfl⟩

example (f : Bool) : ∃ (r : Result) (d c : ℚ) (j : Nat) (d' : ℚ), dtw (binary64 f) Ex.turnCall = .ok r ∧ r.jmin = (j : Int) ∧ r.distance = fin d' ∧
    c = ((List.range 2).map fun i => Ex.turnCost i ((j + 1 + i) % 2)).sum ∧ c ≤ (1 + ((9 * 2 + 6 : ℕ) : ℚ) / 2 ^ 50) * d ∧ d ≤ 1 / 8 := by
  obtain ⟨r, d, c, j, d', h1, h2, h3, -, -, h6, h7, h8, -⟩ := C98_doubles f Ex.turn_problem (fun i hi j hj => modest_of_small (by
    have : ∀ i ∈ List.range 2, ∀ j ∈ List.range 2, Ex.turnCost i j = 0 ∨ (1 / 2 ^ 40 ≤ Ex.turnCost i j ∧ Ex.turnCost i j ≤ 2 ^ 40) := by
      decide +kernel
    exact this i (List.mem_range.2 hi) j (List.mem_range.2 hj))) rfl rfl rfl
  refine ⟨r, d, c, j, d', h1, h3, h8, h6, h7, h2.2 ⟨1, by decide, ?_⟩⟩
  decide +kernel

example : ∃ r mp, dtw Arith.exact Ex.turnCall = .ok r ∧ r.mapping = some mp ∧ r.jmin = 2 ∧ mp.index2 = [1, 2] := by
  obtain ⟨r, d, hr, -⟩ := C98_rotations Ex.turn_problem rfl rfl rfl
  obtain ⟨j, mp, h1, -, -, h4, -, -, h7⟩ := C98_which Ex.turn_problem rfl hr
  have hj : (dtw Arith.exact Ex.turnCall).toOption.map (·.jmin) = some 2 := by decide +kernel
  rw [hr] at hj
  have hj : r.jmin = 2 := Option.some.inj hj
  obtain rfl : j = 2 := by omega
  exact ⟨r, mp, hr, h4, hj, by rw [h7]; decide⟩

end DTW
