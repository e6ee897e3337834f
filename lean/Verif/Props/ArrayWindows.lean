import Verif.ArrayWindow
import Verif.Proofs.DtwProof
import Verif.Proofs.PatternProof

/-!
# C60: window functions that return arrays
-/

namespace DTW
open F64

variable {A : Arith} {a : Args} {w : PyWindow}

/-! ### Specification -/

/-- A returned element keeps its cell in the window: `True`; an integer that is not a multiple of 2^32; a float of
absolute value at least 1, an infinity or NaN. -/
def WinVal.Inside : WinVal → Prop
  | .bool b => b = true
  | .int z => ¬ (4294967296 ∣ z)
  | .float (.fin q) => 1 ≤ |q|
  | .float _ => True

instance : DecidablePred WinVal.Inside := fun v =>
  match v with
  | .bool _ => inferInstanceAs (Decidable (_ = _))
  | .int _ => inferInstanceAs (Decidable (¬ _))
  | .float (.fin _) => inferInstanceAs (Decidable (_ ≤ _))
  | .float .nan => isTrue trivial
  | .float .pinf => isTrue trivial
  | .float .ninf => isTrue trivial

/-- On index arrays the function returns a C-ordered array of the shape of the grid with elements `v n m i j`. -/
def PyWindow.Returns (w : PyWindow) (args : WinArgs) (v : Nat → Nat → Nat → Nat → WinVal) : Prop :=
  ∀ n m, w.array args n m = .ok (.mat (Mat.ofFn n m (v n m)) true)

/-- The function works element by element, on arrays and on integers alike. -/
structure PyWindow.Elementwise (w : PyWindow) (args : WinArgs) (v : Nat → Nat → Nat → Nat → WinVal) : Prop where
  array : w.Returns args v
  scalar : ∀ n m i j : Nat, w.scalar args i j n m = .ok (v n m i j)

/-- The call with the pointwise window that admits the cells of non-zero integer part. -/
def pointwise (a : Args) (v : Nat → Nat → Nat → Nat → WinVal) : Args :=
  { a with windowType := .fn (.user fun _ iw jw n m => .ok (decide (v n.toNat m.toNat iw.toNat jw.toNat).Inside)) }

/-! ### The cast to int32 -/

theorem trunc_eq_zero_iff (q : ℚ) : trunc q = 0 ↔ |q| < 1 := by
  have hd : (0 : Int) < q.den := by exact_mod_cast q.den_pos
  have hq : q = (q.num : ℚ) / (q.den : ℚ) := (Rat.num_div_den q).symm
  have hd' : (0 : ℚ) < (q.den : ℚ) := by exact_mod_cast q.den_pos
  have h1 : |q| < 1 ↔ |q.num| < (q.den : Int) := by
    conv_lhs => rw [hq]
    rw [abs_div, abs_of_pos hd', div_lt_one hd']
    exact_mod_cast Iff.rfl
  rw [h1]
  unfold trunc
  constructor
  · intro h
    by_contra hc
    have h2 : (q.den : Int) ≤ |q.num| := not_lt.1 hc
    have h3 : (Int.tdiv q.num q.den).natAbs = 0 := by rw [h]; rfl
    rw [Int.natAbs_tdiv] at h3
    have h4 : q.num.natAbs / q.den = 0 := h3
    rcases Nat.div_eq_zero_iff.1 h4 with h5 | h5
    · exact absurd h5 q.den_pos.ne'
    · have : (q.num.natAbs : Int) = |q.num| := Int.natCast_natAbs _
      omega
  · intro h
    have : (q.num.natAbs : Int) = |q.num| := Int.natCast_natAbs _
    have h3 : (Int.tdiv q.num q.den).natAbs = 0 := by
      rw [Int.natAbs_tdiv]
      exact Nat.div_eq_of_lt (by simp only [Int.natAbs_natCast]; omega)
    exact Int.natAbs_eq_zero.1 h3

theorem toI32_ne_zero (v : WinVal) : v.toI32 ≠ 0 ↔ v.Inside := by
  cases v with
  | bool b => cases b <;> simp [WinVal.toI32, WinVal.Inside]
  | int z =>
    simp only [WinVal.toI32, WinVal.Inside]
    omega
  | float x =>
    cases x with
    | fin q =>
      simp only [WinVal.toI32, WinVal.Inside]
      split
      · rw [Ne, trunc_eq_zero_iff, not_lt]
      · rename_i h
        simp only [intMin, ne_eq, Int.reduceNeg, Int.reduceEq, not_false_eq_true, true_iff]
        by_contra hc
        rw [not_le, abs_lt] at hc
        exact h ⟨by linarith [hc.1], by linarith [hc.2]⟩
    | nan => simp [WinVal.toI32, WinVal.Inside, intMin]
    | pinf => simp [WinVal.toI32, WinVal.Inside, intMin]
    | ninf => simp [WinVal.toI32, WinVal.Inside, intMin]

/-! ### The kernel only asks whether a window entry is zero -/

theorem rd_map {α β : Type} (f : α → β) (l : List α) (k : Int) : rd (l.map f) k = (rd l k).map f := by
  unfold rd
  split
  · rw [List.getElem?_map]
    cases l[k.toNat]? <;> rfl
  · rfl

theorem cell_wm {n : Int} {wm : List Int} {f : Int → Int} (hf : ∀ x, f x = 0 ↔ x = 0) (lm : List F64)
    (steps : List CStep) (npats : Nat) (st : List F64 × List Int) (i j : Int) :
    cell A n (wm.map f) lm steps npats st i j = cell A n wm lm steps npats st i j := by
  unfold cell
  cases em n i j with
  | error e => rfl
  | ok k =>
    simp only [Except_bind_ok, rd_map]
    cases rd wm k with
    | error e => rfl
    | ok x =>
      simp only [Except.map, Except_bind_ok, hf]

theorem computeCM_wm {f : Int → Int} (hf : ∀ x, f x = 0 ↔ x = 0) (n m : Nat) (wm : List Int) (lm : List F64)
    (nsteps : Nat) (dir : List ℚ) (cm : List F64) (sm : List Int) :
    computeCM A n m (wm.map f) lm nsteps dir cm sm = computeCM A n m wm lm nsteps dir cm sm := by
  unfold computeCM
  simp only [cell_wm hf]

/-- The 0/1 entry of a window entry. -/
def bit (x : Int) : Int := if x = 0 then 0 else 1

theorem bit_eq_zero (x : Int) : bit x = 0 ↔ x = 0 := by unfold bit; split <;> simp_all

theorem wrapper_wm (r c : Nat) (d : List Int) (lm : Mat F64) (lay : Layout) (ns : Nat) (dir : List ℚ) (cm : Mat F64) :
    computeCMWrapper A ⟨r, c, d.map bit⟩ lm lay ns dir cm = computeCMWrapper A ⟨r, c, d⟩ lm lay ns dir cm := by
  unfold computeCMWrapper
  simp only [computeCM_wm bit_eq_zero]

theorem windowMatrix_pointwise (n m : Nat) (v : Nat → Nat → Nat → Nat → WinVal) (args : WinArgs) :
    windowMatrix n m (.user fun _ iw jw n m => .ok (decide (v n.toNat m.toNat iw.toNat jw.toNat).Inside)) args =
      .ok ⟨n, m, ((Mat.ofFn n m (v n m)).data.map WinVal.toI32).map bit⟩ := by
  unfold windowMatrix
  simp only [WinFn.call, Except_bind_ok, Int.toNat_natCast]
  have hm := mapM_ok (fun (k : Nat) => Except.ok (if decide (v n m (k / m) (k % m)).Inside then (1 : Int) else 0))
    (fun (k : Nat) => if decide (v n m (k / m) (k % m)).Inside then (1 : Int) else 0) (List.range (n * m))
    (fun k _ => rfl)
  rw [hm]
  simp only [Except_bind_ok, Mat.ofFn, List.map_map]
  congr 2
  apply List.map_congr_left
  intro k _
  simp only [Function.comp, bit]
  by_cases h : (v n m (k / m) (k % m)).Inside
  · have := (toI32_ne_zero _).2 h
    simp [h, this]
  · have h0 : (v n m (k / m) (k % m)).toI32 = 0 := by
      by_contra hc; exact h ((toI32_ne_zero _).1 hc)
    simp [h, h0]

theorem gcm_pointwise {v : Nat → Nat → Nat → Nat → WinVal} {args : WinArgs} (h : w.Returns args v) (lm : Mat F64)
    (lay : Layout) (p : StepPattern) (seed : Option (Mat F64)) :
    PyWindow.globalCostMatrix A lm lay p w seed args =
      globalCostMatrix A lm lay p
        (.user fun _ iw jw n m => .ok (decide (v n.toNat m.toNat iw.toNat jw.toNat).Inside)) seed args := by
  unfold PyWindow.globalCostMatrix globalCostMatrix
  rw [h, windowMatrix_pointwise]
  simp only [Except_bind_ok]
  cases initialCM lm seed with
  | error e => rfl
  | ok cm =>
    simp only [Except_bind_ok, wrapper_wm]
    simp [Mat.ofFn]

/-- C60: a window function that returns an array of the shape of the grid has exactly the effect of the window that admits
the cells whose entry is `True`, a float of absolute value at least 1 (or infinite, or NaN), or an integer that is not a multiple of 2^32 - with every
option, pattern and rounding, errors included.  (The result records the function itself.) -/
theorem C60_matching_shape {v : Nat → Nat → Nat → Nat → WinVal} (h : w.Returns a.windowArgs v) :
    PyWindow.dtw A a w = (dtw A (pointwise a v)).map fun r => { r with windowFunction := w.fn } := by
  have hl : localCost (pointwise a v) = localCost a := rfl
  have hr : ∀ lm lay p, PyWindow.runGCM A a lm lay w p =
      runGCM A (pointwise a v) lm lay (canonWindow (pointwise a v).windowType) p := by
    intro lm lay p
    unfold PyWindow.runGCM runGCM
    simp only [gcm_pointwise h]
    rfl
  unfold PyWindow.dtw dtw
  rw [hl]
  cases localCost a with
  | error e => rfl
  | ok t =>
    obtain ⟨lm, lay, qr⟩ := t
    simp only [Except_bind_ok, hr]
    have hp : (pointwise a v).stepPattern = a.stepPattern := rfl
    rw [hp]
    cases canonPattern a.stepPattern with
    | error e => rfl
    | ok p =>
      simp only [Except_bind_ok]
      cases runGCM A (pointwise a v) lm lay (canonWindow (pointwise a v).windowType) p with
      | error e => rfl
      | ok t =>
        obtain ⟨lm', cm, sm⟩ := t
        simp only [Except_bind_ok]
        have hpe : ∀ x y z u, pickEnd (pointwise a v) x y z u = pickEnd a x y z u := fun _ _ _ _ => rfl
        have hpm : ∀ x y z, pickMapping (pointwise a v) x y z = pickMapping a x y z := fun _ _ _ => rfl
        rw [hpe]
        cases pickEnd a p.hint lm.cols cm (normalise A p.hint lm.rows (cm.row (cm.rows - 1))) with
        | error e => rfl
        | ok t =>
          obtain ⟨j, d⟩ := t
          simp only [Except_bind_ok]
          cases pickNorm p.hint (normalise A p.hint lm.rows (cm.row (cm.rows - 1))) j with
          | error e => rfl
          | ok nd =>
            simp only [Except_bind_ok]
            rw [hpm]
            cases pickMapping a p sm j with
            | error e => rfl
            | ok mp => rfl

/-! ### Agreement with the pointwise model, and with countPaths -/

theorem dtw_window_swap {wf wf' : WinFn} (h : ∀ n m, windowMatrix n m wf a.windowArgs = windowMatrix n m wf' a.windowArgs) :
    (dtw A { a with windowType := .fn wf }) =
      (dtw A { a with windowType := .fn wf' }).map fun r => { r with windowFunction := wf } := by
  have hr : ∀ lm lay p, runGCM A { a with windowType := .fn wf } lm lay wf p =
      runGCM A { a with windowType := .fn wf' } lm lay wf' p := by
    intro lm lay p
    unfold runGCM globalCostMatrix
    simp only [h]
  unfold dtw
  have hl : localCost { a with windowType := .fn wf } = localCost { a with windowType := .fn wf' } := rfl
  rw [hl]
  cases localCost { a with windowType := .fn wf' } with
  | error e => rfl
  | ok t =>
    obtain ⟨lm, lay, qr⟩ := t
    simp only [Except_bind_ok, canonWindow, hr]
    cases canonPattern a.stepPattern with
    | error e => rfl
    | ok p =>
      simp only [Except_bind_ok]
      cases runGCM A { a with windowType := .fn wf' } lm lay wf' p with
      | error e => rfl
      | ok t =>
        obtain ⟨lm', cm, sm⟩ := t
        simp only [Except_bind_ok]
        have hpe : ∀ x y z u, pickEnd { a with windowType := .fn wf } x y z u =
          pickEnd { a with windowType := .fn wf' } x y z u := fun _ _ _ _ => rfl
        have hpm : ∀ x y z, pickMapping { a with windowType := .fn wf } x y z =
          pickMapping { a with windowType := .fn wf' } x y z := fun _ _ _ => rfl
        rw [hpe]
        cases pickEnd { a with windowType := .fn wf' } p.hint lm.cols cm
            (normalise A p.hint lm.rows (cm.row (cm.rows - 1))) with
        | error e => rfl
        | ok t =>
          obtain ⟨j, d⟩ := t
          simp only [Except_bind_ok]
          cases pickNorm p.hint (normalise A p.hint lm.rows (cm.row (cm.rows - 1))) j with
          | error e => rfl
          | ok nd =>
            simp only [Except_bind_ok]
            rw [hpm]
            cases pickMapping { a with windowType := .fn wf' } p sm j with
            | error e => rfl
            | ok mp => rfl

theorem mapM_congr {α β : Type} {f g : α → Except Err β} : ∀ {l : List α}, (∀ x ∈ l, f x = g x) → l.mapM f = l.mapM g := by
  intro l
  induction l with
  | nil => intro _; rfl
  | cons x xs ih =>
    intro h
    rw [List.mapM_cons, List.mapM_cons, h x (by simp), ih fun y hy => h y (by simp [hy])]

/-- C60: for element-by-element functions whose values have the same truth value before and after the cast - booleans, 0/1
integers, … - `dtw` takes exactly the window that `countPaths` takes: the call is that of the pointwise model, with the very
function that `countPaths` will call. -/
theorem C60_elementwise {v : Nat → Nat → Nat → Nat → WinVal} (h : w.Elementwise a.windowArgs v)
    (hv : ∀ n m, ∀ i < n, ∀ j < m, (v n m i j).truthy = true ↔ (v n m i j).Inside) :
    PyWindow.dtw A a w = dtw A { a with windowType := .fn w.fn } := by
  rw [C60_matching_shape h.array]
  symm
  apply dtw_window_swap (a := a)
  intro n m
  unfold windowMatrix PyWindow.fn
  simp only [WinFn.call]
  congr 1
  apply mapM_congr
  intro k hk
  have hk := List.mem_range.1 hk
  have hm : 0 < m := by
    rcases Nat.eq_zero_or_pos m with h | h
    · subst h; simp at hk
    · exact h
  rw [h.scalar]
  simp only [Int.toNat_natCast, Except_bind_ok]
  have := hv n m (k / m) ((Nat.div_lt_iff_lt_mul hm).2 hk) (k % m) (Nat.mod_lt _ hm)
  by_cases hi : (v n m (k / m) (k % m)).Inside
  · simp [hi, this.2 hi]
  · have : (v n m (k / m) (k % m)).truthy = false := by
      cases ht : (v n m (k / m) (k % m)).truthy
      · rfl
      · exact absurd (this.1 ht) hi
    simp [hi, this]

/-- … the values for which the two readings differ: non-zero floats strictly between -1 and 1, and non-zero integers that
are multiples of 2^32.  Those cells are outside for `dtw` and inside for `countPaths`; there is no value the other way
round. -/
theorem C60_disagreement (x : WinVal) : ¬ (x.truthy = true ↔ x.Inside) ↔
    (∃ q : ℚ, x = .float (fin q) ∧ q ≠ 0 ∧ |q| < 1) ∨ ∃ z : Int, x = .int z ∧ z ≠ 0 ∧ 4294967296 ∣ z := by
  cases x with
  | bool b => simp [WinVal.truthy, WinVal.Inside]
  | int z =>
    simp only [WinVal.truthy, WinVal.Inside, decide_eq_true_eq, reduceCtorEq, false_and, exists_const, false_or,
      WinVal.int.injEq, exists_eq_left']
    have : z = 0 → (4294967296 : Int) ∣ z := fun h => h ▸ dvd_zero _
    tauto
  | float x =>
    cases x with
    | fin q =>
      simp only [WinVal.truthy, WinVal.Inside, decide_eq_true_eq, WinVal.float.injEq, F64.fin.injEq, exists_eq_left',
        reduceCtorEq, false_and, exists_const, or_false, ne_eq]
      rw [← not_lt (a := |q|)]
      have : q = 0 → |q| < 1 := fun h => by rw [h]; norm_num
      tauto
    | nan => simp [WinVal.truthy, WinVal.Inside]
    | pinf => simp [WinVal.truthy, WinVal.Inside]
    | ninf => simp [WinVal.truthy, WinVal.Inside]

/-! ### Results that are not matrices in row-major order -/

theorem dtw_window_error {n m : Nat} {L : Nat → Nat → F64} {W p rs} (h : Problem a n m L W p rs)
    (hint : a.openBegin = true → p.hint = "N") {e : Err}
    (he : ∀ lm seed c, lm.rows = gridRows a n → lm.cols = m → initialCM lm seed = .ok c →
      PyWindow.globalCostMatrix A lm ⟨true, true⟩ p w seed a.windowArgs = .error e) :
    PyWindow.dtw A a w = .error e := by
  obtain ⟨qr, hl, -, hs⟩ := localCost_of h.cost
  have hr : PyWindow.runGCM A a (Mat.ofFn n m L) ⟨true, true⟩ w p = .error e := by
    unfold PyWindow.runGCM
    cases hob : a.openBegin with
    | false =>
      simp only [Bool.false_eq_true, if_false]
      rw [he (Mat.ofFn n m L) none _ (by simp [gridRows, hob, Mat.ofFn]) rfl (initialCM_none h.n_pos h.m_pos L)]
      rfl
    | true =>
      have hlay : (if a.y.isSome then true else a.stackContig) = true := by
        rcases hs with hs | hs <;> simp [hs]
      simp only [if_true, hint hob, ne_eq, not_true_eq_false, if_false, hlay]
      rw [he (prependZeros (Mat.ofFn n m L)) (some (precm (Mat.ofFn n m L))) _
        (by simp [gridRows, hob, Mat.ofFn, prependZeros]) rfl rfl]
      rfl
  unfold PyWindow.dtw
  rw [hl]
  simp only [Except_bind_ok, h.pattern, hr, Except_bind_error]

/-- C60: a function that returns something without a method `astype` (a Python bool or number, a list, None) is rejected
with AttributeError; a numpy scalar, a vector or an array in column-major order with ValueError; an exception of the
function itself comes through. -/
theorem C60_rejected {n m : Nat} {L : Nat → Nat → F64} {W p rs} (h : Problem a n m L W p rs)
    (hint : a.openBegin = true → p.hint = "N") :
    (w.array a.windowArgs (gridRows a n) m = .ok .pyObject → PyWindow.dtw A a w = .error .attributeError) ∧
    (w.array a.windowArgs (gridRows a n) m = .ok .otherDim →
      PyWindow.dtw A a w = .error (.valueError "Buffer has wrong number of dimensions")) ∧
    (∀ v, w.array a.windowArgs (gridRows a n) m = .ok (.mat v false) →
      PyWindow.dtw A a w = .error (.valueError "buffer mismatch")) ∧
    ∀ e, w.array a.windowArgs (gridRows a n) m = .error e → PyWindow.dtw A a w = .error e := by
  refine ⟨fun hw => ?_, fun hw => ?_, fun v hw => ?_, fun e hw => ?_⟩ <;>
  · apply dtw_window_error h hint
    intro lm seed c h1 h2 hc
    unfold PyWindow.globalCostMatrix
    rw [h1, h2, hw]
    try simp only [Except_bind_ok, Except_bind_error, hc, if_true]


/-! ### Arrays of the wrong shape -/

theorem foldlM_wr_ub : ∀ (K : Nat) (sm : List Int), sm.length < K →
    (List.range K).foldlM (fun (sm : List Int) (i : Nat) => wr sm i intMin) sm = .error .ub := by
  intro K
  induction K with
  | zero => intro sm h; omega
  | succ k ih =>
    intro sm h
    rw [List.range_succ, List.foldlM_append]
    rcases Nat.lt_or_ge sm.length k with h1 | h1
    · rw [ih sm h1]; rfl
    · have hk : sm.length = k := by omega
      rw [foldlM_wr_clear k sm hk]
      simp [wr]

/-- The kernel, told the dimensions of a window larger than the matrix, clears the direction matrix beyond its end. -/
theorem computeCM_too_large {p : StepPattern} {rs : List Rule} (hp : WF p rs) {q m : Nat} (hf : Fits q m rs)
    {r c : Nat} (wm : List Int) (lm cm : List F64) (sm : List Int) (hs : sm.length < r * c) :
    computeCM A c r wm lm p.getNRows p.getP cm sm = .error .ub := by
  obtain ⟨hrows, hne, hv⟩ := hp
  obtain ⟨_, hlen, hb⟩ := hf
  have hdec := decode_ok p (by rw [hrows]; exact hlen) (by rw [hrows]; exact encode_OK hv hb)
  obtain ⟨last, hl1, hl2⟩ := getLast?_encodeFrom rs 0 hne
  unfold computeCM
  rw [hdec, Except_bind_ok, List.getLast?_map, hrows]
  have hl1' : (encode rs).getLast? = some last := hl1
  rw [hl1']
  simp only [Option.map_some]
  have hle : rs.length ≤ (encode rs).length := length_encodeFrom rs 0
  have hnp : last.toC.pn + 1 = (rs.length : Int) := by
    simp only; omega
  rw [hnp, i32_ok (by omega) (by omega), Except_bind_ok]
  have e1 : ((r : Int) * (c : Int)) = ((r * c : Nat) : Int) := by push_cast; ring
  rw [e1]
  by_cases hbig : r * c < 2147483648
  · rw [i32_ok (by omega) (by omega), Except_bind_ok]
    simp only [Int.toNat_natCast]
    rw [foldlM_wr_ub _ _ hs]
    rfl
  · have : i32 ((r * c : Nat) : Int) = .error .ub := by
      unfold i32
      rw [if_neg (by omega)]
    rw [this]
    rfl

/-- C60, negative: nothing compares the shape of the returned array with that of the cost matrix.  With more elements than
the grid has, every call writes beyond the end of the direction matrix: undefined behaviour. -/
theorem C60_too_large {n m : Nat} {L : Nat → Nat → F64} {W p rs} (h : Problem a n m L W p rs)
    (hint : a.openBegin = true → p.hint = "N") {v : Mat WinVal}
    (hw : w.array a.windowArgs (gridRows a n) m = .ok (.mat v true)) (hbig : gridRows a n * m < v.rows * v.cols) :
    PyWindow.dtw A a w = .error .ub := by
  apply dtw_window_error h hint
  intro lm seed c h1 h2 hc
  unfold PyWindow.globalCostMatrix
  rw [h1, h2, hw]
  simp only [Except_bind_ok, hc, Bool.true_eq_false, if_false]
  unfold computeCMWrapper
  have hpos : 0 < v.rows * v.cols := by omega
  have hr0 := Nat.pos_of_mul_pos_right hpos
  have hc0 := Nat.pos_of_mul_pos_left hpos
  rw [if_neg (by simp), if_neg (by
    rintro (h' | h' | h')
    · simp only at h'; omega
    · simp only at h'; omega
    · exact getP_ne_nil h.wf h')]
  simp only
  rw [computeCM_too_large h.wf h.fits _ _ _ _ (by simp [h1, h2]; exact hbig)]
  rfl

/-- C60, negative: with as many elements as the matrix but another shape, the kernel silently computes on the cost matrix
*reshaped* to the shape of the array: closed begin and end, `distance_only`: distance and cost/direction data are those of the call
with the reshaped matrix. -/
theorem C60_same_size_is_reshape {lm : Mat F64} {v : Mat WinVal} {w' : PyWindow} (hy : a.y = none) (hx : a.x = .d2 lm)
    (hob : a.openBegin = false) (hoe : a.openEnd = false) (hdo : a.distanceOnly = true)
    (hlen : lm.data.length = lm.rows * lm.cols) (hsize : v.rows * v.cols = lm.rows * lm.cols) (hpos : 0 < lm.rows * lm.cols)
    (hw : w.array a.windowArgs lm.rows lm.cols = .ok (.mat v true))
    (hw' : w'.array a.windowArgs v.rows v.cols = .ok (.mat v true)) :
    (PyWindow.dtw A a w).map (fun r => (r.distance, r.costMatrix.map Mat.data, r.directionMatrix.map Mat.data)) =
      (PyWindow.dtw A { a with x := .d2 ⟨v.rows, v.cols, lm.data⟩ } w').map
        (fun r => (r.distance, r.costMatrix.map Mat.data, r.directionMatrix.map Mat.data)) := by
  have hr0 := Nat.pos_of_mul_pos_right hpos
  have hc0 := Nat.pos_of_mul_pos_left hpos
  have hr1 := Nat.pos_of_mul_pos_right (hsize ▸ hpos)
  have hc1 := Nat.pos_of_mul_pos_left (hsize ▸ hpos)
  obtain ⟨d0, hd0⟩ : ∃ d0, lm.data[0]? = some d0 := ⟨lm.data[0]'(by omega), List.getElem?_eq_getElem _⟩
  -- the shape only matters in the wrappers
  have key : ∀ (r c : Nat), 0 < r → 0 < c → r * c = lm.rows * lm.cols → ∀ (u : PyWindow) (p : StepPattern),
      u.array a.windowArgs r c = .ok (.mat v true) → ∀ b : Args, b.openBegin = false → b.windowArgs = a.windowArgs →
      PyWindow.runGCM A b ⟨r, c, lm.data⟩ a.layout u p =
        (if a.layout.isDouble = false ∨ a.layout.cContig = false then .error (.valueError "buffer mismatch")
         else if p.getP = [] then .error .indexError
         else (computeCM A v.cols v.rows (v.data.map WinVal.toI32) lm.data p.getNRows p.getP
            ((List.replicate (lm.rows * lm.cols) nan).set 0 d0) (List.replicate (lm.rows * lm.cols) (-1))).map
            fun cs => (⟨r, c, lm.data⟩, ⟨r, c, cs.1⟩, ⟨r, c, cs.2⟩)) := by
    intro r c hr hc hrc u p hu b hb hba
    unfold PyWindow.runGCM PyWindow.globalCostMatrix initialCM computeCMWrapper
    rw [hba]
    simp only [hb, Bool.false_eq_true, if_false, hu, Except_bind_ok]
    rw [if_neg (by omega)]
    have hg : Mat.pyGet ⟨r, c, lm.data⟩ 0 0 = .ok d0 := by
      unfold Mat.pyGet
      simp [hr, hc, hd0]
    simp only [hg, Except_bind_ok]
    have e1 : ((v.rows = 0 ∨ v.cols = 0 ∨ p.getP = []) ↔ p.getP = []) := by
      constructor
      · rintro (h | h | h)
        · omega
        · omega
        · exact h
      · exact fun h => .inr (.inr h)
    simp only [e1, hrc, Bool.true_eq_false, if_false]
    by_cases h1 : a.layout.isDouble = false ∨ a.layout.cContig = false
    · simp only [h1, if_true]; rfl
    · simp only [h1, if_false]
      by_cases h2 : p.getP = []
      · simp only [h2, if_true]; rfl
      · simp only [h2, if_false]
        cases computeCM A v.cols v.rows (v.data.map WinVal.toI32) lm.data p.getNRows p.getP
            ((List.replicate (lm.rows * lm.cols) nan).set 0 d0) (List.replicate (lm.rows * lm.cols) (-1)) <;> rfl
  -- the rest
  have rest : ∀ (r c : Nat), 0 < r → 0 < c → r * c = lm.rows * lm.cols → ∀ (u : PyWindow),
      u.array a.windowArgs r c = .ok (.mat v true) →
      (PyWindow.dtw A { a with x := .d2 ⟨r, c, lm.data⟩ } u).map
          (fun r => (r.distance, r.costMatrix.map Mat.data, r.directionMatrix.map Mat.data)) =
        (do
          let p ← canonPattern a.stepPattern
          let cs ← (if a.layout.isDouble = false ∨ a.layout.cContig = false then .error (.valueError "buffer mismatch")
            else if p.getP = [] then .error .indexError
            else computeCM A v.cols v.rows (v.data.map WinVal.toI32) lm.data p.getNRows p.getP
            ((List.replicate (lm.rows * lm.cols) nan).set 0 d0) (List.replicate (lm.rows * lm.cols) (-1)))
          match cs.1[lm.rows * lm.cols - 1]? with
          | none => .error .indexError
          | some d =>
            if isNan d then .error (.valueError "No warping path found compatible with the local constraints")
            else .ok (d, (if a.keepInternals then some cs.1 else none), (if a.keepInternals then some cs.2 else none))) := by
    intro r c hr hc hrc u hu
    unfold PyWindow.dtw
    have hl : localCost { a with x := .d2 ⟨r, c, lm.data⟩ } = .ok (⟨r, c, lm.data⟩, a.layout, none) := by
      simp [localCost, hy]
    rw [hl]
    simp only [Except_bind_ok]
    cases canonPattern a.stepPattern with
    | error e => rfl
    | ok p =>
      simp only [Except_bind_ok]
      rw [key r c hr hc hrc u p hu { a with x := .d2 ⟨r, c, lm.data⟩ } hob rfl]
      by_cases h1 : a.layout.isDouble = false ∨ a.layout.cContig = false
      · simp only [h1, if_true]; rfl
      · simp only [h1, if_false]
        by_cases h2 : p.getP = []
        · simp only [h2, if_true]; rfl
        · simp only [h2, if_false]
          cases computeCM A v.cols v.rows (v.data.map WinVal.toI32) lm.data p.getNRows p.getP
              ((List.replicate (lm.rows * lm.cols) nan).set 0 d0) (List.replicate (lm.rows * lm.cols) (-1)) with
          | error e => rfl
          | ok cs =>
            have hidx : (r - 1) * c + (c - 1) = lm.rows * lm.cols - 1 := by
              rw [← hrc]
              obtain ⟨k, rfl⟩ : ∃ k, r = k + 1 := ⟨r - 1, by omega⟩
              rw [Nat.add_sub_cancel, Nat.add_mul]
              omega
            have hg : Mat.pyGet (⟨r, c, cs.1⟩ : Mat F64) (-1) ((c : Int) - 1) =
                match cs.1[lm.rows * lm.cols - 1]? with
                | some v => .ok v
                | none => .error .indexError := by
              unfold Mat.pyGet
              have t1 : ((-1 : Int) + (r : Int)).toNat = r - 1 := by omega
              have t2 : ((c : Int) - 1).toNat = c - 1 := by omega
              simp only [show ((-1 : Int) < 0) from by decide, if_true]
              rw [if_neg (show ¬ ((c : Int) - 1 < 0) by omega), if_pos (by omega), t1, t2, hidx]
              cases cs.1[lm.rows * lm.cols - 1]? <;> rfl
            simp only [Except.map, Except_bind_ok, pickEnd, hoe, Bool.false_eq_true, if_false, hg]
            cases hcs : cs.1[lm.rows * lm.cols - 1]? with
            | none => rfl
            | some d =>
              simp only [Except_bind_ok]
              by_cases hd : isNan d
              · simp only [hd, if_true]; rfl
              · simp only [hd]
                have hpn : ∃ nd, pickNorm p.hint (normalise A p.hint r (Mat.row ⟨r, c, cs.1⟩ (r - 1))) ((c : Int) - 1) =
                    .ok nd := by
                  unfold pickNorm
                  split
                  · have hln : (normalise A p.hint r (Mat.row ⟨r, c, cs.1⟩ (r - 1))).length =
                        (Mat.row (⟨r, c, cs.1⟩ : Mat F64) (r - 1)).length := by
                      unfold normalise
                      split <;> [rfl; (split <;> [simp; (split <;> [simp; (split <;> [simp; rfl])])])]
                    have hlt : lm.rows * lm.cols - 1 < cs.1.length := by
                      by_contra hcon
                      rw [List.getElem?_eq_none (not_lt.1 hcon)] at hcs
                      cases hcs
                    have hlr : (Mat.row (⟨r, c, cs.1⟩ : Mat F64) (r - 1)).length = c := by
                      unfold Mat.row
                      simp only [List.length_take, List.length_drop]
                      omega
                    have t2 : ((c : Int) - 1).toNat = c - 1 := by omega
                    rw [t2, List.getElem?_eq_getElem (by omega)]
                    exact ⟨_, rfl⟩
                  · exact ⟨_, rfl⟩
                obtain ⟨nd, hnd⟩ := hpn
                simp only [Bool.false_eq_true, if_false, Except_bind_ok, hnd, pickMapping, hdo, if_true, hob]
                cases a.keepInternals <;> rfl
  have e2 : { a with x := Nd.d2 lm } = a := by
    cases a; simp only at hx; subst hx; rfl
  have r1 := rest lm.rows lm.cols hr0 hc0 rfl w hw
  rw [show (⟨lm.rows, lm.cols, lm.data⟩ : Mat F64) = lm from rfl, e2] at r1
  rw [r1, rest v.rows v.cols hr1 hc1 hsize w' hw']

theorem rd_append {α : Type} {l : List α} (x : List α) {k : Int} {v : α} (h : rd l k = .ok v) : rd (l ++ x) k = .ok v := by
  unfold rd at h ⊢
  split at h
  · rename_i hk
    rw [if_pos hk]
    cases hl : l[k.toNat]? with
    | none => rw [hl] at h; cases h
    | some u =>
      rw [hl] at h
      have : k.toNat < l.length := (List.getElem?_eq_some_iff.1 hl).1
      rw [List.getElem?_append_left this, hl]
      exact h
  · cases h

theorem wr_append {α : Type} {l l' : List α} (x : List α) {k : Int} {v : α} (h : wr l k v = .ok l') :
    wr (l ++ x) k v = .ok (l' ++ x) := by
  unfold wr at h ⊢
  split at h
  · rename_i hk
    rw [if_pos ⟨hk.1, by rw [List.length_append]; omega⟩]
    cases h
    rw [List.set_append_left _ _ hk.2]
  · cases h

theorem bind_ok {α β : Type} {x : Except Err α} {f : α → Except Err β} {b : β} (h : (x >>= f) = .ok b) :
    ∃ a, x = .ok a ∧ f a = .ok b := by
  cases x with
  | error e => cases h
  | ok a => exact ⟨a, rfl, h⟩

theorem foldlM_sim {σ τ α : Type} {f : σ → α → Except Err σ} {g : τ → α → Except Err τ} {φ : σ → τ}
    (h : ∀ s s' x, f s x = .ok s' → g (φ s) x = .ok (φ s')) : ∀ (l : List α) {s s' : σ},
    l.foldlM f s = .ok s' → l.foldlM g (φ s) = .ok (φ s') := by
  intro l
  induction l with
  | nil => intro s s' hs; cases hs; rfl
  | cons x xs ih =>
    intro s s' hs
    rw [List.foldlM_cons] at hs ⊢
    obtain ⟨t, h1, h2⟩ := bind_ok hs
    rw [h _ _ _ h1, Except_bind_ok]
    exact ih h2

theorem relax_append {n : Int} {lm cm : List F64} (x y : List F64) {i j : Int} {cl cl' : List F64} {s : CStep}
    (h : relax A n lm cm i j cl s = .ok cl') : relax A n (lm ++ x) (cm ++ y) i j cl s = .ok cl' := by
  unfold relax at h ⊢
  obtain ⟨ii, h1, h⟩ := bind_ok h
  obtain ⟨jj, h2, h⟩ := bind_ok h
  rw [h1, Except_bind_ok, h2, Except_bind_ok]
  split at h
  · rename_i hc
    rw [if_pos hc]
    split at h
    · rename_i hs
      rw [if_pos hs]
      obtain ⟨e, h3, h⟩ := bind_ok h
      obtain ⟨v, h4, h⟩ := bind_ok h
      rw [h3, Except_bind_ok, rd_append y h4, Except_bind_ok, h]
    · rename_i hs
      rw [if_neg hs]
      obtain ⟨c, h5, h⟩ := bind_ok h
      obtain ⟨e, h3, h⟩ := bind_ok h
      obtain ⟨v, h4, h⟩ := bind_ok h
      rw [h5, Except_bind_ok, h3, Except_bind_ok, rd_append x h4, Except_bind_ok, h]
  · rename_i hc
    rw [if_neg hc]
    exact h

/-- Buffers longer than the dimensions say: what lies beyond is neither read nor written. -/
theorem cell_append {n : Int} {wm : List Int} {lm : List F64} (x y : List F64) (z : List Int) {steps : List CStep}
    {npats : Nat} {st st' : List F64 × List Int} {i j : Int} (h : cell A n wm lm steps npats st i j = .ok st') :
    cell A n wm (lm ++ x) steps npats (st.1 ++ y, st.2 ++ z) i j = .ok (st'.1 ++ y, st'.2 ++ z) := by
  unfold cell at h ⊢
  obtain ⟨k, h1, h⟩ := bind_ok h
  obtain ⟨u, h2, h⟩ := bind_ok h
  rw [h1, Except_bind_ok, h2, Except_bind_ok]
  split at h
  · rename_i hc
    rw [if_pos hc]
    cases h; rfl
  · rename_i hc
    rw [if_neg hc]
    obtain ⟨c, h3, h⟩ := bind_ok h
    rw [rd_append y h3, Except_bind_ok]
    split at h
    · rename_i hc
      rw [if_pos hc]
      cases h; rfl
    · rename_i hc
      rw [if_neg hc]
      obtain ⟨cl, h4, h⟩ := bind_ok h
      have h4' : steps.foldlM (relax A n (lm ++ x) (st.1 ++ y) i j) (List.replicate npats nan) = .ok cl :=
        foldlM_sim (φ := id) (fun s s' t ht => relax_append x y ht) steps h4
      simp only at h4' h ⊢
      rw [h4', Except_bind_ok]
      split at h
      · rename_i hc
        rw [if_pos hc]
        obtain ⟨v, h5, h⟩ := bind_ok h
        obtain ⟨cm, h6, h⟩ := bind_ok h
        obtain ⟨sm, h7, h⟩ := bind_ok h
        rw [h5, Except_bind_ok, wr_append y h6, Except_bind_ok, wr_append z h7, Except_bind_ok]
        cases h; rfl
      · rename_i hc
        rw [if_neg hc]
        cases h; rfl

theorem computeCM_append {n m : Nat} {wm : List Int} {lm cm : List F64} {sm : List Int} (x y : List F64) (z : List Int)
    {ns : Nat} {dir : List ℚ} {c : List F64} {s : List Int} (h : computeCM A n m wm lm ns dir cm sm = .ok (c, s)) :
    computeCM A n m wm (lm ++ x) ns dir (cm ++ y) (sm ++ z) = .ok (c ++ y, s ++ z) := by
  unfold computeCM at h ⊢
  obtain ⟨steps, h1, h⟩ := bind_ok h
  rw [h1, Except_bind_ok]
  cases hl : steps.getLast? with
  | none => rw [hl] at h; cases h
  | some last =>
    rw [hl] at h
    simp only at h ⊢
    obtain ⟨np, h2, h⟩ := bind_ok h
    obtain ⟨mn, h3, h⟩ := bind_ok h
    obtain ⟨s1, h4, h⟩ := bind_ok h
    rw [h2, Except_bind_ok, h3, Except_bind_ok, foldlM_sim (φ := (· ++ z))
      (g := fun (sm : List Int) (i : Nat) => wr sm i intMin) (fun _ _ _ ht => wr_append z ht) _ h4, Except_bind_ok]
    exact foldlM_sim (φ := fun (st : List F64 × List Int) => (st.1 ++ y, st.2 ++ z))
      (f := fun (st : List F64 × List Int) (j : Nat) => (List.range n).foldlM (fun st (i : Nat) =>
        cell A n wm lm steps np.toNat st i j) st)
      (g := fun (st : List F64 × List Int) (j : Nat) => (List.range n).foldlM (fun st (i : Nat) =>
        cell A n wm (lm ++ x) steps np.toNat st i j) st) (fun st st' j hj =>
      foldlM_sim (φ := fun (st : List F64 × List Int) => (st.1 ++ y, st.2 ++ z))
        (f := fun (st : List F64 × List Int) (i : Nat) => cell A n wm lm steps np.toNat st i j)
        (g := fun (st : List F64 × List Int) (i : Nat) => cell A n wm (lm ++ x) steps np.toNat st i j)
        (fun st st' i hi => cell_append x y z hi) _ hj) _ h

theorem ofFn_self {α : Type} [Inhabited α] (r c : Nat) (d : List α) (h : r * c ≤ d.length) :
    d = (Mat.ofFn r c fun i j => (d[i * c + j]?).getD default).data ++ d.drop (r * c) := by
  conv_lhs => rw [← List.take_append_drop (r * c) d]
  congr 1
  apply List.ext_getElem?
  intro k
  by_cases hk : k < r * c
  · have hc : 0 < c := by
      rcases Nat.eq_zero_or_pos c with h | h
      · subst h; simp at hk
      · exact h
    rw [List.getElem?_take_of_lt hk]
    simp only [Mat.ofFn, List.getElem?_map]
    rw [List.getElem?_range hk]
    simp only [Option.map_some, Nat.div_add_mod']
    rw [List.getElem?_eq_getElem (by omega)]
    rfl
  · rw [List.getElem?_eq_none (by simp; omega), List.getElem?_eq_none (by rw [length_ofFn]; omega)]

/-- C60, negative: with fewer elements than the grid (closed begin and end) the last cells are never computed and the call
always fails with "No warping path found", whatever the array says. -/
theorem C60_too_small {n m : Nat} {L : Nat → Nat → F64} {W p rs} (h : Problem a n m L W p rs)
    (hob : a.openBegin = false) (hoe : a.openEnd = false) {v : Mat WinVal}
    (hw : w.array a.windowArgs n m = .ok (.mat v true)) (hv : v.data.length = v.rows * v.cols)
    (hpos : 0 < v.rows * v.cols) (hsmall : v.rows * v.cols < n * m) :
    PyWindow.dtw A a w = .error (.valueError "No warping path found compatible with the local constraints") := by
  obtain ⟨qr, hl, -, -⟩ := localCost_of h.cost
  have hn := h.n_pos
  have hm := h.m_pos
  have hr0 := Nat.pos_of_mul_pos_right hpos
  have hc0 := Nat.pos_of_mul_pos_left hpos
  -- the kernel
  have hgr : gridRows a n = n := by simp [gridRows, hob]
  have hf := h.fits
  rw [hgr] at hf
  have hf' : Fits v.rows v.cols rs := ⟨lt_trans hsmall hf.cells, hf.rows, hf.deltas⟩
  set S := Mat.ofFn n m (closedSeed L) with hS
  obtain ⟨G, D, hk, -⟩ := computeCM_spec A p rs h.wf v.rows v.cols hf'
    (fun i j => decide (((v.data.map WinVal.toI32)[i * v.cols + j]?).getD default ≠ 0))
    (fun i j => ((Mat.ofFn n m L).data[i * v.cols + j]?).getD default)
    (fun i j => (S.data[i * v.cols + j]?).getD default)
    (List.replicate (v.rows * v.cols) (-1)) (by simp)
  have hwm : (Mat.ofFn v.rows v.cols fun i j =>
      if decide (((v.data.map WinVal.toI32)[i * v.cols + j]?).getD default ≠ 0) then (1 : Int) else 0).data =
      (v.data.map WinVal.toI32).map bit := by
    have e := ofFn_self v.rows v.cols (v.data.map WinVal.toI32) (by simp [hv])
    rw [List.drop_of_length_le (by simp [hv]), List.append_nil] at e
    conv_rhs => rw [e]
    simp only [Mat.ofFn, List.map_map]
    apply List.map_congr_left
    intro k _
    simp only [Function.comp, bit, decide_eq_true_eq]
    by_cases ht : ((v.data.map WinVal.toI32)[k / v.cols * v.cols + k % v.cols]?).getD default = 0
    · rw [if_neg (not_not.2 ht), if_pos ht]
    · rw [if_pos ht, if_neg ht]
  rw [hwm, computeCM_wm bit_eq_zero] at hk
  have hk' := computeCM_append ((Mat.ofFn n m L).data.drop (v.rows * v.cols)) (S.data.drop (v.rows * v.cols))
    (List.replicate (n * m - v.rows * v.cols) (-1)) hk
  rw [← ofFn_self v.rows v.cols (Mat.ofFn n m L).data (by rw [length_ofFn]; omega),
    ← ofFn_self v.rows v.cols S.data (by rw [length_ofFn]; omega), List.replicate_append_replicate,
    show v.rows * v.cols + (n * m - v.rows * v.cols) = n * m by omega] at hk'
  -- the corner is NaN
  have hidx : (n - 1) * m + (m - 1) = n * m - 1 := by
    obtain ⟨k, rfl⟩ : ∃ k, n = k + 1 := ⟨n - 1, by omega⟩
    rw [Nat.add_sub_cancel, Nat.add_mul]
    omega
  have hlast : ((Mat.ofFn v.rows v.cols G).data ++ S.data.drop (v.rows * v.cols))[n * m - 1]? = some nan := by
    rw [List.getElem?_append_right (by rw [length_ofFn]; omega), length_ofFn, List.getElem?_drop,
      show v.rows * v.cols + (n * m - 1 - v.rows * v.cols) = (n - 1) * m + (m - 1) by omega, hS,
      ofFn_getElem? _ (by omega) (by omega)]
    unfold closedSeed
    rw [if_neg (by
      rintro ⟨h1, h2⟩
      have : n = 1 := by omega
      have : m = 1 := by omega
      subst_vars
      omega)]
  unfold PyWindow.dtw
  rw [hl]
  simp only [Except_bind_ok, h.pattern]
  have hrun : PyWindow.runGCM A a (Mat.ofFn n m L) ⟨true, true⟩ w p =
      .ok (Mat.ofFn n m L, ⟨n, m, (Mat.ofFn v.rows v.cols G).data ++ S.data.drop (v.rows * v.cols)⟩,
        ⟨n, m, (Mat.ofFn v.rows v.cols D).data ++ List.replicate (n * m - v.rows * v.cols) (-1)⟩) := by
    unfold PyWindow.runGCM PyWindow.globalCostMatrix
    rw [hob]
    simp only [Bool.false_eq_true, if_false]
    rw [show (Mat.ofFn n m L).rows = n from rfl, show (Mat.ofFn n m L).cols = m from rfl, hw,
      initialCM_none hn hm L]
    simp only [Except_bind_ok, Bool.true_eq_false, if_false]
    unfold computeCMWrapper
    rw [if_neg (by simp), if_neg (by
      rintro (h' | h' | h')
      · simp only at h'; omega
      · simp only at h'; omega
      · exact getP_ne_nil h.wf h')]
    rw [show (Mat.ofFn n m L).rows = n from rfl, show (Mat.ofFn n m L).cols = m from rfl, ← hS]
    simp only
    rw [hk']
    rfl
  rw [hrun]
  simp only [Except_bind_ok]
  have hg : Mat.pyGet (⟨n, m, (Mat.ofFn v.rows v.cols G).data ++ S.data.drop (v.rows * v.cols)⟩ : Mat F64)
      (-1) ((m : Int) - 1) = .ok nan := by
    unfold Mat.pyGet
    have t1 : ((-1 : Int) + (n : Int)).toNat = n - 1 := by omega
    have t2 : ((m : Int) - 1).toNat = m - 1 := by omega
    simp only [show ((-1 : Int) < 0) from by decide, if_true]
    rw [if_neg (show ¬ ((m : Int) - 1 < 0) by omega), if_pos (by omega), t1, t2, hidx, hlast]
  unfold pickEnd
  simp only [hoe, Bool.false_eq_true, if_false, Except_bind_ok]
  rw [show (Mat.ofFn n m L).cols = m from rfl, hg]
  rfl

/-! ### Witnesses -/

namespace Ex

/-- A 2 × 3 cost matrix. -/
def awL : Nat → Nat → F64 :=
  fun i j => if i + j = 0 then fin 0 else if i * 2 + j = 2 then fin 9 else fin 1

/-- A call without window, `distance_only`. -/
def awCall : Args where
  x := .d2 (Mat.ofFn 2 3 awL)
  distanceOnly := true
  keepInternals := true

theorem awCall_problem : Problem awCall 2 3 awL (fun _ _ => true) Pat.symmetric2 (rulesOf Pat.symmetric2) :=
  ⟨by decide, by decide, .matrix rfl rfl rfl rfl, by decide +kernel, wf_of_check (by decide +kernel),
    fits_of_check (by decide +kernel), .inl ⟨rfl, fun _ _ _ _ => rfl⟩⟩

/-- The same on integers and arrays: `v`. -/
def awPure (v : Nat → Nat → Nat → Nat → WinVal) : PyWindow where
  scalar := fun _ iw jw n m => .ok (v n.toNat m.toNat iw.toNat jw.toNat)
  array := fun _ n m => .ok (.mat (Mat.ofFn n m (v n m)) true)

theorem awPure_elementwise (v : Nat → Nat → Nat → Nat → WinVal) (args : WinArgs) : (awPure v).Elementwise args v :=
  ⟨fun _ _ => rfl, fun _ _ _ _ => by simp [awPure]⟩

/-- `lambda iw, jw, **kw: iw <= jw` -/
def awUpper : PyWindow := awPure fun _ _ i j => .bool (decide (i ≤ j))

/-- `lambda iw, jw, **kw: 0.5 * (iw + jw)`: 0.5 next to the corner. -/
def awHalf : PyWindow := awPure fun _ _ i j => .float (fin (((i : ℚ) + j) / 2))

/-- Returns an array of a fixed shape. -/
def awShape (r c : Nat) : PyWindow where
  scalar := fun _ _ _ _ _ => .ok (.bool true)
  array := fun _ _ _ => .ok (.mat (Mat.ofFn r c fun _ _ => .bool true) true)

/-- Returns what it is told to. -/
def awRet (x : WinRet) : PyWindow where
  scalar := fun _ _ _ _ _ => .ok (.bool true)
  array := fun _ _ _ => .ok x

end Ex

/-- The hypotheses of C60_matching_shape and C60_elementwise are met by `iw <= jw`, and the window matters: cell (1,0) is
not computed. -/
example : Ex.awUpper.Elementwise Ex.awCall.windowArgs (fun _ _ i j => .bool (decide (i ≤ j))) ∧
    (∀ n m : Nat, ∀ i < n, ∀ j < m, (WinVal.bool (decide (i ≤ j))).truthy = true ↔
      (WinVal.bool (decide (i ≤ j))).Inside) ∧
    (PyWindow.dtw Arith.exact Ex.awCall Ex.awUpper).toOption.map (fun r => (r.distance, r.costMatrix.map Mat.data)) =
      some (fin 3, some [fin 0, fin 1, fin 10, nan, fin 2, fin 3]) :=
  ⟨Ex.awPure_elementwise _ _, fun _ _ _ _ _ _ => Iff.rfl, by decide +kernel⟩

/-- C60, negative witness: a window of fractions, `0.5*(iw+jw)`: `dtw` drops the cells of value 1/2, leaving a single path;
`countPaths` counts them, 5 paths. -/
theorem C60_fractions : (PyWindow.dtw Arith.exact Ex.awCall Ex.awHalf).toOption.map (fun r => r.costMatrix.map Mat.data) =
      some (some [fin 0, nan, nan, nan, fin 2, fin 3]) ∧
    (PyWindow.dtw Arith.exact Ex.awCall Ex.awHalf).toOption.map (fun r => (countPaths Arith.exact r).toOption) =
      some (some 5) := by
  refine ⟨by decide +kernel, by decide +kernel⟩

/-- C60, negative witness: a 3 × 2 array for a 2 × 3 matrix is accepted; the call reports distance 11 together with a path
whose cost is 3 (the distance is 3 with a 2 × 3 array). -/
theorem C60_reshape_witness :
    (PyWindow.dtw Arith.exact { Ex.awCall with distanceOnly := false } (Ex.awShape 3 2)).toOption.map
      (fun r => (r.distance, r.mapping.map fun k => (k.index1, k.index2))) =
        some (fin 11, some ([0, 0, 1], [0, 1, 2])) ∧
    (PyWindow.dtw Arith.exact { Ex.awCall with distanceOnly := false } (Ex.awShape 2 3)).toOption.map
      (fun r => (r.distance, r.mapping.map fun k => (k.index1, k.index2))) =
        some (fin 3, some ([0, 0, 1], [0, 1, 2])) := by
  refine ⟨by decide +kernel, by decide +kernel⟩

/-- The hypotheses of C60_same_size_is_reshape are met by it … -/
example : (PyWindow.dtw Arith.exact Ex.awCall (Ex.awShape 3 2)).map
      (fun r => (r.distance, r.costMatrix.map Mat.data, r.directionMatrix.map Mat.data)) =
    (PyWindow.dtw Arith.exact { Ex.awCall with x := .d2 ⟨3, 2, (Mat.ofFn 2 3 Ex.awL).data⟩ } (Ex.awShape 3 2)).map
      (fun r => (r.distance, r.costMatrix.map Mat.data, r.directionMatrix.map Mat.data)) :=
  C60_same_size_is_reshape (lm := Mat.ofFn 2 3 Ex.awL) (v := Mat.ofFn 3 2 fun _ _ => .bool true) rfl rfl rfl rfl rfl
    (length_ofFn ..) rfl (by decide) rfl rfl

/-- … those of C60_too_large by a 3 × 3 array, of C60_too_small by a 2 × 2 array, of C60_rejected by a Python bool, a
vector and a transposed array. -/
example : PyWindow.dtw Arith.exact Ex.awCall (Ex.awShape 3 3) = .error .ub ∧
    PyWindow.dtw Arith.exact Ex.awCall (Ex.awShape 2 2) =
      .error (.valueError "No warping path found compatible with the local constraints") ∧
    PyWindow.dtw Arith.exact Ex.awCall (Ex.awRet .pyObject) = .error .attributeError ∧
    PyWindow.dtw Arith.exact Ex.awCall (Ex.awRet .otherDim) =
      .error (.valueError "Buffer has wrong number of dimensions") ∧
    PyWindow.dtw Arith.exact Ex.awCall (Ex.awRet (.mat (Mat.ofFn 2 3 fun _ _ => .bool true) false)) =
      .error (.valueError "buffer mismatch") :=
  ⟨C60_too_large Ex.awCall_problem (fun _ => by contradiction) rfl (by decide),
    C60_too_small Ex.awCall_problem rfl rfl rfl (length_ofFn ..) (by decide) (by decide),
    (C60_rejected Ex.awCall_problem (fun _ => by contradiction)).1 rfl,
    (C60_rejected Ex.awCall_problem (fun _ => by contradiction)).2.1 rfl,
    (C60_rejected Ex.awCall_problem (fun _ => by contradiction)).2.2.1 _ rfl⟩

/-- The two ways in which the readings differ occur. -/
example : ¬ ((WinVal.float (fin (1 / 2))).truthy = true ↔ (WinVal.float (fin (1 / 2))).Inside) ∧
    ¬ ((WinVal.int 4294967296).truthy = true ↔ (WinVal.int 4294967296).Inside) :=
  ⟨(C60_disagreement _).2 (.inl ⟨_, rfl, by norm_num, by norm_num [abs_lt]⟩),
    (C60_disagreement _).2 (.inr ⟨_, rfl, by decide, by decide⟩)⟩

end DTW
