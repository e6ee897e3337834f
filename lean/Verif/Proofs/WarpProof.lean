import Verif.Warp
import Verif.Spec
import Verif.Proofs.DtwProof

/-!
# Lemmas about warp and warpArea
-/

namespace DTW
open F64

variable {A : Arith}

/-! ### Interpolation -/

theorem npInterp_matched (x : Int) (y : F64) (l2 : List (Int × F64)) (h2 : ∀ p ∈ l2, x < p.1) :
    ∀ l1 : List (Int × F64), (∀ p ∈ l1, p.1 ≤ x) → npInterp A (l1 ++ (x, y) :: l2) x = y := by
  intro l1
  induction l1 with
  | nil =>
    intro _
    cases l2 with
    | nil => rfl
    | cons q l2 =>
      have := h2 q (by simp)
      simp only [List.nil_append, npInterp]
      rw [if_neg (by omega)]
      simp
  | cons p l1 ih =>
    intro h1
    have ih := ih fun p hp => h1 p (List.mem_cons_of_mem _ hp)
    rw [List.cons_append]
    cases hl : l1 ++ (x, y) :: l2 with
    | nil => simp at hl
    | cons q l =>
      have hq : q.1 ≤ x := by
        cases l1 with
        | nil => simp only [List.nil_append, List.cons.injEq] at hl; rw [← hl.1]
        | cons z zs =>
          simp only [List.cons_append, List.cons.injEq] at hl
          rw [← hl.1]; exact h1 z (by simp)
      rw [npInterp, if_pos hq, ← hl]
      exact ih

theorem npInterp_between (x : Int) (p q : Int × F64) (l2 : List (Int × F64)) (hp : p.1 < x) (hq : x < q.1) :
    ∀ l1 : List (Int × F64), (∀ p ∈ l1, p.1 ≤ x) →
      npInterp A (l1 ++ p :: q :: l2) x = lineAt A p.1 p.2 q.1 q.2 x := by
  intro l1
  induction l1 with
  | nil =>
    intro _
    simp only [List.nil_append, npInterp]
    rw [if_neg (by omega), if_neg (by omega)]
  | cons z l1 ih =>
    intro h1
    have ih := ih fun p hp => h1 p (List.mem_cons_of_mem _ hp)
    rw [List.cons_append]
    cases hl : l1 ++ p :: q :: l2 with
    | nil => simp at hl
    | cons u l =>
      have hu : u.1 ≤ x := by
        cases l1 with
        | nil => simp only [List.nil_append, List.cons.injEq] at hl; rw [← hl.1]; omega
        | cons z' zs =>
          simp only [List.cons_append, List.cons.injEq] at hl
          rw [← hl.1]; exact h1 z' (by simp)
      rw [npInterp, if_pos hu, ← hl]
      exact ih

theorem takeWhile_split {α} (f : α → Bool) (l1 l2 : List α) (h1 : ∀ p ∈ l1, f p = true)
    (h2 : ∀ q, l2.head? = some q → f q = false) : (l1 ++ l2).takeWhile f = l1 := by
  induction l1 with
  | nil =>
    cases l2 with
    | nil => rfl
    | cons q l2 => simp [h2 q rfl]
  | cons p l1 ih =>
    rw [List.cons_append, List.takeWhile_cons, if_pos (h1 p (by simp)), ih fun q hq => h1 q (by simp [hq])]

/-- Both at a first match and between two points. -/
theorem scipyLinear_after (x : Int) (l1 l2 : List (Int × F64)) (p q : Int × F64) (h1 : ∀ u ∈ l1, u.1 < x)
    (hp : p.1 < x) (hq : x ≤ q.1) : scipyLinear A (l1 ++ p :: q :: l2) x = lineAt A p.1 p.2 q.1 q.2 x := by
  unfold scipyLinear
  have ht : (l1 ++ p :: q :: l2).takeWhile (fun u => decide (u.1 < x)) = l1 ++ [p] := by
    have := takeWhile_split (fun u : Int × F64 => decide (u.1 < x)) (l1 ++ [p]) (q :: l2) (by
      intro u hu
      rcases List.mem_append.1 hu with hu | hu
      · simpa using h1 u hu
      · simp only [List.mem_singleton] at hu; subst hu; simpa using hp) (by
      intro q' hq'
      simp only [List.head?_cons, Option.some.injEq] at hq'
      subst hq'; simpa using hq)
    simpa using this
  rw [ht]
  have e1 : (l1 ++ [p]).length = l1.length + 1 := by simp
  have e2 : (l1 ++ p :: q :: l2).length = l1.length + l2.length + 2 := by simp; omega
  simp only [e1, e2]
  have e3 : min (max (l1.length + 1) 1) (l1.length + l2.length + 2 - 1) = l1.length + 1 := by omega
  rw [e3, if_neg (by omega), show l1.length + 1 - 1 = l1.length by omega]
  have g1 : (l1 ++ p :: q :: l2)[l1.length]? = some p := by simp
  have g2 : (l1 ++ p :: q :: l2)[l1.length + 1]? = some q := by
    rw [List.getElem?_append_right (by omega)]; simp
  rw [g1, g2]

theorem scipyLinear_first (x : Int) (l2 : List (Int × F64)) (p q : Int × F64) (hp : x ≤ p.1) :
    scipyLinear A (p :: q :: l2) x = lineAt A p.1 p.2 q.1 q.2 x := by
  unfold scipyLinear
  have ht : (p :: q :: l2).takeWhile (fun u => decide (u.1 < x)) = [] := by
    rw [List.takeWhile_cons, if_neg (by simpa using hp)]
  rw [ht]
  have e3 : min (max 0 1) ((p :: q :: l2).length - 1) = 1 := by simp
  simp only [List.length_nil, e3]
  rfl

theorem scipyLinear_single (x : Int) (p : Int × F64) :
    scipyLinear A [p] x = lineAt A p.1 p.2 p.1 p.2 x := by
  unfold scipyLinear
  simp

theorem lineAt_exact {x0 x1 : Int} (h : x0 ≠ x1) (a b : ℚ) (x : Int) :
    lineAt Arith.exact x0 (fin a) x1 (fin b) x = fin (a + ((x : ℚ) - x0) * (b - a) / ((x1 : ℚ) - x0)) := by
  have hne : ((x1 : ℚ) - x0) ≠ 0 := by
    intro h0
    apply h
    have : (x1 : ℚ) = x0 := by linarith
    exact_mod_cast this.symm
  unfold lineAt
  simp only [Arith.sub, F64.neg, Arith.exact_add, Arith.divQ, if_neg hne, Arith.exact_rnd, Arith.exact_mul]
  congr 1
  ring

theorem lineAt_vertical (x0 : Int) (a b : ℚ) : lineAt Arith.exact x0 (fin a) x0 (fin b) x0 = nan := by
  unfold lineAt
  simp only [Arith.sub, F64.neg, Arith.exact_add, Arith.divQ, sub_self, if_true]
  have : ∀ v : F64, v = nan ∨ v = pinf ∨ v = ninf → Arith.exact.mul v (fin 0) = nan := by
    rintro v (rfl | rfl | rfl) <;> simp [Arith.mul, Arith.mulWith, infTimes]
  rw [this _ (by split_ifs <;> simp)]
  simp

theorem insertionSort_sorted {l : List (Int × F64)} (h : (l.map Prod.fst).Pairwise (· ≤ ·)) :
    l.insertionSort (fun p q => p.1 ≤ q.1) = l :=
  List.Pairwise.insertionSort_eq (List.pairwise_map.1 h)

/-- A sorted list, split at an abscissa that is not outside its range. -/
theorem split_at {β : Type} {l : List (Int × β)} (h : (l.map Prod.fst).Pairwise (· ≤ ·)) {x : Int} {p0 q0 : Int × β}
    (hh : l.head? = some p0) (hl : l.getLast? = some q0) (h0 : p0.1 ≤ x) (h1 : x ≤ q0.1) :
    (∃ l1 y l2, l = l1 ++ (x, y) :: l2 ∧ (∀ p ∈ l1, p.1 ≤ x) ∧ ∀ p ∈ l2, x < p.1) ∨
    (∃ l1 p q l2, l = l1 ++ p :: q :: l2 ∧ p.1 < x ∧ x < q.1 ∧ (∀ u ∈ l1, u.1 < x) ∧ ∀ u ∈ l2, x < u.1) := by
  induction l generalizing p0 with
  | nil => simp at hh
  | cons p l ih =>
    simp only [List.head?_cons, Option.some.injEq] at hh
    subst hh
    rw [List.map_cons, List.pairwise_cons] at h
    cases l with
    | nil =>
      simp only [List.getLast?_singleton, Option.some.injEq] at hl
      subst hl
      left
      have : x = p.1 := by omega
      exact ⟨[], p.2, [], by simp [this], by simp, by simp⟩
    | cons q l =>
      by_cases hq : q.1 ≤ x
      · rw [List.getLast?_cons_cons] at hl
        rcases ih h.2 rfl hl hq with ⟨l1, y, l2, e, g1, g2⟩ | ⟨l1, u, v, l2, e, g1, g2, g3, g4⟩
        · left
          refine ⟨p :: l1, y, l2, by rw [e]; rfl, ?_, g2⟩
          intro z hz
          rcases List.mem_cons.1 hz with rfl | hz
          · exact h0
          · exact g1 z hz
        · right
          refine ⟨p :: l1, u, v, l2, by rw [e]; rfl, g1, g2, ?_, g4⟩
          intro z hz
          rcases List.mem_cons.1 hz with rfl | hz
          · have : u.1 ∈ (q :: l).map Prod.fst := by rw [e]; simp
            have := h.1 _ this
            omega
          · exact g3 z hz
      · have hq : x < q.1 := by omega
        have hrest : ∀ u ∈ l, x < u.1 := by
          intro u hu
          have := (List.pairwise_cons.1 h.2).1 u.1 (List.mem_map.2 ⟨u, hu, rfl⟩)
          omega
        by_cases hp : p.1 = x
        · left
          refine ⟨[], p.2, q :: l, by rw [← hp]; rfl, by simp, ?_⟩
          intro u hu
          rcases List.mem_cons.1 hu with rfl | hu
          · exact hq
          · exact hrest u hu
        · right
          exact ⟨[], p, q, l, rfl, by omega, hq, by simp, hrest⟩

/-! ### bincount -/

theorem bincount_get (k : Nat) : ∀ (xs : List Int) (bins : List Nat),
    (xs.foldl (fun bins x => bins.modify x.toNat (· + 1)) bins)[k]? =
      bins[k]?.map (· + (xs.filter fun x => x.toNat = k).length) := by
  intro xs
  induction xs with
  | nil => intro bins; simp
  | cons x xs ih =>
    intro bins
    rw [List.foldl_cons, ih, List.getElem?_modify]
    by_cases hx : x.toNat = k
    · rw [List.filter_cons_of_pos (by simpa using hx)]
      simp only [hx, if_true, List.length_cons]
      cases bins[k]? with
      | none => rfl
      | some v => simp; omega
    · rw [List.filter_cons_of_neg (by simpa using hx)]
      simp only [hx, if_false]
      cases bins[k]? with
      | none => rfl
      | some v => rfl

theorem bincountW_get (k : Nat) : ∀ (xw : List (Int × F64)) (bins : List F64),
    (xw.foldl (fun bins p => bins.modify p.1.toNat (A.add · p.2)) bins)[k]? =
      bins[k]?.map fun v => ((xw.filter fun p => p.1.toNat = k).map Prod.snd).foldl A.add v := by
  intro xw
  induction xw with
  | nil => intro bins; simp
  | cons p xw ih =>
    intro bins
    rw [List.foldl_cons, ih, List.getElem?_modify]
    by_cases hx : p.1.toNat = k
    · rw [List.filter_cons_of_pos (by simpa using hx)]
      simp only [hx, if_true, List.map_cons, List.foldl_cons]
      cases bins[k]? with
      | none => rfl
      | some v => rfl
    · rw [List.filter_cons_of_neg (by simpa using hx)]
      simp only [hx, if_false]
      cases bins[k]? with
      | none => rfl
      | some v => rfl

theorem foldl_max_eq {v : Int} : ∀ (l : List Int) (a : Int), a ≤ v → (∀ x ∈ l, x ≤ v) → (a = v ∨ v ∈ l) →
    l.foldl max a = v := by
  intro l
  induction l with
  | nil => intro a _ _ h; simpa using h
  | cons x l ih =>
    intro a ha hl h
    rw [List.foldl_cons]
    have hx := hl x (by simp)
    refine ih _ (by omega) (fun y hy => hl y (by simp [hy])) ?_
    rcases h with rfl | h
    · left; omega
    · rcases List.mem_cons.1 h with rfl | h
      · left; omega
      · exact .inr h

theorem npMax_eq {l : List Int} {v : Int} (hl : ∀ x ∈ l, x ≤ v) (hv : v ∈ l) : npMax l = .ok v := by
  cases l with
  | nil => simp at hv
  | cons x l =>
    show Except.ok _ = _
    congr 1
    refine foldl_max_eq l x (hl x (by simp)) (fun y hy => hl y (by simp [hy])) ?_
    rcases List.mem_cons.1 hv with rfl | h
    · exact .inl rfl
    · exact .inr h

/-- The averaged points. -/
def tiePoint (A : Arith) (xs ys : List Int) (k : Nat) : F64 :=
  A.divQ (((matchedTo xs ys k).map fun (y : Int) => fin (y : ℚ)).foldl A.add (fin 0)) (matchedTo xs ys k).length

theorem matchedTo_length {xs ys : List Int} (hl : xs.length = ys.length) (k : Int) :
    (matchedTo xs ys k).length = (xs.filter fun x => x = k).length := by
  unfold matchedTo
  rw [List.length_map]
  induction xs generalizing ys with
  | nil => simp
  | cons x xs ih =>
    cases ys with
    | nil => simp at hl
    | cons y ys =>
      rw [List.zip_cons_cons]
      simp only [List.length_cons, Nat.add_right_cancel_iff] at hl
      by_cases hx : x = k
      · rw [List.filter_cons_of_pos (by simpa using hx), List.filter_cons_of_pos (by simpa using hx),
          List.length_cons, List.length_cons, ih hl]
      · rw [List.filter_cons_of_neg (by simpa using hx), List.filter_cons_of_neg (by simpa using hx), ih hl]

theorem matchedTo_map {xs ys : List Int} (hx : ∀ x ∈ xs, 0 ≤ x) (k : Nat) :
    ((xs.zip (ys.map fun (y : Int) => fin (y : ℚ))).filter fun p => p.1.toNat = k).map Prod.snd =
      (matchedTo xs ys k).map fun (y : Int) => fin (y : ℚ) := by
  unfold matchedTo
  induction xs generalizing ys with
  | nil => simp
  | cons x xs ih =>
    cases ys with
    | nil => simp
    | cons y ys =>
      rw [List.map_cons, List.zip_cons_cons, List.zip_cons_cons]
      have hx0 := hx x (by simp)
      have ih := ih (ys := ys) fun z hz => hx z (by simp [hz])
      by_cases hk : x = (k : Int)
      · have hk' : x.toNat = k := by omega
        rw [List.filter_cons_of_pos (by simpa using hk'), List.filter_cons_of_pos (by simpa using hk),
          List.map_cons, List.map_cons, List.map_cons, ih]
      · have hk' : ¬ x.toNat = k := by omega
        rw [List.filter_cons_of_neg (by simpa using hk'), List.filter_cons_of_neg (by simpa using hk), ih]

theorem solveTies_eq {xs ys : List Int} {jmax : Nat} (hl : xs.length = ys.length)
    (hx : ∀ x ∈ xs, 0 ≤ x ∧ x ≤ jmax) (hm : (jmax : Int) ∈ xs) :
    solveTies A xs ys = .ok ((List.range (jmax + 1)).map fun (k : Nat) => ((k : Int), tiePoint A xs ys k)) := by
  unfold solveTies
  have h1 : xs.any (fun x => decide (x < 0)) = false := by
    rw [List.any_eq_false]
    intro x hx'
    have := (hx x hx').1
    simp; omega
  have h2 : xs.foldl max (-1) = (jmax : Int) :=
    foldl_max_eq xs (-1) (by omega) (fun x hx' => (hx x hx').2) (.inr hm)
  simp only [h1, Bool.false_eq_true, if_false, hl, ne_eq, not_true_eq_false, h2]
  have e : ((jmax : Int) + 1).toNat = jmax + 1 := by omega
  rw [e]
  congr 1
  apply List.map_congr_left
  intro k hk
  rw [List.mem_range] at hk
  unfold bincount bincountW tiePoint
  rw [bincount_get, bincountW_get, matchedTo_map fun x hx' => (hx x hx').1]
  have hr1 : (List.replicate (jmax + 1) (0 : Nat))[k]? = some 0 := by
    rw [List.getElem?_replicate, if_pos hk]
  have hr2 : (List.replicate (jmax + 1) (fin 0))[k]? = some (fin 0) := by
    rw [List.getElem?_replicate, if_pos hk]
  rw [hr1, hr2]
  simp only [Option.map_some, Option.getD_some, Nat.zero_add]
  rw [matchedTo_length hl]
  congr 4
  apply List.filter_congr
  intro x hx'
  have := (hx x hx').1
  simp only [decide_eq_decide]
  omega

theorem range_sorted (N : Nat) (g : Nat → F64) :
    (((List.range N).map fun (k : Nat) => ((k : Int), g k)).map Prod.fst).Pairwise (· ≤ ·) := by
  rw [List.map_map, List.pairwise_map]
  refine List.pairwise_lt_range.imp ?_
  intro a b hab
  simp only [Function.comp]
  omega

theorem range_split {α} (N k : Nat) (hk : k < N) (g : Nat → α) :
    (List.range N).map g = (List.range k).map g ++ g k :: ((List.range (N - k - 1)).map fun t => g (k + 1 + t)) := by
  apply List.ext_getElem?
  intro i
  rcases Nat.lt_trichotomy i k with h | h | h
  · rw [List.getElem?_append_left (by simpa using h)]
    simp [List.getElem?_map, List.getElem?_range, h, show i < N by omega]
  · subst h
    rw [List.getElem?_append_right (by simp)]
    simp [List.getElem?_range, hk]
  · rw [List.getElem?_append_right (by simp; omega)]
    simp only [List.length_map, List.length_range]
    obtain ⟨t, rfl⟩ : ∃ t, i = k + 1 + t := ⟨i - k - 1, by omega⟩
    rw [show k + 1 + t - k = t + 1 by omega, List.getElem?_cons_succ, List.getElem?_map, List.getElem?_map]
    by_cases hi : k + 1 + t < N
    · rw [List.getElem?_range hi, List.getElem?_range (by omega)]; rfl
    · rw [List.getElem?_eq_none (by simp; omega), List.getElem?_eq_none (by simp; omega)]; rfl

/-- Interpolating at the abscissae of the averaged points gives the averaged points (numpy.interp). -/
theorem interp1d_range_numpy (N k : Nat) (hk : k < N) (g : Nat → F64) :
    interp1d A .numpy ((List.range N).map fun (k : Nat) => ((k : Int), g k)) k = .ok (g k) := by
  unfold interp1d
  simp only [insertionSort_sorted (range_sorted N g)]
  have hh : ((List.range N).map fun (k : Nat) => ((k : Int), g k)).head? = some ((0 : Int), g 0) := by
    rw [List.head?_map, List.head?_range, if_neg (by omega)]; rfl
  have hl : ((List.range N).map fun (k : Nat) => ((k : Int), g k)).getLast? = some (((N - 1 : Nat) : Int), g (N - 1)) := by
    rw [List.getLast?_map, List.getLast?_range, if_neg (by omega)]; rfl
  rw [hh, hl]
  simp only
  rw [if_neg (by omega), range_split N k hk]
  congr 1
  apply npInterp_matched
  · intro p hp
    obtain ⟨t, _, rfl⟩ := List.mem_map.1 hp
    simp; omega
  · intro p hp
    obtain ⟨t, ht, rfl⟩ := List.mem_map.1 hp
    rw [List.mem_range] at ht
    simp; omega

/-- The same for `_call_linear`, in exact arithmetic, when all the points are finite. -/
theorem interp1d_range_scipy (N k : Nat) (hk : k < N) (hN : 2 ≤ N) (g : Nat → ℚ) :
    interp1d Arith.exact .scipyLinear ((List.range N).map fun (k : Nat) => ((k : Int), fin (g k))) k =
      .ok (fin (g k)) := by
  unfold interp1d
  simp only [insertionSort_sorted (range_sorted N fun k => fin (g k))]
  have hh : ((List.range N).map fun (k : Nat) => ((k : Int), fin (g k))).head? = some ((0 : Int), fin (g 0)) := by
    rw [List.head?_map, List.head?_range, if_neg (by omega)]; rfl
  have hl : ((List.range N).map fun (k : Nat) => ((k : Int), fin (g k))).getLast? =
      some (((N - 1 : Nat) : Int), fin (g (N - 1))) := by
    rw [List.getLast?_map, List.getLast?_range, if_neg (by omega)]; rfl
  rw [hh, hl]
  simp only
  rw [if_neg (by omega)]
  congr 1
  cases k with
  | zero =>
    rw [range_split N 0 hk, range_split (N - 0 - 1) 0 (by omega)]
    simp only [List.range_zero, List.map_nil, List.nil_append]
    rw [scipyLinear_first _ _ _ _ (by simp)]
    rw [lineAt_exact (by simp)]
    simp
  | succ k =>
    rw [range_split N k (by omega), range_split (N - k - 1) 0 (by omega)]
    simp only [List.range_zero, List.map_nil, List.nil_append]
    rw [scipyLinear_after _ _ _ _ _ (by
      intro u hu
      obtain ⟨t, ht, rfl⟩ := List.mem_map.1 hu
      rw [List.mem_range] at ht
      simp; omega) (by simp) (by simp)]
    rw [lineAt_exact (by simp)]
    congr 1
    push_cast
    simp only [add_zero]
    ring

theorem foldl_exact (l : List Int) (v : ℚ) :
    (l.map fun (y : Int) => fin (y : ℚ)).foldl Arith.exact.add (fin v) = fin (v + (l.sum : Int)) := by
  induction l generalizing v with
  | nil => simp
  | cons y l ih =>
    rw [List.map_cons, List.foldl_cons, Arith.exact_add, ih, List.sum_cons]
    push_cast
    congr 1
    ring

theorem tiePoint_exact {xs ys : List Int} {k : Nat} (h : matchedTo xs ys k ≠ []) :
    tiePoint Arith.exact xs ys k = fin (mean (matchedTo xs ys k)) := by
  unfold tiePoint mean
  rw [foldl_exact]
  have : ((matchedTo xs ys k).length : ℚ) ≠ 0 := by
    have := List.length_pos_iff.2 h
    positivity
  simp only [Arith.divQ, if_neg this, Arith.exact_rnd, zero_add]

theorem matchedTo_ne_nil {xs ys : List Int} (hl : xs.length = ys.length) {k : Int} (hk : k ∈ xs) :
    matchedTo xs ys k ≠ [] := by
  have := matchedTo_length hl k
  intro h
  rw [h, List.length_nil] at this
  have h0 := List.length_eq_zero_iff.1 this.symm
  have : k ∈ xs.filter fun x => decide (x = k) := by simp [hk]
  rw [h0] at this
  simp at this

theorem nanFix_of_ne {ii : List F64} {first : Option Int} (hne : ii ≠ []) (h : ∀ v ∈ ii, v ≠ nan) :
    nanFix ii first = .ok ii := by
  cases ii with
  | nil => exact absurd rfl hne
  | cons v l =>
    unfold nanFix
    simp only
    rw [if_neg (by simpa using h v (by simp))]

end DTW
