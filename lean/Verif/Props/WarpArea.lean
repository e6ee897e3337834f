import Verif.Props.Warp
import Verif.Proofs.NpSumProof

/-!
# C42: warpArea

`CurveAt` (Spec.lean) says what the ordinate of a warping curve at an abscissa is; it has a flag for the
convention at a query index matched more than once.  With current scipy, `warpArea` uses the last match, with
older scipy the first one.
-/

namespace DTW
open F64

variable {A : Arith} {rs : List Rule} {W : Nat → Nat → Bool} {n m : Nat} {p : StepPattern}
  {a : Args} {d r : Result} {L : Nat → Nat → F64} {mp : Mapping}

/-- The convention of each implementation at repeated abscissae. -/
def InterpImpl.lastTie : InterpImpl → Bool
  | .numpy => true
  | .scipyLinear => false

/-- The corner-to-corner diagonal of an `N × M` grid at query index `i` (0 if `N = 1`). -/
def diagonalAt (N M i : Nat) : ℚ := (i : ℚ) * ((M : ℚ) - 1) / ((N : ℚ) - 1)

/-- The warping curve of a mapping as `warpArea` needs it: it starts at query index 0 and ends at `N-1`,
never going back. -/
structure FullCurve (mp : Mapping) (N : Nat) : Prop where
  pos : 0 < N
  length : mp.index1.length = mp.index2.length
  sorted : mp.index1.Pairwise (· ≤ ·)
  first : mp.index1.head? = some 0
  last : mp.index1.getLast? = some ((N : Int) - 1)

/-! ### The curve has one ordinate per abscissa -/

theorem matchedTo_append_eq {xs ys : List Int} {l1 l2 : List (Int × Int)} (e : xs.zip ys = l1 ++ l2) (x : Int) :
    matchedTo xs ys x = ((l1.filter fun p => p.1 = x).map Prod.snd) ++ ((l2.filter fun p => p.1 = x).map Prod.snd) := by
  unfold matchedTo
  rw [e, List.filter_append, List.map_append]

theorem zip_fst_sorted {xs ys : List Int} (hs : xs.Pairwise (· ≤ ·)) (hl : xs.length = ys.length) :
    ((xs.zip ys).map Prod.fst).Pairwise (· ≤ ·) := by
  rw [List.map_fst_zip (by omega)]
  exact hs

theorem not_matched_between {xs ys : List Int} (hs : xs.Pairwise (· ≤ ·)) (hl : xs.length = ys.length) {x : Int}
    {l1 : List (Int × Int)} {p q l2} (e : xs.zip ys = l1 ++ p :: q :: l2) (hp : p.1 < x) (hq : x < q.1) :
    matchedTo xs ys x = [] := by
  have h := zip_fst_sorted hs hl
  rw [e, List.map_append, List.pairwise_append] at h
  obtain ⟨_, h2, h3⟩ := h
  rw [List.map_cons, List.map_cons, List.pairwise_cons, List.pairwise_cons] at h2
  unfold matchedTo
  rw [List.map_eq_nil_iff, List.filter_eq_nil_iff, e]
  intro u hu
  simp only [decide_eq_true_eq]
  rcases List.mem_append.1 hu with hu | hu
  · have := h3 u.1 (List.mem_map.2 ⟨u, hu, rfl⟩) p.1 (by simp)
    omega
  · rcases List.mem_cons.1 hu with rfl | hu
    · omega
    · rcases List.mem_cons.1 hu with rfl | hu
      · omega
      · have := h2.2.1 u.1 (List.mem_map.2 ⟨u, hu, rfl⟩)
        omega

/-- Two consecutive points strictly around `x` are unique in a sorted list. -/
theorem between_unique {x : Int} : ∀ (l : List (Int × Int)), (l.map Prod.fst).Pairwise (· ≤ ·) →
    ∀ {l1 p q l2 l1' p' q' l2'}, l = l1 ++ p :: q :: l2 → l = l1' ++ p' :: q' :: l2' → p.1 < x → x < q.1 →
      p'.1 < x → x < q'.1 → p = p' ∧ q = q' := by
  intro l hs l1 p q l2 l1' p' q' l2' e e' hp hq hp' hq'
  -- both prefixes with their last point are the points before x
  have key : ∀ {l1 p q l2}, l = l1 ++ p :: q :: l2 → p.1 < x → x < q.1 →
      l.takeWhile (fun u => decide (u.1 < x)) = l1 ++ [p] := by
    intro l1 p q l2 e hp hq
    rw [e] at hs
    have e2 : l1 ++ p :: q :: l2 = (l1 ++ [p]) ++ q :: l2 := by simp
    rw [e, e2]
    apply takeWhile_split
    · intro u hu
      rw [List.map_append, List.pairwise_append] at hs
      rcases List.mem_append.1 hu with hu | hu
      · have := hs.2.2 u.1 (List.mem_map.2 ⟨u, hu, rfl⟩) p.1 (by simp)
        simp; omega
      · simp only [List.mem_singleton] at hu; subst hu; simpa using hp
    · intro u hu
      simp only [List.head?_cons, Option.some.injEq] at hu
      subst hu; simp; omega
  have k1 := key e hp hq
  have k2 := key e' hp' hq'
  rw [k1] at k2
  have hlen := congrArg List.length k2
  simp only [List.length_append, List.length_singleton, Nat.add_right_cancel_iff] at hlen
  obtain ⟨rfl, h2⟩ := List.append_inj k2 hlen
  simp only [List.cons.injEq, and_true] at h2
  subst h2
  rw [e] at e'
  have := List.append_cancel_left e'
  simp only [List.cons.injEq, true_and] at this
  exact ⟨rfl, this.1⟩

theorem CurveAt.unique {b : Bool} {xs ys : List Int} (hs : xs.Pairwise (· ≤ ·)) (hl : xs.length = ys.length) {x : Int}
    {v v' : ℚ} (h : CurveAt b xs ys x v) (h' : CurveAt b xs ys x v') : v = v' := by
  rcases h with ⟨y, hy, rfl⟩ | ⟨l1, p, q, l2, e, hp, hq, rfl⟩
  · rcases h' with ⟨y', hy', rfl⟩ | ⟨l1, p, q, l2, e, hp, hq, rfl⟩
    · rw [hy] at hy'; cases hy'; rfl
    · rw [not_matched_between hs hl e hp hq] at hy; cases b <;> simp at hy
  · rcases h' with ⟨y', hy', rfl⟩ | ⟨l1', p', q', l2', e', hp', hq', rfl⟩
    · rw [not_matched_between hs hl e hp hq] at hy'; cases b <;> simp at hy'
    · obtain ⟨rfl, rfl⟩ := between_unique _ (zip_fst_sorted hs hl) e e' hp hq hp' hq'
      rfl

theorem CurveAt.matched {b : Bool} {xs ys : List Int} (hs : xs.Pairwise (· ≤ ·)) (hl : xs.length = ys.length) {x : Int}
    {v : ℚ} (h : CurveAt b xs ys x v) {y : Int}
    (hy : (if b then (matchedTo xs ys x).getLast? else (matchedTo xs ys x).head?) = some y) : v = y :=
  h.unique hs hl (.inl ⟨y, hy, rfl⟩)

/-! ### What interp1d computes -/

/-- The points handed to `interp1d`. -/
def asPoints (l : List (Int × Int)) : List (Int × F64) := l.map fun p => (p.1, fin (p.2 : ℚ))

theorem zip_asPoints (xs ys : List Int) : xs.zip (ys.map fun (y : Int) => fin (y : ℚ)) = asPoints (xs.zip ys) := by
  unfold asPoints
  rw [List.zip_map_right]
  rfl

theorem asPoints_sorted {l : List (Int × Int)} (h : (l.map Prod.fst).Pairwise (· ≤ ·)) :
    ((asPoints l).map Prod.fst).Pairwise (· ≤ ·) := by
  unfold asPoints
  rw [List.map_map]
  exact h

theorem interp1d_sorted {l : List (Int × Int)} (h : (l.map Prod.fst).Pairwise (· ≤ ·)) {u v : Int × Int}
    (hu : l.head? = some u) (hv : l.getLast? = some v) {x : Int} (h0 : u.1 ≤ x) (h1 : x ≤ v.1) (impl : InterpImpl) :
    interp1d A impl (asPoints l) x = .ok (match impl with
      | .numpy => npInterp A (asPoints l) x
      | .scipyLinear => scipyLinear A (asPoints l) x) := by
  unfold interp1d
  simp only [insertionSort_sorted (asPoints_sorted h)]
  have e1 : (asPoints l).head? = some (u.1, fin (u.2 : ℚ)) := by unfold asPoints; rw [List.head?_map, hu]; rfl
  have e2 : (asPoints l).getLast? = some (v.1, fin (v.2 : ℚ)) := by unfold asPoints; rw [List.getLast?_map, hv]; rfl
  rw [e1, e2]
  simp only
  rw [if_neg (by omega)]
  cases impl <;> rfl

theorem asPoints_append (l l' : List (Int × Int)) : asPoints (l ++ l') = asPoints l ++ asPoints l' := by
  simp [asPoints]

theorem asPoints_cons (p : Int × Int) (l : List (Int × Int)) :
    asPoints (p :: l) = (p.1, fin (p.2 : ℚ)) :: asPoints l := rfl

theorem asPoints_fst {l : List (Int × Int)} {P : Int → Prop} (h : ∀ u ∈ l, P u.1) : ∀ u ∈ asPoints l, P u.1 := by
  intro u hu
  obtain ⟨v, hv, rfl⟩ := List.mem_map.1 hu
  exact h v hv

theorem npInterp_curve {xs ys : List Int} (hs : xs.Pairwise (· ≤ ·)) (hl : xs.length = ys.length) {u v : Int × Int}
    (hu : (xs.zip ys).head? = some u) (hv : (xs.zip ys).getLast? = some v) {x : Int} (h0 : u.1 ≤ x) (h1 : x ≤ v.1) :
    ∃ w : ℚ, npInterp Arith.exact (asPoints (xs.zip ys)) x = fin w ∧ CurveAt true xs ys x w := by
  rcases split_at (zip_fst_sorted hs hl) hu hv h0 h1 with ⟨l1, y, l2, e, g1, g2⟩ | ⟨l1, p, q, l2, e, g1, g2, g3, g4⟩
  · refine ⟨y, ?_, .inl ⟨y, ?_, rfl⟩⟩
    · rw [e, asPoints_append, asPoints_cons]
      exact npInterp_matched x _ _ (asPoints_fst g2) _ (asPoints_fst (P := (· ≤ x)) g1)
    · rw [matchedTo_append_eq e, List.filter_cons_of_pos (by simp)]
      have : l2.filter (fun p => decide (p.1 = x)) = [] := by
        rw [List.filter_eq_nil_iff]
        intro z hz
        have := g2 z hz
        simp; omega
      rw [this]
      simp
  · refine ⟨_, ?_, .inr ⟨l1, p, q, l2, e, g1, g2, rfl⟩⟩
    rw [e, asPoints_append, asPoints_cons, asPoints_cons,
      npInterp_between x _ _ _ g1 g2 _ (asPoints_fst (P := (· ≤ x)) fun z hz => by have := g3 z hz; omega),
      lineAt_exact (by omega)]

theorem scipyLinear_curve {xs ys : List Int} (hs : xs.Pairwise (· ≤ ·)) (hl : xs.length = ys.length) {u v : Int × Int}
    (hu : (xs.zip ys).head? = some u) (hv : (xs.zip ys).getLast? = some v) {x : Int} (h0 : u.1 < x) (h1 : x ≤ v.1) :
    ∃ w : ℚ, scipyLinear Arith.exact (asPoints (xs.zip ys)) x = fin w ∧ CurveAt false xs ys x w := by
  -- the first point not before x
  have hsz := zip_fst_sorted hs hl
  have hsplit : ∃ l1 p q l2, xs.zip ys = l1 ++ p :: q :: l2 ∧ (∀ z ∈ l1, z.1 < x) ∧ p.1 < x ∧ x ≤ q.1 := by
    generalize xs.zip ys = l at *
    clear hs hl
    induction l generalizing u with
    | nil => simp at hu
    | cons z l ih =>
      simp only [List.head?_cons, Option.some.injEq] at hu
      subst hu
      cases l with
      | nil => simp only [List.getLast?_singleton, Option.some.injEq] at hv; subst hv; omega
      | cons z' l =>
        rw [List.getLast?_cons_cons] at hv
        by_cases hz : z'.1 < x
        · rw [List.map_cons, List.pairwise_cons] at hsz
          obtain ⟨l1, p, q, l2, e, g1, g2, g3⟩ := ih (u := z') hz rfl hv hsz.2
          refine ⟨z :: l1, p, q, l2, by rw [e]; rfl, ?_, g2, g3⟩
          intro y hy
          rcases List.mem_cons.1 hy with rfl | hy
          · exact h0
          · exact g1 y hy
        · exact ⟨[], z, z', l, rfl, by simp, h0, by omega⟩
  obtain ⟨l1, p, q, l2, e, g1, g2, g3⟩ := hsplit
  refine ⟨_, by rw [e, asPoints_append, asPoints_cons, asPoints_cons,
    scipyLinear_after x _ _ _ _ (asPoints_fst (P := (· < x)) g1) g2 g3, lineAt_exact (by omega)], ?_⟩
  rcases Int.lt_or_eq_of_le g3 with g3 | g3
  · exact .inr ⟨l1, p, q, l2, e, g2, g3, rfl⟩
  · refine .inl ⟨q.2, ?_, ?_⟩
    · have e' : xs.zip ys = (l1 ++ [p]) ++ q :: l2 := by rw [e]; simp
      rw [matchedTo_append_eq e', List.filter_cons_of_pos (by simp [g3])]
      have : (l1 ++ [p]).filter (fun p => decide (p.1 = x)) = [] := by
        rw [List.filter_eq_nil_iff]
        intro z hz
        rcases List.mem_append.1 hz with hz | hz
        · have := g1 z hz; simp; omega
        · simp only [List.mem_singleton] at hz; subst hz; simp; omega
      rw [this]
      simp
    · have hne : ((q.1 : ℚ) - p.1) ≠ 0 := by
        intro h
        have : (q.1 : ℚ) = p.1 := by linarith
        have : q.1 = p.1 := by exact_mod_cast this
        omega
      rw [g3]
      field_simp
      ring

/-- At the first abscissa older scipy gives the first ordinate, or NaN (if the abscissa is repeated). -/
theorem scipyLinear_head {l : List (Int × Int)} {u : Int × Int} (hu : l.head? = some u) :
    scipyLinear Arith.exact (asPoints l) u.1 = fin (u.2 : ℚ) ∨ scipyLinear Arith.exact (asPoints l) u.1 = nan := by
  cases l with
  | nil => simp at hu
  | cons z l =>
    simp only [List.head?_cons, Option.some.injEq] at hu
    subst hu
    cases l with
    | nil =>
      right
      rw [asPoints_cons]
      show scipyLinear Arith.exact [_] _ = _
      rw [scipyLinear_single, lineAt_vertical]
    | cons z' l =>
      rw [asPoints_cons, asPoints_cons, scipyLinear_first _ _ _ _ (by simp)]
      by_cases h : z.1 = z'.1
      · right; simp only [← h]; exact lineAt_vertical _ _ _
      · left
        rw [lineAt_exact h]
        simp

theorem linspace_exact {N M i : Nat} (h : i < N) : linspaceAt Arith.exact M N i = fin (diagonalAt N M i) := by
  unfold linspaceAt diagonalAt
  by_cases h1 : N ≤ 1
  · have : i = 0 := by omega
    subst this
    rw [if_pos h1]; simp
  · have hne : ((N : ℚ) - 1) ≠ 0 := by
      have : (2 : ℚ) ≤ N := by exact_mod_cast (by omega : 2 ≤ N)
      intro h0; linarith
    rw [if_neg h1]
    by_cases hi : i = N - 1
    · rw [if_pos hi]
      have : (i : ℚ) = (N : ℚ) - 1 := by
        rw [hi, Nat.cast_sub (by omega)]; simp
      rw [this, mul_comm, mul_div_assoc, div_self hne, mul_one]
      rfl
    · rw [if_neg hi]
      simp only [Arith.divQ, if_neg hne, Arith.exact_rnd, Arith.exact_mul]
      congr 1
      ring

theorem mapM_exists {α β : Type} {f : α → Except Err β} {P : α → β → Prop} : ∀ (l : List α),
    (∀ x ∈ l, ∃ y, f x = .ok y ∧ P x y) → ∃ ys, l.mapM f = .ok ys ∧ List.Forall₂ P l ys := by
  intro l
  induction l with
  | nil => intro _; exact ⟨[], rfl, .nil⟩
  | cons x l ih =>
    intro h
    obtain ⟨y, hy, hp⟩ := h x (by simp)
    obtain ⟨ys, hys, hps⟩ := ih fun z hz => h z (by simp [hz])
    refine ⟨y :: ys, ?_, .cons hp hps⟩
    rw [List.mapM_cons, hy, Except_bind_ok, hys, Except_bind_ok]
    rfl

/-- **C42** (exact arithmetic, either scipy).  If the curve goes from query index 0 to query index `N-1`,
`warpArea` is the sum over the query indices of the distance between the ordinate of the curve and that of the
diagonal of the grid. -/
theorem C42_area (hmp : d.mapping = some mp) (h : FullCurve mp d.N) (impl : InterpImpl) :
    ∃ f : Nat → ℚ, (∀ i < d.N, CurveAt impl.lastTie mp.index1 mp.index2 i (f i)) ∧
      warpArea Arith.exact impl d =
        .ok (fin ((List.range d.N).map fun i => |f i - diagonalAt d.N d.M i|).sum) := by
  obtain ⟨hpos, hl, hs, hf, hla⟩ := h
  -- first and last point
  obtain ⟨y0, t2, hi2⟩ : ∃ y0 t, mp.index2 = y0 :: t := by
    cases h2 : mp.index2 with
    | nil => rw [h2] at hl; rw [List.length_nil, List.length_eq_zero_iff] at hl; rw [hl] at hf; simp at hf
    | cons y t => exact ⟨y, t, rfl⟩
  have hu : (mp.index1.zip mp.index2).head? = some (0, y0) := by
    cases h1 : mp.index1 with
    | nil => rw [h1] at hf; simp at hf
    | cons x t => rw [h1] at hf; simp at hf; rw [hi2, hf]; rfl
  obtain ⟨v, hv, hv1⟩ : ∃ v, (mp.index1.zip mp.index2).getLast? = some v ∧ v.1 = (d.N : Int) - 1 := by
    have e := congrArg List.getLast? (List.map_fst_zip (l₁ := mp.index1) (l₂ := mp.index2) (by omega))
    rw [List.getLast?_map, hla] at e
    cases hg : (mp.index1.zip mp.index2).getLast? with
    | none => rw [hg] at e; simp at e
    | some v => rw [hg] at e; exact ⟨v, rfl, by simpa using e⟩
  have hz := zip_fst_sorted hs hl
  -- the interpolated values after the kludge
  have hfix : ∃ f : Nat → ℚ, (∀ i < d.N, CurveAt impl.lastTie mp.index1 mp.index2 i (f i)) ∧
      ((List.range d.N).mapM fun (k : Nat) => interp1d Arith.exact impl (asPoints (mp.index1.zip mp.index2)) k).bind
        (fun ii => nanFix ii mp.index2.head?) = .ok ((List.range d.N).map fun i => fin (f i)) := by
    cases impl with
    | numpy =>
      have hval : ∀ i : Nat, ∃ w : ℚ, i < d.N →
          npInterp Arith.exact (asPoints (mp.index1.zip mp.index2)) i = fin w ∧ CurveAt true mp.index1 mp.index2 i w := by
        intro i
        by_cases hi : i < d.N
        · obtain ⟨w, hw⟩ := npInterp_curve hs hl hu hv (x := i) (by simp) (by omega)
          exact ⟨w, fun _ => hw⟩
        · exact ⟨0, fun h => absurd h hi⟩
      choose f hf' using hval
      refine ⟨f, fun i hi => (hf' i hi).2, ?_⟩
      rw [mapM_ok _ (fun i : Nat => fin (f i)) _ (by
        intro k hk
        rw [List.mem_range] at hk
        rw [interp1d_sorted hz hu hv (by simp) (by omega)]
        simp only [(hf' k hk).1])]
      show nanFix _ _ = _
      refine nanFix_of_ne (by simpa using hpos.ne') ?_
      intro v hv
      obtain ⟨k, _, rfl⟩ := List.mem_map.1 hv
      simp
    | scipyLinear =>
      have h0c : CurveAt false mp.index1 mp.index2 0 y0 := by
        refine .inl ⟨y0, ?_, rfl⟩
        obtain ⟨t1, hi1⟩ : ∃ t, mp.index1 = 0 :: t := by
          cases h1 : mp.index1 with
          | nil => rw [h1] at hf; simp at hf
          | cons x t => rw [h1] at hf; simp at hf; exact ⟨t, by rw [hf]⟩
        rw [hi1, hi2]
        simp [matchedTo]
      have hval : ∀ i : Nat, ∃ w : ℚ, i < d.N → CurveAt false mp.index1 mp.index2 i w ∧
          (0 < i → scipyLinear Arith.exact (asPoints (mp.index1.zip mp.index2)) i = fin w) ∧
          (i = 0 → w = y0) := by
        intro i
        by_cases hi : i < d.N
        · by_cases h0 : i = 0
          · subst h0; exact ⟨y0, fun _ => ⟨h0c, by simp, fun _ => rfl⟩⟩
          · obtain ⟨w, hw⟩ := scipyLinear_curve hs hl hu hv (x := i) (by simp; omega) (by omega)
            exact ⟨w, fun _ => ⟨hw.2, fun _ => hw.1, fun h => absurd h h0⟩⟩
        · exact ⟨0, fun h => absurd h hi⟩
      choose f hf' using hval
      refine ⟨f, fun i hi => (hf' i hi).1, ?_⟩
      rw [mapM_ok _ (fun i : Nat => scipyLinear Arith.exact (asPoints (mp.index1.zip mp.index2)) i) _ (by
        intro k hk
        rw [List.mem_range] at hk
        rw [interp1d_sorted hz hu hv (by simp) (by omega)])]
      show nanFix _ _ = _
      obtain ⟨N', hN'⟩ : ∃ N', d.N = N' + 1 := ⟨d.N - 1, by omega⟩
      rw [hN', List.range_succ_eq_map, List.map_cons, List.map_cons, List.map_map, List.map_map]
      have htail : (List.range N').map ((fun i : Nat => scipyLinear Arith.exact (asPoints (mp.index1.zip mp.index2)) i) ∘ Nat.succ)
          = (List.range N').map ((fun i => fin (f i)) ∘ Nat.succ) := by
        apply List.map_congr_left
        intro k hk
        rw [List.mem_range] at hk
        exact (hf' (k + 1) (by omega)).2.1 (by omega)
      rw [htail, (hf' 0 hpos).2.2 rfl]
      have hh := scipyLinear_head hu
      simp only at hh
      rw [show ((0 : Nat) : Int) = 0 from rfl]
      rcases hh with hh | hh
      · rw [hh]
        refine nanFix_of_ne (by simp) ?_
        intro v hv
        rcases List.mem_cons.1 hv with rfl | hv
        · simp
        · obtain ⟨k, _, rfl⟩ := List.mem_map.1 hv
          simp
      · rw [hh, hi2]
        unfold nanFix
        simp only [isNan, if_true, List.head?_cons, List.map_cons, List.map_map]
        congr 2
  obtain ⟨f, hc, hfx⟩ := hfix
  refine ⟨f, hc, ?_⟩
  unfold warpArea
  rw [hmp]
  simp only
  rw [if_neg (by omega), zip_asPoints]
  cases hm : (List.range d.N).mapM fun (k : Nat) => interp1d Arith.exact impl (asPoints (mp.index1.zip mp.index2)) k with
  | error e => rw [hm] at hfx; exact absurd hfx (by simp [Except.bind])
  | ok ii =>
    rw [hm] at hfx
    have hfx : nanFix ii mp.index2.head? = .ok ((List.range d.N).map fun i => fin (f i)) := hfx
    rw [Except_bind_ok, hfx, Except_bind_ok]
    congr 1
    have : ((List.range d.N).map fun i => fin (f i)).mapIdx
        (fun i v => F64.abs (Arith.exact.sub v (linspaceAt Arith.exact d.M d.N i))) =
        ((List.range d.N).map fun i => |f i - diagonalAt d.N d.M i|).map fin := by
      apply List.ext_getElem?
      intro i
      rw [List.getElem?_mapIdx, List.getElem?_map, List.getElem?_map, List.getElem?_map]
      by_cases hi : i < d.N
      · rw [List.getElem?_range hi]
        simp only [Option.map_some]
        rw [linspace_exact hi]
        simp only [Arith.sub, F64.neg, Arith.exact_add, F64.abs]
        rw [sub_eq_add_neg]
      · rw [List.getElem?_eq_none (by simp; omega)]; rfl
    rw [this, npSum_exact]

/-- **C42** (exact arithmetic, either scipy).  The area is non-negative, and zero iff the curve lies on the
diagonal at every query index. -/
theorem C42_zero_iff_diagonal (hmp : d.mapping = some mp) (h : FullCurve mp d.N) (impl : InterpImpl) :
    ∃ v : ℚ, warpArea Arith.exact impl d = .ok (fin v) ∧ 0 ≤ v ∧
      (v = 0 ↔ ∀ i < d.N, CurveAt impl.lastTie mp.index1 mp.index2 i (diagonalAt d.N d.M i)) := by
  obtain ⟨f, hc, hw⟩ := C42_area hmp h impl
  have hnn : ∀ x ∈ (List.range d.N).map fun i => |f i - diagonalAt d.N d.M i|, (0 : ℚ) ≤ x := by
    intro x hx
    obtain ⟨i, _, rfl⟩ := List.mem_map.1 hx
    exact abs_nonneg _
  refine ⟨_, hw, List.sum_nonneg hnn, ?_⟩
  constructor
  · intro h0 i hi
    have hx : |f i - diagonalAt d.N d.M i| ∈ (List.range d.N).map fun i => |f i - diagonalAt d.N d.M i| :=
      List.mem_map.2 ⟨i, List.mem_range.2 hi, rfl⟩
    have h1 := List.single_le_sum hnn _ hx
    rw [h0] at h1
    have h2 : f i - diagonalAt d.N d.M i = 0 := abs_nonpos_iff.1 h1
    have h3 : f i = diagonalAt d.N d.M i := by linarith
    rw [← h3]
    exact hc i hi
  · intro hd
    apply List.sum_eq_zero
    intro x hx
    obtain ⟨i, hi, rfl⟩ := List.mem_map.1 hx
    rw [List.mem_range] at hi
    rw [(hc i hi).unique h.sorted h.length (hd i hi)]
    simp

/-- **C42** (exact arithmetic).  If every query index is matched, the area is the sum of
`|last match of i - i*(M-1)/(N-1)|` (current scipy; the first match with older scipy). -/
theorem C42_every_index_matched (hmp : d.mapping = some mp) (h : FullCurve mp d.N) (impl : InterpImpl) (g : Nat → Int)
    (hg : ∀ i : Nat, i < d.N → (match impl with
      | .numpy => (matchedTo mp.index1 mp.index2 i).getLast?
      | .scipyLinear => (matchedTo mp.index1 mp.index2 i).head?) = some (g i)) :
    warpArea Arith.exact impl d = .ok (fin ((List.range d.N).map fun i => |(g i : ℚ) - diagonalAt d.N d.M i|).sum) := by
  obtain ⟨f, hc, hw⟩ := C42_area hmp h impl
  rw [hw]
  congr 3
  apply List.map_congr_left
  intro i hi
  rw [List.mem_range] at hi
  have : f i = g i := by
    refine (hc i hi).matched h.sorted h.length ?_
    have := hg i hi
    cases impl <;> simpa [InterpImpl.lastTie] using this
  rw [this]

/-! ### Any rounding -/

/-- Not NaN implies non-negative. -/
def NonnegOrNan (x : F64) : Prop := x = nan ∨ F64.le (fin 0) x

theorem abs_nonnegOrNan (x : F64) : NonnegOrNan (F64.abs x) := by
  cases x <;> simp [F64.abs, NonnegOrNan, F64.le, F64.lt]

theorem add_nonnegOrNan {x y : F64} (hx : NonnegOrNan x) (hy : NonnegOrNan y) : NonnegOrNan (A.add x y) := by
  rcases hx with rfl | hx
  · left; simp
  rcases hy with rfl | hy
  · left; simp
  right
  cases x <;> cases y <;> simp_all [F64.le, F64.lt, Arith.add]
  rename_i q q'
  have := A.rnd_le (a := 0) (b := q + q') (by linarith)
  rw [A.rnd_zero] at this
  exact ⟨this.2.1, this.2.2⟩

/-- **C42** (any rounding, any alignment).  Whatever `warpArea` returns is NaN or non-negative. -/
theorem C42_nonneg (impl : InterpImpl) {v : F64} (hw : warpArea A impl d = .ok v) : v = nan ∨ F64.le (fin 0) v := by
  unfold warpArea at hw
  cases hm : d.mapping with
  | none => rw [hm] at hw; simp at hw
  | some mp =>
    rw [hm] at hw
    simp only at hw
    split_ifs at hw
    cases h1 : (List.range d.N).mapM fun (k : Nat) => interp1d A impl (mp.index1.zip (mp.index2.map fun (y : Int) => fin (y : ℚ))) k with
    | error e => rw [h1] at hw; simp [bind, Except.bind] at hw
    | ok ii =>
      rw [h1, Except_bind_ok] at hw
      cases h2 : nanFix ii mp.index2.head? with
      | error e => rw [h2] at hw; simp [bind, Except.bind] at hw
      | ok fixed =>
        rw [h2, Except_bind_ok] at hw
        simp only [Except.ok.injEq] at hw
        rw [← hw]
        refine (npSum_spec _).invariant ?_ (fun _ _ h1 h2 => add_nonnegOrNan h1 h2) ?_
        · right; simp [F64.le, F64.lt]
        · intro x hx
          obtain ⟨i, hi, rfl⟩ := List.mem_mapIdx.1 hx
          exact abs_nonnegOrNan _

/-! ### Results of dtw -/

/-- **C42** (results of `dtw`).  The curve of a closed-begin alignment (open or closed end, any rounding in
`dtw`) whose rules list their intermediate points in walking order is a full curve, so the theorems above
apply to it. -/
theorem C42_of_dtw (h : Problem a n m L W p rs) (hob : a.openBegin = false) (ho : ∀ q ∈ rs, q.Ordered)
    (hr : dtw A a = .ok r) (hmp : r.mapping = some mp) : r.N = n ∧ r.M = m ∧ FullCurve mp r.N := by
  have hn := h.n_pos
  obtain ⟨_, h1, h2, _, _, h3, h4, _, _⟩ := C04_end_points h hob hr hmp
  obtain ⟨l1, _, r1, r2, _, _, hmono, _⟩ := C05_monotone_in_range h hob hr hmp
  have hN : r.N = n ∧ r.M = m := by
    obtain ⟨G, D, qr, hB, _, hd⟩ := dtw_closed A h hob
    obtain ⟨j, ks, hrun⟩ := closed_ok h hob hB hd hr
    rw [hrun.result]
    exact ⟨rfl, rfl⟩
  exact ⟨hN.1, hN.2, ⟨by omega, l1, (hmono ho).1, h1, by rw [hN.1]; exact h3⟩⟩

/-! ### Concrete cases -/

/-- The local costs of `dtw([1,2,3,4],[1,...,8])`, the example of the documentation. -/
def Ex.docArea : Args where
  x := .d2 (Mat.ofFn 4 8 fun i j => fin |(i : ℚ) - j|)

theorem Ex.docArea_problem :
    Problem Ex.docArea 4 8 (fun i j => fin |(i : ℚ) - j|) (fun _ _ => true) Pat.symmetric2 (rulesOf Pat.symmetric2) where
  n_pos := by norm_num
  m_pos := by norm_num
  cost := .matrix rfl rfl rfl rfl
  pattern := by decide +kernel
  wf := wf_of_check (by decide +kernel)
  fits := fits_of_check (by decide +kernel)
  window := .inl ⟨rfl, fun _ _ _ _ => rfl⟩

/-- The hypotheses of the theorems above hold for the example of the documentation. -/
example {r : Result} {mp : Mapping} (hr : dtw Arith.exact Ex.docArea = .ok r) (hmp : r.mapping = some mp) :
    r.N = 4 ∧ r.M = 8 ∧ FullCurve mp r.N :=
  C42_of_dtw Ex.docArea_problem rfl (by decide +kernel) hr hmp

example : ((dtw Arith.exact Ex.docArea).toOption.bind (·.mapping)).isSome = true := by decide +kernel

/-- C42, the documented example: 8 with older scipy (as the documentation says), 4 with current scipy.  Both
differ from 6, the area of the curve with ties averaged. -/
theorem C42_doc_example :
    (dtw Arith.exact Ex.docArea).toOption.map (fun d =>
      ((warpArea Arith.exact .scipyLinear d).toOption, (warpArea Arith.exact .numpy d).toOption)) =
    some (some (fin 8), some (fin 4)) := by decide +kernel

/-- C42, negative witness: an open-begin alignment may skip query element 0; `warpArea` then raises
ValueError (interpolation out of range). -/
theorem C42_open_begin_error :
    (dtw Arith.exact { x := .d2 (Mat.ofFn 3 4 fun i j => if i = 0 then fin 9 else fin |(i : ℚ) - j|)
                       stepPattern := .name "typeIIc", openBegin := true }).toOption.map
      (fun d => (d.mapping.map (·.index1), (warpArea Arith.exact .numpy d).toOption)) =
    some (some [1, 2], none) := by decide +kernel

/-- `warpArea` needs the warping path: after `distance_only=True` it raises AttributeError. -/
theorem C42_distance_only (impl : InterpImpl) (hd : d.mapping = none) :
    warpArea A impl d = .error .attributeError := by
  unfold warpArea; rw [hd]

/-- C42, the exceptional case.  Where the query indices do not run from 0 up to `N-1`, `warpArea` raises ValueError
(interpolation outside the range) instead of extrapolating: for every sorted curve, as soon as some query index `0..N-1`
lies before its first or after its last matched one. -/
theorem C42_out_of_range (impl : InterpImpl) (hmp : d.mapping = some mp) (hl : mp.index1.length = mp.index2.length)
    (hs : mp.index1.Pairwise (· ≤ ·)) {u v : Int} (hu : mp.index1.head? = some u) (hv : mp.index1.getLast? = some v)
    (hout : ∃ k : Nat, k < d.N ∧ ((k : Int) < u ∨ v < k)) :
    warpArea A impl d = .error (.valueError "A value in x_new is outside the interpolation range.") := by
  have e1 : ∃ y, (mp.index1.zip mp.index2).head? = some (u, y) := by
    cases h1 : mp.index1 with
    | nil => rw [h1] at hu; simp at hu
    | cons a t =>
      cases h2 : mp.index2 with
      | nil => rw [h1, h2] at hl; simp at hl
      | cons b t2 => rw [h1] at hu; simp at hu; exact ⟨b, by simp [hu]⟩
  have e2 : ∃ y, (mp.index1.zip mp.index2).getLast? = some (v, y) := by
    have hlast : ((mp.index1.zip mp.index2).map Prod.fst).getLast? = some v := by
      rw [List.map_fst_zip (by omega)]; exact hv
    rw [List.getLast?_map] at hlast
    cases h : (mp.index1.zip mp.index2).getLast? with
    | none => rw [h] at hlast; simp at hlast
    | some w => rw [h] at hlast; simp at hlast; exact ⟨w.2, by rw [← hlast]⟩
  obtain ⟨y, hy⟩ := e1
  obtain ⟨z, hz⟩ := e2
  have key : ∀ k : Nat, ((k : Int) < u ∨ v < k) → interp1d A impl (asPoints (mp.index1.zip mp.index2)) k =
      .error (.valueError "A value in x_new is outside the interpolation range.") := by
    intro k hk
    unfold interp1d
    simp only [insertionSort_sorted (asPoints_sorted (zip_fst_sorted hs hl))]
    have e1 : (asPoints (mp.index1.zip mp.index2)).head? = some (u, fin (y : ℚ)) := by
      unfold asPoints; rw [List.head?_map, hy]; rfl
    have e2 : (asPoints (mp.index1.zip mp.index2)).getLast? = some (v, fin (z : ℚ)) := by
      unfold asPoints; rw [List.getLast?_map, hz]; rfl
    rw [e1, e2]
    simp only
    rw [if_pos hk]
  have all : ∀ l : List Nat, (∀ k ∈ l, ¬((k : Int) < u ∨ v < k) → ∃ w, interp1d A impl (asPoints (mp.index1.zip mp.index2)) k = .ok w) →
      (∃ k ∈ l, (k : Int) < u ∨ v < k) → (l.mapM fun (k : Nat) => interp1d A impl (asPoints (mp.index1.zip mp.index2)) k) =
      .error (.valueError "A value in x_new is outside the interpolation range.") := by
    intro l
    induction l with
    | nil => rintro _ ⟨k, hk, _⟩; simp at hk
    | cons a t ih =>
      rintro hok ⟨k, hk, hbad⟩
      rw [List.mapM_cons]
      by_cases ha : (a : Int) < u ∨ v < a
      · rw [key a ha]; rfl
      · obtain ⟨w, hw⟩ := hok a (by simp) ha
        rw [hw, Except_bind_ok, ih (fun k hk => hok k (by simp [hk])) ?_]
        · rfl
        · rcases List.mem_cons.1 hk with rfl | hk
          · exact absurd hbad ha
          · exact ⟨k, hk, hbad⟩
  unfold warpArea
  rw [hmp]
  simp only
  rw [if_neg (by omega), zip_asPoints]
  obtain ⟨k, hk, hbad⟩ := hout
  rw [all (List.range d.N) ?_ ⟨k, List.mem_range.2 hk, hbad⟩]
  · rfl
  · intro k _ hk
    exact ⟨_, interp1d_sorted (zip_fst_sorted hs hl) hy hz (by simp only; omega) (by simp only; omega) impl⟩

/-- Non-vacuity: that open-begin alignment: sorted, equally long, and query index 0 lies before its first point. -/
example : (dtw Arith.exact { x := .d2 (Mat.ofFn 3 4 fun i j => if i = 0 then fin 9 else fin |(i : ℚ) - j|)
                             stepPattern := .name "typeIIc", openBegin := true }).toOption.map
      (fun d => (d.N, d.mapping.map (fun mp => (mp.index1, mp.index2)))) =
    some (3, some ([1, 2], [1, 3])) := by decide +kernel

end DTW
