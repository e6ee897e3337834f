import Verif.CountPaths
import Verif.Proofs.OnePer
import Mathlib.Data.List.Nodup
import Verif.Proofs.NpSumProof

/-!
# countPaths counts rule sequences
-/

namespace DTW
open F64

variable {A : Arith} {rs : List Rule} {W seed : Nat → Nat → Bool} {n m : Nat}

/-! ### Counting -/

theorem HasCount.unique {α : Type} {P : α → Prop} {k k' : Nat} (h : HasCount P k) (h' : HasCount P k') :
    k = k' := by
  obtain ⟨l, h1, h2, rfl⟩ := h
  obtain ⟨l', h1', h2', rfl⟩ := h'
  exact List.Perm.length_eq ((List.perm_ext_iff_of_nodup h1 h1').2 fun x => by rw [h2, h2'])

theorem HasCount.congr {α : Type} {P Q : α → Prop} {k : Nat} (h : HasCount P k) (hPQ : ∀ x, P x ↔ Q x) :
    HasCount Q k := by
  obtain ⟨l, h1, h2, h3⟩ := h
  exact ⟨l, h1, fun x => by rw [h2, hPQ], h3⟩

theorem HasCount.image {α β : Type} {P : α → Prop} {k : Nat} (h : HasCount P k) (f : α → β)
    (hf : ∀ x y, P x → P y → f x = f y → x = y) : HasCount (fun y => ∃ x, P x ∧ f x = y) k := by
  obtain ⟨l, h1, h2, h3⟩ := h
  refine ⟨l.map f, ?_, ?_, by simpa using h3⟩
  · refine List.Nodup.map_on ?_ h1
    intro x hx y hy hxy
    exact hf x y ((h2 x).1 hx) ((h2 y).1 hy) hxy
  · intro y
    simp only [List.mem_map, h2]

theorem HasCount.pos_iff {α : Type} {P : α → Prop} {k : Nat} (h : HasCount P k) : 0 < k ↔ ∃ x, P x := by
  obtain ⟨l, h1, h2, rfl⟩ := h
  rw [List.length_pos_iff_exists_mem]
  exact exists_congr h2

/-- Disjoint union over `k < N`. -/
theorem HasCount.sum {α : Type} (N : Nat) {P : Nat → α → Prop} {c : Nat → Nat}
    (h : ∀ k < N, HasCount (P k) (c k)) (hd : ∀ k < N, ∀ k' < N, ∀ x, P k x → P k' x → k = k') :
    HasCount (fun x => ∃ k < N, P k x) (((List.range N).map c).sum) := by
  induction N with
  | zero => exact ⟨[], List.nodup_nil, by simp, by simp⟩
  | succ N ih =>
    obtain ⟨l, h1, h2, h3⟩ := ih (fun k hk => h k (by omega)) (fun k hk k' hk' => hd k (by omega) k' (by omega))
    obtain ⟨l', h1', h2', h3'⟩ := h N (by omega)
    refine ⟨l ++ l', ?_, ?_, ?_⟩
    · rw [List.nodup_append]
      refine ⟨h1, h1', ?_⟩
      rintro x hx y hy rfl
      obtain ⟨k, hk, hkx⟩ := (h2 x).1 hx
      have := hd k (by omega) N (by omega) x hkx ((h2' x).1 hy)
      omega
    · intro x
      rw [List.mem_append, h2, h2']
      constructor
      · rintro (⟨k, hk, hx⟩ | hx)
        · exact ⟨k, by omega, hx⟩
        · exact ⟨N, by omega, hx⟩
      · rintro ⟨k, hk, hx⟩
        rcases Nat.lt_succ_iff_lt_or_eq.1 hk with hlt | rfl
        · exact .inl ⟨k, hlt, hx⟩
        · exact .inr hx
    · rw [List.length_append, h3, h3', List.range_succ, List.map_append, List.sum_append]
      simp

/-! ### The paths to a cell -/

/-- A path to `(i,j)`: start cell and rule sequence. -/
abbrev To (rs : List Rule) (W seed : Nat → Nat → Bool) (i j : Nat) (x : (Nat × Nat) × List Int) : Prop :=
  SeededPath rs W seed x.1.1 x.1.2 x.2 i j

theorem to_seeded {i j : Nat} (h : seed i j = true) (x : (Nat × Nat) × List Int) :
    To rs W seed i j x ↔ x = ((i, j), []) := by
  constructor
  · intro hx
    unfold To at hx
    obtain ⟨⟨i0, j0⟩, ks⟩ := x
    simp only at hx
    cases hx with
    | start _ => rfl
    | step k r _ _ _ hs => rw [h] at hs; simp at hs
  · rintro rfl; exact .start i j h

theorem to_outside {i j : Nat} (h : seed i j = false) (hW : W i j = false) (x : (Nat × Nat) × List Int) :
    ¬ To rs W seed i j x := by
  intro hx
  unfold To at hx
  obtain ⟨⟨i0, j0⟩, ks⟩ := x
  simp only at hx
  cases hx with
  | start hs => rw [h] at hs; simp at hs
  | step k r _ _ hw _ => rw [hW] at hw; simp at hw

theorem to_inside {i j : Nat} (h : seed i j = false) (hW : W i j = true) (x : (Nat × Nat) × List Int) :
    To rs W seed i j x ↔ ∃ k < rs.length, ∃ r, rs[k]? = some r ∧ r.a ≤ i ∧ r.b ≤ j ∧
      ∃ y, To rs W seed (i - r.a) (j - r.b) y ∧ (y.1, y.2 ++ [(k : Int) + 1]) = x := by
  constructor
  · intro hx
    unfold To at hx
    obtain ⟨⟨i0, j0⟩, ks⟩ := x
    simp only at hx
    cases hx with
    | start hs => rw [h] at hs; simp at hs
    | @step ks i j k r hp hr hw _ =>
      refine ⟨k, (List.getElem?_eq_some_iff.1 hr).1, r, hr, by omega, by omega, ((i0, j0), ks), ?_, rfl⟩
      simpa [To] using hp
  · rintro ⟨k, _, r, hr, ha, hb, y, hy, rfl⟩
    have ea : i - r.a + r.a = i := by omega
    have eb : j - r.b + r.b = j := by omega
    have := SeededPath.step k r hy hr (by rw [ea, eb]; exact hW) (by rw [ea, eb]; exact h)
    rw [ea, eb] at this
    exact this

/-- Contribution of rule number `k` to the count at `(i,j)`. -/
def contrib (rs : List Rule) (f : Nat → Nat → Nat) (i j k : Nat) : Nat :=
  match rs[k]? with
  | some r => if r.a ≤ i ∧ r.b ≤ j then f (i - r.a) (j - r.b) else 0
  | none => 0

theorem hasCount_inside {f : Nat → Nat → Nat} {i j : Nat} (h : seed i j = false) (hW : W i j = true)
    (hf : ∀ r ∈ rs, r.a ≤ i → r.b ≤ j → HasCount (To rs W seed (i - r.a) (j - r.b)) (f (i - r.a) (j - r.b))) :
    HasCount (To rs W seed i j) (((List.range rs.length).map (contrib rs f i j)).sum) := by
  refine (HasCount.sum rs.length (P := fun k x => ∃ r, rs[k]? = some r ∧ r.a ≤ i ∧ r.b ≤ j ∧
      ∃ y, To rs W seed (i - r.a) (j - r.b) y ∧ (y.1, y.2 ++ [(k : Int) + 1]) = x) ?_ ?_).congr
    fun x => (to_inside h hW x).symm
  · intro k hk
    have hr : rs[k]? = some rs[k] := List.getElem?_eq_getElem hk
    unfold contrib
    rw [hr]
    simp only
    by_cases hc : rs[k].a ≤ i ∧ rs[k].b ≤ j
    · rw [if_pos hc]
      have := (hf rs[k] (List.getElem_mem hk) hc.1 hc.2).image
        (fun y => (y.1, y.2 ++ [(k : Int) + 1])) (by
          rintro ⟨s, ks⟩ ⟨s', ks'⟩ _ _ hxy
          simp only [Prod.mk.injEq] at hxy
          rw [hxy.1, List.append_cancel_right hxy.2])
      refine this.congr fun x => ?_
      constructor
      · rintro ⟨y, hy, hx⟩; exact ⟨rs[k], rfl, hc.1, hc.2, y, hy, hx⟩
      · rintro ⟨r, hr', _, _, y, hy, hx⟩
        simp only [Option.some.injEq] at hr'
        subst hr'
        exact ⟨y, hy, hx⟩
    · rw [if_neg hc]
      refine ⟨[], List.nodup_nil, ?_, rfl⟩
      intro x
      simp only [List.not_mem_nil, false_iff]
      rintro ⟨r, hr', ha, hb, _⟩
      simp only [Option.some.injEq] at hr'
      subst hr'
      exact hc ⟨ha, hb⟩
  · rintro k _ k' _ x ⟨r, _, _, _, y, _, rfl⟩ ⟨r', _, _, _, y', _, hx⟩
    simp only [Prod.mk.injEq] at hx
    have := (List.append_inj' hx.2 rfl).2
    simp only [List.cons.injEq, and_true] at this
    omega

/-- Every cell has a finite number of paths. -/
theorem exists_count (hv : ∀ r ∈ rs, r.Valid) : ∀ N i j, i + j = N → ∃ c, HasCount (To rs W seed i j) c := by
  intro N
  induction N using Nat.strong_induction_on with
  | _ N ih =>
    intro i j hN
    by_cases hs : seed i j = true
    · exact ⟨1, [((i, j), [])], by simp, fun x => by rw [to_seeded hs]; simp, rfl⟩
    · have hs : seed i j = false := by simpa using hs
      by_cases hW : W i j = true
      · have key : ∀ i' j', ∃ c, i' + j' < N → HasCount (To rs W seed i' j') c := by
          intro i' j'
          by_cases hlt : i' + j' < N
          · obtain ⟨c, hc⟩ := ih (i' + j') hlt i' j' rfl
            exact ⟨c, fun _ => hc⟩
          · exact ⟨0, fun h => absurd h hlt⟩
        choose f hf using key
        exact ⟨_, hasCount_inside hs hW (f := f) fun r hr ha hb =>
          hf _ _ (by have := (hv r hr).1; omega)⟩
      · have hW : W i j = false := by simpa using hW
        exact ⟨0, [], List.nodup_nil, fun x => by simp [to_outside hs hW x], rfl⟩

/-- The number of paths to each cell. -/
theorem exists_table (hv : ∀ r ∈ rs, r.Valid) : ∃ f : Nat → Nat → Nat,
    (∀ i j, HasCount (To rs W seed i j) (f i j)) ∧
    (∀ i j, seed i j = true → f i j = 1) ∧
    (∀ i j, seed i j = false → W i j = false → f i j = 0) ∧
    (∀ i j, seed i j = false → W i j = true → f i j = ((List.range rs.length).map (contrib rs f i j)).sum) := by
  choose f hf using fun i j => exists_count (W := W) (seed := seed) hv (i + j) i j rfl
  refine ⟨f, hf, ?_, ?_, ?_⟩
  · intro i j hs
    exact (hf i j).unique ⟨[((i, j), [])], by simp, fun x => by rw [to_seeded hs]; simp, rfl⟩
  · intro i j hs hW
    exact (hf i j).unique ⟨[], List.nodup_nil, fun x => by simp [to_outside hs hW x], rfl⟩
  · intro i j hs hW
    exact (hf i j).unique (hasCount_inside hs hW fun r hr ha hb => hf _ _)

/-! ### The program -/

/-- No charged weight is truncated to -1. -/
def TruncOK (rs : List Rule) : Prop := ∀ r ∈ rs, ∀ t ∈ r.terms, trunc t.w ≠ -1

theorem mkDirDeltas_encodeFrom : ∀ (rs : List Rule) (k : Nat), TruncOK rs →
    ((encodeFrom k rs).filter fun s => trunc s.w = -1).map (fun s => (s.di, s.dj)) =
      rs.map fun r => ((r.a : Int), (r.b : Int)) := by
  intro rs
  induction rs with
  | nil => intro k _; rfl
  | cons r rs ih =>
    intro k ht
    rw [encodeFrom, List.filter_append, List.map_append, ih (k + 1) fun r' hr' => ht r' (List.mem_cons_of_mem _ hr')]
    unfold Rule.rows
    rw [List.filter_cons_of_pos (by simp)]
    have : (r.terms.map fun t => (⟨(k : Int) + 1, t.di, t.dj, t.w⟩ : Step)).filter (fun s => trunc s.w = -1) = [] := by
      rw [List.filter_eq_nil_iff]
      intro s hs
      obtain ⟨t, ht', rfl⟩ := List.mem_map.1 hs
      simpa using ht r (List.mem_cons_self ..) t ht'
    rw [this]
    simp

theorem mkDirDeltas_WF {p : StepPattern} (h : WF p rs) (ht : TruncOK rs) :
    p.mkDirDeltas = rs.map fun r => ((r.a : Int), (r.b : Int)) := by
  unfold StepPattern.mkDirDeltas
  rw [h.rows]
  exact mkDirDeltas_encodeFrom rs 0 ht

theorem pySet_ofFn {α} {n m i j : Nat} (f : Nat → Nat → α) (v : α) (hi : i < n) (hj : j < m) :
    (Mat.ofFn n m f).pySet (i : Int) (j : Int) v =
      .ok (Mat.ofFn n m fun i' j' => if i' = i ∧ j' = j then v else f i' j') := by
  unfold Mat.pySet
  have hr : (Mat.ofFn n m f).rows = n := rfl
  have hc : (Mat.ofFn n m f).cols = m := rfl
  have h1 : ¬ ((i : Int) < 0) := by omega
  have h2 : ¬ ((j : Int) < 0) := by omega
  simp only [h1, h2, if_false, hr, hc]
  rw [if_pos (by omega)]
  simp only [Int.toNat_natCast]
  congr 1
  have := eq_ofFn (n := n) (m := m) (f := fun i' j' => if i' = i ∧ j' = j then v else f i' j')
    (l := (Mat.ofFn n m f).data.set (i * m + j) v) (by simp [Mat.ofFn]) (by
      intro i' hi' j' hj'
      rw [List.getElem?_set]
      have hlt := flat_lt hi hj
      by_cases hc : i * m + j = i' * m + j'
      · obtain ⟨rfl, rfl⟩ := flat_inj hj hj' hc
        simp [length_ofFn, hlt]
      · rw [if_neg hc, if_neg (by rintro ⟨rfl, rfl⟩; exact hc rfl)]
        have hm : 0 < m := by omega
        have hlt' := flat_lt hi' hj'
        simp only [Mat.ofFn, List.getElem?_map, List.getElem?_range hlt', Option.map_some]
        have e1 : (i' * m + j') / m = i' := by
          rw [Nat.add_comm, Nat.add_mul_div_right _ _ hm, Nat.div_eq_of_lt hj', Nat.zero_add]
        have e2 : (i' * m + j') % m = j' := by
          rw [Nat.add_comm, Nat.add_mul_mod_self_right, Nat.mod_eq_of_lt hj']
        rw [e1, e2])
  rw [this]
  rfl

theorem sum_take_le (c : Nat → Nat) {k N : Nat} (h : k ≤ N) :
    ((List.range k).map c).sum ≤ ((List.range N).map c).sum := by
  induction N with
  | zero => have : k = 0 := by omega
            subst this; exact Nat.le_refl _
  | succ N ih =>
    rcases Nat.lt_or_ge k (N + 1) with hlt | hge
    · have := ih (by omega)
      rw [List.range_succ (n := N), List.map_append, List.sum_append]
      omega
    · have : k = N + 1 := by omega
      subst this; exact Nat.le_refl _

/-- The state of the count matrix when the cells before `(i,j)` (row by row) have been visited. -/
def countState (seed : Nat → Nat → Bool) (f : Nat → Nat → Nat) (i j : Nat) : Nat → Nat → F64 := fun i' j' =>
  if seed i' j' then fin 1
  else if i' < i ∨ (i' = i ∧ j' < j) then fin (f i' j' : ℚ) else nan

theorem countSum_spec {B : Nat} (hA : ExactUpTo A B) (hv : ∀ r ∈ rs, r.Valid) {f : Nat → Nat → Nat}
    (h1 : ∀ i j, seed i j = true → f i j = 1) {i j : Nat} (hi : i < n) (hj : j < m)
    (hB : ((List.range rs.length).map (contrib rs f i j)).sum ≤ B) :
    countSum A (rs.map fun r => ((r.a : Int), (r.b : Int))) rs.length (Mat.ofFn n m (countState seed f i j)) i j =
      .ok (fin ((((List.range rs.length).map (contrib rs f i j)).sum : Nat) : ℚ)) := by
  unfold countSum
  obtain ⟨s', hs', hP⟩ := foldlM_range_inv (σ := F64)
    (fun k s => s = fin ((((List.range k).map (contrib rs f i j)).sum : Nat) : ℚ)) rs.length (fin 0)
    (by simp) (f := countTerm A (rs.map fun r => ((r.a : Int), (r.b : Int)))
      (Mat.ofFn n m (countState seed f i j)) i j) (by
      rintro k hk s rfl
      have hr : rs[k]? = some rs[k] := List.getElem?_eq_getElem hk
      have hle := sum_take_le (contrib rs f i j) (Nat.succ_le_of_lt hk)
      rw [List.range_succ, List.map_append, List.sum_append] at hle ⊢
      simp only [List.map_cons, List.map_nil, List.sum_cons, List.sum_nil, Nat.add_zero] at hle ⊢
      unfold countTerm
      rw [List.getElem?_map, hr]
      simp only [Option.map_some]
      have hle := Nat.le_trans hle hB
      generalize ((List.range k).map (contrib rs f i j)).sum = S at hle ⊢
      unfold contrib at hle ⊢
      rw [hr] at hle ⊢
      simp only at hle ⊢
      by_cases hc : rs[k].a ≤ i ∧ rs[k].b ≤ j
      · rw [if_pos hc] at hle ⊢
        rw [if_pos (by omega)]
        have e1 : (i : Int) - rs[k].a = ((i - rs[k].a : Nat) : Int) := by omega
        have e2 : (j : Int) - rs[k].b = ((j - rs[k].b : Nat) : Int) := by omega
        rw [e1, e2, pyGet_ofFn _ (by omega) (by omega), Except_bind_ok]
        refine ⟨_, rfl, ?_⟩
        have hp := (hv rs[k] (List.getElem_mem hk)).1
        have hst : countState seed f i j (i - rs[k].a) (j - rs[k].b) = fin (f (i - rs[k].a) (j - rs[k].b) : ℚ) := by
          unfold countState
          by_cases hs : seed (i - rs[k].a) (j - rs[k].b) = true
          · rw [if_pos hs, h1 _ _ hs]; simp
          · rw [if_neg hs, if_pos (by omega)]
        rw [hst]
        simp only [Arith.add]
        rw [← Nat.cast_add, hA _ (by omega)]
      · rw [if_neg hc] at hle ⊢
        rw [if_neg (by omega)]
        exact ⟨_, rfl, by simp⟩)
  subst hP
  simpa using hs'

theorem countState_start (seed : Nat → Nat → Bool) (f : Nat → Nat → Nat) (i m : Nat) :
    ∀ i' j', j' < m → countState seed f i m i' j' = countState seed f (i + 1) 0 i' j' := by
  intro i' j' hj'
  unfold countState
  split
  · rfl
  · by_cases hc : i' < i ∨ (i' = i ∧ j' < m)
    · rw [if_pos hc, if_pos (by omega)]
    · rw [if_neg hc, if_neg (by omega)]

theorem countCell_spec {B : Nat} (hA : ExactUpTo A B) (hv : ∀ r ∈ rs, r.Valid) {f : Nat → Nat → Nat}
    {wf : WinFn} {args : WinArgs} (hw : ∀ i < n, ∀ j < m, wf.call args n m i j = .ok (W i j))
    (h1 : ∀ i j, seed i j = true → f i j = 1)
    (h2 : ∀ i j, seed i j = false → W i j = false → f i j = 0)
    (h3 : ∀ i j, seed i j = false → W i j = true → f i j = ((List.range rs.length).map (contrib rs f i j)).sum)
    {i j : Nat} (hi : i < n) (hj : j < m) (hB : f i j ≤ B) :
    countCell A n m wf args (rs.map fun r => ((r.a : Int), (r.b : Int))) rs.length
      (Mat.ofFn n m (countState seed f i j)) i j = .ok (Mat.ofFn n m (countState seed f i (j + 1))) := by
  unfold countCell
  rw [pyGet_ofFn _ hi hj, Except_bind_ok]
  by_cases hs : seed i j = true
  · have hst : countState seed f i j i j = fin 1 := by simp [countState, hs]
    rw [hst]
    simp only [isFinite, if_true]
    congr 1
    apply ofFn_congr
    intro i' _ j' _
    unfold countState
    split
    · rfl
    · rename_i hs'
      by_cases hc : i' < i ∨ (i' = i ∧ j' < j)
      · rw [if_pos hc, if_pos (by omega)]
      · rw [if_neg hc, if_neg]
        rintro (h | ⟨rfl, h⟩)
        · exact hc (.inl h)
        · have : j' = j := by omega
          subst this; exact hs' hs
  · have hs : seed i j = false := by simpa using hs
    have hst : countState seed f i j i j = nan := by simp [countState, hs]
    rw [hst]
    simp only [isFinite, Bool.false_eq_true, if_false]
    rw [hw i hi j hj, Except_bind_ok]
    have upd : ∀ i' < n, ∀ j' < m, (if i' = i ∧ j' = j then fin (f i j : ℚ) else countState seed f i j i' j') =
        countState seed f i (j + 1) i' j' := by
      intro i' _ j' _
      by_cases hc : i' = i ∧ j' = j
      · rw [if_pos hc]
        obtain ⟨rfl, rfl⟩ := hc
        simp [countState, hs]
      · rw [if_neg hc]
        unfold countState
        split
        · rfl
        · by_cases hc' : i' < i ∨ (i' = i ∧ j' < j)
          · rw [if_pos hc', if_pos (by omega)]
          · rw [if_neg hc', if_neg (by omega)]
    by_cases hW : W i j = true
    · rw [hW]
      simp only [Bool.true_eq_false, if_false]
      rw [countSum_spec hA hv h1 hi hj (by rw [← h3 i j hs hW]; exact hB), Except_bind_ok,
        pySet_ofFn _ _ hi hj, ← h3 i j hs hW]
      rw [ofFn_congr upd]
    · have hW : W i j = false := by simpa using hW
      rw [hW]
      simp only [if_true]
      rw [pySet_ofFn _ _ hi hj, ← ofFn_congr upd, h2 i j hs hW]
      simp

/-- Cells that countPaths initialises to 1. -/
def countSeed (openBegin : Bool) (i j : Nat) : Bool := if openBegin then decide (i = 0) else decide (i = 0 ∧ j = 0)

theorem countInit_spec (hn : 0 < n) (hm : 0 < m) (ob : Bool) (f : Nat → Nat → Nat) :
    countInit n m ob = .ok (Mat.ofFn n m (countState (countSeed ob) f 0 0)) := by
  unfold countInit
  cases ob with
  | true =>
    rw [if_pos rfl, if_neg (by omega)]
    congr 1
    apply ofFn_congr
    intro i _ j _
    simp [countState, countSeed]
  | false =>
    rw [if_neg (by simp)]
    have := pySet_ofFn (n := n) (m := m) (i := 0) (j := 0) (fun _ _ => nan) (fin 1) hn hm
    rw [show ((0 : Nat) : Int) = 0 from rfl] at this
    rw [this]
    congr 1
    apply ofFn_congr
    intro i _ j _
    simp [countState, countSeed]

theorem countMatrix_spec {B : Nat} (hA : ExactUpTo A B) {p : StepPattern} (hp : WF p rs) (ht : TruncOK rs)
    {d : Result} (hd : AboutProblem d n m p W) (hn : 0 < n) (hm : 0 < m) {f : Nat → Nat → Nat}
    (h1 : ∀ i j, countSeed d.openBegin i j = true → f i j = 1)
    (h2 : ∀ i j, countSeed d.openBegin i j = false → W i j = false → f i j = 0)
    (h3 : ∀ i j, countSeed d.openBegin i j = false → W i j = true →
      f i j = ((List.range rs.length).map (contrib rs f i j)).sum)
    (hB : ∀ i < n, ∀ j < m, f i j ≤ B) :
    countMatrix A d = .ok (Mat.ofFn n m fun i j => fin (f i j : ℚ)) := by
  unfold countMatrix
  rw [hd.N, hd.M, countInit_spec hn hm d.openBegin f, Except_bind_ok, hd.pattern, getNPatterns_WF hp,
    Except_bind_ok]
  simp only
  rw [mkDirDeltas_WF hp ht]
  have row : ∀ i < n, (List.range m).foldlM (fun cm (jj : Nat) =>
      countCell A n m d.windowFunction d.windowArgs (rs.map fun r => ((r.a : Int), (r.b : Int))) rs.length cm i jj)
      (Mat.ofFn n m (countState (countSeed d.openBegin) f i 0)) =
      .ok (Mat.ofFn n m (countState (countSeed d.openBegin) f (i + 1) 0)) := by
    intro i hi
    obtain ⟨s', hs', hP⟩ := foldlM_range_inv (fun cm (jj : Nat) =>
      countCell A n m d.windowFunction d.windowArgs (rs.map fun r => ((r.a : Int), (r.b : Int))) rs.length cm i jj)
      (fun k s => s = Mat.ofFn n m (countState (countSeed d.openBegin) f i k)) m _ rfl (by
        rintro j hj s rfl
        exact ⟨_, countCell_spec hA hp.valid hd.window h1 h2 h3 hi hj (hB i hi j hj), rfl⟩)
    rw [hs', hP]
    congr 1
    exact ofFn_congr fun i' _ j' hj' => countState_start _ f i m i' j' hj'
  obtain ⟨s', hs', hP⟩ := foldlM_range_inv (fun cm (ii : Nat) => (List.range m).foldlM (fun cm (jj : Nat) =>
      countCell A n m d.windowFunction d.windowArgs (rs.map fun r => ((r.a : Int), (r.b : Int))) rs.length cm ii jj) cm)
      (fun k s => s = Mat.ofFn n m (countState (countSeed d.openBegin) f k 0)) n _ rfl (by
        rintro i hi s rfl
        exact ⟨_, row i hi, rfl⟩)
  rw [hs', hP]
  congr 1
  apply ofFn_congr
  intro i hi j hj
  unfold countState
  split
  · rename_i hs; rw [h1 i j hs]; simp
  · rw [if_pos (.inl hi)]

@[simp] theorem pyInt_nat (k : Nat) : pyInt (fin (k : ℚ)) = .ok (k : Int) := by
  have := trunc_intCast (k : Int)
  simp only [Int.cast_natCast] at this
  simp [pyInt, this]

theorem npSum_tab {B : Nat} (hA : ExactUpTo A B) (c : Nat → Nat) (k : Nat) (h : ((List.range k).map c).sum ≤ B) :
    npSum A (tab k fun j => fin (c j : ℚ)) = fin ((((List.range k).map c).sum : Nat) : ℚ) := by
  have := npSum_nat hA ((List.range k).map c) h
  rwa [List.map_map] at this

/-! ### Closed begin: seeded paths are rule paths -/

theorem seeded_closed (hv : ∀ r ∈ rs, r.Valid) (x : (Nat × Nat) × List Int) (i j : Nat) :
    To rs W (countSeed false) i j x ↔ x.1 = (0, 0) ∧ RulePath rs W x.2 i j := by
  obtain ⟨⟨i0, j0⟩, ks⟩ := x
  simp only [To]
  constructor
  · intro h
    induction h with
    | start hs =>
      have : i0 = 0 ∧ j0 = 0 := by simpa [countSeed] using hs
      obtain ⟨rfl, rfl⟩ := this
      exact ⟨rfl, .start⟩
    | step k r _ hr hW _ ih => exact ⟨ih.1, .step k r ih.2 hr hW⟩
  · rintro ⟨h0, h⟩
    simp only [Prod.mk.injEq] at h0
    obtain ⟨rfl, rfl⟩ := h0
    induction h with
    | start => exact .start _ _ (by simp [countSeed])
    | step k r _ hr hW ih =>
      refine .step k r ih hr hW ?_
      have := (hv r (List.mem_of_getElem? hr)).1
      simp only [countSeed, Bool.false_eq_true, if_false, decide_eq_false_iff_not]
      omega

end DTW
