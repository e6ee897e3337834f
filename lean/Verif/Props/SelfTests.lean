import Verif.SelfTest
import Verif.Props.Doubles
import Verif.Props.Witnesses

/-!
# C65: the self-tests of the kernel
-/

namespace DTW
open F64

/-- The least cost of reaching cell `(i, j)` of the multiplication table: along the edge as long as necessary, then
diagonally. -/
def tableCost (i j : Nat) : Nat :=
  ((List.range (max i j - min i j)).map (· + 1)).sum +
    ((List.range (min i j + 1)).map fun t => (t + 1) * (t + 1 + (max i j - min i j))).sum

theorem tableCost_zero : tableCost 0 0 = 1 := by decide

theorem tableCost_comm (i j : Nat) : tableCost i j = tableCost j i := by
  unfold tableCost; rw [max_comm, min_comm]

theorem tableCost_diag (i j : Nat) : tableCost (i + 1) (j + 1) = tableCost i j + (i + 2) * (j + 2) := by
  have e1 : max (i + 1) (j + 1) - min (i + 1) (j + 1) = max i j - min i j := by omega
  have e2 : min (i + 1) (j + 1) = min i j + 1 := by omega
  unfold tableCost
  rw [e1, e2, List.range_succ (n := min i j + 1), List.map_append, List.sum_append]
  simp only [List.map_cons, List.map_nil, List.sum_cons, List.sum_nil]
  have e3 : (min i j + 1 + 1) * (min i j + 1 + 1 + (max i j - min i j)) = (i + 2) * (j + 2) := by
    rcases le_total i j with h | h
    · rw [min_eq_left h, max_eq_right h]
      congr 1; omega
    · rw [min_eq_right h, max_eq_left h, mul_comm]
      congr 1; omega
  omega

theorem tableCost_row (j : Nat) : tableCost 0 (j + 1) = tableCost 0 j + (j + 2) := by
  unfold tableCost
  simp only [Nat.zero_max, Nat.zero_min, Nat.sub_zero, List.range_succ, List.map_append, List.sum_append, List.map_cons,
    List.map_nil, List.sum_cons, List.sum_nil, List.range_zero]
  omega

theorem tableCost_col (i : Nat) : tableCost (i + 1) 0 = tableCost i 0 + (i + 2) := by
  rw [tableCost_comm, tableCost_row, tableCost_comm]

theorem tableCost_lt_row : ∀ i j, tableCost i j < tableCost i (j + 1) := by
  intro i
  induction i with
  | zero => intro j; rw [tableCost_row]; omega
  | succ i ih =>
    intro j
    cases j with
    | zero => rw [tableCost_col, tableCost_diag]; omega
    | succ j =>
      rw [tableCost_diag, tableCost_diag]
      have := ih j
      have : (i + 2) * (j + 1 + 2) = (i + 2) * (j + 2) + (i + 2) := by ring
      omega

theorem tableCost_lt_col (i j : Nat) : tableCost i j < tableCost (i + 1) j := by
  rw [tableCost_comm i, tableCost_comm (i + 1)]; exact tableCost_lt_row j i

/-- On the diagonal: the sum of the squares. -/
theorem tableCost_square (n : Nat) : 6 * tableCost n n = (n + 1) * (n + 2) * (2 * n + 3) := by
  induction n with
  | zero => decide
  | succ n ih => rw [tableCost_diag, Nat.mul_add, ih]; ring

theorem tableCost_le {i j i' j' : Nat} (hi : i ≤ i') (hj : j ≤ j') : tableCost i j ≤ tableCost i' j' := by
  have h1 : tableCost i j ≤ tableCost i' j := by
    induction hi with
    | refl => exact _root_.le_refl _
    | step _ ih => exact ih.trans (tableCost_lt_col _ _).le
  have h2 : tableCost i' j ≤ tableCost i' j' := by
    induction hj with
    | refl => exact _root_.le_refl _
    | step _ ih => exact ih.trans (tableCost_lt_row _ _).le
  exact h1.trans h2

/-- The rules of `tdir`. -/
def selfTestRules : List Rule := [⟨1, 0, [⟨0, 0, 1⟩]⟩, ⟨1, 1, [⟨0, 0, 1⟩]⟩, ⟨0, 1, [⟨0, 0, 1⟩]⟩]

/-- `tdir` is the table of a step pattern. -/
def selfTestPattern : StepPattern := ⟨encode selfTestRules, "NA"⟩

theorem charge_unit_nat {A : Arith} {B : Nat} (hA : ExactUpTo A B) {c l : Nat} (h : c + l ≤ B) (hB : 1 ≤ B)
    {a b i j : Nat} {L : Nat → Nat → F64} (hL : L i j = fin (l : ℚ)) :
    charge A L ⟨a, b, [⟨0, 0, 1⟩]⟩ i j (fin (c : ℚ)) = fin ((c + l : Nat) : ℚ) := by
  have h1 : A.rnd 1 = fin 1 := by simpa using hA 1 hB
  have hl : A.rnd (l : ℚ) = fin l := hA l (by omega)
  have hc : A.rnd ((c : ℚ) + l) = fin ((c + l : Nat) : ℚ) := by
    have := hA (c + l) h
    push_cast at this ⊢
    exact this
  unfold charge
  simp only [List.foldl_cons, List.foldl_nil, Nat.sub_zero, hL, h1]
  unfold Arith.mac
  have hm : (if A.fused = true then Arith.mulWith fin (fin 1) (fin (l : ℚ)) else A.mul (fin 1) (fin (l : ℚ))) = fin (l : ℚ) := by
    split
    · simp [Arith.mulWith]
    · simp [Arith.mul, Arith.mulWith, hl]
  rw [hm]
  simpa [Arith.add] using hc

/-- A step of one sample that is charged the cost of its target once. -/
def unitRule (a b : Nat) : Rule := ⟨a, b, [⟨0, 0, 1⟩]⟩

/-- The three unit steps, in any order: down the column at place `kc`, diagonally at `kd`, along the row at `kr`. -/
structure UnitSteps (rs : List Rule) (kc kd kr : Nat) : Prop where
  col : rs[kc]? = some (unitRule 1 0)
  diag : rs[kd]? = some (unitRule 1 1)
  row : rs[kr]? = some (unitRule 0 1)
  all : ∀ (k : Nat) r, rs[k]? = some r → (r = unitRule 1 0 ∧ k = kc) ∨ (r = unitRule 1 1 ∧ k = kd) ∨ (r = unitRule 0 1 ∧ k = kr)

/-- The move with which the cheapest way through the multiplication table ends. -/
def moveAt (kc kd kr : Nat) (i j : Nat) : Int :=
  if i = 0 ∧ j = 0 then intMin else if i = 0 then kr + 1 else if j = 0 then kc + 1 else kd + 1

/-- The explicit solution. -/
theorem table_bellman {A : Arith} {TS B : Nat} {rs : List Rule} {kc kd kr : Nat} (hrs : UnitSteps rs kc kd kr)
    (hA : ExactUpTo A B) (hB : tableCost TS TS + TS * TS ≤ B) :
    Bellman A rs TS TS (fun _ _ => true) (fun i j => fin (((i + 1) * (j + 1) : Nat) : ℚ))
      (closedSeed fun i j => fin (((i + 1) * (j + 1) : Nat) : ℚ)) (fun i j => fin (tableCost i j : ℚ))
      (moveAt kc kd kr) where
  seeded := by
    intro i _ j _ h
    unfold closedSeed at h ⊢
    split at h
    · rename_i h0
      obtain ⟨rfl, rfl⟩ := h0
      simp [tableCost_zero, moveAt]
    · exact absurd rfl h
  outside := by intro i _ j _ _ h; simp at h
  inside := by
    intro i hi j hj hS _
    have hne : ¬ (i = 0 ∧ j = 0) := by
      intro h0
      unfold closedSeed at hS
      rw [if_pos h0] at hS
      cases hS
    have hB1 : 1 ≤ B := by
      have : tableCost 0 0 ≤ tableCost TS TS := tableCost_le (by omega) (by omega)
      rw [tableCost_zero] at this; omega
    have bound : ∀ i' j', i' ≤ i → j' ≤ j → tableCost i' j' + (i + 1) * (j + 1) ≤ B := by
      intro i' j' h1 h2
      have : tableCost i' j' ≤ tableCost TS TS := tableCost_le (by omega) (by omega)
      have : (i + 1) * (j + 1) ≤ TS * TS := Nat.mul_le_mul hi hj
      omega
    have us : ∀ x : ℚ, usable (fin x) := by intro x; simp [usable, F64.lt]
    have ltf : ∀ {x y : Nat}, y ≤ x → F64.lt (fin (x : ℚ)) (fin (y : ℚ)) = false := by
      intro x y h
      simp only [F64.lt, decide_eq_false_iff_not, not_lt]
      exact_mod_cast h
    have nef : ∀ {x y : Nat}, y < x → fin (x : ℚ) ≠ fin (y : ℚ) := by
      intro x y h e
      simp only [F64.fin.injEq, Nat.cast_inj] at e
      omega
    have ch : ∀ a b, a ≤ i → b ≤ j → cand A (fun i j => fin (((i + 1) * (j + 1) : Nat) : ℚ))
        (fun i j => fin (tableCost i j : ℚ)) i j (unitRule a b) =
          fin ((tableCost (i - a) (j - b) + (i + 1) * (j + 1) : Nat) : ℚ) := fun a b ha hb => by
      unfold cand
      rw [if_pos ⟨ha, hb⟩]
      exact charge_unit_nat hA (bound _ _ (by omega) (by omega)) hB1 rfl
    have cn : ∀ a b, ¬ (a ≤ i ∧ b ≤ j) → cand A (fun i j => fin (((i + 1) * (j + 1) : Nat) : ℚ))
        (fun i j => fin (tableCost i j : ℚ)) i j (unitRule a b) = nan := fun a b hab => by
      unfold cand
      exact if_neg hab
    -- one of the three steps is the cheapest, and no other costs the same
    have pick : ∀ (k a b : Nat), rs[k]? = some (unitRule a b) → a ≤ i → b ≤ j →
        tableCost i j = tableCost (i - a) (j - b) + (i + 1) * (j + 1) →
        (∀ (k' : Nat) r', rs[k']? = some r' → k' ≠ k →
          cand A (fun i j => fin (((i + 1) * (j + 1) : Nat) : ℚ)) (fun i j => fin (tableCost i j : ℚ)) i j r' = nan ∨
          ∃ v : Nat, tableCost i j < v ∧
            cand A (fun i j => fin (((i + 1) * (j + 1) : Nat) : ℚ)) (fun i j => fin (tableCost i j : ℚ)) i j r' = fin v) →
        moveAt kc kd kr i j = k + 1 →
        IsBest ((rs.map (cand A (fun i j => fin (((i + 1) * (j + 1) : Nat) : ℚ)) (fun i j => fin (tableCost i j : ℚ)) i j)))
          (fin (tableCost i j : ℚ)) (moveAt kc kd kr i j) := by
      intro k a b hk ha hb hc hoth hm
      refine .inl ⟨k, ?_, hm, us _, ?_, ?_⟩
      · rw [List.getElem?_map, hk, Option.map_some, ch a b ha hb, hc]
      · intro x hx
        obtain ⟨r', hr', rfl⟩ := List.mem_map.1 hx
        obtain ⟨k', hk'⟩ := List.getElem?_of_mem hr'
        by_cases hkk : k' = k
        · rw [hkk, hk] at hk'
          cases hk'
          rw [ch a b ha hb]
          exact ltf (by omega)
        · rcases hoth k' r' hk' hkk with h1 | ⟨v, hv, h1⟩
          · rw [h1]; rfl
          · rw [h1]; exact ltf hv.le
      · intro k' hk' x hx
        rw [List.getElem?_map] at hx
        obtain ⟨r', hr', rfl⟩ := Option.map_eq_some_iff.1 hx
        rcases hoth k' r' hr' (by omega) with h1 | ⟨v, hv, h1⟩
        · rw [h1]; simp
        · rw [h1]; exact nef hv
    match i, j, hne with
    | 0, j + 1, _ =>
      refine pick kr 0 1 hrs.row (by omega) (by omega) ?_ ?_ (by simp [moveAt])
      · simp only [Nat.add_sub_cancel, Nat.sub_zero, tableCost_row]; omega
      · intro k' r' hk' hne
        rcases hrs.all k' r' hk' with ⟨rfl, _⟩ | ⟨rfl, _⟩ | ⟨_, h⟩
        · exact .inl (cn _ _ (by omega))
        · exact .inl (cn _ _ (by omega))
        · exact absurd h hne
    | i + 1, 0, _ =>
      refine pick kc 1 0 hrs.col (by omega) (by omega) ?_ ?_ (by simp [moveAt])
      · simp only [Nat.add_sub_cancel, Nat.sub_zero, tableCost_col]; omega
      · intro k' r' hk' hne
        rcases hrs.all k' r' hk' with ⟨_, h⟩ | ⟨rfl, _⟩ | ⟨rfl, _⟩
        · exact absurd h hne
        · exact .inl (cn _ _ (by omega))
        · exact .inl (cn _ _ (by omega))
    | i + 1, j + 1, _ =>
      have g1 := tableCost_lt_row i j
      have g2 := tableCost_lt_col i j
      have e := tableCost_diag i j
      have e' : (i + 1 + 1) * (j + 1 + 1) = (i + 2) * (j + 2) := rfl
      refine pick kd 1 1 hrs.diag (by omega) (by omega) ?_ ?_ (by simp [moveAt])
      · simp only [Nat.add_sub_cancel]; omega
      · intro k' r' hk' hne
        rcases hrs.all k' r' hk' with ⟨rfl, _⟩ | ⟨_, h⟩ | ⟨rfl, _⟩
        · refine .inr ⟨_, ?_, ch 1 0 (by omega) (by omega)⟩
          simp only [Nat.add_sub_cancel, Nat.sub_zero, e]; omega
        · exact absurd h hne
        · refine .inr ⟨_, ?_, ch 0 1 (by omega) (by omega)⟩
          simp only [Nat.add_sub_cancel, Nat.sub_zero, e]; omega

theorem unitSteps_selfTest : UnitSteps selfTestRules 0 1 2 where
  col := rfl
  diag := rfl
  row := rfl
  all := by
    intro k r h
    match k with
    | 0 => exact .inl ⟨(Option.some.inj h).symm, rfl⟩
    | 1 => exact .inr (.inl ⟨(Option.some.inj h).symm, rfl⟩)
    | 2 => exact .inr (.inr ⟨(Option.some.inj h).symm, rfl⟩)
    | k + 3 => simp [selfTestRules] at h

theorem sym1_rules : rulesOf Pat.symmetric1 = [unitRule 1 1, unitRule 0 1, unitRule 1 0] := by decide +kernel

theorem unitSteps_sym1 : UnitSteps (rulesOf Pat.symmetric1) 2 0 1 where
  col := by rw [sym1_rules]; rfl
  diag := by rw [sym1_rules]; rfl
  row := by rw [sym1_rules]; rfl
  all := by
    rw [sym1_rules]
    intro k r h
    match k with
    | 0 => exact .inr (.inl ⟨by simpa using h.symm, rfl⟩)
    | 1 => exact .inr (.inr ⟨by simpa using h.symm, rfl⟩)
    | 2 => exact .inl ⟨by simpa using h.symm, rfl⟩
    | k + 3 => simp at h

theorem tableCost_small {TS : Nat} (h : TS * TS < 2147483648) : tableCost TS TS + TS * TS ≤ 2 ^ 53 := by
  have h1 := tableCost_square TS
  have h2 : TS < 46341 := by
    by_contra hc
    have : 46341 * 46341 ≤ TS * TS := Nat.mul_le_mul (by omega) (by omega)
    omega
  have h3 : (TS + 1) * (TS + 2) * (2 * TS + 3) ≤ 46342 * 46343 * 92685 :=
    Nat.mul_le_mul (Nat.mul_le_mul (by omega) (by omega)) (by omega)
  omega

/-- **C65** For every size the kernel can index, the self-test returns, in doubles, exactly the cheapest way through the
multiplication table to every cell, and the number (1 down the column,
2 diagonally, 3 along the row) of the move that ends it; the last cell costs the sum of the squares. -/
theorem C65_selftest (f : Bool) {TS : Nat} (hp : 0 < TS) (h : TS * TS < 2147483648) :
    selfTest (binary64 f) TS =
      .ok (Mat.ofFn TS TS fun i j => fin (tableCost i j : ℚ), Mat.ofFn TS TS (moveAt 0 1 2)) ∧
    6 * tableCost (TS - 1) (TS - 1) = TS * (TS + 1) * (2 * TS + 1) := by
  have hwf : WF selfTestPattern selfTestRules := wf_of_check (by decide +kernel)
  have hfits : Fits TS TS selfTestRules := ⟨h, by decide +kernel, by decide +kernel⟩
  obtain ⟨G, D, h1, h2⟩ := wrapper_spec (binary64 f) hwf hp hp hfits (fun _ _ => true)
    (fun i j => fin (((i + 1) * (j + 1) : Nat) : ℚ)) (closedSeed fun i j => fin (((i + 1) * (j + 1) : Nat) : ℚ))
  have h3 := table_bellman unitSteps_selfTest (C50_binary64_integers f) (tableCost_small h)
  have hu := h2.unique hwf.valid h3 le_rfl le_rfl le_rfl le_rfl (fun _ _ _ _ => rfl) (fun _ _ _ _ => rfl)
    (fun _ _ _ _ => rfl)
  refine ⟨?_, ?_⟩
  · unfold selfTest selfTestCosts
    rw [initialCM_none hp hp, Except_bind_ok]
    have e1 : selfTestPattern.getNRows = 6 := by decide +kernel
    have e2 : selfTestPattern.getP = selfTestDir := by decide +kernel
    rw [e1, e2] at h1
    simp only [if_true] at h1
    rw [h1]
    congr 2
    · exact ofFn_congr fun i hi j hj => (hu i hi j hj).1
    · exact ofFn_congr fun i hi j hj => (hu i hi j hj).2
  · obtain ⟨n, rfl⟩ : ∃ n, TS = n + 1 := ⟨TS - 1, by omega⟩
    have := tableCost_square n
    rw [Nat.add_sub_cancel, this]
    ring

/-- **C65** An empty self-test is an IndexError. -/
theorem C65_empty (A : Arith) : selfTest A 0 = .error .indexError := rfl

/-- **C65** It is `dtw` with symmetric1 on the multiplication table, up to the numbering of the moves: the same cost matrix,
and the distance is its last entry. -/
theorem C65_is_symmetric1 (f : Bool) {TS : Nat} (hp : 0 < TS) (h : TS * TS < 2147483648) :
    ∃ r c d, dtw (binary64 f) (Ex.call TS TS (fun i j => fin (((i + 1) * (j + 1) : Nat) : ℚ)) "symmetric1") = .ok r ∧
      selfTest (binary64 f) TS = .ok (c, d) ∧ r.costMatrix = some c ∧
      r.directionMatrix = some (Mat.ofFn TS TS (moveAt 2 0 1)) ∧
      r.distance = fin (tableCost (TS - 1) (TS - 1) : ℚ) := by
  have hq : ("symmetric1", Pat.symmetric1) ∈ Pat.table := Ex.sym1_mem
  have hP := bundled_problem hp hp h (fun i j => fin (((i + 1) * (j + 1) : Nat) : ℚ)) ("symmetric1", Pat.symmetric1) hq
  obtain ⟨G, D, qr, hBell, _, hd⟩ := dtw_closed (binary64 f) hP rfl
  have h3 := table_bellman unitSteps_sym1 (C50_binary64_integers f) (tableCost_small h)
  have hu := hBell.unique hP.wf.valid h3 le_rfl le_rfl le_rfl le_rfl (fun _ _ _ _ => rfl) (fun _ _ _ _ => rfl)
    (fun _ _ _ _ => rfl)
  have hs : ∃ r, dtw (binary64 f) (Ex.call TS TS (fun i j => fin (((i + 1) * (j + 1) : Nat) : ℚ)) "symmetric1") = .ok r := by
    refine closed_succeeds hP rfl hBell hd (j := TS - 1) (by omega) ?_ ?_
    · rw [(hu _ (by omega) _ (by omega)).1]; simp
    · rw [pickEnd_closed hp hp rfl, (hu _ (by omega) _ (by omega)).1]; rfl
  obtain ⟨r, hr⟩ := hs
  obtain ⟨j, ks, hrun⟩ := closed_ok hP rfl hBell hd hr
  obtain rfl := hrun.endAt.closed rfl
  refine ⟨r, _, _, hr, (C65_selftest f hp h).1, ?_, ?_, ?_⟩
  · rw [hrun.result]
    exact congrArg some (ofFn_congr fun i hi j hj => (hu i hi j hj).1)
  · rw [hrun.result]
    exact congrArg some (ofFn_congr fun i hi j hj => (hu i hi j hj).2)
  · rw [hrun.result]
    exact (hu _ (by omega) _ (by omega)).1

end DTW
