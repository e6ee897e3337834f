import Verif.Proofs.CountProof
import Verif.SpecDoubles

/-!
# countPaths in any arithmetic: the recursion it evaluates, and its rounding error
-/

namespace DTW
open F64

variable {A : Arith} {rs : List Rule} {W : Nat → Nat → Bool} {seed : Nat → Nat → Bool} {n m : Nat}

/-- One more rule added to the sum of a cell. -/
def addRule (A : Arith) (rs : List Rule) (g : Nat → Nat → F64) (i j : Nat) (acc : F64) (k : Nat) : F64 :=
  match rs[k]? with
  | some r => if r.a ≤ i ∧ r.b ≤ j then A.add acc (g (i - r.a) (j - r.b)) else acc
  | none => acc

/-- The sum of a cell over the first `k` rules. -/
def sumRules (A : Arith) (rs : List Rule) (g : Nat → Nat → F64) (i j k : Nat) : F64 :=
  (List.range k).foldl (addRule A rs g i j) (fin 0)

theorem sumRules_succ (g : Nat → Nat → F64) (i j k : Nat) :
    sumRules A rs g i j (k + 1) = addRule A rs g i j (sumRules A rs g i j k) k := by
  unfold sumRules
  rw [List.range_succ, List.foldl_append]
  rfl

/-- `g` satisfies the recursion of countPaths on the grid. -/
structure CountTable (A : Arith) (rs : List Rule) (W seed : Nat → Nat → Bool) (n m : Nat) (g : Nat → Nat → F64) : Prop where
  seeded : ∀ i < n, ∀ j < m, seed i j = true → g i j = fin 1
  outside : ∀ i < n, ∀ j < m, seed i j = false → W i j = false → g i j = fin 0
  inside : ∀ i < n, ∀ j < m, seed i j = false → W i j = true → g i j = sumRules A rs g i j rs.length

/-- The state of the count matrix when the cells before `(i,j)` (row by row) have been visited. -/
def countStateG (seed : Nat → Nat → Bool) (g : Nat → Nat → F64) (i j : Nat) : Nat → Nat → F64 := fun i' j' =>
  if seed i' j' then fin 1
  else if i' < i ∨ (i' = i ∧ j' < j) then g i' j' else nan

theorem countSumG (hv : ∀ r ∈ rs, r.Valid) {g : Nat → Nat → F64} (hg : CountTable A rs W seed n m g) {i j : Nat}
    (hi : i < n) (hj : j < m) :
    countSum A (rs.map fun r => ((r.a : Int), (r.b : Int))) rs.length (Mat.ofFn n m (countStateG seed g i j)) i j =
      .ok (sumRules A rs g i j rs.length) := by
  unfold countSum
  obtain ⟨s', hs', hP⟩ := foldlM_range_inv (σ := F64)
    (fun k s => s = sumRules A rs g i j k) rs.length (fin 0)
    (by simp [sumRules]) (f := countTerm A (rs.map fun r => ((r.a : Int), (r.b : Int)))
      (Mat.ofFn n m (countStateG seed g i j)) i j) (by
      rintro k hk s rfl
      have hr : rs[k]? = some rs[k] := List.getElem?_eq_getElem hk
      rw [sumRules_succ]
      unfold countTerm addRule
      rw [List.getElem?_map, hr]
      simp only [Option.map_some]
      by_cases hc : rs[k].a ≤ i ∧ rs[k].b ≤ j
      · rw [if_pos hc, if_pos (by omega)]
        have e1 : (i : Int) - rs[k].a = ((i - rs[k].a : Nat) : Int) := by omega
        have e2 : (j : Int) - rs[k].b = ((j - rs[k].b : Nat) : Int) := by omega
        rw [e1, e2, pyGet_ofFn _ (by omega) (by omega), Except_bind_ok]
        refine ⟨_, rfl, ?_⟩
        have hp := (hv rs[k] (List.getElem_mem hk)).1
        have hst : countStateG seed g i j (i - rs[k].a) (j - rs[k].b) = g (i - rs[k].a) (j - rs[k].b) := by
          unfold countStateG
          by_cases hs : seed (i - rs[k].a) (j - rs[k].b) = true
          · rw [if_pos hs, hg.seeded _ (by omega) _ (by omega) hs]
          · rw [if_neg hs, if_pos (by omega)]
        rw [hst]
      · rw [if_neg hc, if_neg (by omega)]
        exact ⟨_, rfl, rfl⟩)
  subst hP
  simpa using hs'

theorem countCellG (hv : ∀ r ∈ rs, r.Valid) {g : Nat → Nat → F64} (hg : CountTable A rs W seed n m g)
    {wf : WinFn} {args : WinArgs} (hw : ∀ i < n, ∀ j < m, wf.call args n m i j = .ok (W i j))
    {i j : Nat} (hi : i < n) (hj : j < m) :
    countCell A n m wf args (rs.map fun r => ((r.a : Int), (r.b : Int))) rs.length
      (Mat.ofFn n m (countStateG seed g i j)) i j = .ok (Mat.ofFn n m (countStateG seed g i (j + 1))) := by
  unfold countCell
  rw [pyGet_ofFn _ hi hj, Except_bind_ok]
  by_cases hs : seed i j = true
  · have hst : countStateG seed g i j i j = fin 1 := by simp [countStateG, hs]
    rw [hst]
    simp only [isFinite, if_true]
    congr 1
    apply ofFn_congr
    intro i' _ j' _
    unfold countStateG
    split
    · rfl
    · rename_i hs'
      by_cases hc : i' < i ∨ (i' = i ∧ j' < j)
      · rw [if_pos hc, if_pos (by omega)]
      · rw [if_neg hc, if_neg]
        rintro (h | ⟨rfl, h⟩)
        · exact hc (.inl h)
        · have : j' = j := by omega
          subst this; exact hs' hs
  · have hs : seed i j = false := by simpa using hs
    have hst : countStateG seed g i j i j = nan := by simp [countStateG, hs]
    rw [hst]
    simp only [isFinite, Bool.false_eq_true, if_false]
    rw [hw i hi j hj, Except_bind_ok]
    have upd : ∀ i' < n, ∀ j' < m, (if i' = i ∧ j' = j then g i j else countStateG seed g i j i' j') =
        countStateG seed g i (j + 1) i' j' := by
      intro i' _ j' _
      by_cases hc : i' = i ∧ j' = j
      · rw [if_pos hc]
        obtain ⟨rfl, rfl⟩ := hc
        simp [countStateG, hs]
      · rw [if_neg hc]
        unfold countStateG
        split
        · rfl
        · by_cases hc' : i' < i ∨ (i' = i ∧ j' < j)
          · rw [if_pos hc', if_pos (by omega)]
          · rw [if_neg hc', if_neg (by omega)]
    by_cases hW : W i j = true
    · rw [hW]
      simp only [Bool.true_eq_false, if_false]
      rw [countSumG hv hg hi hj, Except_bind_ok, pySet_ofFn _ _ hi hj, ← hg.inside i hi j hj hs hW]
      rw [ofFn_congr upd]
    · have hW : W i j = false := by simpa using hW
      rw [hW]
      simp only [if_true]
      rw [pySet_ofFn _ _ hi hj, ← ofFn_congr upd, hg.outside i hi j hj hs hW]

theorem countInitG (hn : 0 < n) (hm : 0 < m) (ob : Bool) (g : Nat → Nat → F64) :
    countInit n m ob = .ok (Mat.ofFn n m (countStateG (countSeed ob) g 0 0)) := by
  rw [countInit_spec hn hm ob fun _ _ => 0]
  congr 1
  apply ofFn_congr
  intro i _ j _
  simp [countState, countStateG]

/-- countPaths' matrix, in any arithmetic, is the table of its recursion. -/
theorem countMatrixG {p : StepPattern} (hp : WF p rs) (ht : TruncOK rs)
    {d : Result} (hd : AboutProblem d n m p W) (hn : 0 < n) (hm : 0 < m) {g : Nat → Nat → F64}
    (hg : CountTable A rs W (countSeed d.openBegin) n m g) :
    countMatrix A d = .ok (Mat.ofFn n m g) := by
  unfold countMatrix
  rw [hd.N, hd.M, countInitG hn hm d.openBegin g, Except_bind_ok, hd.pattern, getNPatterns_WF hp,
    Except_bind_ok]
  simp only
  rw [mkDirDeltas_WF hp ht]
  have row : ∀ i < n, (List.range m).foldlM (fun cm (jj : Nat) =>
      countCell A n m d.windowFunction d.windowArgs (rs.map fun r => ((r.a : Int), (r.b : Int))) rs.length cm i jj)
      (Mat.ofFn n m (countStateG (countSeed d.openBegin) g i 0)) =
      .ok (Mat.ofFn n m (countStateG (countSeed d.openBegin) g (i + 1) 0)) := by
    intro i hi
    obtain ⟨s', hs', hP⟩ := foldlM_range_inv (fun cm (jj : Nat) =>
      countCell A n m d.windowFunction d.windowArgs (rs.map fun r => ((r.a : Int), (r.b : Int))) rs.length cm i jj)
      (fun k s => s = Mat.ofFn n m (countStateG (countSeed d.openBegin) g i k)) m _ rfl (by
        rintro j hj s rfl
        exact ⟨_, countCellG hp.valid hg hd.window hi hj, rfl⟩)
    rw [hs', hP]
    congr 1
    apply ofFn_congr
    intro i' _ j' hj'
    unfold countStateG
    split
    · rfl
    · by_cases hc : i' < i ∨ (i' = i ∧ j' < m)
      · rw [if_pos hc, if_pos (by omega)]
      · rw [if_neg hc, if_neg (by omega)]
  obtain ⟨s', hs', hP⟩ := foldlM_range_inv (fun cm (ii : Nat) => (List.range m).foldlM (fun cm (jj : Nat) =>
      countCell A n m d.windowFunction d.windowArgs (rs.map fun r => ((r.a : Int), (r.b : Int))) rs.length cm ii jj) cm)
      (fun k s => s = Mat.ofFn n m (countStateG (countSeed d.openBegin) g k 0)) n _ rfl (by
        rintro i hi s rfl
        exact ⟨_, row i hi, rfl⟩)
  rw [hs', hP]
  congr 1
  apply ofFn_congr
  intro i hi j hj
  unfold countStateG
  split
  · rename_i hs; rw [hg.seeded i hi j hj hs]
  · rw [if_pos (.inl hi)]

/-! ### The table exists -/

/-- The recursion, with fuel. -/
def countRec (A : Arith) (rs : List Rule) (W seed : Nat → Nat → Bool) : Nat → Nat → Nat → F64
  | 0, _, _ => nan
  | k + 1, i, j =>
    if seed i j then fin 1 else if W i j = false then fin 0 else sumRules A rs (countRec A rs W seed k) i j rs.length

theorem sumRules_congr (hv : ∀ r ∈ rs, r.Valid) {g g' : Nat → Nat → F64} {i j : Nat}
    (h : ∀ i' ≤ i, ∀ j' ≤ j, i' + j' < i + j → g i' j' = g' i' j') : ∀ k,
    sumRules A rs g i j k = sumRules A rs g' i j k := by
  intro k
  induction k with
  | zero => rfl
  | succ k ih =>
    rw [sumRules_succ, sumRules_succ, ih]
    unfold addRule
    cases hr : rs[k]? with
    | none => rfl
    | some r =>
      simp only
      split
      · rename_i hc
        have hp := (hv r (List.mem_of_getElem? hr)).1
        rw [h (i - r.a) (by omega) (j - r.b) (by omega) (by omega)]
      · rfl

theorem countRec_stable (hv : ∀ r ∈ rs, r.Valid) : ∀ N i j k k', i + j = N → N < k → N < k' →
    countRec A rs W seed k i j = countRec A rs W seed k' i j := by
  intro N
  induction N using Nat.strong_induction_on with
  | _ N ih =>
    intro i j k k' hN hk hk'
    obtain ⟨k, rfl⟩ : ∃ t, k = t + 1 := ⟨k - 1, by omega⟩
    obtain ⟨k', rfl⟩ : ∃ t, k' = t + 1 := ⟨k' - 1, by omega⟩
    unfold countRec
    split
    · rfl
    · split
      · rfl
      · exact sumRules_congr hv (fun i' _ j' _ hlt => ih (i' + j') (by omega) i' j' k k' rfl (by omega) (by omega)) _

theorem exists_countTable (A : Arith) (W seed : Nat → Nat → Bool) (n m : Nat) (hv : ∀ r ∈ rs, r.Valid) :
    ∃ g, CountTable A rs W seed n m g := by
  refine ⟨fun i j => countRec A rs W seed (i + j + 1) i j, ?_, ?_, ?_⟩
  · intro i _ j _ h; simp [countRec, h]
  · intro i _ j _ h1 h2; simp [countRec, h1, h2]
  · intro i _ j _ h1 h2
    show countRec A rs W seed (i + j + 1) i j = _
    conv_lhs => unfold countRec
    simp only [h1, h2, Bool.false_eq_true, Bool.true_eq_false, if_false]
    exact sumRules_congr hv (fun i' _ j' _ hlt => countRec_stable hv _ i' j' _ _ rfl (by omega) (by omega)) _

/-! ### Rounding error -/

/-- What rounding does to natural numbers: an infinity from `H` on at the earliest, otherwise another natural number, a
fixed point of rounding, within relative error `u`. -/
structure RoundsNat (A : Arith) (u H : ℚ) : Prop where
  u_nonneg : 0 ≤ u
  u_le : u ≤ 1
  one : A.rnd 1 = fin 1
  err : ∀ k : Nat, (A.rnd k = pinf ∧ H ≤ k) ∨
    ∃ v : Nat, A.rnd k = fin v ∧ (1 - u) * k ≤ v ∧ (v : ℚ) ≤ (1 + u) * k ∧ A.rnd v = fin v

/-- `v` approximates `c` after at most `e` roundings. -/
def CloseCount (A : Arith) (u H : ℚ) (e c : Nat) (v : F64) : Prop :=
  (v = pinf ∧ H ≤ (1 + u) ^ e * c) ∨
    ∃ q : Nat, v = fin q ∧ (1 - u) ^ e * c ≤ q ∧ (q : ℚ) ≤ (1 + u) ^ e * c ∧ A.rnd q = fin q

variable {u H : ℚ}

theorem CloseCount.mono (h1 : 0 ≤ u) (h2 : u ≤ 1) {e e' c : Nat} {v : F64} (hle : e ≤ e') (h : CloseCount A u H e c v) :
    CloseCount A u H e' c v := by
  have hc : (0 : ℚ) ≤ c := Nat.cast_nonneg c
  have hup : (1 + u) ^ e * (c : ℚ) ≤ (1 + u) ^ e' * c :=
    mul_le_mul_of_nonneg_right (pow_le_pow_right₀ (by linarith) hle) hc
  rcases h with ⟨rfl, h⟩ | ⟨q, rfl, a1, a2, a3⟩
  · exact .inl ⟨rfl, _root_.le_trans h hup⟩
  · exact .inr ⟨q, rfl, _root_.le_trans (mul_le_mul_of_nonneg_right
      (pow_le_pow_of_le_one (by linarith) (by linarith) hle) hc) a1, _root_.le_trans a2 hup, a3⟩

theorem CloseCount.zero (e : Nat) : CloseCount A u H e 0 (fin 0) :=
  .inr ⟨0, by simp, by simp, by simp, by simpa using A.rnd_zero⟩

theorem CloseCount.one (hA : RoundsNat A u H) (e : Nat) : CloseCount A u H e 1 (fin 1) :=
  CloseCount.mono hA.u_nonneg hA.u_le (Nat.zero_le _) (.inr ⟨1, by simp, by simp, by simp, by simpa using hA.one⟩)

theorem CloseCount.of_zero {e : Nat} {v : F64} (hH : 0 < H) (h : CloseCount A u H e 0 v) : v = fin 0 := by
  rcases h with ⟨_, h⟩ | ⟨q, rfl, _, h, _⟩
  · rw [Nat.cast_zero, mul_zero] at h; exact absurd h (not_le.2 hH)
  · rw [Nat.cast_zero, mul_zero] at h
    have : q = 0 := by
      have : (q : ℚ) = 0 := _root_.le_antisymm h (Nat.cast_nonneg q)
      exact_mod_cast this
    rw [this]; simp

/-- Adding zero changes nothing. -/
theorem CloseCount.add_zero {e c : Nat} {v : F64} (h : CloseCount A u H e c v) : A.add v (fin 0) = v ∧ A.add (fin 0) v = v := by
  rcases h with ⟨rfl, _⟩ | ⟨q, rfl, _, _, h⟩
  · exact ⟨rfl, rfl⟩
  · constructor
    · show A.rnd ((q : ℚ) + 0) = _
      rw [_root_.add_zero, h]
    · show A.rnd (0 + (q : ℚ)) = _
      rw [zero_add, h]

theorem CloseCount.add (hA : RoundsNat A u H) {e c c' : Nat} {v v' : F64} (h : CloseCount A u H e c v)
    (h' : CloseCount A u H e c' v') : CloseCount A u H (e + 1) (c + c') (A.add v v') := by
  have hu := hA.u_nonneg
  have hu1 := hA.u_le
  have hpw : (0 : ℚ) ≤ (1 + u) ^ e := pow_nonneg (by linarith) _
  have hc : (0 : ℚ) ≤ c := Nat.cast_nonneg c
  have hc' : (0 : ℚ) ≤ c' := Nat.cast_nonneg c'
  have hstep : (1 + u) ^ e * ((c + c' : Nat) : ℚ) ≤ (1 + u) ^ (e + 1) * ((c + c' : Nat) : ℚ) :=
    mul_le_mul_of_nonneg_right (pow_le_pow_right₀ (by linarith) (by omega)) (Nat.cast_nonneg _)
  have hl : (1 + u) ^ e * (c : ℚ) ≤ (1 + u) ^ e * ((c + c' : Nat) : ℚ) :=
    mul_le_mul_of_nonneg_left (by push_cast; linarith) hpw
  have hr : (1 + u) ^ e * (c' : ℚ) ≤ (1 + u) ^ e * ((c + c' : Nat) : ℚ) :=
    mul_le_mul_of_nonneg_left (by push_cast; linarith) hpw
  rcases h with ⟨rfl, h⟩ | ⟨q, rfl, a1, a2, a3⟩
  · refine .inl ⟨?_, by linarith⟩
    rcases h' with ⟨rfl, _⟩ | ⟨q', rfl, _⟩ <;> rfl
  · rcases h' with ⟨rfl, h'⟩ | ⟨q', rfl, a1', a2', a3'⟩
    · exact .inl ⟨rfl, by linarith⟩
    · have e0 : A.add (fin (q : ℚ)) (fin (q' : ℚ)) = A.rnd ((q + q' : Nat) : ℚ) := by
        show A.rnd ((q : ℚ) + q') = _
        push_cast; rfl
      have hlo : (1 - u) ^ e * ((c + c' : Nat) : ℚ) ≤ ((q + q' : Nat) : ℚ) := by push_cast; linarith
      have hhi : ((q + q' : Nat) : ℚ) ≤ (1 + u) ^ e * ((c + c' : Nat) : ℚ) := by push_cast; linarith
      rw [e0]
      rcases hA.err (q + q') with ⟨b0, b1⟩ | ⟨w, b0, b1, b2, b3⟩
      · rw [b0]; exact .inl ⟨rfl, by linarith⟩
      · rw [b0]
        refine .inr ⟨w, rfl, ?_, ?_, b3⟩
        · rw [pow_succ]
          have := mul_le_mul_of_nonneg_left hlo (sub_nonneg.2 hu1)
          linarith
        · rw [pow_succ]
          have := mul_le_mul_of_nonneg_left hhi (show 0 ≤ 1 + u by linarith)
          linarith

theorem sum_contrib_succ (f : Nat → Nat → Nat) (i j k : Nat) :
    ((List.range (k + 1)).map (contrib rs f i j)).sum =
      ((List.range k).map (contrib rs f i j)).sum + contrib rs f i j k := by
  rw [List.range_succ, List.map_append, List.sum_append]; simp

/-- Every cell of the table is the exact count up to `|rules| * (i + j)` roundings. -/
theorem CountTable.close (hA : RoundsNat A u H) (hv : ∀ r ∈ rs, r.Valid) {g : Nat → Nat → F64}
    (hg : CountTable A rs W seed n m g) {f : Nat → Nat → Nat}
    (h1 : ∀ i j, seed i j = true → f i j = 1)
    (h2 : ∀ i j, seed i j = false → W i j = false → f i j = 0)
    (h3 : ∀ i j, seed i j = false → W i j = true → f i j = ((List.range rs.length).map (contrib rs f i j)).sum) :
    ∀ N i j, i + j = N → i < n → j < m → CloseCount A u H (rs.length * (i + j)) (f i j) (g i j) := by
  have hu := hA.u_nonneg
  have hu1 := hA.u_le
  intro N
  induction N using Nat.strong_induction_on with
  | _ N ih =>
    intro i j hN hi hj
    by_cases hs : seed i j = true
    · rw [hg.seeded i hi j hj hs, h1 i j hs]
      exact CloseCount.one hA _
    · have hs : seed i j = false := by simpa using hs
      by_cases hW : W i j = true
      · rw [hg.inside i hi j hj hs hW, h3 i j hs hW]
        have key : ∀ k ≤ rs.length, CloseCount A u H (rs.length * (i + j - 1) + k)
            (((List.range k).map (contrib rs f i j)).sum) (sumRules A rs g i j k) := by
          intro k
          induction k with
          | zero => intro _; exact CloseCount.zero _
          | succ k ihk =>
            intro hk
            have ihk := ihk (by omega)
            have hr : rs[k]? = some rs[k] := List.getElem?_eq_getElem hk
            rw [sumRules_succ, sum_contrib_succ]
            unfold addRule
            rw [hr]
            simp only
            have hck : contrib rs f i j k = if rs[k].a ≤ i ∧ rs[k].b ≤ j then f (i - rs[k].a) (j - rs[k].b) else 0 := by
              unfold contrib; rw [hr]
            rw [hck]
            by_cases hc : rs[k].a ≤ i ∧ rs[k].b ≤ j
            · rw [if_pos hc, if_pos hc]
              have hp := (hv rs[k] (List.getElem_mem hk)).1
              have ho := ih (i - rs[k].a + (j - rs[k].b)) (by omega) _ _ rfl (by omega) (by omega)
              refine ihk.add hA (ho.mono hu hu1 ?_)
              exact _root_.le_trans (Nat.mul_le_mul_left _ (m := i + j - 1) (by omega)) (by omega)
            · rw [if_neg hc, if_neg hc, Nat.add_zero]
              exact ihk.mono hu hu1 (by omega)
        by_cases h00 : i + j = 0
        · -- no rule reaches (0,0): all contributions vanish
          have hi0 : i = 0 := by omega
          have hj0 : j = 0 := by omega
          subst hi0; subst hj0
          have : ∀ k, sumRules A rs g 0 0 k = fin 0 ∧ ((List.range k).map (contrib rs f 0 0)).sum = 0 := by
            intro k
            induction k with
            | zero => exact ⟨rfl, rfl⟩
            | succ k ihk =>
              rw [sumRules_succ, sum_contrib_succ, ihk.1, ihk.2]
              unfold addRule contrib
              cases hr : rs[k]? with
              | none => exact ⟨rfl, rfl⟩
              | some r =>
                have hp := (hv r (List.mem_of_getElem? hr)).1
                simp only
                rw [if_neg (by omega), if_neg (by omega)]
                exact ⟨rfl, rfl⟩
          rw [(this _).1, (this _).2]
          exact CloseCount.zero _
        · refine (key rs.length (Nat.le_refl _)).mono hu hu1 ?_
          have e : i + j = (i + j - 1) + 1 := by omega
          conv_rhs => rw [e, Nat.mul_add, Nat.mul_one]
      · have hW : W i j = false := by simpa using hW
        rw [hg.outside i hi j hj hs hW, h2 i j hs hW]
        exact CloseCount.zero _

/-- A permutation of the images comes from a permutation of the elements. -/
theorem perm_map_split {α β : Type} {f : α → β} {z : List α} {l : List β} (h : (z.map f).Perm l) :
    ∃ z', z.Perm z' ∧ z'.map f = l := by
  generalize hy : z.map f = y at h
  induction h generalizing z with
  | nil => exact ⟨z, .refl _, hy⟩
  | cons x _ ih =>
    obtain ⟨a, t, rfl, rfl, rfl⟩ := List.map_eq_cons_iff.1 hy
    obtain ⟨t', h1, h2⟩ := ih rfl
    exact ⟨a :: t', h1.cons a, by simp [h2]⟩
  | swap x y l =>
    obtain ⟨a, t, rfl, rfl, ht⟩ := List.map_eq_cons_iff.1 hy
    obtain ⟨b, t, rfl, rfl, rfl⟩ := List.map_eq_cons_iff.1 ht
    exact ⟨b :: a :: t, .swap _ _ _, by simp⟩
  | trans _ _ ih1 ih2 =>
    obtain ⟨z1, a1, a2⟩ := ih1 hy
    obtain ⟨z2, b1, b2⟩ := ih2 a2
    exact ⟨z2, a1.trans b1, b2⟩

/-- Adding up approximations in any order, each once: one more rounding per element but the first. -/
theorem SumOf.close (hA : RoundsNat A u H) (hH : 0 < H) {e : Nat} {l : List F64} {v : F64} (h : SumOf A l v) :
    ∀ z : List (Nat × F64), l.Perm (z.map (·.2)) → (∀ x ∈ z, CloseCount A u H e x.1 x.2) →
      CloseCount A u H (e + (z.length - 1)) (z.map (·.1)).sum v := by
  induction h with
  | zero =>
    intro z hz _
    have : z = [] := by simpa using List.nil_perm.1 hz
    subst this
    exact CloseCount.zero _
  | one x =>
    intro z hz hc
    obtain ⟨y, rfl⟩ : ∃ y, z = [y] := by
      have := hz.length_eq
      simp only [List.length_cons, List.length_nil, List.length_map] at this
      exact List.length_eq_one_iff.1 this.symm
    simp only [List.map_cons, List.map_nil] at hz
    have e1 : x = y.2 := by simpa using List.singleton_perm.1 hz
    subst e1
    simpa using hc y (by simp)
  | @add l l1 l2 v1 v2 _ _ hp ih1 ih2 =>
    intro z hz hc
    have hp2 : (z.map (·.2)).Perm (l1 ++ l2) := hz.symm.trans hp
    obtain ⟨z', hz', em⟩ : ∃ z', z.Perm z' ∧ z'.map (·.2) = l1 ++ l2 := perm_map_split hp2
    obtain ⟨z1, z2, rfl, e1, e2⟩ := List.map_eq_append_iff.1 em
    have c1 := ih1 z1 (by rw [e1]) fun x hx => hc x (hz'.mem_iff.2 (by simp [hx]))
    have c2 := ih2 z2 (by rw [e2]) fun x hx => hc x (hz'.mem_iff.2 (by simp [hx]))
    have hs : (z.map (·.1)).sum = (z1.map (·.1)).sum + (z2.map (·.1)).sum := by
      rw [(hz'.map _).sum_eq, List.map_append, List.sum_append]
    have hlen : z.length = z1.length + z2.length := by rw [hz'.length_eq, List.length_append]
    rw [hs, hlen]
    rcases Nat.eq_zero_or_pos z1.length with h0 | h0
    · rw [List.length_eq_zero_iff] at h0; subst h0
      have := c1.of_zero hH
      subst this
      rw [c2.add_zero.2]
      simpa using c2
    · rcases Nat.eq_zero_or_pos z2.length with h0' | h0'
      · rw [List.length_eq_zero_iff] at h0'; subst h0'
        have := c2.of_zero hH
        subst this
        rw [c1.add_zero.1]
        simpa using c1
      · refine (CloseCount.add hA (c1.mono hA.u_nonneg hA.u_le (e' := e + (z1.length + z2.length - 2)) ?_) (c2.mono hA.u_nonneg hA.u_le ?_)).mono
          hA.u_nonneg hA.u_le ?_ <;> omega

end DTW
