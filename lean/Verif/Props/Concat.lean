import Verif.Props.Invariance
import Verif.Props.Witnesses

/-!
# C57: concatenation, for every pattern with a plain diagonal step, inside windows
-/

namespace DTW
open F64

variable {a a1 a2 : Args} {ℓ ℓ1 ℓ2 : Nat → Nat → ℚ} {W W1 W2 : Nat → Nat → Bool}
  {p : StepPattern} {rs : List Rule} {r r1 r2 : Result}

theorem charge_add (ℓ : Nat → Nat → ℚ) (r : Rule) (i j : Nat) (c e : ℚ) :
    ∃ c', charge Arith.exact (fun i j => fin (ℓ i j)) r i j (fin c) = fin c' ∧
      charge Arith.exact (fun i j => fin (ℓ i j)) r i j (fin (e + c)) = fin (e + c') := by
  unfold charge
  generalize r.terms = ts
  induction ts generalizing c with
  | nil => exact ⟨c, rfl, rfl⟩
  | cons t ts ih =>
    simp only [List.foldl_cons]
    obtain ⟨c', h1, h2⟩ := ih (c + t.w * ℓ (i - t.di) (j - t.dj))
    refine ⟨c', ?_, ?_⟩
    · rw [← h1]; simp [Arith.mac, Arith.exact, Arith.add, Arith.mul, Arith.mulWith]
    · rw [← h2]; simp [Arith.mac, Arith.exact, Arith.add, Arith.mul, Arith.mulWith, add_assoc]

theorem charge_block {L L2 : Nat → Nat → F64} {A : Arith} {n1 m1 : Nat} {r : Rule} {i j : Nat} (hv : r.Valid)
    (hL : ∀ i' ≤ i + r.a, ∀ j' ≤ j + r.b, L (n1 + i') (m1 + j') = L2 i' j') (c : F64) :
    charge A L r (n1 + i + r.a) (m1 + j + r.b) c = charge A L2 r (i + r.a) (j + r.b) c := by
  unfold charge
  have hv' := hv.2
  generalize r.terms = ts at hv'
  induction ts generalizing c with
  | nil => rfl
  | cons t ts ih =>
    have ht := hv' t (by simp)
    simp only [List.foldl_cons]
    rw [show n1 + i + r.a - t.di = n1 + (i + r.a - t.di) by omega,
      show m1 + j + r.b - t.dj = m1 + (j + r.b - t.dj) by omega,
      hL _ (by omega) _ (by omega)]
    exact ih _ fun t ht => hv' t (by simp [ht])

/-- A path of the first block, a diagonal step, a path of the second block. -/
theorem WarpPath.concat {n1 m1 n2 m2 k : Nat} {w : ℚ} (hn1 : 0 < n1) (hm1 : 0 < m1) (hn2 : 0 < n2) (hm2 : 0 < m2)
    (hv : ∀ r ∈ rs, r.Valid) (hk : rs[k]? = some ⟨1, 1, [⟨0, 0, w⟩]⟩)
    (hb : ∀ i < n2, ∀ j < m2, ℓ (n1 + i) (m1 + j) = ℓ2 i j)
    (hW : ∀ i < n2, ∀ j < m2, (i = 0 ∧ j = 0) ∨ W2 i j = true → W (n1 + i) (m1 + j) = true)
    {ks1 : List Int} {c1 : ℚ}
    (hp : WarpPath Arith.exact rs W (fun i j => fin (ℓ i j)) ks1 (n1 - 1) (m1 - 1) (fin c1)) {ks i j c}
    (h2 : WarpPath Arith.exact rs W2 (fun i j => fin (ℓ2 i j)) ks i j c) :
    i < n2 → j < m2 → ∃ c', c = fin c' ∧
      WarpPath Arith.exact rs W (fun i j => fin (ℓ i j)) (ks1 ++ ((k : Int) + 1) :: ks) (n1 + i) (m1 + j)
        (fin (c1 + (w - 1) * ℓ2 0 0 + c')) := by
  induction h2 with
  | start =>
    intro _ _
    refine ⟨_, rfl, ?_⟩
    have hs := WarpPath.step k _ hp hk (by
      rw [show n1 - 1 + 1 = n1 + 0 by omega, show m1 - 1 + 1 = m1 + 0 by omega]
      exact hW 0 hn2 0 hm2 (.inl ⟨rfl, rfl⟩))
    simp only at hs
    rw [show n1 - 1 + 1 = n1 + 0 by omega, show m1 - 1 + 1 = m1 + 0 by omega] at hs
    have e : charge Arith.exact (fun i j => fin (ℓ i j)) ⟨1, 1, [⟨0, 0, w⟩]⟩ (n1 + 0) (m1 + 0) (fin c1) =
        fin (c1 + (w - 1) * ℓ2 0 0 + ℓ2 0 0) := by
      rw [← hb 0 hn2 0 hm2]
      simp only [charge, List.foldl_cons, List.foldl_nil, Nat.sub_zero, Nat.add_zero]
      simp only [Arith.mac, Arith.exact, Arith.add, Arith.mul, Arith.mulWith]
      simp only [Bool.false_eq_true, if_false]
      congr 1
      ring
    rw [e] at hs
    exact hs
  | step q rl hp2 hq hw ih =>
    rename_i ks i j c
    intro hi hj
    obtain ⟨c', rfl, ih'⟩ := ih (by omega) (by omega)
    obtain ⟨c'', e1, e2⟩ := charge_add ℓ2 rl (i + rl.a) (j + rl.b) c' (c1 + (w - 1) * ℓ2 0 0)
    refine ⟨c'', e1, ?_⟩
    have hs := WarpPath.step q rl ih' hq (by
      rw [show n1 + i + rl.a = n1 + (i + rl.a) by omega, show m1 + j + rl.b = m1 + (j + rl.b) by omega]
      exact hW _ hi _ hj (.inr hw))
    rw [charge_block (L2 := fun i j => fin (ℓ2 i j)) (hv rl (List.mem_of_getElem? hq))
      (fun i' hi' j' hj' => by rw [hb i' (by omega) j' (by omega)]), e2] at hs
    rw [show n1 + (i + rl.a) = n1 + i + rl.a by omega, show m1 + (j + rl.b) = m1 + j + rl.b by omega]
    simpa using hs

theorem WarpPath.block {A : Arith} {L L1 : Nat → Nat → F64} {n1 m1 : Nat} (hv : ∀ r ∈ rs, r.Valid)
    (hb : ∀ i < n1, ∀ j < m1, L i j = L1 i j) (hW : ∀ i < n1, ∀ j < m1, W1 i j = true → W i j = true) {ks i j c}
    (h : WarpPath A rs W1 L1 ks i j c) : i < n1 → j < m1 → WarpPath A rs W L ks i j c := by
  induction h with
  | start =>
    intro hi hj
    rw [← hb 0 hi 0 hj]
    exact .start
  | step q rl hp2 hq hw ih =>
    rename_i ks i j c
    intro hi hj
    have hs := WarpPath.step q rl (ih (by omega) (by omega)) hq (hW _ hi _ hj hw)
    have := charge_block (A := A) (L := L) (L2 := L1) (n1 := 0) (m1 := 0) (i := i) (j := j)
      (hv rl (List.mem_of_getElem? hq))
      (fun i' hi' j' hj' => by rw [Nat.zero_add, Nat.zero_add]; exact hb i' (by omega) j' (by omega)) c
    rw [Nat.zero_add, Nat.zero_add] at this
    rwa [this] at hs

/-- C57, concatenation, for every step pattern that has a plain diagonal step of weight `w` (all the bundled ones do,
see `C57_diagonal_weights`), and inside windows.  `ℓ` and `W` are the local costs and the window of the concatenated
problem; their two diagonal blocks are those of the parts.  If both parts can be aligned, so can the concatenations,
at a cost of at most the sum of the two distances corrected for the weight of the joining step: the first pair of the
second part is charged `w` times instead of once. -/
theorem C57_concatenation {n1 m1 n2 m2 : Nat} {w : ℚ}
    (h : Problem a (n1 + n2) (m1 + m2) (fun i j => fin (ℓ i j)) W p rs)
    (h1 : Problem a1 n1 m1 (fun i j => fin (ℓ1 i j)) W1 p rs)
    (h2 : Problem a2 n2 m2 (fun i j => fin (ℓ2 i j)) W2 p rs)
    (hdiag : ⟨1, 1, [⟨0, 0, w⟩]⟩ ∈ rs)
    (ho : a.openBegin = false ∧ a.openEnd = false) (ho1 : a1.openBegin = false ∧ a1.openEnd = false)
    (ho2 : a2.openBegin = false ∧ a2.openEnd = false)
    (hb1 : ∀ i < n1, ∀ j < m1, ℓ i j = ℓ1 i j) (hb2 : ∀ i < n2, ∀ j < m2, ℓ (n1 + i) (m1 + j) = ℓ2 i j)
    (hW1 : ∀ i < n1, ∀ j < m1, W1 i j = true → W i j = true)
    (hW2 : ∀ i < n2, ∀ j < m2, (i = 0 ∧ j = 0) ∨ W2 i j = true → W (n1 + i) (m1 + j) = true)
    (hr1 : dtw Arith.exact a1 = .ok r1) (hr2 : dtw Arith.exact a2 = .ok r2) :
    ∃ r d d1 d2, dtw Arith.exact a = .ok r ∧ r.distance = fin d ∧ r1.distance = fin d1 ∧ r2.distance = fin d2 ∧
      d ≤ d1 + d2 + (w - 1) * ℓ2 0 0 := by
  obtain ⟨k, hk⟩ := List.mem_iff_getElem?.1 hdiag
  have hn1 := h1.n_pos
  have hm1 := h1.m_pos
  have hn2 := h2.n_pos
  have hm2 := h2.m_pos
  obtain ⟨⟨ks1, p1⟩, _⟩ := C01_distance_optimal h1 ho1.1 ho1.2 hr1
  obtain ⟨⟨ks2, p2⟩, _⟩ := C01_distance_optimal h2 ho2.1 ho2.2 hr2
  obtain ⟨d1, e1⟩ := p1.finite
  rw [e1] at p1
  obtain ⟨d2, e2, hp⟩ := WarpPath.concat hn1 hm1 hn2 hm2 h.wf.valid hk hb2 hW2
    (p1.block h.wf.valid (fun i hi j hj => by rw [hb1 i hi j hj]) hW1 (by omega) (by omega)) p2
    (by omega) (by omega)
  rw [show n1 + (n2 - 1) = n1 + n2 - 1 by omega, show m1 + (m2 - 1) = m1 + m2 - 1 by omega] at hp
  obtain ⟨r, hr⟩ := (C02_no_path_iff (A := Arith.exact) h ho.1 ho.2).2.2 (.inl ⟨_, _, hp, usable_fin _⟩)
  obtain ⟨⟨ks, p0⟩, hmin⟩ := C01_distance_optimal h ho.1 ho.2 hr
  obtain ⟨d, e⟩ := p0.finite
  refine ⟨r, d, d1, d2, hr, e, e1, e2, ?_⟩
  have := hmin _ _ hp (by simp)
  rw [e] at this
  have : d ≤ d1 + (w - 1) * ℓ2 0 0 + d2 := by simpa [F64.le] using this
  linarith

/-- C57: every bundled step pattern has a plain diagonal step; its weight is 2 for the symmetric normalizable forms
(`symmetric2`, `symmetricP0`, ..., the `d` slope weighting), 3 for `mori2006`, 1 otherwise (minimum variance matching
included), the broken `_symmetricVelichkoZagoruyko` apart. -/
theorem C57_diagonal_weights :
    (∀ x ∈ Pat.table, ∃ w : ℚ, ⟨1, 1, [⟨0, 0, w⟩]⟩ ∈ rulesOf x.2 ∧
      w = (if x.1 ∈ ["symmetric2", "symmetricP0", "symmetricP05", "symmetricP1", "symmetricP2", "typeId", "typeIds",
          "typeIId"] then 2
        else if x.1 = "mori2006" then 3 else if x.1 = "_symmetricVelichkoZagoruyko" then -1001 / 1000 else 1)) ∧
    ∀ e : Nat, 1 ≤ e → ⟨1, 1, [⟨0, 0, 1⟩]⟩ ∈ mvmRules e := by
  refine ⟨?_, ?_⟩
  · have key : (Pat.table.all fun x => decide (⟨1, 1, [⟨0, 0, (if x.1 ∈ ["symmetric2", "symmetricP0", "symmetricP05",
          "symmetricP1", "symmetricP2", "typeId", "typeIds", "typeIId"] then 2
        else if x.1 = "mori2006" then 3 else if x.1 = "_symmetricVelichkoZagoruyko" then -1001 / 1000 else 1)⟩]⟩ ∈
          rulesOf x.2)) = true := by decide +kernel
    intro x hx
    exact ⟨_, by simpa only [decide_eq_true_eq] using List.all_eq_true.1 key x hx, rfl⟩
  · intro e he
    unfold mvmRules
    simp only [List.mem_map, List.mem_range]
    exact ⟨0, by omega, rfl⟩

/-- The hypotheses hold for every bundled pattern and every pair of cost blocks that can be aligned. -/
example (q : String × StepPattern) (hq : q ∈ Pat.table) (ℓ : Nat → Nat → ℚ) {r1 r2 : Result}
    (hr1 : dtw Arith.exact (Ex.call 3 2 (fun i j => fin (ℓ i j)) q.1) = .ok r1)
    (hr2 : dtw Arith.exact (Ex.call 2 3 (fun i j => fin (ℓ (3 + i) (2 + j))) q.1) = .ok r2) :
    ∃ w r d d1 d2, dtw Arith.exact (Ex.call (3 + 2) (2 + 3) (fun i j => fin (ℓ i j)) q.1) = .ok r ∧
      r.distance = fin d ∧ r1.distance = fin d1 ∧ r2.distance = fin d2 ∧ d ≤ d1 + d2 + (w - 1) * ℓ (3 + 0) (2 + 0) := by
  obtain ⟨w, hw, _⟩ := C57_diagonal_weights.1 q hq
  exact ⟨w, C57_concatenation (bundled_problem (by decide) (by decide) (by decide) _ q hq)
    (bundled_problem (by decide) (by decide) (by decide) _ q hq)
    (bundled_problem (by decide) (by decide) (by decide) (fun i j => fin (ℓ (3 + i) (2 + j))) q hq) hw
    ⟨rfl, rfl⟩ ⟨rfl, rfl⟩ ⟨rfl, rfl⟩ (fun _ _ _ _ => rfl) (fun _ _ _ _ => rfl) (fun _ _ _ _ _ => rfl)
    (fun _ _ _ _ _ => rfl) hr1 hr2⟩

/-- Two calls of `dtw`, and the call on the concatenations, with `symmetric2`: the bound
`d1 + d2 + ℓ2 0 0` is attained. -/
example : (dtw Arith.exact (absCall [0, 1] [0, 1] "symmetric2")).toOption.map (·.distance) = some (fin 0) ∧
    (dtw Arith.exact (absCall [9, 5] [7, 5] "symmetric2")).toOption.map (·.distance) = some (fin 2) ∧
    (dtw Arith.exact (absCall [0, 1, 9, 5] [0, 1, 7, 5] "symmetric2")).toOption.map (·.distance) = some (fin 4) ∧
    absCost [0, 1, 9, 5] [0, 1, 7, 5] (2 + 0) (2 + 0) = 2 := by decide +kernel

end DTW
