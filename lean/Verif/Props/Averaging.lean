import Verif.Props.Metrics

/-!
# C94: averaging series

Several series are aligned with one template and every sample of the template is replaced by the mean of the samples matched to it ("DTW
barycenter averaging", what `index1` and `index2` are used for).  The sum of the distances does not grow.
-/

namespace DTW
open F64

variable {rs : List Rule} {p : StepPattern} {o : Args} {n m K d : Nat} {q : String × StepPattern}

/-! ### What an alignment charges -/

/-- The cells charged by the rules `ks` applied from `(i,j)`: weight, query element, reference element. -/
def chargedFrom (rs : List Rule) : Nat → Nat → List Int → List (ℚ × Nat × Nat)
  | _, _, [] => []
  | i, j, k :: ks =>
    match rs[(k - 1).toNat]? with
    | some r => r.terms.map (fun t => (t.w, i + r.a - t.di, j + r.b - t.dj)) ++ chargedFrom rs (i + r.a) (j + r.b) ks
    | none => []

/-- The cells charged by an alignment, by its `stepsTaken`: the first pair with weight 1, then those of the rules. -/
def chargedCells (rs : List Rule) (ks : List Int) : List (ℚ × Nat × Nat) := (1, 0, 0) :: chargedFrom rs 0 0 ks

/-- Weighted sum of `ℓ` over a list of charged cells. -/
def cellCharge (ℓ : Nat → Nat → ℚ) (l : List (ℚ × Nat × Nat)) : ℚ := (l.map fun c => c.1 * ℓ c.2.1 c.2.2).sum

/-- What is charged for reference element `j` alone. -/
def chargeAt (ℓ : Nat → Nat → ℚ) (l : List (ℚ × Nat × Nat)) (j : Nat) : ℚ := cellCharge ℓ (l.filter fun c => c.2.2 = j)

theorem WarpPath.charged_cells {W : Nat → Nat → Bool} {ℓ : Nat → Nat → ℚ} {ks : List Int} {i j : Nat} {c : F64}
    (h : WarpPath Arith.exact rs W (fun i j => fin (ℓ i j)) ks i j c) :
    (∀ tl, chargedCells rs (ks ++ tl) = chargedCells rs ks ++ chargedFrom rs i j tl) ∧
    c = fin (cellCharge ℓ (chargedCells rs ks)) ∧ ∀ z ∈ chargedCells rs ks, z.2.1 ≤ i ∧ z.2.2 ≤ j := by
  induction h with
  | start => exact ⟨fun tl => rfl, by simp [chargedCells, chargedFrom, cellCharge], by simp [chargedCells, chargedFrom]⟩
  | @step ks i j c k q _ hq _ ih =>
    obtain ⟨e, rfl, hz⟩ := ih
    have e1 : ∀ tl, chargedFrom rs i j (((k : Int) + 1) :: tl) =
        q.terms.map (fun t => (t.w, i + q.a - t.di, j + q.b - t.dj)) ++ chargedFrom rs (i + q.a) (j + q.b) tl := by
      intro tl
      rw [chargedFrom]
      simp [hq]
    have e2 : chargedCells rs (ks ++ [(k : Int) + 1]) =
        chargedCells rs ks ++ q.terms.map (fun t => (t.w, i + q.a - t.di, j + q.b - t.dj)) := by
      rw [e, e1]; simp [chargedFrom]
    refine ⟨fun tl => ?_, ?_, ?_⟩
    · rw [e2, List.append_assoc, List.append_assoc, List.singleton_append, e, e1]
    · rw [charge_sum, e2]
      unfold cellCharge
      rw [List.map_append, List.sum_append, List.map_map]
      rfl
    · rw [e2]
      intro z hm
      rcases List.mem_append.1 hm with hm | hm
      · have := hz z hm
        omega
      · obtain ⟨t, -, rfl⟩ := List.mem_map.1 hm
        exact ⟨Nat.sub_le _ _, Nat.sub_le _ _⟩

theorem WarpPath.recharge {W : Nat → Nat → Bool} {ℓ ℓ' : Nat → Nat → ℚ} {ks : List Int} {i j : Nat} {c : F64}
    (h : WarpPath Arith.exact rs W (fun i j => fin (ℓ i j)) ks i j c) :
    WarpPath Arith.exact rs W (fun i j => fin (ℓ' i j)) ks i j (fin (cellCharge ℓ' (chargedCells rs ks))) := by
  have : ∃ c', WarpPath Arith.exact rs W (fun i j => fin (ℓ' i j)) ks i j c' := by
    induction h with
    | start => exact ⟨_, .start⟩
    | step k q _ hq hW ih =>
      obtain ⟨c', hc'⟩ := ih
      exact ⟨_, .step k q hc' hq hW⟩
  obtain ⟨c', hc'⟩ := this
  have e := hc'.charged_cells.2.1
  rwa [e] at hc'

theorem cellCharge_columns (ℓ : Nat → Nat → ℚ) (l : List (ℚ × Nat × Nat)) (h : ∀ c ∈ l, c.2.2 < m) :
    cellCharge ℓ l = ∑ j ∈ Finset.range m, chargeAt ℓ l j := by
  induction l with
  | nil => simp [cellCharge, chargeAt]
  | cons c l ih =>
    have ih := ih fun c hc => h c (by simp [hc])
    have e : ∀ j, chargeAt ℓ (c :: l) j = (if c.2.2 = j then c.1 * ℓ c.2.1 c.2.2 else 0) + chargeAt ℓ l j := by
      intro j
      unfold chargeAt
      by_cases hj : c.2.2 = j
      · rw [List.filter_cons_of_pos (by simpa using hj), if_pos hj]; simp [cellCharge]
      · rw [List.filter_cons_of_neg (by simpa using hj), if_neg hj, zero_add]
    have e0 : cellCharge ℓ (c :: l) = c.1 * ℓ c.2.1 c.2.2 + cellCharge ℓ l := by simp [cellCharge]
    rw [e0, ih, Finset.sum_congr rfl fun j _ => e j, Finset.sum_add_distrib, Finset.sum_ite_eq,
      if_pos (Finset.mem_range.2 (h c (by simp)))]

/-- **C94** (exact arithmetic, closed ends).  The distance is the sum of the local costs of the cells the alignment charges, with the weights
of the step pattern. -/
theorem C94_distance {a : Args} {r : Result} {mp : Mapping} {W : Nat → Nat → Bool} {ℓ : Nat → Nat → ℚ}
    (h : Problem a n m (fun i j => fin (ℓ i j)) W p rs) (hob : a.openBegin = false)
    (hr : dtw Arith.exact a = .ok r) (hmp : r.mapping = some mp) :
    r.distance = fin (cellCharge ℓ (chargedCells rs mp.stepsTaken)) ∧
      ∀ z ∈ chargedCells rs mp.stepsTaken, z.2.1 < n ∧ z.2.2 < m := by
  obtain ⟨j, ks, -, hj, -, rfl, hw⟩ := closed_mapping h hob hr hmp
  obtain ⟨-, e, hz⟩ := hw.charged_cells
  have := h.n_pos
  exact ⟨e, fun z hm => by have := hz z hm; omega⟩

/-- **C94** (exact arithmetic, closed ends).  `K` series are aligned with one template; then the template is changed so that, for each of its
elements, what the alignments charged for the element does not grow.  The sum of the distances to the new template is at most the sum of
the distances to the old one.  Any step pattern, windows, lengths, local costs. -/
theorem C94_reestimate {n : Fin K → Nat} {a b : Fin K → Args} {r : Fin K → Result} {mp : Fin K → Mapping}
    {W : Fin K → Nat → Nat → Bool} {ℓ ℓ' : Fin K → Nat → Nat → ℚ}
    (h : ∀ t, Problem (a t) (n t) m (fun i j => fin (ℓ t i j)) (W t) p rs)
    (h' : ∀ t, Problem (b t) (n t) m (fun i j => fin (ℓ' t i j)) (W t) p rs) (ho : ∀ t, SameOptions (a t) (b t))
    (hob : ∀ t, (a t).openBegin = false) (hoe : ∀ t, (a t).openEnd = false)
    (hr : ∀ t, dtw Arith.exact (a t) = .ok (r t)) (hmp : ∀ t, (r t).mapping = some (mp t))
    (hc : ∀ j < m, ∑ t, chargeAt (ℓ' t) (chargedCells rs (mp t).stepsTaken) j ≤
      ∑ t, chargeAt (ℓ t) (chargedCells rs (mp t).stepsTaken) j) :
    ∃ (r' : Fin K → Result) (c c' : Fin K → ℚ), (∀ t, (r t).distance = fin (c t)) ∧
      (∀ t, dtw Arith.exact (b t) = .ok (r' t) ∧ (r' t).distance = fin (c' t)) ∧ ∑ t, c' t ≤ ∑ t, c t := by
  have hex : ∀ t, ∃ r', dtw Arith.exact (b t) = .ok r' := fun t => (C62_existence (h t) (h' t) (ho t)).1 ⟨_, hr t⟩
  have one : ∀ t, ∃ (r' : Result) (c' : ℚ), (dtw Arith.exact (b t) = .ok r' ∧ r'.distance = fin c') ∧
      c' ≤ cellCharge (ℓ' t) (chargedCells rs (mp t).stepsTaken) := by
    intro t
    obtain ⟨r', hr'⟩ := hex t
    obtain ⟨j, ks, -, -, hj, e, hw⟩ := closed_mapping (h t) (hob t) (hr t) (hmp t)
    rw [hj (hoe t)] at hw
    have hob' : (b t).openBegin = false := by rw [← (ho t).openBegin]; exact hob t
    have hoe' : (b t).openEnd = false := by rw [← (ho t).openEnd]; exact hoe t
    obtain ⟨c', hc'⟩ := closed_begin_finite (h' t) hob' hr'
    have hopt := (C01_distance_optimal (h' t) hob' hoe' hr').2 _ _ (hw.recharge (ℓ' := ℓ' t)) (by simp)
    rw [hc', F64.le_fin] at hopt
    rw [e]
    exact ⟨r', c', ⟨hr', hc'⟩, hopt⟩
  choose r' c' hr' hle using one
  have hd := fun t => C94_distance (h t) (hob t) (hr t) (hmp t)
  refine ⟨r', _, c', fun t => (hd t).1, hr', ?_⟩
  refine (Finset.sum_le_sum fun t _ => hle t).trans ?_
  have e : ∀ g : Fin K → Nat → Nat → ℚ, ∑ t, cellCharge (g t) (chargedCells rs (mp t).stepsTaken) =
      ∑ j ∈ Finset.range m, ∑ t, chargeAt (g t) (chargedCells rs (mp t).stepsTaken) j := by
    intro g
    rw [Finset.sum_comm]
    exact Finset.sum_congr rfl fun t _ => cellCharge_columns _ _ fun z hz => ((hd t).2 z hz).2
  rw [e, e]
  exact Finset.sum_le_sum fun j hj => hc j (Finset.mem_range.1 hj)

/-! ### Means -/

theorem chargedFrom_nonneg (hw : NonnegWeights Arith.exact rs) : ∀ (ks : List Int) (i j : Nat), ∀ z ∈ chargedFrom rs i j ks, 0 ≤ z.1
  | [], _, _ => by simp [chargedFrom]
  | k :: ks, i, j => by
    intro z hz
    rw [chargedFrom] at hz
    cases hq : rs[(k - 1).toNat]? with
    | none => rw [hq] at hz; simp at hz
    | some q =>
      rw [hq] at hz
      rcases List.mem_append.1 hz with hz | hz
      · obtain ⟨t, ht, rfl⟩ := List.mem_map.1 hz
        exact (hw q (List.mem_of_getElem? hq) t ht).1
      · exact chargedFrom_nonneg hw ks _ _ z hz

theorem chargeAt_cons (ℓ : Nat → Nat → ℚ) (c : ℚ × Nat × Nat) (l : List (ℚ × Nat × Nat)) (j : Nat) :
    chargeAt ℓ (c :: l) j = (if c.2.2 = j then c.1 * ℓ c.2.1 j else 0) + chargeAt ℓ l j := by
  unfold chargeAt
  by_cases hj : c.2.2 = j
  · rw [List.filter_cons_of_pos (by simpa using hj), if_pos hj, ← hj]; simp [cellCharge]
  · rw [List.filter_cons_of_neg (by simpa using hj), if_neg hj, zero_add]

theorem chargeAt_sum {d : Nat} (g : Fin d → Nat → Nat → ℚ) (l : List (ℚ × Nat × Nat)) (j : Nat) :
    chargeAt (fun i j => ∑ f, g f i j) l j = ∑ f, chargeAt (g f) l j := by
  induction l with
  | nil => simp [chargeAt, cellCharge]
  | cons c l ih =>
    rw [chargeAt_cons, ih, Finset.sum_congr rfl fun f _ => chargeAt_cons (g f) c l j, Finset.sum_add_distrib]
    congr 1
    split
    · rw [Finset.mul_sum]
    · simp

theorem chargeAt_square (x y : Nat → ℚ) (l : List (ℚ × Nat × Nat)) (j : Nat) :
    chargeAt (fun i j => (x i - y j) ^ 2) l j =
      chargeAt (fun i _ => x i ^ 2) l j - 2 * y j * chargeAt (fun i _ => x i) l j + y j ^ 2 * chargeAt (fun _ _ => 1) l j := by
  induction l with
  | nil => simp [chargeAt, cellCharge]
  | cons c l ih =>
    rw [chargeAt_cons, chargeAt_cons, chargeAt_cons, chargeAt_cons, ih]
    split
    · ring
    · ring

theorem chargeAt_weight_nonneg {l : List (ℚ × Nat × Nat)} (h : ∀ z ∈ l, 0 ≤ z.1) (j : Nat) : 0 ≤ chargeAt (fun _ _ => 1) l j := by
  unfold chargeAt cellCharge
  refine List.sum_nonneg fun u hu => ?_
  obtain ⟨z, hz, rfl⟩ := List.mem_map.1 hu
  have := h z (List.mem_filter.1 hz).1
  simpa using this

/-- **C94**, means.  `K` series with `d` features are aligned with a template under the squared euclidean distance.  Every element of the
template is replaced by the mean of the elements charged against it, with the weights of the step pattern (an element charged nothing may
become anything).  The sum of the distances does not grow. -/
theorem C94_mean {n : Fin K → Nat} {a b : Fin K → Args} {r : Fin K → Result} {mp : Fin K → Mapping}
    {W : Fin K → Nat → Nat → Bool} {x : Fin K → Nat → Fin d → ℚ} {y y' : Nat → Fin d → ℚ} (hw : NonnegWeights Arith.exact rs)
    (h : ∀ t, Problem (a t) (n t) m (fun i j => fin (∑ f, (x t i f - y j f) ^ 2)) (W t) p rs)
    (h' : ∀ t, Problem (b t) (n t) m (fun i j => fin (∑ f, (x t i f - y' j f) ^ 2)) (W t) p rs)
    (ho : ∀ t, SameOptions (a t) (b t)) (hob : ∀ t, (a t).openBegin = false) (hoe : ∀ t, (a t).openEnd = false)
    (hr : ∀ t, dtw Arith.exact (a t) = .ok (r t)) (hmp : ∀ t, (r t).mapping = some (mp t))
    (hy : ∀ j < m, ∀ f, y' j f * ∑ t, chargeAt (fun _ _ => 1) (chargedCells rs (mp t).stepsTaken) j =
      ∑ t, chargeAt (fun i _ => x t i f) (chargedCells rs (mp t).stepsTaken) j) :
    ∃ (r' : Fin K → Result) (c c' : Fin K → ℚ), (∀ t, (r t).distance = fin (c t)) ∧
      (∀ t, dtw Arith.exact (b t) = .ok (r' t) ∧ (r' t).distance = fin (c' t)) ∧ ∑ t, c' t ≤ ∑ t, c t := by
  refine C94_reestimate (ℓ' := fun t i j => ∑ f, (x t i f - y' j f) ^ 2) h h' ho hob hoe hr hmp fun j hj => ?_
  have e : ∀ v : Nat → Fin d → ℚ, ∑ t, chargeAt (fun i j => ∑ f, (x t i f - v j f) ^ 2) (chargedCells rs (mp t).stepsTaken) j =
      ∑ f, (∑ t, chargeAt (fun i _ => x t i f ^ 2) (chargedCells rs (mp t).stepsTaken) j -
        2 * v j f * ∑ t, chargeAt (fun i _ => x t i f) (chargedCells rs (mp t).stepsTaken) j +
        v j f ^ 2 * ∑ t, chargeAt (fun _ _ => 1) (chargedCells rs (mp t).stepsTaken) j) := by
    intro v
    rw [Finset.sum_congr rfl fun t _ => chargeAt_sum (fun f i j => (x t i f - v j f) ^ 2) _ j, Finset.sum_comm]
    refine Finset.sum_congr rfl fun f _ => ?_
    rw [Finset.sum_congr rfl fun t _ => chargeAt_square (fun i => x t i f) (fun j => v j f) _ j, Finset.sum_add_distrib,
      Finset.sum_sub_distrib, Finset.mul_sum, Finset.mul_sum]
  rw [e, e]
  refine Finset.sum_le_sum fun f _ => ?_
  have hS : 0 ≤ ∑ t, chargeAt (fun _ _ => 1) (chargedCells rs (mp t).stepsTaken) j := by
    refine Finset.sum_nonneg fun t _ => chargeAt_weight_nonneg (fun z hz => ?_) j
    rcases List.mem_cons.1 hz with rfl | hz
    · norm_num
    · exact chargedFrom_nonneg hw _ _ _ z hz
  rw [← hy j hj f]
  have := mul_nonneg hS (sq_nonneg (y j f - y' j f))
  generalize ∑ t, chargeAt (fun _ _ => 1) (chargedCells rs (mp t).stepsTaken) j = S at this
  linarith

/-- **C94**, repeated averaging.  However often the template is replaced by the means, the sums of the distances form a sequence that never
increases (and is never negative). -/
theorem C94_descent {n : Fin K → Nat} {a : Nat → Fin K → Args} {r : Nat → Fin K → Result} {mp : Nat → Fin K → Mapping}
    {W : Fin K → Nat → Nat → Bool} {x : Fin K → Nat → Fin d → ℚ} {y : Nat → Nat → Fin d → ℚ} (hw : NonnegWeights Arith.exact rs)
    (h : ∀ s t, Problem (a s t) (n t) m (fun i j => fin (∑ f, (x t i f - y s j f) ^ 2)) (W t) p rs)
    (ho : ∀ s t, SameOptions (a s t) (a (s + 1) t)) (hob : ∀ s t, (a s t).openBegin = false) (hoe : ∀ s t, (a s t).openEnd = false)
    (hr : ∀ s t, dtw Arith.exact (a s t) = .ok (r s t)) (hmp : ∀ s t, (r s t).mapping = some (mp s t))
    (hy : ∀ s, ∀ j < m, ∀ f, y (s + 1) j f * ∑ t, chargeAt (fun _ _ => 1) (chargedCells rs (mp s t).stepsTaken) j =
      ∑ t, chargeAt (fun i _ => x t i f) (chargedCells rs (mp s t).stepsTaken) j) :
    ∃ c : Nat → Fin K → ℚ, (∀ s t, (r s t).distance = fin (c s t) ∧ 0 ≤ c s t) ∧ Antitone fun s => ∑ t, c s t := by
  have hc : ∀ s t, ∃ c : ℚ, (r s t).distance = fin c ∧ 0 ≤ c := by
    intro s t
    obtain ⟨c, hc⟩ := closed_begin_finite (h s t) (hob s t) (hr s t)
    refine ⟨c, hc, ?_⟩
    have := (C14_nonnegative (h s t) (hob s t) hw (fun i _ j _ => Finset.sum_nonneg fun f _ => sq_nonneg _) (hr s t)).1
    rwa [hc, F64.le_fin] at this
  choose c hc using hc
  refine ⟨c, hc, antitone_nat_of_succ_le fun s => ?_⟩
  obtain ⟨r', c0, c1, e0, e1, hle⟩ := C94_mean hw (h s) (h (s + 1)) (ho s) (hob s) (hoe s) (hr s) (hmp s) (hy s)
  have z0 : ∀ t, c0 t = c s t := fun t => F64.fin.inj ((e0 t).symm.trans (hc s t).1)
  have z1 : ∀ t, c1 t = c (s + 1) t := fun t => by
    obtain ⟨g1, g2⟩ := e1 t
    rw [hr (s + 1) t] at g1
    have g3 : r (s + 1) t = r' t := by injection g1
    rw [← g3] at g2
    exact F64.fin.inj (g2.symm.trans (hc (s + 1) t).1)
  rwa [Finset.sum_congr rfl fun t _ => z0 t, Finset.sum_congr rfl fun t _ => z1 t] at hle

/-! ### Patterns that charge each matched pair once -/

/-- Every rule charges its arrival cell, once, and nothing else. -/
def PlainCost (rs : List Rule) : Prop := ∀ q ∈ rs, q.terms = [⟨0, 0, 1⟩]

instance : Decidable (PlainCost rs) := inferInstanceAs (Decidable (∀ _ ∈ _, _))

/-- The elements of `x` that an alignment matches to reference element `j`: `x[index1[index2 == j]]`. -/
def samplesAt (x : Nat → ℚ) (mp : Mapping) (j : Nat) : List ℚ :=
  ((mp.index1.zip mp.index2).filter fun z => z.2 = (j : Int)).map fun z => x z.1.toNat

theorem WarpPath.plain_cells (hp : PlainCost rs) {A : Arith} {W : Nat → Nat → Bool} {L : Nat → Nat → F64} {ks : List Int} {i j : Nat} {c : F64}
    (h : WarpPath A rs W L ks i j c) :
    ∃ l : List (Nat × Nat), fine rs 0 0 ks = l.map (fun z => ((z.1 : Int), (z.2 : Int))) ∧
      chargedCells rs ks = l.map (fun z => (1, z.1, z.2)) ∧ ∀ tl, chargedCells rs (ks ++ tl) = chargedCells rs ks ++ chargedFrom rs i j tl := by
  induction h with
  | start => exact ⟨[(0, 0)], by simp [fine, fineTail], by simp [chargedCells, chargedFrom], fun tl => rfl⟩
  | @step ks i j c k q hp' hq _ ih =>
    obtain ⟨l, e1, e2, e3⟩ := ih
    have hs := hp'.toWalk.fine_snoc hq
    rw [show ((0 : Nat) : Int) = 0 from rfl] at hs
    have ht := hp q (List.mem_of_getElem? hq)
    have e4 : ∀ tl, chargedFrom rs i j (((k : Int) + 1) :: tl) = (1, i + q.a, j + q.b) :: chargedFrom rs (i + q.a) (j + q.b) tl := by
      intro tl
      rw [chargedFrom]
      simp [hq, ht]
    have e5 : chargedCells rs (ks ++ [(k : Int) + 1]) = chargedCells rs ks ++ [(1, i + q.a, j + q.b)] := by
      rw [e3, e4]; simp [chargedFrom]
    refine ⟨l ++ [(i + q.a, j + q.b)], ?_, ?_, fun tl => ?_⟩
    · rw [hs, e1, List.map_append]
      simp [Rule.fine, ht]
    · rw [e5, e2, List.map_append]; rfl
    · rw [e5, List.append_assoc, List.append_assoc, List.singleton_append, e3, e4, List.singleton_append]

theorem samples_charges (x : Nat → ℚ) (l : List (Nat × Nat)) (j : Nat) :
    chargeAt (fun _ _ => 1) (l.map fun z => ((1 : ℚ), z.1, z.2)) j =
      ((((l.map fun z => ((z.1 : Int), (z.2 : Int))).filter fun z => z.2 = (j : Int)).map fun z => x z.1.toNat).length : ℚ) ∧
    chargeAt (fun i _ => x i) (l.map fun z => ((1 : ℚ), z.1, z.2)) j =
      (((l.map fun z => ((z.1 : Int), (z.2 : Int))).filter fun z => z.2 = (j : Int)).map fun z => x z.1.toNat).sum := by
  induction l with
  | nil => simp [chargeAt, cellCharge]
  | cons c l ih =>
    obtain ⟨i1, i2⟩ := ih
    rw [List.map_cons, List.map_cons, chargeAt_cons, chargeAt_cons, i1, i2]
    by_cases hj : c.2 = j
    · rw [List.filter_cons_of_pos (by simpa using hj), if_pos hj, if_pos hj]
      simp [add_comm]
    · rw [List.filter_cons_of_neg (by simpa using hj), if_neg hj, if_neg hj, zero_add, zero_add]
      exact ⟨rfl, rfl⟩

/-- For patterns that charge each matched pair once the weights are counts and the weighted sums plain sums over `index1`, `index2`. -/
theorem C94_plain {a : Args} {r : Result} {mp : Mapping} {W : Nat → Nat → Bool} {L : Nat → Nat → F64} (hpl : PlainCost rs)
    (h : Problem a n m L W p rs) (hob : a.openBegin = false) (hr : dtw Arith.exact a = .ok r) (hmp : r.mapping = some mp) (j : Nat) (x : Nat → ℚ) :
    chargeAt (fun _ _ => 1) (chargedCells rs mp.stepsTaken) j = (samplesAt x mp j).length ∧
    chargeAt (fun i _ => x i) (chargedCells rs mp.stepsTaken) j = (samplesAt x mp j).sum := by
  obtain ⟨j', ks, -, -, -, rfl, hw⟩ := closed_mapping h hob hr hmp
  obtain ⟨l, e1, e2, -⟩ := hw.plain_cells hpl
  unfold samplesAt
  simp only [curve, zip_fst_snd]
  rw [e1, e2]
  exact samples_charges x l j

/-- **C94**, plain means (`symmetric1`, `asymmetric`, `typeIIa`, `rigid`, minimum variance matching): one-dimensional series, every sample of the template
replaced by the mean of the samples matched to it, `query[index1[index2 == j]]`, over all series. -/
theorem C94_mean_plain {n : Fin K → Nat} {a b : Fin K → Args} {r : Fin K → Result} {mp : Fin K → Mapping}
    {W : Fin K → Nat → Nat → Bool} {x : Fin K → Nat → ℚ} {y y' : Nat → ℚ} (hpl : PlainCost rs)
    (h : ∀ t, Problem (a t) (n t) m (fun i j => fin ((x t i - y j) ^ 2)) (W t) p rs)
    (h' : ∀ t, Problem (b t) (n t) m (fun i j => fin ((x t i - y' j) ^ 2)) (W t) p rs)
    (ho : ∀ t, SameOptions (a t) (b t)) (hob : ∀ t, (a t).openBegin = false) (hoe : ∀ t, (a t).openEnd = false)
    (hr : ∀ t, dtw Arith.exact (a t) = .ok (r t)) (hmp : ∀ t, (r t).mapping = some (mp t))
    (hy : ∀ j < m, y' j * ∑ t, ((samplesAt (x t) (mp t) j).length : ℚ) = ∑ t, (samplesAt (x t) (mp t) j).sum) :
    ∃ (r' : Fin K → Result) (c c' : Fin K → ℚ), (∀ t, (r t).distance = fin (c t)) ∧
      (∀ t, dtw Arith.exact (b t) = .ok (r' t) ∧ (r' t).distance = fin (c' t)) ∧ ∑ t, c' t ≤ ∑ t, c t := by
  have hw : NonnegWeights Arith.exact rs := by
    intro q hq t ht
    rw [hpl q hq] at ht
    obtain rfl : t = ⟨0, 0, 1⟩ := by simpa using ht
    exact ⟨by norm_num, by simp⟩
  refine C94_mean (d := 1) (x := fun t i _ => x t i) (y := fun j _ => y j) (y' := fun j _ => y' j) hw
    (fun t => by simpa using h t) (fun t => by simpa using h' t) ho hob hoe hr hmp fun j hj f => ?_
  have e := fun t => C94_plain hpl (h t) (hob t) (hr t) (hmp t) j (x t)
  rw [Finset.sum_congr rfl fun t _ => (e t).1, Finset.sum_congr rfl fun t _ => (e t).2]
  exact hy j hj

/-! ### Medians, for the absolute difference (the default metric on one-dimensional series) -/

theorem chargeAt_ge {ℓ ℓ' : Nat → Nat → ℚ} {u v : Nat → ℚ} {k : ℚ} {j : Nat} (h : ∀ i, ℓ' i j + k * (u i - v i) ≤ ℓ i j)
    {l : List (ℚ × Nat × Nat)} (hl : ∀ z ∈ l, 0 ≤ z.1) :
    chargeAt ℓ' l j + k * (chargeAt (fun i _ => u i) l j - chargeAt (fun i _ => v i) l j) ≤ chargeAt ℓ l j := by
  induction l with
  | nil => simp [chargeAt, cellCharge]
  | cons c l ih =>
    have ih := ih fun z hz => hl z (by simp [hz])
    rw [chargeAt_cons, chargeAt_cons, chargeAt_cons, chargeAt_cons]
    split
    · have := mul_le_mul_of_nonneg_left (h c.2.1) (hl c (by simp))
      linarith
    · linarith

/-- **C94**, medians.  One-dimensional series under the absolute difference; every sample of the template is replaced by a (weighted) median of
the samples charged against it: of neither the smaller nor the greater samples is there more than of the rest.  The sum of the distances
does not grow. -/
theorem C94_median {n : Fin K → Nat} {a b : Fin K → Args} {r : Fin K → Result} {mp : Fin K → Mapping}
    {W : Fin K → Nat → Nat → Bool} {x : Fin K → Nat → ℚ} {y y' : Nat → ℚ} (hw : NonnegWeights Arith.exact rs)
    (h : ∀ t, Problem (a t) (n t) m (fun i j => fin |x t i - y j|) (W t) p rs)
    (h' : ∀ t, Problem (b t) (n t) m (fun i j => fin |x t i - y' j|) (W t) p rs)
    (ho : ∀ t, SameOptions (a t) (b t)) (hob : ∀ t, (a t).openBegin = false) (hoe : ∀ t, (a t).openEnd = false)
    (hr : ∀ t, dtw Arith.exact (a t) = .ok (r t)) (hmp : ∀ t, (r t).mapping = some (mp t))
    (hy : ∀ j < m,
      ∑ t, chargeAt (fun i _ => if x t i < y' j then 1 else 0) (chargedCells rs (mp t).stepsTaken) j ≤
        ∑ t, chargeAt (fun i _ => if x t i < y' j then 0 else 1) (chargedCells rs (mp t).stepsTaken) j ∧
      ∑ t, chargeAt (fun i _ => if y' j < x t i then 1 else 0) (chargedCells rs (mp t).stepsTaken) j ≤
        ∑ t, chargeAt (fun i _ => if y' j < x t i then 0 else 1) (chargedCells rs (mp t).stepsTaken) j) :
    ∃ (r' : Fin K → Result) (c c' : Fin K → ℚ), (∀ t, (r t).distance = fin (c t)) ∧
      (∀ t, dtw Arith.exact (b t) = .ok (r' t) ∧ (r' t).distance = fin (c' t)) ∧ ∑ t, c' t ≤ ∑ t, c t := by
  refine C94_reestimate (ℓ' := fun t i j => |x t i - y' j|) h h' ho hob hoe hr hmp fun j hj => ?_
  obtain ⟨y1, y2⟩ := hy j hj
  have hn : ∀ t, ∀ z ∈ chargedCells rs (mp t).stepsTaken, 0 ≤ z.1 := by
    intro t z hz
    rcases List.mem_cons.1 hz with rfl | hz
    · norm_num
    · exact chargedFrom_nonneg hw _ _ _ z hz
  rcases le_total (y' j) (y j) with hle | hle
  · have := Finset.sum_le_sum fun t (_ : t ∈ Finset.univ) =>
      chargeAt_ge (ℓ := fun i j => |x t i - y j|) (ℓ' := fun i j => |x t i - y' j|) (u := fun i => if y' j < x t i then 0 else 1)
        (v := fun i => if y' j < x t i then 1 else 0) (k := y j - y' j) (j := j) (by
          intro i
          split
          · rename_i hlt
            rw [abs_of_pos (by linarith : 0 < x t i - y' j)]
            have := le_abs_self (x t i - y j)
            linarith
          · rename_i hlt
            rw [abs_of_nonpos (by linarith : x t i - y' j ≤ 0)]
            have := neg_le_abs (x t i - y j)
            linarith) (hn t)
    rw [Finset.sum_add_distrib, ← Finset.mul_sum, Finset.sum_sub_distrib] at this
    have := mul_nonneg (sub_nonneg.2 hle) (sub_nonneg.2 y2)
    linarith
  · have := Finset.sum_le_sum fun t (_ : t ∈ Finset.univ) =>
      chargeAt_ge (ℓ := fun i j => |x t i - y j|) (ℓ' := fun i j => |x t i - y' j|) (u := fun i => if x t i < y' j then 0 else 1)
        (v := fun i => if x t i < y' j then 1 else 0) (k := y' j - y j) (j := j) (by
          intro i
          split
          · rename_i hlt
            rw [abs_of_neg (by linarith : x t i - y' j < 0)]
            have := neg_le_abs (x t i - y j)
            linarith
          · rename_i hlt
            rw [abs_of_nonneg (by linarith : 0 ≤ x t i - y' j)]
            have := le_abs_self (x t i - y j)
            linarith) (hn t)
    rw [Finset.sum_add_distrib, ← Finset.mul_sum, Finset.sum_sub_distrib] at this
    have := mul_nonneg (sub_nonneg.2 hle) (sub_nonneg.2 y1)
    linarith

/-! ### Series -/

theorem sumSquares_features : ∀ (d : Nat) (u v : List ℚ), u.length = d → v.length = d →
    sumSquares (u.zip v) = ∑ f : Fin d, (u.getD f 0 - v.getD f 0) ^ 2
  | 0, [], [], _, _ => by simp [sumSquares]
  | d + 1, a :: u, b :: v, hu, hv => by
    have ih := sumSquares_features d u v (by simpa using hu) (by simpa using hv)
    rw [Fin.sum_univ_succ]
    simp only [sumSquares, List.zip_cons_cons, List.map_cons, List.sum_cons] at ih ⊢
    rw [ih]
    simp

/-- **C94**, series with `d` features under "sqeuclidean", a bundled step pattern, any window. -/
theorem C94_series {o : Fin K → Args} {W : Fin K → Nat → Nat → Bool} {x : Fin K → Nd} {X : Fin K → Mat F64} {u : Fin K → Nat → List ℚ}
    {y y' : Nd} {Y Y' : Mat F64} {v v' : Nat → List ℚ} {r : Fin K → Result} {mp : Fin K → Mapping}
    (hx : ∀ t, Series (x t) (X t) (u t) d) (hy : Series y Y v d) (hy' : Series y' Y' v' d) (hrows : Y'.rows = Y.rows)
    (h : ∀ t, Sensible (o t) (X t).rows Y.rows (W t) q) (hne : q.1 ≠ "_symmetricVelichkoZagoruyko")
    (hob : ∀ t, (o t).openBegin = false) (hoe : ∀ t, (o t).openEnd = false)
    (hr : ∀ t, dtw Arith.exact (callWith (sqEuclidean Arith.exact) (o t) (x t) y) = .ok (r t)) (hmp : ∀ t, (r t).mapping = some (mp t))
    (hmean : ∀ j < Y.rows, ∀ f < d, (v' j).getD f 0 * ∑ t, chargeAt (fun _ _ => 1) (chargedCells (rulesOf q.2) (mp t).stepsTaken) j =
      ∑ t, chargeAt (fun i _ => (u t i).getD f 0) (chargedCells (rulesOf q.2) (mp t).stepsTaken) j) :
    ∃ (r' : Fin K → Result) (c c' : Fin K → ℚ), (∀ t, (r t).distance = fin (c t)) ∧
      (∀ t, dtw Arith.exact (callWith (sqEuclidean Arith.exact) (o t) (x t) y') = .ok (r' t) ∧ (r' t).distance = fin (c' t)) ∧
      ∑ t, c' t ≤ ∑ t, c t := by
  rcases Nat.eq_zero_or_pos K with rfl | hK
  · exact ⟨r, Fin.elim0, Fin.elim0, fun t => t.elim0, fun t => t.elim0, by simp⟩
  have hw := C12_bundled_weights q (h ⟨0, hK⟩).mem hne
  have prob : ∀ {y : Nd} {Y : Mat F64} {v : Nat → List ℚ}, Series y Y v d → (∀ t, Sensible (o t) (X t).rows Y.rows (W t) q) → ∀ t,
      Problem (callWith (sqEuclidean Arith.exact) (o t) (x t) y) (X t).rows Y.rows
        (fun i j => fin (∑ f : Fin d, ((u t i).getD f 0 - (v j).getD f 0) ^ 2)) (W t) q.2 (rulesOf q.2) := by
    intro y Y v hy h t
    refine callWith_problem (hx t).mat hy.mat ((hx t).cols.trans hy.cols.symm) (h t) fun i hi j hj => ?_
    obtain ⟨e1, e2, -⟩ := (hx t).pair hy hi hj
    rw [← e1, ← e2, sqEuclidean_exact, sumSquares_features d _ _ ((hx t).row i hi).2 (hy.row j hj).2]
  have h1 := prob hy h
  have h2 := prob hy' (fun t => by rw [hrows]; exact h t)
  rw [hrows] at h2
  exact C94_mean (x := fun t i f => (u t i).getD f 0) (y := fun j f => (v j).getD f 0) (y' := fun j f => (v' j).getD f 0) hw h1 h2
    (fun t => ⟨rfl, rfl, rfl, rfl⟩) hob hoe hr hmp fun j hj f => hmean j hj f f.2

/-- **C94** The bundled patterns that charge each matched pair once. -/
theorem C94_bundled : (∀ q ∈ Pat.table, PlainCost (rulesOf q.2) ↔ q.1 ∈ ["symmetric1", "asymmetric", "typeIIa", "rigid"]) ∧
    ∀ e, PlainCost (mvmRules e) := by
  refine ⟨?_, fun e q hq => ?_⟩
  · have key : (Pat.table.all fun q => decide (PlainCost (rulesOf q.2) ↔ q.1 ∈ ["symmetric1", "asymmetric", "typeIIa", "rigid"])) = true := by
      decide +kernel
    exact fun q hq => of_decide_eq_true (List.all_eq_true.1 key q hq)
  · unfold mvmRules at hq
    obtain ⟨k, -, rfl⟩ := List.mem_map.1 hq
    rfl

/-! ### Examples -/

def Ex.avgX (t : Fin 2) (i : Nat) : ℚ := if t = 0 then [0, 2, 3].getD i 0 else [1, 4].getD i 0
def Ex.avgN (t : Fin 2) : Nat := if t = 0 then 3 else 2
def Ex.avgOld (j : Nat) : ℚ := [0, 3].getD j 0
def Ex.avgNew (j : Nat) : ℚ := [1/2, 3].getD j 0
def Ex.avgCall (s : String) (y : Nat → ℚ) (t : Fin 2) : Args := Ex.call (Ex.avgN t) 2 (fun i j => fin ((Ex.avgX t i - y j) ^ 2)) s
def Ex.avgMap (t : Fin 2) : Mapping :=
  if t = 0 then ⟨[0, 1, 2], [0, 1, 1], [0, 1, 2], [0, 1, 1], [1, 3]⟩ else ⟨[0, 1], [0, 1], [0, 1], [0, 1], [1]⟩

theorem Ex.get_mapping {A : Arith} {a : Args} {mp : Mapping} (h : ((dtw A a).toOption.bind (·.mapping)) = some mp) :
    ∃ r, dtw A a = .ok r ∧ r.mapping = some mp := by
  cases hd : dtw A a with
  | error e => rw [hd] at h; cases h
  | ok r => rw [hd] at h; exact ⟨r, rfl, h⟩

theorem Ex.avg_problem (y : Nat → ℚ) (t : Fin 2) :
    Problem (Ex.avgCall "symmetric1" y t) (Ex.avgN t) 2 (fun i j => fin ((Ex.avgX t i - y j) ^ 2)) (fun _ _ => true)
      Pat.symmetric1 (rulesOf Pat.symmetric1) :=
  bundled_problem (by unfold Ex.avgN; split <;> decide) (by decide) (by unfold Ex.avgN; split <;> decide) _
    ("symmetric1", Pat.symmetric1) Ex.sym1_mem

/-- Two series of lengths 3 and 2 averaged onto a template of length 2 (`symmetric1`): the sum of the distances falls from 3 to 5/2. -/
example : ∃ (r r' : Fin 2 → Result) (c c' : Fin 2 → ℚ), (∀ t, dtw Arith.exact (Ex.avgCall "symmetric1" Ex.avgOld t) = .ok (r t)) ∧
    (∀ t, (r t).distance = fin (c t)) ∧
    (∀ t, dtw Arith.exact (Ex.avgCall "symmetric1" Ex.avgNew t) = .ok (r' t) ∧ (r' t).distance = fin (c' t)) ∧ ∑ t, c' t ≤ ∑ t, c t := by
  have hm : ∀ t : Fin 2, ((dtw Arith.exact (Ex.avgCall "symmetric1" Ex.avgOld t)).toOption.bind (·.mapping)) = some (Ex.avgMap t) := by
    decide +kernel
  choose r hr hmp using fun t => Ex.get_mapping (hm t)
  obtain ⟨r', c, c', h1, h2, h3⟩ := C94_mean_plain (b := Ex.avgCall "symmetric1" Ex.avgNew) (x := Ex.avgX) (y := Ex.avgOld) (y' := Ex.avgNew)
    (((C94_bundled).1 _ Ex.sym1_mem).2 (by decide)) (Ex.avg_problem _) (Ex.avg_problem _)
    (fun _ => ⟨rfl, rfl, rfl, rfl⟩) (fun _ => rfl) (fun _ => rfl) hr hmp (by decide +kernel)
  exact ⟨r, r', c, c', hr, h1, h2, h3⟩

example : ((dtw Arith.exact (Ex.avgCall "symmetric1" Ex.avgOld 0)).map (·.distance)) = .ok (fin 1) ∧
    ((dtw Arith.exact (Ex.avgCall "symmetric1" Ex.avgOld 1)).map (·.distance)) = .ok (fin 2) ∧
    ((dtw Arith.exact (Ex.avgCall "symmetric1" Ex.avgNew 0)).map (·.distance)) = .ok (fin (5/4)) ∧
    ((dtw Arith.exact (Ex.avgCall "symmetric1" Ex.avgNew 1)).map (·.distance)) = .ok (fin (5/4)) := by decide +kernel

/-- **C94**, negative witness.  With the default `symmetric2` the weights matter: replacing the samples of the template `[0, 5]` by the plain
means `[0, 9/2]` of what `index1`, `index2` match to them (query `[0, 6, 3]`) raises the distance from 6 to 27/4.  The weighted mean, which
counts the diagonal step twice, is `[0, 5]`. -/
theorem C94_plain_not_symmetric2 :
    let a := fun y : List ℚ => askWith (sqEuclidean Arith.exact) Ex.serOpts [0, 6, 3] y
    let mp : Mapping := ⟨[0, 1, 2], [0, 1, 1], [0, 1, 2], [0, 1, 1], [1, 3]⟩
    (dtw Arith.exact (a [0, 5])).toOption.bind (·.mapping) = some mp ∧
    (dtw Arith.exact (a [0, 5])).map (·.distance) = .ok (fin 6) ∧
    (dtw Arith.exact (a [0, 9/2])).map (·.distance) = .ok (fin (27/4)) ∧
    samplesAt ([0, 6, 3].getD · 0) mp 0 = [0] ∧ samplesAt ([0, 6, 3].getD · 0) mp 1 = [6, 3] ∧
    chargedCells (rulesOf Pat.symmetric2) mp.stepsTaken = [(1, 0, 0), (2, 1, 1), (1, 2, 1)] := by decide +kernel

/-- Medians: a series against a template of one element (4, then the weighted median 2 of its samples, charged 1 each). -/
example : chargedCells (rulesOf Pat.symmetric2) [3, 3] = [(1, 0, 0), (1, 1, 0), (1, 2, 0)] ∧
    (dtw Arith.exact (ask Ex.serOpts [1, 2, 6] [4])).toOption.bind (·.mapping) =
      some ⟨[0, 1, 2], [0, 0, 0], [0, 1, 2], [0, 0, 0], [3, 3]⟩ ∧
    (dtw Arith.exact (ask Ex.serOpts [1, 2, 6] [4])).map (·.distance) = .ok (fin 7) ∧
    (dtw Arith.exact (ask Ex.serOpts [1, 2, 6] [2])).map (·.distance) = .ok (fin 5) := by decide +kernel

/-- The premises of `C94_median`. -/
example : ∃ (r : Fin 1 → Result) (mp : Fin 1 → Mapping),
    (∀ t, dtw Arith.exact (Ex.call 3 1 (fun i j => fin |([1, 2, 6] : List ℚ).getD i 0 - ([4] : List ℚ).getD j 0|) "symmetric1") = .ok (r t)) ∧
    (∀ t, (r t).mapping = some (mp t)) ∧ ∀ j < 1,
      ∑ t, chargeAt (fun i _ => if ([1, 2, 6] : List ℚ).getD i 0 < ([2] : List ℚ).getD j 0 then 1 else 0)
          (chargedCells (rulesOf Pat.symmetric1) (mp t).stepsTaken) j ≤
        ∑ t, chargeAt (fun i _ => if ([1, 2, 6] : List ℚ).getD i 0 < ([2] : List ℚ).getD j 0 then 0 else 1)
          (chargedCells (rulesOf Pat.symmetric1) (mp t).stepsTaken) j ∧
      ∑ t, chargeAt (fun i _ => if ([2] : List ℚ).getD j 0 < ([1, 2, 6] : List ℚ).getD i 0 then 1 else 0)
          (chargedCells (rulesOf Pat.symmetric1) (mp t).stepsTaken) j ≤
        ∑ t, chargeAt (fun i _ => if ([2] : List ℚ).getD j 0 < ([1, 2, 6] : List ℚ).getD i 0 then 0 else 1)
          (chargedCells (rulesOf Pat.symmetric1) (mp t).stepsTaken) j := by
  obtain ⟨r, hr, hm⟩ := Ex.get_mapping (A := Arith.exact)
    (a := Ex.call 3 1 (fun i j => fin |([1, 2, 6] : List ℚ).getD i 0 - ([4] : List ℚ).getD j 0|) "symmetric1")
    (mp := ⟨[0, 1, 2], [0, 0, 0], [0, 1, 2], [0, 0, 0], [3, 3]⟩) (by decide +kernel)
  exact ⟨fun _ => r, fun _ => _, fun _ => hr, fun _ => hm, by decide +kernel⟩

/-- Averaging once more changes nothing: the sequence 3, 5/2, 5/2, … of `C94_descent`. -/
example : ∃ (r : Nat → Fin 2 → Result) (c : Nat → Fin 2 → ℚ),
    (∀ s t, dtw Arith.exact (Ex.avgCall "symmetric1" (if s = 0 then Ex.avgOld else Ex.avgNew) t) = .ok (r s t)) ∧
    (∀ s t, (r s t).distance = fin (c s t) ∧ 0 ≤ c s t) ∧ Antitone fun s => ∑ t, c s t := by
  have hm : ∀ (b : Bool) (t : Fin 2), ((dtw Arith.exact (Ex.avgCall "symmetric1" (if b then Ex.avgOld else Ex.avgNew) t)).toOption.bind
      (·.mapping)) = some (Ex.avgMap t) := by decide +kernel
  have hm' : ∀ (s : Nat) (t : Fin 2), ((dtw Arith.exact (Ex.avgCall "symmetric1" (if s = 0 then Ex.avgOld else Ex.avgNew) t)).toOption.bind
      (·.mapping)) = some (Ex.avgMap t) := by
    intro s t
    by_cases hs : s = 0
    · simpa [hs] using hm true t
    · simpa [hs] using hm false t
  choose r hr hmp using fun s t => Ex.get_mapping (hm' s t)
  have hP : ∀ (s : Nat) (t : Fin 2), Problem (Ex.avgCall "symmetric1" (if s = 0 then Ex.avgOld else Ex.avgNew) t) (Ex.avgN t) 2
      (fun i j => fin (∑ _f : Fin 1, (Ex.avgX t i - (if s = 0 then Ex.avgOld else Ex.avgNew) j) ^ 2)) (fun _ _ => true)
      Pat.symmetric1 (rulesOf Pat.symmetric1) := fun s t => by simpa using Ex.avg_problem (if s = 0 then Ex.avgOld else Ex.avgNew) t
  obtain ⟨c, h1, h2⟩ := C94_descent (d := 1) (x := fun t i _ => Ex.avgX t i) (y := fun s j _ => (if s = 0 then Ex.avgOld else Ex.avgNew) j)
    (C12_bundled_weights ("symmetric1", Pat.symmetric1) Ex.sym1_mem (by decide)) hP (fun _ _ => ⟨rfl, rfl, rfl, rfl⟩) (fun _ _ => rfl)
    (fun _ _ => rfl) hr hmp (fun s => by
      have : ∀ j < 2, ∀ f : Fin 1, Ex.avgNew j * ∑ t, chargeAt (fun _ _ => 1) (chargedCells (rulesOf Pat.symmetric1) (Ex.avgMap t).stepsTaken) j =
        ∑ t, chargeAt (fun i _ => Ex.avgX t i) (chargedCells (rulesOf Pat.symmetric1) (Ex.avgMap t).stepsTaken) j := by decide +kernel
      simpa using this)
  exact ⟨r, c, hr, h1, h2⟩

/-- Two series with two features, averaged onto the first. -/
example : ∃ (r r' : Fin 2 → Result) (c c' : Fin 2 → ℚ),
    (∀ t : Fin 2, dtw Arith.exact (callWith (sqEuclidean Arith.exact) Ex.serOpts (if t = 0 then .d2 Ex.biX else .d2 Ex.biY) (.d2 Ex.biX)) = .ok (r t)) ∧
    (∀ t, (r t).distance = fin (c t)) ∧
    (∀ t : Fin 2, dtw Arith.exact (callWith (sqEuclidean Arith.exact) Ex.serOpts (if t = 0 then .d2 Ex.biX else .d2 Ex.biY)
      (.d2 ⟨2, 2, [fin 0, fin (7/2), fin (3/2), fin 5]⟩)) = .ok (r' t) ∧ (r' t).distance = fin (c' t)) ∧ ∑ t, c' t ≤ ∑ t, c t := by
  have hm : ∀ t : Fin 2, ((dtw Arith.exact (callWith (sqEuclidean Arith.exact) Ex.serOpts (if t = 0 then .d2 Ex.biX else .d2 Ex.biY)
      (.d2 Ex.biX))).toOption.bind (·.mapping)) = some ⟨[0, 1], [0, 1], [0, 1], [0, 1], [1]⟩ := by decide +kernel
  choose r hr hmp using fun t => Ex.get_mapping (hm t)
  have hx : ∀ t : Fin 2, Series (if t = 0 then .d2 Ex.biX else .d2 Ex.biY) (if t = 0 then Ex.biX else Ex.biY) (if t = 0 then Ex.biU else Ex.biV) 2 := by
    intro t
    by_cases h : t = 0
    · simpa [h] using Ex.bi_series.1
    · simpa [h] using Ex.bi_series.2
  have hy' : Series (.d2 ⟨2, 2, [fin 0, fin (7/2), fin (3/2), fin 5]⟩) ⟨2, 2, [fin 0, fin (7/2), fin (3/2), fin 5]⟩
      (fun i => if i = 0 then [0, 7/2] else [3/2, 5]) 2 := by
    refine ⟨.d2 _, rfl, fun i hi => ?_⟩
    have : i = 0 ∨ i = 1 := by dsimp only at hi; omega
    rcases this with rfl | rfl <;> exact ⟨rfl, rfl⟩
  obtain ⟨r', c, c', h1, h2, h3⟩ := C94_series (q := ("symmetric2", Pat.symmetric2)) (o := fun _ => Ex.serOpts) hx Ex.bi_series.1 hy' rfl
    (fun t => by
      have : (if t = 0 then Ex.biX else Ex.biY).rows = 2 := by split <;> rfl
      rw [this]
      exact sensible_free (by decide) (by decide) (by decide) Ex.sym2_mem rfl rfl)
    (by decide) (fun _ => rfl) (fun _ => rfl) hr hmp (by decide +kernel)
  exact ⟨r, r', c, c', hr, h1, h2, h3⟩

end DTW
