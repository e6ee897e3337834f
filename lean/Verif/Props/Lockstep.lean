import Verif.Props.Series
import Verif.Props.Witnesses

/-!
# C80: alignments without a choice: a band of width zero, a single element
-/

namespace DTW
open F64

variable {A : Arith} {a : Args} {n m : Nat} {L : Nat → Nat → F64} {ℓ : Nat → Nat → ℚ} {W : Nat → Nat → Bool}
  {p : StepPattern} {rs : List Rule} {r : Result} {w : ℚ}

/-- The costs met when walking from the first cell in steps of `u` rows and `v` columns, added up on the way; those after the first
one at weight `w`. -/
def along (A : Arith) (L : Nat → Nat → F64) (w : ℚ) (u v : Nat) : Nat → F64
  | 0 => L 0 0
  | t + 1 => A.mac (along A L w u v t) (A.rnd w) (L ((t + 1) * u) ((t + 1) * v))

/-- Among the rules, exactly one goes in the direction `(u, v)`; it goes one step and charges the cell where it ends, at weight `w`. -/
structure OnlyMove (rs : List Rule) (u v : Nat) (w : ℚ) (k : Nat) : Prop where
  rule : rs[k]? = some ⟨u, v, [⟨0, 0, w⟩]⟩
  only : ∀ k' r s, rs[k']? = some r → r.a = s * u → r.b = s * v → k' = k

/-- In the `n × m` matrix the rules can only lead to cells on the line `(t u, t v)`. -/
def Confined (rs : List Rule) (W : Nat → Nat → Bool) (n m u v : Nat) : Prop :=
  ∀ i j, i < n → j < m → (∃ r ∈ rs, ∃ i0 j0, i = i0 + r.a ∧ j = j0 + r.b) → W i j = true → ∃ t, i = t * u ∧ j = t * v

theorem line_unique {u v t t' : Nat} (huv : 0 < u + v) (h1 : t * u = t' * u) (h2 : t * v = t' * v) : t = t' := by
  rcases Nat.eq_zero_or_pos u with h | h
  · exact Nat.eq_of_mul_eq_mul_right (by omega) h2
  · exact Nat.eq_of_mul_eq_mul_right h h1

theorem WarpPath.on_line {u v k : Nat} (ho : OnlyMove rs u v w k) (hc : Confined rs W n m u v)
    {ks : List Int} {i j : Nat} {c : F64} (h : WarpPath A rs W L ks i j c) : i < n → j < m →
    ∃ t, i = t * u ∧ j = t * v ∧ ks = List.replicate t ((k : Int) + 1) ∧ c = along A L w u v t := by
  induction h with
  | start => exact fun _ _ => ⟨0, by simp, by simp, rfl, rfl⟩
  | @step ks i j c k' q hp hq hW ih =>
    intro hi hj
    obtain ⟨t, rfl, rfl, rfl, rfl⟩ := ih (by omega) (by omega)
    obtain ⟨t', e1, e2⟩ := hc _ _ hi hj ⟨q, List.mem_of_getElem? hq, _, _, rfl, rfl⟩ hW
    have ha : q.a = (t' - t) * u := by rw [Nat.sub_mul]; omega
    have hb : q.b = (t' - t) * v := by rw [Nat.sub_mul]; omega
    obtain rfl := ho.only _ _ _ hq ha hb
    rw [ho.rule] at hq
    obtain rfl := Option.some.inj hq
    refine ⟨t + 1, by rw [Nat.succ_mul], by rw [Nat.succ_mul], by rw [List.replicate_succ'], ?_⟩
    simp [charge, along, Nat.succ_mul]

theorem WarpPath.walk {u v k : Nat} (ho : OnlyMove rs u v w k) : ∀ t, (∀ s, 0 < s → s ≤ t → W (s * u) (s * v) = true) →
    WarpPath A rs W L (List.replicate t ((k : Int) + 1)) (t * u) (t * v) (along A L w u v t)
  | 0, _ => by simpa [along] using WarpPath.start (A := A) (rs := rs) (W := W) (L := L)
  | t + 1, hW => by
    have ih : WarpPath A rs W L _ _ _ _ := WarpPath.walk ho t (fun s h0 hs => hW s h0 (by omega))
    have := ih.step k _ ho.rule (by
      have := hW (t + 1) (by omega) (by omega)
      rw [Nat.succ_mul, Nat.succ_mul] at this
      exact this)
    rw [List.replicate_succ', Nat.succ_mul, Nat.succ_mul]
    convert this using 1
    simp [charge, along, Nat.succ_mul]

theorem coarse_replicate {u v k : Nat} (ho : OnlyMove rs u v w k) : ∀ (t : Nat) (i j : Int),
    coarse rs i j (List.replicate t ((k : Int) + 1)) = (List.range (t + 1)).map fun (s : Nat) => (i + (s : Int) * u, j + (s : Int) * v)
  | 0, i, j => by simp [coarse]
  | t + 1, i, j => by
    rw [List.replicate_succ, coarse, show ((k : Int) + 1 - 1).toNat = k by omega, ho.rule]
    simp only
    rw [coarse_replicate ho t, List.range_succ_eq_map (n := t + 1), List.map_cons, List.map_map]
    congr 1
    · simp
    · apply List.map_congr_left
      intro s _
      simp only [Function.comp, Nat.cast_succ, Prod.mk.injEq]
      constructor <;> ring

theorem fineTail_replicate {u v k : Nat} (ho : OnlyMove rs u v w k) : ∀ (t : Nat) (i j : Int),
    fineTail rs i j (List.replicate t ((k : Int) + 1)) =
      (List.range t).map fun (s : Nat) => (i + ((s : Int) + 1) * u, j + ((s : Int) + 1) * v)
  | 0, i, j => by simp [fineTail]
  | t + 1, i, j => by
    rw [List.replicate_succ, fineTail, show ((k : Int) + 1 - 1).toNat = k by omega, ho.rule]
    simp only
    rw [fineTail_replicate ho t, List.range_succ_eq_map (n := t), List.map_cons, List.map_map]
    simp only [Rule.fine]
    simp only [ne_eq, not_true_eq_false, or_self, decide_false, Bool.false_eq_true, not_false_eq_true, List.filter_cons_of_neg,
      List.filter_nil, List.map_nil, List.nil_append, List.singleton_append]
    congr 1
    · simp
    · apply List.map_congr_left
      intro s _
      simp only [Function.comp, Nat.cast_succ, Prod.mk.injEq]
      constructor <;> ring

theorem curve_replicate {u v k : Nat} (ho : OnlyMove rs u v w k) (t : Nat) :
    curve rs 0 0 (List.replicate t ((k : Int) + 1)) =
      { index1 := (List.range (t + 1)).map fun (s : Nat) => (s : Int) * u
        index2 := (List.range (t + 1)).map fun (s : Nat) => (s : Int) * v
        index1s := (List.range (t + 1)).map fun (s : Nat) => (s : Int) * u
        index2s := (List.range (t + 1)).map fun (s : Nat) => (s : Int) * v
        stepsTaken := List.replicate t ((k : Int) + 1) } := by
  have e : fine rs 0 0 (List.replicate t ((k : Int) + 1)) = coarse rs 0 0 (List.replicate t ((k : Int) + 1)) := by
    rw [fine, fineTail_replicate ho, coarse_replicate ho, List.range_succ_eq_map (n := t), List.map_cons, List.map_map]
    congr 1
    simp
  unfold curve
  rw [e, coarse_replicate ho]
  simp [Function.comp_def]

/-- **C80** (no choice).  If one rule only goes in the direction `(u, v)` and the rules can lead to no other cells than those of that
line, which the window admits: the call succeeds exactly when the sum along the line is usable (not NaN, not +inf; a 1 × 1 problem
always, unless NaN); the distance is that sum, and the alignment walks along the line.  Any arithmetic. -/
theorem C80_line {u v k T : Nat} (ho : OnlyMove rs u v w k) (huv : 0 < u + v) (hc : Confined rs W n m u v)
    (h : Problem a n m L W p rs) (hob : a.openBegin = false) (hoe : a.openEnd = false)
    (hn : n = T * u + 1) (hm : m = T * v + 1) (hW : ∀ s, 0 < s → s ≤ T → W (s * u) (s * v) = true) :
    ((∃ r, dtw A a = .ok r) ↔ usable (along A L w u v T) ∨ (T = 0 ∧ L 0 0 = pinf)) ∧
    ∀ r, dtw A a = .ok r → r.distance = along A L w u v T ∧
      ∀ mp, r.mapping = some mp → mp.stepsTaken = List.replicate T ((k : Int) + 1) ∧
        mp.index1 = (List.range (T + 1)).map (fun (s : Nat) => (s : Int) * u) ∧
        mp.index2 = (List.range (T + 1)).map (fun (s : Nat) => (s : Int) * v) ∧ mp.index1s = mp.index1 ∧ mp.index2s = mp.index2 := by
  have hn' : n - 1 = T * u := by omega
  have hm' : m - 1 = T * v := by omega
  have uniq : ∀ {ks c}, WarpPath A rs W L ks (n - 1) (m - 1) c →
      ks = List.replicate T ((k : Int) + 1) ∧ c = along A L w u v T := by
    intro ks c hp
    obtain ⟨t, e1, e2, e3, e4⟩ := hp.on_line ho hc (by omega) (by omega)
    obtain rfl := line_unique huv (e1.symm.trans hn') (e2.symm.trans hm')
    exact ⟨e3, e4⟩
  have walk : WarpPath A rs W L (List.replicate T ((k : Int) + 1)) (n - 1) (m - 1) (along A L w u v T) := by
    rw [hn', hm']; exact WarpPath.walk ho T hW
  refine ⟨?_, fun r hr => ⟨?_, fun mp hmp => ?_⟩⟩
  · rw [(C02_no_path_iff h hob hoe).2]
    constructor
    · rintro (⟨ks, c, hp, hu⟩ | ⟨h1, h2, h3⟩)
      · rw [(uniq hp).2] at hu; exact .inl hu
      · refine .inr ⟨?_, h3⟩
        by_contra h0
        have h1' : T * u = 0 := by omega
        have h2' : T * v = 0 := by omega
        rcases Nat.mul_eq_zero.1 h1' with h | h <;> rcases Nat.mul_eq_zero.1 h2' with h' | h' <;> omega
    · rintro (hu | ⟨h0, h3⟩)
      · exact .inl ⟨_, _, walk, hu⟩
      · exact .inr ⟨by simp [hn, h0], by simp [hm, h0], h3⟩
  · obtain ⟨⟨ks, hp⟩, _⟩ := C01_distance_optimal h hob hoe hr
    exact (uniq hp).2
  · obtain ⟨j, ks, _, _, hj, e, hp⟩ := closed_mapping h hob hr hmp
    rw [hj hoe] at hp
    rw [e, (uniq hp).1, curve_replicate ho]
    exact ⟨rfl, rfl, rfl, rfl, rfl⟩

/-- A check of `OnlyMove` for a bundled pattern. -/
def onlyCheck (u v : Nat) (w : ℚ) (s : String) : Bool :=
  match Pat.table.lookup s with
  | some p => decide ((s, p) ∈ Pat.table) && (List.range (rulesOf p).length).any fun k =>
    decide ((rulesOf p)[k]? = some ⟨u, v, [⟨0, 0, w⟩]⟩) && (List.range (rulesOf p).length).all fun k' =>
      decide (k' = k) || match (rulesOf p)[k']? with
        | some r => decide (r.a * v ≠ r.b * u)
        | none => true
  | none => false

theorem onlyCheck_sound {u v : Nat} {s : String} (h : onlyCheck u v w s = true) :
    ∃ p, (s, p) ∈ Pat.table ∧ ∃ k, OnlyMove (rulesOf p) u v w k := by
  unfold onlyCheck at h
  revert h
  cases hp : Pat.table.lookup s with
  | none => simp
  | some p =>
    intro h
    simp only [Bool.and_eq_true, decide_eq_true_eq, List.any_eq_true, List.all_eq_true, Bool.or_eq_true] at h
    obtain ⟨h1, k, _, h2, h3⟩ := h
    refine ⟨p, h1, k, h2, ?_⟩
    intro k' r s hk' ha hb
    rcases h3 k' (List.mem_range.2 (List.getElem?_eq_some_iff.1 hk').1) with h | h
    · exact h
    · rw [hk'] at h
      simp only [decide_eq_true_eq] at h
      exact absurd (by rw [ha, hb, Nat.mul_assoc, Nat.mul_assoc, Nat.mul_comm u v]) h

/-! ### A band of width zero -/

theorem confined_diagonal (hW : ∀ i < n, ∀ j < m, W i j = true → i = j) : Confined rs W n m 1 1 := by
  intro i j hi hj _ h
  exact ⟨i, by simp, by simp [hW i hi j hj h]⟩

/-- The bundled patterns in which `(1, 1)` is the only move along the diagonal, with the weight of that move. -/
def diagonalMoves : List (String × ℚ) := [
  ("symmetric1", 1), ("symmetric2", 2), ("asymmetric", 1), ("symmetricP0", 2), ("asymmetricP0", 1), ("_asymmetricP0b", 1),
  ("symmetricP05", 2), ("asymmetricP05", 1), ("symmetricP1", 2), ("asymmetricP1", 1), ("symmetricP2", 2), ("asymmetricP2", 1),
  ("typeIa", 1), ("typeIb", 1), ("typeIc", 1), ("typeId", 2), ("typeIas", 1), ("typeIbs", 1), ("typeIcs", 1), ("typeIds", 2),
  ("typeIIa", 1), ("typeIIb", 1), ("typeIIc", 1), ("typeIId", 2), ("mori2006", 3), ("rigid", 1)]

theorem diagonal_only : ∀ x ∈ diagonalMoves, ∃ p, (x.1, p) ∈ Pat.table ∧ ∃ k, OnlyMove (rulesOf p) 1 1 x.2 k := by
  have key : (diagonalMoves.all fun x => onlyCheck 1 1 x.2 x.1) = true := by decide +kernel
  exact fun x hx => onlyCheck_sound (List.all_eq_true.1 key x hx)

/-- **C80** (lock-step).  A Sakoe-Chiba band narrower than one cell and series of the same length: element `i` is matched with element
`i`, and the distance is the sum of the local costs of these pairs in this order, those after the first one at the weight of the
pattern's diagonal step (`diagonalMoves`).  Any arithmetic, any costs (infinities and NaN included). -/
theorem C80_lockstep {w0 : ℚ} {q : String × StepPattern} (hq : q ∈ Pat.table) (hd : (q.1, w) ∈ diagonalMoves)
    (h : Problem a n n L W q.2 (rulesOf q.2)) (hob : a.openBegin = false) (hoe : a.openEnd = false)
    (hu : Uses a "sakoechiba" [("window_size", w0)]) (h0 : 0 ≤ w0) (h1 : w0 < 1) :
    ((∃ r, dtw A a = .ok r) ↔ usable (along A L w 1 1 (n - 1)) ∨ (n = 1 ∧ L 0 0 = pinf)) ∧
    ∀ r, dtw A a = .ok r → r.distance = along A L w 1 1 (n - 1) ∧
      ∀ mp, r.mapping = some mp → mp.index1 = (List.range n).map (fun (i : Nat) => (i : Int)) ∧ mp.index2 = mp.index1 ∧
        mp.index1s = mp.index1 ∧ mp.index2s = mp.index1 := by
  obtain ⟨p, hp, k, ho⟩ := diagonal_only _ hd
  have hpq : p = q.2 := by
    have : ∀ q ∈ Pat.table, Pat.table.lookup q.1 = some q.2 := by decide +kernel
    exact Option.some.inj ((this _ hp).symm.trans (this q hq))
  subst hpq
  have hn := h.n_pos
  have hcell := fun {i j : Nat} (hi : i < n) (hj : j < n) => C37_cells h hob hu hi hj
  have hc : Confined (rulesOf q.2) W n n 1 1 := confined_diagonal fun i hi j hj hW => by
    have := (hcell hi hj).1 hW
    have h3 : |(i : ℤ) - j| < 1 := by
      have : |(i : ℚ) - j| < 1 := _root_.lt_of_le_of_lt this h1
      exact_mod_cast this
    have := abs_lt.1 h3
    omega
  obtain ⟨g1, g2⟩ := C80_line (A := A) (T := n - 1) ho (by decide) hc h hob hoe (by omega) (by omega) (fun s _ hs => by
    refine (hcell (by omega) (by omega)).2 ?_
    simpa using h0)
  have en : n - 1 + 1 = n := by omega
  refine ⟨?_, fun r hr => ⟨(g2 r hr).1, fun mp hmp => ?_⟩⟩
  · rw [g1]
    constructor <;> rintro (h | ⟨h, h'⟩)
    · exact .inl h
    · exact .inr ⟨by omega, h'⟩
    · exact .inl h
    · exact .inr ⟨by omega, h'⟩
  · obtain ⟨_, e1, e2, e3, e4⟩ := (g2 r hr).2 mp hmp
    rw [en] at e1 e2
    rw [e3, e4, e2, e1]
    simp

/-! ### A single element -/

theorem confined_row : Confined rs W 1 m 0 1 := fun i j hi _ _ _ => ⟨j, by omega, by omega⟩
theorem confined_column : Confined rs W n 1 1 0 := fun i j _ hj _ _ => ⟨i, by omega, by omega⟩

theorem single_moves : (∀ s ∈ ["symmetric1", "symmetric2", "symmetricP0"], ∃ p, (s, p) ∈ Pat.table ∧
      ∃ k, OnlyMove (rulesOf p) 0 1 1 k) ∧
    ∀ s ∈ ["symmetric1", "symmetric2", "symmetricP0", "asymmetric", "asymmetricP0", "_asymmetricP0b"], ∃ p, (s, p) ∈ Pat.table ∧
      ∃ k, OnlyMove (rulesOf p) 1 0 1 k := by
  have k1 : (["symmetric1", "symmetric2", "symmetricP0"].all fun s => onlyCheck 0 1 1 s) = true := by decide +kernel
  have k2 : (["symmetric1", "symmetric2", "symmetricP0", "asymmetric", "asymmetricP0", "_asymmetricP0b"].all
    fun s => onlyCheck 1 0 1 s) = true := by decide +kernel
  exact ⟨fun s hs => onlyCheck_sound (List.all_eq_true.1 k1 s hs), fun s hs => onlyCheck_sound (List.all_eq_true.1 k2 s hs)⟩

theorem table_unique {s : String} {p p' : StepPattern} (h : (s, p) ∈ Pat.table) (h' : (s, p') ∈ Pat.table) : p = p' := by
  have : ∀ q ∈ Pat.table, Pat.table.lookup q.1 = some q.2 := by decide +kernel
  exact Option.some.inj ((this _ h).symm.trans (this _ h'))

/-- **C80** (single query element).  A query of one element, no window, symmetric1, symmetric2 or symmetricP0: it is matched with every
reference element and the distance is the sum of the local costs, in order. -/
theorem C80_single_query {q : String × StepPattern} (hq : q ∈ Pat.table) (hs : q.1 ∈ ["symmetric1", "symmetric2", "symmetricP0"])
    (h : Problem a 1 m L (fun _ _ => true) q.2 (rulesOf q.2)) (hob : a.openBegin = false) (hoe : a.openEnd = false) :
    ((∃ r, dtw A a = .ok r) ↔ usable (along A L 1 0 1 (m - 1)) ∨ (m = 1 ∧ L 0 0 = pinf)) ∧
    ∀ r, dtw A a = .ok r → r.distance = along A L 1 0 1 (m - 1) ∧
      ∀ mp, r.mapping = some mp → mp.index1 = List.replicate m 0 ∧ mp.index2 = (List.range m).map (fun (j : Nat) => (j : Int)) := by
  obtain ⟨p, hp, k, ho⟩ := single_moves.1 _ hs
  obtain rfl := table_unique hp hq
  have hm := h.m_pos
  have em : m - 1 + 1 = m := by omega
  obtain ⟨g1, g2⟩ := C80_line (A := A) (T := m - 1) ho (by decide) confined_row h hob hoe (by omega) (by omega) (fun _ _ _ => rfl)
  refine ⟨?_, fun r hr => ⟨(g2 r hr).1, fun mp hmp => ?_⟩⟩
  · rw [g1]
    constructor <;> rintro (h | ⟨h, h'⟩)
    · exact .inl h
    · exact .inr ⟨by omega, h'⟩
    · exact .inl h
    · exact .inr ⟨by omega, h'⟩
  · obtain ⟨_, e1, e2, -, -⟩ := (g2 r hr).2 mp hmp
    rw [em] at e1 e2
    rw [e1, e2]
    exact ⟨by simp [List.map_const'], by simp⟩

/-- **C80** (single reference element).  A reference of one element, no window, symmetric1, symmetric2, symmetricP0 or the asymmetric
patterns that may stay on a reference element: every query element is matched with it, and the distance is the sum of the local costs. -/
theorem C80_single_reference {q : String × StepPattern} (hq : q ∈ Pat.table)
    (hs : q.1 ∈ ["symmetric1", "symmetric2", "symmetricP0", "asymmetric", "asymmetricP0", "_asymmetricP0b"])
    (h : Problem a n 1 L (fun _ _ => true) q.2 (rulesOf q.2)) (hob : a.openBegin = false) (hoe : a.openEnd = false) :
    ((∃ r, dtw A a = .ok r) ↔ usable (along A L 1 1 0 (n - 1)) ∨ (n = 1 ∧ L 0 0 = pinf)) ∧
    ∀ r, dtw A a = .ok r → r.distance = along A L 1 1 0 (n - 1) ∧
      ∀ mp, r.mapping = some mp → mp.index1 = (List.range n).map (fun (i : Nat) => (i : Int)) ∧ mp.index2 = List.replicate n 0 := by
  obtain ⟨p, hp, k, ho⟩ := single_moves.2 _ hs
  obtain rfl := table_unique hp hq
  have hn := h.n_pos
  have en : n - 1 + 1 = n := by omega
  obtain ⟨g1, g2⟩ := C80_line (A := A) (T := n - 1) ho (by decide) confined_column h hob hoe (by omega) (by omega) (fun _ _ _ => rfl)
  refine ⟨?_, fun r hr => ⟨(g2 r hr).1, fun mp hmp => ?_⟩⟩
  · rw [g1]
    constructor <;> rintro (h | ⟨h, h'⟩)
    · exact .inl h
    · exact .inr ⟨by omega, h'⟩
    · exact .inl h
    · exact .inr ⟨by omega, h'⟩
  · obtain ⟨_, e1, e2, -, -⟩ := (g2 r hr).2 mp hmp
    rw [en] at e1 e2
    rw [e1, e2]
    exact ⟨by simp, by simp [List.map_const']⟩

/-! ### In exact arithmetic: sums -/

theorem along_exact {u v : Nat} : ∀ t, along Arith.exact (fun i j => fin (ℓ i j)) w u v t =
    fin (ℓ 0 0 + w * ∑ s ∈ Finset.range t, ℓ ((s + 1) * u) ((s + 1) * v))
  | 0 => by simp [along]
  | t + 1 => by
    rw [along, along_exact t, Finset.sum_range_succ]
    have e : ∀ x y z : ℚ, Arith.exact.mac (fin x) (Arith.exact.rnd y) (fin z) = fin (x + y * z) := fun _ _ _ => rfl
    rw [e]
    congr 1
    ring

/-- **C80** (lock-step, exact): for finite costs the call succeeds, and the distance is `ℓ 0 0 + w (ℓ 1 1 + … + ℓ (n-1) (n-1))`. -/
theorem C80_lockstep_exact {w0 : ℚ} {q : String × StepPattern} (hq : q ∈ Pat.table) (hd : (q.1, w) ∈ diagonalMoves)
    (h : Problem a n n (fun i j => fin (ℓ i j)) W q.2 (rulesOf q.2)) (hob : a.openBegin = false) (hoe : a.openEnd = false)
    (hu : Uses a "sakoechiba" [("window_size", w0)]) (h0 : 0 ≤ w0) (h1 : w0 < 1) :
    ∃ r, dtw Arith.exact a = .ok r ∧ r.distance = fin (ℓ 0 0 + w * ∑ i ∈ Finset.range (n - 1), ℓ (i + 1) (i + 1)) := by
  obtain ⟨g1, g2⟩ := C80_lockstep (A := Arith.exact) hq hd h hob hoe hu h0 h1
  rw [along_exact] at g1
  obtain ⟨r, hr⟩ := g1.2 (.inl rfl)
  refine ⟨r, hr, ?_⟩
  rw [(g2 r hr).1, along_exact]
  simp

/-- **C80** (series).  Two series of the same length in a band of width zero with a pattern whose diagonal step has weight 1 (symmetric1,
asymmetric, rigid, …): the distance is the sum of `|x_i - y_i|`. -/
theorem C80_series {w0 : ℚ} {q : String × StepPattern} {o : Args} {x y : List ℚ} (hxy : x.length = y.length) (hx : 0 < x.length)
    (hsz : (x.length + 1) * x.length < 2147483648) (hq : q ∈ Pat.table) (hd : (q.1, (1 : ℚ)) ∈ diagonalMoves)
    (hp : o.stepPattern = .name q.1) (hob : o.openBegin = false) (hoe : o.openEnd = false)
    (hu : Uses o "sakoechiba" [("window_size", w0)]) (h0 : 0 ≤ w0) (h1 : w0 < 1) :
    ∃ r, dtw Arith.exact (ask o x y) = .ok r ∧ r.distance = fin ((x.zip y).map fun z => |z.1 - z.2|).sum := by
  have hs : Sensible o x.length y.length (bandOf w0) q := sensible_band hx (hxy ▸ hx) (by rw [← hxy]; exact hsz) hq hp hu
  have h := ask_problem hs
  rw [← hxy] at h
  obtain ⟨r, hr, hd⟩ := C80_lockstep_exact hq hd h hob hoe ⟨hu.type, hu.args⟩ h0 h1
  refine ⟨r, hr, ?_⟩
  rw [hd]
  congr 1
  have key : ∀ k ≤ x.length, (((x.zip y).take k).map fun z => |z.1 - z.2|).sum = ∑ i ∈ Finset.range k, gap x y i i := by
    intro k
    induction k with
    | zero => simp
    | succ k ih =>
      intro hk
      have hk' : k < (x.zip y).length := by simp; omega
      rw [List.take_succ_eq_append_getElem hk', List.map_append, List.sum_append, ih (by omega), Finset.sum_range_succ]
      simp [gap, List.getD, show k < x.length by omega, show k < y.length by omega]
  have := key x.length (_root_.le_refl _)
  rw [List.take_of_length_le (by simp)] at this
  rw [this, show x.length = x.length - 1 + 1 by omega, Finset.sum_range_succ']
  simp
  ring

/-! ### Witnesses -/

/-- symmetric2 with `window_size = 0` on a 4 × 4 problem. -/
def Ex.zero (s : String) : Args :=
  { Ex.call 4 4 (fun i j => fin (Ex.lat i j)) s with windowType := .name "sakoechiba", windowArgs := [("window_size", 0)] }

theorem Ex.zero_problem (q : String × StepPattern) (hq : q ∈ Pat.table) :
    Problem (Ex.zero q.1) 4 4 (fun i j => fin (Ex.lat i j)) (bandOf 0) q.2 (rulesOf q.2) where
  n_pos := by decide
  m_pos := by decide
  cost := .matrix rfl rfl rfl rfl
  pattern := (Ex.lat_problem q hq).pattern
  wf := table_wf q hq
  fits := table_fits (n := 4) (m := 4) (by decide) q hq
  window := (sensible_band (q := q) (o := Ex.zero q.1) (n := 4) (m := 4) (w := 0) (by decide) (by decide) (by decide) hq rfl
    ⟨rfl, rfl⟩).window

example : ∃ r, dtw Arith.exact (Ex.zero "symmetric2") = .ok r ∧ r.distance = fin (0 + 2 * (2 + 1 + 2)) := by
  obtain ⟨r, hr, hd⟩ := C80_lockstep_exact (w := 2) Ex.sym2_mem (by decide +kernel) (Ex.zero_problem _ Ex.sym2_mem) rfl rfl ⟨rfl, rfl⟩
    (_root_.le_refl 0) zero_lt_one
  refine ⟨r, hr, ?_⟩
  rw [hd]
  decide +kernel

/-- `typeIIIc` is not in the list: its step of (2, 2) charges a cell off the diagonal (outside the window, which is only looked at
where a step ends), here a cheap one, and the distance 0 + 0 + 2 is less than the lock-step sum 3. -/
example : (dtw Arith.exact { Ex.call 3 3 (fun i j => fin (if i = 0 ∧ j = 0 then 0 else if i = 1 ∧ j = 2 then 0 else if i = 1 then 1 else 2))
    "typeIIIc" with windowType := .name "sakoechiba", windowArgs := [("window_size", 0)] }).toOption.map (·.distance) = some (fin 2) := by
  decide +kernel

/-- One query element against five. -/
example : ∃ r, dtw Arith.exact (Ex.call 1 5 (fun i j => fin (Ex.lat i j)) "symmetric1") = .ok r ∧ r.distance = fin 6 := by
  have h := bundled_problem (n := 1) (m := 5) (by decide) (by decide) (by decide) (fun i j => fin (Ex.lat i j)) _ Ex.sym1_mem
  obtain ⟨g1, g2⟩ := C80_single_query (A := Arith.exact) Ex.sym1_mem (by decide) h rfl rfl
  rw [along_exact] at g1
  obtain ⟨r, hr⟩ := g1.2 (.inl rfl)
  refine ⟨r, hr, ?_⟩
  rw [(g2 r hr).1, along_exact]
  decide +kernel

/-- Options of a call in a band of width zero. -/
def Ex.zeroOptions : Args :=
  { x := .d1 []
    stepPattern := .name "asymmetric"
    windowType := .name "sakoechiba"
    windowArgs := [("window_size", 0)] }

/-- Two series in lock-step, whatever their values. -/
example (x1 x2 x3 y1 y2 y3 : ℚ) : ∃ r, dtw Arith.exact (ask Ex.zeroOptions [x1, x2, x3] [y1, y2, y3]) = .ok r ∧
    r.distance = fin (|x1 - y1| + (|x2 - y2| + (|x3 - y3| + 0))) :=
  C80_series rfl (by simp) (by simp) Ex.asym_mem (by decide +kernel) rfl rfl rfl ⟨rfl, rfl⟩ (_root_.le_refl 0) zero_lt_one

end DTW
