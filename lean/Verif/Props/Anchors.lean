import Verif.Props.Suffix
import Verif.Props.Averaging
import Verif.Props.TextbookDoubles

/-!
# C95: alignments through a given pair

What the best alignment costs that matches a given query element with a given reference element; halving the problem.
-/

namespace DTW
open F64

variable {a a1 a2 : Args} {n m : Nat} {ℓ : Nat → Nat → ℚ} {W : Nat → Nat → Bool} {p : StepPattern} {rs : List Rule} {r r1 r2 : Result}
  {mp : Mapping} {i j : Nat}

theorem mem_coarse_append (rs : List Rule) (tl : List Int) : ∀ (ks : List Int) (i j : Int) (x : Int × Int),
    x ∈ coarse rs i j ks → x ∈ coarse rs i j (ks ++ tl)
  | [], i, j, x, h => by
    obtain rfl : x = (i, j) := by simpa [coarse] using h
    cases tl with
    | nil => simp [coarse]
    | cons k tl =>
      rw [List.nil_append, coarse]
      split <;> simp
  | k :: ks, i, j, x, h => by
    rw [List.cons_append]
    rw [coarse] at h ⊢
    split at h
    · rename_i q hq
      rcases List.mem_cons.1 h with h | h
      · exact List.mem_cons.2 (.inl h)
      · exact List.mem_cons.2 (.inr (mem_coarse_append rs tl ks _ _ x h))
    · exact h

theorem WarpPath.end_mem {A : Arith} {L : Nat → Nat → F64} {ks : List Int} {c : F64} (h : WarpPath A rs W L ks i j c) :
    ((i : Int), (j : Int)) ∈ coarse rs 0 0 ks := by
  cases h with
  | start => simp [coarse]
  | step k q hp hq _ =>
    have hs := hp.toWalk.coarse_snoc hq
    rw [show ((0 : Nat) : Int) = 0 from rfl] at hs
    rw [hs]
    simp

/-- Cutting an alignment at a corner point. -/
theorem WarpPath.cut (hv : ∀ q ∈ rs, q.Valid) {ks : List Int} {u v : Nat} {c : F64}
    (h : WarpPath Arith.exact rs W (fun i j => fin (ℓ i j)) ks u v c) (hm : ((i : Int), (j : Int)) ∈ coarse rs 0 0 ks) :
    ∃ ks1 ks2 c1 c2, ks = ks1 ++ ks2 ∧ i ≤ u ∧ j ≤ v ∧ WarpPath Arith.exact rs W (fun i j => fin (ℓ i j)) ks1 i j (fin c1) ∧
      WarpPath Arith.exact rs (fun u v => W (i + u) (j + v)) (fun u v => fin (ℓ (i + u) (j + v))) ks2 (u - i) (v - j) (fin c2) ∧
      c = fin (c1 + c2 - ℓ i j) := by
  induction h with
  | start =>
    simp only [coarse, List.mem_singleton, Prod.mk.injEq] at hm
    obtain ⟨h1, h2⟩ := hm
    obtain rfl : i = 0 := by omega
    obtain rfl : j = 0 := by omega
    exact ⟨[], [], ℓ 0 0, ℓ 0 0, rfl, le_rfl, le_rfl, .start, .start, by simp⟩
  | @step ks u v c k q hp hq hW ih =>
    have hs := hp.toWalk.coarse_snoc hq
    rw [show ((0 : Nat) : Int) = 0 from rfl] at hs
    rw [hs] at hm
    rcases List.mem_append.1 hm with hm | hm
    · obtain ⟨ks1, ks2, c1, c2, e, hi, hj, h1, h2, rfl⟩ := ih hm
      obtain ⟨c3, e1, e2⟩ := charge_add (fun u v => ℓ (i + u) (j + v)) q (u - i + q.a) (v - j + q.b) c2 (c1 - ℓ i j)
      have hs2 := WarpPath.step (W := fun u v => W (i + u) (j + v)) k q h2 hq (by
        rw [show i + (u - i + q.a) = u + q.a by omega, show j + (v - j + q.b) = v + q.b by omega]
        exact hW)
      rw [e1] at hs2
      refine ⟨ks1, ks2 ++ [(k : Int) + 1], c1, c3, by rw [e, List.append_assoc], by omega, by omega, h1, ?_, ?_⟩
      · rw [show u + q.a - i = u - i + q.a by omega, show v + q.b - j = v - j + q.b by omega]
        exact hs2
      · have e3 := charge_block (A := Arith.exact) (L := fun i j => fin (ℓ i j)) (L2 := fun u v => fin (ℓ (i + u) (j + v)))
          (n1 := i) (m1 := j) (r := q) (i := u - i) (j := v - j) (hv q (List.mem_of_getElem? hq)) (fun _ _ _ _ => rfl)
          (fin (c1 + c2 - ℓ i j))
        rw [show i + (u - i) + q.a = u + q.a by omega, show j + (v - j) + q.b = v + q.b by omega] at e3
        rw [e3, show c1 + c2 - ℓ i j = c1 - ℓ i j + c2 by ring, e2]
        congr 1
        ring
    · simp only [List.mem_singleton, Prod.mk.injEq] at hm
      obtain ⟨g1, g2⟩ := hm
      obtain rfl : i = u + q.a := by omega
      obtain rfl : j = v + q.b := by omega
      obtain ⟨c', hc'⟩ := hp.finite
      obtain ⟨c3, e1, -⟩ := charge_add ℓ q (u + q.a) (v + q.b) c' 0
      have hs2 := WarpPath.step k q hp hq hW
      rw [hc', e1] at hs2
      refine ⟨_, [], c3, ℓ (u + q.a) (v + q.b), (List.append_nil _).symm, le_rfl, le_rfl, hs2, ?_, ?_⟩
      · rw [Nat.sub_self, Nat.sub_self]
        exact .start
      · rw [hc', e1]; simp

/-- **C95** The whole call, the call about the beginnings `query[:i+1]`, `reference[:j+1]` and the call about the endings `query[i:]`,
`reference[j:]` (closed ends). -/
structure CutAt (a a1 a2 : Args) (n m i j : Nat) (ℓ : Nat → Nat → ℚ) (W : Nat → Nat → Bool) (p : StepPattern) (rs : List Rule) : Prop where
  row : i < n
  column : j < m
  whole : Problem a n m (fun i j => fin (ℓ i j)) W p rs
  beginning : Problem a1 (i + 1) (j + 1) (fun i j => fin (ℓ i j)) W p rs
  ending : Problem a2 (n - i) (m - j) (fun u v => fin (ℓ (i + u) (j + v))) (fun u v => W (i + u) (j + v)) p rs
  closed : a.openBegin = false ∧ a.openEnd = false
  closed1 : a1.openBegin = false ∧ a1.openEnd = false
  closed2 : a2.openBegin = false ∧ a2.openEnd = false

/-- **C95** (exact arithmetic, any step pattern, any window).  If the beginnings and the endings can be aligned, then the best alignment of
the whole that has the corner point `(i,j)` costs the two distances minus the local cost of the pair (charged by both): there is such an
alignment, none is cheaper, and the distance of the whole is not larger. -/
theorem C95_through (h : CutAt a a1 a2 n m i j ℓ W p rs) (hr1 : dtw Arith.exact a1 = .ok r1) (hr2 : dtw Arith.exact a2 = .ok r2) :
    ∃ d1 d2, r1.distance = fin d1 ∧ r2.distance = fin d2 ∧
      (∃ ks, WarpPath Arith.exact rs W (fun i j => fin (ℓ i j)) ks (n - 1) (m - 1) (fin (d1 + d2 - ℓ i j)) ∧
        ((i : Int), (j : Int)) ∈ coarse rs 0 0 ks) ∧
      (∀ ks c, WarpPath Arith.exact rs W (fun i j => fin (ℓ i j)) ks (n - 1) (m - 1) (fin c) →
        ((i : Int), (j : Int)) ∈ coarse rs 0 0 ks → d1 + d2 - ℓ i j ≤ c) ∧
      ∃ r d, dtw Arith.exact a = .ok r ∧ r.distance = fin d ∧ d ≤ d1 + d2 - ℓ i j := by
  have hi := h.row
  have hj := h.column
  obtain ⟨⟨ks1, p1⟩, o1⟩ := C01_distance_optimal h.beginning h.closed1.1 h.closed1.2 hr1
  obtain ⟨⟨ks2, p2⟩, o2⟩ := C01_distance_optimal h.ending h.closed2.1 h.closed2.2 hr2
  obtain ⟨d1, e1⟩ := p1.finite
  obtain ⟨d2, e2⟩ := p2.finite
  rw [e1] at p1 o1
  rw [e2] at p2 o2
  rw [Nat.add_sub_cancel, Nat.add_sub_cancel] at p1
  obtain ⟨c', ec, hp⟩ := WarpPath.extend (n2 := n - i) (m2 := m - j) h.whole.wf.valid (fun _ _ _ _ => rfl) (fun _ _ _ _ h => h) p1 p2
    (by omega) (by omega)
  obtain rfl := F64.fin.inj ec
  rw [show i + (n - i - 1) = n - 1 by omega, show j + (m - j - 1) = m - 1 by omega, Nat.add_zero, Nat.add_zero,
    show d1 - ℓ i j + d2 = d1 + d2 - ℓ i j by ring] at hp
  refine ⟨d1, d2, e1, e2, ⟨_, hp, mem_coarse_append _ _ _ _ _ _ p1.end_mem⟩, fun ks c hq hm => ?_, ?_⟩
  · obtain ⟨k1, k2, c1, c2, -, -, -, q1, q2, e⟩ := hq.cut h.whole.wf.valid hm
    have b1 := o1 k1 (fin c1) (by rw [Nat.add_sub_cancel, Nat.add_sub_cancel]; exact q1) (by simp)
    have b2 := o2 k2 (fin c2) (by
      rw [show n - i - 1 = n - 1 - i by omega, show m - j - 1 = m - 1 - j by omega]; exact q2) (by simp)
    rw [F64.le_fin] at b1 b2
    have := F64.fin.inj e
    linarith
  · obtain ⟨r, hr⟩ := (C02_no_path_iff h.whole h.closed.1 h.closed.2).2.2 (.inl ⟨_, _, hp, by simp⟩)
    obtain ⟨d, hd⟩ := closed_begin_finite h.whole h.closed.1 hr
    refine ⟨r, d, hr, hd, ?_⟩
    have := (C01_distance_optimal h.whole h.closed.1 h.closed.2 hr).2 _ _ hp (by simp)
    rwa [hd, F64.le_fin] at this

/-- **C95** If the beginnings or the endings cannot be aligned, no alignment of the whole has the corner point `(i,j)`. -/
theorem C95_impossible (h : CutAt a a1 a2 n m i j ℓ W p rs)
    (hf : (¬ ∃ r1, dtw Arith.exact a1 = .ok r1) ∨ ¬ ∃ r2, dtw Arith.exact a2 = .ok r2) {ks : List Int} {c : F64}
    (hp : WarpPath Arith.exact rs W (fun i j => fin (ℓ i j)) ks (n - 1) (m - 1) c) : ((i : Int), (j : Int)) ∉ coarse rs 0 0 ks := by
  intro hm
  obtain ⟨k1, k2, c1, c2, -, -, -, q1, q2, -⟩ := hp.cut h.whole.wf.valid hm
  have hi := h.row
  have hj := h.column
  rcases hf with hf | hf
  · exact hf ((C02_no_path_iff h.beginning h.closed1.1 h.closed1.2).2.2 (.inl ⟨k1, fin c1, by
      rw [Nat.add_sub_cancel, Nat.add_sub_cancel]; exact q1, by simp⟩))
  · exact hf ((C02_no_path_iff h.ending h.closed2.1 h.closed2.2).2.2 (.inl ⟨k2, fin c2, by
      rw [show n - i - 1 = n - 1 - i by omega, show m - j - 1 = m - 1 - j by omega]; exact q2, by simp⟩))

/-- **C95** Some optimal alignment has the corner point `(i,j)` exactly when the distances of the beginnings and of the endings add up to
that of the whole plus the local cost of the pair. -/
theorem C95_on_optimal (h : CutAt a a1 a2 n m i j ℓ W p rs) (hr : dtw Arith.exact a = .ok r) :
    (∃ ks, WarpPath Arith.exact rs W (fun i j => fin (ℓ i j)) ks (n - 1) (m - 1) r.distance ∧ ((i : Int), (j : Int)) ∈ coarse rs 0 0 ks) ↔
    ∃ r1 r2 d d1 d2, dtw Arith.exact a1 = .ok r1 ∧ dtw Arith.exact a2 = .ok r2 ∧ r.distance = fin d ∧ r1.distance = fin d1 ∧
      r2.distance = fin d2 ∧ d + ℓ i j = d1 + d2 := by
  obtain ⟨d, hd⟩ := closed_begin_finite h.whole h.closed.1 hr
  constructor
  · rintro ⟨ks, hp, hm⟩
    by_cases hf : (∃ r1, dtw Arith.exact a1 = .ok r1) ∧ ∃ r2, dtw Arith.exact a2 = .ok r2
    · obtain ⟨⟨r1, hr1⟩, r2, hr2⟩ := hf
      obtain ⟨d1, d2, e1, e2, -, b1, r', d', hr', hd', b2⟩ := C95_through h hr1 hr2
      rw [hr] at hr'
      obtain rfl : r = r' := by injection hr'
      obtain rfl : d = d' := F64.fin.inj (hd.symm.trans hd')
      rw [hd] at hp
      have := b1 ks d hp hm
      exact ⟨r1, r2, d, d1, d2, hr1, hr2, hd, e1, e2, by linarith⟩
    · exact absurd hm (C95_impossible h (not_and_or.1 hf) hp)
  · rintro ⟨r1, r2, d', d1, d2, hr1, hr2, hd', e1, e2, e⟩
    obtain ⟨d1', d2', e1', e2', ⟨ks, hp, hm⟩, -⟩ := C95_through h hr1 hr2
    obtain rfl := F64.fin.inj (e1.symm.trans e1')
    obtain rfl := F64.fin.inj (e2.symm.trans e2')
    refine ⟨ks, ?_, hm⟩
    rw [hd', show d' = d1 + d2 - ℓ i j by linarith]
    exact hp

theorem WarpPath.row_corner (ha : ∀ q ∈ rs, q.a ≤ 1) {A : Arith} {L : Nat → Nat → F64} {ks : List Int} {u v : Nat} {c : F64}
    (h : WarpPath A rs W L ks u v c) (hi : i ≤ u) : ∃ j ≤ v, ((i : Int), (j : Int)) ∈ coarse rs 0 0 ks := by
  induction h with
  | start => exact ⟨0, le_rfl, by obtain rfl : i = 0 := by omega
                                  simp [coarse]⟩
  | @step ks u v c k q hp hq hW ih =>
    have hs := hp.toWalk.coarse_snoc hq
    rw [show ((0 : Nat) : Int) = 0 from rfl] at hs
    have := ha q (List.mem_of_getElem? hq)
    rcases Nat.lt_or_ge u i with hlt | hge
    · refine ⟨v + q.b, le_rfl, ?_⟩
      obtain rfl : i = u + q.a := by omega
      rw [hs]; simp
    · obtain ⟨j, hj, hm⟩ := ih hge
      exact ⟨j, by omega, by rw [hs]; exact List.mem_append_left _ hm⟩

/-- **C95**, divide and conquer.  For patterns that advance by at most one query element per step: cut the query at any element `i`.  The
distance is the least, over the reference elements `j`, of the distance of the beginnings plus the distance of the endings minus the local
cost of the pair - of those `j` for which both can be aligned; and the call succeeds exactly when there is one. -/
theorem C95_halves (ha : ∀ q ∈ rs, q.a ≤ 1) {b1 b2 : Nat → Args} (h : ∀ j < m, CutAt a (b1 j) (b2 j) n m i j ℓ W p rs) (hm : 0 < m) :
    ((∃ r, dtw Arith.exact a = .ok r) ↔
      ∃ j < m, (∃ r1, dtw Arith.exact (b1 j) = .ok r1) ∧ ∃ r2, dtw Arith.exact (b2 j) = .ok r2) ∧
    ∀ r, dtw Arith.exact a = .ok r → ∃ d, r.distance = fin d ∧
      (∃ j < m, ∃ r1 r2 d1 d2, dtw Arith.exact (b1 j) = .ok r1 ∧ dtw Arith.exact (b2 j) = .ok r2 ∧ r1.distance = fin d1 ∧
        r2.distance = fin d2 ∧ d = d1 + d2 - ℓ i j) ∧
      ∀ j < m, ∀ r1 r2 d1 d2, dtw Arith.exact (b1 j) = .ok r1 → dtw Arith.exact (b2 j) = .ok r2 → r1.distance = fin d1 →
        r2.distance = fin d2 → d ≤ d1 + d2 - ℓ i j := by
  have h0 := h 0 hm
  have main : ∀ r, dtw Arith.exact a = .ok r → ∃ d, r.distance = fin d ∧
      (∃ j < m, ∃ r1 r2 d1 d2, dtw Arith.exact (b1 j) = .ok r1 ∧ dtw Arith.exact (b2 j) = .ok r2 ∧ r1.distance = fin d1 ∧
        r2.distance = fin d2 ∧ d = d1 + d2 - ℓ i j) ∧
      ∀ j < m, ∀ r1 r2 d1 d2, dtw Arith.exact (b1 j) = .ok r1 → dtw Arith.exact (b2 j) = .ok r2 → r1.distance = fin d1 →
        r2.distance = fin d2 → d ≤ d1 + d2 - ℓ i j := by
    intro r hr
    obtain ⟨⟨ks, hp⟩, -⟩ := C01_distance_optimal h0.whole h0.closed.1 h0.closed.2 hr
    have hi := h0.row
    obtain ⟨j, hj, hmem⟩ := hp.row_corner ha (i := i) (by omega)
    have hj' : j < m := by omega
    obtain ⟨r1, r2, d, d1, d2, hr1, hr2, e, e1, e2, hs⟩ := (C95_on_optimal (h j hj') hr).1 ⟨ks, hp, hmem⟩
    refine ⟨d, e, ⟨j, hj', r1, r2, d1, d2, hr1, hr2, e1, e2, by linarith⟩, ?_⟩
    intro j' hj' r1 r2 d1 d2 hr1 hr2 e1 e2
    obtain ⟨x1, x2, g1, g2, -, -, r', d', hr', hd', b⟩ := C95_through (h j' hj') hr1 hr2
    rw [hr] at hr'
    obtain rfl : r = r' := by injection hr'
    obtain rfl := F64.fin.inj (e.symm.trans hd')
    obtain rfl := F64.fin.inj (e1.symm.trans g1)
    obtain rfl := F64.fin.inj (e2.symm.trans g2)
    exact b
  refine ⟨⟨fun ⟨r, hr⟩ => ?_, fun ⟨j, hj, ⟨r1, hr1⟩, r2, hr2⟩ => ?_⟩, main⟩
  · obtain ⟨d, -, ⟨j, hj, r1, r2, d1, d2, hr1, hr2, -⟩, -⟩ := main r hr
    exact ⟨j, hj, ⟨r1, hr1⟩, r2, hr2⟩
  · obtain ⟨d1, d2, -, -, -, -, r, d, hr, -⟩ := C95_through (h j hj) hr1 hr2
    exact ⟨r, hr⟩

/-- **C95** The bundled patterns that advance by at most one query element per step. -/
theorem C95_bundled : (∀ q ∈ Pat.table, (∀ s ∈ rulesOf q.2, s.a ≤ 1) ↔
      q.1 ∈ ["symmetric1", "symmetric2", "asymmetric", "symmetricP0", "asymmetricP0", "_asymmetricP0b", "rigid",
        "_symmetricVelichkoZagoruyko"]) ∧
    ∀ e, ∀ s ∈ mvmRules e, s.a ≤ 1 := by
  refine ⟨?_, fun e q hq => ?_⟩
  · have key : (Pat.table.all fun q => decide ((∀ s ∈ rulesOf q.2, s.a ≤ 1) ↔
      q.1 ∈ ["symmetric1", "symmetric2", "asymmetric", "symmetricP0", "asymmetricP0", "_asymmetricP0b", "rigid",
        "_symmetricVelichkoZagoruyko"])) = true := by
      decide +kernel
    exact fun q hq => of_decide_eq_true (List.all_eq_true.1 key q hq)
  · unfold mvmRules at hq
    obtain ⟨k, -, rfl⟩ := List.mem_map.1 hq
    rfl

/-! ### In doubles -/

/-- The exact distances behind those of a call in doubles, with the error bound of a larger problem. -/
theorem double_near_in (f : Bool) {N M : Nat} (hNM : n + m ≤ N + M) (h : Problem a n m (fun i j => fin (ℓ i j)) W p rs) (hob : a.openBegin = false)
    (hoe : a.openEnd = false) (hw : ModestWeights rs) (hc : ∀ i < n, ∀ j < m, ModestCost (ℓ i j)) :
    ((∃ r, dtw (binary64 f) a = .ok r) ↔ ∃ r0, dtw Arith.exact a = .ok r0) ∧
    ∀ r r0, dtw (binary64 f) a = .ok r → dtw Arith.exact a = .ok r0 →
      ∃ d d0, r.distance = fin d ∧ r0.distance = fin d0 ∧ (1 - relError N M) * d0 ≤ d ∧ d ≤ (1 + relError N M) * d0 := by
  obtain ⟨e, near⟩ := double_near f h hob hoe hw hc
  refine ⟨e, fun r r0 hr hr0 => ?_⟩
  obtain ⟨d, d0, e1, e2, e3, -, e5, e6⟩ := near r r0 hr hr0
  have hle := mul_le_mul_of_nonneg_right (relError_mono hNM) e3
  exact ⟨d, d0, e1, e2, by linarith, by linarith⟩

/-- **C95** In doubles (weights not negative, costs 0 or between `2^-900` and `2^900`): if both parts can be aligned so can the whole, and its
distance is at most the sum of the distances of the parts minus the cost of the pair, up to factors `1 ± relError n m`. -/
theorem C95_doubles (f : Bool) (h : CutAt a a1 a2 n m i j ℓ W p rs) (hw : ModestWeights rs) (hc : ∀ i < n, ∀ j < m, ModestCost (ℓ i j))
    (hr1 : dtw (binary64 f) a1 = .ok r1) (hr2 : dtw (binary64 f) a2 = .ok r2) :
    ∃ r d d1 d2, dtw (binary64 f) a = .ok r ∧ r.distance = fin d ∧ r1.distance = fin d1 ∧ r2.distance = fin d2 ∧
      (1 - relError n m) * d ≤ (1 + relError n m) * (d1 + d2 - (1 - relError n m) * ℓ i j) := by
  have hi := h.row
  have hj := h.column
  have hε := relError_small (h.whole.fits_closed h.closed.1) (by omega) (by omega)
  have hε0 := relError_pos n m
  obtain ⟨x1, near1⟩ := double_near_in f (N := n) (M := m) (by omega) h.beginning h.closed1.1 h.closed1.2 hw
    (fun i' hi' j' hj' => hc i' (by omega) j' (by omega))
  obtain ⟨x2, near2⟩ := double_near_in f (N := n) (M := m) (by omega) h.ending h.closed2.1 h.closed2.2 hw
    (fun i' hi' j' hj' => hc _ (by omega) _ (by omega))
  obtain ⟨x, near⟩ := double_near_in f (N := n) (M := m) le_rfl h.whole h.closed.1 h.closed.2 hw hc
  obtain ⟨s1, hs1⟩ := x1.1 ⟨r1, hr1⟩
  obtain ⟨s2, hs2⟩ := x2.1 ⟨r2, hr2⟩
  obtain ⟨D1, D2, hD1, hD2, -, -, s, D, hs, hD, hle⟩ := C95_through h hs1 hs2
  obtain ⟨r, hr⟩ := x.2 ⟨s, hs⟩
  obtain ⟨d1, D1', e1, f1, g1, -⟩ := near1 r1 s1 hr1 hs1
  obtain ⟨d2, D2', e2, f2, g2, -⟩ := near2 r2 s2 hr2 hs2
  obtain ⟨d, D', e, f', -, g⟩ := near r s hr hs
  obtain rfl := F64.fin.inj (hD1.symm.trans f1)
  obtain rfl := F64.fin.inj (hD2.symm.trans f2)
  obtain rfl := F64.fin.inj (hD.symm.trans f')
  refine ⟨r, d, d1, d2, hr, e, e1, e2, ?_⟩
  generalize relError n m = ε at *
  have h1 : (1 - ε) * d ≤ (1 - ε) * ((1 + ε) * (D1 + D2 - ℓ i j)) :=
    mul_le_mul_of_nonneg_left (g.trans (mul_le_mul_of_nonneg_left hle (by linarith))) (by norm_num at hε; linarith)
  have h2 : (1 + ε) * ((1 - ε) * D1 + (1 - ε) * D2) ≤ (1 + ε) * (d1 + d2) := mul_le_mul_of_nonneg_left (by linarith) (by linarith)
  nlinarith

/-- **C95**, divide and conquer in doubles: the call succeeds exactly when some pair of parts does, and then, for some `j`, the sum of the
distances of the parts minus the cost of the pair is at most the distance of the whole, up to factors `1 ± relError n m` (by `C95_doubles`
it is at least that for every `j`). -/
theorem C95_halves_doubles (f : Bool) (ha : ∀ q ∈ rs, q.a ≤ 1) {b1 b2 : Nat → Args} (h : ∀ j < m, CutAt a (b1 j) (b2 j) n m i j ℓ W p rs)
    (hm : 0 < m) (hw : ModestWeights rs) (hc : ∀ i < n, ∀ j < m, ModestCost (ℓ i j)) :
    ((∃ r, dtw (binary64 f) a = .ok r) ↔
      ∃ j < m, (∃ r1, dtw (binary64 f) (b1 j) = .ok r1) ∧ ∃ r2, dtw (binary64 f) (b2 j) = .ok r2) ∧
    ∀ r, dtw (binary64 f) a = .ok r → ∃ d, r.distance = fin d ∧
      ∃ j < m, ∃ r1 r2 d1 d2, dtw (binary64 f) (b1 j) = .ok r1 ∧ dtw (binary64 f) (b2 j) = .ok r2 ∧ r1.distance = fin d1 ∧
        r2.distance = fin d2 ∧ (1 - relError n m) * (d1 + d2 - (1 + relError n m) * ℓ i j) ≤ (1 + relError n m) * d := by
  have h0 := h 0 hm
  have hi := h0.row
  have hε := relError_small (h0.whole.fits_closed h0.closed.1) (by omega) hm
  have hε0 := relError_pos n m
  obtain ⟨x, near⟩ := double_near_in f (N := n) (M := m) le_rfl h0.whole h0.closed.1 h0.closed.2 hw hc
  have part1 : ∀ j < m, _ := fun j hj => double_near_in f (N := n) (M := m) (by omega) (h j hj).beginning (h j hj).closed1.1 (h j hj).closed1.2 hw
    (fun i' hi' j' hj' => hc i' (by omega) j' (by omega))
  have part2 : ∀ j < m, _ := fun j hj => double_near_in f (N := n) (M := m) (by omega) (h j hj).ending (h j hj).closed2.1 (h j hj).closed2.2 hw
    (fun i' hi' j' hj' => hc _ (by omega) _ (by omega))
  obtain ⟨hex, hval⟩ := C95_halves ha h hm
  refine ⟨?_, fun r hr => ?_⟩
  · rw [x, hex]
    constructor
    · rintro ⟨j, hj, h1, h2⟩; exact ⟨j, hj, (part1 j hj).1.2 h1, (part2 j hj).1.2 h2⟩
    · rintro ⟨j, hj, h1, h2⟩; exact ⟨j, hj, (part1 j hj).1.1 h1, (part2 j hj).1.1 h2⟩
  · obtain ⟨s, hs⟩ := x.1 ⟨r, hr⟩
    obtain ⟨D, hD, ⟨j, hj, s1, s2, D1, D2, hs1, hs2, hD1, hD2, hsum⟩, -⟩ := hval s hs
    obtain ⟨r1, hr1⟩ := (part1 j hj).1.2 ⟨s1, hs1⟩
    obtain ⟨r2, hr2⟩ := (part2 j hj).1.2 ⟨s2, hs2⟩
    obtain ⟨d, D', e, f', g, -⟩ := near r s hr hs
    obtain ⟨d1, D1', e1, f1, -, g1⟩ := (part1 j hj).2 r1 s1 hr1 hs1
    obtain ⟨d2, D2', e2, f2, -, g2⟩ := (part2 j hj).2 r2 s2 hr2 hs2
    obtain rfl := F64.fin.inj (hD1.symm.trans f1)
    obtain rfl := F64.fin.inj (hD2.symm.trans f2)
    obtain rfl := F64.fin.inj (hD.symm.trans f')
    refine ⟨d, e, j, hj, r1, r2, d1, d2, hr1, hr2, e1, e2, ?_⟩
    generalize relError n m = ε at *
    have h1 : (1 - ε) * (d1 + d2) ≤ (1 - ε) * ((1 + ε) * D1 + (1 + ε) * D2) :=
      mul_le_mul_of_nonneg_left (by linarith) (by norm_num at hε; linarith)
    have h2 : (1 + ε) * ((1 - ε) * D) ≤ (1 + ε) * d := mul_le_mul_of_nonneg_left g (by linarith)
    rw [hsum] at h2
    nlinarith

/-! ### Examples -/

theorem Ex.cut {n m i j : Nat} (hi : i < n) (hj : j < m) (hnm : n * m < 2147483648) (ℓ : Nat → Nat → ℚ) (q : String × StepPattern)
    (hq : q ∈ Pat.table) :
    CutAt (Ex.call n m (fun i j => fin (ℓ i j)) q.1) (Ex.call (i + 1) (j + 1) (fun i j => fin (ℓ i j)) q.1)
      (Ex.call (n - i) (m - j) (fun u v => fin (ℓ (i + u) (j + v))) q.1) n m i j ℓ (fun _ _ => true) q.2 (rulesOf q.2) where
  row := hi
  column := hj
  whole := bundled_problem (by omega) (by omega) hnm _ q hq
  beginning := bundled_problem (by omega) (by omega) (lt_of_le_of_lt (Nat.mul_le_mul hi hj) hnm) _ q hq
  ending := bundled_problem (by omega) (by omega) (lt_of_le_of_lt (Nat.mul_le_mul (Nat.sub_le _ _) (Nat.sub_le _ _)) hnm) _ q hq
  closed := ⟨rfl, rfl⟩
  closed1 := ⟨rfl, rfl⟩
  closed2 := ⟨rfl, rfl⟩

def Ex.cutCost (i j : Nat) : ℚ := ((3 * i + 5 * j + i * j) % 7 : Nat)

/-- A 4 x 5 alignment with `symmetric2` through the pair (1, 3). -/
example : ∃ r r1 r2 d d1 d2, dtw Arith.exact (Ex.call 4 5 (fun i j => fin (Ex.cutCost i j)) "symmetric2") = .ok r ∧
    dtw Arith.exact (Ex.call 2 4 (fun i j => fin (Ex.cutCost i j)) "symmetric2") = .ok r1 ∧
    dtw Arith.exact (Ex.call 3 2 (fun u v => fin (Ex.cutCost (1 + u) (3 + v))) "symmetric2") = .ok r2 ∧
    r.distance = fin d ∧ r1.distance = fin d1 ∧ r2.distance = fin d2 ∧ d ≤ d1 + d2 - Ex.cutCost 1 3 := by
  obtain ⟨r1, hr1⟩ := Ex.get_ok (x := dtw Arith.exact (Ex.call 2 4 (fun i j => fin (Ex.cutCost i j)) "symmetric2")) (by decide +kernel)
  obtain ⟨r2, hr2⟩ := Ex.get_ok
    (x := dtw Arith.exact (Ex.call 3 2 (fun u v => fin (Ex.cutCost (1 + u) (3 + v))) "symmetric2")) (by decide +kernel)
  obtain ⟨d1, d2, e1, e2, -, -, r, d, hr, hd, hle⟩ := C95_through
    (Ex.cut (n := 4) (m := 5) (i := 1) (j := 3) (by decide) (by decide) (by decide) Ex.cutCost ("symmetric2", Pat.symmetric2) Ex.sym2_mem) hr1 hr2
  exact ⟨r, r1, r2, d, d1, d2, hr, hr1, hr2, hd, e1, e2, hle⟩

/-- The same in doubles. -/
example (f : Bool) : ∃ r r1 r2 d d1 d2, dtw (binary64 f) (Ex.call 4 5 (fun i j => fin (Ex.cutCost i j)) "symmetric2") = .ok r ∧
    dtw (binary64 f) (Ex.call 2 4 (fun i j => fin (Ex.cutCost i j)) "symmetric2") = .ok r1 ∧
    dtw (binary64 f) (Ex.call 3 2 (fun u v => fin (Ex.cutCost (1 + u) (3 + v))) "symmetric2") = .ok r2 ∧
    r.distance = fin d ∧ r1.distance = fin d1 ∧ r2.distance = fin d2 ∧
    (1 - relError 4 5) * d ≤ (1 + relError 4 5) * (d1 + d2 - (1 - relError 4 5) * Ex.cutCost 1 3) := by
  obtain ⟨s1, hs1⟩ := Ex.get_ok (x := dtw Arith.exact (Ex.call 2 4 (fun i j => fin (Ex.cutCost i j)) "symmetric2")) (by decide +kernel)
  obtain ⟨s2, hs2⟩ := Ex.get_ok
    (x := dtw Arith.exact (Ex.call 3 2 (fun u v => fin (Ex.cutCost (1 + u) (3 + v))) "symmetric2")) (by decide +kernel)
  have hcut := Ex.cut (n := 4) (m := 5) (i := 1) (j := 3) (by decide) (by decide) (by decide) Ex.cutCost ("symmetric2", Pat.symmetric2) Ex.sym2_mem
  have hw : ModestWeights (rulesOf Pat.symmetric2) := by decide +kernel
  have hc : ∀ i j, ModestCost (Ex.cutCost i j) := by
    intro i j
    apply modest_of_small
    have h7 : (3 * i + 5 * j + i * j) % 7 < 7 := Nat.mod_lt _ (by decide)
    unfold Ex.cutCost
    generalize (3 * i + 5 * j + i * j) % 7 = k at h7
    rcases Nat.eq_zero_or_pos k with rfl | hk
    · exact .inl rfl
    · have h1 : (1 : ℚ) ≤ k := by exact_mod_cast hk
      have h2 : (k : ℚ) ≤ 7 := by exact_mod_cast h7.le
      exact .inr ⟨_root_.le_trans (by norm_num) h1, h2.trans (by norm_num)⟩
  obtain ⟨r1, hr1⟩ := (double_near_in f le_rfl hcut.beginning rfl rfl hw (fun i _ j _ => hc i j)).1.2 ⟨s1, hs1⟩
  obtain ⟨r2, hr2⟩ := (double_near_in f le_rfl hcut.ending rfl rfl hw (fun i _ j _ => hc _ _)).1.2 ⟨s2, hs2⟩
  obtain ⟨r, d, d1, d2, hr, e, e1, e2, hle⟩ := C95_doubles f hcut hw (fun i _ j _ => hc i j) hr1 hr2
  exact ⟨r, r1, r2, d, d1, d2, hr, hr1, hr2, e, e1, e2, hle⟩

/-- Cutting its query at element 2. -/
example : ∃ d, (dtw Arith.exact (Ex.call 4 5 (fun i j => fin (Ex.cutCost i j)) "symmetric2")).map (·.distance) = .ok (fin d) ∧
    ∃ j < 5, ∃ r1 r2 d1 d2, dtw Arith.exact (Ex.call 3 (j + 1) (fun i j => fin (Ex.cutCost i j)) "symmetric2") = .ok r1 ∧
      dtw Arith.exact (Ex.call 2 (5 - j) (fun u v => fin (Ex.cutCost (2 + u) (j + v))) "symmetric2") = .ok r2 ∧
      r1.distance = fin d1 ∧ r2.distance = fin d2 ∧ d = d1 + d2 - Ex.cutCost 2 j := by
  obtain ⟨r, hr⟩ := Ex.get_ok (x := dtw Arith.exact (Ex.call 4 5 (fun i j => fin (Ex.cutCost i j)) "symmetric2")) (by decide +kernel)
  obtain ⟨d, hd, hj, -⟩ := (C95_halves (i := 2) (m := 5) (((C95_bundled).1 _ Ex.sym2_mem).2 (by decide)) (fun j hj =>
    Ex.cut (n := 4) (m := 5) (i := 2) (j := j) (by decide) hj (by decide) Ex.cutCost ("symmetric2", Pat.symmetric2) Ex.sym2_mem)
    (by decide)).2 r hr
  exact ⟨d, by rw [hr]; exact congrArg Except.ok hd, hj⟩

/-- No alignment with `rigid` passes through the pair (0, 2): the beginnings cannot be aligned. -/
example {ks : List Int} {c : F64} (hp : WarpPath Arith.exact (rulesOf Pat.rigid) (fun _ _ => true) (fun _ _ => fin 1) ks (4 - 1) (4 - 1) c) :
    (((0 : Nat) : Int), ((2 : Nat) : Int)) ∉ coarse (rulesOf Pat.rigid) 0 0 ks := by
  have hmem : ("rigid", Pat.rigid) ∈ Pat.table := by decide +kernel
  refine C95_impossible (Ex.cut (n := 4) (m := 4) (i := 0) (j := 2) (by decide) (by decide) (by decide) (fun _ _ => 1)
    ("rigid", Pat.rigid) hmem) (.inl ?_) hp
  rintro ⟨r, hr⟩
  have : (dtw Arith.exact (Ex.call 1 3 (fun _ _ => fin 1) "rigid")).toBool = false := by decide +kernel
  rw [hr] at this
  cases this

end DTW
