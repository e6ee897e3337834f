import Verif.Props.Stability
import Verif.Props.Series
import Verif.Props.SlopeOpen
import Mathlib.Algebra.BigOperators.Ring.Finset
import Mathlib.Algebra.Order.BigOperators.Group.Finset

/-!
# C84: outliers

How far a few wrong samples can move the distance.  A step pattern that limits the slope charges the costs of one query sample with
a total weight of at most `K`, so moving the costs of query sample `i` by at most `δ i` (and those of reference sample `j` by at
most `ε j`) moves the distance by at most `K * Σ δ + K' * Σ ε`.  Exact arithmetic, finite local costs, non-negative weights.
-/

namespace DTW
open F64

variable {a a' : Args} {n m : Nat} {ℓ ℓ' : Nat → Nat → ℚ} {W : Nat → Nat → Bool}
  {p : StepPattern} {rs : List Rule} {r r' : Result} {δ ε : Nat → ℚ} {K K' : ℚ}

/-- The costs move by at most `δ i` for query sample `i` plus `ε j` for reference sample `j`. -/
structure Moved (n m : Nat) (δ ε : Nat → ℚ) (ℓ ℓ' : Nat → Nat → ℚ) : Prop where
  row : ∀ i, 0 ≤ δ i
  col : ∀ j, 0 ≤ ε j
  le : ∀ i < n, ∀ j < m, |ℓ' i j - ℓ i j| ≤ δ i + ε j

theorem Moved.symm (h : Moved n m δ ε ℓ ℓ') : Moved n m δ ε ℓ' ℓ :=
  ⟨h.row, h.col, fun i hi j hj => by rw [abs_sub_comm]; exact h.le i hi j hj⟩

/-- The weight a rule puts on the cells `k` rows back. -/
def Rule.rowWeight (q : Rule) (k : Nat) : ℚ := ((q.terms.filter fun t => t.di = k).map (·.w)).sum

/-- The weight a rule puts on the cells `k` columns back. -/
def Rule.colWeight (q : Rule) (k : Nat) : ℚ := ((q.terms.filter fun t => t.dj = k).map (·.w)).sum

/-- No rule puts more than `K` on a row it enters, nor anything on the row it comes from. -/
def RowShare (K : ℚ) (rs : List Rule) : Prop :=
  ∀ q ∈ rs, q.rowWeight q.a ≤ 0 ∧ ∀ k < q.a, q.rowWeight k ≤ K

/-- The same for columns. -/
def ColShare (K : ℚ) (rs : List Rule) : Prop :=
  ∀ q ∈ rs, q.colWeight q.b ≤ 0 ∧ ∀ k < q.b, q.colWeight k ≤ K

/-- Grouping the terms of a rule by row (or column). -/
theorem group_terms (ts : List Term) (π : Term → Nat) (f : Nat → ℚ) (B : Nat) (h : ∀ t ∈ ts, π t ≤ B) :
    (ts.map fun t => t.w * f (π t)).sum =
      ∑ k ∈ Finset.range (B + 1), ((ts.filter fun t => π t = k).map (·.w)).sum * f k := by
  induction ts with
  | nil => simp
  | cons t ts ih =>
    rw [List.map_cons, List.sum_cons, ih fun t ht => h t (by simp [ht])]
    have e : ∀ k, (((t :: ts).filter fun t => π t = k).map (·.w)).sum =
        (if π t = k then t.w else 0) + ((ts.filter fun t => π t = k).map (·.w)).sum := by
      intro k
      rw [List.filter_cons]
      by_cases hk : π t = k <;> simp [hk]
    simp only [e, add_mul, Finset.sum_add_distrib, ite_mul, zero_mul]
    rw [Finset.sum_ite_eq, if_pos (Finset.mem_range.2 (Nat.lt_succ_of_le (h t (by simp))))]

theorem share_bound {q : Rule} {π : Term → Nat} {B : Nat} {f : Nat → ℚ} (hf : ∀ k, 0 ≤ f k) (hB : ∀ t ∈ q.terms, π t ≤ B)
    (h0 : ((q.terms.filter fun t => π t = B).map (·.w)).sum ≤ 0)
    (hK : ∀ k < B, ((q.terms.filter fun t => π t = k).map (·.w)).sum ≤ K) :
    (q.terms.map fun t => t.w * f (π t)).sum ≤ K * ∑ k ∈ Finset.range B, f k := by
  rw [group_terms _ _ _ _ hB, Finset.sum_range_succ, Finset.mul_sum]
  have h1 := mul_nonpos_of_nonpos_of_nonneg h0 (hf B)
  have h2 : ∑ k ∈ Finset.range B, ((q.terms.filter fun t => π t = k).map (·.w)).sum * f k ≤ ∑ k ∈ Finset.range B, K * f k :=
    Finset.sum_le_sum fun k hk => mul_le_mul_of_nonneg_right (hK k (Finset.mem_range.1 hk)) (hf k)
  linarith

theorem partial_sum (f : Nat → ℚ) (i b : Nat) :
    ∑ k ∈ Finset.range (i + b + 1), f k = ∑ k ∈ Finset.range (i + 1), f k + ∑ k ∈ Finset.range b, f (i + b - k) := by
  induction b with
  | zero => simp
  | succ b ih =>
    rw [show i + (b + 1) + 1 = (i + b + 1) + 1 by omega, Finset.sum_range_succ, ih, Finset.sum_range_succ' (fun k => f (i + (b + 1) - k)) b]
    have : ∀ k, i + (b + 1) - (k + 1) = i + b - k := fun k => by omega
    simp only [this, Nat.sub_zero]
    rw [show i + (b + 1) = i + b + 1 by omega]
    ring

theorem charge_moved {q : Rule} {i j : Nat} (hq : ∀ t ∈ q.terms, 0 ≤ t.w) (hw : Moved n m δ ε ℓ ℓ') (hi : i < n)
    (hj : j < m) (c c' : ℚ) :
    ∃ d d', charge Arith.exact (fun i j => fin (ℓ i j)) q i j (fin c) = fin d ∧
      charge Arith.exact (fun i j => fin (ℓ' i j)) q i j (fin c') = fin d' ∧
      |d' - d| ≤ |c' - c| + (q.terms.map fun t => t.w * δ (i - t.di)).sum + (q.terms.map fun t => t.w * ε (j - t.dj)).sum := by
  unfold charge
  revert hq c c'
  generalize q.terms = ts
  induction ts with
  | nil => intro _ c c'; exact ⟨c, c', rfl, rfl, by simp⟩
  | cons t ts ih =>
    intro hq c c'
    have h0 := hq t (by simp)
    obtain ⟨d, d', h1, h2, h3⟩ := ih (fun t ht => hq t (by simp [ht]))
      (c + t.w * ℓ (i - t.di) (j - t.dj)) (c' + t.w * ℓ' (i - t.di) (j - t.dj))
    have hl := hw.le (i - t.di) (by omega) (j - t.dj) (by omega)
    refine ⟨d, d', ?_, ?_, ?_⟩
    · rw [← h1]; rfl
    · rw [← h2]; rfl
    · refine _root_.le_trans h3 ?_
      simp only [List.map_cons, List.sum_cons]
      have e : c' + t.w * ℓ' (i - t.di) (j - t.dj) - (c + t.w * ℓ (i - t.di) (j - t.dj)) =
          (c' - c) + t.w * (ℓ' (i - t.di) (j - t.dj) - ℓ (i - t.di) (j - t.dj)) := by ring
      have h4 : |t.w * (ℓ' (i - t.di) (j - t.dj) - ℓ (i - t.di) (j - t.dj))| ≤ t.w * (δ (i - t.di) + ε (j - t.dj)) := by
        rw [abs_mul, abs_of_nonneg h0]
        exact mul_le_mul_of_nonneg_left hl h0
      have h5 := abs_add_le (c' - c) (t.w * (ℓ' (i - t.di) (j - t.dj) - ℓ (i - t.di) (j - t.dj)))
      rw [e]
      nlinarith

/-- What the rule adds to the bound. -/
theorem charge_share {q : Rule} {i j : Nat} (hv : q.Valid) (hq : ∀ t ∈ q.terms, 0 ≤ t.w) (hqr : q ∈ rs)
    (hrow : RowShare K rs ∨ ∀ i, δ i = 0) (hcol : ColShare K' rs ∨ ∀ j, ε j = 0)
    (hw : Moved n m δ ε ℓ ℓ') (hi : i + q.a < n) (hj : j + q.b < m) (c c' : ℚ)
    (hc : |c' - c| ≤ K * ∑ k ∈ Finset.range (i + 1), δ k + K' * ∑ k ∈ Finset.range (j + 1), ε k) :
    ∃ d d', charge Arith.exact (fun i j => fin (ℓ i j)) q (i + q.a) (j + q.b) (fin c) = fin d ∧
      charge Arith.exact (fun i j => fin (ℓ' i j)) q (i + q.a) (j + q.b) (fin c') = fin d' ∧
      |d' - d| ≤ K * ∑ k ∈ Finset.range (i + q.a + 1), δ k + K' * ∑ k ∈ Finset.range (j + q.b + 1), ε k := by
  obtain ⟨d, d', h1, h2, h3⟩ := charge_moved hq hw hi hj c c'
  refine ⟨d, d', h1, h2, _root_.le_trans h3 ?_⟩
  have r1 : (q.terms.map fun t => t.w * δ (i + q.a - t.di)).sum ≤ K * ∑ k ∈ Finset.range q.a, δ (i + q.a - k) := by
    rcases hrow with h | h
    · exact share_bound (π := fun t => t.di) (f := fun k => δ (i + q.a - k)) (fun k => hw.row _) (fun t ht => (hv.2 t ht).2.1)
        (h q hqr).1 (h q hqr).2
    · simp [h]
  have r2 : (q.terms.map fun t => t.w * ε (j + q.b - t.dj)).sum ≤ K' * ∑ k ∈ Finset.range q.b, ε (j + q.b - k) := by
    rcases hcol with h | h
    · exact share_bound (π := fun t => t.dj) (f := fun k => ε (j + q.b - k)) (fun k => hw.col _) (fun t ht => (hv.2 t ht).2.2)
        (h q hqr).1 (h q hqr).2
    · simp [h]
  rw [partial_sum δ i q.a, partial_sum ε j q.b, mul_add, mul_add]
  linarith

/-- The same rules cost almost the same. -/
theorem WarpPath.moved (hv : ∀ q ∈ rs, q.Valid) (hp : PosWeights rs) (hK : 1 ≤ K) (hK' : 1 ≤ K')
    (hrow : RowShare K rs ∨ ∀ i, δ i = 0) (hcol : ColShare K' rs ∨ ∀ j, ε j = 0)
    (hw : Moved n m δ ε ℓ ℓ') {ks : List Int} {i j : Nat} {c : F64}
    (h : WarpPath Arith.exact rs W (fun i j => fin (ℓ i j)) ks i j c) (hi : i < n) (hj : j < m) :
    ∃ d d', c = fin d ∧ WarpPath Arith.exact rs W (fun i j => fin (ℓ' i j)) ks i j (fin d') ∧
      |d' - d| ≤ K * ∑ k ∈ Finset.range (i + 1), δ k + K' * ∑ k ∈ Finset.range (j + 1), ε k := by
  induction h with
  | start =>
    refine ⟨_, _, rfl, .start, _root_.le_trans (hw.le 0 hi 0 hj) ?_⟩
    have := hw.row 0
    have := hw.col 0
    simp only [zero_add, Finset.sum_range_one]
    nlinarith
  | step k q _ hq hW ih =>
    obtain ⟨d, d', rfl, h2, h3⟩ := ih (by omega) (by omega)
    have hm := List.mem_of_getElem? hq
    obtain ⟨e, e', h4, h5, h6⟩ := charge_share (hv q hm) (hp q hm) hm hrow hcol hw hi hj d d' h3
    exact ⟨e, e', h4, by rw [← h5]; exact .step k q h2 hq hW, h6⟩

/-- **C84.**  Closed ends.  If the costs of query sample `i` move by at most `δ i` and those of reference sample `j` by at most
`ε j`, the distance moves by at most `K * Σ δ + K' * Σ ε`, where no rule of the pattern puts more than `K` on one query sample (nor
anything on the sample it starts from) and no more than `K'` on one reference sample.  If only query samples move, only the condition
on the query is needed; likewise for the reference. -/
theorem C84_outliers (h : Problem a n m (fun i j => fin (ℓ i j)) W p rs)
    (h' : Problem a' n m (fun i j => fin (ℓ' i j)) W p rs)
    (hob : a.openBegin = false) (hoe : a.openEnd = false) (hob' : a'.openBegin = false) (hoe' : a'.openEnd = false)
    (hp : PosWeights rs) (hK : 1 ≤ K) (hK' : 1 ≤ K')
    (hrow : RowShare K rs ∨ ∀ i, δ i = 0) (hcol : ColShare K' rs ∨ ∀ j, ε j = 0) (hw : Moved n m δ ε ℓ ℓ')
    (hr : dtw Arith.exact a = .ok r) (hr' : dtw Arith.exact a' = .ok r') :
    ∃ d d', r.distance = fin d ∧ r'.distance = fin d' ∧
      |d' - d| ≤ K * ∑ i ∈ Finset.range n, δ i + K' * ∑ j ∈ Finset.range m, ε j := by
  have hn := h.n_pos
  have hm := h.m_pos
  obtain ⟨⟨ks, hks⟩, hopt⟩ := C01_distance_optimal h hob hoe hr
  obtain ⟨⟨ks', hks'⟩, hopt'⟩ := C01_distance_optimal h' hob' hoe' hr'
  obtain ⟨d, e', h1, h2, h3⟩ := hks.moved h.wf.valid hp hK hK' hrow hcol hw (by omega) (by omega)
  obtain ⟨d', e, h1', h2', h3'⟩ := hks'.moved h.wf.valid hp hK hK' hrow hcol hw.symm (by omega) (by omega)
  rw [Nat.sub_add_cancel hn, Nat.sub_add_cancel hm] at h3 h3'
  refine ⟨d, d', h1, h1', ?_⟩
  have o := hopt _ _ h2' (by simp)
  have o' := hopt' _ _ h2 (by simp)
  rw [h1] at o
  rw [h1'] at o'
  rw [F64.le_fin] at o o'
  have a1 := abs_le.1 h3
  have a2 := abs_le.1 h3'
  rw [abs_le]
  constructor <;> linarith

/-! ### Open ends -/

theorem OpenPath.moved (hv : ∀ q ∈ rs, q.Valid) (hp : PosWeights rs) (hK : 0 ≤ K) (hK' : 0 ≤ K')
    (hrow : RowShare K rs ∨ ∀ i, δ i = 0) (hcol : ColShare K' rs ∨ ∀ j, ε j = 0)
    (hw : Moved n m δ ε ℓ ℓ') {j0 : Nat} {ks : List Int} {i j : Nat} {c : F64}
    (h : OpenPath Arith.exact rs W (fun i j => fin (ℓ i j)) j0 ks i j c) (hi : i ≤ n) (hj : j < m) :
    ∃ d d', c = fin d ∧ OpenPath Arith.exact rs W (fun i j => fin (ℓ' i j)) j0 ks i j (fin d') ∧
      |d' - d| ≤ K * ∑ k ∈ Finset.range i, δ k + K' * ∑ k ∈ Finset.range (j + 1), ε k := by
  have hw' : Moved (n + 1) m (fun i => if i = 0 then 0 else δ (i - 1)) ε (fun i j => if i = 0 then 0 else ℓ (i - 1) j)
      (fun i j => if i = 0 then 0 else ℓ' (i - 1) j) := by
    refine ⟨fun i => ?_, hw.col, fun i hi j hj => ?_⟩
    · split
      · exact _root_.le_refl _
      · exact hw.row _
    · by_cases h0 : i = 0
      · simpa [h0] using hw.col j
      · simp only [h0, if_false]; exact hw.le _ (by omega) _ hj
  have hrow' : RowShare K rs ∨ ∀ i, (fun i => if i = 0 then 0 else δ (i - 1)) i = (0 : ℚ) := by
    rcases hrow with h | h
    · exact .inl h
    · exact .inr fun i => by simp [h]
  have e : ∀ ℓ : Nat → Nat → ℚ, (fun i' j' => if i' = 0 then fin 0 else fin (ℓ (i' - 1) j')) =
      fun i j => fin (if i = 0 then 0 else ℓ (i - 1) j) := by
    intro ℓ; funext i j; by_cases h0 : i = 0 <;> simp [h0]
  have es : ∀ i, ∑ k ∈ Finset.range (i + 1), (if k = 0 then 0 else δ (k - 1)) = ∑ k ∈ Finset.range i, δ k := by
    intro i
    rw [Finset.sum_range_succ']
    simp
  have key : ∃ d d', c = fin d ∧ OpenPath Arith.exact rs W (fun i j => fin (ℓ' i j)) j0 ks i j (fin d') ∧
      |d' - d| ≤ K * ∑ k ∈ Finset.range (i + 1), (if k = 0 then 0 else δ (k - 1)) + K' * ∑ k ∈ Finset.range (j + 1), ε k := by
    induction h with
    | start =>
      refine ⟨_, _, rfl, .start, ?_⟩
      rw [sub_self, abs_zero]
      exact add_nonneg (mul_nonneg hK (Finset.sum_nonneg fun k _ => hw'.row k))
        (mul_nonneg hK' (Finset.sum_nonneg fun k _ => hw.col k))
    | step k q _ hq h0 hW ih =>
      obtain ⟨d, d', rfl, h2, h3⟩ := ih (by omega) (by omega)
      have hm := List.mem_of_getElem? hq
      obtain ⟨x, x', h4, h5, h6⟩ := charge_share (hv q hm) (hp q hm) hm hrow' hcol hw' (Nat.lt_succ_of_le hi) hj d d' h3
      refine ⟨x, x', by rw [e ℓ]; exact h4, ?_, h6⟩
      rw [← h5, ← e ℓ']
      exact .step k q h2 hq h0 hW
  rw [es] at key
  exact key

/-- What a call with a pattern of hint N optimises, whichever its ends: the distance. -/
theorem best_hint_N (h : Problem a n m (fun i j => fin (ℓ i j)) W p rs) (hN : p.hint = "N") (hr : dtw Arith.exact a = .ok r) :
    ∃ d, r.distance = fin d ∧ r.normalizedDistance = fin (d / n) ∧
      ((a.openBegin = false ∧ (∃ ks j, j < m ∧ (a.openEnd = false → j = m - 1) ∧
          WarpPath Arith.exact rs W (fun i j => fin (ℓ i j)) ks (n - 1) j (fin d)) ∧
        ∀ ks j d', j < m → (a.openEnd = false → j = m - 1) →
          WarpPath Arith.exact rs W (fun i j => fin (ℓ i j)) ks (n - 1) j (fin d') → d ≤ d') ∨
       (a.openBegin = true ∧ (∃ j0 ks j, j < m ∧ (a.openEnd = false → j = m - 1) ∧
          OpenPath Arith.exact rs W (fun i j => fin (ℓ i j)) j0 ks n j (fin d)) ∧
        ∀ j0 ks j d', j < m → (a.openEnd = false → j = m - 1) →
          OpenPath Arith.exact rs W (fun i j => fin (ℓ i j)) j0 ks n j (fin d') → d ≤ d')) := by
  have hn := h.n_pos
  have hn0 : (0 : ℚ) < n := by exact_mod_cast hn
  have eN : ∀ j c, normBy Arith.exact "N" n j c = Arith.exact.divQ c n := fun _ _ => rfl
  cases hob : a.openBegin with
  | false =>
    obtain ⟨j, ks, hj, hjc, hp, hnd, hmin⟩ := best_end h hob (by rw [hN]; decide) hr
    obtain ⟨d, hd⟩ := hp.finite
    rw [hd] at hp hnd
    rw [hN, eN, divQ_fin hn0] at hnd
    refine ⟨d, hd, hnd, .inl ⟨rfl, ⟨ks, j, hj, hjc, hp⟩, fun ks' j' d' hj' hjc' hp' => ?_⟩⟩
    have := hmin ks' j' _ hj' hjc' hp' (by simp)
    rw [hnd, hN, eN, divQ_fin hn0, F64.le_fin] at this
    exact (div_le_div_iff_of_pos_right hn0).1 this
  | true =>
    obtain ⟨mp, j, j0, -, -, hj, hjc, hp, hmin⟩ := C22_open_begin_optimal h hob hr
    obtain ⟨d, hd⟩ := hp.finite
    have hnd : r.normalizedDistance = fin (d / n) := by
      obtain ⟨G, D, qr, hB, _, hd'⟩ := dtw_open Arith.exact h hob hN
      obtain ⟨j, j0, ks, hrun⟩ := open_ok h hob hB hd' hr
      have : r.normalizedDistance = Arith.exact.divQ r.distance n := by rw [hrun.result]; simp [mkResult, hN, normBy]
      rw [this, hd, divQ_fin hn0]
    rw [hd] at hp hmin
    refine ⟨d, hd, hnd, .inr ⟨rfl, ⟨j0, mp.stepsTaken, j, hj, hjc, hp⟩, fun j0' ks' j' d' hj' hjc' hp' => ?_⟩⟩
    cases hoe : a.openEnd with
    | false =>
      rw [hjc' hoe, ← hjc hoe] at hp'
      have := hmin _ _ _ hp' (by simp)
      rwa [F64.le_fin] at this
    | true =>
      have := (C22_open_both_optimal h hob hoe hr).2 _ _ _ _ hj' hp' (by simp)
      rw [hnd, divQ_fin hn0, F64.le_fin] at this
      exact (div_le_div_iff_of_pos_right hn0).1 this

/-- **C84**, any combination of open and closed ends, patterns with hint N (asymmetric, asymmetricP05, P1, P2, typeIc, …): the same
bound; the normalized distance moves by at most that divided by the length of the query. -/
theorem C84_any_ends (h : Problem a n m (fun i j => fin (ℓ i j)) W p rs)
    (h' : Problem a' n m (fun i j => fin (ℓ' i j)) W p rs) (hN : p.hint = "N") (ho : SameOptions a a')
    (hp : PosWeights rs) (hK : 1 ≤ K) (hK' : 1 ≤ K')
    (hrow : RowShare K rs ∨ ∀ i, δ i = 0) (hcol : ColShare K' rs ∨ ∀ j, ε j = 0) (hw : Moved n m δ ε ℓ ℓ')
    (hr : dtw Arith.exact a = .ok r) (hr' : dtw Arith.exact a' = .ok r') :
    ∃ d d', r.distance = fin d ∧ r'.distance = fin d' ∧
      r.normalizedDistance = fin (d / n) ∧ r'.normalizedDistance = fin (d' / n) ∧
      |d' - d| ≤ K * ∑ i ∈ Finset.range n, δ i + K' * ∑ j ∈ Finset.range m, ε j := by
  have hn := h.n_pos
  have hm := h.m_pos
  obtain ⟨d, e1, e2, e3⟩ := best_hint_N h hN hr
  obtain ⟨d', e1', e2', e3'⟩ := best_hint_N h' hN hr'
  refine ⟨d, d', e1, e1', e2, e2', ?_⟩
  have mono : ∀ j < m, K * ∑ k ∈ Finset.range n, δ k + K' * ∑ k ∈ Finset.range (j + 1), ε k ≤
      K * ∑ i ∈ Finset.range n, δ i + K' * ∑ j ∈ Finset.range m, ε j := by
    intro j hj
    refine add_le_add (_root_.le_refl _) (mul_le_mul_of_nonneg_left ?_ (by linarith))
    exact Finset.sum_le_sum_of_subset_of_nonneg (Finset.range_subset_range.2 hj) fun k _ _ => hw.col k
  rw [abs_le]
  rcases e3 with ⟨hob, ⟨ks, j, hj, hjc, hks⟩, hopt⟩ | ⟨hob, ⟨j0, ks, j, hj, hjc, hks⟩, hopt⟩
  · rcases e3' with ⟨hob', ⟨ks', j', hj', hjc', hks'⟩, hopt'⟩ | ⟨hob', -⟩
    · obtain ⟨_, x', h1, h2, h3⟩ := hks.moved h.wf.valid hp hK hK' hrow hcol hw (by omega) hj
      obtain ⟨_, x, h1', h2', h3'⟩ := hks'.moved h.wf.valid hp hK hK' hrow hcol hw.symm (by omega) hj'
      cases h1
      cases h1'
      rw [Nat.sub_add_cancel hn] at h3 h3'
      have o := hopt _ _ _ hj' (fun hh => hjc' (ho.openEnd ▸ hh)) h2'
      have o' := hopt' _ _ _ hj (fun hh => hjc (ho.openEnd ▸ hh)) h2
      have a1 := abs_le.1 (_root_.le_trans h3 (mono j hj))
      have a2 := abs_le.1 (_root_.le_trans h3' (mono j' hj'))
      constructor <;> linarith
    · rw [← ho.openBegin, hob] at hob'
      cases hob'
  · rcases e3' with ⟨hob', -⟩ | ⟨hob', ⟨j0', ks', j', hj', hjc', hks'⟩, hopt'⟩
    · rw [← ho.openBegin, hob] at hob'
      cases hob'
    · obtain ⟨_, x', h1, h2, h3⟩ := hks.moved h.wf.valid hp (by linarith) (by linarith) hrow hcol hw (_root_.le_refl _) hj
      obtain ⟨_, x, h1', h2', h3'⟩ := hks'.moved h.wf.valid hp (by linarith) (by linarith) hrow hcol hw.symm (_root_.le_refl _) hj'
      cases h1
      cases h1'
      have o := hopt _ _ _ _ hj' (fun hh => hjc' (ho.openEnd ▸ hh)) h2'
      have o' := hopt' _ _ _ _ hj (fun hh => hjc (ho.openEnd ▸ hh)) h2
      have a1 := abs_le.1 (_root_.le_trans h3 (mono j hj))
      have a2 := abs_le.1 (_root_.le_trans h3' (mono j' hj'))
      constructor <;> linarith

/-! ### The bundled patterns -/

/-- How much weight one query sample (first number) and one reference sample (second) can get, at most. -/
def sampleShares : List (String × Option ℚ × Option ℚ) :=
  [("asymmetric", some 1, none), ("_asymmetricItakura", some 1, some 2), ("asymmetricP0", some 1, none), ("_asymmetricP0b", some 1, none),
    ("symmetricP05", some 4, some 4), ("asymmetricP05", some 1, some 3), ("symmetricP1", some 3, some 3),
    ("asymmetricP1", some 1, some 2), ("symmetricP2", some 3, some 3), ("asymmetricP2", some (4 / 3), some 2),
    ("typeIa", some 1, some 1), ("typeIb", some 2, some 2), ("typeIc", some 1, some 2), ("typeId", some 3, some 3),
    ("typeIas", some 1, some 1), ("typeIbs", some 2, some 2), ("typeIcs", some 1, some 2), ("typeIds", some 3, some 3),
    ("typeIIa", some 1, some 1), ("typeIIb", some 2, some 2), ("typeIIc", some 2, some 2), ("typeIId", some 3, some 3),
    ("typeIIIc", some 1, some 2), ("typeIVc", some 1, some 3), ("mori2006", some 6, some 3), ("rigid", some 1, some 1)]

/-- **C84** The bounds of the bundled patterns.  (symmetric1, symmetric2 and symmetricP0 have none: a sample may be matched any number
of times; nor have asymmetric and asymmetricP0 for the reference.) -/
theorem C84_shares (s : String × Option ℚ × Option ℚ) (hs : s ∈ sampleShares) (P : StepPattern) (hP : (s.1, P) ∈ Pat.table) :
    PosWeights (rulesOf P) ∧ (∀ k ∈ s.2.1, 1 ≤ k ∧ RowShare k (rulesOf P)) ∧ (∀ k ∈ s.2.2, 1 ≤ k ∧ ColShare k (rulesOf P)) := by
  have key : ∀ x ∈ Pat.table, ∀ s ∈ sampleShares, s.1 = x.1 →
      ((∀ q ∈ rulesOf x.2, ∀ t ∈ q.terms, 0 ≤ t.w) ∧
      (∀ k ∈ s.2.1, 1 ≤ k ∧ ∀ q ∈ rulesOf x.2, q.rowWeight q.a ≤ 0 ∧ ∀ i < q.a, q.rowWeight i ≤ k) ∧
      (∀ k ∈ s.2.2, 1 ≤ k ∧ ∀ q ∈ rulesOf x.2, q.colWeight q.b ≤ 0 ∧ ∀ i < q.b, q.colWeight i ≤ k)) := by decide +kernel
  exact key _ hP s hs rfl

/-- **C84** Minimum variance matching: every query sample counts once, every reference sample at most once. -/
theorem C84_mvm (e : Nat) : PosWeights (mvmRules e) ∧ RowShare 1 (mvmRules e) ∧ ColShare 1 (mvmRules e) := by
  have key : ∀ q ∈ mvmRules e, ∃ b, 0 < b ∧ q = ⟨1, b, [⟨0, 0, 1⟩]⟩ := by
    intro q hq
    simp only [mvmRules, List.mem_map] at hq
    obtain ⟨k, -, rfl⟩ := hq
    exact ⟨_, Nat.succ_pos _, rfl⟩
  refine ⟨fun q hq t ht => ?_, fun q hq => ?_, fun q hq => ?_⟩ <;> obtain ⟨b, hb, rfl⟩ := key q hq
  · rw [List.mem_singleton.1 ht]; norm_num
  · refine ⟨by simp [Rule.rowWeight], fun k hk => ?_⟩
    obtain rfl : k = 0 := by simpa using hk
    simp [Rule.rowWeight]
  · refine ⟨?_, fun k _ => ?_⟩
    · have : ¬ (0 = b) := by omega
      simp [Rule.colWeight, this]
    · by_cases hk : 0 = k
      · simp [Rule.colWeight, hk]
      · simp [Rule.colWeight, hk]

/-- **C84** for two series of numbers, closed ends: moving query samples by `|x'_i - x_i|` and reference samples by `|y'_j - y_j|` moves the
distance by at most `K * Σ |x'_i - x_i| + K' * Σ |y'_j - y_j|`, `K` and `K'` from the table; if the reference is not touched only `K` is
needed, and conversely. -/
theorem C84_series {o : Args} {x y x' y' : List ℚ} {q : String × StepPattern} (h : Sensible o x.length y.length W q)
    (hob : o.openBegin = false) (hoe : o.openEnd = false)
    (hx : x'.length = x.length) (hy : y'.length = y.length)
    {k k' : Option ℚ} (hs : (q.1, k, k') ∈ sampleShares)
    (hk : k = some K ∨ (x' = x ∧ K = 1)) (hk' : k' = some K' ∨ (y' = y ∧ K' = 1))
    (hr : dtw Arith.exact (ask o x y) = .ok r) (hr' : dtw Arith.exact (ask o x' y') = .ok r') :
    ∃ d d', r.distance = fin d ∧ r'.distance = fin d' ∧
      |d' - d| ≤ K * ∑ i ∈ Finset.range x.length, |x'.getD i 0 - x.getD i 0| +
        K' * ∑ j ∈ Finset.range y.length, |y'.getD j 0 - y.getD j 0| := by
  have h2 := ask_problem (o := o) (x := x') (y := y') (W := W) (q := q) (by rw [hx, hy]; exact h)
  rw [hx, hy] at h2
  obtain ⟨s1, s2, s3⟩ := C84_shares _ hs q.2 h.mem
  have g1 : 1 ≤ K ∧ (RowShare K (rulesOf q.2) ∨ ∀ i, |x'.getD i 0 - x.getD i 0| = 0) := by
    rcases hk with rfl | ⟨rfl, rfl⟩
    · exact ⟨(s2 K rfl).1, .inl (s2 K rfl).2⟩
    · exact ⟨_root_.le_refl _, .inr fun i => by simp⟩
  have g2 : 1 ≤ K' ∧ (ColShare K' (rulesOf q.2) ∨ ∀ j, |y'.getD j 0 - y.getD j 0| = 0) := by
    rcases hk' with rfl | ⟨rfl, rfl⟩
    · exact ⟨(s3 K' rfl).1, .inl (s3 K' rfl).2⟩
    · exact ⟨_root_.le_refl _, .inr fun i => by simp⟩
  refine C84_outliers (ask_problem h) h2 hob hoe hob hoe s1 g1.1 g2.1 g1.2 g2.2
    ⟨fun i => abs_nonneg _, fun j => abs_nonneg _, fun i hi j hj => ?_⟩ hr hr'
  have e : x'.getD i 0 - y'.getD j 0 - (x.getD i 0 - y.getD j 0) =
      (x'.getD i 0 - x.getD i 0) - (y'.getD j 0 - y.getD j 0) := by ring
  refine _root_.le_trans (abs_abs_sub_abs_le _ _) ?_
  rw [e]
  exact abs_sub _ _

/-- **C84**, negative witness: with symmetric2 one wrong query sample counts as often as it is matched.  `[0]` against `[0, 0, 0, 0]`: moving
the only query sample by 1 moves the distance by 4. -/
theorem C84_symmetric2_counts_repeatedly :
    ((dtw Arith.exact (ask { x := .d1 [], stepPattern := .name "symmetric2" } [0] [0, 0, 0, 0])).toOption.map (·.distance) = some (fin 0)) ∧
    ((dtw Arith.exact (ask { x := .d1 [], stepPattern := .name "symmetric2" } [1] [0, 0, 0, 0])).toOption.map (·.distance) = some (fin 4)) := by
  constructor <;> decide +kernel

/-- The hypotheses are met and the bound is attained: asymmetric, the third of four query samples moves from 1 to -99, the distance by
100. -/
example : Sensible { x := .d1 [], stepPattern := .name "asymmetric" } 4 6 (fun _ _ => true) ("asymmetric", Pat.asymmetric) ∧
    ("asymmetric", (some 1 : Option ℚ), (none : Option ℚ)) ∈ sampleShares ∧
    ((dtw Arith.exact (ask { x := .d1 [], stepPattern := .name "asymmetric" } [0, 2, 1, 3] [0, 0, 2, 2, 1, 3])).toOption.map (·.distance) =
      some (fin 0)) ∧
    ((dtw Arith.exact (ask { x := .d1 [], stepPattern := .name "asymmetric" } [0, 2, -99, 3] [0, 0, 2, 2, 1, 3])).toOption.map (·.distance) =
      some (fin 100)) := by
  refine ⟨sensible_free (by decide) (by decide) (by decide) Ex.asym_mem rfl rfl, by decide, by decide +kernel, by decide +kernel⟩

end DTW
