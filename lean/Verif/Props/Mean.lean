import Verif.Props.Stability
import Verif.Props.Barriers
import Verif.Props.OpenBegin
import Verif.Props.Witnesses
import Verif.Binary64

/-!
# C82: the normalized distance is a mean of the matched local costs

Exact arithmetic, finite local costs, non-negative weights.  If the local costs of the pairs matched by the returned
alignment lie between `lo` and `hi`, so does the normalized distance (hint N); for the hint N+M the library divides by one
too much, so the bounds carry the factor `(N + jmin) / (N + jmin + 1)`.
-/

namespace DTW
open F64

variable {a : Args} {n m : Nat} {ℓ : Nat → Nat → ℚ} {W : Nat → Nat → Bool} {p : StepPattern} {rs : List Rule}
  {r : Result} {mp : Mapping} {u v lo hi : ℚ}

/-- A rule whose charged cells (of non-zero weight) cost between `lo` and `hi` adds between `lo` and `hi` times its
weight. -/
theorem charge_mean {q : Rule} {i j : Nat} (hq : ∀ t ∈ q.terms, 0 ≤ t.w)
    (hb : ∀ t ∈ q.terms, t.w = 0 ∨ (lo ≤ ℓ (i - t.di) (j - t.dj) ∧ ℓ (i - t.di) (j - t.dj) ≤ hi)) (c : ℚ) :
    ∃ d, charge Arith.exact (fun i j => fin (ℓ i j)) q i j (fin c) = fin d ∧
      c + lo * q.weight ≤ d ∧ d ≤ c + hi * q.weight := by
  unfold charge Rule.weight
  revert hq hb c
  generalize q.terms = ts
  induction ts with
  | nil => intro _ _ c; exact ⟨c, rfl, by simp, by simp⟩
  | cons t ts ih =>
    intro hq hb c
    have h0 := hq t (by simp)
    obtain ⟨d, h1, h2, h3⟩ := ih (fun t ht => hq t (by simp [ht])) (fun t ht => hb t (by simp [ht]))
      (c + t.w * ℓ (i - t.di) (j - t.dj))
    refine ⟨d, ?_, ?_, ?_⟩
    · rw [← h1]; rfl
    · simp only [List.map_cons, List.sum_cons]
      rcases hb t (by simp) with hz | ⟨hl, _⟩
      · rw [hz] at h2 ⊢; linarith
      · have := mul_le_mul_of_nonneg_left hl h0; linarith
    · simp only [List.map_cons, List.sum_cons]
      rcases hb t (by simp) with hz | ⟨_, hl⟩
      · rw [hz] at h3 ⊢; linarith
      · have := mul_le_mul_of_nonneg_left hl h0; linarith

/-- Every cell a rule charges is among the points it draws. -/
theorem Rule.charged_fine {q : Rule} (hv : q.Valid) {i j : Nat} {t : Term} (ht : t ∈ q.terms) :
    (((i + q.a - t.di : Nat) : Int), ((j + q.b - t.dj : Nat) : Int)) ∈ q.fine i j := by
  unfold Rule.fine
  rw [List.mem_append, List.mem_map]
  have := (hv.2 t ht).2
  by_cases h : t.di ≠ 0 ∨ t.dj ≠ 0
  · refine .inl ⟨t, List.mem_filter.2 ⟨ht, by simpa using h⟩, ?_⟩
    ext <;> simp only <;> omega
  · right
    have h1 : t.di = 0 := by by_contra hc; exact h (.inl hc)
    have h2 : t.dj = 0 := by by_contra hc; exact h (.inr hc)
    rw [List.mem_singleton, h1, h2]
    ext <;> simp

theorem WarpPath.mean (hp : PosWeights rs) (hv : ∀ q ∈ rs, q.Valid) (hlin : LinearWeights u v rs) {ks : List Int}
    {i j : Nat} {c : F64} (h : WarpPath Arith.exact rs W (fun i j => fin (ℓ i j)) ks i j c)
    (hb : ∀ x ∈ fine rs 0 0 ks, lo ≤ ℓ x.1.toNat x.2.toNat ∧ ℓ x.1.toNat x.2.toNat ≤ hi) :
    ∃ d, c = fin d ∧ lo * (1 + u * i + v * j) ≤ d ∧ d ≤ hi * (1 + u * i + v * j) := by
  induction h with
  | start =>
    have := hb (0, 0) (by simp [fine])
    simp only [Int.toNat_zero] at this
    exact ⟨_, rfl, by simpa using this.1, by simpa using this.2⟩
  | @step ks i j c k q hw hq hW ih =>
    have hs := hw.toWalk.fine_snoc hq
    rw [show ((0 : Nat) : Int) = 0 from rfl] at hs
    rw [hs] at hb
    have hm := List.mem_of_getElem? hq
    obtain ⟨d, rfl, h1, h2⟩ := ih (fun x hx => hb x (List.mem_append_left _ hx))
    obtain ⟨e, h3, h4, h5⟩ := charge_mean (ℓ := ℓ) (lo := lo) (hi := hi) (i := i + q.a) (j := j + q.b) (hp q hm)
      (fun t ht => .inr (by simpa using hb _ (List.mem_append_right _ (Rule.charged_fine (hv q hm) ht)))) d
    rw [hlin q hm] at h4 h5
    refine ⟨e, h3, ?_, ?_⟩ <;> push_cast <;> linarith

theorem OpenPath.mean (hp : PosWeights rs) (hv : ∀ q ∈ rs, q.Valid) (hlin : LinearWeights 1 0 rs)
    (hleave : ∀ q ∈ rs, ∀ t ∈ q.terms, t.w = 0 ∨ t.di < q.a ∨ q.a = 0) {j0 : Nat} {ks : List Int} {i j : Nat} {c : F64}
    (h : OpenPath Arith.exact rs W (fun i j => fin (ℓ i j)) j0 ks i j c)
    (hb : ∀ x ∈ fineTail rs 0 j0 ks, 1 ≤ x.1 →
      lo ≤ ℓ (x.1.toNat - 1) x.2.toNat ∧ ℓ (x.1.toNat - 1) x.2.toNat ≤ hi) :
    ∃ d, c = fin d ∧ lo * i ≤ d ∧ d ≤ hi * i := by
  induction h with
  | start => exact ⟨0, rfl, by simp, by simp⟩
  | @step ks i j c k q hw hq h0 hW ih =>
    obtain ⟨pts, g1, g2⟩ := hw.toPath.toWalk.coarse_end
    have hs := fineTail_snoc rs ks 0 j0 pts i j k q hq g1 g2
    rw [hs] at hb
    have hm := List.mem_of_getElem? hq
    obtain ⟨d, rfl, h1, h2⟩ := ih (fun x hx => hb x (List.mem_append_left _ hx))
    have hf : (fun i' j' => if i' = 0 then fin 0 else fin (ℓ (i' - 1) j')) =
        fun i' j' => fin (if i' = 0 then 0 else ℓ (i' - 1) j') := by
      funext i' j'; split <;> rfl
    obtain ⟨e, h3, h4, h5⟩ := charge_mean (ℓ := fun i' j' => if i' = 0 then 0 else ℓ (i' - 1) j') (lo := lo) (hi := hi)
      (i := i + q.a) (j := j + q.b) (hp q hm)
      (fun t ht => by
        rcases hleave q hm t ht with hz | hz
        · exact .inl hz
        · right
          have hd := (hv q hm).2 t ht
          have := hb _ (List.mem_append_right _ (Rule.charged_fine (i := i) (j := j) (hv q hm) ht))
            (by simp only; omega)
          rw [if_neg (by omega)]
          simpa using this) d
    rw [hlin q hm] at h4 h5
    refine ⟨e, ?_, ?_, ?_⟩
    · rw [hf]; exact h3
    · push_cast; linarith
    · push_cast; linarith

/-- **C82** (closed begin, any end).  If the local costs of the matched pairs `(index1[k], index2[k])` lie between `lo`
and `hi`, the distance lies between `lo` and `hi` times the total weight of the alignment, `1 + u (N-1) + v jmin`. -/
theorem C82_distance (hp : PosWeights rs) (hlin : LinearWeights u v rs)
    (h : Problem a n m (fun i j => fin (ℓ i j)) W p rs) (hob : a.openBegin = false) (hr : dtw Arith.exact a = .ok r)
    (hmp : r.mapping = some mp)
    (hb : ∀ x ∈ mp.index1.zip mp.index2, lo ≤ ℓ x.1.toNat x.2.toNat ∧ ℓ x.1.toNat x.2.toNat ≤ hi) :
    ∃ (d : ℚ) (j : Nat), r.distance = fin d ∧ r.jmin = j ∧
      lo * (1 + u * ((n : ℚ) - 1) + v * j) ≤ d ∧ d ≤ hi * (1 + u * ((n : ℚ) - 1) + v * j) := by
  obtain ⟨j, ks, hj, _, _, rfl, hw⟩ := closed_mapping h hob hr hmp
  have e1 : ((n - 1 : Nat) : ℚ) = (n : ℚ) - 1 := by rw [Nat.cast_sub h.n_pos]; simp
  simp only [curve, zip_fst_snd] at hb
  obtain ⟨d, hd, h1, h2⟩ := hw.mean hp h.wf.valid hlin hb
  rw [e1] at h1 h2
  exact ⟨d, j, hd, hj, h1, h2⟩

/-- **C82**, hint N (closed begin, any end): the normalized distance lies between the least and the greatest local cost
of the matched pairs. -/
theorem C82_mean_N (hp : PosWeights rs) (hlin : LinearWeights 1 0 rs) (hh : p.hint = "N")
    (h : Problem a n m (fun i j => fin (ℓ i j)) W p rs) (hob : a.openBegin = false) (hr : dtw Arith.exact a = .ok r)
    (hmp : r.mapping = some mp)
    (hb : ∀ x ∈ mp.index1.zip mp.index2, lo ≤ ℓ x.1.toNat x.2.toNat ∧ ℓ x.1.toNat x.2.toNat ≤ hi) :
    ∃ x : ℚ, r.normalizedDistance = fin x ∧ lo ≤ x ∧ x ≤ hi := by
  obtain ⟨d, j, hd, _, h1, h2⟩ := C82_distance hp hlin h hob hr hmp hb
  obtain ⟨_, _, hN, _⟩ := C18_exact h hr hd
  have hn : (0 : ℚ) < n := by exact_mod_cast h.n_pos
  refine ⟨_, hN hh, ?_, ?_⟩
  · rw [le_div_iff₀ hn]; linarith
  · rw [div_le_iff₀ hn]; linarith

/-- **C82**, hint N+M (closed begin, any end): the same, with the factor `(N + jmin) / (N + jmin + 1)` by which the
library's normalization differs from the total weight. -/
theorem C82_mean_NM (hp : PosWeights rs) (hlin : LinearWeights 1 1 rs) (hh : p.hint = "N+M")
    (h : Problem a n m (fun i j => fin (ℓ i j)) W p rs) (hob : a.openBegin = false) (hr : dtw Arith.exact a = .ok r)
    (hmp : r.mapping = some mp)
    (hb : ∀ x ∈ mp.index1.zip mp.index2, lo ≤ ℓ x.1.toNat x.2.toNat ∧ ℓ x.1.toNat x.2.toNat ≤ hi) :
    ∃ (x : ℚ) (j : Nat), r.normalizedDistance = fin x ∧ r.jmin = j ∧
      lo * (((n : ℚ) + j) / (n + j + 1)) ≤ x ∧ x ≤ hi * (((n : ℚ) + j) / (n + j + 1)) := by
  obtain ⟨d, j, hd, hj, h1, h2⟩ := C82_distance hp hlin h hob hr hmp hb
  obtain ⟨j', hj', _, hN, _⟩ := C18_exact h hr hd
  have hjj : j' = j := by
    have := hj'.symm.trans hj; exact_mod_cast this
  subst hjj
  have hn : (0 : ℚ) < (n : ℚ) + (j' + 1) := by positivity
  refine ⟨_, j', hN hh, hj', ?_, ?_⟩
  · rw [← mul_div_assoc, add_assoc]
    refine (div_le_div_iff_of_pos_right hn).2 ?_
    linarith
  · rw [← mul_div_assoc, add_assoc]
    refine (div_le_div_iff_of_pos_right hn).2 ?_
    linarith

/-- **C82**, open begin (hint N, any end): the same, for patterns whose rules charge nothing on the row they start from
(matched pairs of the null row, which some patterns draw with `index1 = -1`, have no local cost and are skipped). -/
theorem C82_mean_open_begin (hp : PosWeights rs) (hlin : LinearWeights 1 0 rs)
    (hleave : ∀ q ∈ rs, ∀ t ∈ q.terms, t.w = 0 ∨ t.di < q.a ∨ q.a = 0)
    (h : Problem a n m (fun i j => fin (ℓ i j)) W p rs) (hob : a.openBegin = true) (hr : dtw Arith.exact a = .ok r)
    (hmp : r.mapping = some mp)
    (hb : ∀ x ∈ mp.index1.zip mp.index2, 0 ≤ x.1 → lo ≤ ℓ x.1.toNat x.2.toNat ∧ ℓ x.1.toNat x.2.toNat ≤ hi) :
    ∃ x : ℚ, r.normalizedDistance = fin x ∧ lo ≤ x ∧ x ≤ hi := by
  have hh : p.hint = "N" := by
    by_contra hh; rw [open_bad_hint h hob hh] at hr; simp at hr
  obtain ⟨j, j0, ks, hj, _, rfl, hw⟩ := open_mapping h hob hr hmp
  rw [dropNull_curve] at hb
  simp only at hb
  rw [zip_fst_snd] at hb
  have e1 := fineTail_shift rs ks 0 j0
  simp only [zero_sub] at e1
  rw [← e1] at hb
  obtain ⟨d, hd, h1, h2⟩ := hw.mean hp h.wf.valid hlin hleave (lo := lo) (hi := hi) (by
    intro x hx h1
    have := hb _ (List.mem_map.2 ⟨x, hx, rfl⟩) (by simp only; omega)
    simp only at this
    rwa [show (x.1 - 1).toNat = x.1.toNat - 1 by omega] at this)
  obtain ⟨_, _, hN, _⟩ := C18_exact h hr hd
  have hn : (0 : ℚ) < n := by exact_mod_cast h.n_pos
  refine ⟨_, hN hh, ?_, ?_⟩
  · rw [le_div_iff₀ hn]; linarith
  · rw [div_le_iff₀ hn]; linarith

/-- **C82**, bundled patterns: those with a hint meet the premises above (the extra one of the open begin too). -/
theorem C82_bundled : ∀ q ∈ Pat.table, q.2.hint ≠ "NA" → PosWeights (rulesOf q.2) ∧
    (q.2.hint = "N" → LinearWeights 1 0 (rulesOf q.2) ∧
      ∀ s ∈ rulesOf q.2, ∀ t ∈ s.terms, t.w = 0 ∨ t.di < s.a ∨ s.a = 0) ∧
    (q.2.hint = "N+M" → LinearWeights 1 1 (rulesOf q.2)) ∧ (q.2.hint = "M" → LinearWeights 0 3 (rulesOf q.2)) := by
  have key : (Pat.table.all fun x => decide (x.2.hint = "NA") ||
      (rulesOf x.2).all fun q => q.terms.all fun t => decide (0 ≤ t.w)) = true := by decide +kernel
  have key2 : (Pat.table.all fun x => !decide (x.2.hint = "N") ||
      (rulesOf x.2).all fun s => s.terms.all fun t => decide (t.w = 0 ∨ t.di < s.a ∨ s.a = 0)) = true := by
    decide +kernel
  intro q hq hna
  obtain ⟨t1, t2, t3⟩ := C19_bundled q hq
  refine ⟨?_, fun hh => ⟨t1 hh, ?_⟩, t2, t3⟩
  · have := List.all_eq_true.1 key q hq
    simp only [Bool.or_eq_true, decide_eq_true_eq, List.all_eq_true] at this
    exact fun s hs t ht => (this.resolve_left hna) s hs t ht
  · have := List.all_eq_true.1 key2 q hq
    simp only [Bool.or_eq_true, Bool.not_eq_true', decide_eq_false_iff_not, decide_eq_true_eq, List.all_eq_true,
      hh, not_true, false_or] at this
    exact this

/-! ### Concrete cases -/

/-- Local costs between 0 and 9. -/
def Ex.meanCost (i j : Nat) : ℚ := ((i * i + 3 * j) % 10 : Nat)

/-- C82: `asymmetric`, 4 × 5.  The matched pairs cost 0, 1, 0 and 1, the others up to 9; the normalized distance 1/2 lies
between 0 and 1. -/
theorem C82_example : ∃ r mp x, dtw Arith.exact (Ex.call 4 5 (fun i j => fin (Ex.meanCost i j)) "asymmetric") = .ok r ∧
    r.mapping = some mp ∧ mp.index1.zip mp.index2 = [(0, 0), (1, 0), (2, 2), (3, 4)] ∧
    r.normalizedDistance = fin x ∧ 0 ≤ x ∧ x ≤ 1 := by
  have hP := bundled_problem (n := 4) (m := 5) (by norm_num) (by norm_num) (by norm_num) (fun i j => fin (Ex.meanCost i j))
    ("asymmetric", Pat.asymmetric) Ex.asym_mem
  have hv : (dtw Arith.exact (Ex.call 4 5 (fun i j => fin (Ex.meanCost i j)) "asymmetric")).toOption.map
      (fun r => r.mapping.map fun mp => mp.index1.zip mp.index2) =
      some (some [(0, 0), (1, 0), (2, 2), (3, 4)]) := by decide +kernel
  obtain ⟨r, hr⟩ : ∃ r, dtw Arith.exact (Ex.call 4 5 (fun i j => fin (Ex.meanCost i j)) "asymmetric") = .ok r := by
    cases h : dtw Arith.exact (Ex.call 4 5 (fun i j => fin (Ex.meanCost i j)) "asymmetric") with
    | ok r => exact ⟨r, rfl⟩
    | error e => rw [h] at hv; cases hv
  rw [hr] at hv
  have hv := Option.some.inj hv
  beta_reduce at hv
  cases hm : r.mapping with
  | none => rw [hm] at hv; cases hv
  | some mp =>
    rw [hm] at hv
    have hz := Option.some.inj hv
    beta_reduce at hz
    obtain ⟨hp, hN, _⟩ := C82_bundled ("asymmetric", Pat.asymmetric) Ex.asym_mem (by decide +kernel)
    obtain ⟨x, h1, h2, h3⟩ := C82_mean_N (lo := 0) (hi := 1) hp (hN (by decide +kernel)).1 (by decide +kernel) hP rfl hr hm
      (by
        rw [hz]
        intro x hx
        simp only [List.mem_cons, List.not_mem_nil, or_false] at hx
        rcases hx with rfl | rfl | rfl | rfl <;> decide +kernel)
    exact ⟨r, mp, x, hr, hm, hz, h1, h2, h3⟩

/-- C82, negative witness: in double arithmetic the sum rounds.  Three pairs, each of local cost `0.1` (the double): the
normalized distance is the next double above `0.1`. -/
theorem C82_not_in_doubles :
    (dtw (binary64 false) (Ex.call 3 1 (fun _ _ => fin (3602879701896397 / 2 ^ 55)) "asymmetric")).toOption.map (·.normalizedDistance) =
      some (fin (7205759403792795 / 2 ^ 56)) := by decide +kernel

end DTW
