import Verif.Props.Anchors
import Verif.Props.RoundedWinner

/-!
# C96: fused multiply-add

A C compiler may contract the kernel's `acc += weight * cost` into one fused multiply-add (GCC does so by default where the hardware has one),
which rounds once instead of twice.  With weights for which the product is exact the answer is the same on both machines.
-/

namespace DTW
open F64

variable {rs : List Rule} {p : StepPattern} {a : Args} {n m : Nat} {L : Nat → Nat → F64} {ℓ : Nat → Nat → ℚ} {W : Nat → Nat → Bool}

/-- Every product of a weight and a finite local cost is a double: it needs no rounding. -/
def ExactProducts (rs : List Rule) (n m : Nat) (L : Nat → Nat → F64) : Prop :=
  ∀ r ∈ rs, ∀ t ∈ r.terms, IsDouble t.w ∧ ∀ i < n, ∀ j < m, ∀ l, L i j = fin l → IsDouble (t.w * l)

theorem mac_contracted {w : ℚ} {l c : F64} (hw : IsDouble w) (hl : ∀ x, l = fin x → IsDouble (w * x)) :
    (binary64 true).mac c (rnd64 w) l = (binary64 false).mac c (rnd64 w) l := by
  rw [rnd64_double hw]
  have hadd : ∀ y, (binary64 true).add c y = (binary64 false).add c y := fun y => by cases c <;> cases y <;> rfl
  have hmul : Arith.mulWith fin (fin w) l = (binary64 false).mul (fin w) l := by
    cases l with
    | fin x => exact (rnd64_double (hl x rfl)).symm
    | _ => rfl
  unfold Arith.mac
  rw [hadd]
  congr 1

theorem charge_contracted {r : Rule} {i j : Nat} (hi : i < n) (hj : j < m)
    (h : ∀ t ∈ r.terms, IsDouble t.w ∧ ∀ i < n, ∀ j < m, ∀ l, L i j = fin l → IsDouble (t.w * l)) (c : F64) :
    charge (binary64 true) L r i j c = charge (binary64 false) L r i j c := by
  unfold charge
  generalize r.terms = ts at h
  induction ts generalizing c with
  | nil => rfl
  | cons t ts ih =>
    simp only [List.foldl_cons]
    have e : (binary64 true).mac c ((binary64 true).rnd t.w) (L (i - t.di) (j - t.dj)) =
        (binary64 false).mac c ((binary64 false).rnd t.w) (L (i - t.di) (j - t.dj)) :=
      mac_contracted (h t (List.mem_cons_self ..)).1 ((h t (List.mem_cons_self ..)).2 _ (by omega) _ (by omega))
    rw [e]
    exact ih _ (fun t' ht' => h t' (List.mem_cons_of_mem _ ht'))

theorem Bellman.contracted {S G : Nat → Nat → F64} {D : Nat → Nat → Int} (h : ExactProducts rs n m L)
    (hB : Bellman (binary64 true) rs n m W L S G D) : Bellman (binary64 false) rs n m W L S G D where
  seeded := hB.seeded
  outside := hB.outside
  inside i hi j hj hS hW := by
    have e : rs.map (cand (binary64 false) L G i j) = rs.map (cand (binary64 true) L G i j) := by
      apply List.map_congr_left
      intro r hr
      unfold cand
      split
      · exact (charge_contracted hi hj (h r hr) _).symm
      · rfl
    rw [e]
    exact hB.inside i hi j hj hS hW

/-- C96.  When the product of each weight with each finite local cost is exact, `dtw` answers the same – every field of the result, or the
same exception – whether or not the compiler contracts multiply and add: any ends, any window, infinite and NaN costs included. -/
theorem C96_same_answer (h : Problem a n m L W p rs) (hP : ExactProducts rs n m L) :
    dtw (binary64 true) a = dtw (binary64 false) a := by
  cases hob : a.openBegin with
  | false =>
    obtain ⟨qr, hall⟩ := dtw_closed_all h hob
    obtain ⟨G, D, hB, hd⟩ := hall (binary64 true)
    obtain ⟨G', D', hB', hd'⟩ := hall (binary64 false)
    have hu := (hB.contracted hP).unique h.wf.valid hB' le_rfl le_rfl le_rfl le_rfl
      (fun _ _ _ _ => rfl) (fun _ _ _ _ => rfl) (fun _ _ _ _ => rfl)
    rw [hd, hd', finish_congr h.n_pos (fun i hi j hj => (hu i hi j hj).1) (fun i hi j hj => (hu i hi j hj).2)]
    rfl
  | true =>
    by_cases hh : p.hint = "N"
    · obtain ⟨qr, hall⟩ := dtw_open_all h hob hh
      obtain ⟨G, D, hB, hd⟩ := hall (binary64 true)
      obtain ⟨G', D', hB', hd'⟩ := hall (binary64 false)
      have hP' : ExactProducts rs (n + 1) m (nullRow L) := fun r hr t ht => by
        refine ⟨(hP r hr t ht).1, fun i hi j hj l hl => ?_⟩
        unfold nullRow at hl
        split at hl
        · obtain rfl := F64.fin.inj hl
          rw [mul_zero]; exact isDouble_zero
        · exact (hP r hr t ht).2 _ (by omega) _ hj l hl
      have hu := (hB.contracted hP').unique h.wf.valid hB' le_rfl le_rfl le_rfl le_rfl
        (fun _ _ _ _ => rfl) (fun _ _ _ _ => rfl) (fun _ _ _ _ => rfl)
      rw [hd, hd', finish_congr (Nat.succ_pos n) (fun i hi j hj => (hu i hi j hj).1) (fun i hi j hj => (hu i hi j hj).2)]
      rfl
    · rw [open_bad_hint h hob hh, open_bad_hint h hob hh]

/-! ### Which patterns -/

/-- All the weights are 0 or 1. -/
def UnitWeights (rs : List Rule) : Prop := ∀ r ∈ rs, ∀ t ∈ r.terms, t.w = 0 ∨ t.w = 1

instance (rs : List Rule) : Decidable (UnitWeights rs) := inferInstanceAs (Decidable (∀ _ ∈ _, _))

/-- All the weights are 0, 1/2, 1 or 2. -/
def BinaryWeights (rs : List Rule) : Prop := ∀ r ∈ rs, ∀ t ∈ r.terms, t.w = 0 ∨ t.w = 1/2 ∨ t.w = 1 ∨ t.w = 2

instance (rs : List Rule) : Decidable (BinaryWeights rs) := inferInstanceAs (Decidable (∀ _ ∈ _, _))

theorem ExactProducts.of_unit (hw : UnitWeights rs) (hL : ∀ i < n, ∀ j < m, ∀ l, L i j = fin l → IsDouble l) : ExactProducts rs n m L := by
  have h1 : IsDouble 1 := by simpa using isDouble_int (z := 1) (by norm_num)
  intro r hr t ht
  rcases hw r hr t ht with e | e <;> rw [e]
  · exact ⟨isDouble_zero, fun i _ j _ l _ => by rw [zero_mul]; exact isDouble_zero⟩
  · exact ⟨h1, fun i hi j hj l hl => by rw [one_mul]; exact hL i hi j hj l hl⟩

/-- Doubling or halving a double is exact while the result stays in the range of the doubles. -/
theorem isDouble_twice {l : ℚ} (h : IsDouble l) (hl : |l| < 2 ^ (1023 : ℤ)) : IsDouble (2 * l) := by
  obtain ⟨M, e, hM, he, rfl, -⟩ := h
  refine ⟨M, e + 1, hM, by omega, by rw [zpow_add₀ (by norm_num), zpow_one]; ring, ?_⟩
  rw [abs_mul, abs_of_pos (by norm_num : (0 : ℚ) < 2), show (1024 : ℤ) = 1 + 1023 from rfl, zpow_add₀ (by norm_num), zpow_one]
  exact mul_lt_mul_of_pos_left hl (by norm_num)

theorem isDouble_half {l : ℚ} (h : IsDouble l) (hl : l = 0 ∨ (2 : ℚ) ^ (-1020 : ℤ) ≤ |l|) : IsDouble (1 / 2 * l) := by
  rcases hl with rfl | hl
  · rw [mul_zero]; exact isDouble_zero
  obtain ⟨M, e, hM, he, rfl, hlt⟩ := h
  have he' : -1073 ≤ e := by
    by_contra hc
    have hz : (2 : ℚ) ^ e ≤ 2 ^ (-1074 : ℤ) := zpow_le_zpow_right₀ (by norm_num) (by omega)
    have hM' : (|M| : ℚ) < 2 ^ (53 : ℤ) := by
      have : ((|M| : ℤ) : ℚ) < ((2 ^ 53 : ℤ) : ℚ) := by exact_mod_cast hM
      rw [Int.cast_abs] at this
      refine this.trans_eq ?_
      norm_num
    have hpos : (0 : ℚ) < 2 ^ e := zpow_pos (by norm_num) _
    rw [abs_mul, abs_of_pos hpos] at hl
    have h1 : (|M| : ℚ) * 2 ^ e < 2 ^ (53 : ℤ) * 2 ^ e := mul_lt_mul_of_pos_right hM' hpos
    have h2 : (2 : ℚ) ^ (53 : ℤ) * 2 ^ e ≤ 2 ^ (53 : ℤ) * 2 ^ (-1074 : ℤ) := mul_le_mul_of_nonneg_left hz (zpow_pos (by norm_num) _).le
    have h3 : (2 : ℚ) ^ (53 : ℤ) * 2 ^ (-1074 : ℤ) ≤ 2 ^ (-1020 : ℤ) := by
      rw [← zpow_add₀ (by norm_num)]
      exact zpow_le_zpow_right₀ (by norm_num) (by norm_num)
    exact absurd (hl.trans_lt (h1.trans_le (h2.trans h3))) (_root_.lt_irrefl _)
  refine ⟨M, e - 1, hM, by omega, by rw [zpow_sub_one₀ (by norm_num)]; ring, ?_⟩
  rw [abs_mul, abs_of_pos (by norm_num : (0 : ℚ) < 1 / 2)]
  refine _root_.lt_of_le_of_lt ?_ hlt
  have := abs_nonneg ((M : ℚ) * 2 ^ e)
  linarith

theorem ExactProducts.of_binary (hw : BinaryWeights rs) (hL : ∀ i < n, ∀ j < m, ∀ l, L i j = fin l →
    IsDouble l ∧ (l = 0 ∨ (2 : ℚ) ^ (-1020 : ℤ) ≤ |l|) ∧ |l| < 2 ^ (1023 : ℤ)) : ExactProducts rs n m L := by
  have h1 : IsDouble 1 := by simpa using isDouble_int (z := 1) (by norm_num)
  have h2 : IsDouble 2 := by simpa using isDouble_int (z := 2) (by norm_num)
  have h3 : IsDouble (1 / 2) := ⟨1, -1, by norm_num, by norm_num, by norm_num,
    by rw [abs_of_pos (by norm_num)]; exact (by norm_num : (1 / 2 : ℚ) < 1).trans_le (one_le_zpow₀ (by norm_num) (by norm_num))⟩
  intro r hr t ht
  rcases hw r hr t ht with e | e | e | e <;> rw [e]
  · exact ⟨isDouble_zero, fun i _ j _ l _ => by rw [zero_mul]; exact isDouble_zero⟩
  · exact ⟨h3, fun i hi j hj l hl => isDouble_half (hL i hi j hj l hl).1 (hL i hi j hj l hl).2.1⟩
  · exact ⟨h1, fun i hi j hj l hl => by rw [one_mul]; exact (hL i hi j hj l hl).1⟩
  · exact ⟨h2, fun i hi j hj l hl => isDouble_twice (hL i hi j hj l hl).1 (hL i hi j hj l hl).2.2⟩

/-- C96: of the bundled patterns exactly these have weights 0 and 1 only, and exactly the six others below a weight that is not 0, 1/2, 1 or 2. -/
theorem C96_bundled :
    (∀ q ∈ Pat.table, UnitWeights (rulesOf q.2) ↔ q.1 ∈ ["symmetric1", "asymmetric", "_asymmetricItakura", "asymmetricP0", "_asymmetricP0b",
      "typeIa", "typeIb", "typeIc", "typeIbs", "typeIIa", "typeIIIc", "typeIVc", "rigid"]) ∧
    (∀ q ∈ Pat.table, BinaryWeights (rulesOf q.2) ↔ q.1 ∉ ["_symmetricVelichkoZagoruyko", "asymmetricP05", "asymmetricP2", "typeIds",
      "typeIId", "mori2006"]) ∧
    ∀ e, UnitWeights (mvmRules e) := by
  refine ⟨by decide +kernel, by decide +kernel, fun e r hr t ht => ?_⟩
  unfold mvmRules at hr
  obtain ⟨k, -, rfl⟩ := List.mem_map.1 hr
  exact .inr (by rw [List.mem_singleton.1 ht])

/-- C96 for the patterns with unit weights: the costs may be any doubles. -/
theorem C96_unit (h : Problem a n m L W p rs) (hw : UnitWeights rs) (hL : ∀ i < n, ∀ j < m, ∀ l, L i j = fin l → IsDouble l) :
    dtw (binary64 true) a = dtw (binary64 false) a := C96_same_answer h (.of_unit hw hL)

/-- C96 for weights 0, 1/2, 1 and 2: the costs may be any doubles, zero or neither so small nor so large that half or twice is out of range. -/
theorem C96_binary (h : Problem a n m L W p rs) (hw : BinaryWeights rs) (hL : ∀ i < n, ∀ j < m, ∀ l, L i j = fin l →
    IsDouble l ∧ (l = 0 ∨ (2 : ℚ) ^ (-1020 : ℤ) ≤ |l|) ∧ |l| < 2 ^ (1023 : ℤ)) :
    dtw (binary64 true) a = dtw (binary64 false) a := C96_same_answer h (.of_binary hw hL)

/-- C96 for the other patterns (modest weights, modest costs ≥ 0, closed ends): both machines answer or both raise, and the distances differ
by at most `2 (3 (N+M) + 2) / 2^52` of the exact one. -/
theorem C96_close (h : Problem a n m (fun i j => fin (ℓ i j)) W p rs) (hob : a.openBegin = false) (hoe : a.openEnd = false)
    (hw : ModestWeights rs) (hc : ∀ i < n, ∀ j < m, ModestCost (ℓ i j)) :
    ((∃ r, dtw (binary64 true) a = .ok r) ↔ ∃ r, dtw (binary64 false) a = .ok r) ∧
    ∀ r r', dtw (binary64 true) a = .ok r → dtw (binary64 false) a = .ok r' →
      ∃ d d' d0 r0, r.distance = fin d ∧ r'.distance = fin d' ∧ dtw Arith.exact a = .ok r0 ∧ r0.distance = fin d0 ∧ 0 ≤ d0 ∧
        |d - d'| ≤ 2 * (((3 * (n + m) + 2 : ℕ) : ℚ) / 2 ^ 52) * d0 := by
  obtain ⟨e1, f1⟩ := double_near true h hob hoe hw hc
  obtain ⟨e2, f2⟩ := double_near false h hob hoe hw hc
  refine ⟨e1.trans e2.symm, fun r r' hr hr' => ?_⟩
  obtain ⟨r0, h0⟩ := e1.1 ⟨r, hr⟩
  obtain ⟨d, d0, g1, g2, g3, g4, -⟩ := f1 r r0 hr h0
  obtain ⟨d', d0', k1, k2, -, k4, -⟩ := f2 r' r0 hr' h0
  obtain rfl : d0' = d0 := F64.fin.inj (k2.symm.trans g2)
  refine ⟨d, d', d0', r0, g1, k1, h0, k2, g3, ?_⟩
  have := abs_sub_le d d0' d'
  rw [abs_sub_comm d0' d'] at this
  unfold relError at g4 k4
  linarith

/-- C96: with the weight 3 of `mori2006` the machines do differ, even on a 2 × 2 matrix. -/
theorem C96_not_every_pattern :
    let ℓ : ℚ := 6004799503160662 / 2 ^ 54
    let L := fun i j => if i = 0 ∧ j = 0 then fin (2 ^ 53) else if i = 1 ∧ j = 1 then fin ℓ else fin (2 ^ 60)
    (dtw (binary64 true) (Ex.call 2 2 L "mori2006")).map (·.distance) = .ok (fin (2 ^ 53 + 2)) ∧
    (dtw (binary64 false) (Ex.call 2 2 L "mori2006")).map (·.distance) = .ok (fin (2 ^ 53)) := by decide +kernel

/-! ### Non-vacuity -/

/-- `symmetric2` on costs that are no integers, both infinite and NaN entries among them. -/
def Ex.fmaCost (i j : Nat) : F64 := if i = 2 ∧ j = 0 then pinf else if i = 0 ∧ j = 3 then nan else rnd64 (((i * 2 + j * 3 + 1) % 7 : ℕ) / 10)

theorem Ex.fma_range : ∀ i < 4, ∀ j < 4, ∀ l, Ex.fmaCost i j = fin l →
    IsDouble l ∧ (l = 0 ∨ (2 : ℚ) ^ (-1020 : ℤ) ≤ |l|) ∧ |l| < 2 ^ (1023 : ℤ) := by
  have key : ∀ i < 4, ∀ j < 4, (match Ex.fmaCost i j with | fin l => decide (l = 0 ∨ 1 / 1024 ≤ l ∧ l ≤ 1) | _ => true) = true := by
    decide +kernel
  intro i hi j hj l hl
  have hd : IsDouble l := by
    unfold Ex.fmaCost at hl
    split at hl
    · cases hl
    · split at hl
      · cases hl
      · exact rnd64_isDouble hl
  have hk := key i hi j hj
  rw [hl] at hk
  have h0 : (2 : ℚ) ^ (-1020 : ℤ) ≤ 1 / 1024 := by
    have : (2 : ℚ) ^ (-1020 : ℤ) ≤ 2 ^ (-10 : ℤ) := zpow_le_zpow_right₀ (by norm_num) (by norm_num)
    exact this.trans (by norm_num)
  have h1 : (1 : ℚ) < 2 ^ (1023 : ℤ) := one_lt_zpow₀ (by norm_num) (by norm_num)
  generalize (2 : ℚ) ^ (-1020 : ℤ) = x at h0 ⊢
  generalize (2 : ℚ) ^ (1023 : ℤ) = y at h1 ⊢
  refine ⟨hd, ?_⟩
  rcases of_decide_eq_true hk with rfl | ⟨h2, h3⟩
  · rw [abs_zero]
    exact ⟨.inl rfl, by linarith⟩
  · rw [abs_of_nonneg (by linarith)]
    exact ⟨.inr (h0.trans h2), by linarith⟩

/-- The premises of `C96_binary`, on a call that answers. -/
example : dtw (binary64 true) (Ex.call 4 4 Ex.fmaCost "symmetric2") = dtw (binary64 false) (Ex.call 4 4 Ex.fmaCost "symmetric2") ∧
    (dtw (binary64 true) (Ex.call 4 4 Ex.fmaCost "symmetric2")).map (·.distance) = .ok (fin (2026619832316723 / 2251799813685248)) :=
  ⟨C96_binary (bundled_problem (by decide) (by decide) (by decide) _ _ Ex.sym2_mem) ((C96_bundled.2.1 _ Ex.sym2_mem).2 (by decide))
    Ex.fma_range, by decide +kernel⟩

/-- The premises of `C96_unit`, with an open end, on the same costs. -/
example : dtw (binary64 true) { Ex.call 4 4 Ex.fmaCost "asymmetric" with openEnd := true } =
    dtw (binary64 false) { Ex.call 4 4 Ex.fmaCost "asymmetric" with openEnd := true } := by
  have h := bundled_problem (n := 4) (m := 4) (by decide) (by decide) (by decide) Ex.fmaCost _ Ex.asym_mem
  exact C96_unit (L := Ex.fmaCost) { h with cost := .matrix rfl rfl rfl rfl } ((C96_bundled.1 _ Ex.asym_mem).2 (by decide))
    fun i hi j hj l hl => (Ex.fma_range i hi j hj l hl).1

end DTW
