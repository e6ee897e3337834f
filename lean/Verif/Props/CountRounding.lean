import Verif.Proofs.CountGeneral
import Verif.Props.CountDoubles
import Verif.Props.DoublesMore
import Verif.Props.Witnesses

/-!
# C35: path counts beyond 2^53 — how far off they are, and when counting overflows
-/

namespace DTW
open F64

variable {rs : List Rule} {W : Nat → Nat → Bool} {n m : Nat} {p : StepPattern} {d : Result}

theorem roundPos_relerr {q : ℚ} (hq : 0 < q) (h1 : (2 : ℚ) ^ (-1022 : ℤ) ≤ q) : |roundPos q - q| ≤ q / 2 ^ 53 := by
  have hl : -1022 ≤ Int.log 2 q := (Int.zpow_le_iff_le_log (by norm_num) hq).1 (by simpa using h1)
  have he : ulpExp q = Int.log 2 q - 52 := by unfold ulpExp; omega
  have hu : 2 ^ 52 ≤ q / 2 ^ ulpExp q := by
    rw [le_div_iff₀ (two_zpow_pos _)]
    have h3 := Int.zpow_log_le_self (b := 2) (by norm_num) hq
    have h4 : Int.log 2 q = 52 + ulpExp q := by omega
    rw [h4, Nat.cast_ofNat, zpow_add₀ (by norm_num)] at h3
    calc _ = _ := by norm_num
      _ ≤ q := h3
  have h3 := roundEven_error (q / 2 ^ ulpExp q)
  have hp := two_zpow_pos (ulpExp q)
  have h4 : roundPos q - q = ((roundEven (q / 2 ^ ulpExp q) : ℚ) - q / 2 ^ ulpExp q) * 2 ^ ulpExp q := by
    unfold roundPos
    rw [sub_mul, div_mul_cancel₀ _ hp.ne']
  rw [h4, abs_mul, abs_of_pos hp]
  have h5 : 2 ^ 52 * 2 ^ ulpExp q ≤ q := by rwa [le_div_iff₀ hp] at hu
  calc _ ≤ 1 / 2 * (2 : ℚ) ^ ulpExp q := mul_le_mul_of_nonneg_right h3 hp.le
    _ = (2 ^ 52 * 2 ^ ulpExp q) / 2 ^ 53 := by ring
    _ ≤ _ := div_le_div_of_nonneg_right h5 (by positivity)

/-- Rounding a natural number to 53 bits gives a natural number. -/
theorem roundPos_nat {k : Nat} (hk : 2 ^ 53 ≤ k) : ∃ v : Nat, roundPos k = v := by
  have hq : (0 : ℚ) < k := by
    have : 0 < k := by omega
    exact_mod_cast this
  have hl : 53 ≤ Int.log 2 (k : ℚ) := by
    rw [← Int.zpow_le_iff_le_log (by norm_num) hq]
    have : ((2 ^ 53 : Nat) : ℚ) ≤ k := by exact_mod_cast hk
    calc _ = ((2 ^ 53 : Nat) : ℚ) := by norm_num
      _ ≤ _ := this
  have he : 0 ≤ ulpExp k := by unfold ulpExp; omega
  obtain ⟨t, ht⟩ := Int.eq_ofNat_of_zero_le he
  have h0 := roundPos_nonneg hq
  have : ∃ z : ℤ, roundPos k = z := by
    refine ⟨roundEven ((k : ℚ) / 2 ^ ulpExp k) * 2 ^ t, ?_⟩
    unfold roundPos
    rw [ht]
    push_cast
    rfl
  obtain ⟨z, hz⟩ := this
  rw [hz] at h0
  have hz0 : 0 ≤ z := by exact_mod_cast h0
  obtain ⟨v, rfl⟩ := Int.eq_ofNat_of_zero_le hz0
  exact ⟨v, by rw [hz]; simp⟩

theorem roundsNat_binary64 (f : Bool) : RoundsNat (binary64 f) (1 / 2 ^ 53) (2 ^ (1023 : ℤ)) where
  u_nonneg := by norm_num
  u_le := by norm_num
  one := by simpa using C50_binary64_integers f 1 (by norm_num)
  err := by
    intro k
    by_cases hk : k ≤ 2 ^ 53
    · have h1 : (binary64 f).rnd k = fin k := C50_binary64_integers f k hk
      have hk0 : (0 : ℚ) ≤ k := Nat.cast_nonneg k
      exact .inr ⟨k, h1, by linarith, by linarith, h1⟩
    · have hk : 2 ^ 53 ≤ k := by omega
      have hk1 : (1 : ℚ) ≤ k := by
        have : 1 ≤ k := by omega
        exact_mod_cast this
      have hq : (0 : ℚ) < k := by linarith
      have hlo : (2 : ℚ) ^ (-1022 : ℤ) ≤ k := by
        refine _root_.le_trans ?_ hk1
        rw [← zpow_zero (2 : ℚ)]; exact two_zpow_le (by norm_num)
      have e : (binary64 f).rnd k = overflow (roundPos k) := by
        show rnd64 k = _
        unfold rnd64; rw [if_pos hq]
      obtain ⟨v, hv⟩ := roundPos_nat hk
      have herr := roundPos_relerr hq hlo
      rw [hv, abs_le] at herr
      rw [e, hv]
      unfold overflow
      by_cases hov : (2 : ℚ) ^ (1024 : ℤ) ≤ v
      · left
        rw [if_pos hov]
        refine ⟨rfl, not_lt.1 fun hc => ?_⟩
        obtain ⟨w, hw, _⟩ := (C49_binary64_relerr f).err k hlo hc.le
        rw [e, hv, overflow, if_pos hov] at hw
        exact absurd hw (by simp)
      · right
        rw [if_neg hov]
        refine ⟨v, rfl, by linarith [herr.1], by linarith [herr.2], ?_⟩
        have := ((C49_nearest k).1 v (by
          show rnd64 k = _
          have e' : rnd64 k = overflow (roundPos k) := e
          rw [e', hv, overflow, if_neg hov])).1
        exact rnd64_double this

theorem roundsNat_exact : RoundsNat Arith.exact 0 1 where
  u_nonneg := _root_.le_refl _
  u_le := by norm_num
  one := rfl
  err := fun k => .inr ⟨k, rfl, by simp, by simp, rfl⟩

/-- countPaths is the exact total of the table of counts, up to rounding; an infinite total is an OverflowError. -/
theorem countPaths_close {A : Arith} {u H : ℚ} (hA : RoundsNat A u H) (hH : 0 < H) (hp : WF p rs) (ht : MarkersSurvive rs)
    (hd : AboutProblem d n m p W) (hn : 0 < n) (hm : 0 < m) {f : Nat → Nat → Nat}
    (h1 : ∀ i j, countSeed d.openBegin i j = true → f i j = 1)
    (h2 : ∀ i j, countSeed d.openBegin i j = false → W i j = false → f i j = 0)
    (h3 : ∀ i j, countSeed d.openBegin i j = false → W i j = true →
      f i j = ((List.range rs.length).map (contrib rs f i j)).sum) :
    ∃ v, countPaths A d = pyInt v ∧
      CloseCount A u H (rs.length * (n + m - 2) + if d.openEnd then m - 1 else 0)
        (if d.openEnd then ((List.range m).map (f (n - 1))).sum else f (n - 1) (m - 1)) v := by
  obtain ⟨g, hg⟩ := exists_countTable A W (countSeed d.openBegin) n m hp.valid
  have hcm := countMatrixG hp ht hd hn hm hg
  have hcl := hg.close hA hp.valid h1 h2 h3
  unfold countPaths
  rw [hcm, Except_bind_ok]
  cases hoe : d.openEnd with
  | false =>
    simp only [Bool.false_eq_true, if_false]
    rw [pyGet_neg_one_neg_one _ hn hm, Except_bind_ok]
    refine ⟨_, rfl, ?_⟩
    have := hcl _ (n - 1) (m - 1) rfl (by omega) (by omega)
    rwa [show n - 1 + (m - 1) = n + m - 2 by omega] at this
  | true =>
    simp only [if_true]
    rw [show (Mat.ofFn n m g).rows = n from rfl, row_ofFn _ (by omega), Except_bind_ok]
    refine ⟨_, rfl, ?_⟩
    have := (npSum_spec (A := A) ((List.range m).map (g (n - 1)))).close hA hH (e := rs.length * (n + m - 2))
      ((List.range m).map fun j => (f (n - 1) j, g (n - 1) j)) (by
        rw [List.map_map]; exact List.Perm.refl _) (by
        intro x hx
        obtain ⟨j, hj, rfl⟩ := List.mem_map.1 hx
        rw [List.mem_range] at hj
        exact (hcl _ (n - 1) j rfl (by omega) hj).mono hA.u_nonneg hA.u_le (Nat.mul_le_mul_left _ (by omega)))
    rw [List.length_map, List.length_range, List.map_map] at this
    exact this

/-- An approximation by doubles, read by Python's `int`. -/
theorem pyInt_close (fma : Bool) {E c : Nat} {v : F64} (hE : E ≤ 2 ^ 51)
    (h : CloseCount (binary64 fma) (1 / 2 ^ 53) (2 ^ (1023 : ℤ)) E c v) :
    (pyInt v = .error .overflowError ∧ 2 ^ 1022 ≤ c) ∨
      ∃ k : Nat, pyInt v = .ok (k : Int) ∧ |(k : ℚ) - c| ≤ 2 * E / 2 ^ 53 * c ∧ c < 2 ^ 1025 := by
  have hE' : (E : ℚ) ≤ 2 ^ 51 := by exact_mod_cast hE
  have hEu : (E : ℚ) * (1 / 2 ^ 53) ≤ 1 / 2 ^ 2 := by
    calc (E : ℚ) * (1 / 2 ^ 53) ≤ 2 ^ 51 * (1 / 2 ^ 53) := mul_le_mul_of_nonneg_right hE' (by norm_num)
      _ = _ := by norm_num
  have hup := pow_le_linear (u := 1 / 2 ^ 53) (by norm_num) E (_root_.le_trans hEu (by norm_num))
  have hlow : 1 - (E : ℚ) * (1 / 2 ^ 53) ≤ (1 - 1 / 2 ^ 53) ^ E := by
    have := one_add_mul_le_pow (a := -(1 / 2 ^ 53 : ℚ)) (by norm_num) E
    calc 1 - (E : ℚ) * (1 / 2 ^ 53) = 1 + (E : ℚ) * (-(1 / 2 ^ 53)) := by ring
      _ ≤ _ := this
      _ = _ := by rw [← sub_eq_add_neg]
  have hc : (0 : ℚ) ≤ c := Nat.cast_nonneg c
  have hup2 : (1 + 1 / 2 ^ 53 : ℚ) ^ E ≤ 2 := by linarith
  have hlow2 : (1 / 2 : ℚ) ≤ (1 - 1 / 2 ^ 53) ^ E := by linarith
  unfold CloseCount at h
  generalize (1 + 1 / 2 ^ 53 : ℚ) ^ E = U at *
  generalize (1 - 1 / 2 ^ 53 : ℚ) ^ E = D at *
  rcases h with ⟨rfl, h⟩ | ⟨q, rfl, a1, a2, a3⟩
  · refine .inl ⟨rfl, ?_⟩
    have e : (2 : ℚ) ^ (1023 : ℤ) = 2 * ((2 ^ 1022 : Nat) : ℚ) := by
      rw [show (1023 : ℤ) = 1 + ((1022 : Nat) : ℤ) from rfl, zpow_add₀ (by norm_num), zpow_natCast, zpow_one]
      rw [Nat.cast_pow, Nat.cast_ofNat]
    rw [e] at h
    generalize (2 ^ 1022 : Nat) = X at *
    have h2 : U * c ≤ 2 * c := mul_le_mul_of_nonneg_right hup2 hc
    have : (X : ℚ) ≤ c := by linarith
    exact_mod_cast this
  · refine .inr ⟨q, by rw [pyInt_nat], ?_, ?_⟩
    · have h2 := mul_le_mul_of_nonneg_right hup hc
      have h3 := mul_le_mul_of_nonneg_right hlow hc
      have h4 : 0 ≤ (E : ℚ) * (1 / 2 ^ 53) * c := mul_nonneg (mul_nonneg (Nat.cast_nonneg _) (by norm_num)) hc
      have e : 2 * (E : ℚ) / 2 ^ 53 * c = 2 * E * (1 / 2 ^ 53) * c := by rw [mul_one_div]
      rw [abs_le, e]
      constructor <;> linarith
    · have hd := ((C49_nearest q).1 q (by exact a3)).1
      obtain ⟨_, _, _, _, _, hlt⟩ := hd
      rw [abs_of_nonneg (Nat.cast_nonneg q)] at hlt
      have e : (2 : ℚ) ^ (1024 : ℤ) = ((2 ^ 1024 : Nat) : ℚ) := by
        rw [show (1024 : ℤ) = ((1024 : Nat) : ℤ) from rfl, zpow_natCast, Nat.cast_pow, Nat.cast_ofNat]
      rw [e] at hlt
      have e2 : 2 ^ 1025 = 2 * 2 ^ 1024 := by rw [Nat.pow_succ, Nat.mul_comm]
      rw [e2]
      generalize (2 ^ 1024 : Nat) = X at *
      have h3 := mul_le_mul_of_nonneg_right hlow2 hc
      have : (c : ℚ) < 2 * X := by linarith
      exact_mod_cast this

/-- **C35**, IEEE doubles, any size (closed begin).  Let `c` be the number of alignments.  `countPaths` either raises
OverflowError, and then `c ≥ 2^1022`, or returns a number within relative error `2 E / 2^53` of `c`, where
`E = |rules| (n + m - 2)` (plus `m - 1` with an open end). -/
theorem C35_double_error (fma : Bool) (hp : WF p rs) (ht : MarkersSurvive rs) (hd : AboutProblem d n m p W)
    (hob : d.openBegin = false) (hn : 0 < n) (hm : 0 < m) {E c : Nat}
    (hE : E = rs.length * (n + m - 2) + if d.openEnd then m - 1 else 0) (hEs : E ≤ 2 ^ 51)
    (hc : HasCount (fun x : Nat × List Int => (if d.openEnd then x.1 < m else x.1 = m - 1) ∧
        RulePath rs W x.2 (n - 1) x.1) c) :
    (countPaths (binary64 fma) d = .error .overflowError ∧ 2 ^ 1022 ≤ c) ∨
      ∃ k : Nat, countPaths (binary64 fma) d = .ok (k : Int) ∧ |(k : ℚ) - c| ≤ 2 * E / 2 ^ 53 * c ∧ c < 2 ^ 1025 := by
  obtain ⟨f, h0, h1, h2, h3⟩ := exists_table (W := W) (seed := countSeed false) hp.valid
  have hf := fun i j => count_rulePath hp.valid (h0 i j)
  obtain ⟨v, hv, hcl⟩ := countPaths_close (roundsNat_binary64 fma) (two_zpow_pos _) hp ht hd hn hm
    (by rw [hob]; exact h1) (by rw [hob]; exact h2) (by rw [hob]; exact h3)
  rw [← hE] at hcl
  have hce : (if d.openEnd then ((List.range m).map (f (n - 1))).sum else f (n - 1) (m - 1)) = c := by
    apply HasCount.unique _ hc
    cases hoe : d.openEnd with
    | true => simpa using hasCount_lastRow (m := m) fun j _ => hf (n - 1) j
    | false =>
      simp only [Bool.false_eq_true, if_false]
      refine ((hf (n - 1) (m - 1)).image (fun ks => (m - 1, ks)) (by intro x y _ _ hxy; exact (Prod.mk.inj hxy).2)).congr ?_
      rintro ⟨j, ks⟩
      simp only [Prod.mk.injEq]
      constructor
      · rintro ⟨ks', h1, rfl, rfl⟩; exact ⟨rfl, h1⟩
      · rintro ⟨rfl, h1⟩; exact ⟨ks, h1, rfl, rfl⟩
  rw [hce] at hcl
  rw [hv]
  exact pyInt_close fma hEs hcl

theorem delannoy_left (i j : Nat) : delannoy i j ≤ delannoy (i + 1) j := by
  cases i <;> cases j <;> simp [delannoy] <;> omega

theorem delannoy_right (i j : Nat) : delannoy i j ≤ delannoy i (j + 1) := by
  cases i <;> cases j <;> simp [delannoy] <;> omega

theorem delannoy_big : ∀ k i j : Nat, k ≤ i → k ≤ j → 3 ^ k ≤ delannoy i j
  | 0, i, j, _, _ => by
    have : 1 ≤ delannoy i j := by
      induction i with
      | zero => simp [delannoy]
      | succ i ih => exact (ih (Nat.zero_le _)).trans (delannoy_left i j)
    simpa using this
  | k + 1, i + 1, j + 1, h1, h2 => by
    have h := delannoy_big k i j (by omega) (by omega)
    have l := delannoy_left i j
    have r := delannoy_right i j
    simp only [delannoy]
    omega

/-- **C35**, counting overflows.  For two series of at least 648 elements each (and `3 (n + m) ≤ 2^51`), `symmetric1` or
`symmetric2`, no window, closed ends, `countPaths` always raises OverflowError: it does not return a number. -/
theorem C35_overflow (fma : Bool) (hps : p = Pat.symmetric1 ∨ p = Pat.symmetric2)
    (hd : AboutProblem d n m p (fun _ _ => true)) (hob : d.openBegin = false) (hoe : d.openEnd = false)
    (hn : 648 ≤ n) (hm : 648 ≤ m) (hnm : 3 * (n + m) ≤ 2 ^ 51) :
    countPaths (binary64 fma) d = .error .overflowError := by
  have hwf : WF p (rulesOf p) := by
    rcases hps with rfl | rfl <;> exact wf_of_check (by decide +kernel)
  have hms : MarkersSurvive (rulesOf p) := by
    rcases hps with rfl | rfl <;> decide +kernel
  have hlen : (rulesOf p).length = 3 := by
    rcases hps with rfl | rfl <;> decide +kernel
  have hc : HasCount (fun x : Nat × List Int => (if d.openEnd then x.1 < m else x.1 = m - 1) ∧
      RulePath (rulesOf p) (fun _ _ => true) x.2 (n - 1) x.1) (delannoy (n - 1) (m - 1)) := by
    refine ((delannoy_count p hps (n - 1) (m - 1)).image (fun ks => (m - 1, ks))
      (by intro x y _ _ hxy; exact (Prod.mk.inj hxy).2)).congr ?_
    rintro ⟨j, ks⟩
    simp only [hoe, Bool.false_eq_true, if_false, Prod.mk.injEq]
    constructor
    · rintro ⟨ks', h1, rfl, rfl⟩; exact ⟨rfl, h1⟩
    · rintro ⟨rfl, h1⟩; exact ⟨ks, h1, rfl, rfl⟩
  have hbig := delannoy_big 647 (n - 1) (m - 1) (by omega) (by omega)
  have h647 : 2 ^ 1025 ≤ 3 ^ 647 := by decide +kernel
  rcases C35_double_error fma hwf hms hd hob (by omega) (by omega) rfl (by
    rw [hlen, hoe]
    simp only [Bool.false_eq_true, if_false]
    omega) hc with ⟨h, _⟩ | ⟨k, _, _, h⟩
  · exact h
  · exact absurd (lt_of_le_of_lt (h647.trans hbig) h) (lt_irrefl _)

/-- **C35**, IEEE doubles, any size, open begin and closed end. -/
theorem C35_open_begin_double_error (fma : Bool) (hp : WF p rs) (ht : MarkersSurvive rs) (hd : AboutProblem d n m p W)
    (hob : d.openBegin = true) (hoe : d.openEnd = false) (hn : 0 < n) (hm : 0 < m) {E c : Nat}
    (hE : E = rs.length * (n + m - 2)) (hEs : E ≤ 2 ^ 51)
    (hc : HasCount (fun x : Nat × List Int =>
        SeededPath rs W (fun i _ => decide (i = 0)) 0 x.1 x.2 (n - 1) (m - 1)) c) :
    (countPaths (binary64 fma) d = .error .overflowError ∧ 2 ^ 1022 ≤ c) ∨
      ∃ k : Nat, countPaths (binary64 fma) d = .ok (k : Int) ∧ |(k : ℚ) - c| ≤ 2 * E / 2 ^ 53 * c ∧ c < 2 ^ 1025 := by
  obtain ⟨f, h0, h1, h2, h3⟩ := exists_table (W := W) (seed := countSeed true) hp.valid
  obtain ⟨v, hv, hcl⟩ := countPaths_close (roundsNat_binary64 fma) (two_zpow_pos _) hp ht hd hn hm
    (by rw [hob]; exact h1) (by rw [hob]; exact h2) (by rw [hob]; exact h3)
  obtain ⟨v', hv', hcl'⟩ := countPaths_close roundsNat_exact one_pos hp ht hd hn hm
    (by rw [hob]; exact h1) (by rw [hob]; exact h2) (by rw [hob]; exact h3)
  obtain ⟨k, hk, hck⟩ := C35_open_begin hp ht hd hob hoe hn hm
  rw [hoe] at hcl hcl'
  simp only [Bool.false_eq_true, if_false, Nat.add_zero] at hcl hcl'
  have hce : f (n - 1) (m - 1) = c := by
    rw [hc.unique hck]
    rw [hk] at hv'
    rcases hcl' with ⟨rfl, _⟩ | ⟨q, rfl, b1, b2, _⟩
    · simp [pyInt] at hv'
    · rw [pyInt_nat] at hv'
      have e1 := Except.ok.inj hv'
      have e2 : k = q := by exact_mod_cast e1
      subst e2
      simp only [sub_zero, one_pow, one_mul, _root_.add_zero] at b1 b2
      exact_mod_cast _root_.le_antisymm b1 b2
  rw [hce, ← hE] at hcl
  rw [hv]
  exact pyInt_close fma hEs hcl

/-! #### A concrete case, evaluated row by row -/

/-- A row of the count table of symmetric2 without window, from the row above: the state is the pair of the entries
above-left and left. -/
def scanRow (A : Arith) : Option (F64 × F64) → List F64 → List F64
  | _, [] => []
  | none, u :: us => A.add (fin 0) u :: scanRow A (some (u, A.add (fin 0) u)) us
  | some (dg, l), u :: us =>
    A.add (A.add (A.add (fin 0) dg) l) u :: scanRow A (some (u, A.add (A.add (A.add (fin 0) dg) l) u)) us

/-- The first row, from the left. -/
def firstRow (A : Arith) : Nat → F64 → List F64
  | 0, _ => []
  | k + 1, v => v :: firstRow A k (A.add (fin 0) v)

/-- Row `i` of the count table. -/
def rowsA (A : Arith) (m : Nat) : Nat → List F64
  | 0 => firstRow A m (fin 1)
  | i + 1 => scanRow A none (rowsA A m i)

theorem firstRow_get (A : Arith) : ∀ (k : Nat) (v : F64) (j : Nat), j + 1 < k →
    (firstRow A k v)[j + 1]? = ((firstRow A k v)[j]?).map (A.add (fin 0))
  | k + 2, v, 0, _ => by simp [firstRow]
  | k + 1, v, j + 1, h => by
    have := firstRow_get A k (A.add (fin 0) v) j (by omega)
    simpa [firstRow] using this

theorem firstRow_length (A : Arith) : ∀ (k : Nat) (v : F64), (firstRow A k v).length = k
  | 0, _ => rfl
  | k + 1, v => by simp [firstRow, firstRow_length A k]

theorem scanRow_length (A : Arith) : ∀ (s : Option (F64 × F64)) (l : List F64), (scanRow A s l).length = l.length
  | _, [] => by simp [scanRow]
  | none, u :: us => by simp [scanRow, scanRow_length A _ us]
  | some (_, _), u :: us => by simp [scanRow, scanRow_length A _ us]

theorem scanRow_get (A : Arith) : ∀ (l : List F64) (s : Option (F64 × F64)) (j : Nat), j + 1 < l.length →
    (scanRow A s l)[j + 1]? = some (A.add (A.add (A.add (fin 0) (l[j]?.getD nan)) ((scanRow A s l)[j]?.getD nan))
      (l[j + 1]?.getD nan))
  | u :: u' :: us, none, 0, _ => by simp [scanRow]
  | u :: u' :: us, some (_, _), 0, _ => by simp [scanRow]
  | u :: us, none, j + 1, h => by
    have := scanRow_get A us (some (u, A.add (fin 0) u)) j (by simpa using h)
    simpa [scanRow] using this
  | u :: us, some (dg, l), j + 1, h => by
    have := scanRow_get A us (some (u, A.add (A.add (A.add (fin 0) dg) l) u)) j (by simpa using h)
    simpa [scanRow] using this

theorem rowsA_length (A : Arith) (m : Nat) : ∀ i, (rowsA A m i).length = m
  | 0 => firstRow_length A m _
  | i + 1 => by rw [rowsA, scanRow_length, rowsA_length A m i]

/-- The table satisfies the recursion of countPaths. -/
theorem rowsA_table (A : Arith) (n m : Nat) :
    CountTable A (rulesOf Pat.symmetric2) (fun _ _ => true) (countSeed false) n m
      (fun i j => (rowsA A m i)[j]?.getD nan) := by
  have er : rulesOf Pat.symmetric2 = [⟨1, 1, [⟨0, 0, 2⟩]⟩, ⟨0, 1, [⟨0, 0, 1⟩]⟩, ⟨1, 0, [⟨0, 0, 1⟩]⟩] := by decide +kernel
  rw [er]
  refine ⟨?_, by simp, ?_⟩
  · intro i _ j hj h
    obtain ⟨rfl, rfl⟩ : i = 0 ∧ j = 0 := by simpa [countSeed] using h
    obtain ⟨k, rfl⟩ : ∃ k, m = k + 1 := ⟨m - 1, by omega⟩
    simp [rowsA, firstRow]
  · intro i _ j hj h _
    have hij : ¬ (i = 0 ∧ j = 0) := by simpa [countSeed] using h
    simp only [sumRules, List.length_cons, List.length_nil, List.range_succ, List.range_zero, List.nil_append,
      List.cons_append, List.foldl_cons, List.foldl_nil, addRule, List.getElem?_cons_zero, List.getElem?_cons_succ]
    match i, j with
    | 0, 0 => exact absurd ⟨rfl, rfl⟩ hij
    | 0, j + 1 =>
      have := firstRow_get A m (fin 1) j hj
      have hlt : j < (firstRow A m (fin 1)).length := by rw [firstRow_length]; omega
      have e2 := List.getElem?_eq_getElem hlt
      rw [e2] at this
      have e0 : rowsA A m 0 = firstRow A m (fin 1) := rfl
      simp [e0, this, e2]
    | i + 1, 0 =>
      cases hl : rowsA A m i with
      | nil => have := rowsA_length A m i; rw [hl] at this; simp at this; omega
      | cons u us => simp [rowsA, hl, scanRow]
    | i + 1, j + 1 =>
      have := scanRow_get A (rowsA A m i) none j (by rw [rowsA_length]; exact hj)
      have e1 : rowsA A m (i + 1) = scanRow A none (rowsA A m i) := rfl
      simp [e1, this]

/-- countPaths of every closed-ended symmetric2 alignment without window. -/
theorem countPaths_sym2 (A : Arith) {d : Result} {n m : Nat} (hn : 0 < n) (hm : 0 < m)
    (hd : AboutProblem d n m Pat.symmetric2 (fun _ _ => true)) (hob : d.openBegin = false) (hoe : d.openEnd = false) :
    countPaths A d = pyInt ((rowsA A m (n - 1))[m - 1]?.getD nan) := by
  have hwf : WF Pat.symmetric2 (rulesOf Pat.symmetric2) := wf_of_check (by decide +kernel)
  have hms : MarkersSurvive (rulesOf Pat.symmetric2) := by decide +kernel
  have hg := rowsA_table A n m
  rw [← hob] at hg
  unfold countPaths
  rw [countMatrixG hwf hms hd hn hm hg, Except_bind_ok, hoe]
  simp only [Bool.false_eq_true, if_false]
  rw [pyGet_neg_one_neg_one _ hn hm, Except_bind_ok]

/-- **C35**, exactness really ends at 2^53.  Two series of 24 elements, symmetric2, no window, closed ends: there are
48141245001931263 alignments, but `countPaths` says 48141245001931264. -/
theorem C35_double_off_by_one (fma : Bool) (hd : AboutProblem d 24 24 Pat.symmetric2 (fun _ _ => true))
    (hob : d.openBegin = false) (hoe : d.openEnd = false) :
    countPaths (binary64 fma) d = .ok 48141245001931264 ∧
    countPaths Arith.exact d = .ok 48141245001931263 ∧
    HasCount (fun ks => RulePath (rulesOf Pat.symmetric2) (fun _ _ => true) ks 23 23) 48141245001931263 := by
  have hex : countPaths Arith.exact d = .ok 48141245001931263 := by
    rw [countPaths_sym2 _ (by decide) (by decide) hd hob hoe]
    decide +kernel
  refine ⟨?_, hex, ?_⟩
  · rw [countPaths_sym2 _ (by decide) (by decide) hd hob hoe]
    cases fma <;> decide +kernel
  · have hdel := (C35_delannoy (.inr rfl) hd hob hoe (by decide) (by decide)).1
    rw [hex] at hdel
    have hk : delannoy 23 23 = 48141245001931263 := by
      have := Except.ok.inj hdel
      have h2 : ((48141245001931263 : Nat) : Int) = (delannoy 23 23 : Int) := this
      exact (Int.ofNat.inj h2).symm
    rw [← hk]
    exact delannoy_count _ (.inr rfl) 23 23

/-- Such alignment objects exist, and the hypotheses of `C35_double_error` are met: `dtw` of the 24 × 24 zero matrix. -/
example : ∃ (a : Args) (r : Result), dtw Arith.exact a = .ok r ∧
    countPaths (binary64 false) r = .ok 48141245001931264 ∧
    ((countPaths (binary64 false) r = .error .overflowError ∧ 2 ^ 1022 ≤ 48141245001931263) ∨
      ∃ k : Nat, countPaths (binary64 false) r = .ok (k : Int) ∧
        |(k : ℚ) - (48141245001931263 : Nat)| ≤ 2 * (138 : Nat) / 2 ^ 53 * (48141245001931263 : Nat) ∧
        48141245001931263 < 2 ^ 1025) := by
  have hpr := bundled_problem (n := 24) (m := 24) (by decide) (by decide) (by decide) (fun _ _ => fin 0) _ Ex.sym2_mem
  obtain ⟨r, hr⟩ := C51_unrestricted_exists (ℓ := fun _ _ => 0) (by decide +kernel) (by decide +kernel) hpr rfl rfl
  obtain ⟨h1, h2, h3⟩ := C35_result_about hpr rfl (fun _ => rfl) hr
  have h3 : r.openEnd = false := h3
  obtain ⟨e1, _, e2⟩ := C35_double_off_by_one false h1 h2 h3
  refine ⟨_, r, hr, e1, ?_⟩
  refine C35_double_error (rs := rulesOf Pat.symmetric2) false (wf_of_check (by decide +kernel)) (by decide +kernel) h1 h2 (by decide) (by decide)
    (E := 138) (by rw [h3]; decide +kernel) (by decide) ?_
  rw [h3]
  refine (e2.image (fun ks => (23, ks)) (by intro x y _ _ hxy; exact (Prod.mk.inj hxy).2)).congr ?_
  rintro ⟨j, ks⟩
  simp only [Bool.false_eq_true, if_false, Prod.mk.injEq]
  constructor
  · rintro ⟨ks', h1, rfl, rfl⟩; exact ⟨rfl, h1⟩
  · rintro ⟨rfl, h1⟩; exact ⟨ks, h1, rfl, rfl⟩

end DTW
