import Verif.Props.WarpDoubles
import Verif.Props.RoundedWinner

/-!
# C42 in double precision, any lengths: the rounding errors of `warpArea`

`C42_double` needs the diagonal to pass through grid points.  Here there is no such condition: the result is the exact area up to
`N²·M·2^-50`.
-/

namespace DTW
open F64

variable {rs : List Rule} {W : Nat → Nat → Bool} {n m : Nat} {p : StepPattern}
  {a : Args} {d r : Result} {L : Nat → Nat → F64} {mp : Mapping} {A : Arith}

/-- Rounding a number of magnitude at most `B` to a double moves it by at most `B·2^-53`. -/
theorem rnd_abs (f : Bool) {x B : ℚ} (h : |x| ≤ B) (h1 : 1 ≤ B) (h2 : B ≤ 2 ^ 200) :
    ∃ v, (binary64 f).rnd x = fin v ∧ |v - x| ≤ B / 2 ^ 53 := by
  have hB : B ≤ (2 : ℚ) ^ (1023 : ℤ) := by
    refine _root_.le_trans h2 ?_
    rw [show ((2 : ℚ) ^ 200) = 2 ^ ((200 : ℕ) : ℤ) from (zpow_natCast 2 200).symm]
    exact two_zpow_le (by norm_num)
  by_cases hs : (2 : ℚ) ^ (-1022 : ℤ) ≤ |x|
  · obtain ⟨v, e, hv⟩ := rnd64_error hs (_root_.le_trans h hB)
    refine ⟨v, e, _root_.le_trans hv ?_⟩
    exact div_le_div_of_nonneg_right h (by norm_num)
  · have hx : |x| ≤ (2 : ℚ) ^ (-1022 : ℤ) := (not_le.1 hs).le
    have hd : IsDouble ((2 : ℚ) ^ (-1022 : ℤ)) := isDouble_zpow (by norm_num) (by norm_num)
    have hsmall : (2 : ℚ) ^ (-1022 : ℤ) ≤ B / 2 ^ 53 := by
      have e : (2 : ℚ) ^ (-1022 : ℤ) ≤ 2 ^ (-53 : ℤ) := two_zpow_le (by norm_num)
      have e' : (2 : ℚ) ^ (-53 : ℤ) = 1 / 2 ^ 53 := by norm_num
      rw [e'] at e
      exact _root_.le_trans e (div_le_div_of_nonneg_right h1 (by norm_num))
    obtain ⟨l, u⟩ := abs_le.1 hx
    have r1 := rnd64_mono u
    have r2 := rnd64_mono l
    rw [rnd64_neg, rnd64_double hd] at r2
    rw [rnd64_double hd] at r1
    show ∃ v, rnd64 x = fin v ∧ _
    cases hv : rnd64 x with
    | nan => exact absurd hv ((binary64 f).rnd_ne_nan x)
    | pinf => rw [hv] at r1; simp [F64.lt] at r1
    | ninf => rw [hv] at r2; simp [F64.lt, F64.neg] at r2
    | fin v =>
      have hz : IsDouble 0 := by
        have := (C49_nearest 0).1 0 (binary64 false).rnd_zero
        exact this.1
      have := ((C49_nearest x).1 v hv).2 0 hz
      rw [zero_sub, abs_neg] at this
      exact ⟨v, rfl, _root_.le_trans this (_root_.le_trans hx hsmall)⟩

/-- The sum of at most `N` doubles of magnitude at most `K`, in any order and grouping. -/
theorem SumOf.near (f : Bool) {N : Nat} {K : ℚ} (hN : 1 ≤ N) (hN2 : N ≤ 2 ^ 52) (hK : 1 ≤ K) (hK2 : K ≤ 2 ^ 100) {l : List F64} {v : F64}
    (h : SumOf (binary64 f) l v) : ∀ z : List ℚ, l = z.map fin →
      (∀ q ∈ z, (binary64 f).rnd q = fin q ∧ |q| ≤ K) → z.length ≤ N →
      ∃ s, v = fin s ∧ (binary64 f).rnd s = fin s ∧ |s - z.sum| ≤ ((z.length - 1 : ℕ) : ℚ) * (2 * N * K / 2 ^ 53) := by
  have hNq : (1 : ℚ) ≤ N := by exact_mod_cast hN
  have hNq2 : (N : ℚ) ≤ 2 ^ 52 := by exact_mod_cast hN2
  set T : ℚ := 2 * N * K with hT
  have hNK : (1 : ℚ) ≤ N * K := by nlinarith
  have hNK2 : (N : ℚ) * K ≤ 2 ^ 52 * 2 ^ 100 := mul_le_mul hNq2 hK2 (by linarith) (by norm_num)
  have hT1 : 1 ≤ T := by rw [hT]; nlinarith
  have hT2 : T ≤ 2 ^ 200 := by
    have : (2 : ℚ) * (2 ^ 52 * 2 ^ 100) ≤ 2 ^ 200 := by norm_num
    rw [hT]; nlinarith
  induction h with
  | zero =>
    intro z hz _ _
    obtain rfl : z = [] := List.map_eq_nil_iff.1 hz.symm
    exact ⟨0, rfl, (binary64 f).rnd_zero, by simp⟩
  | one x =>
    intro z hz hq _
    match z, hz with
    | [u], hz =>
      simp only [List.map_cons, List.map_nil, List.cons.injEq, and_true] at hz
      exact ⟨u, hz, (hq u (by simp)).1, by simp⟩
  | @add l l1 l2 v1 v2 _ _ hp ih1 ih2 =>
    intro z hz hq hlen
    have hall : ∀ x ∈ l, ∃ u, x = fin u := by
      intro x hx; rw [hz] at hx
      obtain ⟨u, _, rfl⟩ := List.mem_map.1 hx
      exact ⟨u, rfl⟩
    obtain ⟨z1, hz1⟩ := map_of_forall fin l1 fun x hx => hall x (hp.mem_iff.2 (by simp [hx]))
    obtain ⟨z2, hz2⟩ := map_of_forall fin l2 fun x hx => hall x (hp.mem_iff.2 (by simp [hx]))
    rw [hz, hz1, hz2, ← List.map_append] at hp
    have hperm := (List.map_perm_map_iff (fun _ _ h => F64.fin.inj h)).1 hp
    have hs := hperm.sum_eq
    have hl := hperm.length_eq
    rw [List.sum_append] at hs
    rw [List.length_append] at hl
    obtain ⟨s1, rfl, q1, e1⟩ := ih1 z1 hz1 (fun q hq' => hq q (hperm.mem_iff.2 (by simp [hq']))) (by omega)
    obtain ⟨s2, rfl, q2, e2⟩ := ih2 z2 hz2 (fun q hq' => hq q (hperm.mem_iff.2 (by simp [hq']))) (by omega)
    show ∃ s, (binary64 f).rnd (s1 + s2) = fin s ∧ _
    have hzero : ∀ (z : List ℚ) (s : ℚ), z = [] → |s - z.sum| ≤ ((z.length - 1 : ℕ) : ℚ) * (T / 2 ^ 53) → s = 0 := by
      intro z s hz h
      subst hz
      simpa using h
    by_cases c1 : z1 = []
    · obtain rfl := hzero z1 s1 c1 e1
      subst c1
      refine ⟨s2, by rw [zero_add]; exact q2, q2, ?_⟩
      rw [hs, hl]
      simpa using e2
    by_cases c2 : z2 = []
    · obtain rfl := hzero z2 s2 c2 e2
      subst c2
      refine ⟨s1, by rw [add_zero]; exact q1, q1, ?_⟩
      rw [hs, hl]
      simpa using e1
    have p1 := List.length_pos_iff.2 c1
    have p2 := List.length_pos_iff.2 c2
    have hsum : |s1 + s2 - z.sum| ≤ ((z.length - 2 : ℕ) : ℚ) * (T / 2 ^ 53) := by
      rw [hs, hl, show s1 + s2 - (z1.sum + z2.sum) = (s1 - z1.sum) + (s2 - z2.sum) by ring]
      refine _root_.le_trans (abs_add_le _ _) (_root_.le_trans (add_le_add e1 e2) (le_of_eq ?_))
      rw [← add_mul, ← Nat.cast_add]
      congr 2
      omega
    have hzs : |z.sum| ≤ N * K := by
      have : ∀ y : List ℚ, (∀ q ∈ y, |q| ≤ K) → |y.sum| ≤ y.length * K := by
        intro y
        induction y with
        | nil => simp
        | cons q y ih =>
          intro h
          rw [List.sum_cons, List.length_cons, Nat.cast_add, Nat.cast_one, add_mul, one_mul]
          have := ih fun q hq => h q (by simp [hq])
          have := h q (by simp)
          have := abs_add_le q y.sum
          linarith
      refine _root_.le_trans (this z fun q h => (hq q h).2) ?_
      have : (z.length : ℚ) ≤ N := by exact_mod_cast hlen
      exact mul_le_mul_of_nonneg_right this (by linarith)
    have hbig : |s1 + s2| ≤ T := by
      have h3 : ((z.length - 2 : ℕ) : ℚ) * (T / 2 ^ 53) ≤ N * K := by
        have h4 : ((z.length - 2 : ℕ) : ℚ) ≤ 2 ^ 52 := by
          refine _root_.le_trans ?_ hNq2
          have : z.length - 2 ≤ N := by omega
          exact_mod_cast this
        have h5 : (0 : ℚ) ≤ T / 2 ^ 53 := by positivity
        refine _root_.le_trans (mul_le_mul_of_nonneg_right h4 h5) (le_of_eq ?_)
        rw [hT]; ring
      have h6 : |s1 + s2| ≤ |s1 + s2 - z.sum| + |z.sum| := by
        have := abs_add_le (s1 + s2 - z.sum) z.sum
        rwa [sub_add_cancel] at this
      rw [hT]; linarith
    obtain ⟨v, hv, he⟩ := rnd_abs f hbig hT1 hT2
    refine ⟨v, hv, rnd64_double ((C49_nearest _).1 v hv).1, ?_⟩
    have h7 : |v - z.sum| ≤ |v - (s1 + s2)| + |s1 + s2 - z.sum| := by
      have := abs_add_le (v - (s1 + s2)) (s1 + s2 - z.sum)
      rwa [sub_add_sub_cancel] at this
    have h8 : ((z.length - 1 : ℕ) : ℚ) = ((z.length - 2 : ℕ) : ℚ) + 1 := by
      rw [show z.length - 1 = (z.length - 2) + 1 by omega]; push_cast; ring
    rw [h8, add_mul, one_mul]
    linarith

/-- `numpy.linspace(0, M-1, N)` in double precision. -/
theorem linspace_near (f : Bool) {N M i : Nat} (hi : i < N) (hpos : 0 < M) (hN : N ≤ 2 ^ 52) (hM : M ≤ 2 ^ 52) :
    ∃ x, linspaceAt (binary64 f) M N i = fin x ∧ |x - diagonalAt N M i| ≤ 3 * M / 2 ^ 53 := by
  have hMc : ((M : ℚ) - 1) = ((M - 1 : Nat) : ℚ) := by rw [Nat.cast_sub hpos]; simp
  have hM1 : (1 : ℚ) ≤ M := by exact_mod_cast hpos
  have hMq : (M : ℚ) ≤ 2 ^ 52 := by exact_mod_cast hM
  have hnn : (0 : ℚ) ≤ 3 * M / 2 ^ 53 := by positivity
  unfold linspaceAt
  by_cases h1 : N ≤ 1
  · obtain rfl : i = 0 := by omega
    rw [if_pos h1]
    exact ⟨0, rfl, by simpa [diagonalAt] using hnn⟩
  rw [if_neg h1]
  have hNc : ((N : ℚ) - 1) = ((N - 1 : Nat) : ℚ) := by rw [Nat.cast_sub (by omega)]; simp
  have hN1 : (1 : ℚ) ≤ ((N - 1 : Nat) : ℚ) := by
    have : 1 ≤ N - 1 := by omega
    exact_mod_cast this
  have hN0 : ((N - 1 : Nat) : ℚ) ≠ 0 := by linarith
  by_cases hl : i = N - 1
  · rw [if_pos hl, hMc, C50_binary64_integers f _ (by omega)]
    refine ⟨_, rfl, ?_⟩
    unfold diagonalAt
    rw [hl, hNc, hMc, mul_div_assoc]
    rw [show ((N - 1 : Nat) : ℚ) * (((M - 1 : Nat) : ℚ) / ((N - 1 : Nat) : ℚ)) = ((M - 1 : Nat) : ℚ) from mul_div_cancel₀ _ hN0]
    simpa using hnn
  rw [if_neg hl]
  have hiN : (i : ℚ) ≤ ((N - 1 : Nat) : ℚ) := by
    have : i ≤ N - 1 := by omega
    exact_mod_cast this
  have hi0 : (0 : ℚ) ≤ i := Nat.cast_nonneg i
  have hM0 : (0 : ℚ) ≤ ((M - 1 : Nat) : ℚ) := Nat.cast_nonneg _
  have hMM : ((M - 1 : Nat) : ℚ) ≤ M := by rw [← hMc]; linarith
  -- the step
  have hstep : ∃ s, (binary64 f).divQ (fin ((M - 1 : Nat) : ℚ)) ((N - 1 : Nat) : ℚ) = fin s ∧
      |s - ((M - 1 : Nat) : ℚ) / ((N - 1 : Nat) : ℚ)| ≤ ((M - 1 : Nat) : ℚ) / ((N - 1 : Nat) : ℚ) / 2 ^ 53 := by
    simp only [Arith.divQ, if_neg hN0]
    by_cases hz : M - 1 = 0
    · rw [hz]
      refine ⟨0, ?_, by simp⟩
      rw [Nat.cast_zero, zero_div]
      exact (binary64 f).rnd_zero
    · have hM2 : (1 : ℚ) ≤ ((M - 1 : Nat) : ℚ) := by
        have : 1 ≤ M - 1 := by omega
        exact_mod_cast this
      have hN2 : ((N - 1 : Nat) : ℚ) ≤ 2 ^ 52 := by
        have : N - 1 ≤ 2 ^ 52 := by omega
        exact_mod_cast this
      have hpos' : (0 : ℚ) < ((M - 1 : Nat) : ℚ) / ((N - 1 : Nat) : ℚ) := by positivity
      have lo : (2 : ℚ) ^ (-1022 : ℤ) ≤ |((M - 1 : Nat) : ℚ) / ((N - 1 : Nat) : ℚ)| := by
        rw [abs_of_pos hpos']
        refine _root_.le_trans (two_zpow_le (b := -52) (by norm_num)) ?_
        rw [show ((2 : ℚ) ^ (-52 : ℤ)) = 1 / 2 ^ 52 by norm_num]
        exact div_le_div₀ hM0 hM2 (by linarith) hN2
      have hi' : |((M - 1 : Nat) : ℚ) / ((N - 1 : Nat) : ℚ)| ≤ (2 : ℚ) ^ (1023 : ℤ) := by
        rw [abs_of_pos hpos']
        refine _root_.le_trans ?_ (two_zpow_le (a := 52) (by norm_num))
        rw [div_le_iff₀ (by linarith)]
        have : ((M - 1 : Nat) : ℚ) ≤ 2 ^ (52 : ℤ) := _root_.le_trans hMM (by simpa using hMq)
        nlinarith [two_zpow_pos 52]
      obtain ⟨v, e, hv⟩ := rnd64_error lo hi'
      refine ⟨v, e, _root_.le_trans hv (le_of_eq ?_)⟩
      rw [abs_of_pos hpos']
  obtain ⟨s, hs, hse⟩ := hstep
  rw [hMc, hNc, hs]
  show ∃ x, (binary64 f).rnd ((i : ℚ) * s) = fin x ∧ _
  have hdiag : diagonalAt N M i = i * (((M - 1 : Nat) : ℚ) / ((N - 1 : Nat) : ℚ)) := by
    unfold diagonalAt; rw [hMc, hNc, mul_div_assoc]
  have hle : i * (((M - 1 : Nat) : ℚ) / ((N - 1 : Nat) : ℚ)) ≤ M := by
    have : i * (((M - 1 : Nat) : ℚ) / ((N - 1 : Nat) : ℚ)) ≤ ((N - 1 : Nat) : ℚ) * (((M - 1 : Nat) : ℚ) / ((N - 1 : Nat) : ℚ)) :=
      mul_le_mul_of_nonneg_right hiN (by positivity)
    rw [mul_div_cancel₀ _ hN0] at this
    linarith
  have hge : 0 ≤ i * (((M - 1 : Nat) : ℚ) / ((N - 1 : Nat) : ℚ)) := by positivity
  have herr : |i * s - i * (((M - 1 : Nat) : ℚ) / ((N - 1 : Nat) : ℚ))| ≤ M / 2 ^ 53 := by
    rw [← mul_sub, abs_mul, abs_of_nonneg hi0]
    refine _root_.le_trans (mul_le_mul_of_nonneg_left hse hi0) ?_
    rw [← mul_div_assoc]
    exact div_le_div_of_nonneg_right hle (by norm_num)
  have hm1 : (M : ℚ) / 2 ^ 53 ≤ M := div_le_self (by linarith) (by norm_num)
  have hbound : |(i : ℚ) * s| ≤ 2 * M := by
    rw [abs_le] at herr ⊢
    constructor <;> linarith [herr.1, herr.2]
  obtain ⟨x, hx, hxe⟩ := rnd_abs f hbound (by linarith) (by
    have : (2 : ℚ) * 2 ^ 52 ≤ 2 ^ 200 := by norm_num
    linarith)
  refine ⟨x, hx, ?_⟩
  rw [hdiag]
  have := abs_add_le (x - i * s) (i * s - i * (((M - 1 : Nat) : ℚ) / ((N - 1 : Nat) : ℚ)))
  rw [sub_add_sub_cancel] at this
  refine _root_.le_trans this (_root_.le_trans (add_le_add hxe herr) (le_of_eq ?_))
  ring

/-- **C42** (double precision, any lengths; current scipy).  If every query index is matched, `warpArea` in double precision is the exact
area — the sum of the distances between the last match of each query index and the diagonal — up to `N²·M·2^-50` (the area itself can
be as large as `N·M/2`). -/
theorem C42_double_near (f : Bool) (hmp : d.mapping = some mp) (h : FullCurve mp d.N) (hM : 0 < d.M)
    (hN2 : d.N ≤ 2 ^ 52) (hM2 : d.M ≤ 2 ^ 52) (g : Nat → Nat) (hgM : ∀ i, i < d.N → g i < d.M)
    (hg : ∀ i : Nat, i < d.N → (matchedTo mp.index1 mp.index2 i).getLast? = some (g i : Int)) :
    ∃ v, warpArea (binary64 f) .numpy d = .ok (fin v) ∧
      |v - ((List.range d.N).map fun i => |(g i : ℚ) - diagonalAt d.N d.M i|).sum| ≤ (d.N : ℚ) ^ 2 * d.M / 2 ^ 50 := by
  have hN := h.pos
  have hM1 : (1 : ℚ) ≤ d.M := by exact_mod_cast hM
  have hMq : (d.M : ℚ) ≤ 2 ^ 52 := by exact_mod_cast hM2
  have hN1 : (1 : ℚ) ≤ d.N := by exact_mod_cast hN
  have hterm : ∀ i : Nat, ∃ t : ℚ, i < d.N →
      F64.abs ((binary64 f).sub (fin (((g i : Nat) : Int) : ℚ)) (linspaceAt (binary64 f) d.M d.N i)) = fin t ∧
      (binary64 f).rnd t = fin t ∧ |t| ≤ 4 * d.M ∧ |t - (|(g i : ℚ) - diagonalAt d.N d.M i|)| ≤ 6 * d.M / 2 ^ 53 := by
    intro i
    by_cases hi : i < d.N
    · obtain ⟨x, hx, hxe⟩ := linspace_near f hi hM hN2 hM2
      have hd0 : 0 ≤ diagonalAt d.N d.M i ∧ diagonalAt d.N d.M i ≤ d.M := by
        unfold diagonalAt
        have hi' : (i : ℚ) ≤ (d.N : ℚ) - 1 := by
          have : (i : ℚ) + 1 ≤ d.N := by exact_mod_cast hi
          linarith
        by_cases hn1 : (d.N : ℚ) - 1 = 0
        · rw [hn1, div_zero]; exact ⟨_root_.le_refl _, by linarith⟩
        · have hp : (0 : ℚ) < (d.N : ℚ) - 1 := lt_of_le_of_ne (by linarith) (Ne.symm hn1)
          have hi0 : (0 : ℚ) ≤ i := Nat.cast_nonneg i
          refine ⟨div_nonneg (mul_nonneg hi0 (by linarith)) hp.le, ?_⟩
          rw [div_le_iff₀ hp]
          nlinarith
      have hgi : (g i : ℚ) ≤ d.M := by exact_mod_cast (hgM i hi).le
      have hg0 : (0 : ℚ) ≤ g i := Nat.cast_nonneg _
      have hs3 : (3 : ℚ) * d.M / 2 ^ 53 ≤ d.M := by
        rw [div_le_iff₀ (by norm_num)]; linarith
      have hb : |(g i : ℚ) + -x| ≤ 3 * d.M := by
        rw [abs_le] at hxe ⊢
        constructor <;> linarith [hxe.1, hxe.2, hd0.1, hd0.2]
      obtain ⟨y, hy, hye⟩ := rnd_abs f hb (by linarith) (by
        have : (3 : ℚ) * 2 ^ 52 ≤ 2 ^ 200 := by norm_num
        linarith)
      refine ⟨|y|, fun _ => ⟨?_, ?_, ?_, ?_⟩⟩
      · rw [hx]
        show F64.abs ((binary64 f).rnd ((((g i : Nat) : Int) : ℚ) + -x)) = _
        rw [Int.cast_natCast, hy]; rfl
      · have hyd : rnd64 y = fin y := rnd64_double ((C49_nearest _).1 y hy).1
        show rnd64 |y| = fin |y|
        rcases abs_choice y with e | e
        · rw [e]; exact hyd
        · rw [e, rnd64_neg, hyd]; rfl
      · rw [abs_abs]
        rw [abs_le] at hye hb ⊢
        constructor <;> linarith [hye.1, hye.2, hb.1, hb.2]
      · refine _root_.le_trans (abs_abs_sub_abs_le_abs_sub _ _) ?_
        rw [show y - ((g i : ℚ) - diagonalAt d.N d.M i) = (y - ((g i : ℚ) + -x)) + -(x - diagonalAt d.N d.M i) by ring]
        refine _root_.le_trans (abs_add_le _ _) ?_
        rw [abs_neg]
        refine _root_.le_trans (add_le_add hye hxe) (le_of_eq ?_)
        ring
    · exact ⟨0, fun h => absurd h hi⟩
  choose t ht using hterm
  rw [warpArea_matched hmp h (fun i => (g i : Int)) hg]
  have el : (List.range d.N).map (fun i => F64.abs ((binary64 f).sub (fin (((g i : Nat) : Int) : ℚ)) (linspaceAt (binary64 f) d.M d.N i))) =
      ((List.range d.N).map t).map fin := by
    rw [List.map_map]
    apply List.map_congr_left
    intro i hi
    exact (ht i (List.mem_range.1 hi)).1
  rw [el]
  obtain ⟨s, hs, _, he⟩ := (npSum_spec (A := binary64 f) (((List.range d.N).map t).map fin)).near f (N := d.N) (K := 4 * d.M) hN hN2
    (by linarith) (by
      have : (4 : ℚ) * 2 ^ 52 ≤ 2 ^ 100 := by norm_num
      linarith) _ rfl (by
      intro q hq
      obtain ⟨i, hi, rfl⟩ := List.mem_map.1 hq
      have := ht i (List.mem_range.1 hi)
      exact ⟨this.2.1, this.2.2.1⟩) (by simp)
  refine ⟨s, by rw [hs], ?_⟩
  have hdiff : ∀ k : Nat, k ≤ d.N → |((List.range k).map t).sum - ((List.range k).map fun i => |(g i : ℚ) - diagonalAt d.N d.M i|).sum| ≤
      k * (6 * d.M / 2 ^ 53) := by
    intro k
    induction k with
    | zero => simp
    | succ k ih =>
      intro hk
      rw [List.range_succ, List.map_append, List.map_append, List.sum_append, List.sum_append]
      simp only [List.map_cons, List.map_nil, List.sum_cons, List.sum_nil, add_zero]
      rw [add_sub_add_comm, Nat.cast_add, Nat.cast_one, add_mul, one_mul]
      exact _root_.le_trans (abs_add_le _ _) (add_le_add (ih (by omega)) (ht k (by omega)).2.2.2)
  have h1 := hdiff d.N (_root_.le_refl _)
  rw [List.length_map, List.length_range, Nat.cast_sub hN, Nat.cast_one] at he
  have h2 := abs_add_le (s - ((List.range d.N).map t).sum)
    (((List.range d.N).map t).sum - ((List.range d.N).map fun i => |(g i : ℚ) - diagonalAt d.N d.M i|).sum)
  rw [sub_add_sub_cancel] at h2
  refine _root_.le_trans h2 (_root_.le_trans (add_le_add he h1) ?_)
  have h3 : ((d.N : ℚ) - 1) * (2 * d.N * (4 * d.M) / 2 ^ 53) + d.N * (6 * d.M / 2 ^ 53) =
      (8 * (d.N : ℚ) ^ 2 * d.M - 2 * (d.N * d.M)) / 2 ^ 53 := by ring
  have h4 : (d.N : ℚ) ^ 2 * d.M / 2 ^ 50 = 8 * (d.N : ℚ) ^ 2 * d.M / 2 ^ 53 := by ring
  rw [h3, h4]
  apply div_le_div_of_nonneg_right _ (by norm_num)
  nlinarith

/-- **C42** (double precision, any lengths, results of `dtw`).  For a closed-begin alignment (the kernel in any arithmetic) with a
pattern that skips nothing, `warpArea` in double precision differs from the exact area by at most `N²·M·2^-50`. -/
theorem C42_double_near_of_dtw (f : Bool) (h : Problem a n m L W p rs) (hob : a.openBegin = false)
    (hc : ∀ q ∈ rs, q.Continuous) (hr : dtw A a = .ok r) (hmp : r.mapping = some mp) :
    ∃ v x, warpArea (binary64 f) .numpy r = .ok (fin v) ∧ warpArea Arith.exact .numpy r = .ok (fin x) ∧
      |v - x| ≤ (n : ℚ) ^ 2 * m / 2 ^ 50 := by
  have hord : ∀ q ∈ rs, q.Ordered := fun q hq => (hc q hq).imp fun u v huv => ⟨huv.1, huv.2.2.1⟩
  obtain ⟨hN, hM, hfull⟩ := C42_of_dtw h hob hord hr hmp
  obtain ⟨_, _, r1, r2, _, _, _, _⟩ := C05_monotone_in_range h hob hr hmp
  obtain ⟨_, cov1, _⟩ := C28_continuous_curve h hob hc hr hmp
  have hg : ∀ i : Nat, ∃ g : Nat, i < r.N → g < r.M ∧ (matchedTo mp.index1 mp.index2 i).getLast? = some (g : Int) := by
    intro i
    by_cases hi : i < r.N
    · have hmem := cov1 i (by omega) (by omega)
      have hne : matchedTo mp.index1 mp.index2 i ≠ [] := by
        intro hcon
        have := congrArg List.length hcon
        rw [matchedTo_length hfull.length] at this
        have h0 := List.length_eq_zero_iff.1 this
        rw [List.filter_eq_nil_iff] at h0
        exact h0 _ hmem (by simp)
      obtain ⟨y, hy⟩ : ∃ y, (matchedTo mp.index1 mp.index2 i).getLast? = some y := by
        cases hh : (matchedTo mp.index1 mp.index2 i).getLast? with
        | none => exact absurd (List.getLast?_eq_none_iff.1 hh) hne
        | some y => exact ⟨y, rfl⟩
      have hy2 := r2 y (mem_matchedTo (List.mem_of_getLast? hy))
      refine ⟨y.toNat, fun _ => ⟨by omega, ?_⟩⟩
      rw [hy, Int.toNat_of_nonneg hy2.1]
    · exact ⟨0, fun h => absurd h hi⟩
  choose g hg using hg
  have hm := h.m_pos
  have hn := h.n_pos
  have hcell := (h.fits_closed hob).cells
  have h1 : n ≤ n * m := Nat.le_mul_of_pos_right _ hm
  have h2 : m ≤ n * m := Nat.le_mul_of_pos_left _ hn
  obtain ⟨v, hv, hve⟩ := C42_double_near f hmp hfull (by omega) (by omega) (by omega) g (fun i hi => (hg i hi).1) (fun i hi => (hg i hi).2)
  refine ⟨v, _, hv, C42_every_index_matched hmp hfull .numpy (fun i => (g i : Int)) (fun i hi => (hg i hi).2), ?_⟩
  rw [hN, hM] at hve
  simpa [hN, hM] using hve

/-- 4 by 6: the diagonal has slope 5/3, which is no double. -/
def Ex.sixths : Args := Ex.call 4 6 (fun i j => rnd64 (|(2 * i : ℚ) - j| / 3 + 1 / 10)) "symmetric2"

/-- There the area computed differs from the exact one, by less than the bound. -/
theorem C42_double_near_example :
    (dtw (binary64 true) Ex.sixths).toOption.map (fun r => ((warpArea (binary64 true) .numpy r).toOption,
      (warpArea Arith.exact .numpy r).toOption)) =
    some (some (fin (3 - 1 / 2 ^ 51)), some (fin 3)) := by decide +kernel

example : ∃ r mp v x, dtw (binary64 true) Ex.sixths = .ok r ∧ r.mapping = some mp ∧
    warpArea (binary64 true) .numpy r = .ok (fin v) ∧ warpArea Arith.exact .numpy r = .ok (fin x) ∧
    |v - x| ≤ (4 : ℚ) ^ 2 * 6 / 2 ^ 50 := by
  obtain ⟨r, hr⟩ := Ex.get_ok (x := dtw (binary64 true) Ex.sixths) (by decide +kernel)
  have hsome : (dtw (binary64 true) Ex.sixths).toOption.map (·.mapping.isSome) = some true := by decide +kernel
  rw [hr] at hsome
  cases hm : r.mapping with
  | none => simp [Except.toOption, hm] at hsome
  | some mp =>
    have hP : Problem Ex.sixths 4 6 _ _ _ _ := bundled_problem (by decide) (by decide) (by decide) _ _ Ex.sym2_mem
    have hc : ∀ q ∈ rulesOf Pat.symmetric2, q.Continuous := by decide +kernel
    obtain ⟨v, x, h1, h2, h3⟩ := C42_double_near_of_dtw true hP rfl hc hr hm
    exact ⟨r, mp, v, x, hr, hm, h1, h2, by exact_mod_cast h3⟩

end DTW
