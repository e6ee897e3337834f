import Verif.Props.Warp
import Verif.Props.WarpArea
import Verif.Props.Doubles
import Verif.Props.Length
import Verif.Props.TextFiles
import Verif.Props.Witnesses

/-!
# C41, C42 in double precision: `warp` and `warpArea` round nowhere that matters
-/

namespace DTW
open F64

variable {rs : List Rule} {W : Nat → Nat → Bool} {n m : Nat} {p : StepPattern}
  {a : Args} {d r : Result} {L : Nat → Nat → F64} {mp : Mapping}

/-- A quotient of natural numbers, the numerator below `2^53`, is rounded to a double with the same integer part. -/
theorem floor_rnd_div (f : Bool) {s c : Nat} (hc : 0 < c) (hs : s < 2 ^ 53) :
    ∃ v, (binary64 f).rnd ((s : ℚ) / c) = fin v ∧ 0 ≤ v ∧ ⌊v⌋ = ⌊(s : ℚ) / c⌋ := by
  have hc' : (0 : ℚ) < c := by exact_mod_cast hc
  have hfl : ⌊(s : ℚ) / c⌋ = ((s / c : Nat) : ℤ) := by
    have := Rat.floor_natCast_div_natCast s c
    simpa using this
  set q := s / c with hq
  have hlow : (q : ℚ) ≤ (s : ℚ) / c := by
    rw [le_div_iff₀ hc']
    exact_mod_cast Nat.div_mul_le_self s c
  have hgap : (s : ℚ) + 1 ≤ (q + 1) * c := by
    have := Nat.lt_mul_div_succ s hc
    rw [← hq] at this
    have h2 : s + 1 ≤ (q + 1) * c := by rw [mul_comm]; omega
    exact_mod_cast h2
  have hqs : q ≤ s := Nat.div_le_self s c
  have rq := C50_binary64_integers f q (by omega)
  have h1 := (binary64 f).rnd_le hlow
  rw [rq] at h1
  have hup : (s : ℚ) / c ≤ ((q + 1 : Nat) : ℚ) := by
    rw [div_le_iff₀ hc']
    push_cast
    linarith
  have h2 := (binary64 f).rnd_le hup
  rw [C50_binary64_integers f (q + 1) (by omega)] at h2
  cases hr : (binary64 f).rnd ((s : ℚ) / c) with
  | nan => exact absurd hr ((binary64 f).rnd_ne_nan _)
  | pinf => rw [hr] at h2; simp [F64.le, F64.lt] at h2
  | ninf => rw [hr] at h1; simp [F64.le, F64.lt] at h1
  | fin v =>
    rw [hr] at h1
    have hv : (q : ℚ) ≤ v := by simpa using h1
    have hlt : v < q + 1 := by
      by_cases hh : (s : ℚ) / c ≤ 1 / 2
      · have h3 := (binary64 f).rnd_le hh
        have e : (binary64 f).rnd (1 / 2) = fin (1 / 2) := by
          cases f <;> decide +kernel
        rw [hr, e] at h3
        have : v ≤ 1 / 2 := by simpa using h3
        have : (0 : ℚ) ≤ q := by positivity
        linarith
      · have lo : (2 : ℚ) ^ (-1022 : ℤ) ≤ (s : ℚ) / c := by
          refine _root_.le_trans ?_ (not_le.1 hh).le
          rw [show (1 : ℚ) / 2 = 2 ^ (-1 : ℤ) by norm_num]
          exact zpow_le_zpow_right₀ (by norm_num) (by norm_num)
        have hi : (s : ℚ) / c ≤ (2 : ℚ) ^ (1023 : ℤ) := by
          have : (s : ℚ) / c ≤ 2 ^ (53 : ℤ) := by
            rw [div_le_iff₀ hc']
            have h1 : (s : ℚ) ≤ 2 ^ (53 : ℤ) := by exact_mod_cast hs.le
            have h2 : (1 : ℚ) ≤ c := by exact_mod_cast hc
            nlinarith [two_zpow_pos 53]
          exact _root_.le_trans this (zpow_le_zpow_right₀ (by norm_num) (by norm_num))
        obtain ⟨v', hv', _, h4, _⟩ := (C49_binary64_relerr f).err _ lo hi
        rw [hr] at hv'
        obtain rfl := F64.fin.inj hv'
        have h5 : v * c ≤ (1 + 1 / 2 ^ 53) * s := by
          have := mul_le_mul_of_nonneg_right h4 hc'.le
          rwa [mul_assoc, div_mul_cancel₀ _ hc'.ne'] at this
        have h6 : (s : ℚ) < 2 ^ 53 := by exact_mod_cast hs
        by_contra hcon
        have h7 : ((q : ℚ) + 1) * c ≤ v * c := mul_le_mul_of_nonneg_right (not_lt.1 hcon) hc'.le
        have h8 : (1 / 2 ^ 53 : ℚ) * s < 1 := by
          rw [div_mul_eq_mul_div, one_mul, div_lt_one (by norm_num)]
          exact h6
        nlinarith
    refine ⟨v, rfl, _root_.le_trans (by positivity) hv, ?_⟩
    rw [hfl, Int.floor_eq_iff]
    exact ⟨by exact_mod_cast hv, by exact_mod_cast hlt⟩

theorem nanFix_cast {f g : Nat → F64} {first : Option Int} {N : Nat} (h : ∀ k < N, isNan (f k) = isNan (g k) ∧ castInt (f k) = castInt (g k)) :
    ((nanFix ((List.range N).map f) first).bind fun l => Except.ok (l.map castInt)) =
      (nanFix ((List.range N).map g) first).bind fun l => Except.ok (l.map castInt) := by
  cases N with
  | zero => rfl
  | succ N =>
    have e : ∀ h : Nat → F64, (List.range (N + 1)).map h = h 0 :: (List.range N).map fun k => h (k + 1) := by
      intro h
      rw [List.range_succ_eq_map, List.map_cons, List.map_map]; rfl
    rw [e f, e g]
    unfold nanFix
    simp only
    rw [(h 0 (by omega)).1]
    cases hg : isNan (g 0) with
    | false =>
      simp only [Bool.false_eq_true, if_false]
      show Except.ok _ = Except.ok _
      congr 1
      rw [List.map_cons, List.map_cons, (h 0 (by omega)).2, List.map_map, List.map_map]
      congr 1
      apply List.map_congr_left
      intro k hk
      rw [List.mem_range] at hk
      exact (h (k + 1) (by omega)).2
    | true =>
      simp only [if_true]
      cases first with
      | none => rfl
      | some i0 =>
        show Except.ok _ = Except.ok _
        congr 1
        rw [List.map_map, List.map_map, List.map_cons, List.map_cons, List.map_map, List.map_map]
        have key : ∀ k < N + 1, castInt (if isNan (f k) then fin (i0 : ℚ) else f k) = castInt (if isNan (g k) then fin (i0 : ℚ) else g k) := by
          intro k hk
          rw [(h k hk).1]
          split
          · rfl
          · exact (h k hk).2
        congr 1
        · exact key 0 (by omega)
        · apply List.map_congr_left
          intro k hk
          rw [List.mem_range] at hk
          exact key (k + 1) (by omega)

/-- **C41** (double precision; current scipy).  As long as the sum of the source indices matched to any one target index is below `2^53`,
`warp` in double precision returns exactly what it returns without rounding: the complete description `C41_complete` holds, gaps
included. -/
theorem C41_double (f : Bool) (hmp : d.mapping = some mp) {b : Bool} {jmax : Nat} (h : Axes mp b jmax)
    (hB : ∀ k : Nat, k ≤ jmax → (matchedTo (mp.target b) (mp.source b) k).sum < 2 ^ 53) :
    warp (binary64 f) .numpy d b = .ok ((List.range (jmax + 1)).map fun (k : Nat) =>
      if (k : Int) ∈ mp.target b then ⌊mean (matchedTo (mp.target b) (mp.source b) k)⌋
      else if 0 ∈ mp.target b then -9223372036854775808
      else (mp.source b).head?.getD 0) := by
  rw [← C41_complete hmp h, warp_numpy hmp h, warp_numpy hmp h]
  apply nanFix_cast
  intro k hk
  have hl0 : ∀ i ∈ matchedTo (mp.target b) (mp.source b) k, 0 ≤ i := fun i hi => h.source i (mem_matchedTo hi)
  have hsum := hB k (by omega)
  unfold tiePoint
  generalize matchedTo (mp.target b) (mp.source b) k = l at *
  have h0 : 0 ≤ l.sum := List.sum_nonneg hl0
  obtain ⟨s, hs⟩ := Int.eq_ofNat_of_zero_le h0
  have e1 := foldl_add_ints (C50_binary64_integers f) l 0 hl0 (by
    have : (2 : Int) ^ 53 = ((2 ^ 53 : Nat) : Int) := by norm_num
    simp only [Nat.cast_zero, zero_add]
    omega)
  have e2 := foldl_exact l 0
  simp only [Nat.cast_zero, zero_add] at e1 e2
  rw [e1]
  by_cases hl : l.length = 0
  · have : l = [] := List.length_eq_zero_iff.1 hl
    subst this
    simp [Arith.divQ]
  · have e2' : (l.map fun (y : Int) => fin (y : ℚ)).foldl Arith.exact.add (fin 0) = fin ((l.sum : Int) : ℚ) := by
      rw [e2]
    rw [e2']
    have hq : ((l.length : ℕ) : ℚ) ≠ 0 := by exact_mod_cast hl
    have ex : Arith.exact.divQ (fin ((l.sum : Int) : ℚ)) (l.length : ℚ) = fin (((l.sum : Int) : ℚ) / l.length) := by
      simp only [Arith.divQ, if_neg hq]; rfl
    obtain ⟨v, hv, hv0, hfl⟩ := floor_rnd_div f (s := s) (c := l.length) (by omega) (by
      have : (2 : Int) ^ 53 = ((2 ^ 53 : Nat) : Int) := by norm_num
      omega)
    have bx : (binary64 f).divQ (fin ((l.sum : Int) : ℚ)) (l.length : ℚ) = fin v := by
      simp only [Arith.divQ, if_neg hq]
      rw [hs]
      exact_mod_cast hv
    rw [ex, bx]
    refine ⟨rfl, ?_⟩
    show trunc v = trunc _
    rw [trunc_floor hv0, hfl, hs, trunc_floor (by positivity)]
    simp

variable {A : Arith}

theorem axes_of_dtw (h : Problem a n m L W p rs) (hob : a.openBegin = false)
    (hc : ∀ q ∈ rs, q.Continuous) (hr : dtw A a = .ok r) (hmp : r.mapping = some mp) (b : Bool) :
    ∃ jmax : Nat, (jmax : Int) = (if b then (n : Int) - 1 else r.jmin) ∧ Axes mp b jmax ∧
      (∀ k : Nat, k ≤ jmax → (k : Int) ∈ mp.target b) ∧ ∀ i ∈ mp.source b, i ≤ (if b then r.jmin else (n : Int) - 1) := by
  have hn := h.n_pos
  obtain ⟨hj, h1, h2, _, _, h3, h4, _, _⟩ := C04_end_points h hob hr hmp
  obtain ⟨l1, _, r1, r2, _, _, hmono, _⟩ := C05_monotone_in_range h hob hr hmp
  obtain ⟨_, cov1, cov2⟩ := C28_continuous_curve h hob hc hr hmp
  have hord : ∀ q ∈ rs, q.Ordered := fun q hq => (hc q hq).imp fun u v huv => ⟨huv.1, huv.2.2.1⟩
  obtain ⟨m1, m2⟩ := hmono hord
  have hjm : ∀ x ∈ mp.index2, x ≤ r.jmin := by
    intro x hx
    have hlast : r.jmin ∈ mp.index2 := List.mem_of_getLast? h4
    obtain ⟨l', hl'⟩ : ∃ l', mp.index2 = l' ++ [r.jmin] := by
      rw [List.getLast?_eq_some_iff] at h4; exact h4
    rw [hl'] at hx m2
    rcases List.mem_append.1 hx with hx | hx
    · exact (List.pairwise_append.1 m2).2.2 x hx r.jmin (by simp)
    · simp at hx; omega
  obtain ⟨jmax, hjmax⟩ : ∃ jmax : Nat, (jmax : Int) = (if b then (n : Int) - 1 else r.jmin) := by
    cases b with
    | true => exact ⟨n - 1, by simp; omega⟩
    | false => exact ⟨r.jmin.toNat, by simp; omega⟩
  have hax : Axes mp b jmax := by
    cases b with
    | true =>
      simp only [if_true] at hjmax
      exact ⟨by simp [Mapping.target, Mapping.source, l1], fun i hi => (r2 i (by simpa [Mapping.source] using hi)).1,
        fun j hj => by have := r1 j (by simpa [Mapping.target] using hj); omega,
        by rw [hjmax]; simpa [Mapping.target] using cov1 ((n : Int) - 1) (by omega) (by omega)⟩
    | false =>
      simp only [Bool.false_eq_true, if_false] at hjmax
      exact ⟨by simp [Mapping.target, Mapping.source, l1], fun i hi => (r1 i (by simpa [Mapping.source] using hi)).1,
        fun j hj => by
          have hj' : j ∈ mp.index2 := by simpa [Mapping.target] using hj
          exact ⟨(r2 j hj').1, by rw [hjmax]; exact hjm j hj'⟩,
        by rw [hjmax]; simpa [Mapping.target] using List.mem_of_getLast? h4⟩
  have hall : ∀ k : Nat, k ≤ jmax → (k : Int) ∈ mp.target b := by
    intro k hk
    cases b with
    | true =>
      simp only [if_true] at hjmax
      simpa [Mapping.target] using cov1 k (by omega) (by omega)
    | false =>
      simp only [Bool.false_eq_true, if_false] at hjmax
      simpa [Mapping.target] using cov2 k (by omega) (by omega)
  refine ⟨jmax, hjmax, hax, hall, fun i hi => ?_⟩
  cases b with
  | true => exact hjm i (by simpa [Mapping.source] using hi)
  | false =>
    have := (r1 i (by simpa [Mapping.source] using hi)).2
    simp only [Bool.false_eq_true, if_false]
    omega

/-- **C41** (double precision, results of `dtw`).  For a closed-begin alignment (the kernel in any arithmetic) of series whose
lengths sum to at most `2^26`, with a pattern that skips nothing (`C28_bundled`, `C61_bundled`), `warp` in double precision returns the
truncated means of the matched indices, exactly: one for each target element. -/
theorem C41_double_of_dtw (f : Bool) (h : Problem a n m L W p rs) (hob : a.openBegin = false)
    (hc : ∀ q ∈ rs, q.Continuous) (hs : ∀ q ∈ rs, q.Strict) (hnm : n + m ≤ 2 ^ 26) (hr : dtw A a = .ok r)
    (hmp : r.mapping = some mp) (b : Bool) :
    warp (binary64 f) .numpy r b = .ok ((List.range (if b then n else r.jmin.toNat + 1)).map fun (k : Nat) =>
      ⌊mean (matchedTo (mp.target b) (mp.source b) k)⌋) := by
  obtain ⟨jmax, hj, hax, hall, hsrc⟩ := axes_of_dtw h hob hc hr hmp b
  obtain ⟨_, hlen, _, hlen2⟩ := C61_at_most h hob hs hr hmp
  have hn := h.n_pos
  have hm := h.m_pos
  obtain ⟨hjr, hjm⟩ : 0 ≤ r.jmin ∧ r.jmin ≤ m - 1 := by
    obtain ⟨hj, _, _, _, _, _, h4, _, _⟩ := C04_end_points h hob hr hmp
    obtain ⟨_, _, _, r2, _⟩ := C05_monotone_in_range h hob hr hmp
    have := r2 _ (List.mem_of_getLast? h4)
    omega
  have hsum : ∀ k : Nat, k ≤ jmax → (matchedTo (mp.target b) (mp.source b) k).sum < 2 ^ 53 := by
    intro k _
    have h1 := List.sum_le_card_nsmul (matchedTo (mp.target b) (mp.source b) k) ((2 : Int) ^ 26) (fun i hi => by
      have := hsrc i (mem_matchedTo hi)
      split at this <;> omega)
    have h2 : (matchedTo (mp.target b) (mp.source b) k).length ≤ 2 ^ 26 := by
      rw [matchedTo_length hax.length]
      refine _root_.le_trans (List.length_filter_le _ _) ?_
      have : (mp.target b).length = mp.index1.length := by cases b <;> simp [Mapping.target, hlen]
      omega
    rw [nsmul_eq_mul] at h1
    have h3 : ((matchedTo (mp.target b) (mp.source b) k).length : Int) ≤ 2 ^ 26 := by exact_mod_cast h2
    refine _root_.lt_of_le_of_lt h1 ?_
    calc ((matchedTo (mp.target b) (mp.source b) k).length : Int) * 2 ^ 26 ≤ 2 ^ 26 * 2 ^ 26 :=
          mul_le_mul_of_nonneg_right h3 (by norm_num)
      _ < 2 ^ 53 := by norm_num
  rw [C41_double f hmp hax hsum]
  have e : (if b then n else r.jmin.toNat + 1) = jmax + 1 := by
    cases b
    · simp only [Bool.false_eq_true, if_false] at hj ⊢; omega
    · simp only [if_true] at hj ⊢; omega
  rw [e]
  congr 1
  apply List.map_congr_left
  intro k hk
  rw [List.mem_range] at hk
  rw [if_pos (hall k (by omega))]

/-! ### warpArea -/

theorem natSum_cast : ∀ l : List Nat, (l.map fun (k : Nat) => (k : ℚ)).sum = (l.sum : Nat)
  | [] => by simp
  | k :: l => by rw [List.map_cons, List.sum_cons, List.sum_cons, natSum_cast l, Nat.cast_add]

theorem npInterp_last {xs ys : List Int} (hs : xs.Pairwise (· ≤ ·)) (hl : xs.length = ys.length) {u v : Int × Int}
    (hu : (xs.zip ys).head? = some u) (hv : (xs.zip ys).getLast? = some v) {x y : Int} (h0 : u.1 ≤ x) (h1 : x ≤ v.1)
    (hy : (matchedTo xs ys x).getLast? = some y) : npInterp A (asPoints (xs.zip ys)) x = fin (y : ℚ) := by
  rcases split_at (zip_fst_sorted hs hl) hu hv h0 h1 with ⟨l1, y', l2, e, g1, g2⟩ | ⟨l1, p, q, l2, e, g1, g2, g3, g4⟩
  · have : y = y' := by
      rw [matchedTo_append_eq e, List.filter_cons_of_pos (by simp)] at hy
      have h2 : l2.filter (fun p => decide (p.1 = x)) = [] := by
        rw [List.filter_eq_nil_iff]
        intro z hz
        have := g2 z hz
        simp; omega
      rw [h2] at hy
      simpa using hy.symm
    subst this
    rw [e, asPoints_append, asPoints_cons]
    exact npInterp_matched x _ _ (asPoints_fst g2) _ (asPoints_fst (P := (· ≤ x)) g1)
  · rw [not_matched_between hs hl e g1 g2] at hy
    simp at hy

/-- What `warpArea` adds up, in any arithmetic, when every query index is matched: nothing is interpolated. -/
theorem warpArea_matched (hmp : d.mapping = some mp) (h : FullCurve mp d.N) (g : Nat → Int)
    (hg : ∀ i : Nat, i < d.N → (matchedTo mp.index1 mp.index2 i).getLast? = some (g i)) :
    warpArea A .numpy d = .ok (npSum A ((List.range d.N).map fun i =>
      F64.abs (A.sub (fin (g i : ℚ)) (linspaceAt A d.M d.N i)))) := by
  obtain ⟨hpos, hl, hs, hf, hla⟩ := h
  obtain ⟨y0, t2, hi2⟩ : ∃ y0 t, mp.index2 = y0 :: t := by
    cases h2 : mp.index2 with
    | nil => rw [h2] at hl; rw [List.length_nil, List.length_eq_zero_iff] at hl; rw [hl] at hf; simp at hf
    | cons y t => exact ⟨y, t, rfl⟩
  have hu : (mp.index1.zip mp.index2).head? = some (0, y0) := by
    cases h1 : mp.index1 with
    | nil => rw [h1] at hf; simp at hf
    | cons x t => rw [h1] at hf; simp at hf; rw [hi2, hf]; rfl
  obtain ⟨v, hv, hv1⟩ : ∃ v, (mp.index1.zip mp.index2).getLast? = some v ∧ v.1 = (d.N : Int) - 1 := by
    have e := congrArg List.getLast? (List.map_fst_zip (l₁ := mp.index1) (l₂ := mp.index2) (by omega))
    rw [List.getLast?_map, hla] at e
    cases hg : (mp.index1.zip mp.index2).getLast? with
    | none => rw [hg] at e; simp at e
    | some v => rw [hg] at e; exact ⟨v, rfl, by simpa using e⟩
  have hz := zip_fst_sorted hs hl
  unfold warpArea
  rw [hmp]
  simp only
  rw [if_neg (by omega), zip_asPoints, mapM_ok _ (fun i : Nat => fin (g i : ℚ)) _ (by
    intro k hk
    rw [List.mem_range] at hk
    rw [interp1d_sorted hz hu hv (by simp) (by omega)]
    simp only [npInterp_last hs hl hu hv (x := k) (by simp) (by omega) (hg k hk)]), Except_bind_ok,
    nanFix_of_ne (by simpa using hpos.ne') (by
      intro v hv
      obtain ⟨k, _, rfl⟩ := List.mem_map.1 hv
      simp), Except_bind_ok]
  congr 2
  apply List.ext_getElem
  · simp
  · intro i h1 h2
    simp

/-- Where the diagonal passes through grid points only, `linspace` is exact in double precision. -/
theorem linspace_whole (f : Bool) {N M s i : Nat} (hi : i < N) (hM : M - 1 ≤ 2 ^ 53) (hpos : 0 < M) (hd : M - 1 = s * (N - 1) ∨ N = 1) :
    ∃ k : Nat, k ≤ M - 1 ∧ linspaceAt (binary64 f) M N i = fin (k : ℚ) ∧ diagonalAt N M i = k := by
  have hMc : ((M : ℚ) - 1) = ((M - 1 : Nat) : ℚ) := by rw [Nat.cast_sub hpos]; simp
  by_cases h1 : N ≤ 1
  · have : i = 0 := by omega
    subst this
    exact ⟨0, by omega, by unfold linspaceAt; rw [if_pos h1]; simp, by simp [diagonalAt]⟩
  · have hd : M - 1 = s * (N - 1) := by rcases hd with h | h <;> omega
    have hNc : ((N : ℚ) - 1) = ((N - 1 : Nat) : ℚ) := by rw [Nat.cast_sub (by omega)]; simp
    have hne : ((N - 1 : Nat) : ℚ) ≠ 0 := by
      have : N - 1 ≠ 0 := by omega
      exact_mod_cast this
    have hle : i * s ≤ M - 1 := by
      rw [hd, mul_comm]; exact Nat.mul_le_mul_left _ (by omega)
    have hdiag : diagonalAt N M i = ((i * s : Nat) : ℚ) := by
      unfold diagonalAt
      rw [hMc, hNc, hd, div_eq_iff hne]
      push_cast
      ring
    refine ⟨i * s, hle, ?_, hdiag⟩
    unfold linspaceAt
    rw [if_neg h1]
    by_cases hl : i = N - 1
    · rw [if_pos hl, hMc, C50_binary64_integers f _ hM, hd, hl, mul_comm]
    · rw [if_neg hl, hMc, hNc]
      have hsM : s ≤ M - 1 := by rw [hd]; exact Nat.le_mul_of_pos_right _ (by omega)
      have e : (binary64 f).divQ (fin ((M - 1 : Nat) : ℚ)) ((N - 1 : Nat) : ℚ) = fin (s : ℚ) := by
        simp only [Arith.divQ, if_neg hne]
        rw [hd, Nat.cast_mul, mul_div_assoc, div_self hne, mul_one]
        exact C50_binary64_integers f s (by omega)
      rw [e]
      show (binary64 f).rnd ((i : ℚ) * s) = _
      rw [← Nat.cast_mul]
      exact C50_binary64_integers f _ (by omega)

/-- **C42** (double precision; current scipy).  If every query index is matched and the corner-to-corner diagonal passes through grid
points (`N-1` divides `M-1`, for instance series of equal lengths), `warpArea` in double precision is exactly the area `C42_area`
describes, for areas up to `2^53`: the sum of the distances between the last match of each query index and the diagonal. -/
theorem C42_double (f : Bool) (hmp : d.mapping = some mp) (h : FullCurve mp d.N) (hM : 0 < d.M) (hdvd : d.N - 1 ∣ d.M - 1)
    (hsize : d.N * d.M ≤ 2 ^ 53) (g : Nat → Nat) (hgM : ∀ i, i < d.N → g i < d.M)
    (hg : ∀ i : Nat, i < d.N → (matchedTo mp.index1 mp.index2 i).getLast? = some (g i : Int)) :
    warpArea (binary64 f) .numpy d = .ok (fin ((List.range d.N).map fun i => |(g i : ℚ) - diagonalAt d.N d.M i|).sum) ∧
    warpArea (binary64 f) .numpy d = warpArea Arith.exact .numpy d := by
  have hN := h.pos
  obtain ⟨s, hs⟩ := hdvd
  have hs' : d.M - 1 = s * (d.N - 1) ∨ d.N = 1 := .inl (by rw [hs, mul_comm])
  have hMN : d.M ≤ d.N * d.M := Nat.le_mul_of_pos_left _ hN
  have hk : ∀ i : Nat, ∃ k : Nat, i < d.N → k ≤ d.M - 1 ∧ linspaceAt (binary64 f) d.M d.N i = fin (k : ℚ) ∧ diagonalAt d.N d.M i = k := by
    intro i
    by_cases hi : i < d.N
    · obtain ⟨k, hk⟩ := linspace_whole f hi (by omega) hM hs'
      exact ⟨k, fun _ => hk⟩
    · exact ⟨0, fun h => absurd h hi⟩
  choose k hk using hk
  have dist : ∀ i, |((g i : ℚ)) - (k i : ℚ)| = (((g i : Int) - k i).natAbs : ℚ) := by
    intro i
    rw [Nat.cast_natAbs]
    push_cast
    rfl
  have key : warpArea (binary64 f) .numpy d =
      .ok (fin ((List.range d.N).map fun i => |(g i : ℚ) - diagonalAt d.N d.M i|).sum) := by
    rw [warpArea_matched hmp h (fun i => (g i : Int)) hg]
    have e1 : ((List.range d.N).map fun i => F64.abs ((binary64 f).sub (fin (((g i : Int)) : ℚ)) (linspaceAt (binary64 f) d.M d.N i))) =
        ((List.range d.N).map fun i => ((g i : Int) - k i).natAbs).map fun (z : Nat) => fin (z : ℚ) := by
      rw [List.map_map]
      apply List.map_congr_left
      intro i hi
      rw [List.mem_range] at hi
      obtain ⟨k1, k2, _⟩ := hk i hi
      have g1 := hgM i hi
      rw [k2]
      show F64.abs ((binary64 f).rnd (((g i : Int) : ℚ) + -(k i : ℚ))) = fin _
      have hr : (binary64 f).rnd (((g i : Int) : ℚ) + -(k i : ℚ)) = fin ((g i : ℚ) - k i) := by
        rcases _root_.le_total (k i) (g i) with hle | hle
        · have : (((g i : Int) : ℚ) + -(k i : ℚ)) = ((g i - k i : Nat) : ℚ) := by
            rw [Nat.cast_sub hle]; push_cast; ring
          rw [this, C50_binary64_integers f _ (by omega), Nat.cast_sub hle]
        · have : (((g i : Int) : ℚ) + -(k i : ℚ)) = -((k i - g i : Nat) : ℚ) := by
            rw [Nat.cast_sub hle]; push_cast; ring
          have hnn := C50_binary64_integers f (k i - g i) (by omega)
          rw [this]
          show rnd64 _ = _
          rw [rnd64_neg, show rnd64 ((k i - g i : Nat) : ℚ) = _ from hnn, Nat.cast_sub hle]
          show fin _ = fin _
          congr 1; ring
      rw [hr]
      show fin |(g i : ℚ) - k i| = fin _
      rw [dist i]
    rw [e1, npSum_nat (C50_binary64_integers f)]
    · congr 2
      rw [← natSum_cast, List.map_map]
      congr 1
      apply List.map_congr_left
      intro i hi
      rw [List.mem_range] at hi
      rw [(hk i hi).2.2, dist i]
      rfl
    · have := List.sum_le_card_nsmul ((List.range d.N).map fun i => ((g i : Int) - k i).natAbs) d.M (by
        intro x hx
        obtain ⟨i, hi, rfl⟩ := List.mem_map.1 hx
        rw [List.mem_range] at hi
        have := (hk i hi).1
        have := hgM i hi
        omega)
      simp only [List.length_map, List.length_range, nsmul_eq_mul, Nat.cast_id] at this
      omega
  refine ⟨key, ?_⟩
  rw [key, C42_every_index_matched hmp h .numpy (fun i => (g i : Int)) hg]
  simp

/-- **C42** (double precision, results of `dtw`).  For a closed-begin alignment (the kernel in any arithmetic) with a pattern that skips
nothing, of a table of at most `2^53` cells whose diagonal passes through grid points, `warpArea` computes the exact area. -/
theorem C42_double_of_dtw (f : Bool) (h : Problem a n m L W p rs) (hob : a.openBegin = false)
    (hc : ∀ q ∈ rs, q.Continuous) (hdvd : n - 1 ∣ m - 1) (hnm : n * m ≤ 2 ^ 53) (hr : dtw A a = .ok r)
    (hmp : r.mapping = some mp) : warpArea (binary64 f) .numpy r = warpArea Arith.exact .numpy r := by
  have hord : ∀ q ∈ rs, q.Ordered := fun q hq => (hc q hq).imp fun u v huv => ⟨huv.1, huv.2.2.1⟩
  obtain ⟨hN, hM, hfull⟩ := C42_of_dtw h hob hord hr hmp
  obtain ⟨_, _, r1, r2, _, _, _, _⟩ := C05_monotone_in_range h hob hr hmp
  obtain ⟨_, cov1, _⟩ := C28_continuous_curve h hob hc hr hmp
  have hg : ∀ i : Nat, ∃ g : Nat, i < r.N → g < r.M ∧ (matchedTo mp.index1 mp.index2 i).getLast? = some (g : Int) := by
    intro i
    by_cases hi : i < r.N
    · have hmem := cov1 i (by omega) (by omega)
      have hne : matchedTo mp.index1 mp.index2 i ≠ [] := by
        intro hcon
        have := congrArg List.length hcon
        rw [matchedTo_length hfull.length] at this
        have h0 := List.length_eq_zero_iff.1 this
        rw [List.filter_eq_nil_iff] at h0
        exact h0 _ hmem (by simp)
      obtain ⟨y, hy⟩ : ∃ y, (matchedTo mp.index1 mp.index2 i).getLast? = some y := by
        cases hh : (matchedTo mp.index1 mp.index2 i).getLast? with
        | none => exact absurd (List.getLast?_eq_none_iff.1 hh) hne
        | some y => exact ⟨y, rfl⟩
      have hy2 := r2 y (mem_matchedTo (List.mem_of_getLast? hy))
      refine ⟨y.toNat, fun _ => ⟨by omega, ?_⟩⟩
      rw [hy, Int.toNat_of_nonneg hy2.1]
    · exact ⟨0, fun h => absurd h hi⟩
  choose g hg using hg
  have hm := h.m_pos
  exact (C42_double f hmp hfull (by omega) (by rw [hN, hM]; exact hdvd) (by rw [hN, hM]; exact hnm) g
    (fun i hi => (hg i hi).1) (fun i hi => (hg i hi).2)).2

/-! ### Concrete cases -/

/-- Costs of a 4 by 7 alignment, none of them a double. -/
def Ex.thirds : Args := Ex.call 4 7 (fun i j => rnd64 (|(2 * i : ℚ) - j| / 3 + 1 / 10)) "symmetric2"

/-- The alignment runs in doubles; `warp` both ways and `warpArea` are as the theorems say. -/
example : ∃ r mp, dtw (binary64 true) Ex.thirds = .ok r ∧ r.mapping = some mp ∧
    warp (binary64 true) .numpy r true = .ok ((List.range 4).map fun (k : Nat) =>
      ⌊mean (matchedTo (mp.target true) (mp.source true) k)⌋) ∧
    warpArea (binary64 true) .numpy r = warpArea Arith.exact .numpy r := by
  obtain ⟨r, hr⟩ := Ex.get_ok (x := dtw (binary64 true) Ex.thirds) (by decide +kernel)
  have hsome : (dtw (binary64 true) Ex.thirds).toOption.map (·.mapping.isSome) = some true := by decide +kernel
  rw [hr] at hsome
  cases hm : r.mapping with
  | none => simp [Except.toOption, hm] at hsome
  | some mp =>
    have hP : Problem Ex.thirds 4 7 _ _ _ _ := bundled_problem (by decide) (by decide) (by decide) _ _ Ex.sym2_mem
    have hc : ∀ q ∈ rulesOf Pat.symmetric2, q.Continuous := by decide +kernel
    exact ⟨r, mp, hr, hm,
      C41_double_of_dtw true hP rfl hc (fun q hq => C61_bundled.1 _ Ex.sym2_mem q hq) (by norm_num) hr hm true,
      C42_double_of_dtw true hP rfl hc ⟨2, rfl⟩ (by norm_num) hr hm⟩

/-- What the two functions return there. -/
theorem C41_C42_double_example :
    (dtw (binary64 true) Ex.thirds).toOption.map (fun r => ((warp (binary64 true) .numpy r true).toOption,
      (warp (binary64 true) .numpy r false).toOption, (warpArea (binary64 true) .numpy r).toOption)) =
    some (some [0, 2, 4, 6], some [0, 0, 1, 1, 2, 2, 3], some (fin 3)) := by decide +kernel

end DTW
