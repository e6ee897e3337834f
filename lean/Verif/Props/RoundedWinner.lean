import Verif.Props.Winner
import Verif.Props.Accuracy
import Verif.Props.Factor
import Verif.Props.Hold
import Verif.Props.PowersOfTwo
import Verif.Props.Subsequence

/-!
# C88: rounding does not change a clear winner, and keeps the guarantees
-/

namespace DTW
open F64

variable {a a' : Args} {n m : Nat} {ℓ ℓ' : Nat → Nat → ℚ} {W : Nat → Nat → Bool}
  {p : StepPattern} {rs : List Rule} {r r' : Result} {mp : Mapping} {ε : ℚ}

theorem modest_cost {x : ℚ} (h : ModestCost x) : x = 0 ∨ (1 / 2 ^ 1000 ≤ x ∧ x ≤ 2 ^ 900) := by
  rcases h with h | ⟨h1, h2⟩
  · exact .inl h
  · refine .inr ⟨_root_.le_trans ?_ h1, h2⟩
    exact one_div_le_one_div_of_le (pow_pos (by norm_num) _) (pow_le_pow_right₀ (by norm_num) (by norm_num))

/-- **C88**, closed ends.  `r` is the result in exact arithmetic.  If every other admissible alignment costs more than
`1 + (3(N+M)+2) * 2^-50` times as much, the call in double precision (with or without fused multiply-add) returns the same alignment. -/
theorem C88_rounding (f : Bool) {d : ℚ} (h : Problem a n m (fun i j => fin (ℓ i j)) W p rs) (hw : ModestWeights rs)
    (hc : ∀ i < n, ∀ j < m, ModestCost (ℓ i j))
    (hob : a.openBegin = false) (hoe : a.openEnd = false) (hdo : a.distanceOnly = false)
    (hr : dtw Arith.exact a = .ok r) (hmp : r.mapping = some mp) (hd : r.distance = fin d)
    (hclear : ∀ ks c, WarpPath Arith.exact rs W (fun i j => fin (ℓ i j)) ks (n - 1) (m - 1) (fin c) → ks ≠ mp.stepsTaken →
      (1 + ((3 * (n + m) + 2 : ℕ) : ℚ) / 2 ^ 50) * d < c) :
    ∃ r', dtw (binary64 f) a = .ok r' ∧ r'.mapping = some mp ∧ r'.jmin = r.jmin := by
  obtain ⟨hex, hall⟩ := C49_double_accuracy f h hob hoe hw (fun i hi j hj => modest_cost (hc i hi j hj))
  obtain ⟨r', hr'⟩ := hex.2 ⟨r, hr⟩
  obtain ⟨e, d0, e1, e2, -, e4⟩ := hall r' r hr' hr
  rw [hd] at e2
  cases e2
  obtain ⟨mp', j, hmp', hj, -⟩ := C03_path_realises_distance h hob hdo hr'
  obtain ⟨x, hx, -, hx2⟩ := e4 _ hmp'
  have hsame : mp'.stepsTaken = mp.stepsTaken := by
    by_contra hne
    exact absurd hx2 (not_le.2 (hclear _ _ hx hne))
  obtain ⟨j1, -, hj1, -, hjc1, -, -⟩ := closed_mapping h hob hr hmp
  obtain ⟨j2, -, hj2, -, hjc2, -, -⟩ := closed_mapping h hob hr' hmp'
  refine ⟨r', hr', ?_, ?_⟩
  · rw [hmp', mapping_of_steps h hob h hob hr hmp hr' hmp' hsame]
  · rw [hj1, hj2, hjc1 hoe, hjc2 hoe]

/-- **C88**, any combination of open and closed ends, normalizable patterns: the same if every other admissible alignment, wherever it may
begin and end, has a normalized cost of more than `1 + (3(N+M)+6) * 2^-50` times the best. -/
theorem C88_any_ends (f : Bool) {y0 : ℚ} (h : Problem a n m (fun i j => fin (ℓ i j)) W p rs) (hw : ModestWeights rs)
    (hc : ∀ i < n, ∀ j < m, ModestCost (ℓ i j)) (hNA : p.hint ≠ "NA") (hdo : a.distanceOnly = false)
    (hr : dtw Arith.exact a = .ok r) (hmp : r.mapping = some mp) (hd : r.normalizedDistance = fin y0)
    (hclear : a.openBegin = false → ∀ ks j c y, (a.openEnd = false → j = m - 1) → j < m →
      WarpPath Arith.exact rs W (fun i j => fin (ℓ i j)) ks (n - 1) j (fin c) → normBy Arith.exact p.hint n j (fin c) = fin y →
      ks ≠ mp.stepsTaken → (1 + ((3 * (n + m) + 6 : ℕ) : ℚ) / 2 ^ 50) * y0 < y)
    (hclear' : a.openBegin = true → ∀ j0 ks j c y, (a.openEnd = false → j = m - 1) → j < m →
      OpenPath Arith.exact rs W (fun i j => fin (ℓ i j)) j0 ks n j (fin c) → normBy Arith.exact p.hint n j (fin c) = fin y →
      (ks ≠ mp.stepsTaken ∨ (j : Int) ≠ r.jmin) → (1 + ((3 * (n + m) + 6 : ℕ) : ℚ) / 2 ^ 50) * y0 < y) :
    ∃ r', dtw (binary64 f) a = .ok r' ∧ r'.mapping = some mp ∧ r'.jmin = r.jmin := by
  obtain ⟨hex, hall⟩ := C49_any_ends f h hw hc
  obtain ⟨r', hr'⟩ := hex.2 ⟨r, hr⟩
  obtain ⟨-, -, -, j, ks, x, hj, hjm, hks, hpath, -, hnear⟩ := hall r' r hr' hr
  obtain ⟨y, _, hy, e0, hle⟩ := hnear hNA
  rw [hd] at e0
  cases e0
  cases hob : a.openBegin with
  | false =>
    obtain ⟨mp', j', hmp', hj', -⟩ := C03_path_realises_distance h hob hdo hr'
    obtain ⟨j2, -, hj2, hlt2, hjc2, -, -⟩ := closed_mapping h hob hr' hmp'
    obtain rfl : j = j2 := by rw [hjm] at hj2; exact_mod_cast hj2
    rw [hob] at hpath
    simp only [Bool.false_eq_true, if_false] at hpath
    have hsame : mp'.stepsTaken = mp.stepsTaken := by
      by_contra hne
      rw [hks _ hmp'] at hne
      exact absurd hle (not_le.2 (hclear hob _ _ _ _ hjc2 hj hpath hy hne))
    have hmm := mapping_of_steps h hob h hob hr hmp hr' hmp' hsame
    subst hmm
    refine ⟨r', hr', hmp', ?_⟩
    have g1 := (C04_end_points h hob hr hmp).2.2.2.2.2.2.1
    have g2 := (C04_end_points h hob hr' hmp').2.2.2.2.2.2.1
    rw [g1] at g2
    exact (Option.some.inj g2).symm
  | true =>
    obtain ⟨mp', j', j0', hmp', hj', hlt', hjc', -⟩ := C22_open_begin_optimal h hob hr'
    obtain rfl : j = j' := by rw [hjm] at hj'; exact_mod_cast hj'
    rw [hob, if_pos rfl] at hpath
    obtain ⟨j0, hpath⟩ := hpath
    have hsame : mp'.stepsTaken = mp.stepsTaken ∧ (j : Int) = r.jmin := by
      by_contra hne
      rw [hks _ hmp'] at hne
      refine absurd hle (not_le.2 (hclear' hob _ _ _ _ _ hjc' hj hpath hy ?_))
      by_contra hcc
      rw [not_or, not_not, not_not] at hcc
      exact hne hcc
    have hjj : r'.jmin = r.jmin := by rw [hjm, hsame.2]
    exact ⟨r', hr', by rw [hmp', mapping_of_steps_open h hob h hob hr hmp hr' hmp' hsame.1 hjj], hjj⟩

/-- **C88**, noise and rounding.  `a` is the clean problem, solved exactly; `a'` the noisy one, solved in double precision, its local costs
off by at most `ε`; `K` bounds the total weight of a path.  If every other admissible alignment of the clean problem costs more than
`(1 + u) * (d + ε * K) + ε * K`, where `u = (3(N+M)+2) * 2^-50`, the noisy call in doubles returns the alignment of the clean problem. -/
theorem C88_noise_and_rounding (f : Bool) {K d : ℚ} (h : Problem a n m (fun i j => fin (ℓ i j)) W p rs)
    (h' : Problem a' n m (fun i j => fin (ℓ' i j)) W p rs)
    (hob : a.openBegin = false) (hoe : a.openEnd = false) (hob' : a'.openBegin = false) (hoe' : a'.openEnd = false)
    (hdo' : a'.distanceOnly = false) (hw : ModestWeights rs) (hp : PosWeights rs) (hc : ∀ i < n, ∀ j < m, ModestCost (ℓ' i j))
    (hcl : CloseBy ε n m ℓ ℓ')
    (hK : ∀ ks, RulePath rs W ks (n - 1) (m - 1) → pathWeight rs ks ≤ K)
    (hr : dtw Arith.exact a = .ok r) (hmp : r.mapping = some mp) (hd : r.distance = fin d)
    (hclear : ∀ ks c, WarpPath Arith.exact rs W (fun i j => fin (ℓ i j)) ks (n - 1) (m - 1) (fin c) → ks ≠ mp.stepsTaken →
      (1 + ((3 * (n + m) + 2 : ℕ) : ℚ) / 2 ^ 50) * (d + ε * K) + ε * K < c) :
    ∃ r', dtw (binary64 f) a' = .ok r' ∧ r'.mapping = some mp ∧ r'.jmin = r.jmin := by
  have hn := h.n_pos
  have hm := h.m_pos
  have hε : 0 ≤ ε := _root_.le_trans (abs_nonneg _) (hcl 0 hn 0 hm)
  have hu : (0 : ℚ) ≤ ((3 * (n + m) + 2 : ℕ) : ℚ) / 2 ^ 50 := div_nonneg (Nat.cast_nonneg _) (by norm_num)
  obtain ⟨hex, hdist⟩ := C62_stable h h' hob hoe hob' hoe' hp hcl hK
  obtain ⟨r1, hr1⟩ := hex.1 ⟨r, hr⟩
  obtain ⟨_, d1, e1, e2, e3⟩ := hdist r r1 hr hr1
  rw [hd] at e1
  cases e1
  obtain ⟨d', e2', hd1⟩ : ∃ d', r1.distance = fin d' ∧ 0 ≤ d' := by
    obtain ⟨hex2, hall⟩ := C49_double_accuracy f h' hob' hoe' hw (fun i hi j hj => modest_cost (hc i hi j hj))
    obtain ⟨r2, hr2⟩ := hex2.2 ⟨r1, hr1⟩
    obtain ⟨x, x0, -, e, e', -⟩ := hall r2 r1 hr2 hr1
    refine ⟨x0, e, ?_⟩
    by_contra hneg
    have hk2 : 0 < ((3 * (n + m) + 2 : ℕ) : ℚ) / 2 ^ 52 := div_pos (by exact_mod_cast (by omega : 0 < 3 * (n + m) + 2)) (by norm_num)
    have := mul_neg_of_pos_of_neg hk2 (not_le.1 hneg)
    have := abs_nonneg (x - x0)
    linarith
  rw [e2] at e2'
  cases e2'
  have hKn : 0 ≤ ε * K := _root_.le_trans (abs_nonneg _) e3
  -- the clean winner wins the noisy problem in exact arithmetic
  obtain ⟨r1', hr1', hmp1', hjj⟩ := C85_winner h h' hob hoe hob' hoe' hdo' hp hcl hK hr hmp hd (fun ks c hks hne => by
    have h1 := hclear ks c hks hne
    have h2 : 0 ≤ ((3 * (n + m) + 2 : ℕ) : ℚ) / 2 ^ 50 * (d + ε * K) := by
      have := (abs_le.1 e3).2
      refine mul_nonneg hu ?_
      linarith
    nlinarith)
  obtain rfl : r1' = r1 := by rw [hr1'] at hr1; exact Except.ok.inj hr1
  obtain ⟨r2, hr2, hmp2, hj2⟩ := C88_rounding f h' hw hc hob' hoe' hdo' hr1' hmp1' e2 (fun ks c hks hne => by
    obtain ⟨_, c0, h1, h2, h3⟩ := hks.stable hp hcl.symm (by omega) (by omega)
    cases h1
    have h4 := hclear ks c0 h2 hne
    have h5 := mul_le_mul_of_nonneg_left (hK _ hks.toRulePath) hε
    have h6 := (abs_le.1 h3).2
    have h7 := (abs_le.1 e3).2
    have h8 := mul_le_mul_of_nonneg_left (show d1 ≤ d + ε * K by linarith)
      (show 0 ≤ 1 + ((3 * (n + m) + 2 : ℕ) : ℚ) / 2 ^ 50 by linarith)
    linarith)
  exact ⟨r2, hr2, hmp2, hj2.trans hjj⟩

/-! ### Two noisy copies of a series, everything in doubles -/

variable {x y : List ℚ}

theorem apart_rounded (h : Apart x y) {i j : Nat} (hi : i < x.length) (hj : j < y.length) :
    ∃ d, rnd64 (x.getD i 0 - y.getD j 0) = fin d ∧ (d = 0 ∨ ((2 : ℚ) ^ (-400 : ℤ) ≤ |d| ∧ |d| ≤ 2 ^ (400 : ℤ))) ∧
      |(|d|) - gap x y i j| ≤ gap x y i j / 2 ^ 53 := by
  have hz := h i hi j hj
  obtain ⟨d, e, hr⟩ := rnd64_apart hz
  refine ⟨d, e, hr, ?_⟩
  unfold gap
  revert hz e
  generalize x.getD i 0 - y.getD j 0 = z
  intro hz e
  rcases hz with rfl | ⟨g1, g2⟩
  · rw [show rnd64 0 = fin 0 from (binary64 false).rnd_zero] at e
    cases e
    simp
  · obtain ⟨v, e1, e2, e3, -⟩ := (C49_binary64_relerr false).err |z| ((two_zpow_le (by norm_num)).trans g1)
      (g2.trans (two_zpow_le (by norm_num)))
    have e1 : rnd64 |z| = fin v := e1
    have hv : 0 ≤ v := _root_.le_trans (mul_nonneg (by norm_num) (abs_nonneg z)) e2
    have hdv : |d| = v := by
      rcases abs_cases z with ⟨ez, -⟩ | ⟨ez, -⟩
      · rw [ez, e] at e1
        cases e1
        exact abs_of_nonneg hv
      · rw [ez, rnd64_neg, e] at e1
        have : fin (-d) = fin v := e1
        cases this
        rw [← abs_neg]
        exact abs_of_nonneg hv
    rw [hdv, abs_le]
    constructor <;> linarith

theorem apart_modest (h : Apart x y) {i j : Nat} (hi : i < x.length) (hj : j < y.length) : ModestCost (roundedGap x y i j) := by
  obtain ⟨d, e, hr, -⟩ := apart_rounded h hi hj
  rw [roundedGap_of e]
  rcases hr with rfl | ⟨g1, g2⟩
  · exact .inl (by simp)
  · refine .inr ⟨_root_.le_trans ?_ g1, g2.trans ?_⟩
    · rw [show (1 : ℚ) / 2 ^ 900 = 2 ^ (-900 : ℤ) by rw [zpow_neg, one_div]; rfl]
      exact two_zpow_le (by norm_num)
    · rw [show (2 : ℚ) ^ 900 = 2 ^ (900 : ℤ) from rfl]
      exact two_zpow_le (by norm_num)

theorem apart_isGap (g : Bool) {M : List F64 → List F64 → F64}
    (hM : M ∈ [euclidean (binary64 g), cityblock (binary64 g), chebyshev (binary64 g)]) (h : Apart x y) : IsGap M x y := by
  have over : NoOverflow x y := fun i hi j hj => by
    obtain ⟨d, e, -⟩ := apart_rounded h hi hj
    exact ⟨d, e⟩
  simp only [List.mem_cons, List.not_mem_nil, or_false] at hM
  rcases hM with rfl | rfl | rfl
  · refine isGap_euclidean g fun i hi j hj => ?_
    obtain ⟨d, e, hr, -⟩ := apart_rounded h hi hj
    refine ⟨d, e, ?_⟩
    rcases hr with h0 | ⟨g1, g2⟩
    · exact .inl h0
    · exact .inr ⟨(two_zpow_le (by norm_num)).trans g1, lt_of_le_of_lt g2 (zpow_lt_zpow_right₀ (by norm_num) (by norm_num))⟩
  · exact isGap_cityblock g over
  · exact isGap_chebyshev g over

/-- **C88**, two noisy copies, everything computed in doubles.  `x` is a series whose samples are pairwise at least `g` apart; query and
reference are noisy copies of it, the samples off by at most `δ` and `η`, no two samples more than `G` apart.  If the noise is small, the
alignment found in doubles - local costs by the default metric, "cityblock" or "chebyshev" in doubles, accumulation in doubles - matches
sample `i` with sample `i` for every `i` and nothing else. -/
theorem C88_noisy_copy (f b : Bool) {M : List F64 → List F64 → F64}
    (hM : M ∈ [euclidean (binary64 b), cityblock (binary64 b), chebyshev (binary64 b)])
    {o : Args} {x x' y' : List ℚ} {q : String × StepPattern} {ω g G δ η : ℚ} (h : Sensible o x.length x.length W q)
    (hob : o.openBegin = false) (hoe : o.openEnd = false) (hdo : o.distanceOnly = false)
    (hs : (q.1, ω) ∈ strayWeights) (hW : ∀ i < x.length, W i i = true)
    (hx : x'.length = x.length) (hy : y'.length = x.length) (hap : Apart x' y')
    (hδ : ∀ i < x.length, |x'.getD i 0 - x.getD i 0| ≤ δ) (hη : ∀ i < x.length, |y'.getD i 0 - x.getD i 0| ≤ η)
    (hG : ∀ i < x.length, ∀ j < x.length, |x'.getD i 0 - y'.getD j 0| ≤ G)
    (hg : ∀ i < x.length, ∀ j < x.length, i ≠ j → g ≤ |x.getD i 0 - x.getD j 0|) (hg0 : 0 < g)
    (hsmall : (2 + ((6 * x.length + 2 : ℕ) : ℚ) / 2 ^ 50) * ((δ + η + G / 2 ^ 53) * weightBound q.2.hint x.length x.length) < ω * g) :
    ∃ r mp, dtw (binary64 f) (askWith M o x' y') = .ok r ∧ r.mapping = some mp ∧
      mp.index1 = (List.range x.length).map (fun (i : Nat) => (i : Int)) ∧ mp.index2 = mp.index1 := by
  have hn := h.n_pos
  have h1 := ask_problem h
  have h2 := askWith_problem (o := o) (x := x') (y := y') (W := W) (q := q) (by rw [hx, hy]; exact h) (apart_isGap b hM hap)
  rw [hx, hy] at h2
  obtain ⟨r, mp, hr, hmp, hd, hother, hi1, hi2⟩ := self_copy h hob hoe hdo hs hW hg hg0
  have hne : q.1 ≠ "_symmetricVelichkoZagoruyko" := by
    intro e
    rw [e] at hs
    revert hs
    have : ∀ s ∈ strayWeights, s.1 ≠ "_symmetricVelichkoZagoruyko" := by decide +kernel
    intro hs
    exact this _ hs rfl
  have hcl : CloseBy (δ + η + G / 2 ^ 53) x.length x.length (gap x x) (roundedGap x' y') := by
    intro i hi j hj
    obtain ⟨d, e, -, he⟩ := apart_rounded hap (hx ▸ hi) (hy ▸ hj)
    rw [roundedGap_of e]
    have h3 := gap_close hδ hη i hi j hj
    have h4 : gap x' y' i j / 2 ^ 53 ≤ G / 2 ^ 53 := div_le_div_of_nonneg_right (hG i hi j hj) (by norm_num)
    have e5 : |d| - gap x x i j = (|d| - gap x' y' i j) + (gap x' y' i j - gap x x i j) := by ring
    rw [e5]
    have := abs_add_le (|d| - gap x' y' i j) (gap x' y' i j - gap x x i j)
    linarith
  obtain ⟨r', hr', hmp', -⟩ := C88_noise_and_rounding f h1 h2 hob hoe hob hoe hdo (C49_bundled q h.mem hne) (C85_strays _ hs q.2 h.mem).1
    (fun i hi j hj => apart_modest hap (hx ▸ hi) (hy ▸ hj)) hcl
    (fun ks hks => weightBound_spec q h.mem hn hn hks) hr hmp hd (fun ks c hks hne => by
      have := hother ks c hks hne
      have e6 : 3 * (x.length + x.length) + 2 = 6 * x.length + 2 := by ring
      rw [e6]
      linarith)
  exact ⟨r', mp, hr', hmp', hi1, hi2⟩

/-! ### The guarantees C62, C83, C84 and C86 in doubles -/

/-- The relative error of the distance of an `n × m` problem in doubles (C49). -/
def relError (n m : Nat) : ℚ := ((3 * (n + m) + 2 : ℕ) : ℚ) / 2 ^ 52

theorem relError_pos (n m : Nat) : 0 < relError n m := div_pos (by exact_mod_cast (by omega : 0 < 3 * (n + m) + 2)) (by norm_num)

theorem relError_small {n m : Nat} {rs : List Rule} (h : Fits n m rs) (hn : 0 < n) (hm : 0 < m) : relError n m ≤ 1 / 2 ^ 18 := by
  have h1 := h.cells
  have h2 : n + m ≤ n * m + 1 := by
    obtain ⟨n, rfl⟩ : ∃ k, n = k + 1 := ⟨n - 1, by omega⟩
    obtain ⟨m, rfl⟩ : ∃ k, m = k + 1 := ⟨m - 1, by omega⟩
    have : (n + 1) * (m + 1) = n * m + n + m + 1 := by ring
    rw [this]
    have := Nat.zero_le (n * m)
    omega
  have h3 : 3 * (n + m) + 2 ≤ 2 ^ 34 := by
    have : (2 : Nat) ^ 34 = 17179869184 := by norm_num
    omega
  unfold relError
  rw [div_le_div_iff₀ (by norm_num) (by norm_num)]
  have h4 : ((3 * (n + m) + 2 : ℕ) : ℚ) ≤ 2 ^ 34 := by exact_mod_cast h3
  have h5 : (2 : ℚ) ^ 52 = 2 ^ 34 * 2 ^ 18 := by norm_num
  rw [h5, one_mul]
  exact mul_le_mul_of_nonneg_right h4 (by norm_num)

theorem Problem.fits_closed {L : Nat → Nat → F64} (h : Problem a n m L W p rs) (hob : a.openBegin = false) : Fits n m rs := by
  have := h.fits
  simpa [gridRows, hob] using this

theorem double_near (f : Bool) (h : Problem a n m (fun i j => fin (ℓ i j)) W p rs)
    (hob : a.openBegin = false) (hoe : a.openEnd = false) (hw : ModestWeights rs)
    (hc : ∀ i < n, ∀ j < m, ModestCost (ℓ i j)) :
    ((∃ r, dtw (binary64 f) a = .ok r) ↔ ∃ r0, dtw Arith.exact a = .ok r0) ∧
    ∀ r r0, dtw (binary64 f) a = .ok r → dtw Arith.exact a = .ok r0 →
      ∃ d d0, r.distance = fin d ∧ r0.distance = fin d0 ∧ 0 ≤ d0 ∧ |d - d0| ≤ relError n m * d0 ∧ (1 - relError n m) * d0 ≤ d ∧
        d ≤ (1 + relError n m) * d0 := by
  obtain ⟨hex, hall⟩ := C49_double_accuracy f h hob hoe hw (fun i hi j hj => modest_cost (hc i hi j hj))
  refine ⟨hex, fun r r0 hr hr0 => ?_⟩
  obtain ⟨d, d0, e1, e2, e3, -⟩ := hall r r0 hr hr0
  have h0 : 0 ≤ d0 := by
    by_contra hneg
    have := mul_neg_of_pos_of_neg (relError_pos n m) (not_le.1 hneg)
    have h1 := abs_nonneg (d - d0)
    unfold relError at this
    linarith
  have e3 : |d - d0| ≤ relError n m * d0 := e3
  obtain ⟨h1, h2⟩ := abs_le.1 e3
  exact ⟨d, d0, e1, e2, h0, e3, by linarith, by linarith⟩

/-- **C88**, noise (C62 and C84 in doubles).  If the exact distances of two problems of the same size differ by at most `B` (C62: `ε K`;
C84: `K Σ δ + K' Σ η`), the distances in doubles differ by at most `B` plus a rounding error proportional to them. -/
theorem C88_noise (f : Bool) {B : ℚ} (h : Problem a n m (fun i j => fin (ℓ i j)) W p rs)
    (h' : Problem a' n m (fun i j => fin (ℓ' i j)) W p rs)
    (hob : a.openBegin = false) (hoe : a.openEnd = false) (hob' : a'.openBegin = false) (hoe' : a'.openEnd = false)
    (hw : ModestWeights rs) (hc : ∀ i < n, ∀ j < m, ModestCost (ℓ i j)) (hc' : ∀ i < n, ∀ j < m, ModestCost (ℓ' i j))
    (hB : ∀ r r', dtw Arith.exact a = .ok r → dtw Arith.exact a' = .ok r' →
      ∃ d d', r.distance = fin d ∧ r'.distance = fin d' ∧ |d' - d| ≤ B) :
    ∀ r r', dtw (binary64 f) a = .ok r → dtw (binary64 f) a' = .ok r' →
      ∃ d d', r.distance = fin d ∧ r'.distance = fin d' ∧ |d' - d| ≤ B + 2 * relError n m * (d + d') := by
  intro r r' hr hr'
  obtain ⟨ex, near⟩ := double_near f h hob hoe hw hc
  obtain ⟨ex', near'⟩ := double_near f h' hob' hoe' hw hc'
  obtain ⟨r0, hr0⟩ := ex.1 ⟨r, hr⟩
  obtain ⟨r0', hr0'⟩ := ex'.1 ⟨r', hr'⟩
  obtain ⟨d, d0, e1, e2, e3, e4, e5, -⟩ := near r r0 hr hr0
  obtain ⟨d', d0', e1', e2', e3', e4', e5', -⟩ := near' r' r0' hr' hr0'
  obtain ⟨_, _, g1, g2, g3⟩ := hB r0 r0' hr0 hr0'
  rw [e2] at g1
  rw [e2'] at g2
  cases g1
  cases g2
  refine ⟨d, d', e1, e1', ?_⟩
  have hu := relError_small (h.fits_closed hob) h.n_pos h.m_pos
  have hu0 := relError_pos n m
  revert e4 e5 e4' e5' hu hu0
  generalize relError n m = u
  intro e4 e5 e4' e5' hu hu0
  have hu : u ≤ 1 / 2 := _root_.le_trans hu (by norm_num)
  have k1 : d0 ≤ 2 * d := by nlinarith
  have k2 : d0' ≤ 2 * d' := by nlinarith
  have k3 : u * d0 ≤ u * (2 * d) := mul_le_mul_of_nonneg_left k1 (_root_.le_of_lt hu0)
  have k4 : u * d0' ≤ u * (2 * d') := mul_le_mul_of_nonneg_left k2 (_root_.le_of_lt hu0)
  rw [abs_le] at g3 e4 e4' ⊢
  obtain ⟨a1, a2⟩ := e4
  obtain ⟨a3, a4⟩ := e4'
  obtain ⟨a5, a6⟩ := g3
  constructor <;> linarith

/-- **C88**, factors (C83 in doubles): both patterns find alignments for the same problems in doubles, and the second distance is at most
`K` times the first, up to rounding. -/
theorem C88_factor (f : Bool) {K : ℚ} {p' : StepPattern} {rs' : List Rule} (hR : RulesWithin K rs rs') (hK : 1 ≤ K)
    (h : Problem a n m (fun i j => fin (ℓ i j)) W p rs) (h' : Problem a' n m (fun i j => fin (ℓ i j)) W p' rs')
    (hob : a.openBegin = false) (hoe : a.openEnd = false) (hob' : a'.openBegin = false) (hoe' : a'.openEnd = false)
    (hw : ModestWeights rs) (hw' : ModestWeights rs') (hc : ∀ i < n, ∀ j < m, ModestCost (ℓ i j)) :
    ((∃ r, dtw (binary64 f) a = .ok r) ↔ ∃ r', dtw (binary64 f) a' = .ok r') ∧
    ∀ r r', dtw (binary64 f) a = .ok r → dtw (binary64 f) a' = .ok r' →
      ∃ d d', r.distance = fin d ∧ r'.distance = fin d' ∧ (1 - relError n m) * d' ≤ (1 + relError n m) * (K * d) := by
  have hl : ∀ i < n, ∀ j < m, 0 ≤ ℓ i j := by
    intro i hi j hj
    rcases hc i hi j hj with e | ⟨e, -⟩
    · rw [e]
    · exact _root_.le_trans (one_div_nonneg.2 (pow_nonneg (by norm_num) _)) e
  obtain ⟨ex, near⟩ := double_near f h hob hoe hw hc
  obtain ⟨ex', near'⟩ := double_near f h' hob' hoe' hw' hc
  obtain ⟨fx, fac⟩ := C83_factor hR hK hl h h' hob hoe hob' hoe'
  refine ⟨ex.trans (fx.trans ex'.symm), fun r r' hr hr' => ?_⟩
  obtain ⟨r0, hr0⟩ := ex.1 ⟨r, hr⟩
  obtain ⟨r0', hr0'⟩ := ex'.1 ⟨r', hr'⟩
  obtain ⟨d, d0, e1, e2, e3, -, e5, -⟩ := near r r0 hr hr0
  obtain ⟨d', d0', e1', e2', e3', -, -, e6'⟩ := near' r' r0' hr' hr0'
  obtain ⟨_, _, g1, g2, g3⟩ := fac r0 r0' hr0 hr0'
  rw [e2] at g1
  rw [e2'] at g2
  cases g1
  cases g2
  refine ⟨d, d', e1, e1', ?_⟩
  have hu := relError_small (h.fits_closed hob) h.n_pos h.m_pos
  have hu0 := relError_pos n m
  revert e5 e6' hu hu0
  generalize relError n m = u
  intro e5 e6' hu hu0
  have hu : 0 ≤ 1 - u := by
    have : u ≤ 1 := _root_.le_trans hu (by norm_num)
    linarith
  calc (1 - u) * d' ≤ (1 - u) * ((1 + u) * d0') := mul_le_mul_of_nonneg_left e6' hu
    _ ≤ (1 - u) * ((1 + u) * (K * d0)) :=
        mul_le_mul_of_nonneg_left (mul_le_mul_of_nonneg_left g3 (by linarith)) hu
    _ = (1 + u) * (K * ((1 - u) * d0)) := by ring
    _ ≤ (1 + u) * (K * d) := mul_le_mul_of_nonneg_left (mul_le_mul_of_nonneg_left e5 (by linarith)) (by linarith)

/-- **C88**, sample-and-hold (C86 in doubles): `n × m` with held samples, `n' × m'` without. -/
theorem C88_hold (fm : Bool) {n' m' K : Nat} {W' : Nat → Nat → Bool} {f g : Nat → Nat} {α β γ : ℚ}
    (h : Problem a n m (fun i j => fin (ℓ i j)) W p rs) (h' : Problem a' n' m' (fun i j => fin (ℓ' i j)) W' p rs)
    (ht : ThreeMoves rs α β γ)
    (hob : a.openBegin = false) (hoe : a.openEnd = false) (hob' : a'.openBegin = false) (hoe' : a'.openEnd = false)
    (hf : Held f n n' K) (hg : Held g m m' K) (hl : ∀ i < n, ∀ j < m, ℓ i j = ℓ' (f i) (g j))
    (hW : ∀ i < n, ∀ j < m, W i j = true ↔ W' (f i) (g j) = true) (hW0 : W' 0 0 = true)
    (hw : ModestWeights rs) (hc' : ∀ i < n', ∀ j < m', ModestCost (ℓ' i j)) :
    ((∃ r, dtw (binary64 fm) a = .ok r) ↔ ∃ r', dtw (binary64 fm) a' = .ok r') ∧
    ∀ r r', dtw (binary64 fm) a = .ok r → dtw (binary64 fm) a' = .ok r' →
      ∃ d d', r.distance = fin d ∧ r'.distance = fin d' ∧ (1 - relError n m) * d' ≤ (1 + relError n' m') * d ∧
        (1 - relError n' m') * d ≤ (1 + relError n m) * (K * d' + (γ - 1) * (K - 1) * ℓ' 0 0) := by
  have hl0 : ∀ i < n', ∀ j < m', 0 ≤ ℓ' i j := by
    intro i hi j hj
    rcases hc' i hi j hj with e | ⟨e, -⟩
    · rw [e]
    · exact _root_.le_trans (one_div_nonneg.2 (pow_nonneg (by norm_num) _)) e
  have hc : ∀ i < n, ∀ j < m, ModestCost (ℓ i j) := by
    intro i hi j hj
    rw [hl i hi j hj]
    exact hc' _ (hf.toBlocks.lt h'.n_pos hi) _ (hg.toBlocks.lt h'.m_pos hj)
  obtain ⟨ex, near⟩ := double_near fm h hob hoe hw hc
  obtain ⟨ex', near'⟩ := double_near fm h' hob' hoe' hw hc'
  obtain ⟨fx, fac⟩ := C86_hold h h' ht hob hoe hob' hoe' hf hg hl0 hl hW hW0
  refine ⟨ex.trans (fx.trans ex'.symm), fun r r' hr hr' => ?_⟩
  obtain ⟨r0, hr0⟩ := ex.1 ⟨r, hr⟩
  obtain ⟨r0', hr0'⟩ := ex'.1 ⟨r', hr'⟩
  obtain ⟨d, d0, e1, e2, e3, -, e5, e6⟩ := near r r0 hr hr0
  obtain ⟨d', d0', e1', e2', e3', -, e5', e6'⟩ := near' r' r0' hr' hr0'
  obtain ⟨_, _, g1, g2, g3, g4⟩ := fac r0 r0' hr0 hr0'
  rw [e2] at g1
  rw [e2'] at g2
  cases g1
  cases g2
  refine ⟨d, d', e1, e1', ?_⟩
  have hu := relError_small (h.fits_closed hob) h.n_pos h.m_pos
  have hu0 := relError_pos n m
  have hv := relError_small (h'.fits_closed hob') h'.n_pos h'.m_pos
  have hv0 := relError_pos n' m'
  revert e5 e6 e5' e6' hu hu0 hv hv0
  generalize relError n m = u
  generalize relError n' m' = v
  intro e5 e6 e5' e6' hu hu0 hv hv0
  have hu : 0 ≤ 1 - u := by
    have : u ≤ 1 := _root_.le_trans hu (by norm_num)
    linarith
  have hv : 0 ≤ 1 - v := by
    have : v ≤ 1 := _root_.le_trans hv (by norm_num)
    linarith
  constructor
  · calc (1 - u) * d' ≤ (1 - u) * ((1 + v) * d0') := mul_le_mul_of_nonneg_left e6' hu
      _ ≤ (1 - u) * ((1 + v) * d0) := mul_le_mul_of_nonneg_left (mul_le_mul_of_nonneg_left g3 (by linarith)) hu
      _ = (1 + v) * ((1 - u) * d0) := by ring
      _ ≤ (1 + v) * d := mul_le_mul_of_nonneg_left e5 (by linarith)
  · have hC : 0 ≤ (γ - 1) * (K - 1) * ℓ' 0 0 := by
      have hK : (1 : ℚ) ≤ K := by exact_mod_cast hf.pos h.n_pos
      exact mul_nonneg (mul_nonneg (by linarith [ht.one_le]) (by linarith)) (hl0 0 h'.n_pos 0 h'.m_pos)
    have hK0 : (0 : ℚ) ≤ K := Nat.cast_nonneg K
    have k1 : (1 - v) * (K * d0') ≤ K * d' := by
      have := mul_le_mul_of_nonneg_left e5' hK0
      linarith
    have k2 : (1 - v) * ((γ - 1) * (K - 1) * ℓ' 0 0) ≤ (γ - 1) * (K - 1) * ℓ' 0 0 := by
      have := mul_nonneg (_root_.le_of_lt hv0) hC
      linarith
    calc (1 - v) * d ≤ (1 - v) * ((1 + u) * d0) := mul_le_mul_of_nonneg_left e6 hv
      _ ≤ (1 - v) * ((1 + u) * (K * d0' + (γ - 1) * (K - 1) * ℓ' 0 0)) :=
          mul_le_mul_of_nonneg_left (mul_le_mul_of_nonneg_left g4 (by linarith)) hv
      _ = (1 + u) * ((1 - v) * (K * d0') + (1 - v) * ((γ - 1) * (K - 1) * ℓ' 0 0)) := by ring
      _ ≤ (1 + u) * (K * d' + (γ - 1) * (K - 1) * ℓ' 0 0) :=
          mul_le_mul_of_nonneg_left (add_le_add k1 k2) (by linarith)

/-! ### Sliding a query along a recording -/

theorem rigid_open {L : Nat → Nat → ℚ} {W : Nat → Nat → Bool} {j0 : Nat} {ks : List Int} {i j : Nat} {c : F64}
    (h : OpenPath Arith.exact (rulesOf Pat.rigid) W (fun i j => fin (L i j)) j0 ks i j c) :
    ks = List.replicate i 1 ∧ j = j0 + i ∧ c = fin ((List.range i).map fun t => L t (j0 + 1 + t)).sum := by
  have e : rulesOf Pat.rigid = [⟨1, 1, [⟨0, 0, 1⟩]⟩] := by decide +kernel
  rw [e] at h
  induction h with
  | start => simp
  | @step ks i j c k q hp hq h0i hW ih =>
    obtain ⟨rfl, rfl, rfl⟩ := ih
    have hk : k = 0 := by
      have := (List.getElem?_eq_some_iff.1 hq).1
      simpa using this
    subst hk
    obtain rfl : (⟨1, 1, [⟨0, 0, 1⟩]⟩ : Rule) = q := by simpa using hq
    refine ⟨by rw [List.replicate_succ']; rfl, by show j0 + i + 1 = j0 + (i + 1); omega, ?_⟩
    show fin (_ + 1 * L (i + 1 - 0 - 1) (j0 + i + 1 - 0)) = fin ((List.range (i + 1)).map fun t => L t (j0 + 1 + t)).sum
    rw [List.range_succ, List.map_append, List.sum_append, List.map_singleton, List.sum_singleton]
    simp only [Nat.sub_zero, Nat.add_sub_cancel, one_mul]
    rw [show j0 + i + 1 = j0 + 1 + i by omega]

/-- **C88**, sliding a query along a recording without warping it (`rigid`, both ends open), in doubles: if the sum of the local costs at
offset `s` is, by the factor of rounding, less than that at any other offset, the match is found at `s`, sample by sample. -/
theorem C88_rigid_search (f : Bool) {s : Nat}
    (h : Problem a n m (fun i j => fin (ℓ i j)) (fun _ _ => true) Pat.rigid (rulesOf Pat.rigid))
    (hc : ∀ i < n, ∀ j < m, ModestCost (ℓ i j))
    (hob : a.openBegin = true) (hoe : a.openEnd = true) (hdo : a.distanceOnly = false) (hs : 1 ≤ s) (hsm : s + n ≤ m)
    (hclear : ∀ t, 1 ≤ t → t + n ≤ m → t ≠ s → (1 + ((3 * (n + m) + 6 : ℕ) : ℚ) / 2 ^ 50) * ((List.range n).map fun i => ℓ i (s + i)).sum <
      ((List.range n).map fun i => ℓ i (t + i)).sum) :
    ∃ r mp, dtw (binary64 f) a = .ok r ∧ r.mapping = some mp ∧ r.jmin = ((s + n - 1 : Nat) : Int) ∧
      mp.index1 = (List.range n).map (fun (i : Nat) => (i : Int)) ∧ mp.index2 = (List.range n).map (fun (i : Nat) => ((s + i : Nat) : Int)) := by
  have hn := h.n_pos
  have hl0 : ∀ i < n, ∀ j < m, 0 ≤ ℓ i j := by
    intro i hi j hj
    rcases hc i hi j hj with e | ⟨e, -⟩
    · rw [e]
    · exact _root_.le_trans (one_div_nonneg.2 (pow_nonneg (by norm_num) _)) e
  have hS0 : 0 ≤ ((List.range n).map fun i => ℓ i (s + i)).sum := by
    refine List.sum_nonneg fun z hz => ?_
    obtain ⟨i, hi, rfl⟩ := List.mem_map.1 hz
    have := List.mem_range.1 hi
    exact hl0 _ this _ (by omega)
  have hu : (0 : ℚ) ≤ ((3 * (n + m) + 6 : ℕ) : ℚ) / 2 ^ 50 := div_nonneg (Nat.cast_nonneg _) (by norm_num)
  have hlt : ∀ t, 1 ≤ t → t + n ≤ m → t ≠ s → ((List.range n).map fun i => ℓ i (s + i)).sum < ((List.range n).map fun i => ℓ i (t + i)).sum := by
    intro t h1 h2 h3
    have := hclear t h1 h2 h3
    have := mul_nonneg hu hS0
    linarith
  obtain ⟨hex, hbest⟩ := C59_rigid h hob hoe hdo
  obtain ⟨r0, hr0⟩ := hex.2 ⟨s, hs, hsm⟩
  obtain ⟨d, hd, ⟨t, ⟨ht1, ht2⟩, ht3⟩, hmin⟩ := hbest r0 hr0
  have hds : d = ((List.range n).map fun i => ℓ i (s + i)).sum := by
    have h1 := hmin ⟨s, ⟨hs, hsm⟩, rfl⟩
    by_cases hts : t = s
    · rw [ht3, hts]
    · have := hlt t ht1 ht2 hts
      rw [ht3] at h1
      linarith
  have hhint : Pat.rigid.hint = "N" := by decide +kernel
  have hW : ModestWeights (rulesOf Pat.rigid) := by decide +kernel
  have hnq : (0 : ℚ) < n := by exact_mod_cast hn
  have eN : ∀ j c, normBy Arith.exact Pat.rigid.hint n j (fin c) = fin (c / n) := by
    intro j c
    rw [hhint]
    show Arith.exact.divQ (fin c) n = _
    simp only [Arith.divQ, if_neg hnq.ne']
    rfl
  obtain ⟨mp, j, j0, hmp, hj, hjm, -, hpath, -⟩ := C22_open_begin_optimal h hob hr0
  obtain ⟨e1, e2, e3⟩ := rigid_open hpath
  have hj0 : j0 + 1 = s := by
    by_contra hne
    have := hlt (j0 + 1) (by omega) (by omega) hne
    rw [hd, hds] at e3
    have e3 := F64.fin.inj e3
    linarith
  have hnd : r0.normalizedDistance = fin (((List.range n).map fun i => ℓ i (s + i)).sum / n) := by
    have := (C22_open_both_optimal h hob hoe hr0).1
    rw [this, hd, hds]
    simp only [Arith.divQ, if_neg hnq.ne']
    rfl
  obtain ⟨r, hr, hm1, hm2⟩ := C88_any_ends f h hW hc (by rw [hhint]; decide) hdo hr0 hmp hnd
    (fun hob' => by rw [hob] at hob'; cases hob')
    (fun _ j0' ks' j' c' y _ hj' hp' hy hne => by
      obtain ⟨g1, g2, g3⟩ := rigid_open hp'
      cases g3
      rw [eN] at hy
      have hy := F64.fin.inj hy
      rw [g1, e1] at hne
      have hne : (j' : Int) ≠ r0.jmin := by
        rcases hne with h | h
        · exact absurd rfl h
        · exact h
      have := hclear (j0' + 1) (by omega) (by omega) (by rw [hj] at hne; omega)
      rw [← hy, ← mul_div_assoc]
      exact div_lt_div_of_pos_right this hnq)
  refine ⟨r, mp, hr, hm1, by rw [hm2, hj]; omega, ?_⟩
  obtain ⟨j1, j01, ks1, f1, -, f3, f4⟩ := open_mapping h hob hr0 hmp
  obtain ⟨g1, g2, -⟩ := rigid_open f4
  have ho : OnlyMove (rulesOf Pat.rigid) 1 1 1 0 := by
    have e : rulesOf Pat.rigid = [⟨1, 1, [⟨0, 0, 1⟩]⟩] := by decide +kernel
    rw [e]
    refine ⟨rfl, fun k' r s hk _ _ => ?_⟩
    have := (List.getElem?_eq_some_iff.1 hk).1
    simpa using this
  have hj01 : j01 = j0 := by rw [hj] at f1; omega
  have e0 : ((0 : Nat) : Int) + 1 = 1 := rfl
  have hft := fineTail_replicate ho n (-1) j0
  rw [e0] at hft
  rw [f3, dropNull_curve, g1, hj01, hft]
  simp only [List.map_map]
  constructor <;> (apply List.map_congr_left; intro i hi; simp only [Function.comp]; push_cast; omega)

/-! ### Cases -/

/-- The hypotheses of `C88_rigid_search` are met: the query `[1, 2]` in the recording `[7, 5, 1, 2 + 1/8, 9]`. -/
def Ex.tapeCost (i j : Nat) : ℚ := |(i : ℚ) + 1 - (([7, 5, 1, 2 + 1 / 8, 9] : List ℚ)[j]?).getD 0|

def Ex.tape : Args :=
  { x := .d2 (Mat.ofFn 2 5 fun i j => fin (Ex.tapeCost i j))
    stepPattern := .name "rigid"
    openBegin := true
    openEnd := true }

theorem modest_of_small {x : ℚ} (h : x = 0 ∨ (1 / 2 ^ 40 ≤ x ∧ x ≤ 2 ^ 40)) : ModestCost x := by
  rcases h with h | ⟨h1, h2⟩
  · exact .inl h
  · refine .inr ⟨_root_.le_trans ?_ h1, h2.trans ?_⟩
    · exact one_div_le_one_div_of_le (pow_pos (by norm_num) _) (pow_le_pow_right₀ (by norm_num) (by norm_num))
    · exact pow_le_pow_right₀ (by norm_num) (by norm_num)

theorem Ex.tape_problem : Problem Ex.tape 2 5 (fun i j => fin (Ex.tapeCost i j)) (fun _ _ => true) Pat.rigid (rulesOf Pat.rigid) where
  n_pos := by decide
  m_pos := by decide
  cost := .matrix rfl rfl rfl rfl
  pattern := by decide +kernel
  wf := table_wf ("rigid", Pat.rigid) (by decide +kernel)
  fits := table_fits (n := 3) (m := 5) (by decide) ("rigid", Pat.rigid) (by decide +kernel)
  window := .inl ⟨rfl, fun _ _ _ _ => rfl⟩

example (f : Bool) : ∃ r mp, dtw (binary64 f) Ex.tape = .ok r ∧ r.mapping = some mp ∧ r.jmin = 3 ∧ mp.index2 = [2, 3] := by
  obtain ⟨r, mp, h1, h2, h3, -, h5⟩ := C88_rigid_search f (s := 2) Ex.tape_problem
    (fun i hi j hj => modest_of_small (by
      have : ∀ i ∈ List.range 2, ∀ j ∈ List.range 5, Ex.tapeCost i j = 0 ∨ (1 / 2 ^ 40 ≤ Ex.tapeCost i j ∧ Ex.tapeCost i j ≤ 2 ^ 40) := by
        decide +kernel
      exact this i (List.mem_range.2 hi) j (List.mem_range.2 hj))) rfl rfl rfl (by decide) (by decide) (by
      have : ∀ t ∈ List.range 4, 1 ≤ t → t + 2 ≤ 5 → t ≠ 2 → (1 + ((3 * (2 + 5) + 6 : ℕ) : ℚ) / 2 ^ 50) *
          ((List.range 2).map fun i => Ex.tapeCost i (2 + i)).sum < ((List.range 2).map fun i => Ex.tapeCost i (t + i)).sum := by
        decide +kernel
      exact fun t h1 h2 h3 => this t (List.mem_range.2 (by omega)) h1 h2 h3)
  exact ⟨r, mp, h1, h2, h3, by rw [h5]; rfl⟩

/-- The hypotheses of `C88_noisy_copy` (hence of `C88_noise_and_rounding` and `C88_rounding`) are met: samples 3 apart, noise up to 1/8. -/
example (f b : Bool) : ∃ r mp, dtw (binary64 f) (askWith (euclidean (binary64 b)) { x := .d1 [], stepPattern := .name "symmetric2" }
      [0 + 1 / 16, 6, 3 - 1 / 16, 9] [0, 6 + 1 / 8, 3, 9]) = .ok r ∧ r.mapping = some mp ∧
      mp.index1 = (List.range 4).map (fun (i : Nat) => (i : Int)) ∧ mp.index2 = mp.index1 := by
  have hb : Sensible { x := .d1 [], stepPattern := .name "symmetric2" } 4 4 (fun _ _ => true) ("symmetric2", Pat.symmetric2) :=
    sensible_free (by decide) (by decide) (by decide) Ex.sym2_mem rfl rfl
  refine C88_noisy_copy f b (by simp) (x := [0, 6, 3, 9]) (ω := 1) (g := 3) (G := 16) (δ := 1 / 16) (η := 1 / 8) hb rfl rfl rfl (by decide)
    (fun _ _ => rfl) rfl rfl ?_ ?_ ?_ ?_ ?_ (by norm_num) (by
      show (2 + ((6 * 4 + 2 : ℕ) : ℚ) / 2 ^ 50) * ((1 / 16 + 1 / 8 + 16 / 2 ^ 53) * weightBound "N+M" 4 4) < 1 * 3
      rw [weightBound, if_neg (by decide), if_neg (by decide)]
      norm_num)
  · have key : ∀ z : ℚ, z = 0 ∨ (1 / 2 ^ 40 ≤ |z| ∧ |z| ≤ 2 ^ 40) → z = 0 ∨ ((2 : ℚ) ^ (-400 : ℤ) ≤ |z| ∧ |z| ≤ 2 ^ (400 : ℤ)) := by
      rintro z (h | ⟨h1, h2⟩)
      · exact .inl h
      · refine .inr ⟨_root_.le_trans ?_ h1, h2.trans ?_⟩
        · rw [show (1 : ℚ) / 2 ^ 40 = 2 ^ (-40 : ℤ) by rw [zpow_neg, one_div]; rfl]
          exact two_zpow_le (by norm_num)
        · rw [show (2 : ℚ) ^ 40 = 2 ^ (40 : ℤ) from rfl]
          exact two_zpow_le (by norm_num)
    intro i hi j hj
    apply key
    have h1 : i = 0 ∨ i = 1 ∨ i = 2 ∨ i = 3 := by simp at hi; omega
    have h2 : j = 0 ∨ j = 1 ∨ j = 2 ∨ j = 3 := by simp at hj; omega
    rcases h1 with rfl | rfl | rfl | rfl <;> rcases h2 with rfl | rfl | rfl | rfl <;> norm_num [le_abs, abs_le]
  · intro i hi
    have : i = 0 ∨ i = 1 ∨ i = 2 ∨ i = 3 := by simp at hi; omega
    rcases this with rfl | rfl | rfl | rfl <;> norm_num [abs_le]
  · intro i hi
    have : i = 0 ∨ i = 1 ∨ i = 2 ∨ i = 3 := by simp at hi; omega
    rcases this with rfl | rfl | rfl | rfl <;> norm_num [abs_le]
  · intro i hi j hj
    have h1 : i = 0 ∨ i = 1 ∨ i = 2 ∨ i = 3 := by simp at hi; omega
    have h2 : j = 0 ∨ j = 1 ∨ j = 2 ∨ j = 3 := by simp at hj; omega
    rcases h1 with rfl | rfl | rfl | rfl <;> rcases h2 with rfl | rfl | rfl | rfl <;> norm_num [abs_le]
  · intro i hi j hj hne
    have h1 : i = 0 ∨ i = 1 ∨ i = 2 ∨ i = 3 := by simp at hi; omega
    have h2 : j = 0 ∨ j = 1 ∨ j = 2 ∨ j = 3 := by simp at hj; omega
    rcases h1 with rfl | rfl | rfl | rfl <;> rcases h2 with rfl | rfl | rfl | rfl <;>
      first
        | exact absurd rfl hne
        | (norm_num [le_abs])

/-- The hypotheses of `C88_factor` are met: symmetric1 and symmetric2 in doubles. -/
example (f : Bool) : ∃ r r' d d', dtw (binary64 f) (Ex.latCall "symmetric1") = .ok r ∧ dtw (binary64 f) (Ex.latCall "symmetric2") = .ok r' ∧
    r.distance = fin d ∧ r'.distance = fin d' ∧ (1 - relError 4 5) * d' ≤ (1 + relError 4 5) * (2 * d) := by
  have hc : ∀ i < 4, ∀ j < 5, ModestCost (Ex.lat i j) := fun i hi j hj => modest_of_small (by
    have : ∀ i ∈ List.range 4, ∀ j ∈ List.range 5, Ex.lat i j = 0 ∨ (1 / 2 ^ 40 ≤ Ex.lat i j ∧ Ex.lat i j ≤ 2 ^ 40) := by decide +kernel
    exact this i (List.mem_range.2 hi) j (List.mem_range.2 hj))
  obtain ⟨q, hq, q', hq', e1, e2, hR⟩ := C83_bundled (2, "symmetric1", "symmetric2") (by decide +kernel)
  obtain ⟨r, hr⟩ := Ex.get_ok (x := dtw (binary64 f) (Ex.latCall "symmetric1")) (by cases f <;> decide +kernel)
  obtain ⟨hex, hall⟩ := C88_factor f hR (by norm_num) (Ex.lat_problem q hq) (Ex.lat_problem q' hq') rfl rfl rfl rfl
    (C49_bundled q hq (by rw [e1]; decide)) (C49_bundled q' hq' (by rw [e2]; decide)) hc
  rw [e1, e2] at hex hall
  obtain ⟨r', hr'⟩ := hex.1 ⟨r, hr⟩
  obtain ⟨d, d', g1, g2, g3⟩ := hall r r' hr hr'
  exact ⟨r, r', d, d', hr, hr', g1, g2, g3⟩

end DTW
