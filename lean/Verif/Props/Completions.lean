import Verif.Props.Totality
import Verif.Props.Count
import Verif.Props.Windows
import Verif.Props.Options2
import Verif.Props.OpenBegin

/-!
# C09, C10, C11, C20-C23: NaN cells, success with a larger window, open ends; C27, C36-C38 in doubles
-/

namespace DTW
open F64

variable {A : Arith} {a a' : Args} {n m : Nat} {L L' : Nat → Nat → F64} {W W' : Nat → Nat → Bool}
  {p p' : StepPattern} {rs rs' : List Rule} {r r' : Result} {ℓ : Nat → Nat → ℚ}

/-- **C09** (NaN exactly where nothing leads).  Closed begin: the corner of the returned cost matrix is the local cost of the
corner; any other cell is NaN exactly when no admissible path to it has a usable cost (neither NaN nor +inf). -/
theorem C09_nan_iff (h : Problem a n m L W p rs) (hob : a.openBegin = false)
    (hki : a.keepInternals = true) (hr : dtw A a = .ok r) :
    ∃ G : Nat → Nat → F64, r.costMatrix = some (Mat.ofFn n m G) ∧ G 0 0 = L 0 0 ∧
      ∀ i < n, ∀ j < m, ¬ (i = 0 ∧ j = 0) →
        (G i j = nan ↔ ¬ ∃ ks c, WarpPath A rs W L ks i j c ∧ usable c) := by
  have hn := h.n_pos
  have hm := h.m_pos
  obtain ⟨G, D, qr, hB, _, hd⟩ := dtw_closed A h hob
  obtain ⟨j, ks, hrun⟩ := closed_ok h hob hB hd hr
  have seed0 : ∀ i j, ¬ (i = 0 ∧ j = 0) → closedSeed L i j = nan := fun i j hne => by
    unfold closedSeed; rw [if_neg hne]
  refine ⟨G, by rw [hrun.result]; simp [mkResult, hki, hob], ?_, ?_⟩
  · by_cases hL : L 0 0 = nan
    · exfalso
      obtain ⟨i0, j0, ks', hp, -⟩ := hB.sound h.wf.valid _ (n - 1) j rfl (by omega) hrun.endAt.lt hrun.endAt.ne_nan
      have hs : ∃ i j, closedSeed L i j ≠ nan := by
        clear hB hrun


        generalize G (n - 1) j = g at hp
        generalize n - 1 = i at hp
        induction hp with
        | start hS => exact ⟨_, _, hS⟩
        | step _ _ _ _ _ _ ih => exact ih
      obtain ⟨i, j, hs⟩ := hs
      exact (closedSeed_ne_nan hs).2.2 hL
    · have hS : closedSeed L 0 0 ≠ nan := by simpa [closedSeed] using hL
      rw [(hB.seeded 0 hn 0 hm hS).1]
      simp [closedSeed]
  · intro i hi j hj hne
    constructor
    · rintro hG ⟨ks', c, hp, hu⟩
      exact (hB.optimal (hp.toPath h.wf.valid (usable_ne_nan hu)) hi hj hu).1 hG
    · intro hno
      by_contra hG
      obtain ⟨i0, j0, ks', hp, _⟩ := hB.sound h.wf.valid _ i j rfl hi hj hG
      exact hno ⟨ks', _, hp.toWarpPath.2.2, hB.usable_of_ne_nan hi hj (seed0 i j hne) hG⟩

/-- **C09** (open begin).  A cell is NaN exactly when no open-begin path to it has a usable cost. -/
theorem C09_nan_iff_open_begin (h : Problem a n m L W p rs) (hob : a.openBegin = true)
    (hki : a.keepInternals = true) (hr : dtw A a = .ok r) :
    ∃ G : Nat → Nat → F64, r.costMatrix = some (Mat.ofFn n m G) ∧ ∀ i < n, ∀ j < m,
      (G i j = nan ↔ ¬ ∃ j0 ks c, OpenPath A rs W L j0 ks (i + 1) j c ∧ usable c) := by
  have hh : p.hint = "N" := by
    by_contra hh; rw [open_bad_hint h hob hh] at hr; simp at hr
  obtain ⟨G, D, qr, hB, _, hd⟩ := dtw_open A h hob hh
  obtain ⟨j, j0, ks, hrun⟩ := open_ok h hob hB hd hr
  refine ⟨fun i j => G (i + 1) j, by rw [hrun.result]; simp [mkResult, hki, hob, dropRow_ofFn], ?_⟩
  intro i hi j hj
  constructor
  · rintro hG ⟨j0', ks', c, hp, hu⟩
    exact (hB.optimal hp.toPath (by omega) hj hu).1 hG
  · intro hno
    by_contra hG
    obtain ⟨i0, j0', ks', hp, _⟩ := hB.sound h.wf.valid _ (i + 1) j rfl (by omega) hj hG
    exact hno ⟨j0', ks', _, hp.toOpenPath.2, hB.usable_of_ne_nan (by omega) hj (by simp [openSeed]) hG⟩

/-- **C10** (the cost matrix).  The returned cost matrix is NaN on every cell outside the window, except the corner where every
closed-begin alignment starts; with open begin the window is looked up one row below. -/
theorem C10_outside_is_nan (h : Problem a n m L W p rs) (hki : a.keepInternals = true) (hr : dtw A a = .ok r) :
    ∃ G : Nat → Nat → F64, r.costMatrix = some (Mat.ofFn n m G) ∧ ∀ i < n, ∀ j < m,
      (a.openBegin = false → ¬ (i = 0 ∧ j = 0) → W i j = false → G i j = nan) ∧
      (a.openBegin = true → W (i + 1) j = false → G i j = nan) := by
  cases hob : a.openBegin with
  | false =>
    obtain ⟨G, D, qr, hB, _, hd⟩ := dtw_closed A h hob
    obtain ⟨j, ks, hrun⟩ := closed_ok h hob hB hd hr
    refine ⟨G, by rw [hrun.result]; simp [mkResult, hki, hob], fun i hi j hj => ⟨fun _ hne hW => ?_, by simp⟩⟩
    exact (hB.outside i hi j hj (by unfold closedSeed; rw [if_neg hne]) hW).1
  | true =>
    have hh : p.hint = "N" := by
      by_contra hh; rw [open_bad_hint h hob hh] at hr; simp at hr
    obtain ⟨G, D, qr, hB, _, hd⟩ := dtw_open A h hob hh
    obtain ⟨j, j0, ks, hrun⟩ := open_ok h hob hB hd hr
    refine ⟨fun i j => G (i + 1) j, by rw [hrun.result]; simp [mkResult, hki, hob, dropRow_ofFn],
      fun i hi j hj => ⟨by simp, fun _ hW => ?_⟩⟩
    exact (hB.outside (i + 1) (by omega) j hj (by simp [openSeed]) hW).1

/-- Non-vacuity: the banded example has a cell outside the window, and it is NaN. -/
example : Problem Ex.band 3 4 Ex.L Ex.bandW Pat.asymmetric (rulesOf Pat.asymmetric) ∧ Ex.band.keepInternals = true ∧
    Ex.bandW 0 3 = false ∧
    ((dtw Arith.exact Ex.band).toOption.bind (·.costMatrix)).map (fun M => M.data[3]?) = some (some nan) :=
  ⟨Ex.band_problem, by decide +kernel, by decide +kernel, by decide +kernel⟩

/-- **C11** (open end: success is inherited).  Closed begin, open end: if the call with the smaller window succeeds, so does the
one with the larger window, and its normalised distance is not larger. -/
theorem C11_open_end_succeeds (hA : Idempotent A) (h : Problem a n m L W p rs) (h' : Problem a' n m L W' p rs)
    (hob : a.openBegin = false) (hob' : a'.openBegin = false) (hoe : a.openEnd = true) (hoe' : a'.openEnd = true)
    (hL : Representable A (L 0 0)) (hne : L 0 0 ≠ pinf)
    (hsub : ∀ i < n, ∀ j < m, W i j = true → W' i j = true) (hr : dtw A a = .ok r) :
    ∃ r', dtw A a' = .ok r' ∧ F64.le r'.normalizedDistance r.normalizedDistance := by
  have hn := h.n_pos
  have hNA : p.hint ≠ "NA" := by
    intro hc
    obtain ⟨t, ht⟩ := C20_rejects_NA (A := A) h hoe hc
    rw [hr] at ht; cases ht
  obtain ⟨ks, j, c, hj, hp, hu⟩ := (C20_open_end_succeeds_any hA h hob hoe hNA hL hne).1 ⟨r, hr⟩
  have hp' := ((hp.toPath h.wf.valid (usable_ne_nan hu)).window_mono hsub (by omega) hj).toWarpPath.2.2
  obtain ⟨r', hr'⟩ := (C20_open_end_succeeds_any hA h' hob' hoe' hNA hL hne).2 ⟨ks, j, c, hj, hp', hu⟩
  refine ⟨r', hr', (C11_any_ends h h' (by rw [hob, hob']) (by rw [hoe, hoe']) ?_ hr hr').2 hNA⟩
  simpa [gridRows, hob] using hsub

/-- **C11** (both ends open). -/
theorem C11_open_both_succeeds (hA : Idempotent A) (h : Problem a n m L W p rs) (h' : Problem a' n m L W' p rs)
    (hob : a.openBegin = true) (hob' : a'.openBegin = true) (hoe : a.openEnd = true) (hoe' : a'.openEnd = true)
    (hdo : a'.distanceOnly = false)
    (hsub : ∀ i < n + 1, ∀ j < m, W i j = true → W' i j = true) (hr : dtw A a = .ok r) :
    ∃ r', dtw A a' = .ok r' ∧ F64.le r'.normalizedDistance r.normalizedDistance := by
  have hh : p.hint = "N" := by
    by_contra hh; rw [open_bad_hint h hob hh] at hr; simp at hr
  have hdo0 : a.distanceOnly = false := by
    obtain ⟨G, D, qr, hB, _, hd⟩ := dtw_open A h hob hh
    obtain ⟨j, j0, ks, hrun⟩ := open_ok h hob hB hd hr
    exact hrun.full
  obtain ⟨j0, ks, j, c, hj, hp, hu⟩ := (C22_open_both_succeeds_iff hA h hob hoe hdo0 hh).1 ⟨r, hr⟩
  have hp' := (hp.toPath.window_mono hsub (by omega) hj).toOpenPath.2
  obtain ⟨r', hr'⟩ := (C22_open_both_succeeds_iff hA h' hob' hoe' hdo hh).2 ⟨j0, ks, j, c, hj, hp', hu⟩
  refine ⟨r', hr', (C11_any_ends h h' (by rw [hob, hob']) (by rw [hoe, hoe']) ?_ hr hr').2 (by rw [hh]; decide)⟩
  simpa [gridRows, hob] using hsub

/-- Non-vacuity: open-end and open-both calls, banded against unbanded. -/
example : (dtw Arith.exact { Ex.band with openEnd := true }).toOption.isSome = true ∧
    (dtw Arith.exact { Ex.band with openEnd := true, windowType := .none, windowArgs := [] }).toOption.isSome = true ∧
    (dtw Arith.exact Ex.openBoth).toOption.isSome = true := by decide +kernel

/-- **C23** (open end).  With the same rule in the pattern, a call with both ends open succeeds whenever the closed-begin one
(open or closed end) does, and its normalised distance is not larger. -/
theorem C23_open_end (hA : Idempotent A) (h : Problem a n m L W p rs) (h' : Problem a' n m L W' p rs)
    (hob : a.openBegin = false) (hob' : a'.openBegin = true)
    (hoe' : a'.openEnd = true) (hdo : a'.distanceOnly = false) (hh : p.hint = "N")
    (hrule : ⟨1, 0, [⟨0, 0, 1⟩]⟩ ∈ rs) (h00 : A.mac (fin 0) (A.rnd 1) (L 0 0) = L 0 0)
    (hW1 : W' 1 0 = true) (hW : ∀ i < n, ∀ j < m, W i j = true → W' (i + 1) j = true)
    (hr : dtw A a = .ok r) (hu : usable r.distance) :
    ∃ r', dtw A a' = .ok r' ∧ F64.le r'.normalizedDistance r.normalizedDistance := by
  obtain ⟨G, D, qr, hB, _, hd⟩ := dtw_closed A h hob
  obtain ⟨j, ks, hrun⟩ := closed_ok h hob hB hd hr
  have hdist : r.distance = G (n - 1) j := by rw [hrun.result]; rfl
  have hlt := hrun.endAt.lt
  have hn := h.n_pos
  obtain ⟨k1, hk1⟩ := List.getElem?_of_mem hrule
  have hp := hrun.path.toOpen h.wf.valid hk1 h00 hW1 hW (by omega) hlt
  rw [show n - 1 + 1 = n by omega] at hp
  obtain ⟨r', hr'⟩ := (C22_open_both_succeeds_iff hA h' hob' hoe' hdo hh).2 ⟨_, _, j, _, hlt, hp, by rw [← hdist]; exact hu⟩
  refine ⟨r', hr', ?_⟩
  obtain ⟨G', D', qr', hB', _, hd'⟩ := dtw_open A h' hob' hh
  obtain ⟨j', j0', ks', hrun'⟩ := open_ok h' hob' hB' hd' hr'
  have hle : F64.le (G' n j) (G (n - 1) j) := hB'.optimal hp.toPath (by omega) hlt (by rw [← hdist]; exact hu)
  have hb := (hrun'.endAt.opened hoe').2
  have hna : p.hint ≠ "NA" := by rw [hh]; decide
  rw [hrun.result, hrun'.result]
  simp only [mkResult, if_neg hna]
  exact F64.le_trans (hb.min j hlt (normBy_ne_nan A hn hle.1)) (normBy_mono A p.hint hn hle)

/-- **C21** (open end, the normalised distance).  The closed-end alignment against the prefix `reference[:jmin+1]` also has the
same normalised distance as the open-end alignment. -/
theorem C21_open_end_normalized {j : Nat} (h : Problem a n m L W p rs)
    (hob : a.openBegin = false) (hr : dtw A a = .ok r) (hj : r.jmin = j)
    (h' : Problem a' n (j + 1) L W p rs) (hob' : a'.openBegin = false) (hoe' : a'.openEnd = false)
    (hdo : a'.distanceOnly = a.distanceOnly) :
    ∃ r', dtw A a' = .ok r' ∧ r'.distance = r.distance ∧ r'.normalizedDistance = r.normalizedDistance ∧
      r'.jmin = r.jmin ∧ r'.mapping = r.mapping := by
  obtain ⟨r', hr', h1, h2⟩ := C21_open_end_is_closed_prefix h hob hr hj h' hob' hoe' hdo
  obtain ⟨G, D, qr, hB, _, hd⟩ := dtw_closed A h hob
  obtain ⟨j1, ks, hrun⟩ := closed_ok h hob hB hd hr
  obtain ⟨G', D', qr', hB', _, hd'⟩ := dtw_closed A h' hob'
  obtain ⟨j2, ks', hrun'⟩ := closed_ok h' hob' hB' hd' hr'
  have e1 : r.jmin = (j1 : Int) := by rw [hrun.result]; rfl
  have e2 := hrun'.endAt.closed hoe'
  have e3 : r'.jmin = (j2 : Int) := by rw [hrun'.result]; rfl
  have ej : j2 = j1 := by omega
  have d1 : r.distance = G (n - 1) j1 := by rw [hrun.result]; rfl
  have d2 : r'.distance = G' (n - 1) j2 := by rw [hrun'.result]; rfl
  refine ⟨r', hr', h1, ?_, by rw [e1, e3, ej], h2⟩
  subst ej
  have hG : G' (n - 1) j2 = G (n - 1) j2 := by rw [← d1, ← d2, h1]
  rw [hrun.result, hrun'.result]
  simp [mkResult, hG]

/-! ### Existence in double precision -/

/-- **C27** (doubles).  Double precision, finite local costs up to 2^900, no window: a closed-end `asymmetric` alignment exists iff
`M - 1 ≤ 2 (N - 1)`. -/
theorem C27_asymmetric_exists_doubles (f : Bool)
    (h : Problem a n m (fun i j => fin (ℓ i j)) (fun _ _ => true) Pat.asymmetric (rulesOf Pat.asymmetric))
    (ht : BoundedData n m ℓ (rulesOf Pat.asymmetric)) (hob : a.openBegin = false) (hoe : a.openEnd = false) :
    (∃ r, dtw (binary64 f) a = .ok r) ↔ m - 1 ≤ 2 * (n - 1) := by
  rw [C74_success f h h (same_options a) ht, C27_asymmetric_exists_iff h hob hoe]

/-- **C36** (doubles).  `dtw` in doubles finds an alignment exactly when the (exact) path count of the same problem is positive. -/
theorem C36_feasible_iff_doubles (f : Bool) {d : Result} (h : Problem a n m (fun i j => fin (ℓ i j)) W p rs)
    (hbd : BoundedData n m ℓ rs) (hob : a.openBegin = false) (hoe : a.openEnd = false) (ht : MarkersSurvive rs)
    (hd : AboutProblem d n m p W) (hdb : d.openBegin = false) (hde : d.openEnd = false) :
    (∃ r, dtw (binary64 f) a = .ok r) ↔ ∃ k : Int, countPaths Arith.exact d = .ok k ∧ 0 < k := by
  rw [C74_success f h h (same_options a) hbd, C36_feasible_iff h hob hoe ht hd hdb hde]

/-- **C36** (doubles, open end). -/
theorem C36_feasible_iff_open_end_doubles (f : Bool) {d : Result} (h : Problem a n m (fun i j => fin (ℓ i j)) W p rs)
    (hbd : BoundedData n m ℓ rs) (hob : a.openBegin = false) (hoe : a.openEnd = true) (hNA : p.hint ≠ "NA")
    (ht : MarkersSurvive rs) (hd : AboutProblem d n m p W) (hdb : d.openBegin = false) (hde : d.openEnd = true) :
    (∃ r, dtw (binary64 f) a = .ok r) ↔ ∃ k : Int, countPaths Arith.exact d = .ok k ∧ 0 < k := by
  rw [C74_success f h h (same_options a) hbd, C36_feasible_iff_open_end h hob hoe hNA ht hd hdb hde]

/-- **C37** (doubles).  Free moves, finite costs: in doubles, a closed-end alignment in a Sakoe-Chiba band exists iff the lengths
differ by at most the band width (series of one element each always align). -/
theorem C37_iff_doubles (f : Bool) {w : ℚ} (h : Problem a n m (fun i j => fin (ℓ i j)) W p rs) (ht : BoundedData n m ℓ rs)
    (hob : a.openBegin = false) (hoe : a.openEnd = false) (hu : Uses a "sakoechiba" [("window_size", w)])
    (hf : FreeMoves rs) (h1 : 1 < n ∨ 1 < m) :
    (∃ r, dtw (binary64 f) a = .ok r) ↔ |(n : ℚ) - m| ≤ w := by
  constructor
  · rintro ⟨r, hr⟩
    by_contra hc
    rw [C37_too_narrow_raises h hob hoe hu h1 (not_le.1 hc)] at hr
    cases hr
  · intro hw
    rw [C74_success f h h (same_options a) ht]
    exact C37_wide_enough_succeeds h hob hoe hu hf hw

/-- **C37** (doubles, `asymmetric`). -/
theorem C37_asymmetric_doubles (f : Bool) {w : ℚ} (h : Problem a n m (fun i j => fin (ℓ i j)) W p rs)
    (ht : BoundedData n m ℓ rs) (hob : a.openBegin = false)
    (hoe : a.openEnd = false) (hu : Uses a "sakoechiba" [("window_size", w)])
    (hd : HasMove rs 1 0) (hg : HasMove rs 1 1) (hs : HasMove rs 1 2)
    (hw : |(n : ℚ) - m| ≤ w) (hnm : m - 1 ≤ 2 * (n - 1)) : ∃ r, dtw (binary64 f) a = .ok r := by
  rw [C74_success f h h (same_options a) ht]
  exact C37_asymmetric_succeeds h hob hoe hu hd hg hs hw hnm

/-- **C38** (doubles, Itakura).  Free moves, finite costs: exactly the shapes with `M-1 < 2(N-1)` and `N-1 ≤ 2(M-1)` align
(series of one element each aside). -/
theorem C38_itakura_iff_doubles (f : Bool) (h : Problem a n m (fun i j => fin (ℓ i j)) W p rs) (ht : BoundedData n m ℓ rs)
    (hob : a.openBegin = false) (hoe : a.openEnd = false) (hu : Uses a "itakura" []) (hf : FreeMoves rs)
    (h1 : 1 < n ∨ 1 < m) :
    (∃ r, dtw (binary64 f) a = .ok r) ↔ m - 1 < 2 * (n - 1) ∧ n - 1 ≤ 2 * (m - 1) := by
  constructor
  · rintro ⟨r, hr⟩
    by_contra hc
    rw [C38_itakura_raises h hob hoe hu h1 (by omega)] at hr
    cases hr
  · rintro ⟨h2, h3⟩
    rw [C74_success f h h (same_options a) ht]
    exact C38_itakura_succeeds h hob hoe hu hf h2 h3

/-- **C38** (doubles, slanted band of integer width). -/
theorem C38_slanted_iff_doubles (f : Bool) {w : Nat} (h : Problem a n m (fun i j => fin (ℓ i j)) W p rs)
    (ht : BoundedData n m ℓ rs) (hob : a.openBegin = false)
    (hoe : a.openEnd = false) (hu : Uses a "slantedband" [("window_size", (w : ℚ))]) (hf : FreeMoves rs) :
    (∃ r, dtw (binary64 f) a = .ok r) ↔ |(m : ℚ) / n - 1| ≤ w := by
  rw [C74_success f h h (same_options a) ht, C38_slanted_iff h hob hoe hu hf]

end DTW
