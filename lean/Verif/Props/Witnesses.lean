import Verif.Props.OpenBegin
import Verif.Props.Invariance
import Verif.Props.Doubles
import Verif.Props.Layout
import Verif.Props.Cli
import Verif.Props.History
import Verif.Props.Plot
import Verif.Props.WarpArea
import Verif.Props.Warp
import Verif.Props.Windows
import Verif.Props.Slope
import Verif.Props.CountDoubles
import Verif.Props.Weights
import Verif.Props.Options2

/-!
# The hypotheses of the theorems are met

`bundled_problem` shows that *every* non-empty cost matrix below the `int` limit, with every bundled pattern, is a
`Problem`; the rest of the file applies theorems to concrete calls, discharging every hypothesis.
-/

namespace DTW
open F64

/-- `dtw(M, step_pattern=s, keep_internals=True)` for the `n × m` matrix with entries `f i j`. -/
def Ex.call (n m : Nat) (f : Nat → Nat → F64) (s : String) : Args :=
  { x := .d2 (Mat.ofFn n m f), stepPattern := .name s, keepInternals := true }

theorem table_fits {n m : Nat} (hnm : n * m < 2147483648) : ∀ q ∈ Pat.table, Fits n m (rulesOf q.2) := by
  have : (Pat.table.all fun q => decide (4 * (encode (rulesOf q.2)).length < 2147483648) &&
      (rulesOf q.2).all fun r => decide (r.a < 2147483648 ∧ r.b < 2147483648)) = true := by decide +kernel
  intro q hq
  have h := List.all_eq_true.1 this q hq
  simp only [Bool.and_eq_true, decide_eq_true_eq, List.all_eq_true] at h
  exact ⟨hnm, h.1, h.2⟩

/-- Every call on a non-empty matrix that fits C's `int`, with any bundled step pattern and no window, is a `Problem`,
whatever the local costs (infinities and NaNs included). -/
theorem bundled_problem {n m : Nat} (hn : 0 < n) (hm : 0 < m) (hnm : n * m < 2147483648) (f : Nat → Nat → F64)
    (q : String × StepPattern) (hq : q ∈ Pat.table) :
    Problem (Ex.call n m f q.1) n m f (fun _ _ => true) q.2 (rulesOf q.2) where
  n_pos := hn
  m_pos := hm
  cost := .matrix rfl rfl rfl rfl
  pattern := by
    have h2 : ∀ q ∈ Pat.table, Pat.table.lookup q.1 = some q.2 := by decide +kernel
    simp only [Ex.call, canonPattern, h2 q hq]
  wf := table_wf q hq
  fits := table_fits hnm q hq
  window := .inl ⟨rfl, fun _ _ _ _ => rfl⟩

/-- Local costs `|x_i - y_j|` for `x = 0,2,1,3`, `y = 0,0,2,1,3`. -/
def Ex.lat : Nat → Nat → ℚ := fun i j =>
  |(([0, 2, 1, 3] : List ℚ)[i]?.getD 0) - (([0, 0, 2, 1, 3] : List ℚ)[j]?.getD 0)|

theorem Ex.lat_nonneg (i j : Nat) : 0 ≤ Ex.lat i j := abs_nonneg _

/-- A call of `dtw` on the matrix `Ex.lat` (4 × 5). -/
def Ex.latCall (s : String) : Args := Ex.call 4 5 (fun i j => fin (Ex.lat i j)) s

theorem Ex.lat_problem (q : String × StepPattern) (hq : q ∈ Pat.table) :
    Problem (Ex.latCall q.1) 4 5 (fun i j => fin (Ex.lat i j)) (fun _ _ => true) q.2 (rulesOf q.2) :=
  bundled_problem (by decide) (by decide) (by decide) _ q hq

theorem Ex.sym2_mem : ("symmetric2", Pat.symmetric2) ∈ Pat.table := by decide +kernel
theorem Ex.sym1_mem : ("symmetric1", Pat.symmetric1) ∈ Pat.table := by decide +kernel
theorem Ex.asym_mem : ("asymmetric", Pat.asymmetric) ∈ Pat.table := by decide +kernel

/-! ### C01–C03, C09: the optimum of a call exists and is attained -/

example : ∃ r, dtw Arith.exact (Ex.latCall "symmetric2") = .ok r ∧
    (∃ ks, WarpPath Arith.exact (rulesOf Pat.symmetric2) (fun _ _ => true) (fun i j => fin (Ex.lat i j)) ks 3 4 r.distance) ∧
    r.distance = fin 0 := by
  obtain ⟨r, hr⟩ := Ex.get_ok (x := dtw Arith.exact (Ex.latCall "symmetric2")) (by decide +kernel)
  refine ⟨r, hr, (C01_distance_optimal (Ex.lat_problem _ Ex.sym2_mem) rfl rfl hr).1, ?_⟩
  have : (dtw Arith.exact (Ex.latCall "symmetric2")).toOption.map (·.distance) = some (fin 0) := by decide +kernel
  rw [hr] at this
  simpa [Except.toOption] using this

/-! ### C12, C14, C15: monotonicity, sign, self-alignment -/

/-- Exact arithmetic: raising costs from `Ex.lat` to 7. -/
example : ∃ r r', dtw Arith.exact (Ex.latCall "typeIIb") = .ok r ∧
    dtw Arith.exact (Ex.call 4 5 (fun _ _ => fin 7) "typeIIb") = .ok r' ∧ F64.le r.distance r'.distance := by
  have hm : ("typeIIb", Pat.typeIIb) ∈ Pat.table := by decide +kernel
  obtain ⟨r', hr'⟩ := Ex.get_ok (x := dtw Arith.exact (Ex.call 4 5 (fun _ _ => fin 7) "typeIIb")) (by decide +kernel)
  obtain ⟨r, hr, hle⟩ := C12_monotone_in_costs (Ex.lat_problem _ hm)
    (bundled_problem (by decide) (by decide) (by decide) _ _ hm) rfl rfl rfl rfl
    (C12_bundled_weights _ hm (by decide)) (fun i hi j hj => by
      have : ∀ i ∈ List.range 4, ∀ j ∈ List.range 5, F64.lt (fin 7) (fin (Ex.lat i j)) = false := by decide +kernel
      exact ⟨by simp, by simp, this i (List.mem_range.2 hi) j (List.mem_range.2 hj)⟩) hr'
  exact ⟨r, r', hr, hr', hle⟩

example : ∃ r, dtw Arith.exact (Ex.latCall "typeIIIc") = .ok r ∧ F64.le (fin 0) r.distance := by
  have hm : ("typeIIIc", Pat.typeIIIc) ∈ Pat.table := by decide +kernel
  obtain ⟨r, hr⟩ := Ex.get_ok (x := dtw Arith.exact (Ex.latCall "typeIIIc")) (by decide +kernel)
  exact ⟨r, hr, (C14_nonnegative (Ex.lat_problem _ hm) rfl (C12_bundled_weights _ hm (by decide))
    (fun _ _ _ _ => Ex.lat_nonneg _ _) hr).1⟩

/-- Aligning any series of rationals of any length with itself: distance 0, with `mori2006`. -/
example (x : Nat → ℚ) (n : Nat) (hn : 0 < n) (hb : n * n < 2147483648) :
    ∃ r, dtw Arith.exact (Ex.call n n (fun i j => fin |x i - x j|) "mori2006") = .ok r ∧ r.distance = fin 0 := by
  have hm : ("mori2006", Pat.mori2006) ∈ Pat.table := by decide +kernel
  obtain ⟨p, hp, hw, hr⟩ := C15_bundled "mori2006" (by decide)
  have e : p = Pat.mori2006 := by
    have : canonPattern (.name "mori2006") = .ok Pat.mori2006 := by decide +kernel
    rw [this] at hp
    exact (Except.ok.inj hp).symm
  subst e
  exact C15_self_alignment (bundled_problem hn hn hb _ _ hm) rfl rfl hw (fun _ _ _ _ => abs_nonneg _)
    (fun i _ => by simp) (fun _ _ => rfl) hr

/-! ### C20–C23: open ends -/

example : ∃ r, dtw Arith.exact { Ex.latCall "asymmetric" with openEnd := true } = .ok r ∧
    ∃ (G : Nat → Nat → F64) (j : Nat), r.jmin = j ∧ r.distance = G 3 j ∧
      FirstBest 5 (fun j => normBy Arith.exact "N" 4 j (G 3 j)) j := by
  obtain ⟨r, hr⟩ := Ex.get_ok (x := dtw Arith.exact { Ex.latCall "asymmetric" with openEnd := true }) (by decide +kernel)
  have h : Problem { Ex.latCall "asymmetric" with openEnd := true } 4 5 (fun i j => fin (Ex.lat i j)) (fun _ _ => true)
      Pat.asymmetric (rulesOf Pat.asymmetric) := by
    have h := Ex.lat_problem _ Ex.asym_mem
    exact ⟨h.n_pos, h.m_pos, .matrix rfl rfl rfl rfl, h.pattern, h.wf, h.fits, .inl ⟨rfl, fun _ _ _ _ => rfl⟩⟩
  obtain ⟨G, j, _, hj, hd, _, hb⟩ := C20_open_end_best_prefix h rfl hr
  exact ⟨r, hr, G, j, hj, hd, hb⟩

/-- The problem of `Ex.latCall "asymmetric"` with an open beginning. -/
theorem Ex.latOpen_problem (oe : Bool) :
    Problem { Ex.latCall "asymmetric" with openBegin := true, openEnd := oe } 4 5 (fun i j => fin (Ex.lat i j))
      (fun _ _ => true) Pat.asymmetric (rulesOf Pat.asymmetric) where
  n_pos := by decide
  m_pos := by decide
  cost := .matrix rfl rfl rfl rfl
  pattern := (Ex.lat_problem _ Ex.asym_mem).pattern
  wf := table_wf _ Ex.asym_mem
  fits := table_fits (n := 5) (m := 5) (by decide) _ Ex.asym_mem
  window := .inl ⟨rfl, fun _ _ _ _ => rfl⟩

example : ∃ r r', dtw Arith.exact (Ex.latCall "asymmetric") = .ok r ∧
    dtw Arith.exact { Ex.latCall "asymmetric" with openBegin := true, openEnd := false } = .ok r' ∧
    F64.le r'.distance r.distance := by
  obtain ⟨r, hr⟩ := Ex.get_ok (x := dtw Arith.exact (Ex.latCall "asymmetric")) (by decide +kernel)
  have hd : ((dtw Arith.exact (Ex.latCall "asymmetric")).toOption.map fun r => decide (usable r.distance)) = some true := by
    decide +kernel
  rw [hr] at hd
  obtain ⟨r', hr', hle⟩ := C23_open_begin_le_closed (Ex.lat_problem _ Ex.asym_mem) (Ex.latOpen_problem false) rfl rfl rfl rfl
    rfl (by decide +kernel) (by decide +kernel) (by decide +kernel) rfl (fun _ _ _ _ h => h) hr
    (by simpa [Except.toOption] using hd)
  exact ⟨r, r', hr, hr', hle⟩

example : ∃ r, dtw Arith.exact { Ex.latCall "asymmetric" with openBegin := true, openEnd := true } = .ok r ∧
    ∃ (mp : Mapping) (j j0 : Nat), r.mapping = some mp ∧ r.jmin = j ∧
      OpenPath Arith.exact (rulesOf Pat.asymmetric) (fun _ _ => true) (fun i j => fin (Ex.lat i j)) j0 mp.stepsTaken 4 j
        r.distance := by
  obtain ⟨r, hr⟩ := Ex.get_ok
    (x := dtw Arith.exact { Ex.latCall "asymmetric" with openBegin := true, openEnd := true }) (by decide +kernel)
  obtain ⟨mp, j, j0, hmp, hj, _, _, hp, _⟩ := C22_open_begin_optimal (Ex.latOpen_problem true) rfl hr
  exact ⟨r, hr, mp, j, j0, hmp, hj, hp⟩

/-! ### C29: a matrix that overflows the C index type -/

/-- A 46341 × 46341 matrix has 2147488281 cells: every run of the compiled loop overflows. -/
example (wm : List Int) (lm cm : List F64) (sm : List Int) :
    computeCM Arith.exact 46341 46341 wm lm Pat.symmetric2.getNRows Pat.symmetric2.getP cm sm = .error .ub :=
  C29_overflow_unsafe (table_wf _ Ex.sym2_mem) (by decide +kernel) (by decide +kernel) (by decide) wm lm cm sm

/-! ### C35, C36: path counting -/

example : ∃ r, dtw Arith.exact (Ex.latCall "symmetricP05") = .ok r ∧
    ∃ k : Nat, countPaths Arith.exact r = .ok (k : Int) ∧ 0 < k ∧
      HasCount (fun ks => RulePath (rulesOf Pat.symmetricP05) (fun _ _ => true) ks 3 4) k := by
  have hm : ("symmetricP05", Pat.symmetricP05) ∈ Pat.table := by decide +kernel
  have hp := Ex.lat_problem _ hm
  obtain ⟨r, hr⟩ := Ex.get_ok (x := dtw Arith.exact (Ex.latCall "symmetricP05")) (by decide +kernel)
  obtain ⟨hd, hob, hoe⟩ := C35_result_about hp rfl (fun _ => rfl) hr
  obtain ⟨k, hk, hc⟩ := C35_closed (A := Arith.exact) (B := 5 ^ 7) (fun _ _ => rfl) hp.wf (C35_bundled _ hm (by decide)) hd
    hob hoe (by decide) (by decide) (by
      intro i hi j hj c hc
      refine (count_le hp.wf _ i j rfl c hc).trans ?_
      have : (rulesOf Pat.symmetricP05).length = 5 := by decide +kernel
      rw [this]
      exact Nat.pow_le_pow_right (by decide) (by omega))
  obtain ⟨k', hk', hpos⟩ := C36_success_counts hp rfl (fun _ => rfl) (C35_bundled _ hm (by decide)) hr
  rw [hk] at hk'
  exact ⟨r, hr, k, hk, by have := Except.ok.inj hk'; omega, hc⟩

/-- The same in binary64: 5 · 3^7 ≤ 2^53, and Delannoy(3,4) = 129. -/
example : ∃ r, dtw Arith.exact (Ex.latCall "symmetric2") = .ok r ∧
    countPaths (binary64 true) r = .ok 129 ∧ countPaths Arith.exact r = .ok 129 := by
  have hp := Ex.lat_problem _ Ex.sym2_mem
  obtain ⟨r, hr⟩ := Ex.get_ok (x := dtw Arith.exact (Ex.latCall "symmetric2")) (by decide +kernel)
  obtain ⟨hd, hob, hoe⟩ := C35_result_about hp rfl (fun _ => rfl) hr
  have e : delannoy 3 4 = 129 := by simp [delannoy]
  obtain ⟨h1, h2⟩ := C35_delannoy (.inr rfl) hd hob hoe (by decide) (by decide)
  have h2 := h2 (by decide) true
  rw [show (4 - 1 : Nat) = 3 from rfl, show (5 - 1 : Nat) = 4 from rfl, e] at h1 h2
  exact ⟨r, hr, h2, h1⟩

/-- `countPaths` is positive exactly because `dtw` found an alignment. -/
example : ∃ r, dtw Arith.exact (Ex.latCall "asymmetricP2") = .ok r ∧
    ((∃ r', dtw Arith.exact (Ex.latCall "asymmetricP2") = .ok r') ↔ ∃ k : Int, countPaths Arith.exact r = .ok k ∧ 0 < k) := by
  have hm : ("asymmetricP2", Pat.asymmetricP2) ∈ Pat.table := by decide +kernel
  have hp := Ex.lat_problem _ hm
  obtain ⟨r, hr⟩ := Ex.get_ok (x := dtw Arith.exact (Ex.latCall "asymmetricP2")) (by decide +kernel)
  obtain ⟨hd, hob, hoe⟩ := C35_result_about hp rfl (fun _ => rfl) hr
  exact ⟨r, hr, C36_feasible_iff hp rfl rfl (C35_bundled _ hm (by decide)) hd hob hoe⟩

/-! ### C41, C42: warp and warpArea -/

example : ∃ r mp, dtw Arith.exact (Ex.latCall "symmetric2") = .ok r ∧ r.mapping = some mp ∧ Axes mp false 4 ∧
    (∀ k : Nat, k ≤ 4 → (k : Int) ∈ mp.target false) ∧ FullCurve mp r.N ∧ r.N = 4 := by
  have hp := Ex.lat_problem _ Ex.sym2_mem
  obtain ⟨r, hr⟩ := Ex.get_ok (x := dtw Arith.exact (Ex.latCall "symmetric2")) (by decide +kernel)
  have hmp : ((dtw Arith.exact (Ex.latCall "symmetric2")).toOption.bind (·.mapping)).map (fun mp => (mp.index1, mp.index2)) =
      some ([0, 0, 1, 2, 3], [0, 1, 2, 3, 4]) := by decide +kernel
  rw [hr] at hmp
  simp only [Except.toOption, Option.bind_some, Option.map_eq_some_iff, Prod.mk.injEq] at hmp
  obtain ⟨mp, hmp, e1, e2⟩ := hmp
  have ht : mp.target false = [0, 1, 2, 3, 4] := e2
  have hs : mp.source false = [0, 0, 1, 2, 3] := e1
  obtain ⟨hN, _, hF⟩ := C42_of_dtw hp rfl (fun q hq => (C05_bundled_ordered _ Ex.sym2_mem).2 q hq) hr hmp
  refine ⟨r, mp, hr, hmp, ⟨by rw [ht, hs]; rfl, by rw [hs]; decide, by rw [ht]; decide, by rw [ht]; decide⟩, ?_, hF, hN⟩
  intro k hk
  rw [ht]
  have : ∀ k ∈ List.range 5, ((k : Nat) : Int) ∈ ([0, 1, 2, 3, 4] : List Int) := by decide
  exact this k (List.mem_range.2 (by omega))

/-! ### C46: histories -/

/-- Two further calls and a mutation of an unrelated array leave the outcome of a call alone. -/
example (o : Obj) : Session.plainCall.outcome Arith.exact
      (runHistory Arith.exact Session.h0 [.call Session.bandCall, .create o, .mutate (Session.x0 + 1) o, .call Session.plainCall]) =
    Session.plainCall.outcome Arith.exact Session.h0 := by
  have hs : (Session.plainCall.deref Session.h0).isSome = true := by decide +kernel
  obtain ⟨a, ha⟩ := Option.isSome_iff_exists.1 hs
  refine (C46_history_independent ha _ ?_).1
  intro b o' hb
  simp only [List.mem_cons, Op.mutate.injEq, List.not_mem_nil, or_false, reduceCtorEq, false_or] at hb
  rw [hb.1]
  decide +kernel

/-! ### C47: layouts -/

/-- A transposed view of two or more rows and columns is refused, whatever its memory and the options. -/
example : LayoutEx.transposed.accepted false = false ∧ LayoutEx.transposed.accepted true = false :=
  ⟨(C47_rejected LayoutEx.transposed).1 (by decide) (by decide) (by decide +kernel) false,
   (C47_rejected LayoutEx.transposed).1 (by decide) (by decide) (by decide +kernel) true⟩

example : LayoutEx.c23.accepted false = true := (C47_contiguous_accepted LayoutEx.c23 (by decide +kernel)).1 rfl

/-! ### C48: the command line -/

/-- The call made for the example files. -/
theorem CliEx.problem : Problem (cliCall CliEx.absd (.d1 [fin 1, fin 2, fin 4]) (.d1 [fin 1, fin 3]) "symmetric2") 3 2
    (fun i j => CliEx.absd [([fin 1, fin 2, fin 4] : List F64)[i]?.getD nan] [([fin 1, fin 3] : List F64)[j]?.getD nan])
    (fun _ _ => true) Pat.symmetric2 (rulesOf Pat.symmetric2) where
  n_pos := by decide
  m_pos := by decide
  cost := .series _ _ _ rfl (.d1 _) (.d1 _) rfl rfl rfl (by
    intro i hi j hj
    have : ∀ i ∈ List.range 3, ∀ j ∈ List.range 2,
      CliEx.absd [([fin 1, fin 2, fin 4] : List F64)[i]?.getD nan] [([fin 1, fin 3] : List F64)[j]?.getD nan] =
      CliEx.absd ((⟨3, 1, [fin 1, fin 2, fin 4]⟩ : Mat F64).row i) ((⟨2, 1, [fin 1, fin 3]⟩ : Mat F64).row j) := by
      decide +kernel
    exact this i (List.mem_range.2 hi) j (List.mem_range.2 hj))
  pattern := by decide +kernel
  wf := wf_of_check (by decide +kernel)
  fits := fits_of_check (by decide +kernel)
  window := .inl ⟨rfl, fun _ _ _ _ => rfl⟩

example : ∃ al mp, "Normalized distance: 0.6\n\nDistance: 3\n\nWarping path: [[0 1 2]\n [0 0 1]]\n\n" =
    report CliEx.text al mp ∧ al.mapping = some mp := by
  obtain ⟨al, mp, h1, h2, _⟩ := C48_prints_optimum (A := Arith.exact) (T := CliEx.text) (Q := CliEx.Q) (R := CliEx.R)
    (s := "symmetric2") (q := .d1 [fin 1, fin 2, fin 4]) (r := .d1 [fin 1, fin 3]) rfl rfl CliEx.problem
    (by decide +kernel : main2 Arith.exact CliEx.text CliEx.absd CliEx.Q CliEx.R "symmetric2" =
      .ok "Normalized distance: 0.6\n\nDistance: 3\n\nWarping path: [[0 1 2]\n [0 0 1]]\n\n")
  exact ⟨al, mp, h1, h2⟩

/-! ### C49, C50: doubles -/

/-- Costs that are no dyadic rationals: the binary64 distance is within 29 ulps (relative) of the exact one. -/
example : ∃ r r0, dtw (binary64 true) (Ex.call 4 5 (fun i j => fin (Ex.lat i j / 3)) "symmetric1") = .ok r ∧
    dtw Arith.exact (Ex.call 4 5 (fun i j => fin (Ex.lat i j / 3)) "symmetric1") = .ok r0 ∧
    ∃ d d0, r.distance = fin d ∧ r0.distance = fin d0 ∧ |d - d0| ≤ (29 : ℚ) / 2 ^ 52 * d0 := by
  have hp : Problem (Ex.call 4 5 (fun i j => fin (Ex.lat i j / 3)) "symmetric1") 4 5 (fun i j => fin (Ex.lat i j / 3))
      (fun _ _ => true) Pat.symmetric1 (rulesOf Pat.symmetric1) :=
    bundled_problem (by decide) (by decide) (by decide) _ _ Ex.sym1_mem
  obtain ⟨r0, hr0⟩ := Ex.get_ok (x := dtw Arith.exact (Ex.call 4 5 (fun i j => fin (Ex.lat i j / 3)) "symmetric1"))
    (by decide +kernel)
  have hc : ∀ i < 4, ∀ j < 5, Ex.lat i j / 3 = 0 ∨ (1 / 2 ^ 1000 ≤ Ex.lat i j / 3 ∧ Ex.lat i j / 3 ≤ 2 ^ 900) := by
    have : ∀ i ∈ List.range 4, ∀ j ∈ List.range 5, Ex.lat i j / 3 = 0 ∨ (1 / 3 ≤ Ex.lat i j / 3 ∧ Ex.lat i j / 3 ≤ 1) := by
      decide +kernel
    intro i hi j hj
    rcases this i (List.mem_range.2 hi) j (List.mem_range.2 hj) with h | ⟨h1, h2⟩
    · exact .inl h
    · refine .inr ⟨le_trans ?_ h1, h2.trans ?_⟩
      · rw [div_le_div_iff₀ (by positivity) (by norm_num)]
        rw [one_mul, one_mul]
        exact le_trans (by norm_num : (3 : ℚ) ≤ 2 ^ 2) (pow_le_pow_right₀ (by norm_num) (by norm_num))
      · exact one_le_pow₀ (by norm_num)
  obtain ⟨h1, h2⟩ := C49_double_accuracy true hp rfl rfl (C49_bundled _ Ex.sym1_mem (by decide)) hc
  obtain ⟨r, hr⟩ := h1.2 ⟨r0, hr0⟩
  obtain ⟨d, d0, hd, hd0, hle, _⟩ := h2 r r0 hr hr0
  exact ⟨r, r0, hr, hr0, d, d0, hd, hd0, by simpa using hle⟩

example : ∃ r r0, dtw (binary64 true) Ex.plain = .ok r ∧ dtw Arith.exact Ex.plain = .ok r0 ∧ r.distance = r0.distance ∧
    r.mapping = r0.mapping ∧ r.costMatrix = r0.costMatrix := by
  obtain ⟨r0, hr0⟩ := Ex.get_ok Ex.plain_ok
  have hb : ∀ i < 3, ∀ j < 4, Ex.natL i j ≤ 4 := by
    intro i _ j _
    unfold Ex.natL
    omega
  have e := C50_doubles (ℓ := Ex.natL) (C := 4) true Ex.plain_problem (C50_bundled _ Ex.sym2_mem (by decide)) hb
    (by norm_num) (by intro h; exact absurd h (by decide))
  rw [hr0] at e
  exact ⟨_, r0, e, hr0, rfl, rfl, rfl⟩

/-- C50 with both ends open: every 20 × 30 matrix of natural costs below 1000. -/
example (ℓ : Nat → Nat → ℕ) (hC : ∀ i < 20, ∀ j < 30, ℓ i j ≤ 1000) (ob oe : Bool) :
    dtw (binary64 true) { Ex.call 20 30 (fun i j => fin (ℓ i j : ℚ)) "asymmetric" with openBegin := ob, openEnd := oe } =
      (dtw Arith.exact { Ex.call 20 30 (fun i j => fin (ℓ i j : ℚ)) "asymmetric" with openBegin := ob, openEnd := oe }).map
        (roundNorm (binary64 true)) := by
  have hm : ("asymmetric", Pat.asymmetric) ∈ Pat.table := by decide +kernel
  have hp := bundled_problem (n := 20) (m := 30) (by decide) (by decide) (by decide) (fun i j => fin (ℓ i j : ℚ)) _ hm
  refine C50_doubles (n := 20) (m := 30) (W := fun _ _ => true) (p := Pat.asymmetric) (rs := rulesOf Pat.asymmetric)
    true ⟨by decide, by decide, .matrix rfl rfl rfl rfl, hp.pattern, hp.wf, ?_, .inl ⟨rfl, fun _ _ _ _ => rfl⟩⟩
    (C50_bundled _ hm (by decide)) hC (by norm_num) (fun _ => by norm_num)
  cases ob
  · exact hp.fits
  · exact table_fits (n := 21) (m := 30) (by decide) _ hm

/-! ### C51: slopes -/

example : ∃ r mp, dtw Arith.exact (Ex.latCall "symmetricP1") = .ok r ∧ r.mapping = some mp ∧
    ∀ u ∈ mp.index1s.zip mp.index2s, (1 / 2 * (u.1 : ℚ) ≤ u.2 ∧ (u.2 : ℚ) ≤ 2 * u.1) := by
  have hm : ("symmetricP1", Pat.symmetricP1) ∈ Pat.table := by decide +kernel
  obtain ⟨r, hr⟩ := Ex.get_ok (x := dtw Arith.exact (Ex.latCall "symmetricP1")) (by decide +kernel)
  obtain ⟨mp, _, hmp, _⟩ := C03_path_realises_distance (Ex.lat_problem _ hm) rfl rfl hr
  refine ⟨r, mp, hr, hmp, fun u hu => ?_⟩
  exact (C51_parallelogram ((C51_bundled _ hm).2.1 (by decide)).bounds (Ex.lat_problem _ hm) hr hmp rfl rfl u hu).1

/-- Queries more than twice as long as the reference cannot be aligned with `symmetricP1`. -/
example (f : Nat → Nat → F64) :
    dtw Arith.exact (Ex.call 10 5 f "symmetricP1") =
      .error (.valueError "No warping path found compatible with the local constraints") := by
  have hm : ("symmetricP1", Pat.symmetricP1) ∈ Pat.table := by decide +kernel
  exact C51_out_of_bounds_raises ((C51_bundled _ hm).2.1 (by decide)).bounds
    (bundled_problem (by decide) (by decide) (by decide) f _ hm) rfl rfl (.inl (by norm_num))

/-! ### C53–C57 -/

example : ComputesLeast (Ex.latCall "symmetricP2") (fun w => SlopeP2 w ∧ endOf (0, 0) w = (3, 4)) (symmetricCost Ex.lat) :=
  C53_symmetricP2 (Ex.lat_problem ("symmetricP2", Pat.symmetricP2) (by decide +kernel)) rfl rfl

/-- The reference `0,0,2,1,3` is a stretched copy of the query `0,2,1,3`. -/
example : ∃ r, dtw Arith.exact (Ex.latCall "symmetric2") = .ok r ∧ r.distance = fin 0 := by
  refine C54_stretched_copy _ Ex.sym2_mem (by decide) (Ex.lat_problem _ Ex.sym2_mem) rfl rfl
    (C12_bundled_weights _ Ex.sym2_mem (by decide)) (fun _ _ _ _ => Ex.lat_nonneg _ _) (g := fun j => j - 1) rfl rfl ?_ ?_
  · intro j hj
    rcases Nat.eq_zero_or_pos j with rfl | h
    · exact .inl rfl
    · right
      show j + 1 - 1 = j - 1 + 1
      omega
  · have : ∀ j ∈ List.range 5, Ex.lat (j - 1) j = 0 := by decide +kernel
    exact fun j hj => this j (List.mem_range.2 hj)

example : ∃ r d, dtw Arith.exact (Ex.latCall "symmetric1") = .ok r ∧ r.distance = fin d ∧ Ex.lat 0 0 + Ex.lat 3 4 ≤ d := by
  obtain ⟨r, hr⟩ := Ex.get_ok (x := dtw Arith.exact (Ex.latCall "symmetric1")) (by decide +kernel)
  obtain ⟨d, hd, hle⟩ := C55_corner_bound _ Ex.sym1_mem (by decide) (Ex.lat_problem _ Ex.sym1_mem) rfl rfl
    (fun _ _ _ _ => Ex.lat_nonneg _ _) (.inl (by decide)) hr
  exact ⟨r, d, hr, hd, hle⟩

/-- Any series pair of any lengths, read backwards, with `symmetric1`. -/
example (x y : Nat → ℚ) (n m : Nat) (hn : 0 < n) (hm : 0 < m) (hnm : n * m < 2147483648) :
    ∀ r r', dtw Arith.exact (Ex.call n m (fun i j => fin |x i - y j|) "symmetric1") = .ok r →
      dtw Arith.exact (Ex.call n m (fun i j => fin |x (n - 1 - i) - y (m - 1 - j)|) "symmetric1") = .ok r' →
      r'.distance = r.distance :=
  (C56_time_reversal (W := fun _ _ => true) (W' := fun _ _ => true)
    (bundled_problem hn hm hnm (fun i j => fin |x i - y j|) _ Ex.sym1_mem)
    (bundled_problem hn hm hnm (fun i j => fin |x (n - 1 - i) - y (m - 1 - j)|) _ Ex.sym1_mem)
    rfl rfl rfl rfl rfl rfl (fun _ _ _ _ => rfl) (fun _ _ _ _ => rfl)).2

end DTW
