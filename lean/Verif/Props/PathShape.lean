import Verif.Proofs.OnePer

/-!
# C04-C06, C10, C27, C28, C43: the shape of the warping curve (closed begin)
-/

namespace DTW
open F64

variable {A : Arith} {a : Args} {n m : Nat} {L : Nat → Nat → F64} {W : Nat → Nat → Bool}
  {p : StepPattern} {rs : List Rule} {r : Result} {mp : Mapping}

/-- C04.  Both descriptions of the curve start at `(0,0)` and end at `(N-1, jmin)`; `jmin = M-1` unless
open_end; `0 ≤ jmin < M` always. -/
theorem C04_end_points (h : Problem a n m L W p rs) (hob : a.openBegin = false) (hr : dtw A a = .ok r)
    (hmp : r.mapping = some mp) :
    (0 ≤ r.jmin ∧ r.jmin < m ∧ (a.openEnd = false → r.jmin = (m : Int) - 1)) ∧
    mp.index1.head? = some 0 ∧ mp.index2.head? = some 0 ∧
    mp.index1s.head? = some 0 ∧ mp.index2s.head? = some 0 ∧
    mp.index1.getLast? = some ((n : Int) - 1) ∧ mp.index2.getLast? = some r.jmin ∧
    mp.index1s.getLast? = some ((n : Int) - 1) ∧ mp.index2s.getLast? = some r.jmin := by
  obtain ⟨j, ks, hj, hlt, hcl, rfl, hp⟩ := closed_mapping h hob hr hmp
  have hn := h.n_pos
  have hm := h.m_pos
  have hw := hp.toWalk
  have hfe := hw.fine_end
  obtain ⟨pts, hce, _⟩ := hw.coarse_end
  have hch := coarse_head rs 0 0 ks
  have en : ((n - 1 : Nat) : Int) = (n : Int) - 1 := by omega
  rw [en] at hfe hce
  simp only [Nat.cast_zero] at hfe hce
  refine ⟨⟨by omega, by omega, fun ho => by have := hcl ho; omega⟩, ?_⟩
  simp only [curve, List.head?_map, List.getLast?_map, hfe, hch, hj]
  rw [hce]
  simp [fine]

example : ((dtw Arith.exact Ex.band).toOption.bind (·.mapping)).map (fun mp => (mp.index1, mp.index2)) =
    some ([0, 1, 2], [0, 1, 3]) := by decide +kernel

/-- C05.  The two index vectors have the same length, are non-decreasing (for patterns that list the
intermediate points of a rule in walking order, as all bundled ones do: `C05_bundled_ordered`) and stay in
range; the corner vectors too, whatever the pattern, and consecutive corner points differ. -/
theorem C05_monotone_in_range (h : Problem a n m L W p rs) (hob : a.openBegin = false)
    (hr : dtw A a = .ok r) (hmp : r.mapping = some mp) :
    mp.index1.length = mp.index2.length ∧ mp.index1s.length = mp.index2s.length ∧
    (∀ x ∈ mp.index1, 0 ≤ x ∧ x < n) ∧ (∀ x ∈ mp.index2, 0 ≤ x ∧ x < m) ∧
    (∀ x ∈ mp.index1s, 0 ≤ x ∧ x < n) ∧ (∀ x ∈ mp.index2s, 0 ≤ x ∧ x < m) ∧
    ((∀ q ∈ rs, q.Ordered) → mp.index1.Pairwise (· ≤ ·) ∧ mp.index2.Pairwise (· ≤ ·)) ∧
    mp.index1s.Pairwise (· ≤ ·) ∧ mp.index2s.Pairwise (· ≤ ·) ∧
    (mp.index1s.zip mp.index2s).IsChain (· ≠ ·) := by
  obtain ⟨j, ks, hj, hlt, hcl, rfl, hp⟩ := closed_mapping h hob hr hmp
  have hn := h.n_pos
  have hw := hp.toWalk
  have hfr := hw.fine_range h.wf.valid
  have hcr := hw.coarse_range h.wf.valid
  simp only [Nat.cast_zero] at hfr hcr
  have hcc := coarse_chain (rs := rs) (fun x y => 0 ≤ x ∧ 0 ≤ y ∧ 0 < x + y)
    (fun r hr => by have := (h.wf.valid r hr).1; omega) ks 0 0
  have hcp := pairwise_of_chain (hcc.imp fun u v huv => ⟨huv.1, huv.2.1⟩)
  refine ⟨by simp [curve], by simp [curve], ?_, ?_, ?_, ?_, ?_, hcp.1, hcp.2, ?_⟩
  · intro x hx
    simp only [curve, List.mem_map] at hx
    obtain ⟨u, hu, rfl⟩ := hx
    have := hfr u hu; omega
  · intro x hx
    simp only [curve, List.mem_map] at hx
    obtain ⟨u, hu, rfl⟩ := hx
    have := hfr u hu; omega
  · intro x hx
    simp only [curve, List.mem_map] at hx
    obtain ⟨u, hu, rfl⟩ := hx
    have := hcr u hu; omega
  · intro x hx
    simp only [curve, List.mem_map] at hx
    obtain ⟨u, hu, rfl⟩ := hx
    have := hcr u hu; omega
  · intro ho
    exact pairwise_of_chain (fine_chain _ ho ks 0 0)
  · simp only [curve]
    rw [zip_fst_snd]
    refine hcc.imp ?_
    rintro u v huv rfl
    omega

/-- C05: every bundled pattern is ordered in that sense. -/
theorem C05_bundled_ordered (q : String × StepPattern) (hq : q ∈ Pat.table) :
    WF q.2 (rulesOf q.2) ∧ ∀ r ∈ rulesOf q.2, r.Ordered :=
  ⟨table_wf q hq, table_ordered q hq⟩

/-- C05, negative witness: a user pattern whose rule lists its intermediate points backwards gives a curve
that is not monotone. -/
theorem C05_unordered_pattern_not_monotone :
    ((dtw Arith.exact { x := .d2 (Mat.ofFn 3 3 Ex.L)
                        stepPattern := .obj ⟨encode [⟨2, 2, [⟨0, 1, 1⟩, ⟨1, 1, 1⟩, ⟨0, 0, 1⟩]⟩], "NA"⟩ }
      ).toOption.bind (·.mapping)).map (fun mp => (mp.index1, mp.index2)) =
    some ([0, 2, 1, 2], [0, 1, 1, 2]) := by decide +kernel

/-- C06.  `stepsTaken` is a list of 1-based rule numbers; the `t`-th and `t+1`-st corner points differ by
the deltas of the `t`-th rule taken; the full curve is, point for point, the concatenation of the start and
of the points each rule visits between two corners; so the corners are a sublist of it. -/
theorem C06_same_rule_sequence (h : Problem a n m L W p rs) (hob : a.openBegin = false)
    (hr : dtw A a = .ok r) (hmp : r.mapping = some mp) :
    (∀ k ∈ mp.stepsTaken, 1 ≤ k ∧ k ≤ rs.length) ∧
    mp.index1s.length = mp.stepsTaken.length + 1 ∧
    (∀ t (k : Int) (u v : Int × Int), mp.stepsTaken[t]? = some k →
      (mp.index1s.zip mp.index2s)[t]? = some u → (mp.index1s.zip mp.index2s)[t + 1]? = some v →
      ∃ (q : Nat) (r : Rule), k = (q : Int) + 1 ∧ rs[q]? = some r ∧ v = (u.1 + r.a, u.2 + r.b)) ∧
    mp.index1.zip mp.index2 = fine rs 0 0 mp.stepsTaken ∧
    (mp.index1s.zip mp.index2s).Sublist (mp.index1.zip mp.index2) := by
  obtain ⟨j, ks, hj, hlt, hcl, rfl, hp⟩ := closed_mapping h hob hr hmp
  have hleg := hp.toWalk.legal
  refine ⟨?_, ?_, ?_, ?_, ?_⟩
  · intro k hk
    obtain ⟨q, r, rfl, hq⟩ := hleg k hk
    have := (List.getElem?_eq_some_iff.1 hq).1
    omega
  · simp only [curve, List.length_map]; exact coarse_length ks 0 0 hleg
  · simp only [curve]; rw [zip_fst_snd]; exact coarse_deltas ks 0 0 hleg
  · simp only [curve]; rw [zip_fst_snd]
  · simp only [curve]; rw [zip_fst_snd, zip_fst_snd]; exact coarse_sublist ks 0 0

/-- A multi-step pattern: `dtw(L, step_pattern="symmetricP05")` on a 3 × 4 matrix. -/
example : ((dtw Arith.exact { Ex.plain with stepPattern := .name "symmetricP05" }).toOption.bind
      (·.mapping)).map (fun mp => (mp.stepsTaken, mp.index1s, mp.index2s, mp.index1, mp.index2)) =
    some ([3, 2], [0, 1, 2], [0, 1, 3], [0, 1, 2, 2], [0, 1, 2, 3]) := by decide +kernel

/-- C10.  Every corner point of the curve but the first lies inside the window. -/
theorem C10_window_respected (h : Problem a n m L W p rs) (hob : a.openBegin = false)
    (hr : dtw A a = .ok r) (hmp : r.mapping = some mp) :
    ∀ u ∈ (mp.index1s.zip mp.index2s).tail,
      ∃ i j : Nat, u = ((i : Int), (j : Int)) ∧ i < n ∧ j < m ∧ W i j = true := by
  have hrange := (C05_monotone_in_range h hob hr hmp)
  obtain ⟨j, ks, hj, hlt, hcl, rfl, hp⟩ := closed_mapping h hob hr hmp
  intro u hu
  have hcr := hp.toWalk.coarse_range h.wf.valid
  have hn := h.n_pos
  simp only [curve] at hu
  rw [zip_fst_snd] at hu
  obtain ⟨i', j', rfl, hW⟩ := hp.toRulePath.window u hu
  have := hcr _ (List.mem_of_mem_tail hu)
  simp only at this
  exact ⟨i', j', rfl, by omega, by omega, hW⟩

/-- C10, negative witness: the intermediate points of a multi-step rule are not checked.  With symmetricP1
on a 2 × 3 matrix and a window that excludes reference element 1, the curve runs through `(1,1)`. -/
theorem C10_intermediate_points_unchecked :
    ((dtw Arith.exact { x := .d2 (Mat.ofFn 2 3 fun _ _ => fin 1), stepPattern := .name "symmetricP1"
                        windowType := .fn (.user fun _ _ j _ _ => .ok (decide (j ≠ 1))) }).toOption.bind (·.mapping)).map
      (fun mp => (mp.index1.zip mp.index2, mp.index1s.zip mp.index2s)) =
    some ([(0, 0), (1, 1), (1, 2)], [(0, 0), (1, 2)]) := by decide +kernel

/-- C10, for the bundled single-step patterns (`symmetric1`, `symmetric2`, `asymmetric`, `rigid`, mvm …)
whose rules charge only the arrival cell, the full curve is the corner curve, so every point but the first
lies inside the window. -/
theorem C10_single_step_patterns (h : Problem a n m L W p rs) (hob : a.openBegin = false)
    (hone : ∀ q ∈ rs, ∀ t ∈ q.terms, t.di = 0 ∧ t.dj = 0)
    (hr : dtw A a = .ok r) (hmp : r.mapping = some mp) :
    mp.index1 = mp.index1s ∧ mp.index2 = mp.index2s := by
  obtain ⟨j, ks, hj, hlt, hcl, rfl, hp⟩ := closed_mapping h hob hr hmp
  have key : ∀ (ks : List Int) (i j : Int), coarse rs i j ks = fine rs i j ks := by
    intro ks
    induction ks with
    | nil => intro i j; rfl
    | cons k ks ih =>
      intro i j
      cases hq : rs[(k - 1).toNat]? with
      | none => unfold fine; rw [fineTail, coarse, hq]
      | some q =>
        obtain ⟨X, hX, hf⟩ := fine_cons (rs := rs) (ks := ks) (i := i) (j := j) hq
        rw [hf, coarse, hq]
        have hX0 : X = [] := by
          have hqq := hone q (List.mem_of_getElem? hq)
          have : (q.terms.filter fun t => t.di ≠ 0 ∨ t.dj ≠ 0) = [] := by
            rw [List.filter_eq_nil_iff]
            intro t ht
            have := hqq t ht
            simp [this.1, this.2]
          unfold Rule.fine at hX
          rw [this] at hX
          have := congrArg List.length hX
          simp at this
          exact this
        simp only
        rw [hX0, ih]; rfl
  simp only [curve, key, and_self]

example : ∀ s ∈ ["symmetric1", "symmetric2", "asymmetric", "rigid", "symmetricP0", "asymmetricP0"],
    ∃ p, canonPattern (.name s) = .ok p ∧ ∀ q ∈ rulesOf p, ∀ t ∈ q.terms, t.di = 0 ∧ t.dj = 0 := by
  intro s hs
  simp only [List.mem_cons, List.not_mem_nil, or_false] at hs
  rcases hs with rfl | rfl | rfl | rfl | rfl | rfl <;> exact ⟨_, rfl, by decide +kernel⟩

/-- C28.  If the rules advance by unit steps, the curve skips nothing: consecutive points differ by 0 or 1
in each coordinate, not both 0, and every query index, and every reference index up to `jmin`, is
matched. -/
theorem C28_continuous_curve (h : Problem a n m L W p rs) (hob : a.openBegin = false)
    (hc : ∀ q ∈ rs, q.Continuous) (hr : dtw A a = .ok r) (hmp : r.mapping = some mp) :
    ((mp.index1.zip mp.index2).IsChain fun u v =>
      (v.1 = u.1 ∨ v.1 = u.1 + 1) ∧ (v.2 = u.2 ∨ v.2 = u.2 + 1) ∧ v ≠ u) ∧
    (∀ x : Int, 0 ≤ x → x < n → x ∈ mp.index1) ∧ (∀ x : Int, 0 ≤ x → x ≤ r.jmin → x ∈ mp.index2) := by
  have hend := C04_end_points h hob hr hmp
  obtain ⟨j, ks, hj, hlt, hcl, rfl, hp⟩ := closed_mapping h hob hr hmp
  have hch := fine_chain _ hc ks 0 0
  obtain ⟨_, h1, h2, _, _, h3, h4, _, _⟩ := hend
  refine ⟨?_, ?_, ?_⟩
  · simp only [curve]; rw [zip_fst_snd]
    refine hch.imp ?_
    intro u v huv
    refine ⟨by omega, by omega, ?_⟩
    rintro rfl
    omega
  · intro x hx hx'
    refine covers_of_chain _ 0 _ h1 h3 ?_ x hx (by omega)
    simp only [curve]
    rw [List.isChain_map]
    exact hch.imp fun u v huv => by omega
  · intro x hx hx'
    refine covers_of_chain _ 0 _ h2 h4 ?_ x hx (by omega)
    simp only [curve]
    rw [List.isChain_map]
    exact hch.imp fun u v huv => by omega

/-- The names of the bundled patterns that skip nothing. -/
def continuousNames : List String :=
  ["symmetric1", "symmetric2", "_symmetricVelichkoZagoruyko", "symmetricP0", "symmetricP05", "symmetricP1",
   "symmetricP2", "asymmetricP0", "_asymmetricP0b", "asymmetricP05", "asymmetricP1", "asymmetricP2",
   "typeIa", "typeIb", "typeIc", "typeId", "typeIas", "typeIbs", "typeIcs", "typeIds", "mori2006", "rigid"]

theorem C28_bundled (s : String) (hs : s ∈ continuousNames) :
    ∃ p, canonPattern (.name s) = .ok p ∧ WF p (rulesOf p) ∧ ∀ q ∈ rulesOf p, q.Continuous := by
  have key : (continuousNames.all fun s => match Pat.table.lookup s with
    | some p => wfCheck p (rulesOf p) && (rulesOf p).all fun q => decide q.Continuous
    | none => false) = true := by decide +kernel
  have := List.all_eq_true.1 key s hs
  cases hp : Pat.table.lookup s with
  | none => rw [hp] at this; simp at this
  | some p =>
    rw [hp] at this
    simp only [Bool.and_eq_true, List.all_eq_true, decide_eq_true_eq] at this
    exact ⟨p, by simp [canonPattern, hp], wf_of_check this.1, this.2⟩

/-! ### asymmetric, minimum variance matching: one reference element per query element -/

/-- C27, first half.  With `asymmetric`, `index1` is `0,1,…,N-1` and `index2` advances by 0, 1 or 2. -/
theorem C27_asymmetric_matches_once (h : Problem a n m L W Pat.asymmetric (rulesOf Pat.asymmetric))
    (hob : a.openBegin = false) (hr : dtw A a = .ok r) (hmp : r.mapping = some mp) :
    mp.index1 = (List.range n).map (fun (x : Nat) => (x : Int)) ∧
    (mp.index2.IsChain fun u v => v = u ∨ v = u + 1 ∨ v = u + 2) := by
  obtain ⟨j, ks, hj, hlt, hcl, rfl, hp⟩ := closed_mapping h hob hr hmp
  have h1 : ∀ r ∈ rulesOf Pat.asymmetric, r.OnePer := by unfold Rule.OnePer; decide +kernel
  have h2 : ∀ r ∈ rulesOf Pat.asymmetric, r.b = 0 ∨ r.b = 1 ∨ r.b = 2 := by decide +kernel
  have hn := h.n_pos
  constructor
  · have := hp.toWalk.onePer_index h1 rfl
    rw [show n - 1 + 1 = n by omega] at this
    exact this
  · exact (Walk.onePer_chain (fun x => x = 0 ∨ x = 1 ∨ x = 2) h1
      (fun r hr => by have := h2 r hr; omega) ks 0 0).imp fun u v huv => by omega

theorem asymmetric_reach {i : Nat} : ∀ {j : Nat}, j ≤ 2 * i →
    ∃ ks, RulePath (rulesOf Pat.asymmetric) (fun _ _ => true) ks i j := by
  have e : rulesOf Pat.asymmetric = [⟨1, 0, [⟨0, 0, 1⟩]⟩, ⟨1, 1, [⟨0, 0, 1⟩]⟩, ⟨1, 2, [⟨0, 0, 1⟩]⟩] := by
    decide +kernel
  rw [e]
  induction i with
  | zero => intro j hj; obtain rfl : j = 0 := by omega
            exact ⟨[], .start⟩
  | succ i ih =>
    intro j hj
    by_cases h2 : 2 ≤ j
    · obtain ⟨ks, hk⟩ := ih (j := j - 2) (by omega)
      have := RulePath.step 2 _ hk rfl rfl
      rw [show j - 2 + 2 = j by omega] at this
      exact ⟨_, this⟩
    · by_cases h1 : j = 1
      · obtain ⟨ks, hk⟩ := ih (j := 0) (by omega)
        subst h1
        exact ⟨_, RulePath.step 1 _ hk rfl rfl⟩
      · obtain rfl : j = 0 := by omega
        obtain ⟨ks, hk⟩ := ih (j := 0) (by omega)
        exact ⟨_, RulePath.step 0 _ hk rfl rfl⟩

/-- C27, second half.  With finite local costs (exact arithmetic) and no window, a closed-end `asymmetric`
alignment exists iff `M - 1 ≤ 2 (N - 1)`. -/
theorem C27_asymmetric_exists_iff {ℓ : Nat → Nat → ℚ}
    (h : Problem a n m (fun i j => fin (ℓ i j)) (fun _ _ => true) Pat.asymmetric (rulesOf Pat.asymmetric))
    (hob : a.openBegin = false) (hoe : a.openEnd = false) :
    (∃ r, dtw Arith.exact a = .ok r) ↔ m - 1 ≤ 2 * (n - 1) := by
  rw [exact_success_iff h hob hoe]
  constructor
  · rintro ⟨ks, hp⟩
    have h2 : ∀ r ∈ rulesOf Pat.asymmetric, r.b ≤ 2 * r.a := by decide +kernel
    clear h
    generalize n - 1 = i at hp ⊢
    generalize m - 1 = j at hp ⊢
    induction hp with
    | start => omega
    | step k r _ hr _ ih => have := h2 r (List.mem_of_getElem? hr); omega
  · exact asymmetric_reach

example : Problem { Ex.band with windowType := .none, windowArgs := [] } 3 4 Ex.L (fun _ _ => true)
    Pat.asymmetric (rulesOf Pat.asymmetric) :=
  { n_pos := by decide, m_pos := by decide, cost := .matrix rfl rfl rfl rfl
    pattern := Ex.band_problem.pattern, wf := Ex.band_problem.wf, fits := Ex.band_problem.fits
    window := .inl ⟨rfl, fun _ _ _ _ => rfl⟩ }

/-- C43.  With `mvmStepPattern(e)` every query element is matched exactly once, `index2` is strictly
increasing with jumps of at most `e`, and (finite costs, exact arithmetic) the distance is the plain sum
of the matched local costs. -/
theorem C43_mvm {e : Nat} (h : Problem a n m L W (mvmStepPattern e) (mvmRules e))
    (hob : a.openBegin = false) (hr : dtw A a = .ok r) (hmp : r.mapping = some mp) :
    mp.index1 = (List.range n).map (fun (x : Nat) => (x : Int)) ∧
    (mp.index2.IsChain fun u v => u < v ∧ v ≤ u + (e : Int)) ∧
    (∀ ℓ : Nat → Nat → ℚ, A = Arith.exact → L = (fun i j => fin (ℓ i j)) →
      r.distance = fin (((mp.index1.zip mp.index2).map fun u => ℓ u.1.toNat u.2.toNat).sum)) := by
  obtain ⟨j, ks, hj, hlt, hcl, rfl, hp⟩ := closed_mapping h hob hr hmp
  have hr1 : ∀ r ∈ mvmRules e, r.OnePer ∧ 0 < r.b ∧ r.b ≤ e := by
    intro r hr
    simp only [mvmRules, List.mem_map, List.mem_range] at hr
    obtain ⟨k, hk, rfl⟩ := hr
    exact ⟨⟨rfl, rfl⟩, by simp, hk⟩
  have h1 : ∀ r ∈ mvmRules e, r.OnePer := fun r hr => (hr1 r hr).1
  have hn := h.n_pos
  refine ⟨?_, ?_, ?_⟩
  · have := hp.toWalk.onePer_index h1 rfl
    rw [show n - 1 + 1 = n by omega] at this
    exact this
  · exact (Walk.onePer_chain (fun x => 0 < x ∧ x ≤ (e : Int)) h1
      (fun r hr => by have := hr1 r hr; omega) ks 0 0).imp fun u v huv => by omega
  · rintro ℓ rfl rfl
    simp only [curve]
    rw [zip_fst_snd]
    exact hp.onePer_cost h1

/-- `mvmStepPattern(e)` is a legitimate pattern for every `e ≥ 1` (so the hypotheses of `C43_mvm` are met
by every such call that fits the C `int`). -/
theorem C43_mvm_wf {e : Nat} (he : 0 < e) : WF (mvmStepPattern e) (mvmRules e) := mvm_wf he

example : ((dtw Arith.exact { x := .d2 (Mat.ofFn 3 6 Ex.L), stepPattern := .obj (mvmStepPattern 4)
                              openEnd := true }).toOption.bind fun r => r.mapping.map fun mp =>
      (r.distance, mp.index1, mp.index2)) = some (fin 0, [0, 1, 2], [0, 1, 2]) := by decide +kernel

end DTW
