import Verif.Proofs.PatternProof

/-!
# C01-C03, C07-C10, C29, C30: optimality, completeness, recursion, safety
-/

namespace DTW
open F64

variable {A : Arith} {a : Args} {n m : Nat} {L : Nat → Nat → F64} {W : Nat → Nat → Bool}
  {p : StepPattern} {rs : List Rule} {r : Result}

/-- C01.  The distance of a closed-end alignment is the cost of an admissible warping path to the corner,
and no admissible path whose cost is a number is cheaper. -/
theorem C01_distance_optimal (h : Problem a n m L W p rs) (hob : a.openBegin = false)
    (hoe : a.openEnd = false) (hr : dtw A a = .ok r) :
    (∃ ks, WarpPath A rs W L ks (n - 1) (m - 1) r.distance) ∧
    (∀ ks c, WarpPath A rs W L ks (n - 1) (m - 1) c → c ≠ nan → F64.le r.distance c) := by
  obtain ⟨G, D, qr, hB, _, hd⟩ := dtw_closed A h hob
  obtain ⟨j, ks, hrun⟩ := closed_ok h hob hB hd hr
  obtain rfl := hrun.endAt.closed hoe
  have hdist : r.distance = G (n - 1) (m - 1) := by rw [hrun.result]; rfl
  have hn := h.n_pos
  have hm := h.m_pos
  refine ⟨⟨ks, by rw [hdist]; exact hrun.path⟩, ?_⟩
  intro ks' c hp hc
  rw [hdist]
  by_cases hu : usable c
  · exact hB.optimal (hp.toPath h.wf.valid hc) (by omega) (by omega) hu
  · have : c = pinf := by
      by_contra hne; exact hu (usable_iff.2 ⟨hc, hne⟩)
    rw [this]
    exact le_pinf hrun.endAt.ne_nan

example : ∃ r, dtw Arith.exact Ex.band = .ok r ∧
    Problem Ex.band 3 4 Ex.L Ex.bandW Pat.asymmetric (rulesOf Pat.asymmetric) ∧
    Ex.band.openBegin = false ∧ Ex.band.openEnd = false := by
  obtain ⟨r, hr⟩ := Ex.get_ok Ex.band_ok
  exact ⟨r, hr, Ex.band_problem, rfl, rfl⟩

/-- C02.  A closed-end call raises "No warping path found" exactly when no admissible path reaches the
corner at a usable (not NaN, below +inf) cost.  (One degenerate exception: a 1 × 1 matrix whose only entry
is +inf is aligned at distance +inf.)  In the other case it returns. -/
theorem C02_no_path_iff (h : Problem a n m L W p rs) (hob : a.openBegin = false) (hoe : a.openEnd = false) :
    (dtw A a = .error (.valueError "No warping path found compatible with the local constraints") ↔
      (¬ ∃ ks c, WarpPath A rs W L ks (n - 1) (m - 1) c ∧ usable c) ∧
      ¬ (n = 1 ∧ m = 1 ∧ L 0 0 = pinf)) ∧
    ((∃ r, dtw A a = .ok r) ↔
      (∃ ks c, WarpPath A rs W L ks (n - 1) (m - 1) c ∧ usable c) ∨ (n = 1 ∧ m = 1 ∧ L 0 0 = pinf)) := by
  obtain ⟨G, D, qr, hB, _, hd⟩ := dtw_closed A h hob
  have hn := h.n_pos
  have hm := h.m_pos
  have key : G (n - 1) (m - 1) ≠ nan ↔
      (∃ ks c, WarpPath A rs W L ks (n - 1) (m - 1) c ∧ usable c) ∨ (n = 1 ∧ m = 1 ∧ L 0 0 = pinf) := by
    constructor
    · intro hG
      obtain ⟨i0, j0, ks, hp, _⟩ := hB.sound h.wf.valid _ (n - 1) (m - 1) rfl (by omega) (by omega) hG
      by_cases hu : usable (G (n - 1) (m - 1))
      · left; exact ⟨ks, _, hp.toWarpPath.2.2, hu⟩
      · right
        by_cases hS : closedSeed L (n - 1) (m - 1) = nan
        · exact absurd (hB.usable_of_ne_nan (by omega) (by omega) hS hG) hu
        · obtain ⟨h1, h2, _⟩ := closedSeed_ne_nan hS
          have hg := (hB.seeded _ (by omega) _ (by omega) hS).1
          refine ⟨by omega, by omega, ?_⟩
          have e : closedSeed L (n - 1) (m - 1) = L 0 0 := by simp [closedSeed, h1, h2]
          rw [← e, ← hg]
          by_contra hne; exact hu (usable_iff.2 ⟨hG, hne⟩)
    · rintro (⟨ks, c, hp, hu⟩ | ⟨rfl, rfl, hL⟩)
      · exact (hB.optimal (hp.toPath h.wf.valid (usable_ne_nan hu)) (by omega) (by omega) hu).1
      · have hS : closedSeed L 0 0 ≠ nan := by simp [closedSeed, hL]
        have := (hB.seeded 0 (by omega) 0 (by omega) hS).1
        simp only [Nat.sub_self]
        rw [this]; exact hS
  rcases closed_closed h hob hoe hB hd with ⟨hG, he⟩ | ⟨hG, r, hr⟩
  · have hno : ¬ ((∃ ks c, WarpPath A rs W L ks (n - 1) (m - 1) c ∧ usable c) ∨
        (n = 1 ∧ m = 1 ∧ L 0 0 = pinf)) := fun hc => key.2 hc hG
    rw [not_or] at hno
    refine ⟨⟨fun _ => hno, fun _ => he⟩, ⟨?_, ?_⟩⟩
    · rintro ⟨r, hr⟩; rw [he] at hr; simp at hr
    · rintro (hc | hc)
      · exact absurd hc hno.1
      · exact absurd hc hno.2
  · have hyes := key.1 hG
    refine ⟨⟨?_, ?_⟩, ⟨fun _ => hyes, fun _ => ⟨r, hr⟩⟩⟩
    · intro he; rw [he] at hr; simp at hr
    · rintro ⟨h1, h2⟩; rcases hyes with h' | h'
      · exact absurd h' h1
      · exact absurd h' h2

/-- C02, last clause: a returned distance is never NaN (any options). -/
theorem C02_distance_never_nan (h : Problem a n m L W p rs) (hr : dtw A a = .ok r) : r.distance ≠ nan := by
  cases hob : a.openBegin with
  | false =>
    obtain ⟨G, D, qr, hB, _, hd⟩ := dtw_closed A h hob
    obtain ⟨j, ks, hrun⟩ := closed_ok h hob hB hd hr
    rw [hrun.result]; exact hrun.endAt.ne_nan
  | true =>
    by_cases hh : p.hint = "N"
    · obtain ⟨G, D, qr, hB, _, hd⟩ := dtw_open A h hob hh
      obtain ⟨j, j0, ks, hrun⟩ := open_ok h hob hB hd hr
      rw [hrun.result]; exact hrun.endAt.ne_nan
    · exfalso
      obtain ⟨qr, hl, _, _⟩ := localCost_of h.cost
      unfold dtw at hr
      rw [hl, Except_bind_ok] at hr
      simp only at hr
      rw [h.pattern, Except_bind_ok] at hr
      simp [runGCM, hob, hh] at hr

example : Problem Ex.stuck 3 4 Ex.L (fun i j => sakoeChibaVal 0 i j) Pat.symmetric2 (rulesOf Pat.symmetric2) ∧
    (dtw Arith.exact Ex.stuck).toOption.isNone = true := ⟨Ex.stuck_problem, by decide +kernel⟩
example : ∃ r, dtw Arith.exact Ex.plain = .ok r := Ex.get_ok Ex.plain_ok

/-- C03.  `stepsTaken` is an admissible path to the end point whose cost, accumulated operation by operation
in the arithmetic of the machine, is exactly `distance`. -/
theorem C03_path_realises_distance (h : Problem a n m L W p rs) (hob : a.openBegin = false)
    (hfull : a.distanceOnly = false) (hr : dtw A a = .ok r) :
    ∃ (mp : Mapping) (j : Nat), r.mapping = some mp ∧ r.jmin = j ∧
      WarpPath A rs W L mp.stepsTaken (n - 1) j r.distance := by
  obtain ⟨G, D, qr, hB, _, hd⟩ := dtw_closed A h hob
  obtain ⟨j, ks, hrun⟩ := closed_ok h hob hB hd hr
  refine ⟨curve rs 0 0 ks, j, ?_, ?_, ?_⟩
  · rw [hrun.result]; simp [mkResult, hfull]
  · rw [hrun.result]; rfl
  · have : r.distance = G (n - 1) j := by rw [hrun.result]; rfl
    rw [this]; exact hrun.path

example : Ex.band.openBegin = false ∧ Ex.band.distanceOnly = false ∧
    ((dtw Arith.exact Ex.band).toOption.bind (·.mapping)).map (·.stepsTaken) = some [2, 3] := by
  decide +kernel

/-- C07 / C08.  With keep_internals the result carries an `n × m` cost matrix and direction matrix such
that: the corner `(0,0)` holds its local cost and direction NA; out-of-window cells hold NaN and NA; every
other cell holds the least usable candidate over the rules, with the number of the first rule attaining it
(NaN and NA if there is none). -/
theorem C07_C08_recursion (h : Problem a n m L W p rs) (hob : a.openBegin = false)
    (hki : a.keepInternals = true) (hr : dtw A a = .ok r) :
    ∃ (G : Nat → Nat → F64) (D : Nat → Nat → Int),
      r.costMatrix = some (Mat.ofFn n m G) ∧ r.directionMatrix = some (Mat.ofFn n m D) ∧
      r.localCostMatrix = some (Mat.ofFn n m L) ∧
      (G 0 0 = L 0 0 ∧ D 0 0 = -2147483648) ∧
      (∀ i < n, ∀ j < m, ¬ (i = 0 ∧ j = 0) → W i j = false → G i j = nan ∧ D i j = -2147483648) ∧
      (∀ i < n, ∀ j < m, ¬ (i = 0 ∧ j = 0) → W i j = true →
        IsBest (rs.map (cand A L G i j)) (G i j) (D i j)) := by
  obtain ⟨G, D, qr, hB, _, hd⟩ := dtw_closed A h hob
  obtain ⟨j, ks, hrun⟩ := closed_ok h hob hB hd hr
  have hn := h.n_pos
  have hm := h.m_pos
  have hL : L 0 0 ≠ nan := (closedSeed_ne_nan (hrun.trace.seed_ne_nan)).2.2
  have hs := hB.seeded 0 hn 0 hm (by simpa [closedSeed] using hL)
  refine ⟨G, D, ?_, ?_, ?_, ?_, ?_, ?_⟩
  · rw [hrun.result]; simp [mkResult, hki, hob]
  · rw [hrun.result]; simp [mkResult, hki, hob]
  · rw [hrun.result]; simp [mkResult, hki, hob]
  · simpa [closedSeed, intMin] using hs
  · intro i hi j hj h0 hW
    exact hB.outside i hi j hj (closedSeed_eq_nan (by omega)) hW
  · intro i hi j hj h0 hW
    exact hB.inside i hi j hj (closedSeed_eq_nan (by omega)) hW

/-- C08, NA part: a direction is NA exactly on the start, on out-of-window cells and on cells without
usable candidate, i.e. exactly where the cumulative cost is NaN or at the start. -/
theorem C08_direction_na (h : Problem a n m L W p rs) (hob : a.openBegin = false)
    (hki : a.keepInternals = true) (hr : dtw A a = .ok r) :
    ∃ (G : Nat → Nat → F64) (D : Nat → Nat → Int),
      r.costMatrix = some (Mat.ofFn n m G) ∧ r.directionMatrix = some (Mat.ofFn n m D) ∧
      ∀ i < n, ∀ j < m,
        (D i j = -2147483648 ↔ (i = 0 ∧ j = 0) ∨ G i j = nan) ∧
        (D i j ≠ -2147483648 → 1 ≤ D i j ∧ D i j ≤ rs.length) := by
  obtain ⟨G, D, h1, h2, _, h3, h4, h5⟩ := C07_C08_recursion h hob hki hr
  refine ⟨G, D, h1, h2, ?_⟩
  intro i hi j hj
  by_cases h0 : i = 0 ∧ j = 0
  · obtain ⟨rfl, rfl⟩ := h0
    exact ⟨⟨fun _ => .inl ⟨rfl, rfl⟩, fun _ => h3.2⟩, fun hne => absurd h3.2 hne⟩
  · cases hW : W i j with
    | false =>
      have := h4 i hi j hj h0 hW
      exact ⟨⟨fun _ => .inr this.1, fun _ => this.2⟩, fun hne => absurd this.2 hne⟩
    | true =>
      rcases h5 i hi j hj h0 hW with ⟨k, a1, a2, a3, _, _⟩ | ⟨_, a2, a3⟩
      · have hk : k < rs.length := by
          rw [List.getElem?_eq_some_iff] at a1; simpa using a1.1
        refine ⟨⟨fun hc => by omega, ?_⟩, fun _ => by omega⟩
        rintro (hc | hc)
        · exact absurd hc h0
        · exact absurd hc (usable_ne_nan a3)
      · exact ⟨⟨fun _ => .inr a2, fun _ => a3⟩, fun hne => absurd a3 hne⟩

example : Ex.band.openBegin = false ∧ Ex.band.keepInternals = true ∧
    (dtw Arith.exact Ex.band).toOption.isSome = true ∧
    ((dtw Arith.exact Ex.band).toOption.bind (·.directionMatrix)).map (·.data) =
      some [-2147483648, -2147483648, -2147483648, -2147483648,
            1, 2, 3, -2147483648,
            -2147483648, 1, 2, 3] := by decide +kernel

/-- C09.  Every cell of the cost matrix is the least cost of a partial path from `(0,0)` to it, and NaN
iff no such path has a usable cost. -/
theorem C09_every_cell_optimal (h : Problem a n m L W p rs) (hob : a.openBegin = false)
    (hki : a.keepInternals = true) (hr : dtw A a = .ok r) :
    ∃ G : Nat → Nat → F64, r.costMatrix = some (Mat.ofFn n m G) ∧ ∀ i < n, ∀ j < m,
      (G i j ≠ nan → ∃ ks, WarpPath A rs W L ks i j (G i j)) ∧
      (∀ ks c, WarpPath A rs W L ks i j c → usable c → F64.le (G i j) c) := by
  obtain ⟨G, D, qr, hB, _, hd⟩ := dtw_closed A h hob
  obtain ⟨j, ks, hrun⟩ := closed_ok h hob hB hd hr
  refine ⟨G, by rw [hrun.result]; simp [mkResult, hki, hob], ?_⟩
  intro i hi j hj
  refine ⟨?_, ?_⟩
  · intro hG
    obtain ⟨i0, j0, ks, hp, _⟩ := hB.sound h.wf.valid _ i j rfl hi hj hG
    exact ⟨ks, hp.toWarpPath.2.2⟩
  · intro ks c hp hu
    exact hB.optimal (hp.toPath h.wf.valid (usable_ne_nan hu)) hi hj hu

example : ∃ ks, WarpPath Arith.exact (rulesOf Pat.asymmetric) Ex.bandW Ex.L ks 1 2 (fin 3) := by
  have h := WarpPath.step (A := Arith.exact) (rs := rulesOf Pat.asymmetric) (W := Ex.bandW) (L := Ex.L) 2
    ⟨1, 2, [⟨0, 0, 1⟩]⟩ .start (by decide +kernel) (by decide +kernel)
  have e : charge Arith.exact Ex.L ⟨1, 2, [⟨0, 0, 1⟩]⟩ (0 + 1) (0 + 2) (Ex.L 0 0) = fin 3 := by
    decide +kernel
  rw [e] at h
  exact ⟨_, h⟩

/-- C29.  Memory safety: a well-formed call never performs an out-of-bounds access or an integer overflow
in the C kernel (`ub`), never kills the interpreter (`cExit`); in fact every failure is a ValueError, or
the AttributeError of `open_begin` with `distance_only`. -/
theorem C29_no_undefined_behaviour (h : Problem a n m L W p rs) :
    dtw A a ≠ .error .ub ∧ dtw A a ≠ .error .cExit ∧
    (∀ e, dtw A a = .error e → (∃ t, e = .valueError t) ∨
      (e = .attributeError ∧ a.openBegin = true ∧ a.distanceOnly = true)) := by
  have herr := dtw_errors (A := A) h
  refine ⟨?_, ?_, herr⟩
  · intro hc; rcases herr _ hc with ⟨t, ht⟩ | ⟨ht, _⟩ <;> simp at ht
  · intro hc; rcases herr _ hc with ⟨t, ht⟩ | ⟨ht, _⟩ <;> simp at ht

/-- C29, the notion of safety: in the model of the C kernel every array access outside `0 ≤ k < length` and every `int`
result outside 32 bits is undefined behaviour; inside, a read returns the element and a write changes exactly it. -/
theorem C29_bounds_checked {α : Type} (l : List α) (k : Int) (v : α) :
    (rd l k = .error .ub ↔ ¬ (0 ≤ k ∧ k < l.length)) ∧ (wr l k v = .error .ub ↔ ¬ (0 ≤ k ∧ k < l.length)) ∧
    (∀ x, rd l k = .ok x ↔ 0 ≤ k ∧ l[k.toNat]? = some x) ∧
    (∀ l', wr l k v = .ok l' → l' = l.set k.toNat v) ∧
    (i32 k = .error .ub ↔ k < -2147483648 ∨ 2147483647 < k) := by
  refine ⟨?_, ?_, ?_, ?_, ?_⟩
  · unfold rd
    split
    · split
      · rename_i h0 x hx
        have := (List.getElem?_eq_some_iff.1 hx).1
        simp only [reduceCtorEq, false_iff, not_not]
        omega
      · rename_i h0 hx
        have := List.getElem?_eq_none_iff.1 hx
        simp only [true_iff]
        omega
    · simp only [true_iff]; omega
  · unfold wr
    split
    · simp only [reduceCtorEq, false_iff, not_not]; omega
    · simp only [true_iff]; omega
  · intro x
    unfold rd
    split
    · split <;> simp_all
    · rename_i h0; simp [h0]
  · intro l' h
    unfold wr at h
    split at h
    · exact (Except.ok.inj h).symm
    · simp at h
  · unfold i32
    split
    · simp only [reduceCtorEq, false_iff]; omega
    · simp only [true_iff]; omega

/-- C29, overflow: a matrix of 2^31 cells or more is *not* safe, whatever the (well-formed) pattern: the
kernel's loop bound `m*n` overflows the C `int`. -/
theorem C29_overflow_unsafe (hp : WF p rs) (hf : 4 * (encode rs).length < 2147483648)
    (hb : ∀ r ∈ rs, r.a < 2147483648 ∧ r.b < 2147483648) (hbig : 2147483648 ≤ n * m)
    (wm : List Int) (lm cm : List F64) (sm : List Int) :
    computeCM A m n wm lm p.getNRows p.getP cm sm = .error .ub := by
  have hdec := decode_ok p (by rw [hp.rows]; exact hf) (by rw [hp.rows]; exact encode_OK hp.valid hb)
  obtain ⟨last, hl1, hl2⟩ := getLast?_encodeFrom rs 0 hp.ne
  unfold computeCM
  rw [hdec, Except_bind_ok, List.getLast?_map, hp.rows]
  have hl1' : (encode rs).getLast? = some last := hl1
  rw [hl1']
  simp only [Option.map_some]
  have hle : rs.length ≤ (encode rs).length := length_encodeFrom rs 0
  have hnp : last.toC.pn + 1 = (rs.length : Int) := by
    simp only; omega
  rw [hnp, i32_ok (by omega) (by omega), Except_bind_ok]
  have e1 : ((n : Int) * (m : Int)) = ((n * m : Nat) : Int) := by push_cast; ring
  rw [e1]
  have : i32 ((n * m : Nat) : Int) = .error .ub := by
    unfold i32; rw [if_neg (by omega)]
  rw [this]
  rfl

/-- C29, ill-formed patterns: any row whose pattern id is not between 1 and the number of rows makes the
kernel call `exit(-1)`, whatever the other arguments (the process dies, no exception is raised). -/
theorem C29_bad_id_exits (q : StepPattern) (h4 : 4 * q.mx.length < 2147483648)
    (hint : ∀ s ∈ q.mx, -2147483647 ≤ s.pid ∧ s.pid ≤ 2147483647 ∧ -2147483648 ≤ s.di ∧
      s.di ≤ 2147483647 ∧ -2147483648 ≤ s.dj ∧ s.dj ≤ 2147483647)
    (hbad : ∃ s ∈ q.mx, s.pid < 1 ∨ (q.mx.length : Int) < s.pid)
    (wm : List Int) (lm cm : List F64) (sm : List Int) :
    computeCM A m n wm lm q.getNRows q.getP cm sm = .error .cExit := by
  unfold computeCM
  rw [decode_exit q h4 hint hbad]
  rfl

example : ∃ s ∈ (⟨[⟨1, 1, 1, -1⟩, ⟨3, 0, 0, 1⟩], "NA"⟩ : StepPattern).mx, s.pid < 1 ∨ (2 : Int) < s.pid :=
  ⟨_, List.mem_cons_of_mem _ (List.mem_cons_self ..), by decide⟩

/-- C29, ill-formed patterns: rules in the wrong order make the kernel write out of bounds (the number of
rules is taken from the last row). -/
theorem C29_misordered_rules_overflow :
    computeCM A 2 2 [1, 1, 1, 1] [fin 1, fin 1, fin 1, fin 1] 4
      (StepPattern.getP ⟨[⟨2, 1, 1, -1⟩, ⟨2, 0, 0, 1⟩, ⟨1, 1, 0, -1⟩, ⟨1, 0, 0, 1⟩], "NA"⟩)
      [fin 1, nan, nan, nan] [0, 0, 0, 0] = .error .ub := by
  rfl

/-- C30.  Backtracking ends: a well-formed call never diverges (nor fails inside the backtracking loop),
and the path of a closed-begin call has at most `N + M - 2` steps. -/
theorem C30_backtrack_terminates (h : Problem a n m L W p rs) :
    dtw A a ≠ .error .diverges ∧ dtw A a ≠ .error .keyError ∧ dtw A a ≠ .error .unboundLocal ∧
    dtw A a ≠ .error .indexError ∧
    (∀ r mp, a.openBegin = false → dtw A a = .ok r → r.mapping = some mp →
      mp.stepsTaken.length + 2 ≤ n + m) := by
  have herr := dtw_errors (A := A) h
  refine ⟨?_, ?_, ?_, ?_, ?_⟩
  · intro hc; rcases herr _ hc with ⟨t, ht⟩ | ⟨ht, _⟩ <;> simp at ht
  · intro hc; rcases herr _ hc with ⟨t, ht⟩ | ⟨ht, _⟩ <;> simp at ht
  · intro hc; rcases herr _ hc with ⟨t, ht⟩ | ⟨ht, _⟩ <;> simp at ht
  · intro hc; rcases herr _ hc with ⟨t, ht⟩ | ⟨ht, _⟩ <;> simp at ht
  · intro r mp hob hr hmp
    obtain ⟨G, D, qr, hB, _, hd⟩ := dtw_closed A h hob
    obtain ⟨j, ks, hrun⟩ := closed_ok h hob hB hd hr
    have hlen := hrun.trace.length_le h.wf.valid
    have hj := hrun.endAt.lt
    have hn := h.n_pos
    rw [hrun.result] at hmp
    simp only [mkResult] at hmp
    cases hdo : a.distanceOnly with
    | true => rw [hdo] at hmp; simp at hmp
    | false =>
      rw [hdo] at hmp
      simp only [Bool.false_eq_true, if_false, Option.some.injEq] at hmp
      rw [← hmp]
      simp only [curve]
      omega

example : Problem Ex.openBoth 3 4 Ex.openL (fun _ _ => true) Pat.asymmetric (rulesOf Pat.asymmetric) ∧
    (dtw Arith.exact Ex.openBoth).toOption.isSome = true := ⟨Ex.openBoth_problem, Ex.openBoth_ok⟩

end DTW
