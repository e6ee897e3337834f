import Verif.Props.OpenBegin
import Verif.Props.Patterns
import Verif.Props.Options2
import Verif.Props.TextLayout

/-!
# C61: the size of an alignment

How many matched pairs an alignment object can hold: what a user needs to allocate for, or to bound the
work done by, `warp`, `warpArea` and the plots.  No pair is listed twice, the full curve has at most
`N + M - 1` points (at most `N + jmin` with open end), there are at most `N + M - 2` steps, and a
continuous pattern gives at least `max(N, jmin + 1)` points.
-/

namespace DTW
open F64

variable {A : Arith} {a : Args} {n m : Nat} {L : Nat → Nat → F64} {W : Nat → Nat → Bool}
  {p : StepPattern} {rs : List Rule} {r : Result} {mp : Mapping}

/-- Between two consecutive points that a rule visits, neither index decreases and one increases. -/
def Rule.Strict (r : Rule) : Prop := r.Advances fun di dj => 0 ≤ di ∧ 0 ≤ dj ∧ 0 < di + dj

instance (r : Rule) : Decidable r.Strict := by unfold Rule.Strict Rule.Advances; infer_instance

/-- Points on a list of which each is strictly beyond the one before. -/
abbrev Climbs (l : List (Int × Int)) : Prop :=
  l.IsChain fun u v => 0 ≤ v.1 - u.1 ∧ 0 ≤ v.2 - u.2 ∧ 0 < v.1 - u.1 + (v.2 - u.2)

theorem climbs_length : ∀ (l : List (Int × Int)) (u v : Int × Int), Climbs l → l.head? = some u →
    l.getLast? = some v → (l.length : Int) ≤ v.1 - u.1 + (v.2 - u.2) + 1
  | [], _, _, _, h, _ => by simp at h
  | [x], u, v, _, h, h' => by
    simp only [List.head?_cons, Option.some.injEq, List.getLast?_singleton] at h h'
    subst h; subst h'; simp
  | x :: y :: l, u, v, hc, h, h' => by
    simp only [List.head?_cons, Option.some.injEq] at h
    subst h
    rw [Climbs, List.isChain_cons_cons] at hc
    have := climbs_length (y :: l) y v hc.2 rfl (by rw [List.getLast?_cons_cons] at h'; exact h')
    have h1 := hc.1
    simp only [List.length_cons, Nat.cast_add, Nat.cast_one] at this ⊢
    omega

theorem climbs_nodup {l : List (Int × Int)} (hc : Climbs l) : l.Nodup := by
  have ht : l.Pairwise fun u v => u.1 + u.2 < v.1 + v.2 := by
    have hl : l.IsChain fun u v => u.1 + u.2 < v.1 + v.2 := hc.imp fun u v h => by omega
    have : IsTrans (Int × Int) fun u v => u.1 + u.2 < v.1 + v.2 := ⟨fun x y z h1 h2 => lt_trans h1 h2⟩
    exact List.isChain_iff_pairwise.1 hl
  refine ht.imp ?_
  rintro u v h rfl
  omega

theorem gentle_length : ∀ (l : List (Int × Int)) (u v : Int × Int),
    (l.IsChain fun u v => v.1 - u.1 ≤ 1 ∧ v.2 - u.2 ≤ 1) → l.head? = some u →
    l.getLast? = some v → v.1 - u.1 + 1 ≤ (l.length : Int) ∧ v.2 - u.2 + 1 ≤ (l.length : Int)
  | [], _, _, _, h, _ => by simp at h
  | [x], u, v, _, h, h' => by
    simp only [List.head?_cons, Option.some.injEq, List.getLast?_singleton] at h h'
    subst h; subst h'; simp
  | x :: y :: l, u, v, hc, h, h' => by
    simp only [List.head?_cons, Option.some.injEq] at h
    subst h
    rw [List.isChain_cons_cons] at hc
    have := gentle_length (y :: l) y v hc.2 rfl (by rw [List.getLast?_cons_cons] at h'; exact h')
    have h1 := hc.1
    simp only [List.length_cons, Nat.cast_add, Nat.cast_one] at this ⊢
    omega

theorem head_zip {l l' : List Int} {u v : Int} (h : l.head? = some u) (h' : l'.head? = some v) :
    (l.zip l').head? = some (u, v) := by
  cases l <;> cases l' <;> simp_all

/-- The points of the full curve, and where they begin and end. -/
theorem climbs_closed (h : Problem a n m L W p rs) (hob : a.openBegin = false)
    (hs : ∀ q ∈ rs, q.Strict) (hr : dtw A a = .ok r) (hmp : r.mapping = some mp) :
    Climbs (mp.index1.zip mp.index2) ∧ (mp.index1.zip mp.index2).head? = some (0, 0) ∧
    (mp.index1.zip mp.index2).getLast? = some ((n : Int) - 1, r.jmin) := by
  obtain ⟨-, h1, h2, -, -, -, -, -, -⟩ := C04_end_points h hob hr hmp
  obtain ⟨j, ks, hj, hlt, hcl, rfl, hp⟩ := closed_mapping h hob hr hmp
  have hfe := hp.toWalk.fine_end
  have hn := h.n_pos
  have en : ((n - 1 : Nat) : Int) = (n : Int) - 1 := by omega
  refine ⟨?_, head_zip h1 h2, ?_⟩
  · simp only [curve]; rw [zip_fst_snd]; exact fine_chain _ hs ks 0 0
  · simp only [curve]; rw [zip_fst_snd, hj, ← en]; exact hfe

/-- **C61.**  If every rule moves strictly from each point to the next (all bundled patterns:
`C61_bundled`), no matched pair is listed twice and the curve holds at most `N + jmin` points; so at most
`N + M - 1`. -/
theorem C61_at_most (h : Problem a n m L W p rs) (hob : a.openBegin = false)
    (hs : ∀ q ∈ rs, q.Strict) (hr : dtw A a = .ok r) (hmp : r.mapping = some mp) :
    (mp.index1.zip mp.index2).Nodup ∧ mp.index1.length = mp.index2.length ∧
    (mp.index1.length : Int) ≤ n + r.jmin ∧ mp.index1.length ≤ n + m - 1 := by
  obtain ⟨hc, hh, hl⟩ := climbs_closed h hob hs hr hmp
  have hlen := (C05_monotone_in_range h hob hr hmp).1
  have h4 := (C04_end_points h hob hr hmp).1
  have hle := climbs_length _ _ _ hc hh hl
  rw [List.length_zip, ← hlen, Nat.min_self] at hle
  simp only at hle
  exact ⟨climbs_nodup hc, hlen, by omega, by omega⟩

/-- **C61.**  Whatever the pattern, the number of steps is at most `N - 1 + jmin`, and there is one corner
point more. -/
theorem C61_steps (h : Problem a n m L W p rs) (hob : a.openBegin = false)
    (hr : dtw A a = .ok r) (hmp : r.mapping = some mp) :
    (mp.stepsTaken.length : Int) ≤ n - 1 + r.jmin ∧ mp.index1s.length = mp.stepsTaken.length + 1 ∧
    mp.index2s.length = mp.stepsTaken.length + 1 ∧ (mp.index1s.zip mp.index2s).Nodup := by
  have h6 := (C06_same_rule_sequence h hob hr hmp).2.1
  have h5 := (C05_monotone_in_range h hob hr hmp).2.1
  obtain ⟨-, -, -, h3, h4, -, -, -, -⟩ := C04_end_points h hob hr hmp
  obtain ⟨j, ks, hj, hlt, hcl, rfl, hp⟩ := closed_mapping h hob hr hmp
  have hn := h.n_pos
  have hcc : Climbs (coarse rs 0 0 ks) := coarse_chain (rs := rs) (fun x y => 0 ≤ x ∧ 0 ≤ y ∧ 0 < x + y)
    (fun r hr => by have := (h.wf.valid r hr).1; omega) ks 0 0
  obtain ⟨pts, hce, _⟩ := hp.toWalk.coarse_end
  have hle := climbs_length _ _ _ hcc (coarse_head rs 0 0 ks) (by
    simp only [Nat.cast_zero] at hce; rw [hce, List.getLast?_concat])
  have hl : (coarse rs 0 0 ks).length = ks.length + 1 := by
    simpa [curve] using h6
  rw [hl] at hle
  refine ⟨?_, h6, h5 ▸ h6, ?_⟩
  · simp only [curve]; rw [hj]; simp only at hle; omega
  · simp only [curve]; rw [zip_fst_snd]; exact climbs_nodup hcc

/-- **C61.**  With a continuous pattern (`C28_bundled`) the curve holds at least `N` and at least
`jmin + 1` points. -/
theorem C61_at_least (h : Problem a n m L W p rs) (hob : a.openBegin = false)
    (hc : ∀ q ∈ rs, q.Continuous) (hr : dtw A a = .ok r) (hmp : r.mapping = some mp) :
    n ≤ mp.index1.length ∧ r.jmin + 1 ≤ mp.index2.length := by
  have hs : ∀ q ∈ rs, q.Strict := fun q hq => (hc q hq).imp fun u v huv => by omega
  obtain ⟨-, hh, hl⟩ := climbs_closed h hob hs hr hmp
  have hch := (C28_continuous_curve h hob hc hr hmp).1
  have hlen := (C05_monotone_in_range h hob hr hmp).1
  have := gentle_length _ _ _ (hch.imp fun u v huv => by omega) hh hl
  rw [List.length_zip, ← hlen, Nat.min_self] at this
  simp only at this
  omega

/-- **C61**, open begin: if the curve starts with the pair `(i₁, j₁)` it holds at most
`(N - 1 - i₁) + (jmin - j₁) + 1` points, without repetition; in any case at most `N + jmin`. -/
theorem C61_open_begin (h : Problem a n m L W p rs) (hob : a.openBegin = true)
    (hs : ∀ q ∈ rs, q.Strict) (hr : dtw A a = .ok r) (hmp : r.mapping = some mp) :
    (mp.index1.zip mp.index2).Nodup ∧ mp.index1.length = mp.index2.length ∧
    (mp.index1.length : Int) ≤ n + r.jmin ∧ mp.index1.length ≤ n + m - 1 ∧
    (∀ i1 j1 : Int, mp.index1.head? = some i1 → mp.index2.head? = some j1 →
      (mp.index1.length : Int) ≤ (n - 1 - i1) + (r.jmin - j1) + 1) := by
  obtain ⟨mp', j', j0', hmp', hj', _, _, hlen, _, _, hl1, hl2, _⟩ := C22_open_begin_indices h hob hr
  rw [hmp] at hmp'
  cases hmp'
  obtain ⟨j, j0, ks, hj, hlt, rfl, hp⟩ := open_mapping h hob hr hmp
  have hn := h.n_pos
  have hch : Climbs (fine rs (-1) j0 ks) := fine_chain _ hs ks (-1) (j0 : Int)
  have hnd := climbs_nodup hch
  have hz := zip_fst_snd (fineTail rs (-1) j0 ks)
  have hfe := hp.toPath.toWalk.fine_end
  have hle : (((fine rs 0 j0 ks).length : Nat) : Int) ≤ n - 0 + (j - j0) + 1 :=
    climbs_length _ (0, j0) (n, j) (fine_chain _ hs ks 0 (j0 : Int)) rfl (by simpa using hfe)
  have he := congrArg List.length (fineTail_shift rs ks 0 j0)
  rw [dropNull_curve] at hlen hl1 hl2 ⊢
  simp only at hlen hl1 hl2 ⊢
  rw [hz]
  have htl : Climbs (fineTail rs (-1) j0 ks) := hch.tail
  have e : (fineTail rs (-1) (j0 : Int) ks).length + 1 = (fine rs 0 (j0 : Int) ks).length := by
    simp only [fine, List.length_cons, List.length_map, Nat.add_right_cancel_iff] at he ⊢
    simpa using he.symm
  simp only [List.length_map]
  refine ⟨(List.nodup_cons.1 hnd).2, trivial, by omega, by omega, ?_⟩
  intro i1 j1 h1 h2
  have hh := head_zip h1 h2
  rw [hz] at hh
  cases hl : (fineTail rs (-1) (j0 : Int) ks).getLast? with
  | none => rw [List.getLast?_map, hl] at hl1; simp at hl1
  | some v =>
    rw [List.getLast?_map, hl] at hl1 hl2
    simp only [Option.map_some, Option.some.injEq] at hl1 hl2
    have := climbs_length _ _ _ htl hh hl
    simp only at this
    omega

/-- **C61**: all bundled patterns, and all built by `mvmStepPattern`, move strictly. -/
theorem C61_bundled : (∀ q ∈ Pat.table, ∀ r ∈ rulesOf q.2, r.Strict) ∧
    (∀ e, ∀ r ∈ mvmRules e, r.Strict) := by
  constructor
  · have : (Pat.table.all fun q => (rulesOf q.2).all fun r => decide r.Strict) = true := by decide +kernel
    intro q hq r hr
    exact of_decide_eq_true (List.all_eq_true.1 (List.all_eq_true.1 this q hq) r hr)
  · intro e r hr
    simp only [mvmRules, List.mem_map, List.mem_range] at hr
    obtain ⟨k, -, rfl⟩ := hr
    simp [Rule.Strict, Rule.Advances, Rule.offsets]
    omega

/-- **C61**: so do all patterns built by `rabinerJuangStepPattern`. -/
theorem C61_rabinerJuang (t : Int) (ht : 1 ≤ t ∧ t ≤ 7) (s : String) (hs : s ∈ ["a", "b", "c", "d"])
    (sm : Bool) : ∃ p rs, rabinerJuang t s sm = .ok p ∧ WF p rs ∧ ∀ r ∈ rs, r.Strict := by
  have key : ([1, 2, 3, 4, 5, 6, 7].all fun t : Int => ["a", "b", "c", "d"].all fun s =>
    [true, false].all fun sm => match rabinerJuang t s sm with
      | .ok p => wfCheck p (rulesOf p) && (rulesOf p).all (fun r => decide r.Strict)
      | .error _ => false) = true := by decide +kernel
  have hmem : t ∈ ([1, 2, 3, 4, 5, 6, 7] : List Int) := by
    simp only [List.mem_cons, List.not_mem_nil, or_false]; omega
  have h1 := List.all_eq_true.1 (List.all_eq_true.1 (List.all_eq_true.1 key t hmem) s hs) sm
    (by cases sm <;> simp)
  cases hp : rabinerJuang t s sm with
  | error e => rw [hp] at h1; simp at h1
  | ok p =>
    rw [hp] at h1
    simp only [Bool.and_eq_true, List.all_eq_true, decide_eq_true_eq] at h1
    exact ⟨p, rulesOf p, rfl, wf_of_check h1.1, h1.2⟩

/-- **C61**: the text of an alignment object (`repr`, `print`) names the two sizes, whatever the options. -/
theorem C61_repr (h : Problem a n m L W p rs) (hr : dtw A a = .ok r) :
    Read.sizes r.repr = some (n, m) := by
  have hN : r.N = n ∧ r.M = m := by
    cases hob : a.openBegin with
    | false =>
      obtain ⟨G, D, qr, hB, _, hd⟩ := dtw_closed A h hob
      obtain ⟨j, ks, hrun⟩ := closed_ok h hob hB hd hr
      rw [hrun.result]; exact ⟨rfl, rfl⟩
    | true =>
      have hh : p.hint = "N" := by
        by_contra hh; rw [open_bad_hint h hob hh] at hr; simp at hr
      obtain ⟨G, D, qr, hB, _, hd⟩ := dtw_open A h hob hh
      obtain ⟨j, j0, ks, hrun⟩ := open_ok h hob hB hd hr
      rw [hrun.result]; exact ⟨rfl, rfl⟩
  have hne : ∀ k, Nat.toDigits 10 k ≠ [] := fun k => Nat.toDigits_ne_nil
  have e1 := afterPrefix_append "DTW alignment object of size (query x reference): ".toList
    (Nat.toDigits 10 n ++ ([' ', 'x', ' '] ++ Nat.toDigits 10 m))
  have e2 := nat_append (allDigits_toDigits n) (hne n) (rest := [' ', 'x', ' '] ++ Nat.toDigits 10 m)
    (by intro c hc; simp only [List.cons_append, List.head?_cons, Option.some.injEq] at hc; subst hc; decide)
  have e3 := afterPrefix_append [' ', 'x', ' '] (Nat.toDigits 10 m)
  have e4 := nat_append (allDigits_toDigits m) (hne m) (rest := []) (by intro c hc; simp at hc)
  unfold Read.sizes Result.repr
  rw [hN.1, hN.2, intText_nat, intText_nat]
  simp only [List.append_assoc]
  rw [e1]
  simp only [Option.bind_eq_bind, Option.bind_some]
  rw [e2]
  simp only [Option.bind_some]
  rw [e3]
  simp only [Option.bind_some]
  rw [List.append_nil] at e4
  rw [e4]
  simp [natOf_toDigits]

/-! ### Witnesses -/

/-- Cheap cells along the border, cheapest in the corner. -/
def Ex.border : Args :=
  { x := .d2 (Mat.ofFn 3 4 fun i j => if i = 0 ∧ j = 3 then fin (-1) else if i = 0 ∨ j = 3 then fin 0 else fin 9) }

/-- Both bounds are attained: `N + M - 1 = 6` points along the border, `max(N, M) = 4` points in the plain
example. -/
theorem C61_witness :
    ((dtw Arith.exact Ex.border).toOption.bind (·.mapping)).map (fun mp => mp.index1.zip mp.index2) =
      some [(0, 0), (0, 1), (0, 2), (0, 3), (1, 3), (2, 3)] ∧
    ((dtw Arith.exact Ex.plain).toOption.bind (·.mapping)).map (fun mp => mp.index1.length) = some 4 ∧
    (∀ q ∈ rulesOf Pat.symmetric2, q.Strict ∧ q.Continuous) := by
  refine ⟨by decide +kernel, by decide +kernel, by decide +kernel⟩

example : ∃ r mp, dtw Arith.exact Ex.plain = .ok r ∧ r.mapping = some mp ∧ 3 ≤ mp.index1.length ∧
    mp.index1.length ≤ 6 ∧ Read.sizes r.repr = some (3, 4) := by
  obtain ⟨r, hr⟩ := Ex.get_ok Ex.plain_ok
  have hmp : ((dtw Arith.exact Ex.plain).toOption.bind (·.mapping)).isSome := by decide +kernel
  rw [hr] at hmp
  obtain ⟨mp, hmp⟩ := Option.isSome_iff_exists.1 hmp
  have hw := C61_witness.2.2
  exact ⟨r, mp, hr, hmp, (C61_at_least Ex.plain_problem rfl (fun q hq => (hw q hq).2) hr hmp).1,
    (C61_at_most Ex.plain_problem rfl (fun q hq => (hw q hq).1) hr hmp).2.2.2, C61_repr Ex.plain_problem hr⟩

/-- A user pattern that lists one intermediate point twice repeats a pair: the hypothesis matters. -/
theorem C61_not_strict :
    ((dtw Arith.exact { x := .d2 (Mat.ofFn 3 3 Ex.L)
                        stepPattern := .obj ⟨encode [⟨2, 2, [⟨1, 1, 1⟩, ⟨1, 1, 1⟩, ⟨0, 0, 1⟩]⟩], "NA"⟩ }
      ).toOption.bind (·.mapping)).map (fun mp => mp.index1.zip mp.index2) =
    some [(0, 0), (1, 1), (1, 1), (2, 2)] := by decide +kernel

end DTW
