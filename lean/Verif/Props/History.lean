import Verif.Proofs.HeapProof

/-!
# C46: calls are independent, inputs are not modified

The calls run on a heap of mutable objects (Heap.lean).
-/

namespace DTW
open F64

variable {A : Arith}

/-- **C46** A call, whatever its arguments and whether it returns or raises, leaves every object that existed
before it (input arrays, dicts, step patterns, earlier results) as it was. -/
theorem C46_inputs_unchanged (A : Arith) (h : Heap) (c : Call) :
    ∀ a < h.length, (hdtw A c h).2[a]? = h[a]? := by
  intro a ha
  obtain ⟨t, ht⟩ := hdtw_safe A h c
  rw [← ht]
  exact List.getElem?_append_left ha

/-- **C46** What a call gives is a function of the values of its arguments, namely the function `dtw` that the other
properties are about: same exception, or a returned object with the same contents. -/
theorem C46_function_of_values {h : Heap} {c : Call} {a : Args} (ha : c.deref h = some a) :
    c.outcome A h = (dtw A a).map some := by
  obtain ⟨h', -, ⟨r, v, h1, h2, h3, -⟩ | ⟨e, h1, h2⟩⟩ := hdtw_sim (A := A) ha
  · simp only [Call.outcome, h1, h2, h3]
    rfl
  · simp only [Call.outcome, h1, h2]
    rfl

/-- A history keeps the objects that it does not explicitly overwrite. -/
theorem runHistory_keeps (A : Arith) : ∀ (ops : List Op) (h : Heap) (b : Addr), b < h.length →
    (∀ o, Op.mutate b o ∉ ops) → (runHistory A h ops)[b]? = h[b]? ∧ h.length ≤ (runHistory A h ops).length := by
  intro ops
  induction ops with
  | nil => intro h b _ _; exact ⟨rfl, Nat.le_refl _⟩
  | cons op ops ih =>
    intro h b hb hm
    have key : (op.run A h)[b]? = h[b]? ∧ h.length ≤ (op.run A h).length := by
      cases op with
      | create o => exact ⟨List.getElem?_append_left hb, by simp [Op.run]⟩
      | mutate a o =>
        have : a ≠ b := by
          rintro rfl
          exact hm o (by simp)
        exact ⟨List.getElem?_set_ne this, by simp [Op.run]⟩
      | call c => exact ⟨C46_inputs_unchanged A h c b hb, (hdtw_safe A h c).length_le⟩
    have := ih (op.run A h) b (Nat.lt_of_lt_of_le hb key.2) (fun o ho => hm o (List.mem_cons_of_mem _ ho))
    exact ⟨this.1.trans key.1, key.2.trans this.2⟩

/-- **C46** The outcome of a call does not depend on the history: after any sequence of other calls, object creations and
overwritings of objects, the call gives what it would have given before, provided none of the objects it refers to
(its arrays, its dict of window arguments, its step pattern) was itself overwritten by the user. -/
theorem C46_history_independent {h : Heap} {c : Call} {a : Args} (ha : c.deref h = some a) (ops : List Op)
    (hm : ∀ b o, Op.mutate b o ∈ ops → b ∉ c.refs) :
    c.outcome A (runHistory A h ops) = c.outcome A h ∧ c.outcome A h = (dtw A a).map some := by
  have hd : c.deref (runHistory A h ops) = some a := by
    rw [← ha]
    refine Call.deref_congr fun b hb => ?_
    exact (runHistory_keeps A ops h b (Call.refs_lt ha b hb) (fun o ho => hm b o ho hb)).1
  rw [C46_function_of_values hd, C46_function_of_values ha]
  exact ⟨rfl, rfl⟩

/-- **C46** In particular calls do not influence each other. -/
theorem C46_calls_independent {h : Heap} {c : Call} {a : Args} (ha : c.deref h = some a) (cs : List Call) :
    c.outcome A (runHistory A h (cs.map .call)) = c.outcome A h := by
  refine (C46_history_independent ha _ ?_).1
  intro b o hb
  simp at hb

/-- The objects of a result. -/
def HResult.refs (r : HResult) : List Addr :=
  [r.windowArgs, r.stepPattern] ++ r.index1.toList ++ r.index2.toList ++ r.index1s.toList ++ r.index2s.toList ++
    r.stepsTaken.toList ++ r.costMatrix.toList ++ r.directionMatrix.toList ++ r.localCostMatrix.toList ++
    (match r.queryReference with
      | some q => [q.1.base, q.2.base]
      | none => [])

theorem derefOpt_congr {α β : Type} {f g : α → Option β} {o : Option α} (e : ∀ a, o = some a → f a = g a) :
    derefOpt f o = derefOpt g o := by
  cases o with
  | none => rfl
  | some a => simp only [derefOpt, e a rfl]

theorem imat?_congr {h h' : Heap} {a : Addr} (e : h'[a]? = h[a]?) : h'.imat? a = h.imat? a := by
  unfold Heap.imat?; rw [e]

theorem mat?_congr {h h' : Heap} {a : Addr} (e : h'[a]? = h[a]?) : h'.mat? a = h.mat? a := by
  unfold Heap.mat?; rw [e]

theorem ivec?_congr {h h' : Heap} {a : Addr} (e : h'[a]? = h[a]?) : h'.ivec? a = h.ivec? a := by
  unfold Heap.ivec?; rw [e]

theorem HResult.mapping?_congr {h h' : Heap} {r : HResult} (e : ∀ a ∈ r.refs, h'[a]? = h[a]?) :
    r.mapping? h' = r.mapping? h := by
  unfold HResult.mapping?
  split
  · rfl
  · rename_i h1 h2 h3 h4 h5
    rw [ivec?_congr (e _ (by simp [HResult.refs, h1])), ivec?_congr (e _ (by simp [HResult.refs, h2])),
      ivec?_congr (e _ (by simp [HResult.refs, h3])), ivec?_congr (e _ (by simp [HResult.refs, h4])),
      ivec?_congr (e _ (by simp [HResult.refs, h5]))]
  · rfl

theorem HResult.deref_congr {h h' : Heap} {r : HResult} (e : ∀ a ∈ r.refs, h'[a]? = h[a]?) :
    r.deref h' = r.deref h := by
  have e7 : derefOpt (derefQR h') r.queryReference = derefOpt (derefQR h) r.queryReference := by
    refine derefOpt_congr fun q hq => ?_
    unfold derefQR View.deref
    rw [arr?_congr (e q.1.base (by simp [HResult.refs, hq])), arr?_congr (e q.2.base (by simp [HResult.refs, hq]))]
  unfold HResult.deref
  rw [dict?_congr (e r.windowArgs (by simp [HResult.refs])), pat?_congr (e r.stepPattern (by simp [HResult.refs])),
    HResult.mapping?_congr e, e7,
    derefOpt_congr (f := h'.mat?) (g := h.mat?) (o := r.costMatrix) fun a ha => mat?_congr (e a (by simp [HResult.refs, ha])),
    derefOpt_congr (f := h'.imat?) (g := h.imat?) (o := r.directionMatrix)
      fun a ha => imat?_congr (e a (by simp [HResult.refs, ha])),
    derefOpt_congr (f := h'.mat?) (g := h.mat?) (o := r.localCostMatrix)
      fun a ha => mat?_congr (e a (by simp [HResult.refs, ha]))]

/-- **C46** A returned alignment keeps its contents through later calls: nothing but an explicit overwriting of one of its
own objects changes it. -/
theorem C46_results_stable {h h' : Heap} {c : Call} {a : Args} {r : HResult} (ha : c.deref h = some a)
    (hr : hdtw A c h = (.ok r, h')) (ops : List Op) (hm : ∀ b o, Op.mutate b o ∈ ops → b ∉ r.refs) :
    r.deref (runHistory A h' ops) = r.deref h' ∧ ∃ v, dtw A a = .ok v ∧ r.deref h' = some v := by
  obtain ⟨h1, -, ⟨r1, v, e1, e2, e3, -⟩ | ⟨e, e1, e2⟩⟩ := hdtw_sim (A := A) ha
  · rw [hr] at e1
    simp only [Prod.mk.injEq, Except.ok.injEq] at e1
    obtain ⟨rfl, rfl⟩ := e1
    refine ⟨?_, v, e2, e3⟩
    refine HResult.deref_congr fun b hb => ?_
    refine (runHistory_keeps A ops h' b ?_ (fun o ho => hm b o ho hb)).1
    by_contra hn
    -- every object of a readable result exists
    have hnone : h'[b]? = none := List.getElem?_eq_none (Nat.not_lt.1 hn)
    have hall : ∀ b ∈ r.refs, h'[b]? ≠ none := by
      intro b hb hnb
      have hres := e3
      unfold HResult.deref at hres
      split at hres
      case h_2 => cases hres
      rename_i w p mp cm sm lm qr q1 q2 q3 q4 q5 q6 q7
      simp only [HResult.refs, List.mem_append, List.mem_cons, List.not_mem_nil, or_false, Option.mem_toList] at hb
      have hmp : ∀ i, (r.index1 = some i ∨ r.index2 = some i ∨ r.index1s = some i ∨ r.index2s = some i ∨
          r.stepsTaken = some i) → h'[i]? ≠ none := by
        intro i hi hni
        unfold HResult.mapping? at q3
        split at q3
        · simp_all
        · split at q3
          · rename_i v1 v2 v3 v4 v5
            have := ivec?_iff.1 v1
            have := ivec?_iff.1 v2
            have := ivec?_iff.1 v3
            have := ivec?_iff.1 v4
            have := ivec?_iff.1 v5
            rcases hi with hi | hi | hi | hi | hi <;> simp_all
          · cases q3
        · cases q3
      rcases hb with (((((((((rfl | rfl) | hb) | hb) | hb) | hb) | hb) | hb) | hb) | hb) | hb
      · simp [dict?_iff.1 q1] at hnb
      · simp [pat?_iff.1 q2] at hnb
      · exact hmp b (.inl hb) hnb
      · exact hmp b (.inr (.inl hb)) hnb
      · exact hmp b (.inr (.inr (.inl hb))) hnb
      · exact hmp b (.inr (.inr (.inr (.inl hb)))) hnb
      · exact hmp b (.inr (.inr (.inr (.inr hb)))) hnb
      · simp only [hb, derefOpt, Option.map_eq_some_iff] at q4
        obtain ⟨v, q4, -⟩ := q4
        simp [mat?_iff.1 q4] at hnb
      · simp only [hb, derefOpt, Option.map_eq_some_iff] at q5
        obtain ⟨v, q5, -⟩ := q5
        simp [imat?_iff.1 q5] at hnb
      · simp only [hb, derefOpt, Option.map_eq_some_iff] at q6
        obtain ⟨v, q6, -⟩ := q6
        simp [mat?_iff.1 q6] at hnb
      · cases hq : r.queryReference with
        | none => simp [hq] at hb
        | some q =>
          simp only [hq, derefOpt, Option.map_eq_some_iff] at q7
          obtain ⟨v, q7, -⟩ := q7
          simp only [hq, List.mem_cons, List.not_mem_nil, or_false] at hb
          unfold derefQR View.deref Heap.arr? at q7
          rcases hb with rfl | rfl <;> simp_all
    exact hall b hb hnone
  · rw [hr] at e1
    cases e1

/-- **C46** What a result shares with the rest of the program: its own arrays (indices, matrices) are new objects; its
`windowArgs` and `stepPattern` are the caller's (or the module's) objects, its `query` and `reference` are the caller's
arrays. -/
theorem C46_sharing {h h' : Heap} {c : Call} {a : Args} {r : HResult} (ha : c.deref h = some a)
    (hr : hdtw A c h = (.ok r, h')) : r.OwnedBy c h.length := by
  obtain ⟨h1, -, ⟨r1, v, e1, e2, e3, e4⟩ | ⟨e, e1, e2⟩⟩ := hdtw_sim (A := A) ha
  · rw [hr] at e1
    simp only [Prod.mk.injEq, Except.ok.injEq] at e1
    obtain ⟨rfl, rfl⟩ := e1
    exact e4
  · rw [hr] at e1
    cases e1

/-- **C46** Hence the user may overwrite the arrays of a result: no call that was possible before gives another
outcome afterwards. -/
theorem C46_own_arrays_free {h h' : Heap} {c c2 : Call} {a a2 : Args} {r : HResult} (ha : c.deref h = some a)
    (ha2 : c2.deref h = some a2) (hr : hdtw A c h = (.ok r, h')) (b : Addr) (o : Obj)
    (hb : r.index1 = some b ∨ r.index2 = some b ∨ r.index1s = some b ∨ r.index2s = some b ∨ r.stepsTaken = some b ∨
      r.costMatrix = some b ∨ r.directionMatrix = some b ∨ r.localCostMatrix = some b) :
    c2.outcome A (h'.set b o) = c2.outcome A h := by
  have hown := C46_sharing ha hr
  have hge : h.length ≤ b := by
    rcases hb with hb | hb | hb | hb | hb | hb | hb | hb
    · exact hown.index1 b hb
    · exact hown.index2 b hb
    · exact hown.index1s b hb
    · exact hown.index2s b hb
    · exact hown.stepsTaken b hb
    · exact hown.costMatrix b hb
    · exact hown.directionMatrix b hb
    · exact hown.localCostMatrix b hb
  have := (C46_history_independent (A := A) ha2 [.call c, .mutate b o] (by
    intro b' o' hm hb'
    simp only [List.mem_cons, reduceCtorEq, Op.mutate.injEq, List.not_mem_nil, or_false, false_or] at hm
    have hlt : b' < h.length := Call.refs_lt ha2 b' hb'
    rw [hm.1] at hlt
    exact absurd hge (Nat.not_le.2 hlt))).1
  simpa [runHistory, Op.run, hr] using this

theorem lookup_of_first {β : Type} {s : String} : ∀ {l : List (String × β)} {k : Nat} (hk : k < l.length)
    (_ : l[k].1 = s) (_ : ∀ j (hj : j < k), ¬ (decide (l[j].1 = s) = true)), l.lookup s = some l[k].2
  | [], k, hk, _, _ => by simp at hk
  | q :: l, 0, hk, hks, _ => by
    simp only [List.getElem_cons_zero] at hks ⊢
    subst hks
    simp [List.lookup]
  | q :: l, k + 1, hk, hks, hlt => by
    have h0 := hlt 0 (by omega)
    simp only [List.getElem_cons_zero, decide_eq_true_eq] at h0
    have := lookup_of_first (l := l) (k := k) (by simpa using hk) (by simpa using hks) (by
      intro j hj
      have := hlt (j + 1) (by omega)
      simpa using this)
    have hb : (s == q.1) = false := beq_false_of_ne (Ne.symm h0)
    simp [List.lookup, hb, this]

/-- **C46** In a session: from the heap of the loaded module, after any history that overwrites none of the module's
objects, a name denotes the pattern of the table and the default argument is empty. -/
theorem C46_session {ops : List Op} (hm : ∀ b o, Op.mutate b o ∈ ops → moduleHeap.length ≤ b) :
    (runHistory A moduleHeap ops).dict? defaultWindowArgs = some [] ∧
    ∀ s, ∃ p, (PatRef.name s).deref (runHistory A moduleHeap ops) = some p ∧
      canonPattern p = canonPattern (.name s) := by
  have keep : ∀ b < moduleHeap.length, (runHistory A moduleHeap ops)[b]? = moduleHeap[b]? := by
    intro b hb
    exact (runHistory_keeps A ops moduleHeap b hb (fun o ho => absurd (hm b o ho) (Nat.not_le.2 hb))).1
  refine ⟨?_, ?_⟩
  · have := keep 0 (by simp [moduleHeap])
    rw [dict?_iff, defaultWindowArgs, this]
    rfl
  · intro s
    simp only [PatRef.deref]
    unfold patternAddr
    cases hf : Pat.table.findIdx? (fun q => q.1 = patternObject s) with
    | none => exact ⟨_, rfl, rfl⟩
    | some k =>
      rw [List.findIdx?_eq_some_iff_getElem] at hf
      obtain ⟨hk, hks, hlt⟩ := hf
      have hks : Pat.table[k].1 = patternObject s := of_decide_eq_true hks
      have h1 : moduleHeap[k + 1]? = some (.pat Pat.table[k].2) := by
        simp [moduleHeap, List.getElem?_eq_getElem hk]
      have h2 := keep (k + 1) (lt_of_get h1)
      refine ⟨.obj Pat.table[k].2, ?_, ?_⟩
      · simp only [pat?_iff.2 (h2.trans h1)]
        rfl
      · have : Pat.table.lookup s = some Pat.table[k].2 := by
          rw [← lookup_patternObject]
          exact lookup_of_first hk hks hlt
        unfold canonPattern
        simp only [this]

/-! ### What does leak: overwriting the objects a result shares -/

namespace Session

/-- A 3 × 3 cost matrix, created by the user right after loading the module. -/
def m3 : Obj := .arr (.d2 ⟨3, 3, [fin 0, fin 1, fin 4, fin 1, fin 0, fin 1, fin 4, fin 2, fin 5]⟩)

/-- Its address. -/
def x0 : Addr := moduleHeap.length

/-- The heap of the session. -/
def h0 : Heap := runHistory Arith.exact moduleHeap [.create m3]

/-- `dtw(m3)` -/
def plainCall : Call := { x := x0, keepInternals := true }

/-- `dtw(m3, window_type="sakoechiba")`, the default `window_args` -/
def bandCall : Call := { x := x0, windowType := .name "sakoechiba" }

/-- The distance a call reports. -/
def dist (h : Heap) (c : Call) : Option F64 :=
  match c.outcome Arith.exact h with
  | .ok (some r) => some r.distance
  | _ => none

/-- The error a call raises. -/
def err (h : Heap) (c : Call) : Option Err :=
  match c.outcome Arith.exact h with
  | .error e => some e
  | _ => none

/-- `r = dtw(m3); r.windowArgs["window_size"] = 0`: the dict is the default argument of the function. -/
def afterDict : Heap := runHistory Arith.exact h0 [.call plainCall, .mutate defaultWindowArgs (.dict [("window_size", 0)])]

/-- `r = dtw(m3); r.stepPattern.mx = dtw.asymmetric.mx` (with the hint): the object is the module's `symmetric2`. -/
def afterPattern : Heap :=
  runHistory Arith.exact h0
    [.call plainCall, .mutate ((patternAddr "symmetric2").getD 0) (.pat Pat.asymmetric)]

end Session

/-- The hypotheses of the theorems above are met in the session: the calls denote argument values, the first one
succeeds. -/
example : (Session.plainCall.deref Session.h0).isSome = true ∧ (Session.bandCall.deref Session.h0).isSome = true ∧
    Session.dist Session.h0 Session.plainCall = some (fin 6) := by decide +kernel

/-- **C46** (negative) The default `window_args={}` is one object, and a result's `windowArgs` is that object: adding a
key to the `windowArgs` of the result of one call changes what later calls do: a banded call without window size fails
in a fresh session and succeeds afterwards; the plain call is not affected (its window ignores the arguments), while
a window that takes no argument is. -/
theorem C46_default_dict_leaks :
    (∀ r h', hdtw Arith.exact Session.plainCall Session.h0 = (.ok r, h') → r.windowArgs = defaultWindowArgs) ∧
    Session.err Session.h0 Session.bandCall = some .typeError ∧
    Session.dist Session.afterDict Session.bandCall = some (fin 10) ∧
    Session.dist Session.afterDict Session.plainCall = Session.dist Session.h0 Session.plainCall ∧
    Session.err Session.h0 { Session.plainCall with windowType := .name "itakura" } = none ∧
    Session.err Session.afterDict { Session.plainCall with windowType := .name "itakura" } = some .typeError := by
  refine ⟨?_, by decide +kernel, by decide +kernel, by decide +kernel, by decide +kernel, by decide +kernel⟩
  intro r h' hr
  have hd : (Session.plainCall.deref Session.h0).isSome = true := by decide +kernel
  obtain ⟨a, ha⟩ := Option.isSome_iff_exists.1 hd
  exact (C46_sharing ha hr).windowArgs

/-- **C46** (negative) A result's `stepPattern` is the module's object: overwriting it changes later calls that use the
pattern by name (here the default one). -/
theorem C46_pattern_object_leaks :
    (∀ r h', hdtw Arith.exact Session.plainCall Session.h0 = (.ok r, h') → patternAddr "symmetric2" = some r.stepPattern) ∧
    Session.dist Session.h0 Session.plainCall = some (fin 6) ∧
    Session.dist Session.afterPattern Session.plainCall = some (fin 5) := by
  refine ⟨?_, by decide +kernel, by decide +kernel⟩
  intro r h' hr
  have hd : (Session.plainCall.deref Session.h0).isSome = true := by decide +kernel
  obtain ⟨a, ha⟩ := Option.isSome_iff_exists.1 hd
  rcases (C46_sharing ha hr).stepPattern with h1 | ⟨s, h1, h2⟩
  · cases h1
  · cases h1
    exact h2

/-- **C46** (negative) `symmetricP0` is `symmetric2`, not a copy: overwriting the weights of `dtw.symmetricP0` changes the default
step pattern of all later calls. -/
theorem C46_alias_leaks :
    patternAddr "symmetricP0" = patternAddr "symmetric2" ∧
    Session.dist (runHistory Arith.exact Session.h0
      [.mutate ((patternAddr "symmetricP0").getD 0) (.pat Pat.asymmetric)]) Session.plainCall = some (fin 5) ∧
    (∀ s t, patternAddr s = patternAddr t → patternAddr s ≠ none → patternObject s = patternObject t) := by
  refine ⟨by decide +kernel, by decide +kernel, ?_⟩
  intro s t h hs
  unfold patternAddr at h hs
  cases hf : Pat.table.findIdx? (fun q => q.1 = patternObject s) with
  | none => rw [hf] at hs; exact absurd rfl hs
  | some k =>
    rw [hf] at h
    cases hg : Pat.table.findIdx? (fun q => q.1 = patternObject t) with
    | none => rw [hg] at h; cases h
    | some l =>
      rw [hg] at h
      simp only [Option.some.injEq, Nat.add_right_cancel_iff] at h
      subst h
      rw [List.findIdx?_eq_some_iff_getElem] at hf hg
      obtain ⟨hk, h1, -⟩ := hf
      obtain ⟨_, h2, _⟩ := hg
      exact (of_decide_eq_true h1).symm.trans (of_decide_eq_true h2)

end DTW
