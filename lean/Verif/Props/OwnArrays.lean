import Verif.Props.History

/-!
# C46: the arrays of a result are its own, and separate

Each array attribute of a returned alignment is a different object: overwriting one of them (or what it contains) changes no other attribute.
-/

namespace DTW

variable {A : Arith}

/-- An address between two bounds. -/
def At (lo a hi : ℕ) : Prop := lo ≤ a ∧ a < hi

/-- Different addresses. -/
def Differ (a b : ℕ) : Prop := a ≠ b

/-- `x`, run in `h`, does not shrink the heap; if it returns, `R`. -/
def After {α} (h : Heap) (x : Py α) (R : Heap → α → Prop) : Prop :=
  h.length ≤ (x h).2.length ∧ ∀ a, (x h).1 = .ok a → R (x h).2 a

theorem After.bind {α β} {h : Heap} {x : Py α} {f : α → Py β} {R : Heap → α → Prop} {S : Heap → β → Prop}
    (hx : After h x R) (hf : ∀ h' a, h.length ≤ h'.length → R h' a → After h' (f a) S) : After h (x >>= f) S := by
  obtain ⟨h1, h2⟩ := hx
  cases hxh : x h with
  | mk r h' =>
    rw [hxh] at h1 h2
    cases r with
    | ok a =>
      unfold After
      rw [bind_of_ok hxh]
      obtain ⟨g1, g2⟩ := hf h' a h1 (h2 a rfl)
      exact ⟨Nat.le_trans h1 g1, g2⟩
    | error e =>
      unfold After
      rw [bind_of_error hxh]
      exact ⟨h1, fun b hb => by cases hb⟩

theorem After.pure {α} {h : Heap} {a : α} {R : Heap → α → Prop} (hR : R h a) : After h (Py.pure a) R :=
  ⟨Nat.le_refl _, fun b hb => by cases hb; exact hR⟩

theorem After.raise {α} {h : Heap} {e : Err} {R : Heap → α → Prop} : After h (Py.raise e) R :=
  ⟨Nat.le_refl _, fun b hb => by cases hb⟩

theorem After.lift {α} {h : Heap} {r : Except Err α} : After h (Py.lift r) (fun h' _ => h' = h) := ⟨Nat.le_refl _, fun _ _ => rfl⟩

theorem After.alloc {h : Heap} (o : Obj) : After h (Py.alloc o) (fun h' a => a = h.length ∧ h'.length = h.length + 1) :=
  ⟨by simp [Py.alloc], fun b hb => by cases hb; simp [Py.alloc]⟩

theorem After.write {h : Heap} {a : Addr} (o : Obj) : After h (Py.write a o) (fun h' _ => h'.length = h.length) :=
  ⟨by simp [Py.write], fun _ _ => by simp [Py.write]⟩

theorem After.read {h : Heap} (a : Addr) : After h (Py.read a) (fun h' _ => h' = h) := by
  unfold After Py.read
  split <;> exact ⟨Nat.le_refl _, fun _ _ => rfl⟩

theorem After.readMat {h : Heap} (a : Addr) : After h (Py.readMat a) (fun h' _ => h' = h) := by
  refine After.bind (After.read a) fun h' o _ e => ?_
  subst e
  split
  · exact After.pure rfl
  · exact After.raise

theorem After.readIMat {h : Heap} (a : Addr) : After h (Py.readIMat a) (fun h' _ => h' = h) := by
  refine After.bind (After.read a) fun h' o _ e => ?_
  subst e
  split
  · exact After.pure rfl
  · exact After.raise

theorem After.readArr {h : Heap} (a : Addr) : After h (Py.readArr a) (fun h' _ => h' = h) := by
  refine After.bind (After.read a) fun h' o _ e => ?_
  subst e
  split
  · exact After.pure rfl
  · exact After.raise

theorem After.readDict {h : Heap} (a : Addr) : After h (Py.readDict a) (fun h' _ => h' = h) := by
  refine After.bind (After.read a) fun h' o _ e => ?_
  subst e
  split
  · exact After.pure rfl
  · exact After.raise

theorem After.readPat {h : Heap} (a : Addr) : After h (Py.readPat a) (fun h' _ => h' = h) := by
  refine After.bind (After.read a) fun h' o _ e => ?_
  subst e
  split
  · exact After.pure rfl
  · exact After.raise

theorem hLocalCost_after {h : Heap} (c : Call) : After h (hLocalCost c) (fun h' r => At h.length r.1 h'.length) := by
  have hcol : ∀ {h : Heap}, ∀ a, After h (columnView a) (fun h' _ => h' = h) := by
    intro h a
    refine After.bind (After.readArr a) fun h' v _ e => ?_
    subst e
    refine After.bind After.lift fun h'' m _ e => ?_
    subst e
    exact After.pure rfl
  unfold hLocalCost
  cases c.y with
  | none =>
    refine After.bind (After.readArr _) fun h' v _ e => ?_
    subst e
    cases v with
    | d2 m =>
      refine After.bind (After.alloc _) fun h'' a _ e => After.pure ?_
      obtain ⟨e1, e2⟩ := e
      subst e1
      exact ⟨Nat.le_refl _, by rw [e2]; exact Nat.lt_succ_self _⟩
    | _ => exact After.raise
  | some y =>
    refine After.bind (hcol _) fun h1 _ _ e => ?_
    subst e
    refine After.bind (hcol _) fun h2 _ _ e => ?_
    subst e
    refine After.bind After.lift fun h3 _ _ e => ?_
    subst e
    refine After.bind (After.alloc _) fun h'' a _ e => After.pure ?_
    obtain ⟨e1, e2⟩ := e
    subst e1
    exact ⟨Nat.le_refl _, by rw [e2]; exact Nat.lt_succ_self _⟩

theorem hPattern_after {h : Heap} (c : Call) : After h (hPattern c) (fun h' _ => h' = h) := by
  unfold hPattern
  cases c.stepPattern with
  | obj a =>
    refine After.bind (After.readPat _) fun h' _ _ e => ?_
    subst e
    exact After.pure rfl
  | name s =>
    cases hs : patternAddr s with
    | none =>
      simp only [hs]
      exact After.raise
    | some a =>
      simp only [hs]
      refine After.bind (After.readPat _) fun h' _ _ e => ?_
      subst e
      exact After.pure rfl

theorem hInitialCM_after {h : Heap} (lm : Mat F64) (seed : Option Addr) :
    After h (hInitialCM lm seed) (fun h' a => match seed with
      | some s => a = s ∧ h' = h
      | none => At h.length a h'.length) := by
  unfold hInitialCM
  cases seed with
  | some s => exact After.pure ⟨rfl, rfl⟩
  | none =>
    refine After.bind (After.alloc _) fun h1 a _ ha => ?_
    split
    · exact After.raise
    · refine After.bind After.lift fun h2 _ _ e => ?_
      subst e
      refine After.bind (After.readMat _) fun h3 _ _ e => ?_
      subst e
      refine After.bind (After.write _) fun h4 _ _ e => After.pure ?_
      obtain ⟨e1, e2⟩ := ha
      subst e1
      exact ⟨Nat.le_refl _, by rw [e, e2]; exact Nat.lt_succ_self _⟩

theorem hGlobalCostMatrix_after {h : Heap} (lmA : Addr) (lay : Layout) (p : StepPattern)
    (wf : WinFn) (seed : Option Addr) (args : WinArgs) (hs : ∀ s, seed = some s → At 0 s h.length) :
    After h (hGlobalCostMatrix A lmA lay p wf seed args) (fun h' r => At h.length r.2 h'.length ∧ Differ r.1 r.2 ∧ At 0 r.1 h'.length ∧
      match seed with
      | some s => r.1 = s
      | none => At h.length r.1 h'.length) := by
  unfold hGlobalCostMatrix
  refine After.bind (After.readMat _) fun h1 lm _ e => ?_
  subst e
  refine After.bind After.lift fun h2 _ _ e => ?_
  subst e
  refine After.bind (After.alloc _) fun h3 _ _ e3 => ?_
  refine After.bind (hInitialCM_after lm seed) fun h4 cmA l4 hc => ?_
  refine After.bind (After.readIMat _) fun h5 _ _ e => ?_
  subst e
  refine After.bind (After.readMat _) fun h6 _ _ e => ?_
  subst e
  refine After.bind (After.readMat _) fun h7 _ _ e => ?_
  subst e
  refine After.bind (After.alloc _) fun h8 smA _ e8 => ?_
  refine After.bind After.lift fun h9 _ _ e => ?_
  subst e
  refine After.bind (After.write _) fun h10 _ _ e10 => ?_
  refine After.bind (After.write _) fun h11 _ _ e11 => After.pure ?_
  obtain ⟨-, e3⟩ := e3
  obtain ⟨e8, e8'⟩ := e8
  subst e8
  have key : At 0 cmA h7.length := by
    cases seed with
    | some s =>
      obtain ⟨rfl, rfl⟩ := hc
      have := hs _ rfl
      unfold At at this ⊢
      omega
    | none =>
      have hc : At _ _ _ := hc
      unfold At at hc ⊢
      omega
  refine ⟨?_, ?_, ?_, ?_⟩
  · show At h2.length h7.length _
    unfold At; omega
  · show Differ cmA h7.length
    unfold At at key; unfold Differ; omega
  · unfold At at key ⊢
    simp only
    omega
  · cases seed with
    | some s => exact hc.1
    | none =>
      have hc : At _ _ _ := hc
      show At _ cmA _
      unfold At at hc ⊢
      omega

theorem hRunGCM_after {h : Heap} (c : Call) (args : WinArgs) (lmA : Addr) (lay : Layout)
    (wf : WinFn) (p : StepPattern) (hl : At 0 lmA h.length) :
    After h (hRunGCM A c args lmA lay wf p) (fun h' r => At 0 r.1 h'.length ∧ At 0 r.2.1 h'.length ∧ At 0 r.2.2 h'.length ∧
      Differ r.1 r.2.1 ∧ Differ r.1 r.2.2 ∧ Differ r.2.1 r.2.2) := by
  unfold hRunGCM
  split
  · split
    · exact After.raise
    · refine After.bind (After.readMat _) fun h1 lm _ e => ?_
      subst e
      refine After.bind (After.alloc _) fun h2 lA _ e2 => ?_
      refine After.bind (After.alloc _) fun h3 sA _ e3 => ?_
      refine After.bind (After.readMat _) fun h4 _ _ e => ?_
      subst e
      refine After.bind (After.write _) fun h5 _ _ e5 => ?_
      obtain ⟨e2, e2'⟩ := e2
      obtain ⟨e3, e3'⟩ := e3
      refine After.bind (hGlobalCostMatrix_after _ _ _ _ _ _ fun t ht => ?_) fun h6 r l6 e => After.pure ?_
      · cases ht
        subst e3
        unfold At
        omega
      · obtain ⟨g1, g2, g3, g4⟩ := e
        have g4 : r.1 = sA := g4
        rw [g4] at g2 g3
        subst e3
        subst e2
        show At 0 h1.length _ ∧ At 0 r.1 _ ∧ At 0 r.2 _ ∧ Differ h1.length r.1 ∧ Differ h1.length r.2 ∧ Differ r.1 r.2
        rw [g4]
        unfold At Differ at *
        omega
  · refine After.bind (hGlobalCostMatrix_after _ _ _ _ _ _ fun t ht => ?_) fun h6 r l6 e => After.pure ?_
    · cases ht
    · obtain ⟨g1, g2, g3, g4⟩ := e
      have g4 : At h.length r.1 h6.length := g4
      show At 0 lmA _ ∧ At 0 r.1 _ ∧ At 0 r.2 _ ∧ Differ lmA r.1 ∧ Differ lmA r.2 ∧ Differ r.1 r.2
      unfold At Differ at *
      omega

theorem hDropRow_after {h : Heap} (b : Bool) (a : Addr) : After h (hDropRow b a) (fun h' r => r = a ∨ At h.length r h'.length) := by
  unfold hDropRow
  split
  · refine After.bind (After.readMat _) fun h1 _ _ e => ?_
    subst e
    obtain ⟨h2, h3⟩ := After.alloc (h := h1) (.arr (.d2 (Mat.dropRow ‹_›)))
    refine ⟨h2, fun a ha => .inr ?_⟩
    obtain ⟨e1, e2⟩ := h3 a ha
    subst e1
    unfold At
    omega
  · exact After.pure (.inl rfl)

theorem hDropRowI_after {h : Heap} (b : Bool) (a : Addr) : After h (hDropRowI b a) (fun h' r => r = a ∨ At h.length r h'.length) := by
  unfold hDropRowI
  split
  · refine After.bind (After.readIMat _) fun h1 _ _ e => ?_
    subst e
    obtain ⟨h2, h3⟩ := After.alloc (h := h1) (.imat (Mat.dropRow ‹_›))
    refine ⟨h2, fun a ha => .inr ?_⟩
    obtain ⟨e1, e2⟩ := h3 a ha
    subst e1
    unfold At
    omega
  · exact After.pure (.inl rfl)

theorem hMapping_after {h : Heap} (mp : Option Mapping) : After h (hMapping mp) (fun h' r => ∀ x, r = some x →
    At h.length x.1 x.2.1 ∧ At 0 x.2.1 x.2.2.1 ∧ At 0 x.2.2.1 x.2.2.2.1 ∧ At 0 x.2.2.2.1 x.2.2.2.2 ∧ At 0 x.2.2.2.2 h'.length) := by
  cases mp with
  | none => exact After.pure (fun x hx => by cases hx)
  | some mp =>
    refine After.bind (After.alloc _) fun h1 a1 _ e1 => ?_
    refine After.bind (After.alloc _) fun h2 a2 _ e2 => ?_
    refine After.bind (After.alloc _) fun h3 a3 _ e3 => ?_
    refine After.bind (After.alloc _) fun h4 a4 _ e4 => ?_
    refine After.bind (After.alloc _) fun h5 a5 _ e5 => After.pure fun x hx => ?_
    obtain ⟨e1, e1'⟩ := e1
    obtain ⟨e2, e2'⟩ := e2
    obtain ⟨e3, e3'⟩ := e3
    obtain ⟨e4, e4'⟩ := e4
    obtain ⟨e5, e5'⟩ := e5
    cases hx
    subst e1 e2 e3 e4 e5
    show At h.length h.length h1.length ∧ At 0 h1.length h2.length ∧ At 0 h2.length h3.length ∧ At 0 h3.length h4.length ∧ At 0 h4.length h5.length
    unfold At
    omega

/-- The arrays of a result: its index vectors and its matrices (those it has). -/
def HResult.ownArrays (r : HResult) : List Addr :=
  r.index1.toList ++ r.index2.toList ++ r.index1s.toList ++ r.index2s.toList ++ r.stepsTaken.toList ++
    r.localCostMatrix.toList ++ r.costMatrix.toList ++ r.directionMatrix.toList

/-- **C46** The arrays of a returned alignment are pairwise different objects. -/
theorem C46_own_arrays_distinct {h h' : Heap} {c : Call} {r : HResult} (hr : hdtw A c h = (.ok r, h')) : r.ownArrays.Nodup := by
  suffices hs : After h (hdtw A c) (fun _ r => r.ownArrays.Nodup) by
    have := hs.2 r (by rw [hr])
    exact this
  unfold hdtw
  refine After.bind (hLocalCost_after _) fun h1 l l1 e1 => ?_
  refine After.bind (hPattern_after _) fun h2 _ _ e => ?_
  subst e
  refine After.bind (After.readMat _) fun h3 _ _ e => ?_
  subst e
  refine After.bind (After.readDict _) fun h4 _ _ e => ?_
  subst e
  refine After.bind (hRunGCM_after _ _ _ _ _ _ (by unfold At at *; omega)) fun h5 g l5 e5 => ?_
  refine After.bind (After.readMat _) fun h6 _ _ e => ?_
  subst e
  refine After.bind After.lift fun h7 _ _ e => ?_
  subst e
  refine After.bind After.lift fun h8 _ _ e => ?_
  subst e
  refine After.bind (After.readIMat _) fun h9 _ _ e => ?_
  subst e
  refine After.bind After.lift fun h10 _ _ e => ?_
  subst e
  refine After.bind (hMapping_after _) fun h11 idx l11 e11 => ?_
  refine After.bind (hDropRow_after _ _) fun h12 lmA l12 e12 => ?_
  refine After.bind (hDropRow_after _ _) fun h13 cmA l13 e13 => ?_
  refine After.bind (hDropRowI_after _ _) fun h14 smA l14 e14 => After.pure ?_
  obtain ⟨gl, gc, gs⟩ := g
  have e5 : At 0 gl h10.length ∧ At 0 gc h10.length ∧ At 0 gs h10.length ∧ Differ gl gc ∧ Differ gl gs ∧ Differ gc gs := e5
  have e12 : lmA = gl ∨ At h11.length lmA h12.length := e12
  have e13 : cmA = gc ∨ At h12.length cmA h13.length := e13
  have e14 : smA = gs ∨ At h13.length smA h14.length := e14
  obtain ⟨a1, a2, a3, a4, a5, a6⟩ := e5
  have hm : Differ lmA cmA ∧ Differ lmA smA ∧ Differ cmA smA := by
    unfold At Differ at *
    rcases e12 with rfl | e12 <;> rcases e13 with rfl | e13 <;> rcases e14 with rfl | e14 <;> omega
  cases idx with
  | none =>
    cases c.keepInternals
    · simp [HResult.ownArrays]
    · unfold Differ at hm
      simp [HResult.ownArrays, hm]
  | some x =>
    have hx := e11 x rfl
    obtain ⟨x1, x2, x3, x4, x5⟩ := x
    have hall : (∀ y ∈ [lmA, cmA, smA], Differ x1 y ∧ Differ x2 y ∧ Differ x3 y ∧ Differ x4 y ∧ Differ x5 y) := by
      intro y hy
      simp only [List.mem_cons, List.not_mem_nil, or_false] at hy
      unfold At Differ at *
      simp only at hx
      rcases hy with rfl | rfl | rfl
      · rcases e12 with rfl | e12 <;> omega
      · rcases e13 with rfl | e13 <;> omega
      · rcases e14 with rfl | e14 <;> omega
    have b1 := hall lmA (by simp)
    have b2 := hall cmA (by simp)
    have b3 := hall smA (by simp)
    have hidx : Differ x1 x2 ∧ Differ x1 x3 ∧ Differ x1 x4 ∧ Differ x1 x5 ∧ Differ x2 x3 ∧ Differ x2 x4 ∧ Differ x2 x5 ∧ Differ x3 x4 ∧
        Differ x3 x5 ∧ Differ x4 x5 := by
      unfold At Differ at *
      simp only at hx
      omega
    unfold Differ at *
    cases c.keepInternals
    · simp [HResult.ownArrays, hidx]
    · simp [HResult.ownArrays, hm, b1, b2, b3, hidx]

/-- **C46** Overwriting one array of a result leaves the contents of all its other attributes, its own arrays, the window arguments, the
step pattern, query and reference, as they are. -/
theorem C46_attributes_separate {h h' : Heap} {c : Call} {a : Args} {r : HResult} (ha : c.deref h = some a)
    (hr : hdtw A c h = (.ok r, h')) {b : Addr} (hb : b ∈ r.ownArrays) (o : Obj) :
    (∀ d ∈ r.ownArrays, d ≠ b → (h'.set b o)[d]? = h'[d]?) ∧
    (h'.set b o)[r.windowArgs]? = h'[r.windowArgs]? ∧ (h'.set b o)[r.stepPattern]? = h'[r.stepPattern]? ∧
    ∀ q, r.queryReference = some q → (h'.set b o)[q.1.base]? = h'[q.1.base]? ∧ (h'.set b o)[q.2.base]? = h'[q.2.base]? := by
  have hO := C46_sharing ha hr
  have hbl : h.length ≤ b := by
    unfold HResult.ownArrays at hb
    simp only [List.mem_append, Option.mem_toList] at hb
    rcases hb with ((((((hb | hb) | hb) | hb) | hb) | hb) | hb) | hb
    · exact hO.index1 b hb
    · exact hO.index2 b hb
    · exact hO.index1s b hb
    · exact hO.index2s b hb
    · exact hO.stepsTaken b hb
    · exact hO.localCostMatrix b hb
    · exact hO.costMatrix b hb
    · exact hO.directionMatrix b hb
  have hlt := Call.refs_lt ha
  have old : ∀ d ∈ c.refs, (h'.set b o)[d]? = h'[d]? := fun d hd => get_set_ne (by
    have : d < h.length := hlt d hd
    have hbl : (h.length : ℕ) ≤ b := hbl
    intro e
    rw [e] at hbl
    exact absurd this (Nat.not_lt.2 hbl)) o
  refine ⟨fun d _ hd => get_set_ne (Ne.symm hd) o, ?_, ?_, ?_⟩
  · rw [hO.windowArgs]
    exact old _ (by unfold Call.refs; simp)
  · rcases hO.stepPattern with e | ⟨s, e1, e2⟩
    · exact old _ (by unfold Call.refs; rw [e]; simp)
    · exact old _ (by unfold Call.refs; rw [e1]; simp [e2])
  · intro q hq
    obtain ⟨e1, e2⟩ := hO.queryReference q hq
    refine ⟨?_, old _ ?_⟩
    · rw [e1]; exact old _ (by unfold Call.refs; simp)
    · unfold Call.refs; rw [e2]; simp

/-- The plain call of the session keeps the matrices: its result has eight arrays. -/
example : (match (hdtw Arith.exact Session.plainCall Session.h0).1 with
    | .ok r => some r.ownArrays.length
    | .error _ => none) = some 8 := by decide +kernel

end DTW
