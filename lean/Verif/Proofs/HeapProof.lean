import Verif.Heap

/-!
# The heap execution of `dtw` refines the value-level one
-/

namespace DTW
open F64

/-! ### Extending the heap -/

theorem getElem?_prefix {h h' : Heap} (hp : h <+: h') {a : Addr} {o : Obj} (ha : h[a]? = some o) : h'[a]? = some o := by
  obtain ⟨t, rfl⟩ := hp
  have : a < h.length := by
    by_contra hn
    rw [List.getElem?_eq_none (Nat.not_lt.1 hn)] at ha
    cases ha
  rw [List.getElem?_append_left this, ha]

theorem arr?_iff {h : Heap} {a : Addr} {v : Nd} : h.arr? a = some v ↔ h[a]? = some (.arr v) := by
  unfold Heap.arr?; split <;> simp_all

theorem mat?_iff {h : Heap} {a : Addr} {v : Mat F64} : h.mat? a = some v ↔ h[a]? = some (.arr (.d2 v)) := by
  unfold Heap.mat?; split <;> simp_all

theorem imat?_iff {h : Heap} {a : Addr} {v : Mat Int} : h.imat? a = some v ↔ h[a]? = some (.imat v) := by
  unfold Heap.imat?; split <;> simp_all

theorem ivec?_iff {h : Heap} {a : Addr} {v : List Int} : h.ivec? a = some v ↔ h[a]? = some (.ivec v) := by
  unfold Heap.ivec?; split <;> simp_all

theorem dict?_iff {h : Heap} {a : Addr} {v : WinArgs} : h.dict? a = some v ↔ h[a]? = some (.dict v) := by
  unfold Heap.dict?; split <;> simp_all

theorem pat?_iff {h : Heap} {a : Addr} {v : StepPattern} : h.pat? a = some v ↔ h[a]? = some (.pat v) := by
  unfold Heap.pat?; split <;> simp_all

/-! ### The monad, evaluated -/

theorem py_bind {α β} (x : Py α) (f : α → Py β) (h : Heap) :
    (x >>= f) h = match x h with
      | (.ok a, h') => f a h'
      | (.error e, h') => (.error e, h') := rfl

theorem bind_of_ok {α β} {x : Py α} {f : α → Py β} {h h' : Heap} {a : α} (hx : x h = (.ok a, h')) :
    (x >>= f) h = f a h' := by rw [py_bind, hx]

theorem bind_of_error {α β} {x : Py α} {f : α → Py β} {h h' : Heap} {e : Err} (hx : x h = (.error e, h')) :
    (x >>= f) h = (.error e, h') := by rw [py_bind, hx]

theorem readMat_of {h : Heap} {a : Addr} {m : Mat F64} (ha : h[a]? = some (.arr (.d2 m))) :
    Py.readMat a h = (.ok m, h) := by
  simp [Py.readMat, py_bind, Py.read, ha, Py.pure]

theorem readIMat_of {h : Heap} {a : Addr} {m : Mat Int} (ha : h[a]? = some (.imat m)) :
    Py.readIMat a h = (.ok m, h) := by
  simp [Py.readIMat, py_bind, Py.read, ha, Py.pure]

theorem readArr_of {h : Heap} {a : Addr} {m : Nd} (ha : h[a]? = some (.arr m)) :
    Py.readArr a h = (.ok m, h) := by
  simp [Py.readArr, py_bind, Py.read, ha, Py.pure]

theorem readDict_of {h : Heap} {a : Addr} {m : WinArgs} (ha : h[a]? = some (.dict m)) :
    Py.readDict a h = (.ok m, h) := by
  simp [Py.readDict, py_bind, Py.read, ha, Py.pure]

theorem readPat_of {h : Heap} {a : Addr} {m : StepPattern} (ha : h[a]? = some (.pat m)) :
    Py.readPat a h = (.ok m, h) := by
  simp [Py.readPat, py_bind, Py.read, ha, Py.pure]

/-! ### Simulation -/

/-- From heap `h`, `x` behaves as the value computation `r`: it only appends to the heap, fails with the same
exception, and otherwise returns something related to the value by `R` (in the new heap). -/
def Sim {α β} (h : Heap) (x : Py α) (r : Except Err β) (R : Heap → α → β → Prop) : Prop :=
  ∃ h', h <+: h' ∧
    ((∃ a b, x h = (.ok a, h') ∧ r = .ok b ∧ R h' a b) ∨ (∃ e, x h = (.error e, h') ∧ r = .error e))

theorem Sim.bind {α β γ δ} {h : Heap} {x : Py α} {r : Except Err β} {R : Heap → α → β → Prop} {f : α → Py γ}
    {g : β → Except Err δ} {S : Heap → γ → δ → Prop} (hx : Sim h x r R)
    (hf : ∀ h' a b, h <+: h' → R h' a b → Sim h' (f a) (g b) S) : Sim h (x >>= f) (r >>= g) S := by
  obtain ⟨h', hp, ⟨a, b, h1, h2, h3⟩ | ⟨e, h1, h2⟩⟩ := hx
  · obtain ⟨h'', hp', h4⟩ := hf h' a b hp h3
    refine ⟨h'', hp.trans hp', ?_⟩
    rw [bind_of_ok h1, h2]
    exact h4
  · refine ⟨h', hp, .inr ⟨e, bind_of_error h1, by rw [h2]; rfl⟩⟩

/-- A step of the heap execution without counterpart. -/
theorem Sim.step {α γ δ} {h h' : Heap} {x : Py α} {a : α} {f : α → Py γ} {r : Except Err δ}
    {S : Heap → γ → δ → Prop} (hx : x h = (.ok a, h')) (hp : h <+: h') (hf : Sim h' (f a) r S) :
    Sim h (x >>= f) r S := by
  obtain ⟨h'', hp', h4⟩ := hf
  refine ⟨h'', hp.trans hp', ?_⟩
  rw [bind_of_ok hx]
  exact h4

theorem Sim.pure {γ δ} {h : Heap} {a : γ} {b : δ} {S : Heap → γ → δ → Prop} (hS : S h a b) :
    Sim h (Py.pure a) (.ok b) S :=
  ⟨h, List.prefix_refl _, .inl ⟨a, b, rfl, rfl, hS⟩⟩

theorem Sim.raise {γ δ} {h : Heap} {e : Err} {S : Heap → γ → δ → Prop} :
    Sim h (Py.raise e) (.error e) S :=
  ⟨h, List.prefix_refl _, .inr ⟨e, rfl, rfl⟩⟩

/-- A value computation: the result is the same and the heap does not change. -/
theorem Sim.lift {β} {h : Heap} {r : Except Err β} :
    Sim h (Py.lift r) r (fun h' a b => h' = h ∧ a = b ∧ r = .ok b) := by
  cases hr : r with
  | error e => exact ⟨h, List.prefix_refl _, .inr ⟨e, rfl, rfl⟩⟩
  | ok b => exact ⟨h, List.prefix_refl _, .inl ⟨b, b, rfl, rfl, rfl, rfl, rfl⟩⟩

theorem alloc_run (o : Obj) (h : Heap) : Py.alloc o h = (.ok h.length, h ++ [o]) := rfl

theorem alloc_at (o : Obj) (h : Heap) : (h ++ [o])[h.length]? = some o := by simp

/-! ### The pieces of `dtw` -/

/-- Query and reference: relation between the views and the columns. -/
def QRel (h : Heap) (q : Option (View × View)) (v : Option (Mat F64 × Mat F64)) : Prop :=
  derefOpt (derefQR h) q = some v

theorem View.deref_mono {h h' : Heap} (hp : h <+: h') {v : View} {m : Mat F64} (hv : v.deref h = some m) :
    v.deref h' = some m := by
  unfold View.deref at hv ⊢
  cases ha : h.arr? v.base with
  | none => rw [ha] at hv; cases hv
  | some a =>
    rw [ha] at hv
    rw [arr?_iff.2 (getElem?_prefix hp (arr?_iff.1 ha))]
    exact hv

theorem QRel.mono {h h' : Heap} (hp : h <+: h') {q : Option (View × View)} {v : Option (Mat F64 × Mat F64)}
    (hq : QRel h q v) : QRel h' q v := by
  unfold QRel at hq ⊢
  cases q with
  | none => exact hq
  | some q =>
    simp only [derefOpt, derefQR] at hq ⊢
    cases h1 : q.1.deref h with
    | none => simp [h1] at hq
    | some x =>
      cases h2 : q.2.deref h with
      | none => simp [h1, h2] at hq
      | some y =>
        rw [View.deref_mono hp h1, View.deref_mono hp h2]
        simpa [h1, h2] using hq

theorem bind_ok_self {α} (x : Except Err α) : (x >>= fun m => Except.ok m) = x := by cases x <;> rfl

theorem columnView_sim {h : Heap} {a : Addr} {v : Nd} (ha : h[a]? = some (.arr v)) :
    Sim h (columnView a) (asColumns v) (fun h' r m => h' = h ∧ r.2 = m ∧ r.1.base = a ∧ r.1.deref h = some m) := by
  unfold columnView
  refine Sim.step (readArr_of ha) (List.prefix_refl _) ?_
  have := Sim.bind (f := fun m => Py.pure ((⟨a, match v with | .d1 _ => true | _ => false⟩ : View), m))
    (g := fun m => Except.ok m) (S := fun h' r m => h' = h ∧ r.2 = m ∧ r.1.base = a ∧ r.1.deref h = some m)
    (Sim.lift (h := h) (r := asColumns v)) ?_
  · rwa [bind_ok_self] at this
  · rintro h' m m' - ⟨rfl, rfl, hm⟩
    refine Sim.pure ⟨rfl, rfl, rfl, ?_⟩
    simp [View.deref, arr?_iff.2 ha, hm]

/-- What `hLocalCost` returns: a new array with the local costs. -/
def LCRel (c : Call) (n0 : Nat) (h : Heap) (r : Addr × Layout × Option (View × View))
    (v : Mat F64 × Layout × Option (Mat F64 × Mat F64)) : Prop :=
  h[r.1]? = some (.arr (.d2 v.1)) ∧ r.2.1 = v.2.1 ∧ QRel h r.2.2 v.2.2 ∧ n0 ≤ r.1 ∧
    ∀ q, r.2.2 = some q → q.1.base = c.x ∧ c.y = some q.2.base

theorem hLocalCost_sim {h : Heap} {c : Call} {a : Args} (ha : c.deref h = some a) :
    Sim h (hLocalCost c) (localCost a) (LCRel c h.length) := by
  unfold Call.deref at ha
  split at ha
  case h_2 => cases ha
  rename_i x y p w hx hy hp hw
  cases ha
  have hx' := arr?_iff.1 hx
  unfold hLocalCost localCost
  cases hc : c.y with
  | none =>
    rw [hc] at hy
    cases hy
    simp only
    refine Sim.step (readArr_of hx') (List.prefix_refl _) ?_
    cases x with
    | d2 m =>
      refine Sim.step (alloc_run _ _) (List.prefix_append _ _) (Sim.pure ⟨alloc_at _ _, rfl, rfl, Nat.le_refl _, ?_⟩)
      intro q hq
      cases hq
    | _ => exact Sim.raise
  | some ya =>
    rw [hc] at hy
    simp only [derefY, Option.map_eq_some_iff] at hy
    obtain ⟨yv, hy, rfl⟩ := hy
    have hy' := arr?_iff.1 hy
    simp only
    refine Sim.bind (columnView_sim hx') ?_
    rintro h1 ⟨vx, x'⟩ m - ⟨rfl, rfl, hbx, hvx⟩
    refine Sim.bind (columnView_sim hy') ?_
    rintro h2 ⟨vy, y'⟩ m' - ⟨rfl, rfl, hby, hvy⟩
    refine Sim.bind Sim.lift ?_
    rintro h3 lm lm' - ⟨rfl, rfl, hm⟩
    refine Sim.step (alloc_run _ _) (List.prefix_append _ _) (Sim.pure ⟨alloc_at _ _, rfl, ?_, Nat.le_refl _, ?_⟩)
    rotate_left
    · rintro q hq
      cases hq
      exact ⟨hbx, by rw [hc]; exact congrArg some hby.symm⟩
    refine QRel.mono (List.prefix_append _ _) ?_
    simp only at hvx hvy
    simp [QRel, derefOpt, derefQR, hvx, hvy]

/-- Both names of an object mean the same pattern. -/
theorem lookup_patternObject (s : String) : Pat.table.lookup (patternObject s) = Pat.table.lookup s := by
  unfold patternObject
  split
  · rename_i h
    subst h
    decide +kernel
  · rfl

theorem hPattern_sim {h : Heap} {c : Call} {a : Args} (ha : c.deref h = some a) :
    Sim h (hPattern c) (canonPattern a.stepPattern)
      (fun h' r p => h' = h ∧ r.2 = p ∧ h[r.1]? = some (.pat p) ∧
        (c.stepPattern = .obj r.1 ∨ ∃ s, c.stepPattern = .name s ∧ patternAddr s = some r.1)) := by
  unfold Call.deref at ha
  split at ha
  case h_2 => cases ha
  rename_i x y p w hx hy hp hw
  cases ha
  unfold hPattern
  cases hc : c.stepPattern with
  | obj a =>
    rw [hc] at hp
    simp only [PatRef.deref, Option.map_eq_some_iff] at hp
    obtain ⟨pv, hp, rfl⟩ := hp
    have hp' := pat?_iff.1 hp
    exact Sim.step (readPat_of hp') (List.prefix_refl _) (Sim.pure ⟨rfl, rfl, hp', .inl rfl⟩)
  | name s =>
    rw [hc] at hp
    simp only [PatRef.deref] at hp
    cases hs : patternAddr s with
    | none =>
      rw [hs] at hp
      cases hp
      have : canonPattern (.name s) = .error .attributeError := by
        unfold patternAddr at hs
        split at hs
        · cases hs
        · rename_i hf
          rw [List.findIdx?_eq_none_iff] at hf
          unfold canonPattern
          have : Pat.table.lookup s = none := by
            rw [← lookup_patternObject, List.lookup_eq_none_iff]
            intro q hq
            have h2 : q.1 ≠ patternObject s := of_decide_eq_false (hf q hq)
            first
              | exact beq_false_of_ne (Ne.symm h2)
              | exact Ne.symm h2
              | exact bne_iff_ne.2 (Ne.symm h2)
          simp only [this]
      simp only [hs, this]
      exact Sim.raise
    | some a =>
      rw [hs] at hp
      simp only [Option.map_eq_some_iff] at hp
      obtain ⟨pv, hp, rfl⟩ := hp
      have hp' := pat?_iff.1 hp
      simp only [hs]
      exact Sim.step (readPat_of hp') (List.prefix_refl _) (Sim.pure ⟨rfl, rfl, hp', .inr ⟨s, rfl, hs⟩⟩)

/-- As `Sim`, with only a part `g` of the heap known to be kept: the rest may be written. -/
def SimFrom {α β} (g h : Heap) (x : Py α) (r : Except Err β) (R : Heap → α → β → Prop) : Prop :=
  ∃ h', g <+: h' ∧
    ((∃ a b, x h = (.ok a, h') ∧ r = .ok b ∧ R h' a b) ∨ (∃ e, x h = (.error e, h') ∧ r = .error e))

theorem SimFrom.step {α γ δ} {g h h' : Heap} {x : Py α} {a : α} {f : α → Py γ} {r : Except Err δ}
    {S : Heap → γ → δ → Prop} (hx : x h = (.ok a, h')) (hf : SimFrom g h' (f a) r S) :
    SimFrom g h (x >>= f) r S := by
  obtain ⟨h'', hp', h4⟩ := hf
  refine ⟨h'', hp', ?_⟩
  rw [bind_of_ok hx]
  exact h4

theorem SimFrom.bind {α β γ δ} {g h : Heap} {x : Py α} {r : Except Err β} {R : Heap → α → β → Prop} {f : α → Py γ}
    {k : β → Except Err δ} {S : Heap → γ → δ → Prop} (hx : SimFrom g h x r R)
    (hf : ∀ h' a b, g <+: h' → R h' a b → SimFrom g h' (f a) (k b) S) : SimFrom g h (x >>= f) (r >>= k) S := by
  obtain ⟨h', hp, ⟨a, b, h1, h2, h3⟩ | ⟨e, h1, h2⟩⟩ := hx
  · obtain ⟨h'', hp', h4⟩ := hf h' a b hp h3
    refine ⟨h'', hp', ?_⟩
    rw [bind_of_ok h1, h2]
    exact h4
  · refine ⟨h', hp, .inr ⟨e, bind_of_error h1, by rw [h2]; rfl⟩⟩

theorem SimFrom.lift {β} {g h : Heap} (hp : g <+: h) {r : Except Err β} :
    SimFrom g h (Py.lift r) r (fun h' a b => h' = h ∧ a = b ∧ r = .ok b) := by
  cases hr : r with
  | error e => exact ⟨h, hp, .inr ⟨e, rfl, rfl⟩⟩
  | ok b => exact ⟨h, hp, .inl ⟨b, b, rfl, rfl, rfl, rfl, rfl⟩⟩

theorem SimFrom.pure {γ δ} {g h : Heap} (hp : g <+: h) {a : γ} {b : δ} {S : Heap → γ → δ → Prop} (hS : S h a b) :
    SimFrom g h (Py.pure a) (.ok b) S :=
  ⟨h, hp, .inl ⟨a, b, rfl, rfl, hS⟩⟩

theorem SimFrom.raise {γ δ} {g h : Heap} (hp : g <+: h) {e : Err} {S : Heap → γ → δ → Prop} :
    SimFrom g h (Py.raise e) (.error e) S :=
  ⟨h, hp, .inr ⟨e, rfl, rfl⟩⟩

theorem prefix_set {g h : Heap} (hp : g <+: h) {a : Addr} (ha : g.length ≤ a) (o : Obj) : g <+: h.set a o := by
  obtain ⟨t, rfl⟩ := hp
  rw [List.set_append_right _ _ ha]
  exact List.prefix_append _ _

theorem get_set_ne {h : Heap} {a b : Addr} (hab : a ≠ b) (o : Obj) : (h.set a o)[b]? = h[b]? :=
  List.getElem?_set_ne hab

theorem lt_of_get {h : Heap} {a : Addr} {o : Obj} (ha : h[a]? = some o) : a < h.length := by
  by_contra hn
  rw [List.getElem?_eq_none (Nat.not_lt.1 hn)] at ha
  cases ha

theorem get_set_eq {h : Heap} {a : Addr} {o o' : Obj} (ha : h[a]? = some o') : (h.set a o)[a]? = some o :=
  List.getElem?_set_self (lt_of_get ha)

theorem get_append {h : Heap} {a : Addr} {o o' : Obj} (ha : h[a]? = some o) : (h ++ [o'])[a]? = some o :=
  getElem?_prefix (List.prefix_append _ _) ha

/-- The matrices `hGlobalCostMatrix` returns. -/
def GCRel (n0 : Nat) (h : Heap) (r : Addr × Addr) (v : Mat F64 × Mat Int) : Prop :=
  h[r.1]? = some (.arr (.d2 v.1)) ∧ h[r.2]? = some (.imat v.2) ∧ n0 ≤ r.1 ∧ n0 ≤ r.2

/-- The second half of `hGlobalCostMatrix`, once the three matrices exist. -/
theorem gcmTail_sim {A : Arith} {g h : Heap} (hp : g <+: h) {wmA lmA cmA : Addr} {wm : Mat Int} {lm cm : Mat F64}
    {lay : Layout} {p : StepPattern} (h1 : h[wmA]? = some (.imat wm)) (h2 : h[lmA]? = some (.arr (.d2 lm)))
    (h3 : h[cmA]? = some (.arr (.d2 cm))) (hc : g.length ≤ cmA) :
    SimFrom g h (do
      let wm ← Py.readIMat wmA
      let lm ← Py.readMat lmA
      let cm ← Py.readMat cmA
      let smA ← Py.alloc (.imat ⟨lm.rows, lm.cols, List.replicate (lm.rows * lm.cols) (-1)⟩)
      let (cm', sm') ← Py.lift (computeCMWrapper A wm lm lay p.getNRows p.getP cm)
      Py.write cmA (.arr (.d2 cm'))
      Py.write smA (.imat sm')
      Py.pure (cmA, smA)) (computeCMWrapper A wm lm lay p.getNRows p.getP cm) (GCRel g.length) := by
  refine SimFrom.step (readIMat_of h1) ?_
  refine SimFrom.step (readMat_of h2) ?_
  refine SimFrom.step (readMat_of h3) ?_
  refine SimFrom.step (alloc_run _ _) ?_
  have hp' : g <+: h ++ [Obj.imat ⟨lm.rows, lm.cols, List.replicate (lm.rows * lm.cols) (-1)⟩] :=
    hp.trans (List.prefix_append _ _)
  generalize computeCMWrapper A wm lm lay p.getNRows p.getP cm = R
  suffices hs : SimFrom g (h ++ [Obj.imat ⟨lm.rows, lm.cols, List.replicate (lm.rows * lm.cols) (-1)⟩]) (do
      let (cm', sm') ← Py.lift R
      Py.write cmA (.arr (.d2 cm'))
      Py.write h.length (.imat sm')
      Py.pure (cmA, h.length)) (R >>= fun m => Except.ok m) (GCRel g.length) by
    rwa [bind_ok_self] at hs
  refine SimFrom.bind (SimFrom.lift hp') ?_
  rintro h' ⟨cm', sm'⟩ _ - ⟨rfl, rfl, -⟩
  refine SimFrom.step (x := Py.write cmA _) (a := ()) rfl ?_
  refine SimFrom.step (x := Py.write h.length _) (a := ()) rfl ?_
  have hne : h.length ≠ cmA := (Nat.ne_of_lt (lt_of_get h3)).symm
  refine SimFrom.pure (prefix_set (prefix_set hp' hc _) hp.length_le _) ⟨?_, ?_, hc, hp.length_le⟩
  · rw [get_set_ne hne]
    exact get_set_eq (get_append h3)
  · exact get_set_eq (o' := _) (by rw [get_set_ne (Ne.symm hne)]; exact alloc_at _ _)

theorem gcm_none_sim {A : Arith} {h : Heap} {lmA : Addr} {lm : Mat F64} {lay : Layout} {p : StepPattern} {wf : WinFn}
    {args : WinArgs} (hl : h[lmA]? = some (.arr (.d2 lm))) :
    SimFrom h h (hGlobalCostMatrix A lmA lay p wf none args) (globalCostMatrix A lm lay p wf none args)
      (GCRel h.length) := by
  unfold hGlobalCostMatrix globalCostMatrix
  refine SimFrom.step (readMat_of hl) ?_
  refine SimFrom.bind (SimFrom.lift (List.prefix_refl _)) ?_
  rintro h' wm _ - ⟨rfl, rfl, -⟩
  refine SimFrom.step (alloc_run _ _) ?_
  refine SimFrom.bind (R := fun h'' a (b : Mat F64) => h''[a]? = some (.arr (.d2 b)) ∧ h'.length ≤ a ∧
    h''[h'.length]? = some (.imat wm)) ?_ ?_
  · unfold hInitialCM initialCM
    simp only
    refine SimFrom.step (alloc_run _ _) ?_
    have hp : h' <+: h' ++ [Obj.imat wm] ++ [Obj.arr (.d2 ⟨lm.rows, lm.cols, List.replicate (lm.rows * lm.cols) nan⟩)] :=
      (List.prefix_append _ _).trans (List.prefix_append _ _)
    split
    · exact SimFrom.raise hp
    · refine SimFrom.bind (SimFrom.lift hp) ?_
      rintro h'' v _ - ⟨rfl, rfl, -⟩
      refine SimFrom.step (readMat_of (alloc_at _ _)) ?_
      refine SimFrom.step (x := Py.write _ _) (a := ()) rfl ?_
      refine SimFrom.pure (prefix_set hp (by simp) _) ⟨get_set_eq (alloc_at _ _), by simp, ?_⟩
      rw [get_set_ne (by simp)]
      exact get_append (alloc_at _ _)
  · rintro h'' cmA cm hp ⟨h1, h2, h3⟩
    exact gcmTail_sim hp h3 (getElem?_prefix hp hl) h1 h2

theorem gcm_seed_sim {A : Arith} {g : Heap} {lmA : Addr} {lm seed : Mat F64} {lay : Layout} {p : StepPattern} {wf : WinFn}
    {args : WinArgs} (hl : g[lmA]? = some (.arr (.d2 lm))) :
    SimFrom g (g ++ [.arr (.d2 seed)]) (hGlobalCostMatrix A lmA lay p wf (some g.length) args)
      (globalCostMatrix A lm lay p wf (some seed) args) (GCRel g.length) := by
  unfold hGlobalCostMatrix globalCostMatrix
  refine SimFrom.step (readMat_of (get_append hl)) ?_
  refine SimFrom.bind (SimFrom.lift (List.prefix_append _ _)) ?_
  rintro h' wm _ hp ⟨rfl, rfl, -⟩
  refine SimFrom.step (alloc_run _ _) ?_
  refine SimFrom.step (x := hInitialCM _ _) (a := g.length) rfl ?_
  simp only [initialCM, Except_bind_ok]
  exact gcmTail_sim (hp.trans (List.prefix_append _ _)) (alloc_at _ _) (get_append (get_append hl))
    (get_append (alloc_at _ _)) (Nat.le_refl _)

/-- What `hRunGCM` returns. -/
def RunRel (lmA : Addr) (n0 : Nat) (h : Heap) (r : Addr × Addr × Addr) (v : Mat F64 × Mat F64 × Mat Int) : Prop :=
  h[r.1]? = some (.arr (.d2 v.1)) ∧ h[r.2.1]? = some (.arr (.d2 v.2.1)) ∧ h[r.2.2]? = some (.imat v.2.2) ∧
    n0 ≤ r.2.1 ∧ n0 ≤ r.2.2 ∧ (r.1 = lmA ∨ n0 ≤ r.1)

theorem hRunGCM_sim {A : Arith} {h : Heap} {c : Call} {a : Args} {lmA : Addr} {lm : Mat F64} {lay : Layout}
    {wf : WinFn} {p : StepPattern} (hob : c.openBegin = a.openBegin) (hst : c.stackContig = a.stackContig)
    (hy : c.y.isSome = a.y.isSome) (hl : h[lmA]? = some (.arr (.d2 lm))) :
    SimFrom h h (hRunGCM A c a.windowArgs lmA lay wf p) (runGCM A a lm lay wf p) (RunRel lmA h.length) := by
  unfold hRunGCM runGCM
  rw [hob, hst, hy]
  split
  · split
    · exact SimFrom.raise (List.prefix_refl _)
    · refine SimFrom.step (readMat_of hl) ?_
      refine SimFrom.step (alloc_run _ _) ?_
      refine SimFrom.step (alloc_run _ _) ?_
      refine SimFrom.step (readMat_of (alloc_at _ _)) ?_
      refine SimFrom.step (x := Py.write _ _) (a := ()) rfl ?_
      have hset : ∀ (g : Heap) (o o' : Obj), (g ++ [o]).set g.length o' = g ++ [o'] := by
        intro g o o'
        rw [List.set_append_right _ _ (Nat.le_refl _)]
        simp
      have hd : List.replicate lm.cols (fin 0) ++
          List.drop lm.cols (List.replicate ((lm.rows + 1) * lm.cols) nan) =
          List.replicate lm.cols (fin 0) ++ List.replicate (lm.rows * lm.cols) nan := by
        rw [List.drop_replicate, Nat.succ_mul, Nat.add_sub_cancel]
      rw [hset]
      simp only [hd]
      obtain ⟨h', hp, hr⟩ := gcm_seed_sim (A := A) (g := h ++ [Obj.arr (.d2 (prependZeros lm))]) (lmA := h.length)
        (lm := prependZeros lm) (seed := precm lm) (lay := ⟨true, if a.y.isSome = true then true else a.stackContig⟩) (p := p) (wf := wf)
        (args := a.windowArgs) (alloc_at _ _)
      have hx : SimFrom h (h ++ [Obj.arr (.d2 (prependZeros lm))] ++ [Obj.arr (.d2 (precm lm))])
          (hGlobalCostMatrix A h.length ⟨true, if a.y.isSome = true then true else a.stackContig⟩ p wf
            (some (h ++ [Obj.arr (.d2 (prependZeros lm))]).length) a.windowArgs)
          (globalCostMatrix A (prependZeros lm) ⟨true, if a.y.isSome = true then true else a.stackContig⟩ p wf
            (some (precm lm)) a.windowArgs)
          (fun h' r v => GCRel h.length h' r v ∧ h'[h.length]? = some (.arr (.d2 (prependZeros lm)))) := by
        refine ⟨h', (List.prefix_append _ _).trans hp, ?_⟩
        rcases hr with ⟨x, y, h1, h2, h3, h4, h5, h6⟩ | hr
        · refine .inl ⟨x, y, h1, h2, ⟨h3, h4, ?_, ?_⟩, getElem?_prefix hp (alloc_at _ _)⟩
          · simp at h5; omega
          · simp at h6; omega
        · exact .inr hr
      refine SimFrom.bind hx ?_
      rintro h'' ⟨cm, sm⟩ ⟨cv, sv⟩ hp'' ⟨⟨h1, h2, h3, h4⟩, h5⟩
      exact SimFrom.pure hp'' ⟨h5, h1, h2, h3, h4, .inr (Nat.le_refl _)⟩
  · refine SimFrom.bind (gcm_none_sim hl) ?_
    rintro h'' ⟨cm, sm⟩ ⟨cv, sv⟩ hp'' ⟨h1, h2, h3, h4⟩
    exact SimFrom.pure hp'' ⟨getElem?_prefix hp'' hl, h1, h2, h3, h4, .inl rfl⟩


/-- The addresses of the index arrays denote the mapping and are new. -/
def MapRel (n0 : Nat) (h : Heap) (r : Option (Addr × Addr × Addr × Addr × Addr)) (mp : Option Mapping) : Prop :=
  match r, mp with
  | none, none => True
  | some (a, b, c, d, e), some mp =>
    h[a]? = some (.ivec mp.index1) ∧ h[b]? = some (.ivec mp.index2) ∧ h[c]? = some (.ivec mp.index1s) ∧
      h[d]? = some (.ivec mp.index2s) ∧ h[e]? = some (.ivec mp.stepsTaken) ∧
      n0 ≤ a ∧ n0 ≤ b ∧ n0 ≤ c ∧ n0 ≤ d ∧ n0 ≤ e
  | _, _ => False

theorem MapRel.mono {n0 : Nat} {h h' : Heap} (hp : h <+: h') {r : Option (Addr × Addr × Addr × Addr × Addr)}
    {mp : Option Mapping} (hm : MapRel n0 h r mp) : MapRel n0 h' r mp := by
  cases r with
  | none =>
    cases mp with
    | none => trivial
    | some _ => exact hm
  | some r =>
    obtain ⟨a, b, c, d, e⟩ := r
    cases mp with
    | none => exact hm
    | some mp =>
      obtain ⟨h1, h2, h3, h4, h5, h6⟩ := hm
      exact ⟨getElem?_prefix hp h1, getElem?_prefix hp h2, getElem?_prefix hp h3, getElem?_prefix hp h4,
        getElem?_prefix hp h5, h6⟩

theorem hMapping_run (h : Heap) (mp : Option Mapping) :
    ∃ h' r, h <+: h' ∧ hMapping mp h = (.ok r, h') ∧ MapRel h.length h' r mp := by
  cases mp with
  | none => exact ⟨h, none, List.prefix_refl _, rfl, trivial⟩
  | some mp =>
    refine ⟨h ++ [Obj.ivec mp.index1] ++ [Obj.ivec mp.index2] ++ [Obj.ivec mp.index1s] ++ [Obj.ivec mp.index2s] ++
      [Obj.ivec mp.stepsTaken], _, ?_, rfl, ?_⟩
    · simp only [List.append_assoc]
      exact List.prefix_append _ _
    · refine ⟨?_, ?_, ?_, ?_, ?_, ?_, ?_, ?_, ?_, ?_⟩
      · exact get_append (get_append (get_append (get_append (alloc_at _ _))))
      · exact get_append (get_append (get_append (alloc_at _ _)))
      · exact get_append (get_append (alloc_at _ _))
      · exact get_append (alloc_at _ _)
      · exact alloc_at _ _
      all_goals simp

theorem hDropRow_run {h : Heap} {a : Addr} {m : Mat F64} (b : Bool) (ha : h[a]? = some (.arr (.d2 m))) :
    ∃ h' r, h <+: h' ∧ hDropRow b a h = (.ok r, h') ∧ h'[r]? = some (.arr (.d2 (if b then m.dropRow else m))) ∧
      (r = a ∨ h.length ≤ r) := by
  cases b with
  | false => exact ⟨h, a, List.prefix_refl _, rfl, ha, .inl rfl⟩
  | true =>
    refine ⟨h ++ [Obj.arr (.d2 m.dropRow)], h.length, List.prefix_append _ _, ?_, alloc_at _ _, .inr (Nat.le_refl _)⟩
    show (Py.readMat a >>= _) h = _
    rw [bind_of_ok (readMat_of ha)]
    rfl

theorem hDropRowI_run {h : Heap} {a : Addr} {m : Mat Int} (b : Bool) (ha : h[a]? = some (.imat m)) :
    ∃ h' r, h <+: h' ∧ hDropRowI b a h = (.ok r, h') ∧ h'[r]? = some (.imat (if b then m.dropRow else m)) ∧
      (r = a ∨ h.length ≤ r) := by
  cases b with
  | false => exact ⟨h, a, List.prefix_refl _, rfl, ha, .inl rfl⟩
  | true =>
    refine ⟨h ++ [Obj.imat m.dropRow], h.length, List.prefix_append _ _, ?_, alloc_at _ _, .inr (Nat.le_refl _)⟩
    show (Py.readIMat a >>= _) h = _
    rw [bind_of_ok (readIMat_of ha)]
    rfl

theorem arr?_congr {h h' : Heap} {a : Addr} (e : h'[a]? = h[a]?) : h'.arr? a = h.arr? a := by
  unfold Heap.arr?; rw [e]

theorem dict?_congr {h h' : Heap} {a : Addr} (e : h'[a]? = h[a]?) : h'.dict? a = h.dict? a := by
  unfold Heap.dict?; rw [e]

theorem pat?_congr {h h' : Heap} {a : Addr} (e : h'[a]? = h[a]?) : h'.pat? a = h.pat? a := by
  unfold Heap.pat?; rw [e]

/-- What a call denotes depends only on the objects it refers to. -/
theorem Call.deref_congr {h h' : Heap} {c : Call} (e : ∀ a ∈ c.refs, h'[a]? = h[a]?) : c.deref h' = c.deref h := by
  have e1 := arr?_congr (e c.x (by simp [Call.refs]))
  have e2 := dict?_congr (e (c.windowArgs.getD defaultWindowArgs) (by simp [Call.refs]))
  have e3 : derefY h' c.y = derefY h c.y := by
    cases hy : c.y with
    | none => rfl
    | some b =>
      simp only [derefY]
      rw [arr?_congr (e b (by simp [Call.refs, hy]))]
  have e4 : c.stepPattern.deref h' = c.stepPattern.deref h := by
    cases hs : c.stepPattern with
    | obj b =>
      simp only [PatRef.deref]
      rw [pat?_congr (e b (by simp [Call.refs, hs]))]
    | name s =>
      simp only [PatRef.deref]
      cases hp : patternAddr s with
      | none => rfl
      | some b =>
        simp only
        rw [pat?_congr (e b (by simp [Call.refs, hs, hp]))]
  unfold Call.deref
  rw [e1, e2, e3, e4]

/-- A call that denotes something refers to existing objects. -/
theorem Call.refs_lt {h : Heap} {c : Call} {a : Args} (ha : c.deref h = some a) : ∀ b ∈ c.refs, b < h.length := by
  unfold Call.deref at ha
  split at ha
  case h_2 => cases ha
  rename_i x y p w hx hy hp hw
  intro b hb
  simp only [Call.refs, List.mem_append, List.mem_cons, List.not_mem_nil, or_false, Option.mem_toList] at hb
  rcases hb with ((rfl | rfl) | hb) | hb
  · exact lt_of_get (arr?_iff.1 hx)
  · exact lt_of_get (dict?_iff.1 hw)
  · rw [hb] at hy
    simp only [derefY, Option.map_eq_some_iff] at hy
    obtain ⟨yv, hy, -⟩ := hy
    exact lt_of_get (arr?_iff.1 hy)
  · cases hs : c.stepPattern with
    | obj d =>
      rw [hs] at hb hp
      simp only [PatRef.deref, Option.map_eq_some_iff] at hp
      obtain ⟨pv, hp, -⟩ := hp
      simp only [List.mem_singleton] at hb
      subst hb
      exact lt_of_get (pat?_iff.1 hp)
    | name s =>
      rw [hs] at hb hp
      simp only [Option.mem_toList] at hb
      simp only [PatRef.deref, hb, Option.map_eq_some_iff] at hp
      obtain ⟨pv, hp, -⟩ := hp
      exact lt_of_get (pat?_iff.1 hp)

theorem Call.deref_mono {h h' : Heap} (hp : h <+: h') {c : Call} {a : Args} (ha : c.deref h = some a) :
    c.deref h' = some a := by
  rw [← ha]
  refine Call.deref_congr fun b hb => ?_
  have := Call.refs_lt ha b hb
  obtain ⟨t, rfl⟩ := hp
  exact List.getElem?_append_left this

theorem mapping?_of {n0 : Nat} {h : Heap} {idx : Option (Addr × Addr × Addr × Addr × Addr)} {mp : Option Mapping}
    (hm : MapRel n0 h idx mp) {r : HResult} (e1 : r.index1 = idx.map (·.1)) (e2 : r.index2 = idx.map (·.2.1))
    (e3 : r.index1s = idx.map (·.2.2.1)) (e4 : r.index2s = idx.map (·.2.2.2.1))
    (e5 : r.stepsTaken = idx.map (·.2.2.2.2)) : r.mapping? h = some mp := by
  unfold HResult.mapping?
  rw [e1, e2, e3, e4, e5]
  cases idx with
  | none =>
    cases mp with
    | none => rfl
    | some _ => exact hm.elim
  | some r =>
    obtain ⟨i1, i2, i3, i4, i5⟩ := r
    cases mp with
    | none => exact hm.elim
    | some mp =>
      obtain ⟨m1, m2, m3, m4, m5, -⟩ := hm
      simp [ivec?_iff.2 m1, ivec?_iff.2 m2, ivec?_iff.2 m3, ivec?_iff.2 m4, ivec?_iff.2 m5]

/-- The heap execution refines the value-level one. -/
theorem hdtw_sim {A : Arith} {h : Heap} {c : Call} {a : Args} (ha : c.deref h = some a) :
    Sim h (hdtw A c) (dtw A a) (fun h' r v => r.deref h' = some v ∧ r.OwnedBy c h.length) := by
  have hflags : c.openBegin = a.openBegin ∧ c.stackContig = a.stackContig ∧ c.y.isSome = a.y.isSome ∧
      c.windowType = a.windowType ∧ c.keepInternals = a.keepInternals ∧ c.distanceOnly = a.distanceOnly ∧
      c.openEnd = a.openEnd ∧ h[c.windowArgs.getD defaultWindowArgs]? = some (.dict a.windowArgs) := by
    unfold Call.deref at ha
    split at ha
    case h_2 => cases ha
    rename_i x y p w hx hy hp hw
    cases ha
    refine ⟨rfl, rfl, ?_, rfl, rfl, rfl, rfl, dict?_iff.1 hw⟩
    cases hc : c.y with
    | none => rw [hc] at hy; cases hy; rfl
    | some b =>
      rw [hc] at hy
      simp only [derefY, Option.map_eq_some_iff] at hy
      obtain ⟨yv, hy, rfl⟩ := hy
      rfl
  obtain ⟨hob, hst, hy, hwt, hki, hdo, hoe, hw⟩ := hflags
  unfold hdtw dtw
  refine Sim.bind (hLocalCost_sim ha) ?_
  rintro h1 ⟨lmA, lay, qr⟩ ⟨lm, lay', qrv⟩ hp1 ⟨hl, hlay, hqr, hfl, hqb⟩
  simp only at hl hlay hqr hfl hqb
  subst hlay
  have ha1 : c.deref h1 = some a := Call.deref_mono hp1 ha
  refine Sim.bind (hPattern_sim ha1) ?_
  rintro h1 ⟨pA, p⟩ p' - ⟨rfl, rfl, hpat, hpc⟩
  simp only at hpat hpc
  refine Sim.step (readMat_of hl) (List.prefix_refl _) ?_
  refine Sim.step (readDict_of (getElem?_prefix hp1 hw)) (List.prefix_refl _) ?_
  rw [hwt]
  refine Sim.bind (hRunGCM_sim hob hst hy hl) ?_
  rintro h2 ⟨lmA', cmA, smA⟩ ⟨lmv, cmv, smv⟩ hp2 ⟨h21, h22, h23, h24, h25, h26⟩
  simp only at h21 h22 h23 h24 h25 h26
  replace h26 : h.length ≤ lmA' := by
    rcases h26 with rfl | h26
    · exact hfl
    · exact hp1.length_le.trans h26
  refine Sim.step (readMat_of h22) (List.prefix_refl _) ?_
  have epe : ∀ norm m cm lastcol, pickEnd (c.flags a.windowArgs) norm m cm lastcol = pickEnd a norm m cm lastcol := by
    intros
    simp only [pickEnd, Call.flags, hoe]
  have epm : ∀ p sm j, pickMapping (c.flags a.windowArgs) p sm j = pickMapping a p sm j := by
    intros
    simp only [pickMapping, Call.flags, hob, hdo]
  simp only [epe, epm]
  refine Sim.bind Sim.lift ?_
  rintro _ ⟨jmin, distance⟩ _ - ⟨rfl, rfl, -⟩
  refine Sim.bind Sim.lift ?_
  rintro _ nd _ - ⟨rfl, rfl, -⟩
  refine Sim.step (readIMat_of h23) (List.prefix_refl _) ?_
  refine Sim.bind Sim.lift ?_
  rintro _ mp _ - ⟨rfl, rfl, -⟩
  rename_i h2
  obtain ⟨h3, idx, hp3, e3, hm3⟩ := hMapping_run h2 mp
  refine Sim.step e3 hp3 ?_
  obtain ⟨h4, lmA2, hp4, e4, hl4, hf4⟩ := hDropRow_run c.openBegin (getElem?_prefix hp3 h21)
  refine Sim.step e4 hp4 ?_
  obtain ⟨h5, cmA2, hp5, e5, hl5, hf5⟩ := hDropRow_run c.openBegin (getElem?_prefix (hp3.trans hp4) h22)
  refine Sim.step e5 hp5 ?_
  obtain ⟨h6, smA2, hp6, e6, hl6, hf6⟩ := hDropRowI_run c.openBegin (getElem?_prefix ((hp3.trans hp4).trans hp5) h23)
  refine Sim.step e6 hp6 ?_
  have p36 := (hp4.trans hp5).trans hp6
  have p26 := hp3.trans p36
  have p16 := hp2.trans p26
  have p06 := hp1.trans p16
  have hm6 := hm3.mono p36
  have hl4' := getElem?_prefix (hp5.trans hp6) hl4
  have hl5' := getElem?_prefix hp6 hl5
  have hq6 := hqr.mono p16
  refine Sim.pure ⟨?_, ?_⟩
  · have d1 := dict?_iff.2 (getElem?_prefix p06 hw)
    have d2 := pat?_iff.2 (getElem?_prefix p16 hpat)
    have d3 := mat?_iff.2 hl5'
    have d4 := imat?_iff.2 hl6
    have d5 := mat?_iff.2 hl4'
    have d6 : ∀ r : HResult, r.index1 = idx.map (·.1) → r.index2 = idx.map (·.2.1) → r.index1s = idx.map (·.2.2.1) →
        r.index2s = idx.map (·.2.2.2.1) → r.stepsTaken = idx.map (·.2.2.2.2) → r.mapping? h6 = some mp :=
      fun r e1 e2 e3 e4 e5 => mapping?_of hm6 e1 e2 e3 e4 e5
    unfold QRel at hq6
    unfold HResult.deref
    rw [d6 _ rfl rfl rfl rfl rfl]
    simp only [d1, d2]
    rw [hki, hob, hoe]
    rw [hob] at d3 d4 d5
    cases a.keepInternals with
    | false => simp [derefOpt]
    | true => simp_all [derefOpt]
  · have l1 : h.length ≤ h1.length := hp1.length_le
    have l2 : h1.length ≤ h2.length := hp2.length_le
    have l3 : h2.length ≤ h3.length := hp3.length_le
    have l4 : h3.length ≤ h4.length := hp4.length_le
    have l5 : h4.length ≤ h5.length := hp5.length_le
    have hidx : ∀ b, (idx.map (·.1) = some b ∨ idx.map (·.2.1) = some b ∨ idx.map (·.2.2.1) = some b ∨
        idx.map (·.2.2.2.1) = some b ∨ idx.map (·.2.2.2.2) = some b) → h.length ≤ b := by
      intro b hb
      cases idx with
      | none => simp at hb
      | some r =>
        obtain ⟨i1, i2, i3, i4, i5⟩ := r
        cases mp with
        | none => exact hm6.elim
        | some mp =>
          obtain ⟨-, -, -, -, -, m1, m2, m3, m4, m5⟩ := hm6
          simp only [Option.map_some, Option.some.injEq] at hb
          rcases hb with rfl | rfl | rfl | rfl | rfl <;> omega
    refine ⟨fun b hb => hidx b (.inl hb), fun b hb => hidx b (.inr (.inl hb)), fun b hb => hidx b (.inr (.inr (.inl hb))),
      fun b hb => hidx b (.inr (.inr (.inr (.inl hb)))), fun b hb => hidx b (.inr (.inr (.inr (.inr hb)))),
      ?_, ?_, ?_, rfl, hpc, ?_⟩
    · intro b hb
      simp only at hb
      split at hb <;> cases hb
      rcases hf5 with rfl | hf5
      · exact l1.trans h24
      · exact (l1.trans (l2.trans (l3.trans l4))).trans hf5
    · intro b hb
      simp only at hb
      split at hb <;> cases hb
      rcases hf6 with rfl | hf6
      · exact l1.trans h25
      · exact (l1.trans (l2.trans (l3.trans (l4.trans l5)))).trans hf6
    · intro b hb
      simp only at hb
      split at hb <;> cases hb
      rcases hf4 with rfl | hf4
      · exact h26
      · exact (l1.trans (l2.trans l3)).trans hf4
    · intro q hq
      simp only at hq
      split at hq
      · exact hqb q hq
      · cases hq

/-! ### A call only appends to the heap, whatever its arguments -/

/-- `x` keeps the objects of `g`, whether it returns or raises. -/
def Safe {α} (g h : Heap) (x : Py α) (R : Heap → α → Prop) : Prop :=
  g <+: (x h).2 ∧ ∀ a, (x h).1 = .ok a → R (x h).2 a

theorem Safe.bind {α β} {g h : Heap} {x : Py α} {f : α → Py β} {R : Heap → α → Prop} {S : Heap → β → Prop}
    (hx : Safe g h x R) (hf : ∀ h' a, g <+: h' → R h' a → Safe g h' (f a) S) : Safe g h (x >>= f) S := by
  obtain ⟨h1, h2⟩ := hx
  cases hxh : x h with
  | mk r h' =>
    rw [hxh] at h1 h2
    cases r with
    | ok a =>
      unfold Safe
      rw [bind_of_ok hxh]
      exact hf h' a h1 (h2 a rfl)
    | error e =>
      unfold Safe
      rw [bind_of_error hxh]
      exact ⟨h1, fun b hb => by cases hb⟩

theorem Safe.weaken {α} {g h : Heap} {x : Py α} {R S : Heap → α → Prop} (hx : Safe g h x R)
    (hRS : ∀ h' a, R h' a → S h' a) : Safe g h x S :=
  ⟨hx.1, fun a ha => hRS _ _ (hx.2 a ha)⟩

theorem Safe.pure {α} {g h : Heap} (hp : g <+: h) {a : α} {R : Heap → α → Prop} (hR : R h a) :
    Safe g h (Py.pure a) R := ⟨hp, fun b hb => by cases hb; exact hR⟩

theorem Safe.raise {α} {g h : Heap} (hp : g <+: h) {e : Err} {R : Heap → α → Prop} : Safe g h (Py.raise e) R :=
  ⟨hp, fun b hb => by cases hb⟩

theorem Safe.lift {α} {g h : Heap} (hp : g <+: h) {r : Except Err α} : Safe g h (Py.lift r) (fun _ _ => True) :=
  ⟨hp, fun _ _ => trivial⟩

theorem Safe.alloc {g h : Heap} (hp : g <+: h) (o : Obj) : Safe g h (Py.alloc o) (fun _ a => g.length ≤ a) :=
  ⟨hp.trans (List.prefix_append _ _), fun b hb => by cases hb; exact hp.length_le⟩

theorem Safe.write {g h : Heap} (hp : g <+: h) {a : Addr} (ha : g.length ≤ a) (o : Obj) :
    Safe g h (Py.write a o) (fun _ _ => True) :=
  ⟨prefix_set hp ha o, fun _ _ => trivial⟩

theorem Safe.read {g h : Heap} (hp : g <+: h) (a : Addr) : Safe g h (Py.read a) (fun _ _ => True) := by
  unfold Safe Py.read
  split <;> exact ⟨hp, fun _ _ => trivial⟩

theorem Safe.readMat {g h : Heap} (hp : g <+: h) (a : Addr) : Safe g h (Py.readMat a) (fun _ _ => True) := by
  refine Safe.bind (Safe.read hp a) fun h' o hp' _ => ?_
  split
  · exact Safe.pure hp' trivial
  · exact Safe.raise hp'

theorem Safe.readIMat {g h : Heap} (hp : g <+: h) (a : Addr) : Safe g h (Py.readIMat a) (fun _ _ => True) := by
  refine Safe.bind (Safe.read hp a) fun h' o hp' _ => ?_
  split
  · exact Safe.pure hp' trivial
  · exact Safe.raise hp'

theorem Safe.readArr {g h : Heap} (hp : g <+: h) (a : Addr) : Safe g h (Py.readArr a) (fun _ _ => True) := by
  refine Safe.bind (Safe.read hp a) fun h' o hp' _ => ?_
  split
  · exact Safe.pure hp' trivial
  · exact Safe.raise hp'

theorem Safe.readDict {g h : Heap} (hp : g <+: h) (a : Addr) : Safe g h (Py.readDict a) (fun _ _ => True) := by
  refine Safe.bind (Safe.read hp a) fun h' o hp' _ => ?_
  split
  · exact Safe.pure hp' trivial
  · exact Safe.raise hp'

theorem Safe.readPat {g h : Heap} (hp : g <+: h) (a : Addr) : Safe g h (Py.readPat a) (fun _ _ => True) := by
  refine Safe.bind (Safe.read hp a) fun h' o hp' _ => ?_
  split
  · exact Safe.pure hp' trivial
  · exact Safe.raise hp'

theorem hLocalCost_safe {g h : Heap} (hp : g <+: h) (c : Call) : Safe g h (hLocalCost c) (fun _ _ => True) := by
  have hcol : ∀ {h : Heap}, g <+: h → ∀ a, Safe g h (columnView a) (fun _ _ => True) := by
    intro h hp a
    refine Safe.bind (Safe.readArr hp a) fun h' v hp' _ => ?_
    exact Safe.bind (Safe.lift hp') fun h'' m hp'' _ => Safe.pure hp'' trivial
  unfold hLocalCost
  cases c.y with
  | none =>
    refine Safe.bind (Safe.readArr hp _) fun h' v hp' _ => ?_
    cases v with
    | d2 m => exact Safe.bind (Safe.alloc hp' _) fun h'' _ hp'' _ => Safe.pure hp'' trivial
    | _ => exact Safe.raise hp'
  | some y =>
    refine Safe.bind (hcol hp _) fun h1 _ p1 _ => ?_
    refine Safe.bind (hcol p1 _) fun h2 _ p2 _ => ?_
    refine Safe.bind (Safe.lift p2) fun h3 _ p3 _ => ?_
    exact Safe.bind (Safe.alloc p3 _) fun h'' _ hp'' _ => Safe.pure hp'' trivial

theorem hPattern_safe {g h : Heap} (hp : g <+: h) (c : Call) : Safe g h (hPattern c) (fun _ _ => True) := by
  unfold hPattern
  cases c.stepPattern with
  | obj a => exact Safe.bind (Safe.readPat hp _) fun h'' _ hp'' _ => Safe.pure hp'' trivial
  | name s =>
    cases hs : patternAddr s with
    | none =>
      simp only [hs]
      exact Safe.raise hp
    | some a =>
      simp only [hs]
      exact Safe.bind (Safe.readPat hp _) fun h'' _ hp'' _ => Safe.pure hp'' trivial

theorem hInitialCM_safe {g h : Heap} (hp : g <+: h) (lm : Mat F64) (seed : Option Addr)
    (hs : ∀ s, seed = some s → g.length ≤ s) : Safe g h (hInitialCM lm seed) (fun _ a => g.length ≤ a) := by
  unfold hInitialCM
  cases seed with
  | some s => exact Safe.pure hp (hs s rfl)
  | none =>
    refine Safe.bind (Safe.alloc hp _) fun h1 a p1 ha => ?_
    split
    · exact Safe.raise p1
    · refine Safe.bind (Safe.lift p1) fun h2 _ p2 _ => ?_
      refine Safe.bind (Safe.readMat p2 _) fun h3 _ p3 _ => ?_
      exact Safe.bind (Safe.write p3 ha _) fun h4 _ p4 _ => Safe.pure p4 ha

theorem hGlobalCostMatrix_safe {A : Arith} {g h : Heap} (hp : g <+: h) (lmA : Addr) (lay : Layout) (p : StepPattern)
    (wf : WinFn) (seed : Option Addr) (args : WinArgs) (hs : ∀ s, seed = some s → g.length ≤ s) :
    Safe g h (hGlobalCostMatrix A lmA lay p wf seed args) (fun _ _ => True) := by
  unfold hGlobalCostMatrix
  refine Safe.bind (Safe.readMat hp _) fun h1 lm p1 _ => ?_
  refine Safe.bind (Safe.lift p1) fun h2 _ p2 _ => ?_
  refine Safe.bind (Safe.alloc p2 _) fun h3 _ p3 _ => ?_
  refine Safe.bind (hInitialCM_safe p3 lm seed hs) fun h4 cmA p4 hc => ?_
  refine Safe.bind (Safe.readIMat p4 _) fun h5 _ p5 _ => ?_
  refine Safe.bind (Safe.readMat p5 _) fun h6 _ p6 _ => ?_
  refine Safe.bind (Safe.readMat p6 _) fun h7 _ p7 _ => ?_
  refine Safe.bind (Safe.alloc p7 _) fun h8 _ p8 hs => ?_
  refine Safe.bind (Safe.lift p8) fun h9 _ p9 _ => ?_
  refine Safe.bind (Safe.write p9 hc _) fun h10 _ p10 _ => ?_
  exact Safe.bind (Safe.write p10 hs _) fun h11 _ p11 _ => Safe.pure p11 trivial

theorem hRunGCM_safe {A : Arith} {g h : Heap} (hp : g <+: h) (c : Call) (args : WinArgs) (lmA : Addr) (lay : Layout)
    (wf : WinFn) (p : StepPattern) : Safe g h (hRunGCM A c args lmA lay wf p) (fun _ _ => True) := by
  unfold hRunGCM
  split
  · split
    · exact Safe.raise hp
    · refine Safe.bind (Safe.readMat hp _) fun h1 lm p1 _ => ?_
      refine Safe.bind (Safe.alloc p1 _) fun h2 _ p2 _ => ?_
      refine Safe.bind (Safe.alloc p2 _) fun h3 s p3 hs => ?_
      refine Safe.bind (Safe.readMat p3 _) fun h4 _ p4 _ => ?_
      refine Safe.bind (Safe.write p4 hs _) fun h5 _ p5 _ => ?_
      refine Safe.bind (hGlobalCostMatrix_safe p5 _ _ _ _ _ _ fun t ht => ?_) fun h6 _ p6 _ => Safe.pure p6 trivial
      cases ht
      exact hs
  · refine Safe.bind (hGlobalCostMatrix_safe hp _ _ _ _ _ _ fun t ht => ?_) fun h6 _ p6 _ => Safe.pure p6 trivial
    cases ht

theorem hDropRow_safe {g h : Heap} (hp : g <+: h) (b : Bool) (a : Addr) : Safe g h (hDropRow b a) (fun _ _ => True) := by
  unfold hDropRow
  split
  · exact Safe.bind (Safe.readMat hp _) fun h1 _ p1 _ => (Safe.alloc p1 _).weaken fun _ _ _ => trivial
  · exact Safe.pure hp trivial

theorem hDropRowI_safe {g h : Heap} (hp : g <+: h) (b : Bool) (a : Addr) : Safe g h (hDropRowI b a) (fun _ _ => True) := by
  unfold hDropRowI
  split
  · exact Safe.bind (Safe.readIMat hp _) fun h1 _ p1 _ => (Safe.alloc p1 _).weaken fun _ _ _ => trivial
  · exact Safe.pure hp trivial

theorem hMapping_safe {g h : Heap} (hp : g <+: h) (mp : Option Mapping) : Safe g h (hMapping mp) (fun _ _ => True) := by
  obtain ⟨h', r, h1, h2, -⟩ := hMapping_run h mp
  unfold Safe
  rw [h2]
  exact ⟨hp.trans h1, fun _ _ => trivial⟩

/-- A call, whatever its arguments, changes no existing object. -/
theorem hdtw_safe (A : Arith) (h : Heap) (c : Call) : h <+: (hdtw A c h).2 := by
  have hp := List.prefix_refl h
  suffices hs : Safe h h (hdtw A c) (fun _ _ => True) from hs.1
  unfold hdtw
  refine Safe.bind (hLocalCost_safe hp _) fun h1 _ p1 _ => ?_
  refine Safe.bind (hPattern_safe p1 _) fun h2 _ p2 _ => ?_
  refine Safe.bind (Safe.readMat p2 _) fun h3 _ p3 _ => ?_
  refine Safe.bind (Safe.readDict p3 _) fun h4 _ p4 _ => ?_
  refine Safe.bind (hRunGCM_safe p4 _ _ _ _ _ _) fun h5 _ p5 _ => ?_
  refine Safe.bind (Safe.readMat p5 _) fun h6 _ p6 _ => ?_
  refine Safe.bind (Safe.lift p6) fun h7 _ p7 _ => ?_
  refine Safe.bind (Safe.lift p7) fun h8 _ p8 _ => ?_
  refine Safe.bind (Safe.readIMat p8 _) fun h9 _ p9 _ => ?_
  refine Safe.bind (Safe.lift p9) fun h10 _ p10 _ => ?_
  refine Safe.bind (hMapping_safe p10 _) fun h11 _ p11 _ => ?_
  refine Safe.bind (hDropRow_safe p11 _ _) fun h12 _ p12 _ => ?_
  refine Safe.bind (hDropRow_safe p12 _ _) fun h13 _ p13 _ => ?_
  exact Safe.bind (hDropRowI_safe p13 _ _) fun h14 _ p14 _ => Safe.pure p14 trivial

end DTW
