import Verif.Threads
import Verif.Proofs.HeapProof
import Verif.Props.History

/-!
# Programs that only write the objects they have created

1. Without interruption a program of Threads.lean is the function of Heap.lean (`run_pdtw`).
2. `Indep`: two copies of a program, one alone, one among other threads, whose addresses for new objects differ.
3. The invariant of a system of threads (`schedule_inv`).
-/

namespace DTW
open F64

/-! ### Without interruption -/

namespace Prog

theorem bind_def {α β} (p : Prog α) (f : α → Prog β) : (p >>= f) = p.bind f := rfl

theorem run_bind {α β} (p : Prog α) (f : α → Prog β) (h : Heap) :
    (p >>= f).run h = match p.run h with
      | (.ok a, h') => (f a).run h'
      | (.error e, h') => (.error e, h') := by
  rw [bind_def]
  induction p generalizing h with
  | ret r => cases r <;> rfl
  | alloc o k ih => exact ih _ _
  | read a k ih => exact ih _ _
  | write a o k ih => exact ih _

/-- The program `p` executes as the function `x`. -/
def Is {α} (p : Prog α) (x : Py α) : Prop := ∀ h, p.run h = x h

theorem Is.bind {α β} {p : Prog α} {x : Py α} {f : α → Prog β} {g : α → Py β} (hp : Is p x) (hf : ∀ a, Is (f a) (g a)) :
    Is (p >>= f) (x >>= g) := by
  intro h
  rw [run_bind, py_bind, hp h]
  rcases x h with ⟨r, h'⟩
  cases r with
  | ok a => exact hf a h'
  | error e => rfl

theorem Is.pure {α} (a : α) : Is (Prog.pure a) (Py.pure a) := fun _ => rfl
theorem Is.raise {α} (e : Err) : Is (Prog.raise e : Prog α) (Py.raise e) := fun _ => rfl
theorem Is.lift {α} (x : Except Err α) : Is (Prog.lift x) (Py.lift x) := fun _ => rfl
theorem Is.create (o : Obj) : Is (Prog.create o) (Py.alloc o) := fun _ => rfl
theorem Is.store (a : Addr) (o : Obj) : Is (Prog.store a o) (Py.write a o) := fun _ => rfl
theorem Is.fetch (a : Addr) : Is (Prog.fetch a) (Py.read a) := by
  intro h
  simp only [Prog.fetch, Prog.run, Py.read]
  cases h[a]? <;> rfl

theorem Is.readMat (a : Addr) : Is (Prog.readMat a) (Py.readMat a) := by
  refine .bind (.fetch a) fun o => ?_
  rcases o with (_ | _ | _) | _ | _ | _ | _ <;> first | exact .raise _ | exact .pure _

theorem Is.readIMat (a : Addr) : Is (Prog.readIMat a) (Py.readIMat a) := by
  refine .bind (.fetch a) fun o => ?_
  cases o <;> first | exact .raise _ | exact .pure _

theorem Is.readArr (a : Addr) : Is (Prog.readArr a) (Py.readArr a) := by
  refine .bind (.fetch a) fun o => ?_
  cases o <;> first | exact .raise _ | exact .pure _

theorem Is.readDict (a : Addr) : Is (Prog.readDict a) (Py.readDict a) := by
  refine .bind (.fetch a) fun o => ?_
  cases o <;> first | exact .raise _ | exact .pure _

theorem Is.readPat (a : Addr) : Is (Prog.readPat a) (Py.readPat a) := by
  refine .bind (.fetch a) fun o => ?_
  cases o <;> first | exact .raise _ | exact .pure _

theorem Is.columnView (a : Addr) : Is (pcolumnView a) (DTW.columnView a) :=
  .bind (.readArr a) fun _ => .bind (.lift _) fun _ => .pure _

theorem Is.localCost (c : Call) : Is (pLocalCost c) (hLocalCost c) := by
  unfold pLocalCost hLocalCost
  cases c.y with
  | none =>
    refine .bind (.readArr _) fun v => ?_
    cases v with
    | d2 m => exact .bind (.create _) fun _ => .pure _
    | d0 _ => exact .raise _
    | d1 _ => exact .raise _
    | dn => exact .raise _
  | some y =>
    exact .bind (.columnView _) fun _ => .bind (.columnView _) fun _ => .bind (.lift _) fun _ => .bind (.create _) fun _ =>
      .pure _

theorem Is.pattern (c : Call) : Is (pPattern c) (hPattern c) := by
  unfold pPattern hPattern
  cases c.stepPattern with
  | obj a => exact .bind (.readPat _) fun _ => .pure _
  | name s =>
    simp only
    cases patternAddr s with
    | none => exact .raise _
    | some a => exact .bind (.readPat _) fun _ => .pure _

theorem Is.initialCM (lm : Mat F64) (seed : Option Addr) : Is (pInitialCM lm seed) (hInitialCM lm seed) := by
  unfold pInitialCM hInitialCM
  cases seed with
  | some s => exact .pure _
  | none =>
    refine .bind (.create _) fun a => ?_
    split
    · exact .raise _
    · exact .bind (.lift _) fun _ => .bind (.readMat _) fun _ => .bind (.store _ _) fun _ => .pure _

theorem Is.globalCostMatrix (A : Arith) (lmA : Addr) (lay : Layout) (p : StepPattern) (wf : WinFn) (seed : Option Addr)
    (args : WinArgs) : Is (pGlobalCostMatrix A lmA lay p wf seed args) (hGlobalCostMatrix A lmA lay p wf seed args) :=
  .bind (.readMat _) fun _ => .bind (.lift _) fun _ => .bind (.create _) fun _ => .bind (.initialCM _ _) fun _ =>
  .bind (.readIMat _) fun _ => .bind (.readMat _) fun _ => .bind (.readMat _) fun _ => .bind (.create _) fun _ =>
  .bind (.lift _) fun _ => .bind (.store _ _) fun _ => .bind (.store _ _) fun _ => .pure _

theorem Is.runGCM (A : Arith) (c : Call) (args : WinArgs) (lmA : Addr) (lay : Layout) (wf : WinFn) (p : StepPattern) :
    Is (pRunGCM A c args lmA lay wf p) (hRunGCM A c args lmA lay wf p) := by
  unfold pRunGCM hRunGCM
  split
  · split
    · exact .raise _
    · exact .bind (.readMat _) fun _ => .bind (.create _) fun _ => .bind (.create _) fun _ => .bind (.readMat _) fun _ =>
        .bind (.store _ _) fun _ => .bind (.globalCostMatrix _ _ _ _ _ _ _) fun _ => .pure _
  · exact .bind (.globalCostMatrix _ _ _ _ _ _ _) fun _ => .pure _

theorem Is.mapping (mp : Option Mapping) : Is (pMapping mp) (hMapping mp) := by
  cases mp with
  | none => exact .pure _
  | some mp =>
    exact .bind (.create _) fun _ => .bind (.create _) fun _ => .bind (.create _) fun _ => .bind (.create _) fun _ =>
      .bind (.create _) fun _ => .pure _

theorem Is.dropRow (b : Bool) (a : Addr) : Is (pDropRow b a) (hDropRow b a) := by
  cases b with
  | true => exact .bind (.readMat _) fun _ => .create _
  | false => exact .pure _

theorem Is.dropRowI (b : Bool) (a : Addr) : Is (pDropRowI b a) (hDropRowI b a) := by
  cases b with
  | true => exact .bind (.readIMat _) fun _ => .create _
  | false => exact .pure _

theorem Is.dtw (A : Arith) (c : Call) : Is (pdtw A c) (hdtw A c) :=
  .bind (.localCost _) fun _ => .bind (.pattern _) fun _ => .bind (.readMat _) fun _ => .bind (.readDict _) fun _ =>
  .bind (.runGCM _ _ _ _ _ _ _) fun _ => .bind (.readMat _) fun _ => .bind (.lift _) fun _ => .bind (.lift _) fun _ =>
  .bind (.readIMat _) fun _ => .bind (.lift _) fun _ => .bind (.mapping _) fun _ => .bind (.dropRow _ _) fun _ =>
  .bind (.dropRow _ _) fun _ => .bind (.dropRowI _ _) fun _ => .pure _

end Prog

/-- Without interruption, the program is the execution of Heap.lean. -/
theorem run_pdtw (A : Arith) (c : Call) (h : Heap) : (pdtw A c).run h = hdtw A c h := Prog.Is.dtw A c h

/-! ### Step by step -/

namespace Prog

/-- `n` steps. -/
def steps {α} : Nat → Prog α → Heap → Prog α × Heap
  | 0, p, h => (p, h)
  | n + 1, p, h => ((steps n p h).1).step (steps n p h).2

theorem steps_succ {α} (n : Nat) (p : Prog α) (h : Heap) :
    steps (n + 1) p h = steps n (p.step h).1 (p.step h).2 := by
  induction n with
  | zero => rfl
  | succ n ih =>
    rw [steps, ih]
    rfl

theorem run_step {α} (p : Prog α) (h : Heap) : ((p.step h).1).run (p.step h).2 = p.run h := by
  cases p <;> rfl

theorem run_steps {α} (n : Nat) (p : Prog α) (h : Heap) : ((steps n p h).1).run (steps n p h).2 = p.run h := by
  induction n with
  | zero => rfl
  | succ n ih => rw [steps, run_step, ih]

/-- Every program finishes. -/
theorem finishes {α} (p : Prog α) : ∀ h, ∃ n, ∀ k, n ≤ k → (steps k p h).1.result ≠ none := by
  have fwd : ∀ (q : Prog α) h h' p, (Prog.step p h) = (q, h') →
      (∃ n, ∀ k, n ≤ k → (steps k q h').1.result ≠ none) → ∃ n, ∀ k, n ≤ k → (steps k p h).1.result ≠ none := by
    rintro q h h' p hs ⟨n, hn⟩
    refine ⟨n + 1, fun k hk => ?_⟩
    obtain ⟨k, rfl⟩ : ∃ j, k = j + 1 := ⟨k - 1, by omega⟩
    rw [steps_succ, hs]
    exact hn k (by omega)
  induction p with
  | ret r =>
    intro h
    refine ⟨0, fun k _ => ?_⟩
    have : ∀ k, steps k (.ret r : Prog α) h = (.ret r, h) := by
      intro k
      induction k with
      | zero => rfl
      | succ k ih => rw [steps, ih]; rfl
    rw [this k]
    simp [result]
  | alloc o k ih => exact fun h => fwd _ _ _ _ rfl (ih _ _)
  | read a k ih => exact fun h => fwd _ _ _ _ rfl (ih _ _)
  | write a o k ih => exact fun h => fwd _ _ _ _ rfl (ih _)

end Prog

/-! ### The same program at other addresses -/

/-- Of the objects a call has created so far, in the order of creation, `σ` lists the addresses among other threads; alone,
in a heap that had `n0` objects, they are `n0, n0 + 1, …` -/
def Twin (n0 : Nat) (σ : List Nat) (a b : Nat) : Prop := ∃ i, a = n0 + i ∧ σ[i]? = some b

theorem Twin.mono {n0 : Nat} {σ σ' : List Nat} {a b : Nat} (hp : σ <+: σ') (h : Twin n0 σ a b) : Twin n0 σ' a b := by
  obtain ⟨i, rfl, hi⟩ := h
  obtain ⟨t, rfl⟩ := hp
  refine ⟨i, rfl, ?_⟩
  obtain ⟨hlt, -⟩ := List.getElem?_eq_some_iff.1 hi
  rw [List.getElem?_append_left hlt, hi]

/-- Two programs that do the same: they read the same objects of `B`, and read and write corresponding objects of their
own. -/
inductive Indep {α β : Type} (n0 : Nat) (B : Nat → Prop) (R : List Nat → α → β → Prop) :
    List Nat → Prog α → Prog β → Prop
  | ok {σ a b} : R σ a b → Indep n0 B R σ (.ret (.ok a)) (.ret (.ok b))
  | err {σ e} : Indep n0 B R σ (.ret (.error e)) (.ret (.error e))
  | alloc {σ o k k'} : (∀ x, Indep n0 B R (σ ++ [x]) (k (n0 + σ.length)) (k' x)) →
      Indep n0 B R σ (.alloc o k) (.alloc o k')
  | base {σ a k k'} : B a → (∀ o, Indep n0 B R σ (k o) (k' o)) → Indep n0 B R σ (.read a k) (.read a k')
  | own {σ a b k k'} : Twin n0 σ a b → (∀ o, Indep n0 B R σ (k o) (k' o)) → Indep n0 B R σ (.read a k) (.read b k')
  | write {σ a b o k k'} : Twin n0 σ a b → Indep n0 B R σ k k' → Indep n0 B R σ (.write a o k) (.write b o k')

namespace Indep

variable {n0 : Nat} {B : Nat → Prop}

theorem bind {α β γ δ : Type} {R : List Nat → α → β → Prop} {S : List Nat → γ → δ → Prop} {σ : List Nat} {p : Prog α}
    {q : Prog β} {f : α → Prog γ} {g : β → Prog δ} (hp : Indep n0 B R σ p q)
    (hf : ∀ σ' a b, σ <+: σ' → R σ' a b → Indep n0 B S σ' (f a) (g b)) : Indep n0 B S σ (p >>= f) (q >>= g) := by
  rw [Prog.bind_def, Prog.bind_def]
  induction hp with
  | ok h => exact hf _ _ _ (List.prefix_refl _) h
  | err => exact .err
  | @alloc σ o k k' _ ih =>
    exact .alloc fun x => ih x fun σ' a b hp hR => hf σ' a b ((List.prefix_append σ [x]).trans hp) hR
  | base h _ ih => exact .base h fun o => ih o hf
  | own h _ ih => exact .own h fun o => ih o hf
  | write h _ ih => exact .write h (ih hf)

variable {σ : List Nat}

theorem pure {α β : Type} {R : List Nat → α → β → Prop} {a : α} {b : β} (h : R σ a b) :
    Indep n0 B R σ (Prog.pure a) (Prog.pure b) := .ok h

theorem raise {α β : Type} {R : List Nat → α → β → Prop} {e : Err} :
    Indep n0 B R σ (Prog.raise e) (Prog.raise e) := .err

theorem lift {α : Type} (x : Except Err α) : Indep n0 B (fun _ a b => a = b) σ (Prog.lift x) (Prog.lift x) := by
  cases x with
  | ok a => exact .ok rfl
  | error e => exact .err

theorem create (o : Obj) : Indep n0 B (fun σ' a b => Twin n0 σ' a b) σ (Prog.create o) (Prog.create o) :=
  .alloc fun x => .ok ⟨σ.length, rfl, by simp⟩

theorem store {a b : Nat} (o : Obj) (h : Twin n0 σ a b) :
    Indep n0 B (fun _ _ _ => True) σ (Prog.store a o) (Prog.store b o) := .write h (.ok trivial)

/-- Where both copies of a program may read. -/
def Reads (n0 : Nat) (B : Nat → Prop) (σ : List Nat) (a b : Nat) : Prop := (B a ∧ a = b) ∨ Twin n0 σ a b

theorem fetch {a b : Nat} (h : Reads n0 B σ a b) :
    Indep n0 B (fun _ o o' => o = o') σ (Prog.fetch a) (Prog.fetch b) := by
  have key : ∀ o : Option Obj, Indep n0 B (fun _ o o' => o = o') σ
      (match o with | some o => Prog.pure o | none => Prog.raise .typeError)
      (match o with | some o => Prog.pure o | none => Prog.raise .typeError) := by
    intro o
    cases o with
    | none => exact .err
    | some o => exact .ok rfl
  rcases h with ⟨h, rfl⟩ | h
  · exact .base h key
  · exact .own h key

theorem readMat {a b : Nat} (h : Reads n0 B σ a b) :
    Indep n0 B (fun _ x y => x = y) σ (Prog.readMat a) (Prog.readMat b) := by
  refine bind (fetch h) ?_
  rintro σ' o _ - rfl
  rcases o with (_ | _ | _) | _ | _ | _ | _ <;> first | exact .err | exact .ok rfl

theorem readIMat {a b : Nat} (h : Reads n0 B σ a b) :
    Indep n0 B (fun _ x y => x = y) σ (Prog.readIMat a) (Prog.readIMat b) := by
  refine bind (fetch h) ?_
  rintro σ' o _ - rfl
  cases o <;> first | exact .err | exact .ok rfl

theorem readArr {a b : Nat} (h : Reads n0 B σ a b) :
    Indep n0 B (fun _ x y => x = y) σ (Prog.readArr a) (Prog.readArr b) := by
  refine bind (fetch h) ?_
  rintro σ' o _ - rfl
  cases o <;> first | exact .err | exact .ok rfl

theorem readDict {a b : Nat} (h : Reads n0 B σ a b) :
    Indep n0 B (fun _ x y => x = y) σ (Prog.readDict a) (Prog.readDict b) := by
  refine bind (fetch h) ?_
  rintro σ' o _ - rfl
  cases o <;> first | exact .err | exact .ok rfl

theorem readPat {a b : Nat} (h : Reads n0 B σ a b) :
    Indep n0 B (fun _ x y => x = y) σ (Prog.readPat a) (Prog.readPat b) := by
  refine bind (fetch h) ?_
  rintro σ' o _ - rfl
  cases o <;> first | exact .err | exact .ok rfl

theorem columnView {a : Addr} (h : B a) :
    Indep n0 B (fun _ x y => x = y ∧ x.1.base = a) σ (pcolumnView a) (pcolumnView a) := by
  refine bind (readArr (.inl ⟨h, rfl⟩)) ?_
  rintro _ v _ - rfl
  refine bind (lift _) ?_
  rintro _ m _ - rfl
  exact pure ⟨rfl, rfl⟩

theorem localCost {c : Call} (hx : B c.x) (hy : ∀ y, c.y = some y → B y) :
    Indep n0 B (fun σ' r r' => Twin n0 σ' r.1 r'.1 ∧ r.2 = r'.2 ∧ ∀ q, r.2.2 = some q → B q.1.base ∧ B q.2.base) σ
      (pLocalCost c) (pLocalCost c) := by
  unfold pLocalCost
  cases hc : c.y with
  | none =>
    refine bind (readArr (.inl ⟨hx, rfl⟩)) ?_
    rintro _ v _ - rfl
    cases v with
    | d2 m =>
      refine bind (create _) ?_
      rintro _ a b - h
      exact pure ⟨h, rfl, by simp⟩
    | d0 _ => exact .err
    | d1 _ => exact .err
    | dn => exact .err
  | some y =>
    refine bind (columnView hx) ?_
    rintro _ ⟨v, x'⟩ _ - ⟨rfl, hv⟩
    refine bind (columnView (hy y hc)) ?_
    rintro _ ⟨w, y'⟩ _ - ⟨rfl, hw⟩
    refine bind (lift _) ?_
    rintro _ m _ - rfl
    refine bind (create _) ?_
    rintro _ a b - h
    refine pure ⟨h, rfl, ?_⟩
    rintro q ⟨⟩
    exact ⟨by rw [hv]; exact hx, by rw [hw]; exact hy y hc⟩

theorem pattern {c : Call} (h : ∀ a, (c.stepPattern = .obj a ∨ ∃ s, c.stepPattern = .name s ∧ patternAddr s = some a) → B a) :
    Indep n0 B (fun _ r r' => r = r' ∧ B r.1) σ (pPattern c) (pPattern c) := by
  unfold pPattern
  cases hc : c.stepPattern with
  | obj a =>
    have ha : B a := h a (.inl hc)
    refine bind (readPat (.inl ⟨ha, rfl⟩)) ?_
    rintro _ p _ - rfl
    exact pure ⟨rfl, ha⟩
  | name s =>
    simp only
    cases hs : patternAddr s with
    | none => exact .err
    | some a =>
      have ha : B a := h a (.inr ⟨s, hc, hs⟩)
      refine bind (readPat (.inl ⟨ha, rfl⟩)) ?_
      rintro _ p _ - rfl
      exact pure ⟨rfl, ha⟩

theorem initialCM (lm : Mat F64) {seed seed' : Option Addr}
    (h : (seed = none ∧ seed' = none) ∨ ∃ a b, seed = some a ∧ seed' = some b ∧ Twin n0 σ a b) :
    Indep n0 B (fun σ' a b => Twin n0 σ' a b) σ (pInitialCM lm seed) (pInitialCM lm seed') := by
  rcases h with ⟨rfl, rfl⟩ | ⟨a, b, rfl, rfl, h⟩
  · refine bind (create _) ?_
    intro σ1 a b _ h
    split
    · exact .err
    · refine bind (lift _) ?_
      rintro σ2 v _ e2 rfl
      refine bind (readMat (.inr (h.mono e2))) ?_
      rintro σ3 cm _ e3 rfl
      refine bind (store _ (h.mono (e2.trans e3))) ?_
      rintro σ4 - - e4 -
      exact pure (h.mono ((e2.trans e3).trans e4))
  · exact pure h

theorem globalCostMatrix (A : Arith) {lmA lmB : Addr} (lay : Layout) (p : StepPattern) (wf : WinFn)
    {seed seed' : Option Addr} (args : WinArgs) (hl : Twin n0 σ lmA lmB)
    (h : (seed = none ∧ seed' = none) ∨ ∃ a b, seed = some a ∧ seed' = some b ∧ Twin n0 σ a b) :
    Indep n0 B (fun σ' r r' => Twin n0 σ' r.1 r'.1 ∧ Twin n0 σ' r.2 r'.2) σ
      (pGlobalCostMatrix A lmA lay p wf seed args) (pGlobalCostMatrix A lmB lay p wf seed' args) := by
  refine bind (readMat (.inr hl)) ?_
  rintro σ1 lm _ e1 rfl
  refine bind (lift _) ?_
  rintro σ2 wm _ e2 rfl
  refine bind (create _) ?_
  intro σ3 wmA wmB e3 hwm
  have e13 := (e1.trans e2).trans e3
  refine bind (initialCM lm (seed := seed) (seed' := seed') ?_) ?_
  · rcases h with h | ⟨a, b, h1, h2, h3⟩
    · exact .inl h
    · exact .inr ⟨a, b, h1, h2, h3.mono e13⟩
  intro σ4 cmA cmB e4 hcm
  refine bind (readIMat (.inr (hwm.mono e4))) ?_
  rintro σ5 wm' _ e5 rfl
  refine bind (readMat (.inr (hl.mono ((e13.trans e4).trans e5)))) ?_
  rintro σ6 lm' _ e6 rfl
  refine bind (readMat (.inr (hcm.mono (e5.trans e6)))) ?_
  rintro σ7 cm _ e7 rfl
  refine bind (create _) ?_
  intro σ8 smA smB e8 hsm
  refine bind (lift _) ?_
  rintro σ9 ⟨cm', sm'⟩ _ e9 rfl
  have hcm9 := hcm.mono ((((e5.trans e6).trans e7).trans e8).trans e9)
  refine bind (store _ hcm9) ?_
  rintro σ10 - - e10 -
  refine bind (store _ (hsm.mono (e9.trans e10))) ?_
  rintro σ11 - - e11 -
  exact pure ⟨hcm9.mono (e10.trans e11), hsm.mono ((e9.trans e10).trans e11)⟩

theorem runGCM (A : Arith) (c : Call) (args : WinArgs) {lmA lmB : Addr} (lay : Layout) (wf : WinFn) (p : StepPattern)
    (hl : Twin n0 σ lmA lmB) :
    Indep n0 B (fun σ' r r' => Twin n0 σ' r.1 r'.1 ∧ Twin n0 σ' r.2.1 r'.2.1 ∧ Twin n0 σ' r.2.2 r'.2.2) σ
      (pRunGCM A c args lmA lay wf p) (pRunGCM A c args lmB lay wf p) := by
  unfold pRunGCM
  split
  · split
    · exact .err
    · refine bind (readMat (.inr hl)) ?_
      rintro σ1 lm _ e1 rfl
      refine bind (create _) ?_
      intro σ2 lmA' lmB' e2 hl'
      refine bind (create _) ?_
      intro σ3 sA sB e3 hs
      refine bind (readMat (.inr hs)) ?_
      rintro σ4 s _ e4 rfl
      refine bind (store _ (hs.mono e4)) ?_
      rintro σ5 - - e5 -
      refine bind (globalCostMatrix A _ p wf args (hl'.mono ((e3.trans e4).trans e5))
        (.inr ⟨sA, sB, rfl, rfl, hs.mono (e4.trans e5)⟩)) ?_
      rintro σ6 ⟨cm, sm⟩ ⟨cm', sm'⟩ e6 ⟨h1, h2⟩
      exact pure ⟨hl'.mono (((e3.trans e4).trans e5).trans e6), h1, h2⟩
  · refine bind (globalCostMatrix A _ p wf args hl (.inl ⟨rfl, rfl⟩)) ?_
    rintro σ6 ⟨cm, sm⟩ ⟨cm', sm'⟩ e6 ⟨h1, h2⟩
    exact pure ⟨hl.mono e6, h1, h2⟩

/-- Corresponding optional attributes. -/
def OptTwin (n0 : Nat) (σ : List Nat) : Option Addr → Option Nat → Prop
  | none, none => True
  | some a, some b => Twin n0 σ a b
  | _, _ => False

theorem OptTwin.mono {σ' : List Nat} {a b : Option Addr} (hp : σ <+: σ') (h : OptTwin n0 σ a b) : OptTwin n0 σ' a b := by
  cases a <;> cases b <;> simp only [OptTwin] at h ⊢
  exact h.mono hp

/-- Corresponding index arrays. -/
structure IdxTwin (n0 : Nat) (σ : List Nat) (i j : Option (Addr × Addr × Addr × Addr × Addr)) : Prop where
  h1 : OptTwin n0 σ (i.map (·.1)) (j.map (·.1))
  h2 : OptTwin n0 σ (i.map (·.2.1)) (j.map (·.2.1))
  h3 : OptTwin n0 σ (i.map (·.2.2.1)) (j.map (·.2.2.1))
  h4 : OptTwin n0 σ (i.map (·.2.2.2.1)) (j.map (·.2.2.2.1))
  h5 : OptTwin n0 σ (i.map (·.2.2.2.2)) (j.map (·.2.2.2.2))

theorem mapping (mp : Option Mapping) : Indep n0 B (fun σ' i j => IdxTwin n0 σ' i j) σ (pMapping mp) (pMapping mp) := by
  cases mp with
  | none => exact pure ⟨trivial, trivial, trivial, trivial, trivial⟩
  | some mp =>
    refine bind (create _) ?_
    intro σ1 a1 b1 e1 h1
    refine bind (create _) ?_
    intro σ2 a2 b2 e2 h2
    refine bind (create _) ?_
    intro σ3 a3 b3 e3 h3
    refine bind (create _) ?_
    intro σ4 a4 b4 e4 h4
    refine bind (create _) ?_
    intro σ5 a5 b5 e5 h5
    exact pure ⟨h1.mono (((e2.trans e3).trans e4).trans e5), h2.mono ((e3.trans e4).trans e5), h3.mono (e4.trans e5),
      h4.mono e5, h5⟩

theorem dropRow (o : Bool) {a b : Nat} (h : Twin n0 σ a b) :
    Indep n0 B (fun σ' a b => Twin n0 σ' a b) σ (pDropRow o a) (pDropRow o b) := by
  cases o with
  | true =>
    refine bind (readMat (.inr h)) ?_
    rintro _ m _ - rfl
    exact create _
  | false => exact pure h

theorem dropRowI (o : Bool) {a b : Nat} (h : Twin n0 σ a b) :
    Indep n0 B (fun σ' a b => Twin n0 σ' a b) σ (pDropRowI o a) (pDropRowI o b) := by
  cases o with
  | true =>
    refine bind (readIMat (.inr h)) ?_
    rintro _ m _ - rfl
    exact create _
  | false => exact pure h

/-- Corresponding results. -/
structure ResTwin (n0 : Nat) (B : Nat → Prop) (σ : List Nat) (r s : HResult) : Prop where
  values : (r.N, r.M, r.openEnd, r.openBegin, r.windowFunction, r.jmin, r.distance, r.normalizedDistance) =
    (s.N, s.M, s.openEnd, s.openBegin, s.windowFunction, s.jmin, s.distance, s.normalizedDistance)
  windowArgs : r.windowArgs = s.windowArgs ∧ B r.windowArgs
  stepPattern : r.stepPattern = s.stepPattern ∧ B r.stepPattern
  queryReference : r.queryReference = s.queryReference ∧
    ∀ q, r.queryReference = some q → B q.1.base ∧ B q.2.base
  index1 : OptTwin n0 σ r.index1 s.index1
  index2 : OptTwin n0 σ r.index2 s.index2
  index1s : OptTwin n0 σ r.index1s s.index1s
  index2s : OptTwin n0 σ r.index2s s.index2s
  stepsTaken : OptTwin n0 σ r.stepsTaken s.stepsTaken
  costMatrix : OptTwin n0 σ r.costMatrix s.costMatrix
  directionMatrix : OptTwin n0 σ r.directionMatrix s.directionMatrix
  localCostMatrix : OptTwin n0 σ r.localCostMatrix s.localCostMatrix

theorem optTwin_if (b : Bool) {a a' : Addr} (h : Twin n0 σ a a') :
    OptTwin n0 σ (if b then some a else none) (if b then some a' else none) := by
  cases b with
  | true => exact h
  | false => trivial

/-- `dtw` at other addresses does the same. -/
theorem dtw (A : Arith) (c : Call) (hB : ∀ a ∈ c.refs, B a) :
    Indep n0 B (ResTwin n0 B) σ (pdtw A c) (pdtw A c) := by
  have hx : B c.x := hB _ (by simp [Call.refs])
  have hw : B (c.windowArgs.getD defaultWindowArgs) := hB _ (by simp [Call.refs])
  refine bind (localCost hx fun y hy => hB y (by simp [Call.refs, hy])) ?_
  rintro σ1 ⟨lmA, lay, qr⟩ ⟨lmB, lay', qr'⟩ e1 ⟨hlm, hq, hqB⟩
  simp only [Prod.mk.injEq] at hq
  obtain ⟨rfl, rfl⟩ := hq
  refine bind (pattern fun a ha => ?_) ?_
  · rcases ha with ha | ⟨s, h1, h2⟩
    · exact hB a (by simp [Call.refs, ha])
    · exact hB a (by simp [Call.refs, h1, h2])
  rintro σ2 ⟨pA, p⟩ _ e2 ⟨rfl, hpB⟩
  refine bind (readMat (.inr (hlm.mono e2))) ?_
  rintro σ3 lm _ e3 rfl
  refine bind (readDict (.inl ⟨hw, rfl⟩)) ?_
  rintro σ4 args _ e4 rfl
  refine bind (runGCM A c args lay _ p (hlm.mono ((e2.trans e3).trans e4))) ?_
  rintro σ5 ⟨lmA', cmA, smA⟩ ⟨lmB', cmB, smB⟩ e5 ⟨hl', hcm, hsm⟩
  refine bind (readMat (.inr hcm)) ?_
  rintro σ6 cm _ e6 rfl
  refine bind (lift _) ?_
  rintro σ7 ⟨jmin, distance⟩ _ e7 rfl
  refine bind (lift _) ?_
  rintro σ8 nd _ e8 rfl
  have e58 := (e6.trans e7).trans e8
  refine bind (readIMat (.inr (hsm.mono e58))) ?_
  rintro σ9 sm _ e9 rfl
  refine bind (lift _) ?_
  rintro σ10 mp _ e10 rfl
  refine bind (mapping mp) ?_
  intro σ11 idx idx' e11 hidx
  have e511 := ((e58.trans e9).trans e10).trans e11
  refine bind (dropRow _ (hl'.mono e511)) ?_
  intro σ12 lmA'' lmB'' e12 hl''
  refine bind (dropRow _ (hcm.mono (e511.trans e12))) ?_
  intro σ13 cmA' cmB' e13 hcm'
  refine bind (dropRowI _ (hsm.mono ((e511.trans e12).trans e13))) ?_
  intro σ14 smA' smB' e14 hsm'
  have e1114 := (e12.trans e13).trans e14
  refine pure ⟨rfl, ⟨rfl, hw⟩, ⟨rfl, hpB⟩, ⟨rfl, ?_⟩, hidx.h1.mono e1114, hidx.h2.mono e1114, hidx.h3.mono e1114,
    hidx.h4.mono e1114, hidx.h5.mono e1114, optTwin_if _ (hcm'.mono e14), optTwin_if _ hsm',
    optTwin_if _ (hl''.mono (e13.trans e14))⟩
  intro q hq
  simp only at hq
  split at hq
  · exact hqB q hq
  · cases hq

end Indep

/-! ### One step among other threads -/

/-- The heap `hs` of a call that runs alone and the heap `H` in which other threads run too agree on the objects of `B` and
on those the call has created. -/
structure Agree (n0 : Nat) (B : Nat → Prop) (σ : List Nat) (hs H : Heap) : Prop where
  len : hs.length = n0 + σ.length
  base : ∀ a, B a → H[a]? = hs[a]?
  own : ∀ i b, σ[i]? = some b → H[b]? = hs[n0 + i]?
  fresh : ∀ b ∈ σ, n0 ≤ b ∧ b < H.length
  nodup : σ.Nodup

theorem Agree.others {n0 : Nat} {B : Nat → Prop} {σ : List Nat} {hs H H' : Heap} (h : Agree n0 B σ hs H)
    (hlen : H.length ≤ H'.length) (hb : ∀ a, B a → H'[a]? = H[a]?) (ho : ∀ a ∈ σ, H'[a]? = H[a]?) :
    Agree n0 B σ hs H' where
  len := h.len
  base := fun a ha => (hb a ha).trans (h.base a ha)
  own := fun i b hi => (ho b (List.mem_of_getElem? hi)).trans (h.own i b hi)
  fresh := fun b hb => ⟨(h.fresh b hb).1, Nat.lt_of_lt_of_le (h.fresh b hb).2 hlen⟩
  nodup := h.nodup

theorem Agree.twin {n0 : Nat} {B : Nat → Prop} {σ : List Nat} {hs H : Heap} (h : Agree n0 B σ hs H) {a b : Nat}
    (ht : Twin n0 σ a b) : H[b]? = hs[a]? := by
  obtain ⟨i, rfl, hi⟩ := ht
  exact h.own i b hi

/-- One step of both copies. -/
theorem Indep.step {α β : Type} {n0 : Nat} {B : Nat → Prop} (hB : ∀ a, B a → a < n0) {R : List Nat → α → β → Prop}
    {σ : List Nat} {p : Prog α} {q : Prog β} (hi : Indep n0 B R σ p q) {hs H : Heap} (hn : n0 ≤ H.length)
    (ha : Agree n0 B σ hs H) :
    ∃ σ', Indep n0 B R σ' (p.step hs).1 (q.step H).1 ∧ Agree n0 B σ' (p.step hs).2 (q.step H).2 ∧
      (∀ b ∈ σ', b ∈ σ ∨ b = H.length) ∧ H.length ≤ (q.step H).2.length ∧
      ∀ b : Nat, b < H.length → b ∉ σ → (q.step H).2[b]? = H[b]? := by
  cases hi with
  | ok h => exact ⟨σ, .ok h, ha, fun b hb => .inl hb, Nat.le_refl _, fun _ _ _ => rfl⟩
  | err => exact ⟨σ, .err, ha, fun b hb => .inl hb, Nat.le_refl _, fun _ _ _ => rfl⟩
  | @alloc _ o k k' h =>
    refine ⟨σ ++ [H.length], ?_, ?_, ?_, by simp [Prog.step], ?_⟩
    · have := h H.length
      rw [← ha.len] at this
      exact this
    · have hlast : ∀ b ∈ σ, b ≠ H.length := fun b hb => Nat.ne_of_lt (ha.fresh b hb).2
      refine ⟨?_, ?_, ?_, ?_, ?_⟩
      · simp only [Prog.step, List.length_append, ha.len, List.length_cons, List.length_nil]
        omega
      · intro a hBa
        have h1 : a < H.length := Nat.lt_of_lt_of_le (hB a hBa) hn
        have h2 : a < hs.length := by
          rw [ha.len]
          exact Nat.lt_of_lt_of_le (hB a hBa) (Nat.le_add_right _ _)
        simp only [Prog.step]
        rw [List.getElem?_append_left h1, List.getElem?_append_left h2]
        exact ha.base a hBa
      · intro i b hib
        simp only [Prog.step]
        rcases Nat.lt_or_ge i σ.length with hlt | hge
        · rw [List.getElem?_append_left hlt] at hib
          have h1 := (ha.fresh b (List.mem_of_getElem? hib)).2
          have h2 : n0 + i < hs.length := by rw [ha.len]; omega
          rw [List.getElem?_append_left h1, List.getElem?_append_left h2]
          exact ha.own i b hib
        · have hi : i = σ.length := by
            obtain ⟨hlt, -⟩ := List.getElem?_eq_some_iff.1 hib
            simp only [List.length_append, List.length_cons, List.length_nil] at hlt
            omega
          subst hi
          simp only [List.getElem?_concat_length, Option.some.injEq] at hib
          subst hib
          rw [List.getElem?_concat_length, ← ha.len, List.getElem?_concat_length]
      · intro b hb
        have hl : ((Prog.alloc o k').step H).2.length = H.length + 1 := by simp [Prog.step]
        rw [hl]
        rcases List.mem_append.1 hb with hb | hb
        · have := ha.fresh b hb
          exact ⟨this.1, Nat.lt_succ_of_lt this.2⟩
        · simp only [List.mem_cons, List.not_mem_nil, or_false] at hb
          rw [hb]
          exact ⟨hn, Nat.lt_succ_self _⟩
      · refine List.nodup_append.2 ⟨ha.nodup, by simp, ?_⟩
        intro a hma b hb
        simp only [List.mem_cons, List.not_mem_nil, or_false] at hb
        rw [hb]
        exact hlast a hma
    · intro b hb
      rcases List.mem_append.1 hb with hb | hb
      · exact .inl hb
      · exact .inr (by simpa using hb)
    · intro b hb _
      exact List.getElem?_append_left hb
  | @base _ a k k' hBa h =>
    refine ⟨σ, ?_, ha, fun b hb => .inl hb, Nat.le_refl _, fun _ _ _ => rfl⟩
    simp only [Prog.step]
    rw [ha.base a hBa]
    exact h _
  | @own _ a b k k' ht h =>
    refine ⟨σ, ?_, ha, fun b hb => .inl hb, Nat.le_refl _, fun _ _ _ => rfl⟩
    simp only [Prog.step]
    rw [ha.twin ht]
    exact h _
  | @write _ a b o k k' ht h =>
    refine ⟨σ, h, ?_, fun b hb => .inl hb, by simp [Prog.step], ?_⟩
    · obtain ⟨i, rfl, hi⟩ := ht
      have hbH := (ha.fresh b (List.mem_of_getElem? hi)).2
      have hbn := (ha.fresh b (List.mem_of_getElem? hi)).1
      have hil : i < σ.length := (List.getElem?_eq_some_iff.1 hi).1
      have his : n0 + i < hs.length := by rw [ha.len]; omega
      refine ⟨by simp [Prog.step, ha.len], ?_, ?_, ?_, ha.nodup⟩
      · intro a hBa
        have := hB a hBa
        simp only [Prog.step]
        rw [List.getElem?_set_ne (by omega), List.getElem?_set_ne (by omega)]
        exact ha.base a hBa
      · intro j c hj
        simp only [Prog.step]
        by_cases hij : i = j
        · subst hij
          rw [hi] at hj
          simp only [Option.some.injEq] at hj
          subst hj
          rw [List.getElem?_set_self hbH, List.getElem?_set_self his]
        · have hbc : b ≠ c := by
            rintro rfl
            obtain ⟨hj', hjc⟩ := List.getElem?_eq_some_iff.1 hj
            obtain ⟨hi', hib⟩ := List.getElem?_eq_some_iff.1 hi
            exact hij ((List.Nodup.getElem_inj_iff ha.nodup).1 (hib.trans hjc.symm))
          rw [List.getElem?_set_ne hbc, List.getElem?_set_ne (by omega)]
          exact ha.own j c hj
      · intro c hc
        simp only [Prog.step, List.length_set]
        exact ha.fresh c hc
    · intro c hc hcσ
      obtain ⟨i, rfl, hi⟩ := ht
      refine List.getElem?_set_ne ?_
      rintro rfl
      exact hcσ (List.mem_of_getElem? hi)

/-! ### Systems of threads -/

/-- How often thread `t` has been given a step. -/
def stepsOf (t : Nat) (evs : List Event) : Nat := evs.countP fun
  | .step u => u = t
  | _ => false

/-- The state of thread `t` making call `c`: what it still has to do corresponds to what a copy of it, running alone from
heap `h`, has to do after the same number of steps - unless an argument has been overwritten meanwhile. -/
structure ThreadInv (A : Arith) (h : Heap) (c : Call) (t : Nat) (evs : List Event) (σ : List Nat) (q : Prog HResult)
    (H : Heap) : Prop where
  twin : ∃ p hs, Indep h.length (· ∈ c.refs) (Indep.ResTwin h.length (· ∈ c.refs)) σ p q ∧
    Agree h.length (· ∈ c.refs) σ hs H ∧
    ((∀ a o, Event.mutate a o ∈ evs → a ∉ c.refs) → Prog.steps (stepsOf t evs) (pdtw A c) h = (p, hs))

/-- The invariant of a system. -/
structure SysInv (A : Arith) (h : Heap) (cs : List Call) (evs : List Event) (σ : Nat → List Nat) (s : Sys) : Prop where
  len : s.threads.length = cs.length
  size : h.length ≤ s.heap.length
  thread : ∀ t c, cs[t]? = some c → ∃ q, s.threads[t]? = some q ∧ ThreadInv A h c t evs (σ t) q s.heap
  fresh : ∀ t, ∀ b ∈ σ t, h.length ≤ b ∧ b < s.heap.length
  disjoint : ∀ t u, t ≠ u → ∀ b ∈ σ t, b ∉ σ u
  kept : ∀ b : Nat, b < h.length → (∀ o, Event.mutate b o ∉ evs) → s.heap[b]? = h[b]?

theorem stepsOf_snoc (t : Nat) (evs : List Event) (e : Event) :
    stepsOf t (evs ++ [e]) = stepsOf t evs + (match e with | .step u => if u = t then 1 else 0 | _ => 0) := by
  simp only [stepsOf, List.countP_append, List.countP_cons, List.countP_nil, Nat.zero_add]
  cases e with
  | step u => by_cases hu : u = t <;> simp [hu]
  | create o => simp
  | mutate a o => simp

theorem schedule_inv {A : Arith} {h : Heap} {cs : List Call} (hr : ∀ c ∈ cs, ∀ a : Nat, a ∈ c.refs → a < h.length) (evs : List Event)
    (hm : ∀ (a : Nat) o, Event.mutate a o ∈ evs → a < h.length) :
    ∃ σ, SysInv A h cs evs σ (runSchedule (startCalls A h cs) evs) := by
  induction evs using List.reverseRecOn with
  | nil =>
    refine ⟨fun _ => [], by simp [runSchedule, startCalls], Nat.le_refl _, ?_, by simp, by simp, fun _ _ _ => rfl⟩
    intro t c hc
    refine ⟨pdtw A c, by simp [runSchedule, startCalls, hc], ⟨pdtw A c, h, Indep.dtw A c fun a ha => ha, ?_, fun _ => rfl⟩⟩
    exact ⟨by simp, fun _ _ => rfl, by simp, by simp, by simp⟩
  | append_singleton evs e ih =>
    obtain ⟨σ, inv⟩ := ih fun a o ha => hm a o (List.mem_append_left _ ha)
    rw [runSchedule, List.foldl_append]
    change ∃ σ, SysInv A h cs (evs ++ [e]) σ (Event.run (runSchedule (startCalls A h cs) evs) e)
    generalize runSchedule (startCalls A h cs) evs = s at inv
    have refsLt : ∀ (t : Nat) (c : Call), cs[t]? = some c → ∀ a : Nat, a ∈ c.refs → a < h.length :=
      fun t c hc => hr c (List.mem_of_getElem? hc)
    -- a change of the heap that leaves the objects of all threads alone
    have quiet : ∀ H', s.heap.length ≤ H'.length →
        (∀ b : Nat, h.length ≤ b → b < s.heap.length → H'[b]? = s.heap[b]?) →
        (∀ b : Nat, b < h.length → (∀ o, e ≠ .mutate b o) → H'[b]? = s.heap[b]?) → (∀ u, e ≠ .step u) →
        SysInv A h cs (evs ++ [e]) σ ⟨H', s.threads⟩ := by
      intro H' hlen hnew hold hne
      refine ⟨inv.len, Nat.le_trans inv.size hlen, ?_, ?_, inv.disjoint, ?_⟩
      · intro t c hc
        obtain ⟨q, hq, ⟨p, hs, h1, h2, h3⟩⟩ := inv.thread t c hc
        have hst : stepsOf t (evs ++ [e]) = stepsOf t evs := by
          rw [stepsOf_snoc]
          cases e with
          | step u => exact absurd rfl (hne u)
          | create o => rfl
          | mutate a o => rfl
        refine ⟨q, hq, ?_⟩
        by_cases hmut : ∃ a o, e = .mutate a o ∧ a ∈ c.refs
        · -- an argument of this call is overwritten: the copy alone sees that too
          obtain ⟨a, o, rfl, hac⟩ := hmut
          have hah : (a : Nat) < h.length := refsLt t c hc a hac
          have hne : ∀ b : Nat, h.length ≤ b → a ≠ b := fun b hb => Nat.ne_of_lt (Nat.lt_of_lt_of_le hah hb)
          let hs' : Heap := hs.set a (H'[a]?.getD o)
          refine ⟨p, hs', h1, ⟨by simp [hs', h2.len], ?_, ?_, ?_, h2.nodup⟩, ?_⟩
          · intro b hb
            by_cases hab : a = b
            · subst hab
              have h4 : a < hs.length := by
                rw [h2.len]
                exact Nat.lt_of_lt_of_le hah (Nat.le_add_right _ _)
              have h5 : a < H'.length := Nat.lt_of_lt_of_le hah (Nat.le_trans inv.size hlen)
              rw [show hs'[a]? = _ from List.getElem?_set_self h4, List.getElem?_eq_getElem h5]
              rfl
            · rw [show hs'[b]? = hs[b]? from List.getElem?_set_ne hab, ← h2.base b hb]
              refine hold b (refsLt t c hc b hb) ?_
              rintro o' ⟨⟩
              exact hab rfl
          · intro i b hib
            have := h2.fresh b (List.mem_of_getElem? hib)
            rw [show hs'[h.length + i]? = hs[h.length + i]? from List.getElem?_set_ne (hne _ (Nat.le_add_right _ _)), ← h2.own i b hib]
            exact hnew b this.1 this.2
          · intro b hb
            exact ⟨(h2.fresh b hb).1, Nat.lt_of_lt_of_le (h2.fresh b hb).2 hlen⟩
          · intro hno
            exact absurd hac (hno a o (by simp))
        · refine ⟨p, hs, h1, h2.others hlen ?_ ?_, ?_⟩
          · intro b hb
            refine hold b (refsLt t c hc b hb) ?_
            rintro o rfl
            exact hmut ⟨b, o, rfl, hb⟩
          · intro b hb
            have := h2.fresh b hb
            exact hnew b this.1 this.2
          · intro hno
            rw [hst]
            exact h3 fun a o ha => hno a o (List.mem_append_left _ ha)
      · intro t b hb
        exact ⟨(inv.fresh t b hb).1, Nat.lt_of_lt_of_le (inv.fresh t b hb).2 hlen⟩
      · intro b hb hno
        rw [hold b hb fun o he => hno o (by simp [he])]
        exact inv.kept b hb fun o ho => hno o (List.mem_append_left _ ho)
    cases e with
    | create o =>
      refine ⟨σ, quiet _ (by simp) (fun b _ hb => List.getElem?_append_left hb) ?_ (by simp)⟩
      intro b hb _
      exact List.getElem?_append_left (Nat.lt_of_lt_of_le hb inv.size)
    | mutate a o =>
      have hah : a < h.length := hm a o (by simp)
      refine ⟨σ, quiet _ (by simp)
        (fun b hb _ => List.getElem?_set_ne (Nat.ne_of_lt (Nat.lt_of_lt_of_le hah hb))) ?_ (by simp)⟩
      intro b hb hno
      refine List.getElem?_set_ne ?_
      rintro rfl
      exact hno o rfl
    | step t =>
      simp only [Event.run]
      cases hq0 : s.threads[t]? with
      | none =>
        simp only
        have hcs : cs[t]? = none := by
          rw [List.getElem?_eq_none_iff] at hq0 ⊢
          rw [← inv.len]
          exact hq0
        refine ⟨σ, inv.len, inv.size, ?_, inv.fresh, inv.disjoint, ?_⟩
        · intro u c hc
          obtain ⟨q, hq, ⟨p, hs, h1, h2, h3⟩⟩ := inv.thread u c hc
          refine ⟨q, hq, ⟨p, hs, h1, h2, ?_⟩⟩
          intro hno
          have hut : t ≠ u := by
            rintro rfl
            rw [hcs] at hc
            cases hc
          rw [stepsOf_snoc]
          simp only [hut, if_false, Nat.add_zero]
          exact h3 fun a o ha => hno a o (List.mem_append_left _ ha)
        · intro b hb hno
          exact inv.kept b hb fun o ho => hno o (List.mem_append_left _ ho)
      | some q0 =>
        simp only
        have htl : t < s.threads.length := (List.getElem?_eq_some_iff.1 hq0).1
        obtain ⟨c0, hc0⟩ : ∃ c0, cs[t]? = some c0 := by
          rw [inv.len] at htl
          exact ⟨cs[t], List.getElem?_eq_getElem htl⟩
        obtain ⟨q, hq, ⟨p, hs, h1, h2, h3⟩⟩ := inv.thread t c0 hc0
        rw [hq0] at hq
        cases hq
        obtain ⟨σ', g1, g2, g3, g4, g5⟩ := h1.step (refsLt t c0 hc0) inv.size h2
        refine ⟨fun u => if u = t then σ' else σ u, by simp [inv.len], Nat.le_trans inv.size g4, ?_, ?_, ?_, ?_⟩
        · intro u c hc
          by_cases hut : u = t
          · subst hut
            rw [hc0] at hc
            cases hc
            refine ⟨_, List.getElem?_set_self htl, ⟨(p.step hs).1, (p.step hs).2, ?_, ?_, ?_⟩⟩
            · simpa using g1
            · simpa using g2
            · intro hno
              rw [stepsOf_snoc]
              simp only [if_true]
              rw [Prog.steps, h3 fun a o ha => hno a o (List.mem_append_left _ ha)]
          · obtain ⟨q, hq, ⟨p', hs', k1, k2, k3⟩⟩ := inv.thread u c hc
            refine ⟨q, ?_, ⟨p', hs', ?_, ?_, ?_⟩⟩
            · rw [List.getElem?_set_ne (Ne.symm hut)]
              exact hq
            · simpa [hut] using k1
            · simp only [hut, if_false]
              refine k2.others g4 ?_ ?_
              · intro b hb
                have hbl := refsLt u c hc b hb
                refine g5 b (Nat.lt_of_lt_of_le hbl inv.size) ?_
                intro hbσ
                have := (inv.fresh t b hbσ).1
                omega
              · intro b hb
                exact g5 b (inv.fresh u b hb).2 (inv.disjoint u t hut b hb)
            · intro hno
              rw [stepsOf_snoc]
              simp only [Ne.symm hut, if_false, Nat.add_zero]
              exact k3 fun a o ha => hno a o (List.mem_append_left _ ha)
        · intro u b hb
          by_cases hut : u = t
          · subst hut
            exact g2.fresh b (by simpa using hb)
          · have := inv.fresh u b (by simpa [hut] using hb)
            exact ⟨this.1, Nat.lt_of_lt_of_le this.2 g4⟩
        · intro u v huv b hb hb'
          by_cases hut : u = t
          · subst hut
            have hvu : v ≠ u := Ne.symm huv
            simp only [if_true] at hb
            simp only [hvu, if_false] at hb'
            rcases g3 b hb with h6 | h6
            · exact inv.disjoint u v huv b h6 hb'
            · have := (inv.fresh v b hb').2
              omega
          · simp only [hut, if_false] at hb
            by_cases hvt : v = t
            · subst hvt
              simp only [if_true] at hb'
              rcases g3 b hb' with h6 | h6
              · exact inv.disjoint u v huv b hb h6
              · have := (inv.fresh u b hb).2
                omega
            · simp only [hvt, if_false] at hb'
              exact inv.disjoint u v huv b hb hb'
        · intro b hb hno
          rw [g5 b (Nat.lt_of_lt_of_le hb inv.size) ?_]
          · exact inv.kept b hb fun o ho => hno o (List.mem_append_left _ ho)
          · intro hbσ
            have := (inv.fresh t b hbσ).1
            omega

/-! ### Reading a result -/

theorem derefOpt_twin {β : Type} {n0 : Nat} {B : Nat → Prop} {σ : List Nat} {hs H : Heap} (h : Agree n0 B σ hs H)
    {f : Heap → Addr → Option β} (hf : ∀ {h h' : Heap} {a b : Nat}, h'[b]? = h[a]? → f h' b = f h a)
    {a b : Option Addr} (ht : Indep.OptTwin n0 σ a b) : derefOpt (f H) b = derefOpt (f hs) a := by
  cases a <;> cases b <;> simp only [Indep.OptTwin] at ht
  · rfl
  · simp only [derefOpt, hf (h.twin ht)]

theorem mat?_twin {h h' : Heap} {a b : Nat} (e : h'[b]? = h[a]?) : h'.mat? b = h.mat? a := by
  unfold Heap.mat?; rw [e]

theorem imat?_twin {h h' : Heap} {a b : Nat} (e : h'[b]? = h[a]?) : h'.imat? b = h.imat? a := by
  unfold Heap.imat?; rw [e]

theorem ivec?_twin {h h' : Heap} {a b : Nat} (e : h'[b]? = h[a]?) : h'.ivec? b = h.ivec? a := by
  unfold Heap.ivec?; rw [e]

theorem mapping?_twin {n0 : Nat} {B : Nat → Prop} {σ : List Nat} {hs H : Heap} (h : Agree n0 B σ hs H) {r s : HResult}
    (hrs : Indep.ResTwin n0 B σ r s) : s.mapping? H = r.mapping? hs := by
  have h1 := hrs.index1
  have h2 := hrs.index2
  have h3 := hrs.index1s
  have h4 := hrs.index2s
  have h5 := hrs.stepsTaken
  unfold HResult.mapping?
  generalize r.index1 = a1 at *
  generalize r.index2 = a2 at *
  generalize r.index1s = a3 at *
  generalize r.index2s = a4 at *
  generalize r.stepsTaken = a5 at *
  generalize s.index1 = b1 at *
  generalize s.index2 = b2 at *
  generalize s.index1s = b3 at *
  generalize s.index2s = b4 at *
  generalize s.stepsTaken = b5 at *
  cases a1 <;> cases b1 <;> simp only [Indep.OptTwin] at h1 <;>
  cases a2 <;> cases b2 <;> simp only [Indep.OptTwin] at h2 <;>
  cases a3 <;> cases b3 <;> simp only [Indep.OptTwin] at h3 <;>
  cases a4 <;> cases b4 <;> simp only [Indep.OptTwin] at h4 <;>
  cases a5 <;> cases b5 <;> simp only [Indep.OptTwin] at h5 <;> try rfl
  simp only [ivec?_twin (h.twin h1), ivec?_twin (h.twin h2), ivec?_twin (h.twin h3), ivec?_twin (h.twin h4),
    ivec?_twin (h.twin h5)]

theorem deref_twin {n0 : Nat} {B : Nat → Prop} {σ : List Nat} {hs H : Heap} (h : Agree n0 B σ hs H) {r s : HResult}
    (hrs : Indep.ResTwin n0 B σ r s) : s.deref H = r.deref hs := by
  have hv := hrs.values
  simp only [Prod.mk.injEq] at hv
  obtain ⟨v1, v2, v3, v4, v5, v6, v7, v8⟩ := hv
  have e7 : derefOpt (derefQR H) s.queryReference = derefOpt (derefQR hs) r.queryReference := by
    rw [← hrs.queryReference.1]
    refine derefOpt_congr fun q hq => ?_
    unfold derefQR View.deref
    rw [arr?_congr (h.base _ (hrs.queryReference.2 q hq).1), arr?_congr (h.base _ (hrs.queryReference.2 q hq).2)]
  unfold HResult.deref
  rw [← hrs.windowArgs.1, ← hrs.stepPattern.1, dict?_congr (h.base _ hrs.windowArgs.2),
    pat?_congr (h.base _ hrs.stepPattern.2), mapping?_twin h hrs, e7,
    derefOpt_twin h (f := Heap.mat?) mat?_twin hrs.costMatrix,
    derefOpt_twin h (f := Heap.imat?) imat?_twin hrs.directionMatrix,
    derefOpt_twin h (f := Heap.mat?) mat?_twin hrs.localCostMatrix, ← v1, ← v2, ← v3, ← v4, ← v5, ← v6, ← v7, ← v8]

end DTW
