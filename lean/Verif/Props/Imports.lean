import Verif.ImportStates
import Verif.Dtw

/-!
# C72: the names of the package

Programs are arbitrary sequences of import statements and definitions (Imports.lean), in a fresh interpreter; statements that raise
are caught.
-/

namespace DTW.Imports

/-! ### Which states of the package are reachable -/

attribute [local irreducible] S0 S1 sources

theorem load_empty : loadWith (execBody 8) Pkg.empty "dtw" = (S0, none) := by decide +kernel

theorem load_main : ensure S0 ["__main__"] = (S1, none) := by decide +kernel

theorem load_S0 : loadWith (execBody 8) S0 "dtw" = (S0, none) := by decide +kernel

theorem load_S1 : loadWith (execBody 8) S1 "dtw" = (S1, none) := by decide +kernel

theorem lookup_isSome_of_mem {β : Type} {l : List (String × β)} {k : String} (h : k ∈ l.map (·.1)) : (l.lookup k).isSome = true := by
  induction l with
  | nil => simp at h
  | cons q l ih =>
    rw [List.lookup_cons]
    by_cases hq : k = q.1
    · simp [hq]
    · simp only [List.map_cons, List.mem_cons, hq, false_or] at h
      simp only [beq_false_of_ne hq]
      exact ih h

theorem mem_of_lookup' {β : Type} {l : List (String × β)} {k : String} {v : β} (h : l.lookup k = some v) : (k, v) ∈ l := by
  induction l with
  | nil => simp at h
  | cons q l ih =>
    rw [List.lookup_cons] at h
    by_cases hq : k = q.1
    · simp only [hq, beq_self_eq_true, Option.some.injEq] at h
      rw [hq, ← h]
      simp
    · simp only [beq_false_of_ne hq] at h
      exact List.mem_cons_of_mem _ (ih h)

/-- Importing any module, existing or not, in a state where the package is loaded. -/
theorem ensure_loaded (path : List String) : ((ensure S0 path).1 = S0 ∨ (ensure S0 path).1 = S1) ∧ (ensure S1 path).1 = S1 := by
  have keys0 : ∀ k ∈ sources.map (·.1), k ∈ S0.mods.map (·.1) ∨ k = "dtw.__main__" := by decide +kernel
  have keys1 : ∀ k ∈ sources.map (·.1), k ∈ S1.mods.map (·.1) := by decide +kernel
  cases path with
  | nil =>
    unfold ensure ensureWith
    rw [load_S0, load_S1]
    exact ⟨.inl rfl, rfl⟩
  | cons x rest =>
    unfold ensure ensureWith
    rw [load_S0, load_S1]
    simp only
    constructor
    · by_cases hm : (S0.mods.lookup ("dtw." ++ x)).isSome = true
      · simp only [hm, if_true]
        exact .inl trivial
      · simp only [hm]
        unfold loadWith
        simp only [hm]
        cases hs : sources.lookup ("dtw." ++ x) with
        | none => exact .inl rfl
        | some body =>
          rcases keys0 _ (List.mem_map.2 ⟨_, mem_of_lookup' hs, rfl⟩) with h | h
          · exact absurd (lookup_isSome_of_mem h) hm
          · right
            have hx : x = "__main__" := by
              have := congrArg String.toList h
              rw [String.toList_append] at this
              have h2 : "dtw.__main__".toList = "dtw.".toList ++ "__main__".toList := by decide
              rw [h2] at this
              exact String.toList_inj.1 (List.append_cancel_left this)
            subst hx
            have h3 := load_main
            unfold ensure ensureWith at h3
            rw [load_S0] at h3
            simp only [hm] at h3
            unfold loadWith at h3
            simp only [hm, hs] at h3
            have h4 : (execBody 8 ⟨S0.mods ++ [("dtw." ++ "__main__", [])], ("dtw." ++ "__main__") :: S0.runs⟩ ("dtw." ++ "__main__")
                ((sources.lookup ("dtw." ++ "__main__")).getD [])).2 = none := by decide +kernel
            rw [hs] at h4
            simp only [Option.getD_some] at h4
            obtain ⟨e, he⟩ : ∃ e, execBody 8 ⟨S0.mods ++ [("dtw." ++ "__main__", [])], ("dtw." ++ "__main__") :: S0.runs⟩
                ("dtw." ++ "__main__") body = (e, none) := ⟨_, Prod.ext rfl h4⟩
            simp only [Bool.false_eq_true, if_false, he] at h3 ⊢
            exact congrArg Prod.fst h3
    · by_cases hm : (S1.mods.lookup ("dtw." ++ x)).isSome = true
      · simp only [hm, if_true]
      · simp only [hm]
        unfold loadWith
        simp only [hm]
        cases hs : sources.lookup ("dtw." ++ x) with
        | none => rfl
        | some body => exact absurd (lookup_isSome_of_mem (keys1 _ (List.mem_map.2 ⟨_, mem_of_lookup' hs, rfl⟩))) hm

theorem ensure_empty (path : List String) : ensure Pkg.empty path = ensure S0 path := by
  cases path with
  | nil =>
    unfold ensure ensureWith
    rw [load_empty, load_S0]
  | cons x rest =>
    unfold ensure ensureWith
    rw [load_empty, load_S0]

/-- The reachable states: not loaded, loaded, loaded together with `dtw.__main__`. -/
def Reachable (p : Pkg) : Prop := p = Pkg.empty ∨ p = S0 ∨ p = S1

theorem ensure_reachable {p : Pkg} (hp : Reachable p) (path : List String) :
    (ensure p path).1 = S0 ∨ (ensure p path).1 = S1 := by
  rcases hp with rfl | rfl | rfl
  · rw [ensure_empty]; exact (ensure_loaded path).1
  · exact (ensure_loaded path).1
  · exact .inr (ensure_loaded path).2

theorem bindings_reachable {p : Pkg} (hp : Reachable p) (scope : NS) (st : Stmt) :
    Reachable (bindings ensure p scope "__main__" 0 st).1 := by
  have he : ∀ {q : Pkg}, Reachable q → ∀ path, Reachable (ensure q path).1 := fun hq path =>
    .inr (ensure_reachable hq path)
  cases st with
  | bind k n => exact hp
  | «alias» n m =>
    simp only [bindings]
    split <;> exact hp
  | exports l => exact hp
  | imp path as =>
    cases path with
    | nil => exact hp
    | cons t rest =>
      simp only [bindings]
      split
      · have := he hp rest
        generalize ensure p rest = e at this
        obtain ⟨e1, e2⟩ := e
        cases e2 with
        | some e => exact this
        | none =>
          simp only
          cases as with
          | none => exact this
          | some a =>
            simp only
            split <;> exact this
      · split <;> exact hp
  | star path =>
    cases path with
    | nil => exact hp
    | cons t rest =>
      simp only [bindings]
      split
      · have := he hp rest
        generalize ensure p rest = e at this
        obtain ⟨e1, e2⟩ := e
        cases e2 with
        | some e => exact this
        | none => exact this
      · exact hp
  | fromImp path n a =>
    cases path with
    | nil => exact hp
    | cons t rest =>
      simp only [bindings]
      split
      · have := he hp rest
        generalize ensure p rest = e at this
        obtain ⟨e1, e2⟩ := e
        cases e2 with
        | some e => exact this
        | none =>
          simp only
          split
          · exact this
          · split
            · have h2 := he this [n]
              simp only at h2
              generalize ensure e1 [n] = g at h2
              obtain ⟨g1, g2⟩ := g
              cases g2 with
              | some e => exact h2
              | none =>
                simp only
                split <;> exact h2
            · exact this
      · exact hp

theorem exec_reachable {s : Session} (hs : Reachable s.pkg) (st : Stmt) : Reachable (s.exec st).pkg := by
  have := bindings_reachable hs s.user st
  unfold Session.exec
  generalize bindings ensure s.pkg s.user "__main__" 0 st = b at this
  obtain ⟨p, r⟩ := b
  cases r <;> exact this

theorem run_reachable (sts : List Stmt) : Reachable (Session.run sts).pkg := by
  have : ∀ (sts : List Stmt) (s : Session), Reachable s.pkg → Reachable (sts.foldl Session.exec s).pkg := by
    intro sts
    induction sts with
    | nil => exact fun _ h => h
    | cons st sts ih => exact fun s h => ih _ (exec_reachable h st)
  exact this sts _ (.inl rfl)

/-! ### The documented names -/

/-- What a user expects each name to be, and the module that defines it. -/
def api : List (String × Kind × String) :=
  [("dtw", .function, "dtw.dtw"), ("DTW", .cls, "dtw.dtw"), ("countPaths", .function, "dtw.countPaths"),
   ("warp", .function, "dtw.warp"), ("warpArea", .function, "dtw.warpArea"),
   ("mvmStepPattern", .function, "dtw.mvm"), ("StepPattern", .cls, "dtw.stepPattern"),
   ("rabinerJuangStepPattern", .function, "dtw.stepPattern"),
   ("dtwPlot", .function, "dtw.dtwPlot"), ("dtwPlotAlignment", .function, "dtw.dtwPlot"),
   ("dtwPlotTwoWay", .function, "dtw.dtwPlot"), ("dtwPlotThreeWay", .function, "dtw.dtwPlot"),
   ("dtwPlotDensity", .function, "dtw.dtwPlot"),
   ("noWindow", .function, "dtw.window"), ("sakoeChibaWindow", .function, "dtw.window"),
   ("itakuraWindow", .function, "dtw.window"), ("slantedBandWindow", .function, "dtw.window")] ++
  ["symmetric1", "symmetric2", "asymmetric", "asymmetricP0", "symmetricP05", "asymmetricP05", "symmetricP1", "asymmetricP1",
   "symmetricP2", "asymmetricP2", "typeIa", "typeIb", "typeIc", "typeId", "typeIas", "typeIbs", "typeIcs", "typeIds", "typeIIa",
   "typeIIb", "typeIIc", "typeIId", "typeIIIc", "typeIVc", "mori2006", "rigid"].map fun n => (n, .pattern, "dtw.stepPattern")

/-- The package is loaded. -/
def Loaded (p : Pkg) : Prop := (p.mods.lookup "dtw").isSome = true

theorem loaded_iff {p : Pkg} (hp : Reachable p) : Loaded p ↔ p = S0 ∨ p = S1 := by
  constructor
  · intro h
    rcases hp with rfl | h1
    · cases h
    · exact h1
  · rintro (rfl | rfl) <;> unfold Loaded <;> decide +kernel

/-- **C72** After any program that has the package loaded, in whatever way (`import dtw`, `from dtw.warp import …`,
`import dtw.nosuch` that failed, …), every documented name is an attribute of `dtw`, and it is the function, class or step
pattern, not the submodule of the same name. -/
theorem C72_attributes (sts : List Stmt) (h : Loaded (Session.run sts).pkg) :
    ∀ q ∈ api, (Session.run sts).pkg.attr (.module "dtw") q.1 = some (.obj q.2.1 q.2.2 q.1 1) := by
  have h0 : ∀ q ∈ api, S0.attr (.module "dtw") q.1 = some (.obj q.2.1 q.2.2 q.1 1) := by decide +kernel
  have h1 : ∀ q ∈ api, S1.attr (.module "dtw") q.1 = some (.obj q.2.1 q.2.2 q.1 1) := by decide +kernel
  rcases (loaded_iff (run_reachable sts)).1 h with h | h <;> rw [h]
  · exact h0
  · exact h1

/-- **C72** No module body is executed twice, whatever the order of imports; so there is only one `symmetric2`, one class
`StepPattern`, … in the program. -/
theorem C72_once (sts : List Stmt) : (Session.run sts).pkg.runs.Nodup := by
  have h0 : S0.runs.Nodup := by decide +kernel
  have h1 : S1.runs.Nodup := by decide +kernel
  rcases run_reachable sts with h | h | h <;> rw [h]
  · exact List.nodup_nil
  · exact h0
  · exact h1

theorem NS.lookup_set (ns : NS) (n k : String) (v : Val) : (ns.set n v).lookup k = if k = n then some v else ns.lookup k := by
  unfold NS.set
  rw [List.lookup_cons]
  by_cases hk : k = n
  · simp [hk]
  · simp only [beq_false_of_ne hk, hk, if_false]
    induction ns with
    | nil => rfl
    | cons q ns ih =>
      rw [List.filter_cons, List.lookup_cons]
      by_cases hq : q.1 = n
      · have : k ≠ q.1 := fun e => hk (e.trans hq)
        simp only [hq, beq_false_of_ne hk, ne_eq, not_true_eq_false, decide_false, Bool.false_eq_true, if_false]
        exact ih
      · simp only [ne_eq, hq, not_false_eq_true, decide_true, if_true]
        rw [List.lookup_cons, ih]

theorem NS.lookup_setAll (l : NS) : ∀ (ns : NS) (k : String),
    (ns.setAll l).lookup k = match l.reverse.lookup k with
      | some v => some v
      | none => ns.lookup k := by
  induction l with
  | nil => intro ns k; rfl
  | cons q l ih =>
    intro ns k
    change ((ns.set q.1 q.2).setAll l).lookup k = _
    rw [ih, List.reverse_cons, List.lookup_append, NS.lookup_set]
    cases l.reverse.lookup k with
    | some v => rfl
    | none =>
      obtain ⟨q1, q2⟩ := q
      simp only [Option.none_or]
      by_cases hk : k = q1
      · simp [hk, List.lookup]
      · simp [hk, List.lookup, beq_false_of_ne hk]

/-- What `from dtw import *` brings, apart from the documented names. -/
def alsoExported : List (String × Val) :=
  [("symmetricP0", .obj .pattern "dtw.stepPattern" "symmetric2" 1),
   ("stepPattern", .module "dtw.stepPattern"), ("window", .module "dtw.window"), ("mvm", .module "dtw.mvm"),
   ("dtw_test_data", .module "dtw.dtw_test_data"), ("numpy", .external "numpy"), ("scipy", .external "scipy"),
   ("sys", .external "sys"), ("main", .external "__main__")]

/-- All names `from dtw import *` binds. -/
def exported : NS := api.map (fun q => (q.1, .obj q.2.1 q.2.2 q.1 1)) ++ alsoExported

theorem star_bindings {p : Pkg} (hp : Reachable p) (scope : NS) :
    ∃ p' l, bindings ensure p scope "__main__" 0 (.star ["dtw"]) = (p', .ok l) ∧ (p' = S0 ∨ p' = S1) ∧
      ∀ k, l.reverse.lookup k = exported.lookup k := by
  have e0 : ensure S0 [] = (S0, none) := load_S0
  have e1 : ensure S1 [] = (S1, none) := load_S1
  have pub : ∀ p, p = S0 ∨ p = S1 → ∀ k,
      (publicNames "dtw" ((p.mods.lookup "dtw").getD [])).reverse.lookup k = exported.lookup k := by
    intro p hp k
    have hsub : (∀ q ∈ (publicNames "dtw" ((p.mods.lookup "dtw").getD [])).reverse, exported.lookup q.1 = some q.2) ∧
        ∀ q ∈ exported, (publicNames "dtw" ((p.mods.lookup "dtw").getD [])).reverse.lookup q.1 = some q.2 := by
      rcases hp with rfl | rfl <;> constructor <;> decide +kernel
    generalize (publicNames "dtw" ((p.mods.lookup "dtw").getD [])).reverse = a at hsub
    cases ha : a.lookup k with
    | some v => exact (hsub.1 _ (mem_of_lookup' ha)).symm
    | none =>
      cases hx : exported.lookup k with
      | none => rfl
      | some v =>
        have := hsub.2 _ (mem_of_lookup' hx)
        rw [ha] at this
        cases this
  rcases hp with rfl | rfl | rfl
  · exact ⟨S0, _, by simp only [bindings, if_true, ensure_empty, e0]; rfl, .inl rfl, pub S0 (.inl rfl)⟩
  · exact ⟨S0, _, by simp only [bindings, if_true, e0]; rfl, .inl rfl, pub S0 (.inl rfl)⟩
  · exact ⟨S1, _, by simp only [bindings, if_true, e1]; rfl, .inr rfl, pub S1 (.inr rfl)⟩

/-- **C72** `from dtw import *` after any program: it succeeds; every documented name denotes the documented object, whatever it
denoted before; nine more names are rebound (negative: among them `numpy`, `scipy`, `sys` and `main`, so that a function `main`
the user has defined before the import is lost); no other name of the user's program changes. -/
theorem C72_star (sts : List Stmt) :
    (Session.run sts).error (.star ["dtw"]) = none ∧
    ∀ k, (Session.run (sts ++ [.star ["dtw"]])).user.lookup k =
      match exported.lookup k with
      | some v => some v
      | none => (Session.run sts).user.lookup k := by
  obtain ⟨p', l, h1, -, h3⟩ := star_bindings (run_reachable sts) (Session.run sts).user
  refine ⟨by simp only [Session.error, h1], fun k => ?_⟩
  have : Session.run (sts ++ [.star ["dtw"]]) = (Session.run sts).exec (.star ["dtw"]) := by
    simp only [Session.run, List.foldl_append, List.foldl_cons, List.foldl_nil]
  rw [this]
  simp only [Session.exec, h1]
  rw [NS.lookup_setAll, h3]

/-- A user's `main`, lost. -/
example : (Session.run [.bind .function "main"]).user.lookup "main" = some (.obj .function "__main__" "main" 0) ∧
    (Session.run [.bind .function "main", .star ["dtw"]]).user.lookup "main" = some (.external "__main__") := by
  decide +kernel

theorem exec_of_bindings {s : Session} {st : Stmt} {n : String} {v : Val}
    (h : ∃ p, bindings ensure s.pkg s.user "__main__" 0 st = (p, .ok [(n, v)])) :
    s.error st = none ∧ (s.exec st).user.lookup n = some v := by
  obtain ⟨p, h⟩ := h
  refine ⟨by simp only [Session.error, h], ?_⟩
  simp only [Session.exec, h, NS.setAll, List.foldl_cons, List.foldl_nil, NS.lookup_set, if_true]

/-- The first component of a module name. -/
def subOf (home : String) : List String := [String.ofList (home.toList.drop 4)]

/-- **C72** After any program, a documented name can be imported from the package or from the module that defines it, and is the
same object. -/
theorem C72_from_import (sts : List Stmt) (q : String × Kind × String) (hq : q ∈ api) (a : String) :
    (Session.run sts).error (.fromImp ["dtw"] q.1 a) = none ∧
    (Session.run sts).error (.fromImp ("dtw" :: subOf q.2.2) q.1 a) = none ∧
    ((Session.run sts).exec (.fromImp ["dtw"] q.1 a)).user.lookup a = some (.obj q.2.1 q.2.2 q.1 1) ∧
    ((Session.run sts).exec (.fromImp ("dtw" :: subOf q.2.2) q.1 a)).user.lookup a = some (.obj q.2.1 q.2.2 q.1 1) := by
  have e0 : ensure S0 [] = (S0, none) := load_S0
  have e1 : ensure S1 [] = (S1, none) := load_S1
  have a0 : ∀ q ∈ api, S0.attr (.module "dtw") q.1 = some (.obj q.2.1 q.2.2 q.1 1) := by decide +kernel
  have a1 : ∀ q ∈ api, S1.attr (.module "dtw") q.1 = some (.obj q.2.1 q.2.2 q.1 1) := by decide +kernel
  have f0 : ∀ q ∈ api, ensure S0 (subOf q.2.2) = (S0, none) ∧
      S0.attr (.module (modKey (subOf q.2.2))) q.1 = some (.obj q.2.1 q.2.2 q.1 1) := by decide +kernel
  have f1 : ∀ q ∈ api, ensure S1 (subOf q.2.2) = (S1, none) ∧
      S1.attr (.module (modKey (subOf q.2.2))) q.1 = some (.obj q.2.1 q.2.2 q.1 1) := by decide +kernel
  have hk : modKey [] = "dtw" := rfl
  have k1 : ∃ p, bindings ensure (Session.run sts).pkg (Session.run sts).user "__main__" 0 (.fromImp ["dtw"] q.1 a) =
      (p, .ok [(a, .obj q.2.1 q.2.2 q.1 1)]) := by
    rcases run_reachable sts with h | h | h <;> rw [h]
    · exact ⟨S0, by simp only [bindings, if_true, ensure_empty, e0, hk, a0 q hq]⟩
    · exact ⟨S0, by simp only [bindings, if_true, e0, hk, a0 q hq]⟩
    · exact ⟨S1, by simp only [bindings, if_true, e1, hk, a1 q hq]⟩
  have k2 : ∃ p, bindings ensure (Session.run sts).pkg (Session.run sts).user "__main__" 0 (.fromImp ("dtw" :: subOf q.2.2) q.1 a) =
      (p, .ok [(a, .obj q.2.1 q.2.2 q.1 1)]) := by
    rcases run_reachable sts with h | h | h <;> rw [h]
    · exact ⟨S0, by simp only [bindings, if_true, ensure_empty, (f0 q hq).1, (f0 q hq).2]⟩
    · exact ⟨S0, by simp only [bindings, if_true, (f0 q hq).1, (f0 q hq).2]⟩
    · exact ⟨S1, by simp only [bindings, if_true, (f1 q hq).1, (f1 q hq).2]⟩
  exact ⟨(exec_of_bindings k1).1, (exec_of_bindings k2).1, (exec_of_bindings k1).2, (exec_of_bindings k2).2⟩

/-- What `import dtw.X as y` binds `y` to. -/
def importedAs : List (String × Val) :=
  ["dtw", "warp", "warpArea", "countPaths", "dtwPlot"].map (fun x => (x, .obj .function ("dtw." ++ x) x 1)) ++
    ["stepPattern", "window", "mvm", "dtw_test_data", "_backtrack", "_globalCostMatrix", "_dtw_utils", "__main__"].map
      fun x => (x, .module ("dtw." ++ x))

/-- **C72** After any program: `import dtw.X as y` gives the function, not the module, for the five modules that define a
function of their own name - their modules can only be had through `sys.modules` - and the module for the others. -/
theorem C72_import_as (sts : List Stmt) (q : String × Val) (hq : q ∈ importedAs) (y : String) :
    (Session.run sts).error (.imp ["dtw", q.1] (some y)) = none ∧
    ((Session.run sts).exec (.imp ["dtw", q.1] (some y))).user.lookup y = some q.2 := by
  have f0 : ∀ q ∈ importedAs, (ensure S0 [q.1]).2 = none ∧
      (ensure S0 [q.1]).1.attrs (.module "dtw") [q.1] = some q.2 := by decide +kernel
  have f1 : ∀ q ∈ importedAs, (ensure S1 [q.1]).2 = none ∧
      (ensure S1 [q.1]).1.attrs (.module "dtw") [q.1] = some q.2 := by decide +kernel
  have key : ∀ p, (ensure p [q.1]).2 = none ∧ (ensure p [q.1]).1.attrs (.module "dtw") [q.1] = some q.2 →
      ∃ p', bindings ensure p (Session.run sts).user "__main__" 0 (.imp ["dtw", q.1] (some y)) = (p', .ok [(y, q.2)]) := by
    intro p h
    simp only [bindings, if_true]
    generalize ensure p [q.1] = e at h
    obtain ⟨e1, e2⟩ := e
    obtain ⟨h1, h2⟩ := h
    simp only at h1 h2
    subst h1
    exact ⟨e1, by simp only [h2]⟩
  refine exec_of_bindings ?_
  rcases run_reachable sts with h | h | h <;> rw [h]
  · exact key _ (by rw [ensure_empty]; exact f0 q hq)
  · exact key _ (f0 q hq)
  · exact key _ (f1 q hq)

/-- **C72** After any program: `import dtw` and `import dtw.X` bind the name `dtw` to the package - for every `X`, also those whose
attribute of the package is a function - and no other name. -/
theorem C72_import_plain (sts : List Stmt) (path : List String) (hp : path = [] ∨ ∃ q ∈ importedAs, path = [q.1]) :
    (Session.run sts).error (.imp ("dtw" :: path) none) = none ∧
    ∀ k, ((Session.run sts).exec (.imp ("dtw" :: path) none)).user.lookup k =
      if k = "dtw" then some (.module "dtw") else (Session.run sts).user.lookup k := by
  have e0 : ensure S0 [] = (S0, none) := load_S0
  have e1 : ensure S1 [] = (S1, none) := load_S1
  have f0 : ∀ q ∈ importedAs, (ensure S0 [q.1]).2 = none := by decide +kernel
  have f1 : ∀ q ∈ importedAs, (ensure S1 [q.1]).2 = none := by decide +kernel
  have key : ∀ p, (ensure p path).2 = none →
      ∃ p', bindings ensure p (Session.run sts).user "__main__" 0 (.imp ("dtw" :: path) none) =
        (p', .ok [("dtw", .module "dtw")]) := by
    intro p h
    simp only [bindings, if_true]
    generalize ensure p path = e at h
    obtain ⟨e1, e2⟩ := e
    simp only at h
    subst h
    exact ⟨e1, rfl⟩
  have all : ∃ p', bindings ensure (Session.run sts).pkg (Session.run sts).user "__main__" 0 (.imp ("dtw" :: path) none) =
      (p', .ok [("dtw", .module "dtw")]) := by
    apply key
    rcases hp with rfl | ⟨q, hq, rfl⟩ <;> rcases run_reachable sts with h | h | h <;> rw [h]
    · rw [ensure_empty, e0]
    · rw [e0]
    · rw [e1]
    · rw [ensure_empty]; exact f0 q hq
    · exact f0 q hq
    · exact f1 q hq
  obtain ⟨p', h⟩ := all
  refine ⟨by simp only [Session.error, h], fun k => ?_⟩
  simp only [Session.exec, h, NS.setAll, List.foldl_cons, List.foldl_nil, NS.lookup_set]

/-- Is it a step pattern? -/
def isPattern : Option Val → Bool
  | some (.obj .pattern _ _ _) => true
  | _ => false

/-- **C72** The names `step_pattern="…"` accepts: `getattr(sys.modules["dtw.stepPattern"], s)` (dtw.py:510) is a step pattern exactly
for the names of the table the model of `dtw` uses, after any program that has loaded the package; for every other string the
attribute is missing or something that is no step pattern, and `dtw` raises an AttributeError. -/
theorem C72_pattern_names (sts : List Stmt) (h : Loaded (Session.run sts).pkg) (s : String) :
    (∃ home n r, (Session.run sts).pkg.attr (.module "dtw.stepPattern") s = some (.obj .pattern home n r)) ↔
      ∃ p, canonPattern (.name s) = .ok p := by
  have tab : (∃ p, canonPattern (.name s) = .ok p) ↔ s ∈ Pat.table.map (·.1) := by
    unfold canonPattern
    simp only
    constructor
    · intro ⟨p, hp⟩
      cases hl : Pat.table.lookup s with
      | none => rw [hl] at hp; cases hp
      | some v => exact List.mem_map.2 ⟨_, mem_of_lookup' hl, rfl⟩
    · intro hm
      obtain ⟨v, hv⟩ := Option.isSome_iff_exists.1 (lookup_isSome_of_mem hm)
      exact ⟨v, by rw [hv]⟩
  rw [tab]
  have key : ∀ p, p = S0 ∨ p = S1 →
      ((∃ home n r, p.attr (.module "dtw.stepPattern") s = some (.obj .pattern home n r)) ↔ s ∈ Pat.table.map (·.1)) := by
    intro p hp
    have hsub : (∀ k ∈ Pat.table.map (·.1), isPattern (p.attr (.module "dtw.stepPattern") k) = true) ∧
        (∀ q ∈ (p.mods.lookup "dtw.stepPattern").getD [], isPattern (some q.2) = true → q.1 ∈ Pat.table.map (·.1)) := by
      rcases hp with rfl | rfl <;> constructor <;> decide +kernel
    constructor
    · rintro ⟨home, n, r, ha⟩
      simp only [Pkg.attr] at ha
      cases hl : p.mods.lookup "dtw.stepPattern" with
      | none => rw [hl] at ha; cases ha
      | some ns =>
        rw [hl] at ha
        exact hsub.2 _ (by rw [hl]; exact mem_of_lookup' ha) rfl
    · intro hm
      have := hsub.1 s hm
      unfold isPattern at this
      split at this
      · rename_i home n r hh
        exact ⟨home, n, r, hh⟩
      · cases this
  rcases (loaded_iff (run_reachable sts)).1 h with h | h <;> rw [h]
  · exact key S0 (.inl rfl)
  · exact key S1 (.inr rfl)

/-- **C72** `symmetricP0` is the object `symmetric2`, not a copy. -/
theorem C72_alias (sts : List Stmt) (h : Loaded (Session.run sts).pkg) :
    (Session.run sts).pkg.attr (.module "dtw") "symmetricP0" = (Session.run sts).pkg.attr (.module "dtw") "symmetric2" := by
  rcases (loaded_iff (run_reachable sts)).1 h with h | h <;> rw [h] <;> decide +kernel

/-- The modules of the package, without `dtw.`. -/
def submodules : List String :=
  ["__main__", "_backtrack", "_dtw_utils", "_globalCostMatrix", "countPaths", "dtw", "dtwPlot", "dtw_test_data", "mvm", "stepPattern",
    "warp", "warpArea", "window"]

theorem submodule_keys : ∀ k ∈ sources.map (·.1), k = "dtw" ∨ k ∈ submodules.map ("dtw." ++ ·) := by decide +kernel

theorem dot_inj {x y : String} (h : "dtw." ++ x = "dtw." ++ y) : x = y := by
  have := congrArg String.toList h
  rw [String.toList_append, String.toList_append] at this
  exact String.toList_inj.1 (List.append_cancel_left this)

theorem dot_ne_dtw (x : String) : "dtw." ++ x ≠ "dtw" := by
  intro h
  have := congrArg (fun s => s.toList.length) h
  rw [String.toList_append, List.length_append] at this
  have h1 : "dtw.".toList.length = 4 := by decide
  have h2 : "dtw".toList.length = 3 := by decide
  omega

/-- Nothing is loaded under an unknown name. -/
theorem unknown_lookup {x : String} (hx : x ∉ submodules) :
    sources.lookup ("dtw." ++ x) = none ∧ S0.mods.lookup ("dtw." ++ x) = none ∧ S1.mods.lookup ("dtw." ++ x) = none := by
  have k0 : ∀ k ∈ S0.mods.map (·.1), k = "dtw" ∨ k ∈ submodules.map ("dtw." ++ ·) := by decide +kernel
  have k1 : ∀ k ∈ S1.mods.map (·.1), k = "dtw" ∨ k ∈ submodules.map ("dtw." ++ ·) := by decide +kernel
  have key : ∀ {β : Type} (l : List (String × β)), (∀ k ∈ l.map (·.1), k = "dtw" ∨ k ∈ submodules.map ("dtw." ++ ·)) →
      l.lookup ("dtw." ++ x) = none := by
    intro β l hl
    cases h : l.lookup ("dtw." ++ x) with
    | none => rfl
    | some v =>
      rcases hl _ (List.mem_map.2 ⟨_, mem_of_lookup' h, rfl⟩) with h | h
      · exact absurd h (dot_ne_dtw x)
      · obtain ⟨y, hy, e⟩ := List.mem_map.1 h
        exact absurd (dot_inj e ▸ hy) hx
  exact ⟨key _ submodule_keys, key _ k0, key _ k1⟩

/-- Importing a module that does not exist. -/
theorem ensure_unknown {p : Pkg} (hp : Reachable p) {x : String} (hx : x ∉ submodules) (rest : List String) :
    ∃ p', ensure p (x :: rest) = (p', some .noModule) ∧ (p' = S0 ∨ p' = S1) := by
  obtain ⟨h1, h2, h3⟩ := unknown_lookup hx
  have e0 : ensure S0 (x :: rest) = (S0, some .noModule) := by
    unfold ensure ensureWith
    rw [load_S0]
    simp only [h2, Option.isSome_none, Bool.false_eq_true, if_false]
    unfold loadWith
    simp only [h1, h2, Option.isSome_none, Bool.false_eq_true, if_false]
  have e1 : ensure S1 (x :: rest) = (S1, some .noModule) := by
    unfold ensure ensureWith
    rw [load_S1]
    simp only [h3, Option.isSome_none, Bool.false_eq_true, if_false]
    unfold loadWith
    simp only [h1, h3, Option.isSome_none, Bool.false_eq_true, if_false]
  rcases hp with rfl | rfl | rfl
  · exact ⟨S0, by rw [ensure_empty, e0], .inl rfl⟩
  · exact ⟨S0, e0, .inl rfl⟩
  · exact ⟨S1, e1, .inr rfl⟩

/-- What a statement that raises does: the user's names are as before. -/
theorem error_of_bindings {s : Session} {st : Stmt} {e : ImpErr}
    (h : ∃ p, bindings ensure s.pkg s.user "__main__" 0 st = (p, .error e)) :
    s.error st = some e ∧ (s.exec st).user = s.user := by
  obtain ⟨p, h⟩ := h
  exact ⟨by simp only [Session.error, h], by simp only [Session.exec, h]⟩

/-- **C72** After any program: whatever is asked of a module of the package that does not exist raises ModuleNotFoundError, binds
nothing, and leaves the package loaded. -/
theorem C72_unknown_module (sts : List Stmt) (x : String) (hx : x ∉ submodules) (rest : List String) (st : Stmt)
    (hst : (∃ as, st = .imp ("dtw" :: x :: rest) as) ∨ st = .star ("dtw" :: x :: rest) ∨ ∃ n a, st = .fromImp ("dtw" :: x :: rest) n a) :
    (Session.run sts).error st = some .noModule ∧ ((Session.run sts).exec st).user = (Session.run sts).user ∧
    Loaded ((Session.run sts).exec st).pkg := by
  obtain ⟨p', he, hp'⟩ := ensure_unknown (run_reachable sts) hx rest
  have hb : bindings ensure (Session.run sts).pkg (Session.run sts).user "__main__" 0 st = (p', .error .noModule) := by
    rcases hst with ⟨as, rfl⟩ | rfl | ⟨n, a, rfl⟩ <;> simp only [bindings, if_true, he]
  have h2 := error_of_bindings ⟨_, hb⟩
  refine ⟨h2.1, h2.2, ?_⟩
  have : ((Session.run sts).exec st).pkg = p' := by simp only [Session.exec, hb]
  rw [this, loaded_iff (.inr hp')]
  exact hp'

/-- **C72** A submodule has no submodules. -/
theorem C72_no_nested_module (sts : List Stmt) (x y : String) (rest : List String) (st : Stmt)
    (hst : (∃ as, st = .imp ("dtw" :: x :: y :: rest) as) ∨ st = .star ("dtw" :: x :: y :: rest) ∨
      ∃ n a, st = .fromImp ("dtw" :: x :: y :: rest) n a) :
    (Session.run sts).error st = some .noModule ∧ ((Session.run sts).exec st).user = (Session.run sts).user := by
  by_cases hx : x ∈ submodules
  · have e0 : ∀ x ∈ submodules, (ensure S0 [x]).2 = none := by decide +kernel
    have e1 : ∀ x ∈ submodules, (ensure S1 [x]).2 = none := by decide +kernel
    have key : ∀ p, (p = S0 ∨ p = S1) → ∃ p', ensure p (x :: y :: rest) = (p', some .noModule) := by
      intro p hp
      have h1 : (ensure p [x]).2 = none := by
        rcases hp with rfl | rfl
        · exact e0 x hx
        · exact e1 x hx
      have hl : loadWith (execBody 8) p "dtw" = (p, none) := by
        rcases hp with rfl | rfl
        · exact load_S0
        · exact load_S1
      unfold ensure ensureWith at h1 ⊢
      rw [hl] at h1 ⊢
      simp only at h1 ⊢
      split at h1
      · cases h1
      · exact ⟨_, rfl⟩
    have : ∃ p', ensure (Session.run sts).pkg (x :: y :: rest) = (p', some .noModule) := by
      rcases run_reachable sts with h | h | h <;> rw [h]
      · rw [ensure_empty]; exact key _ (.inl rfl)
      · exact key _ (.inl rfl)
      · exact key _ (.inr rfl)
    obtain ⟨p', he⟩ := this
    refine error_of_bindings ⟨p', ?_⟩
    rcases hst with ⟨as, rfl⟩ | rfl | ⟨n, a, rfl⟩ <;> simp only [bindings, if_true, he]
  · have h := C72_unknown_module sts x hx (y :: rest) st hst
    exact ⟨h.1, h.2.1⟩

/-- The attributes of the package: what `from dtw import *` binds, the modules, and three more. -/
def attributes : List String := exported.map (·.1) ++ submodules ++ ["__version__", "__email__", "__author__"]

/-- **C72** After any program: a name that is neither exported, nor a module, nor `__version__`, `__email__` or `__author__`, cannot be
imported from the package: ImportError, nothing bound. -/
theorem C72_unknown_name (sts : List Stmt) (n a : String) (hn : n ∉ attributes) :
    (Session.run sts).error (.fromImp ["dtw"] n a) = some .noName ∧
    ((Session.run sts).exec (.fromImp ["dtw"] n a)).user = (Session.run sts).user := by
  have a0 : ∀ k ∈ ((S0.mods.lookup "dtw").getD []).map (·.1), k ∈ attributes := by decide +kernel
  have a1 : ∀ k ∈ ((S1.mods.lookup "dtw").getD []).map (·.1), k ∈ attributes := by decide +kernel
  have hx : n ∉ submodules := fun h => hn (List.mem_append_left _ (List.mem_append_right _ h))
  have key : ∀ p, (p = S0 ∨ p = S1) → ensure p [] = (p, none) ∧ p.attr (.module (modKey [])) n = none := by
    intro p hp
    refine ⟨by rcases hp with rfl | rfl; exacts [load_S0, load_S1], ?_⟩
    show ((p.mods.lookup "dtw").bind fun ns => ns.lookup n) = none
    have ha : ∀ k ∈ ((p.mods.lookup "dtw").getD []).map (·.1), k ∈ attributes := by
      rcases hp with rfl | rfl
      · exact a0
      · exact a1
    cases h : p.mods.lookup "dtw" with
    | none => rfl
    | some ns =>
      rw [h] at ha
      cases h2 : ns.lookup n with
      | none => simpa using h2
      | some v => exact absurd (ha n (List.mem_map.2 ⟨_, mem_of_lookup' h2, rfl⟩)) hn
  have main : ∀ p, (p = S0 ∨ p = S1) → ∃ p', bindings ensure p (Session.run sts).user "__main__" 0 (.fromImp ["dtw"] n a) =
      (p', .error .noName) := by
    intro p hp
    obtain ⟨h1, h2⟩ := key p hp
    obtain ⟨p', h3, -⟩ := ensure_unknown (.inr hp : Reachable p) hx []
    exact ⟨p', by simp only [bindings, if_true, h1, h2, h3]⟩
  refine error_of_bindings ?_
  rcases run_reachable sts with h | h | h <;> rw [h]
  · obtain ⟨p', h'⟩ := main S0 (.inl rfl)
    refine ⟨p', ?_⟩
    rw [← h']
    simp only [bindings, if_true, ensure_empty]
  · exact main _ (.inl rfl)
  · exact main _ (.inr rfl)

/-- **C72** Every attribute listed can be imported, after any program. -/
theorem C72_known_name (sts : List Stmt) (n a : String) (hn : n ∈ attributes) :
    (Session.run sts).error (.fromImp ["dtw"] n a) = none := by
  have e : ∀ p, (p = S0 ∨ p = S1) → ensure p [] = (p, none) := by
    rintro p (rfl | rfl)
    exacts [load_S0, load_S1]
  have a0 : ∀ n ∈ attributes, (S0.attr (.module "dtw") n).isSome = true ∨
      ((ensure S0 [n]).2 = none ∧ ((ensure S0 [n]).1.attr (.module "dtw") n).isSome = true) := by decide +kernel
  have a1 : ∀ n ∈ attributes, (S1.attr (.module "dtw") n).isSome = true := by decide +kernel
  have main : ∀ p, (p = S0 ∨ p = S1) → ∃ p' l, bindings ensure p (Session.run sts).user "__main__" 0 (.fromImp ["dtw"] n a) =
      (p', .ok l) := by
    intro p hp
    have h : (p.attr (.module "dtw") n).isSome = true ∨
        ((ensure p [n]).2 = none ∧ ((ensure p [n]).1.attr (.module "dtw") n).isSome = true) := by
      rcases hp with rfl | rfl
      · exact a0 n hn
      · exact .inl (a1 n hn)
    have hk : modKey [] = "dtw" := rfl
    simp only [bindings, if_true, e p hp, hk]
    cases hv : p.attr (.module "dtw") n with
    | some v => exact ⟨_, _, rfl⟩
    | none =>
      rw [hv] at h
      obtain ⟨h1, h2⟩ := h.resolve_left (by simp)
      obtain ⟨q, hq⟩ : ∃ q, ensure p [n] = (q, none) := ⟨_, Prod.ext rfl h1⟩
      rw [hq] at h2 ⊢
      obtain ⟨v, hv⟩ := Option.isSome_iff_exists.1 h2
      simp only at hv ⊢
      rw [hv]
      exact ⟨_, _, rfl⟩
  have : ∃ p' l, bindings ensure (Session.run sts).pkg (Session.run sts).user "__main__" 0 (.fromImp ["dtw"] n a) = (p', .ok l) := by
    rcases run_reachable sts with h | h | h <;> rw [h]
    · obtain ⟨p', l, h'⟩ := main S0 (.inl rfl)
      refine ⟨p', l, ?_⟩
      rw [← h']
      simp only [bindings, if_true, ensure_empty]
    · exact main _ (.inl rfl)
    · exact main _ (.inr rfl)
  obtain ⟨p', l, h⟩ := this
  simp only [Session.error, h]

/-- The hypotheses are met: a program with a failing import, a submodule first, a console module, in an odd order. -/
example : Loaded (Session.run [.imp ["dtw", "nosuch"] none]).pkg ∧
    (Session.run []).error (.imp ["dtw", "nosuch"] none) = some .noModule ∧
    Loaded (Session.run [.fromImp ["dtw", "warp"] "warp" "w", .imp ["dtw", "__main__"] none, .star ["dtw"], .imp ["numpy"] none]).pkg ∧
    (Session.run []).error (.fromImp ["dtw"] "nosuch" "x") = some .noName ∧
    "nosuch" ∉ submodules ∧ "nosuch" ∉ attributes ∧ "__main__" ∈ attributes := by
  unfold Loaded
  refine ⟨?_, ?_, ?_, ?_, ?_, ?_, ?_⟩ <;> decide +kernel

end DTW.Imports
