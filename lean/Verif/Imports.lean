import Verif.Sources

/-!
# Importing the package

Python's import system (language reference, section 5, CPython 3.7 or later) as far as the package `dtw` is concerned: which
modules are executed, in which order, how often, and what the names in their namespaces are bound to afterwards.  The same
semantics for the statements of the package's modules and for those of a user's program.

SIMPLIFICATIONS: modules of other packages exist, never fail to import, and neither import `dtw` nor touch it; `from … import *`
of another package binds nothing; the attributes every module has (`__name__`, `__doc__`, …) are left out.
-/

namespace DTW.Imports

/-- An object a name can be bound to.  `run` tells in which execution of its module the object was made. -/
inductive Val where
  | module (name : String)
  | obj (k : Kind) (home name : String) (run : Nat)
  | external (name : String)
  deriving DecidableEq

/-- A namespace. -/
abbrev NS := List (String × Val)

/-- Bind a name. -/
def NS.set (ns : NS) (n : String) (v : Val) : NS := (n, v) :: ns.filter fun q => q.1 ≠ n

/-- Bind several names, one after the other. -/
def NS.setAll (ns : NS) (l : NS) : NS := l.foldl (fun s q => s.set q.1 q.2) ns

/-- The modules of the package that are loaded (`sys.modules`), and which module bodies have been executed so far. -/
structure Pkg where
  mods : List (String × NS)
  runs : List String
  deriving DecidableEq

/-- A fresh interpreter. -/
def Pkg.empty : Pkg := ⟨[], []⟩

/-- `setattr` of a module. -/
def Pkg.setAttr (p : Pkg) (m n : String) (v : Val) : Pkg :=
  { p with mods := p.mods.map fun q => if q.1 = m then (q.1, q.2.set n v) else q }

/-- `getattr`. -/
def Pkg.attr (p : Pkg) : Val → String → Option Val
  | .module m, n => (p.mods.lookup m).bind fun ns => ns.lookup n
  | .external e, n => some (.external (e ++ "." ++ n))
  | .obj .., _ => none

/-- `getattr(getattr(v, a), b)…` -/
def Pkg.attrs (p : Pkg) : Val → List String → Option Val
  | v, [] => some v
  | v, a :: as => (p.attr v a).bind fun w => p.attrs w as

/-- Exceptions: ModuleNotFoundError, ImportError/NameError; `fuel` = nested too deep (does not occur). -/
inductive ImpErr where
  | noModule
  | noName
  | fuel
  deriving DecidableEq

/-- The names `from m import *` binds: those in `__all__`, else all that do not begin with an underscore. -/
def publicNames (m : String) (ns : NS) : NS :=
  match (sources.lookup m).bind fun b => b.findSome? fun
    | .exports l => some l
    | _ => none with
  | some l => ns.filter fun q => l.elem q.1
  | none => ns.filter fun q => !("_".toList.isPrefixOf q.1.toList)

/-- Load a module unless it is loaded: enter it into `sys.modules`, execute its body with `body`; if that fails, remove it. -/
def loadWith (body : Pkg → String → List Stmt → Pkg × Option ImpErr) (p : Pkg) (m : String) : Pkg × Option ImpErr :=
  if (p.mods.lookup m).isSome then (p, none)
  else
    match sources.lookup m with
    | none => (p, some .noModule)
    | some ss =>
      match body ⟨p.mods ++ [(m, [])], m :: p.runs⟩ m ss with
      | (p', none) => (p', none)
      | (p', some e) => (⟨p'.mods.filter (fun q => q.1 ≠ m), p'.runs⟩, some e)

/-- Import `dtw.rest`: the package, then the submodule, which becomes an attribute of the package when it is first loaded.
No submodule is a package. -/
def ensureWith (body : Pkg → String → List Stmt → Pkg × Option ImpErr) (p : Pkg) : List String → Pkg × Option ImpErr
  | [] => loadWith body p "dtw"
  | x :: rest =>
    match loadWith body p "dtw" with
    | (p, some e) => (p, some e)
    | (p, none) =>
      match (if (p.mods.lookup ("dtw." ++ x)).isSome then (p, none)
        else
          match loadWith body p ("dtw." ++ x) with
          | (p, some e) => (p, some e)
          | (p, none) => (p.setAttr "dtw" x (.module ("dtw." ++ x)), none)) with
      | (p, some e) => (p, some e)
      | (p, none) => (p, if rest = [] then none else some .noModule)

/-- The key of a module in `sys.modules`. -/
def modKey : List String → String
  | [] => "dtw"
  | x :: _ => "dtw." ++ x

/-- What a statement binds, given how to import.  `scope` is the namespace it runs in, `home` and `run` the module and its
execution. -/
def bindings (ensure : Pkg → List String → Pkg × Option ImpErr) (p : Pkg) (scope : NS) (home : String) (run : Nat) :
    Stmt → Pkg × Except ImpErr NS
  | .bind k n => (p, .ok [(n, .obj k home n run)])
  | .alias n m =>
    match scope.lookup m with
    | some v => (p, .ok [(n, v)])
    | none => (p, .error .noName)
  | .exports _ => (p, .ok [("__all__", .obj .value home "__all__" run)])
  | .imp [] _ => (p, .error .noModule)
  | .imp (t :: rest) as =>
    if t = "dtw" then
      match ensure p rest with
      | (p, some e) => (p, .error e)
      | (p, none) =>
        match as with
        | none => (p, .ok [("dtw", .module "dtw")])
        | some a =>
          match p.attrs (.module "dtw") rest with
          | some v => (p, .ok [(a, v)])
          | none => (p, .error .noName)
    else
      match as with
      | none => (p, .ok [(t, .external t)])
      | some a => (p, .ok [(a, .external (".".intercalate (t :: rest)))])
  | .star [] => (p, .error .noModule)
  | .star (t :: rest) =>
    if t = "dtw" then
      match ensure p rest with
      | (p, some e) => (p, .error e)
      | (p, none) => (p, .ok (publicNames (modKey rest) ((p.mods.lookup (modKey rest)).getD [])))
    else (p, .ok [])
  | .fromImp [] _ _ => (p, .error .noModule)
  | .fromImp (t :: rest) n a =>
    if t = "dtw" then
      match ensure p rest with
      | (p, some e) => (p, .error e)
      | (p, none) =>
        match p.attr (.module (modKey rest)) n with
        | some v => (p, .ok [(a, v)])
        | none =>
          -- only the package has submodules
          if rest = [] then
            match ensure p [n] with
            | (p, some e) => (p, .error (if e = .noModule then .noName else e))
            | (p, none) =>
              match p.attr (.module "dtw") n with
              | some v => (p, .ok [(a, v)])
              | none => (p, .error .noName)
          else (p, .error .noName)
    else (p, .ok [(a, .external (".".intercalate (t :: rest) ++ "." ++ n))])

/-- Execute the body of module `m`, with importing up to nesting depth `fuel`. -/
def execBody : Nat → Pkg → String → List Stmt → Pkg × Option ImpErr
  | 0, p, _, _ => (p, some .fuel)
  | f + 1, p, m, ss =>
    ss.foldl
      (fun (s : Pkg × Option ImpErr) (st : Stmt) =>
        match s with
        | (p, some e) => (p, some e)
        | (p, none) =>
          match bindings (ensureWith (execBody f)) p ((p.mods.lookup m).getD []) m (p.runs.count m) st with
          | (p, .ok l) => (l.foldl (fun p q => p.setAttr m q.1 q.2) p, none)
          | (p, .error e) => (p, some e))
      (p, none)

/-- Import a module of the package (modules are nested three deep at most). -/
def ensure : Pkg → List String → Pkg × Option ImpErr := ensureWith (execBody 8)

/-! ### A user's program -/

/-- The package as loaded so far, and the names of the user's program. -/
structure Session where
  pkg : Pkg
  user : NS

/-- A statement of the user's program.  If it raises, the program may catch that and go on. -/
def Session.exec (s : Session) (st : Stmt) : Session :=
  match bindings ensure s.pkg s.user "__main__" 0 st with
  | (p, .ok l) => ⟨p, s.user.setAll l⟩
  | (p, .error _) => ⟨p, s.user⟩

/-- Did it raise, and what? -/
def Session.error (s : Session) (st : Stmt) : Option ImpErr :=
  match (bindings ensure s.pkg s.user "__main__" 0 st).2 with
  | .ok _ => none
  | .error e => some e

/-- A program: any sequence of statements, starting in a fresh interpreter. -/
def Session.run (sts : List Stmt) : Session := sts.foldl Session.exec ⟨Pkg.empty, []⟩

end DTW.Imports
