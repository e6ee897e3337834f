/-!
# Statements that bind names

The fragment of Python that the modules of the package use at top level (and users to get at it).
-/

namespace DTW.Imports

/-- What a name is bound to by a definition. -/
inductive Kind where
  | function
  | cls
  | pattern
  | value
  deriving DecidableEq

/-- A statement; `path` is a dotted name. -/
inductive Stmt where
  /-- `def n`, `class n`, `n = …` -/
  | bind (k : Kind) (n : String)
  /-- `n = m` where `m` is a name bound before -/
  | alias (n m : String)
  /-- `__all__ = names` -/
  | exports (names : List String)
  /-- `import path`, `import path as a` -/
  | imp (path : List String) (as : Option String)
  /-- `from path import *` -/
  | star (path : List String)
  /-- `from path import n as a` -/
  | fromImp (path : List String) (n a : String)
  deriving DecidableEq

end DTW.Imports
