/-!
# Outcomes other than normal return

Python exceptions, C `exit`, C undefined behaviour and non-termination, as values.
-/

namespace DTW

/-- How a call can fail to return.  The Python exceptions raised by the modelled code, plus
`cExit` (the `error(...)` macro of dtw_core.c:42 prints and calls `exit(-1)`), `ub` (a C access out of
bounds or a signed-integer overflow) and `diverges` (a loop that never ends). -/
inductive Err where
  /-- `raise ValueError` (with a short tag for the message) -/
  | valueError (tag : String)
  | typeError
  | indexError
  | keyError
  | attributeError
  | unboundLocal
  | overflowError
  | cExit
  | ub
  | diverges
  deriving DecidableEq, Repr, Inhabited

instance {α} [DecidableEq α] : DecidableEq (Except Err α) := fun a b =>
  match a, b with
  | .ok x, .ok y => if h : x = y then isTrue (by rw [h]) else isFalse (by simpa using h)
  | .error x, .error y => if h : x = y then isTrue (by rw [h]) else isFalse (by simpa using h)
  | .ok _, .error _ => isFalse (by simp)
  | .error _, .ok _ => isFalse (by simp)

@[simp] theorem Except_bind_ok {α β} (a : α) (f : α → Except Err β) :
    (Except.ok a >>= f) = f a := rfl
@[simp] theorem Except_bind_error {α β} (e : Err) (f : α → Except Err β) :
    ((Except.error e : Except Err α) >>= f) = .error e := rfl
@[simp] theorem Except_pure {α} (a : α) : (pure a : Except Err α) = .ok a := rfl
@[simp] theorem Except_throw {α} (e : Err) : (throw e : Except Err α) = .error e := rfl

end DTW
