import Verif.Num
import Verif.Err
import Verif.Binary64

/-!
# Windowing functions (dtw/window.py) and their canonicalisation (dtw.py:490-502)
-/

namespace DTW

/-- Keyword arguments `window_args` (a dict; restricted to numeric values). -/
abbrev WinArgs := List (String × ℚ)

/-- A callable window.  The four functions of window.py, the lambda that
`_canonicalizeWindowFunction` returns for an unknown name, or a user-supplied function of
`(iw, jw, query_size, reference_size, **window_args)`.  SIMPLIFICATION: dtw calls a window once on index
*arrays* and countPaths calls it on scalars; both are modelled by one pointwise function. -/
inductive WinFn where
  | noWindow
  | sakoeChiba
  | itakura
  | slantedBand
  | undefinedLambda
  | user (f : WinArgs → Int → Int → Int → Int → Except Err Bool)

/-- window.py:143-144 `noWindow`: `iw | True`, as a truth value (bitwise or with 1 on `iw ≥ 0`). -/
def noWindowVal (iw : Int) : Bool := decide (iw.toNat ||| 1 ≠ 0)

/-- window.py:147-149 `sakoeChibaWindow`. -/
def sakoeChibaVal (windowSize : ℚ) (iw jw : Int) : Bool := decide (((|jw - iw| : Int) : ℚ) ≤ windowSize)

/-- window.py:152-159 `itakuraWindow`. -/
def itakuraVal (n m iw jw : Int) : Bool :=
  decide (jw < 2 * iw) && decide (iw ≤ 2 * jw) && decide (iw ≥ n - 1 - 2 * (m - jw)) &&
    decide (jw > m - 1 - 2 * (n - iw))

/-- window.py:162-164 `slantedBandWindow`, in double precision as numpy and Python evaluate it: `iw * reference_size` is an
exact integer (below 2^53 for any matrix that fits in memory), `/ query_size` a correctly rounded division, `jw - diagj` a
rounded subtraction, `abs` and `<=` are exact; an infinite difference is never inside. -/
def slantedBandVal (windowSize : ℚ) (n m iw jw : Int) : Bool :=
  match rnd64 ((iw : ℚ) * m / n) with
  | .fin diagj =>
    match rnd64 ((jw : ℚ) - diagj) with
    | .fin d => decide (|d| ≤ windowSize)
    | _ => false
  | _ => false

/-- Calling a window function as `wf(iw, jw, query_size=n, reference_size=m, **args)`.
Missing or unexpected keyword arguments are a TypeError; `undefinedLambda` takes no argument, so calling
it is a TypeError too. -/
def WinFn.call (wf : WinFn) (args : WinArgs) (n m iw jw : Int) : Except Err Bool :=
  match wf with
  | .noWindow => if args = [] then .ok (noWindowVal iw) else .error .typeError
  | .itakura => if args = [] then .ok (itakuraVal n m iw jw) else .error .typeError
  | .sakoeChiba =>
    match args with
    | [("window_size", w)] => .ok (sakoeChibaVal w iw jw)
    | _ => .error .typeError
  | .slantedBand =>
    match args with
    | [("window_size", w)] => .ok (slantedBandVal w n m iw jw)
    | _ => .error .typeError
  | .undefinedLambda => .error .typeError
  | .user f => f args iw jw n m

/-- The `window_type` argument of dtw(). -/
inductive WinArg where
  | none
  | name (s : String)
  | fn (f : WinFn)

/-- dtw.py:490-502 `_canonicalizeWindowFunction`. -/
def canonWindow : WinArg → WinFn
  | .fn f => f
  | .none => .noWindow
  | .name s =>
    if s = "none" then .noWindow
    else if s = "sakoechiba" then .sakoeChiba
    else if s = "itakura" then .itakura
    else if s = "slantedband" then .slantedBand
    else .undefinedLambda

end DTW
