import Verif.Cli
import Verif.Props.Optimal
import Verif.Props.Options2

/-!
# C48: the console script reports the library's result
-/

namespace DTW
open F64

variable {A : Arith} {T : Text} {euclid : List F64 → List F64 → F64}

/-- The library call the script makes. -/
def cliCall (euclid : List F64 → List F64 → F64) (q r : Nd) (s : String) : Args :=
  { x := q, y := some r, dist := euclid, stepPattern := .name s }

/-- The text the script makes of an alignment. -/
def report (T : Text) (al : Result) (mp : Mapping) : String :=
  "Normalized distance: " ++ T.fmt4g al.normalizedDistance ++ "\n\n" ++
    ("Distance: " ++ T.fmt4g al.distance ++ "\n\n") ++
    ("Warping path: " ++ T.showPath mp.index1 mp.index2 ++ "\n\n")

/-- Unless `distance_only`, a returned alignment has its path. -/
theorem mapping_present {a : Args} {r : Result} (hr : dtw A a = .ok r) (hd : a.distanceOnly = false) :
    ∃ mp, r.mapping = some mp := by
  unfold dtw at hr
  cases h1 : localCost a with
  | error e => rw [h1] at hr; cases hr
  | ok v =>
    obtain ⟨lm, lay, qr⟩ := v
    rw [h1, Except_bind_ok] at hr
    simp only at hr
    cases h2 : canonPattern a.stepPattern with
    | error e => rw [h2] at hr; cases hr
    | ok p =>
      rw [h2, Except_bind_ok] at hr
      cases h3 : runGCM A a lm lay (canonWindow a.windowType) p with
      | error e => rw [h3] at hr; cases hr
      | ok w =>
        obtain ⟨lm', cm, sm⟩ := w
        rw [h3, Except_bind_ok] at hr
        simp only at hr
        cases h4 : pickEnd a p.hint lm.cols cm (normalise A p.hint lm.rows (cm.row (cm.rows - 1))) with
        | error e => rw [h4] at hr; cases hr
        | ok z =>
          obtain ⟨j, d⟩ := z
          rw [h4, Except_bind_ok] at hr
          simp only at hr
          cases h5 : pickNorm p.hint (normalise A p.hint lm.rows (cm.row (cm.rows - 1))) j with
          | error e => rw [h5] at hr; cases hr
          | ok v =>
            rw [h5, Except_bind_ok] at hr
            cases h6 : pickMapping a p sm j with
            | error e => rw [h6] at hr; cases hr
            | ok mp =>
              rw [h6, Except_bind_ok] at hr
              cases hr
              simp only
              cases mp with
              | some mp => exact ⟨mp, rfl⟩
              | none =>
                exfalso
                unfold pickMapping at h6
                rw [hd] at h6
                simp only [Bool.false_eq_true, if_false] at h6
                cases hb : backtrack p sm j with
                | error e => rw [hb] at h6; cases h6
                | ok b =>
                  rw [hb] at h6
                  simp only [Except_bind_ok] at h6
                  split at h6 <;> cases h6

/-- **C48** The script prints exactly the normalised distance, the distance and the path of the library call on the
two series with the given step pattern (and the defaults otherwise), when that call succeeds; when reading a file or the
call fails, the script fails in the same way and prints nothing. -/
theorem C48_reports (Q R : List (List F64)) (s : String) :
    (∀ e, genfromtxt Q = .error e → main2 A T euclid Q R s = .error e) ∧
    (∀ q e, genfromtxt Q = .ok q → genfromtxt R = .error e → main2 A T euclid Q R s = .error e) ∧
    (∀ q r e, genfromtxt Q = .ok q → genfromtxt R = .ok r → dtw A (cliCall euclid q r s) = .error e →
      main2 A T euclid Q R s = .error e) ∧
    (∀ q r al, genfromtxt Q = .ok q → genfromtxt R = .ok r → dtw A (cliCall euclid q r s) = .ok al →
      ∃ mp, al.mapping = some mp ∧ main2 A T euclid Q R s = .ok (report T al mp)) := by
  refine ⟨?_, ?_, ?_, ?_⟩
  · intro e h
    unfold main2
    rw [h]
    rfl
  · intro q e h1 h2
    unfold main2
    rw [h1, h2]
    rfl
  · intro q r e h1 h2 h3
    unfold main2
    unfold cliCall at h3
    rw [h1, h2, Except_bind_ok, Except_bind_ok, h3]
    rfl
  · intro q r al h1 h2 h3
    obtain ⟨mp, hmp⟩ := mapping_present h3 rfl
    refine ⟨mp, hmp, ?_⟩
    unfold main2
    unfold cliCall at h3
    rw [h1, h2, Except_bind_ok, Except_bind_ok, h3, Except_bind_ok, hmp]
    rfl

/-- **C48** The distance printed is the least cost of any warping path of the two series under the named pattern. -/
theorem C48_prints_optimum {Q R : List (List F64)} {s : String} {q r : Nd} {n m : Nat} {L : Nat → Nat → F64}
    {p : StepPattern} {rs : List Rule} {out : String} (hq : genfromtxt Q = .ok q) (hr : genfromtxt R = .ok r)
    (hp : Problem (cliCall euclid q r s) n m L (fun _ _ => true) p rs) (ho : main2 A T euclid Q R s = .ok out) :
    ∃ al mp, out = report T al mp ∧ al.mapping = some mp ∧
      (∃ ks, WarpPath A rs (fun _ _ => true) L ks (n - 1) (m - 1) al.distance) ∧
      (∀ ks c, WarpPath A rs (fun _ _ => true) L ks (n - 1) (m - 1) c → c ≠ nan → F64.le al.distance c) := by
  obtain ⟨-, -, h3, h4⟩ := C48_reports (A := A) (T := T) (euclid := euclid) Q R s
  cases hd : dtw A (cliCall euclid q r s) with
  | error e => rw [h3 q r e hq hr hd] at ho; cases ho
  | ok al =>
    obtain ⟨mp, hmp, hm⟩ := h4 q r al hq hr hd
    rw [ho] at hm
    cases hm
    obtain ⟨c1, c2⟩ := C01_distance_optimal hp rfl rfl hd
    exact ⟨al, mp, rfl, hmp, c1, c2⟩

/-- **C48** An unknown step pattern never produces output; for two readable series with the same number of columns the
failure is AttributeError. -/
theorem C48_unknown_pattern {s : String} (hs : Pat.table.lookup s = none) (Q R : List (List F64)) :
    (∃ e, main2 A T euclid Q R s = .error e) ∧
    (∀ q r X Y, genfromtxt Q = .ok q → genfromtxt R = .ok r → AsMatrix q X → AsMatrix r Y → X.cols = Y.cols →
      main2 A T euclid Q R s = .error .attributeError) := by
  have hcp : canonPattern (.name s) = .error .attributeError := by
    unfold canonPattern
    simp only [hs]
  obtain ⟨h1, h2, h3, -⟩ := C48_reports (A := A) (T := T) (euclid := euclid) Q R s
  refine ⟨?_, ?_⟩
  · cases hq : genfromtxt Q with
    | error e => exact ⟨e, h1 e hq⟩
    | ok q =>
      cases hr : genfromtxt R with
      | error e => exact ⟨e, h2 q e hq hr⟩
      | ok r =>
        cases hl : localCost (cliCall euclid q r s) with
        | error e => exact ⟨e, h3 q r e hq hr (by unfold dtw; rw [hl]; rfl)⟩
        | ok v =>
          refine ⟨.attributeError, h3 q r _ hq hr ?_⟩
          unfold dtw
          rw [hl, Except_bind_ok]
          show (canonPattern (.name s) >>= _) = _
          rw [hcp]
          rfl
  · intro q r X Y hq hr hX hY hc
    refine h3 q r _ hq hr ?_
    unfold dtw
    have e0 : localCost (cliCall euclid q r s) =
        .ok (Mat.ofFn X.rows Y.rows fun i j => euclid (X.row i) (Y.row j), ⟨true, true⟩, some (X, Y)) := by
      simp only [localCost, cliCall, asColumns_of hX, asColumns_of hY, Except_bind_ok, cdist, hc, ne_eq,
        not_true_eq_false, if_false]
    rw [e0, Except_bind_ok]
    show (canonPattern (.name s) >>= _) = _
    rw [hcp]
    rfl

/-- **C48** What the files mean: a column of two or more numbers and a line of two or more numbers are both a univariate
series; a table of at least two lines and two columns is a multivariate series, one line per time point; a single number
is not a series (ValueError later, from cdist); a ragged file is a ValueError. -/
theorem C48_file_shapes (xs : List F64) (hx : 2 ≤ xs.length) :
    genfromtxt (xs.map fun x => [x]) = .ok (.d1 xs) ∧ genfromtxt [xs] = .ok (.d1 xs) ∧
    (∀ t : List (List F64), 2 ≤ t.length → ∀ k, 2 ≤ k → (∀ l ∈ t, l.length = k) →
      ∃ M : Mat F64, genfromtxt t = .ok (.d2 M) ∧ M.rows = t.length ∧ M.cols = k ∧
        ∀ i < t.length, some (M.row i) = t[i]?) ∧
    (∀ x, genfromtxt [[x]] = .ok (.d0 x)) ∧
    (∀ t : List (List F64), (∃ l ∈ t, ∃ l' ∈ t, l.length ≠ l'.length) → ∃ w, genfromtxt t = .error (.valueError w)) := by
  refine ⟨?_, ?_, ?_, ?_, ?_⟩
  · match xs, hx with
    | a :: b :: l, _ =>
      have hf : ∀ l : List F64, (l.map fun x => [x]).flatten = l := by
        intro l
        induction l with
        | nil => rfl
        | cons a l ih => simp [ih]
      simp only [List.map_cons, genfromtxt]
      have : (([b] :: l.map fun x => [x]).all fun q => decide (q.length = [a].length)) = true := by simp
      rw [if_pos this]
      simp only [List.length_cons, List.length_nil, if_true]
      have hfl := hf (a :: b :: l)
      simp only [List.map_cons] at hfl
      rw [hfl]
  · have h1 : xs.length ≠ 1 := by omega
    simp [genfromtxt, h1]
  · intro t ht k hk hl
    match t, ht with
    | a :: b :: l, _ =>
      have ha : a.length = k := hl a (by simp)
      refine ⟨⟨(a :: b :: l).length, k, (a :: b :: l).flatten⟩, ?_, rfl, rfl, ?_⟩
      · have h1 : ((b :: l).all fun q => decide (q.length = a.length)) = true := by
          rw [List.all_eq_true]
          intro q hq
          rw [hl q (List.mem_cons_of_mem _ hq), ha]
          simp
        have h2 : k ≠ 1 := by omega
        simp only [genfromtxt]
        rw [if_pos h1, ha, if_neg h2, if_neg (by simp)]
      · have key : ∀ (t : List (List F64)), (∀ l ∈ t, l.length = k) → ∀ i < t.length,
            some ((t.flatten.drop (i * k)).take k) = t[i]? := by
          intro t
          induction t with
          | nil => intro _ i hi; simp at hi
          | cons x t ih =>
            intro hl i hi
            have hx : x.length = k := hl x (by simp)
            cases i with
            | zero => simp [← hx]
            | succ i =>
              rw [List.getElem?_cons_succ, ← ih (fun l h => hl l (List.mem_cons_of_mem _ h)) i (by simpa using hi)]
              rw [List.flatten_cons, Nat.succ_mul, Nat.add_comm, ← List.drop_drop, List.drop_append_of_le_length (by omega)]
              rw [← hx, List.drop_length, List.nil_append]
        intro i hi
        exact key _ hl i hi
  · intro x
    rfl
  · intro t ⟨l, hl, l', hl', hne⟩
    match t with
    | [] => simp at hl
    | r :: rs =>
      have : ¬ ((rs.all fun q => decide (q.length = r.length)) = true) := by
        intro hall
        rw [List.all_eq_true] at hall
        have hlen : ∀ q ∈ r :: rs, q.length = r.length := by
          intro q hq
          rcases List.mem_cons.1 hq with rfl | hq
          · rfl
          · exact of_decide_eq_true (hall q hq)
        exact hne ((hlen l hl).trans (hlen l' hl').symm)
      exact ⟨"Some errors were detected !", by simp only [genfromtxt, if_neg this]⟩

/-- **C48** A file with a single number cannot be aligned: ValueError, whatever the other file and the pattern. -/
theorem C48_single_number (x : F64) (R : List (List F64)) (r : Nd) (s : String) (hR : genfromtxt R = .ok r) :
    ∃ w, main2 A T euclid [[x]] R s = .error (.valueError w) := by
  obtain ⟨-, -, h3, -⟩ := C48_reports (A := A) (T := T) (euclid := euclid) [[x]] R s
  exact ⟨"cdist: 2-dimensional array expected", h3 (.d0 x) r _ rfl hR rfl⟩

/-- What the script does with the files `q`, `r` and pattern `s`: a missing query, a ragged query, a missing reference are
reported in this order. -/
def cliRun (A : Arith) (T : Text) (euclid : List F64 → List F64 → F64) (files : String → Except Err (List (List F64)))
    (q r s : String) : Exit :=
  match files q with
  | .error e => .raised e
  | .ok Q =>
    match genfromtxt Q, files r with
    | .error e, _ => .raised e
    | .ok _, .error e => .raised e
    | .ok _, .ok R =>
      match main2 A T euclid Q R s with
      | .ok out => .printed (out ++ "\n")
      | .error e => .raised e

theorem main_of_parse {files : String → Except Err (List (List F64))} {argv : List String} {o : Opts} (hne : argv ≠ [])
    (h : parseArgs argv = .run o) : main A T euclid files argv = cliRun A T euclid files o.query o.reference o.stepPattern := by
  unfold main cliRun
  rw [if_neg hne, h]
  simp only
  cases files o.query with
  | error e => rfl
  | ok Q =>
    simp only [Except_bind_ok]
    cases genfromtxt Q with
    | error e => rfl
    | ok q =>
      simp only [Except_bind_ok]
      cases files o.reference with
      | error e => rfl
      | ok R =>
        simp only [Except_bind_ok]
        cases main2 A T euclid Q R o.stepPattern <;> rfl

/-! ### Classifying words -/

theorem classify_word {p : String} (h : p.toList.head? ≠ some '-') : classify p = some (.pos p) := by
  unfold classify
  cases e : p.toList with
  | nil => rfl
  | cons c t =>
    rw [e] at h
    simp only [List.head?_cons, ne_eq, Option.some.injEq] at h
    simp only [ne_eq, h, not_false_eq_true, if_true]

theorem word_ne {p : String} (h : p.toList.head? ≠ some '-') : p ≠ "--" := by
  rintro rfl
  exact h (by decide +kernel)

theorem cutEq_plain {l : List Char} (h : '=' ∉ l) : cutEq l = (l, none) := by
  have h1 : ∀ c ∈ l, (decide (c ≠ '=')) = true := by
    intro c hc
    simp only [ne_eq, decide_not, Bool.not_eq_eq_eq_not, Bool.not_true, decide_eq_false_iff_not]
    rintro rfl
    exact h hc
  have e1 : l.takeWhile (fun c => c ≠ '=') = l := by
    have := List.takeWhile_append_of_pos (l₂ := []) h1
    simpa using this
  have e2 : l.dropWhile (fun c => c ≠ '=') = [] := by
    have := List.dropWhile_append_of_pos (l₂ := []) h1
    simpa using this
  unfold cutEq
  rw [e1, e2]

theorem cutEq_joined {l v : List Char} (h : '=' ∉ l) : cutEq (l ++ '=' :: v) = (l, some v) := by
  have h1 : ∀ c ∈ l, (decide (c ≠ '=')) = true := by
    intro c hc
    simp only [ne_eq, decide_not, Bool.not_eq_eq_eq_not, Bool.not_true, decide_eq_false_iff_not]
    rintro rfl
    exact h hc
  unfold cutEq
  rw [List.takeWhile_append_of_pos h1, List.dropWhile_append_of_pos h1]
  simp

/-- `--step_pattern` and its abbreviations. -/
def stepFlag (k : Nat) : List Char := "--step_pattern".toList.take k

theorem classify_flag {k : Nat} (h3 : 3 ≤ k) (h14 : k ≤ 14) :
    classify (String.ofList (stepFlag k)) = some (.opt .stepPattern none) := by
  have : ∀ k ∈ List.range 15, 3 ≤ k → classify (String.ofList (stepFlag k)) = some (.opt .stepPattern none) := by
    decide +kernel
  exact this k (by simp; omega) h3

/-- One word `flag=value`: the part before `=` decides. -/
theorem classify_eq {l l' v : List Char} {act : Act} (hd : l.take 2 = ['-', '-']) (he : '=' ∉ l)
    (hl : longOptions.filter (fun o => l.isPrefixOf o.1) = [(l', act)]) :
    classify (String.ofList (l ++ '=' :: v)) = some (.opt act (some (String.ofList v))) := by
  obtain ⟨t, rfl⟩ : ∃ t, l = '-' :: '-' :: t := by
    match l, hd with
    | a :: b :: t, hd =>
      simp only [List.take_succ_cons, List.take_zero, List.cons.injEq, and_true] at hd
      exact ⟨t, by rw [hd.1, hd.2]⟩
  have hc := cutEq_joined (v := v) he
  have hno : optionStrings.lookup ('-' :: '-' :: t ++ '=' :: v) = none := by
    have hm : ∀ o ∈ optionStrings, '=' ∉ o.1 := by decide +kernel
    rw [List.lookup_eq_none_iff]
    intro o ho
    simp only [ne_eq, bne_iff_ne]
    intro h
    exact hm o ho (by rw [← h]; simp)
  unfold classify
  rw [String.toList_ofList]
  simp only [List.cons_append] at hno hc ⊢
  simp only [ne_eq, not_true_eq_false, if_false, hno, hc]
  cases hlk : optionStrings.lookup ('-' :: '-' :: t) with
  | none => simp only [if_true, hl, Option.map_some]
  | some a =>
    simp only [Option.some.injEq, ArgTok.opt.injEq, and_true]
    have hk : ∀ o ∈ optionStrings, o.1.take 2 = ['-', '-'] →
        longOptions.filter (fun x => o.1.isPrefixOf x.1) = [o] := by decide +kernel
    obtain ⟨o, ho, e1, e2⟩ : ∃ o ∈ optionStrings, o.1 = '-' :: '-' :: t ∧ o.2 = a := by
      rw [List.lookup_eq_some_iff] at hlk
      obtain ⟨l1, l2, h1, _⟩ := hlk
      exact ⟨('-' :: '-' :: t, a), by rw [h1]; simp, rfl, rfl⟩
    have := hk o ho (by rw [e1]; rfl)
    rw [e1, hl] at this
    simp only [List.cons.injEq, and_true] at this
    rw [← e2, ← this]

theorem classify_joined {k : Nat} (h3 : 3 ≤ k) (h14 : k ≤ 14) (v : String) :
    classify (String.ofList (stepFlag k) ++ "=" ++ v) = some (.opt .stepPattern (some v)) := by
  have key : ∀ k ∈ List.range 15, 3 ≤ k → (stepFlag k).take 2 = ['-', '-'] ∧ '=' ∉ stepFlag k ∧
      longOptions.filter (fun o => (stepFlag k).isPrefixOf o.1) = [("--step_pattern".toList, .stepPattern)] := by decide +kernel
  obtain ⟨h1, h2, h4⟩ := key k (by simp; omega) h3
  have e : String.ofList (stepFlag k) ++ "=" ++ v = String.ofList (stepFlag k ++ '=' :: v.toList) := by
    apply String.toList_inj.1
    simp
  rw [e, classify_eq h1 h2 h4, String.ofList_toList]

/-- **C48** The command line: no argument prints the usage and exits with code 1; two file names use symmetric2; the
option `--step_pattern` (before, between or after the names, as one or two words) replaces it, the last one counting; a
missing or an extra name or an unknown option is a usage error (code 2).  Then the script prints what `main2` returns, or
ends with its exception. -/
theorem C48_command_line (files : String → Except Err (List (List F64))) (q r s s' : String)
    (hq : q.toList.head? ≠ some '-') (hr : r.toList.head? ≠ some '-') (hs : s.toList.head? ≠ some '-') :
    main A T euclid files [] = .code 1 ∧
    main A T euclid files [q] = .code 2 ∧
    main A T euclid files [q, r] = cliRun A T euclid files q r "symmetric2" ∧
    main A T euclid files [q, r, "--step_pattern", s] = cliRun A T euclid files q r s ∧
    main A T euclid files [q, "--step_pattern", s, r] = cliRun A T euclid files q r s ∧
    main A T euclid files ["--step_pattern", s, q, r] = cliRun A T euclid files q r s ∧
    main A T euclid files [q, r, "--step_pattern=" ++ s'] = cliRun A T euclid files q r s' ∧
    main A T euclid files ["--step_pattern=" ++ s', q, r] = cliRun A T euclid files q r s' ∧
    main A T euclid files ["--step_pattern", s, q, "--step_pattern=" ++ s', r] = cliRun A T euclid files q r s' ∧
    main A T euclid files ["--step_pattern=" ++ s', q, "--step_pattern", s, r] = cliRun A T euclid files q r s ∧
    (∀ x, x.toList.head? ≠ some '-' → main A T euclid files [q, r, x] = .code 2) ∧
    main A T euclid files [q, r, "--step_pattern"] = .code 2 ∧
    main A T euclid files [q, r, "--window"] = .code 2 := by
  have hq' := classify_word hq
  have hr' := classify_word hr
  have hs' := classify_word hs
  have nq := word_ne hq
  have nr := word_ne hr
  have ns := word_ne hs
  have hsp : classify "--step_pattern" = some (.opt .stepPattern none) := by decide +kernel
  have nsp : ("--step_pattern" : String) ≠ "--" := by decide +kernel
  have he := classify_joined (k := 14) (by decide) (by decide) s'
  have ek : String.ofList (stepFlag 14) ++ "=" ++ s' = "--step_pattern=" ++ s' := by
    rw [show String.ofList (stepFlag 14) ++ "=" = "--step_pattern=" by decide +kernel]
  rw [ek] at he
  have ne : "--step_pattern=" ++ s' ≠ "--" := by
    intro h
    have h1 := congrArg String.toList h
    simp at h1
  refine ⟨rfl, ?_, ?_, ?_, ?_, ?_, ?_, ?_, ?_, ?_, ?_, ?_, ?_⟩
  · simp [main, parseArgs, argTokens, scan, hq', nq]
  · exact main_of_parse (o := ⟨q, r, "symmetric2"⟩) (by simp) (by simp [parseArgs, argTokens, scan, hq', hr', nq, nr])
  · exact main_of_parse (o := ⟨q, r, s⟩) (by simp) (by simp [parseArgs, argTokens, scan, hq', hr', hs', hsp, nq, nr, ns])
  · exact main_of_parse (o := ⟨q, r, s⟩) (by simp) (by simp [parseArgs, argTokens, scan, hq', hr', hs', hsp, nq, nr, ns])
  · exact main_of_parse (o := ⟨q, r, s⟩) (by simp) (by simp [parseArgs, argTokens, scan, hq', hr', hs', hsp, nq, nr, ns])
  · exact main_of_parse (o := ⟨q, r, s'⟩) (by simp) (by
      simp [parseArgs, argTokens, scan, hq', hr', he, ne, nq, nr])
  · exact main_of_parse (o := ⟨q, r, s'⟩) (by simp) (by
      simp [parseArgs, argTokens, scan, hq', hr', he, ne, nq, nr])
  · exact main_of_parse (o := ⟨q, r, s'⟩) (by simp) (by
      simp [parseArgs, argTokens, scan, hq', hr', hs', hsp, he, ne, nq, nr, ns])
  · exact main_of_parse (o := ⟨q, r, s⟩) (by simp) (by
      simp [parseArgs, argTokens, scan, hq', hr', hs', hsp, he, ne, nq, nr, ns])
  · intro x hx
    have hx' := classify_word hx
    have nx := word_ne hx
    simp [main, parseArgs, argTokens, scan, hq', hr', hx', nq, nr, nx]
  · simp [main, parseArgs, argTokens, scan, hq', hr', hsp, nq, nr]
  · have h1 : classify "--window" = some .unknown := by decide +kernel
    simp [main, parseArgs, argTokens, scan, hq', hr', h1, nq, nr]

namespace CliEx

/-- A text of numbers that suits the kernel. -/
def text : Text where
  fmt4g := fun v => if v = fin 3 then "3" else if v = fin (3 / 5) then "0.6" else "?"
  showPath := fun a b => if a = [0, 1, 2] ∧ b = [0, 0, 1] then "[[0 1 2]\n [0 0 1]]" else "?"

/-- The metric on one-column rows. -/
def absd : List F64 → List F64 → F64
  | [fin a], [fin b] => fin |a - b|
  | _, _ => nan

/-- The query file: one column. -/
def Q : List (List F64) := [[fin 1], [fin 2], [fin 4]]

/-- The reference file: one line. -/
def R : List (List F64) := [[fin 1, fin 3]]

end CliEx

/-- The hypotheses are met: a run that prints; and the same series given as a column or as a line. -/
example : main2 Arith.exact CliEx.text CliEx.absd CliEx.Q CliEx.R "symmetric2" =
      .ok "Normalized distance: 0.6\n\nDistance: 3\n\nWarping path: [[0 1 2]\n [0 0 1]]\n\n" := by
  decide +kernel

example : Pat.table.lookup "symetric2" = none ∧ ("query.tsv" : String).startsWith "-" = false := by decide +kernel

end DTW
