import Verif.Proofs.Closed

/-!
# Well-formedness of the patterns, decidable checks, example calls
-/

namespace DTW
open F64

/-- Reading the rows of a pattern back into rules (rows of weight -1 start a rule). -/
def rulesOf (p : StepPattern) : List Rule :=
  (p.mx.foldr (fun s (acc : List Term × List Rule) =>
    if s.w = -1 then ([], ⟨s.di.toNat, s.dj.toNat, acc.1⟩ :: acc.2)
    else (⟨s.di.toNat, s.dj.toNat, s.w⟩ :: acc.1, acc.2)) ([], [])).2

/-- Decidable form of `WF`. -/
def wfCheck (p : StepPattern) (rs : List Rule) : Bool :=
  decide (p.mx = encode rs) && decide (rs ≠ []) && rs.all fun r => decide r.Valid

theorem wf_of_check {p : StepPattern} {rs : List Rule} (h : wfCheck p rs = true) : WF p rs := by
  simp only [wfCheck, Bool.and_eq_true, decide_eq_true_eq, List.all_eq_true] at h
  exact ⟨h.1.1, h.1.2, h.2⟩

/-- Decidable form of `Fits`. -/
theorem fits_of_check {n m : Nat} {rs : List Rule}
    (h : (decide (n * m < 2147483648) && decide (4 * (encode rs).length < 2147483648) &&
      rs.all fun r => decide (r.a < 2147483648 ∧ r.b < 2147483648)) = true) : Fits n m rs := by
  simp only [Bool.and_eq_true, decide_eq_true_eq, List.all_eq_true] at h
  exact ⟨h.1.1, h.1.2, h.2⟩

theorem table_wf : ∀ q ∈ Pat.table, WF q.2 (rulesOf q.2) := by
  have : (Pat.table.all fun q => wfCheck q.2 (rulesOf q.2)) = true := by decide +kernel
  intro q hq
  exact wf_of_check (List.all_eq_true.1 this q hq)

/-! ### Example calls -/

namespace Ex

/-- A 3 × 4 local cost matrix. -/
def L : Nat → Nat → F64 := fun i j => fin (((i * 2 + j * 3) % 5 : Nat) : ℚ)

/-- `dtw(L, keep_internals=True)`: symmetric2, no window. -/
def plain : Args := { x := .d2 (Mat.ofFn 3 4 L), keepInternals := true }

theorem plain_problem : Problem plain 3 4 L (fun _ _ => true) Pat.symmetric2 (rulesOf Pat.symmetric2) where
  n_pos := by decide
  m_pos := by decide
  cost := .matrix rfl rfl rfl rfl
  pattern := by decide +kernel
  wf := wf_of_check (by decide +kernel)
  fits := fits_of_check (by decide +kernel)
  window := .inl ⟨rfl, fun _ _ _ _ => rfl⟩

theorem plain_ok : (dtw Arith.exact plain).toOption.isSome = true := by decide +kernel

/-- A Sakoe-Chiba band of width 1. -/
def bandW : Nat → Nat → Bool := fun i j => sakoeChibaVal 1 i j

/-- `dtw(L, step_pattern=asymmetric, window_type="sakoechiba", window_args={"window_size": 1})`. -/
def band : Args :=
  { x := .d2 (Mat.ofFn 3 4 L), stepPattern := .name "asymmetric", windowType := .name "sakoechiba"
    windowArgs := [("window_size", 1)], keepInternals := true }

theorem band_problem : Problem band 3 4 L bandW Pat.asymmetric (rulesOf Pat.asymmetric) where
  n_pos := by decide
  m_pos := by decide
  cost := .matrix rfl rfl rfl rfl
  pattern := by decide +kernel
  wf := wf_of_check (by decide +kernel)
  fits := fits_of_check (by decide +kernel)
  window := .inr ⟨by simp [band, canonWindow], fun _ _ _ _ => rfl⟩

theorem band_ok : (dtw Arith.exact band).toOption.isSome = true := by decide +kernel

/-- `dtw([1,3,2], [1,2,3,1], dist, asymmetric, open_begin=True, open_end=True)`. -/
def openBoth : Args :=
  { x := .d1 [fin 1, fin 3, fin 2], y := some (.d1 [fin 4, fin 2, fin 3, fin 1])
    dist := fun u v => match u, v with
      | [fin a], [fin b] => fin |a - b|
      | _, _ => nan
    stepPattern := .name "asymmetric", openBegin := true, openEnd := true, keepInternals := true }

/-- The local costs of `openBoth`. -/
def openL : Nat → Nat → F64 := fun i j =>
  fin |(([1, 3, 2] : List ℚ)[i]?.getD 0) - (([4, 2, 3, 1] : List ℚ)[j]?.getD 0)|

theorem openBoth_problem :
    Problem openBoth 3 4 openL (fun _ _ => true) Pat.asymmetric (rulesOf Pat.asymmetric) where
  n_pos := by decide
  m_pos := by decide
  cost := .series _ _ _ rfl (.d1 _) (.d1 _) rfl rfl rfl (by
    intro i hi j hj
    have : ∀ i ∈ List.range 3, ∀ j ∈ List.range 4, openL i j =
      openBoth.dist ((⟨3, 1, [fin 1, fin 3, fin 2]⟩ : Mat F64).row i)
        ((⟨4, 1, [fin 4, fin 2, fin 3, fin 1]⟩ : Mat F64).row j) := by decide +kernel
    exact this i (List.mem_range.2 hi) j (List.mem_range.2 hj))
  pattern := by decide +kernel
  wf := wf_of_check (by decide +kernel)
  fits := fits_of_check (by decide +kernel)
  window := .inl ⟨rfl, fun _ _ _ _ => rfl⟩

theorem openBoth_ok : (dtw Arith.exact openBoth).toOption.isSome = true := by decide +kernel

/-- `dtw([1,3,2], [1,2,3,1], dist, keep_internals=True)`. -/
def series : Args := { openBoth with stepPattern := .name "symmetric2", openBegin := false, openEnd := false }

theorem series_problem :
    Problem series 3 4 openL (fun _ _ => true) Pat.symmetric2 (rulesOf Pat.symmetric2) where
  n_pos := by decide
  m_pos := by decide
  cost := .series _ _ _ rfl (.d1 _) (.d1 _) rfl rfl rfl (by
    intro i hi j hj
    have : ∀ i ∈ List.range 3, ∀ j ∈ List.range 4, openL i j =
      openBoth.dist ((⟨3, 1, [fin 1, fin 3, fin 2]⟩ : Mat F64).row i)
        ((⟨4, 1, [fin 4, fin 2, fin 3, fin 1]⟩ : Mat F64).row j) := by decide +kernel
    exact this i (List.mem_range.2 hi) j (List.mem_range.2 hj))
  pattern := by decide +kernel
  wf := wf_of_check (by decide +kernel)
  fits := fits_of_check (by decide +kernel)
  window := .inl ⟨rfl, fun _ _ _ _ => rfl⟩

/-- A band so narrow that no alignment exists: `dtw(L, window_type="sakoechiba", window_size=0)`. -/
def stuck : Args :=
  { x := .d2 (Mat.ofFn 3 4 L), windowType := .name "sakoechiba", windowArgs := [("window_size", 0)] }

theorem stuck_problem :
    Problem stuck 3 4 L (fun i j => sakoeChibaVal 0 i j) Pat.symmetric2 (rulesOf Pat.symmetric2) where
  n_pos := by decide
  m_pos := by decide
  cost := .matrix rfl rfl rfl rfl
  pattern := by decide +kernel
  wf := wf_of_check (by decide +kernel)
  fits := fits_of_check (by decide +kernel)
  window := .inr ⟨by simp [stuck, canonWindow], fun _ _ _ _ => rfl⟩

theorem get_ok {α} {x : Except Err α} (h : x.toOption.isSome = true) : ∃ r, x = .ok r := by
  cases x with
  | ok r => exact ⟨r, rfl⟩
  | error e => simp [Except.toOption] at h

end Ex
end DTW
