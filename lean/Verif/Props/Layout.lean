import Verif.Buffer
import Verif.Proofs.DtwProof

/-!
# C47: memory layout and dtype of the cost matrix
-/

namespace DTW
open F64

variable {A : Arith}

namespace NpArray

/-- The call with the matrix that the array denotes, as a C-contiguous float64 array. -/
def clean (x : NpArray) (a : Args) : Args :=
  { a with x := .d2 x.logical, y := none, layout := ⟨true, true⟩, stackContig := true }

theorem entry_ofFnC {n m : Nat} {d : Dtype} {f : Nat → Nat → F64} {i j : Nat} (hi : i < n) (hj : j < m) :
    (ofFnC n m d f).entry i j = f i j := by
  have ha : (ofFnC n m d f).addr i j = ((i * m + j : Nat) : Int) := by
    simp [addr, ofFnC]
  unfold entry
  rw [ha, Int.toNat_natCast]
  have := ofFn_getElem? f hi hj
  simp only [Mat.ofFn] at this
  simp only [ofFnC, this, Option.getD_some]

theorem entry_ofFnF {n m : Nat} {d : Dtype} {f : Nat → Nat → F64} {i j : Nat} (hi : i < n) (hj : j < m) :
    (ofFnF n m d f).entry i j = f i j := by
  have ha : (ofFnF n m d f).addr i j = ((j * n + i : Nat) : Int) := by
    simp [addr, ofFnF]
    ring
  unfold entry
  rw [ha, Int.toNat_natCast]
  have := ofFn_getElem? (fun i j => f j i) hj hi
  simp only [Mat.ofFn] at this
  simp only [ofFnF, Nat.mul_comm n m, this, Option.getD_some]

theorem logical_ofFnC (n m : Nat) (d : Dtype) (f : Nat → Nat → F64) :
    (ofFnC n m d f).logical = Mat.ofFn n m f :=
  ofFn_congr fun _ hi _ hj => entry_ofFnC hi hj

theorem logical_ofFnF (n m : Nat) (d : Dtype) (f : Nat → Nat → F64) :
    (ofFnF n m d f).logical = Mat.ofFn n m f :=
  ofFn_congr fun _ hi _ hj => entry_ofFnF hi hj

/-- The arrays that the code makes. -/
inductive Made : NpArray → Prop
  | c (n m d f) : Made (ofFnC n m d f)
  | f (n m d f) : Made (ofFnF n m d f)

theorem made_copyK (x : NpArray) : Made x.copyK := by
  unfold copyK
  split
  · exact .c ..
  · split
    · exact .f ..
    · split
      · exact .c ..
      · exact .f ..

theorem made_vstack (x : NpArray) : Made x.vstackZeros := by
  unfold vstackZeros
  simp only
  split
  · exact .f ..
  · exact .c ..

theorem copyK_logical (x : NpArray) : x.copyK.logical = x.logical ∧ x.copyK.rows = x.rows ∧ x.copyK.cols = x.cols ∧
    x.copyK.dtype = x.dtype := by
  unfold copyK
  split
  · exact ⟨logical_ofFnC _ _ _ _, rfl, rfl, rfl⟩
  · split
    · exact ⟨logical_ofFnF _ _ _ _, rfl, rfl, rfl⟩
    · split
      · exact ⟨logical_ofFnC _ _ _ _, rfl, rfl, rfl⟩
      · exact ⟨logical_ofFnF _ _ _ _, rfl, rfl, rfl⟩

theorem vstack_logical (x : NpArray) : x.vstackZeros.logical = prependZeros x.logical ∧
    x.vstackZeros.rows = x.rows + 1 ∧ x.vstackZeros.cols = x.cols := by
  have : prependZeros x.logical =
      Mat.ofFn (x.rows + 1) x.cols (fun i j => if i = 0 then fin 0 else x.entry (i - 1) j) := by
    unfold logical
    rw [prependZeros_ofFn]
    refine ofFn_congr fun i _ j _ => ?_
    cases i <;> simp [nullRow]
  rw [this]
  unfold vstackZeros
  simp only
  split
  · exact ⟨logical_ofFnF _ _ _ _, rfl, rfl⟩
  · exact ⟨logical_ofFnC _ _ _ _, rfl, rfl⟩

/-- If an array made by the code has the flag C_CONTIGUOUS, its raw memory is the row-major list of the elements it
denotes; also in the degenerate column-major cases (one row, one column, empty). -/
theorem mem_of_cContig {x : NpArray} (hx : Made x) (hc : x.cContig = true) :
    x.mem.drop x.offset.toNat = x.logical.data := by
  cases hx with
  | c n m d f =>
    rw [logical_ofFnC]
    simp [ofFnC, Mat.ofFn]
  | f n m d f =>
    rw [logical_ofFnF]
    simp only [ofFnF, Int.toNat_zero, List.drop_zero, Mat.ofFn]
    rw [cContig, Bool.or_eq_true, Bool.and_eq_true, Bool.or_eq_true, Bool.or_eq_true] at hc
    have hc : (n = 0 ∨ m = 0) ∨ (m ≤ 1 ∨ (n : Int) = 1) := by
      rcases hc with hc | ⟨hc | hc, -⟩
      · exact .inl (of_decide_eq_true hc)
      · exact .inr (.inl (of_decide_eq_true hc))
      · exact .inr (.inr (of_decide_eq_true hc))
    refine List.map_congr_left fun k hk => ?_
    have hk := List.mem_range.1 hk
    rcases Nat.eq_zero_or_pos n with rfl | hn
    · simp at hk
    rcases Nat.eq_zero_or_pos m with rfl | hm
    · simp at hk
    have h1 : n ≤ 1 ∨ m ≤ 1 := by
      omega
    rcases h1 with h1 | h1
    · have : n = 1 := by omega
      subst this
      have : k < m := by omega
      rw [Nat.mod_one, Nat.div_one, Nat.div_eq_of_lt this, Nat.mod_eq_of_lt this]
    · have : m = 1 := by omega
      subst this
      have : k < n := by omega
      rw [Nat.mod_one, Nat.div_one, Nat.div_eq_of_lt this, Nat.mod_eq_of_lt this]

/-- The wrapper on raw memory is the wrapper on the denoted matrix, with the flags of the array. -/
theorem wrapper_eq {x : NpArray} (hx : Made x) (wm : Mat Int) (nsteps : Nat) (dir : List ℚ) (cm : Mat F64) :
    computeCMWrapper A wm x nsteps dir cm =
      DTW.computeCMWrapper A wm x.logical ⟨decide (x.dtype = .float64), x.cContig⟩ nsteps dir cm := by
  unfold computeCMWrapper DTW.computeCMWrapper
  have hiff : ((⟨decide (x.dtype = .float64), x.cContig⟩ : Layout).isDouble = false ∨
      (⟨decide (x.dtype = .float64), x.cContig⟩ : Layout).cContig = false) ↔
      (x.dtype ≠ .float64 ∨ x.cContig = false) := by simp
  by_cases h : x.dtype ≠ .float64 ∨ x.cContig = false
  · rw [if_pos h, if_pos (hiff.2 h)]
  · rw [if_neg h, if_neg (fun hh => h (hiff.1 hh))]
    have hc : x.cContig = true := by simpa using (not_or.1 h).2
    rw [mem_of_cContig hx hc]
    rfl

theorem gcm_eq {x : NpArray} (hx : Made x) (p : StepPattern) (wf : WinFn) (seed : Option (Mat F64)) (args : WinArgs) :
    globalCostMatrix A x p wf seed args =
      DTW.globalCostMatrix A x.logical ⟨decide (x.dtype = .float64), x.cContig⟩ p wf seed args := by
  unfold globalCostMatrix DTW.globalCostMatrix
  simp only [wrapper_eq hx]
  rfl

/-- Whether the array handed to the kernel is accepted: the copy of the argument, or (open_begin) its stack with the
null row. -/
def accepted (x : NpArray) (openBegin : Bool) : Bool :=
  if openBegin then decide (x.copyK.vstackZeros.dtype = .float64) && x.copyK.vstackZeros.cContig
  else decide (x.copyK.dtype = .float64) && x.copyK.cContig

/-- `dtw` on raw memory, in terms of `dtw` on matrices. -/
theorem dtw_eq (x : NpArray) (a : Args) :
    x.dtw A a = DTW.dtw A
      { a with x := .d2 x.logical, y := none, layout := ⟨true, x.accepted false⟩, stackContig := x.accepted true } := by
  have hrun : ∀ wf p, x.copyK.runGCM A a wf p = DTW.runGCM A
      { a with x := .d2 x.logical, y := none, layout := ⟨true, x.accepted false⟩, stackContig := x.accepted true }
      x.logical ⟨true, x.accepted false⟩ wf p := by
    intro wf p
    unfold runGCM DTW.runGCM
    simp only
    have hlay : ∀ (lm : Mat F64) (d c : Bool) seed args,
        DTW.globalCostMatrix A lm ⟨d, c⟩ p wf seed args = DTW.globalCostMatrix A lm ⟨true, d && c⟩ p wf seed args := by
      intro lm d c seed args
      unfold DTW.globalCostMatrix DTW.computeCMWrapper
      cases d <;> cases c <;> rfl
    rw [gcm_eq (made_vstack _), gcm_eq (made_copyK _), (vstack_logical _).1, (copyK_logical x).1, hlay, hlay x.logical]
    rfl
  unfold dtw DTW.dtw localCost
  simp only [hrun, Except_bind_ok]
  obtain ⟨-, h2, h3, -⟩ := copyK_logical x
  rw [h2, h3]
  congr 1
  funext p
  congr 1
  funext r
  obtain ⟨lm', cm, sm⟩ := r
  have hif : ∀ {b : Bool}, (if b = true then (none : Option (Mat F64 × Mat F64)) else none) = none := by
    intro b; cases b <;> rfl
  simp only [hif]
  rfl

/-- The layout only matters to the buffer check. -/
theorem dtw_layout_accepted (a : Args) (m : Mat F64) (b1 b2 : Bool) (h : (if a.openBegin then b2 else b1) = true) :
    DTW.dtw A { a with x := .d2 m, y := none, layout := ⟨true, b1⟩, stackContig := b2 } =
      DTW.dtw A { a with x := .d2 m, y := none, layout := ⟨true, true⟩, stackContig := true } := by
  unfold DTW.dtw localCost DTW.runGCM
  cases hob : a.openBegin with
  | true =>
    rw [hob] at h
    simp only [if_true] at h
    subst h
    rfl
  | false =>
    rw [hob] at h
    simp only [Bool.false_eq_true, if_false] at h
    subst h
    rfl

/-- An unaccepted array: whatever the clean call gives, this one either fails with the same error before the buffer
check, or there. -/
theorem gcm_rejected (lm : Mat F64) (p : StepPattern) (wf : WinFn) (seed : Option (Mat F64)) (args : WinArgs) :
    DTW.globalCostMatrix A lm ⟨true, false⟩ p wf seed args = .error (.valueError "buffer mismatch") ∨
    ∃ e, DTW.globalCostMatrix A lm ⟨true, false⟩ p wf seed args = .error e ∧
      DTW.globalCostMatrix A lm ⟨true, true⟩ p wf seed args = .error e := by
  unfold DTW.globalCostMatrix
  cases windowMatrix lm.rows lm.cols wf args with
  | error e => exact .inr ⟨e, rfl, rfl⟩
  | ok wm =>
    simp only [Except_bind_ok]
    cases initialCM lm seed with
    | error e => exact .inr ⟨e, rfl, rfl⟩
    | ok cm =>
      left
      simp [DTW.computeCMWrapper]

theorem run_rejected (a : Args) (m : Mat F64) (b1 b2 : Bool) (h : ¬ (if a.openBegin then b2 else b1) = true) (wf : WinFn)
    (p : StepPattern) (lm : Mat F64) :
    DTW.runGCM A { a with x := .d2 m, y := none, layout := ⟨true, b1⟩, stackContig := b2 } lm ⟨true, b1⟩ wf p =
      .error (.valueError "buffer mismatch") ∨
    ∃ e, DTW.runGCM A { a with x := .d2 m, y := none, layout := ⟨true, b1⟩, stackContig := b2 } lm ⟨true, b1⟩ wf p =
        .error e ∧
      DTW.runGCM A { a with x := .d2 m, y := none, layout := ⟨true, true⟩, stackContig := true } lm ⟨true, true⟩ wf p =
        .error e := by
  unfold DTW.runGCM
  simp only
  cases hob : a.openBegin with
  | true =>
    rw [hob] at h
    simp only [if_true, Bool.not_eq_true] at h
    subst h
    simp only [if_true]
    split
    · exact .inr ⟨_, rfl, rfl⟩
    · simp only [Option.isSome_none, Bool.false_eq_true, if_false]
      rcases gcm_rejected (A := A) (prependZeros lm) p wf (some (precm lm)) a.windowArgs with h1 | ⟨e, h1, h2⟩
      · left; rw [h1]; rfl
      · right; exact ⟨e, by rw [h1]; rfl, by rw [h2]; rfl⟩
  | false =>
    rw [hob] at h
    simp only [Bool.false_eq_true, if_false, Bool.not_eq_true] at h
    subst h
    simp only [Bool.false_eq_true, if_false]
    rcases gcm_rejected (A := A) lm p wf none a.windowArgs with h1 | ⟨e, h1, h2⟩
    · left; rw [h1]; rfl
    · right; exact ⟨e, by rw [h1]; rfl, by rw [h2]; rfl⟩

end NpArray

open NpArray in
/-- **C47** Whatever the memory order, the strides, the offset and the dtype of the cost matrix: the call gives exactly
what it gives for the C-contiguous float64 copy of the matrix, or raises ValueError. -/
theorem C47_layout (x : NpArray) (a : Args) :
    x.dtw A a = dtw A (x.clean a) ∨ x.dtw A a = .error (.valueError "buffer mismatch") := by
  rw [dtw_eq]
  by_cases h : (if a.openBegin then x.accepted true else x.accepted false) = true
  · exact .inl (dtw_layout_accepted a _ _ _ h)
  · unfold dtw localCost
    simp only [Except_bind_ok, clean]
    cases canonPattern a.stepPattern with
    | error e => exact .inl rfl
    | ok p =>
      simp only [Except_bind_ok]
      rcases run_rejected (A := A) a x.logical _ _ h (canonWindow a.windowType) p x.logical with h1 | ⟨e, h1, h2⟩
      · right; rw [h1]; rfl
      · left; rw [h1, h2]; rfl

open NpArray in
/-- **C47** When the clean call succeeds, the call succeeds (with the same result) exactly when the array that reaches
the kernel is accepted, and otherwise raises ValueError. -/
theorem C47_accepted_iff (x : NpArray) (a : Args) {r : Result} (hr : dtw A (x.clean a) = .ok r) :
    x.dtw A a = if x.accepted a.openBegin then .ok r else .error (.valueError "buffer mismatch") := by
  have hif : (if a.openBegin = true then x.accepted true else x.accepted false) = x.accepted a.openBegin := by
    cases a.openBegin <;> rfl
  rw [dtw_eq]
  by_cases h : (if a.openBegin then x.accepted true else x.accepted false) = true
  · rw [dtw_layout_accepted a _ _ _ h, if_pos (hif ▸ h)]
    exact hr
  · rw [if_neg (hif ▸ h)]
    unfold dtw localCost at hr ⊢
    simp only [Except_bind_ok, clean] at hr ⊢
    cases hp : canonPattern a.stepPattern with
    | error e => rw [hp] at hr; cases hr
    | ok p =>
      rw [hp] at hr
      simp only [Except_bind_ok] at hr ⊢
      rcases run_rejected (A := A) a x.logical _ _ h (canonWindow a.windowType) p x.logical with h1 | ⟨e, h1, h2⟩
      · rw [h1]; rfl
      · rw [h2] at hr; cases hr

open NpArray in
/-- **C47** C-contiguous float64 arrays (and C-contiguous narrower ones, with open_begin) are accepted. -/
theorem C47_contiguous_accepted (x : NpArray) (hc : x.cContig = true) :
    (x.dtype = .float64 → x.accepted false = true) ∧ (x.dtype ≠ .wide → x.accepted true = true) := by
  have hk : x.copyK = ofFnC x.rows x.cols x.dtype x.entry := by simp [copyK, hc]
  have hcc : ∀ n m d f, (ofFnC n m d f).cContig = true := by
    intro n m d f
    simp [cContig, ofFnC]
  refine ⟨fun hd => ?_, fun hd => ?_⟩
  · simp only [accepted, Bool.false_eq_true, if_false, hk, hcc]
    simp [ofFnC, hd]
  · have hv : (ofFnC x.rows x.cols x.dtype x.entry).vstackZeros.cContig = true ∧
        (ofFnC x.rows x.cols x.dtype x.entry).vstackZeros.dtype = Dtype.promote x.dtype := by
      unfold vstackZeros
      simp only
      split
      · rename_i h
        obtain ⟨-, -, h3⟩ := h
        have h3 : |(x.cols : Int)| < |(1 : Int)| := h3
        rw [Nat.abs_cast, abs_one] at h3
        have h0 : x.cols = 0 := by omega
        refine ⟨?_, rfl⟩
        unfold cContig
        rw [Bool.or_eq_true]
        exact .inl (decide_eq_true (.inr h0))
      · exact ⟨hcc _ _ _ _, rfl⟩
    simp only [accepted, if_true, hk, hv.1, hv.2, Bool.and_true, decide_eq_true_eq]
    cases hx : x.dtype <;> simp_all [Dtype.promote]

open NpArray in
/-- **C47** A column-major array with at least two rows and two columns (for instance the transpose of a row-major one)
is never accepted, and neither is, without open_begin, any array that is not float64. -/
theorem C47_rejected (x : NpArray) :
    (2 ≤ x.rows → 2 ≤ x.cols → x.fContig = true → ∀ b, x.accepted b = false) ∧
    (x.dtype ≠ .float64 → x.accepted false = false) ∧ (x.dtype = .wide → x.accepted true = false) := by
  refine ⟨fun hr hc hf b => ?_, fun hd => ?_, fun hd => ?_⟩
  · have hcf : x.cContig = false := by
      by_contra hcc
      simp only [Bool.not_eq_false] at hcc
      simp only [cContig, fContig, Bool.or_eq_true, Bool.and_eq_true, decide_eq_true_eq] at hcc hf
      omega
    have hk : x.copyK = ofFnF x.rows x.cols x.dtype x.entry := by simp [copyK, hcf, hf]
    have hff : ∀ n m d f, 2 ≤ n → 2 ≤ m → (ofFnF n m d f).cContig = false := by
      intro n m d f h1 h2
      rw [cContig, Bool.or_eq_false_iff, Bool.and_eq_false_iff, Bool.or_eq_false_iff]
      refine ⟨decide_eq_false ?_, .inl ⟨decide_eq_false ?_, decide_eq_false ?_⟩⟩
      · show ¬ (n = 0 ∨ m = 0)
        omega
      · show ¬ m ≤ 1
        omega
      · show ¬ (n : Int) = 1
        omega
    cases b with
    | false =>
      simp only [accepted, Bool.false_eq_true, if_false, hk, hff _ _ _ _ hr hc, Bool.and_false]
    | true =>
      have hv : ∃ f, (ofFnF x.rows x.cols x.dtype x.entry).vstackZeros =
          ofFnF (x.rows + 1) x.cols (Dtype.promote x.dtype) f := by
        unfold vstackZeros
        simp only
        rw [if_pos]
        · exact ⟨_, rfl⟩
        · refine ⟨?_, ?_, ?_⟩
          · show x.rows ≠ 1
            omega
          · show x.cols ≠ 1
            omega
          · show |(1 : Int)| < |(x.rows : Int)|
            rw [Nat.abs_cast, abs_one]
            omega
      obtain ⟨f, hv⟩ := hv
      simp only [accepted, if_true, hk, hv, hff (x.rows + 1) x.cols _ _ (by omega) hc, Bool.and_false]
  · simp [accepted, (copyK_logical x).2.2.2, hd]
  · have : x.copyK.vstackZeros.dtype = .wide := by
      have h1 := (copyK_logical x).2.2.2
      have h2 : ∀ y : NpArray, y.dtype = .wide → y.vstackZeros.dtype = .wide := by
        intro y hy
        unfold vstackZeros
        simp only
        split <;> simp [ofFnF, ofFnC, hy, Dtype.promote]
      exact h2 _ (h1.trans hd)
    simp [accepted, this]

open NpArray in
/-- A matrix with at least two rows and two columns is copied row-major exactly when its rows are not closer together in
memory than its columns. -/
theorem copyK_cContig (x : NpArray) (hr : 2 ≤ x.rows) (hc : 2 ≤ x.cols) :
    if |x.colStride| ≤ |x.rowStride| then x.copyK = ofFnC x.rows x.cols x.dtype x.entry
    else x.copyK = ofFnF x.rows x.cols x.dtype x.entry := by
  by_cases h1 : x.cContig = true
  · have h2 := h1
    simp only [cContig, Bool.or_eq_true, Bool.and_eq_true, decide_eq_true_eq] at h2
    have h3 : x.colStride = 1 ∧ x.rowStride = x.cols := by omega
    rw [if_pos (by rw [h3.1, h3.2, abs_one, Nat.abs_cast]; omega)]
    simp [copyK, h1]
  · by_cases hf : x.fContig = true
    · have h2 := hf
      simp only [fContig, Bool.or_eq_true, Bool.and_eq_true, decide_eq_true_eq] at h2
      have h3 : x.rowStride = 1 ∧ x.colStride = x.rows := by omega
      rw [if_neg (by rw [h3.1, h3.2, abs_one, Nat.abs_cast]; omega)]
      simp [copyK, h1, hf]
    · split
      · rename_i h; simp [copyK, h1, hf, h]
      · rename_i h; simp [copyK, h1, hf, h]

open NpArray in
theorem ofFnC_cContig (n m : Nat) (d : Dtype) (f : Nat → Nat → F64) : (ofFnC n m d f).cContig = true := by
  simp [cContig, ofFnC]

open NpArray in
theorem ofFnF_cContig {n m : Nat} (d : Dtype) (f : Nat → Nat → F64) (hn : 2 ≤ n) (hm : 2 ≤ m) :
    (ofFnF n m d f).cContig = false := by
  rw [cContig, Bool.or_eq_false_iff, Bool.and_eq_false_iff, Bool.or_eq_false_iff]
  refine ⟨decide_eq_false ?_, .inl ⟨decide_eq_false ?_, decide_eq_false ?_⟩⟩
  · show ¬ (n = 0 ∨ m = 0)
    omega
  · show ¬ m ≤ 1
    omega
  · show ¬ (n : Int) = 1
    omega

open NpArray in
/-- **C47** Which views are accepted, by their strides: a call that succeeds on a clean copy of a matrix with at least two
rows and two columns succeeds, with the same result, exactly if the element type is float64 (with open_begin: any type
not wider) and neighbouring rows are at least as far apart in memory as neighbouring columns; otherwise it raises
ValueError. -/
theorem C47_accepted_strides (x : NpArray) (a : Args) (hr : 2 ≤ x.rows) (hc : 2 ≤ x.cols) {r : Result}
    (h : dtw A (x.clean a) = .ok r) :
    x.dtw A a =
      if (x.dtype = .float64 ∨ (a.openBegin = true ∧ x.dtype = .narrow)) ∧ |x.colStride| ≤ |x.rowStride| then .ok r
      else .error (.valueError "buffer mismatch") := by
  rw [C47_accepted_iff x a h]
  have hk := copyK_cContig x hr hc
  have key : x.accepted a.openBegin = true ↔
      (x.dtype = .float64 ∨ (a.openBegin = true ∧ x.dtype = .narrow)) ∧ |x.colStride| ≤ |x.rowStride| := by
    by_cases hs : |x.colStride| ≤ |x.rowStride|
    · rw [if_pos hs] at hk
      cases hb : a.openBegin with
      | false =>
        simp [accepted, hk, ofFnC_cContig, hs]
        simp [ofFnC]
      | true =>
        have hv : ∃ f, (ofFnC x.rows x.cols x.dtype x.entry).vstackZeros =
            ofFnC (x.rows + 1) x.cols (Dtype.promote x.dtype) f := by
          unfold vstackZeros
          simp only
          rw [if_neg]
          · exact ⟨_, rfl⟩
          · rintro ⟨_, _, h3⟩
            have h4 : |(x.cols : Int)| < |(1 : Int)| := h3
            rw [Nat.abs_cast, abs_one] at h4
            omega
        obtain ⟨f, hv⟩ := hv
        simp only [accepted, if_true, hk, hv, ofFnC_cContig, Bool.and_true, decide_eq_true_eq, hs, and_true, true_and]
        show Dtype.promote x.dtype = .float64 ↔ _
        cases x.dtype <;> simp [Dtype.promote]
    · rw [if_neg hs] at hk
      cases hb : a.openBegin with
      | false =>
        simp [accepted, hk, ofFnF_cContig _ _ hr hc, hs]
      | true =>
        have hv : ∃ f, (ofFnF x.rows x.cols x.dtype x.entry).vstackZeros =
            ofFnF (x.rows + 1) x.cols (Dtype.promote x.dtype) f := by
          unfold vstackZeros
          simp only
          rw [if_pos]
          · exact ⟨_, rfl⟩
          · refine ⟨?_, ?_, ?_⟩
            · show x.rows ≠ 1
              omega
            · show x.cols ≠ 1
              omega
            · show |(1 : Int)| < |(x.rows : Int)|
              rw [Nat.abs_cast, abs_one]
              omega
        obtain ⟨f, hv⟩ := hv
        simp [accepted, hk, hv, ofFnF_cContig (n := x.rows + 1) (m := x.cols) _ _ (by omega) hc, hs]
  by_cases hk' : x.accepted a.openBegin = true
  · rw [if_pos hk', if_pos (key.1 hk')]
  · rw [if_neg hk', if_neg (fun hh => hk' (key.2 hh))]

open NpArray in
/-- **C47** The contiguity flags say what they should: row-major (column-major) contiguous means that the elements follow each
other in memory in that order, without gaps. -/
theorem C47_flags (x : NpArray) :
    (x.cContig = true ↔ ∀ i < x.rows, ∀ j < x.cols, x.addr i j = x.offset + (i * x.cols + j : Nat)) ∧
    (x.fContig = true ↔ ∀ i < x.rows, ∀ j < x.cols, x.addr i j = x.offset + (i + j * x.rows : Nat)) := by
  unfold addr
  constructor
  · simp only [cContig, Bool.or_eq_true, Bool.and_eq_true, decide_eq_true_eq]
    constructor
    · intro h i hi j hj
      have e1 : (j : Int) * x.colStride = j := by
        rcases Nat.eq_zero_or_pos j with rfl | hj0
        · simp
        · have : x.colStride = 1 := by omega
          rw [this, mul_one]
      have e2 : (i : Int) * x.rowStride = i * x.cols := by
        rcases Nat.eq_zero_or_pos i with rfl | hi0
        · simp
        · have : x.rowStride = x.cols := by omega
          rw [this]
      rw [e1, e2]
      push_cast
      ring
    · intro h
      by_cases h0 : x.rows = 0 ∨ x.cols = 0
      · exact .inl h0
      · refine .inr ⟨?_, ?_⟩
        · by_cases hc : x.cols ≤ 1
          · exact .inl hc
          · have := h 0 (by omega) 1 (by omega)
            simp only [Nat.cast_zero, Nat.cast_one, zero_mul, one_mul, add_zero, zero_add] at this
            exact .inr (by omega)
        · by_cases hc : x.rows ≤ 1
          · exact .inl hc
          · have := h 1 (by omega) 0 (by omega)
            simp only [Nat.cast_zero, Nat.cast_one, zero_mul, one_mul, add_zero] at this
            exact .inr (by omega)
  · simp only [fContig, Bool.or_eq_true, Bool.and_eq_true, decide_eq_true_eq]
    constructor
    · intro h i hi j hj
      have e1 : (j : Int) * x.colStride = j * x.rows := by
        rcases Nat.eq_zero_or_pos j with rfl | hj0
        · simp
        · have : x.colStride = x.rows := by omega
          rw [this]
      have e2 : (i : Int) * x.rowStride = i := by
        rcases Nat.eq_zero_or_pos i with rfl | hi0
        · simp
        · have : x.rowStride = 1 := by omega
          rw [this, mul_one]
      rw [e1, e2]
      push_cast
      ring
    · intro h
      by_cases h0 : x.rows = 0 ∨ x.cols = 0
      · exact .inl h0
      · refine .inr ⟨?_, ?_⟩
        · by_cases hc : x.rows ≤ 1
          · exact .inl hc
          · have := h 1 (by omega) 0 (by omega)
            simp only [Nat.cast_zero, Nat.cast_one, zero_mul, one_mul, add_zero] at this
            exact .inr (by omega)
        · by_cases hc : x.cols ≤ 1
          · exact .inl hc
          · have := h 0 (by omega) 1 (by omega)
            simp only [Nat.cast_zero, Nat.cast_one, zero_mul, one_mul, add_zero, zero_add] at this
            exact .inr (by omega)

open NpArray in
theorem ofFnF_thin {n m : Nat} (d : Dtype) (f : Nat → Nat → F64) (h : n ≤ 1 ∨ m ≤ 1) :
    (ofFnF n m d f).cContig = true := by
  refine (C47_flags _).1.2 fun i hi j hj => ?_
  have hi : i < n := hi
  have hj : j < m := hj
  show (0 : Int) + i * 1 + j * n = 0 + (i * m + j : Nat)
  rcases h with h | h
  · have h1 : n = 1 := by omega
    have h2 : i = 0 := by omega
    subst h1 h2
    push_cast
    ring
  · have h1 : m = 1 := by omega
    have h2 : j = 0 := by omega
    subst h1 h2
    push_cast
    ring

open NpArray in
/-- **C47** A matrix with one row or one column is accepted whatever its strides: a call that succeeds on a clean copy succeeds,
with the same result, exactly if the element type is float64 (with open_begin: any type not wider). -/
theorem C47_accepted_thin (x : NpArray) (a : Args) (ht : x.rows = 1 ∨ x.cols = 1) {r : Result}
    (h : dtw A (x.clean a) = .ok r) :
    x.dtw A a =
      if x.dtype = .float64 ∨ (a.openBegin = true ∧ x.dtype = .narrow) then .ok r
      else .error (.valueError "buffer mismatch") := by
  rw [C47_accepted_iff x a h]
  have hk : x.copyK = ofFnC x.rows x.cols x.dtype x.entry ∨ x.copyK = ofFnF x.rows x.cols x.dtype x.entry := by
    unfold copyK
    split
    · exact .inl rfl
    · split
      · exact .inr rfl
      · split
        · exact .inl rfl
        · exact .inr rfl
  have hv : ∀ y : NpArray, y.rows = x.rows → y.cols = x.cols → y.dtype = x.dtype →
      y.vstackZeros.cContig = true ∧ y.vstackZeros.dtype = Dtype.promote x.dtype := by
    intro y h1 h2 h3
    unfold vstackZeros
    simp only
    rw [if_neg (by omega), h3]
    exact ⟨ofFnC_cContig _ _ _ _, rfl⟩
  have key : x.accepted a.openBegin = true ↔ x.dtype = .float64 ∨ (a.openBegin = true ∧ x.dtype = .narrow) := by
    cases hb : a.openBegin with
    | false =>
      rcases hk with hk | hk
      · simp only [accepted, hk, ofFnC_cContig, Bool.false_eq_true, if_false, Bool.and_true, decide_eq_true_eq, false_and, or_false]
        exact Iff.rfl
      · simp only [accepted, hk, ofFnF_thin (n := x.rows) (m := x.cols) x.dtype x.entry (by omega), Bool.false_eq_true, if_false,
          Bool.and_true, decide_eq_true_eq, false_and, or_false]
        exact Iff.rfl
    | true =>
      have hvk := hv x.copyK (by rcases hk with hk | hk <;> rw [hk] <;> rfl) (by rcases hk with hk | hk <;> rw [hk] <;> rfl)
        (by rcases hk with hk | hk <;> rw [hk] <;> rfl)
      simp only [accepted, if_true, hvk.1, hvk.2, Bool.and_true, decide_eq_true_eq, true_and]
      cases x.dtype <;> simp [Dtype.promote]
  by_cases hk' : x.accepted a.openBegin = true
  · rw [if_pos hk', if_pos (key.1 hk')]
  · rw [if_neg hk', if_neg (fun hh => hk' (key.2 hh))]

/-- **C47** The two-series call does not depend on any layout: `cdist` makes a new C-contiguous float64 array. -/
theorem C47_two_series (a : Args) (y : Nd) (hy : a.y = some y) (lay : Layout) (sc : Bool) :
    dtw A { a with layout := lay, stackContig := sc } = dtw A a := by
  obtain ⟨x, y', dist, lay', sc', sp, wt, wa, ki, dn, oe, ob⟩ := a
  cases hy
  unfold dtw localCost runGCM
  rfl

namespace LayoutEx

/-- A 2 × 3 row-major array. -/
def c23 : NpArray := .ofFnC 2 3 .float64 fun i j => fin ((i * 3 + j * j : Nat) : ℚ)

/-- Its transpose view: same memory, strides exchanged. -/
def transposed : NpArray :=
  { rows := 3
    cols := 2
    mem := c23.mem
    offset := 0
    rowStride := 1
    colStride := 3
    dtype := .float64 }

/-- Every second column of a row-major array, backwards: not contiguous, but copied in row-major order. -/
def sliced : NpArray :=
  { rows := 2
    cols := 2
    mem := c23.mem
    offset := 2
    rowStride := 3
    colStride := -2
    dtype := .float64 }

/-- One row, with a gap between its elements. -/
def row : NpArray :=
  { rows := 1
    cols := 2
    mem := c23.mem
    offset := 1
    rowStride := 1
    colStride := 2
    dtype := .float64 }

/-- The distance, if any. -/
def dist (x : NpArray) (a : Args) : Option F64 := (x.dtw Arith.exact a).toOption.map (·.distance)

/-- Default options. -/
def opts : Args := { x := .dn }

end LayoutEx

/-- The three outcomes occur: accepted as it is, copied and accepted, rejected although its clean copy is fine. -/
example : LayoutEx.c23.Valid ∧ LayoutEx.transposed.Valid ∧ LayoutEx.sliced.Valid ∧
    LayoutEx.dist LayoutEx.c23 LayoutEx.opts = (dtw Arith.exact (LayoutEx.c23.clean LayoutEx.opts)).toOption.map (·.distance) ∧
    (LayoutEx.dist LayoutEx.c23 LayoutEx.opts).isSome = true ∧
    LayoutEx.sliced.cContig = false ∧
    (LayoutEx.dist LayoutEx.sliced LayoutEx.opts).isSome = true ∧
    (dtw Arith.exact (LayoutEx.transposed.clean LayoutEx.opts)).toOption.isSome = true ∧
    LayoutEx.dist LayoutEx.transposed LayoutEx.opts = none ∧
    -- one row, with gaps: not contiguous, accepted
    LayoutEx.row.Valid ∧ LayoutEx.row.cContig = false ∧ LayoutEx.row.fContig = false ∧
    (LayoutEx.dist LayoutEx.row LayoutEx.opts).isSome = true := by
  refine ⟨?_, ?_, ?_, by decide +kernel, by decide +kernel, by decide +kernel, by decide +kernel, by decide +kernel,
    by decide +kernel, ?_, by decide +kernel, by decide +kernel, by decide +kernel⟩ <;> (unfold NpArray.Valid; decide +kernel)

end DTW
