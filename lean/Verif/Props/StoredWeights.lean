import Verif.Stored
import Verif.CountPaths
import Verif.Proofs.SlantedProof
import Verif.Props.Doubles
import Verif.Props.Patterns
import Verif.Format

/-!
# C67: weights stored as doubles
-/

namespace DTW
open F64

variable {a : Args} {p : StepPattern}

/-- The weights of a pattern survive storage: they do not overflow, and none of them becomes the marker -1 by rounding. -/
def StepPattern.Storable (p : StepPattern) : Prop :=
  ∀ s ∈ p.mx, ∃ q, rnd64 s.w = fin q ∧ (q = -1 → s.w = -1)

theorem stored_rnd {w q : ℚ} (h : rnd64 w = fin q) : storedWeight w = q ∧ rnd64 (storedWeight w) = rnd64 w := by
  have e : storedWeight w = q := by unfold storedWeight; rw [h]
  rw [e, h]
  exact ⟨rfl, rnd64_double ((C49_nearest w).1 q h).1⟩

theorem rnd64_neg_one : rnd64 (-1) = fin (-1) := by
  have := rnd_int false (-1) (by norm_num)
  push_cast at this
  exact this

theorem stored_marker {w : ℚ} (h : ∃ q, rnd64 w = fin q ∧ (q = -1 → w = -1)) : storedWeight w = -1 ↔ w = -1 := by
  obtain ⟨q, hq, h1⟩ := h
  rw [(stored_rnd hq).1]
  refine ⟨h1, ?_⟩
  rintro rfl
  rw [rnd64_neg_one] at hq
  exact (fin.inj hq).symm

/-- The decoded row with its weight stored. -/
def CStep.stored (c : CStep) : CStep := { c with sc := storedWeight c.sc }

theorem getP_stored_lo (p : StepPattern) {k : Nat} (hk : k < 3 * p.mx.length) : p.stored.getP[k]? = p.getP[k]? := by
  have e1 : ∀ f : Step → ℚ, (∀ s w, f { s with w := w } = f s) → p.stored.mx.map f = p.mx.map f := by
    intro f hf
    simp only [StepPattern.stored, List.map_map]
    exact List.map_congr_left fun s _ => hf s _
  unfold StepPattern.getP
  rw [e1 (fun s => (s.pid : ℚ)) (fun _ _ => rfl), e1 (fun s => (s.dj : ℚ)) (fun _ _ => rfl),
    e1 (fun s => (s.di : ℚ)) (fun _ _ => rfl), List.getElem?_append_left (by simp; omega),
    List.getElem?_append_left (l₂ := p.mx.map fun s => s.w) (by simp; omega)]

theorem getP_stored_hi (p : StepPattern) {k : Nat} (hk : 3 * p.mx.length ≤ k) :
    p.stored.getP[k]? = (p.getP[k]?).map storedWeight := by
  unfold StepPattern.getP
  rw [List.getElem?_append_right (by simp [StepPattern.stored]; omega), List.getElem?_append_right (by simp; omega)]
  simp only [StepPattern.stored, List.length_append, List.length_map, List.getElem?_map, Option.map_map]
  rfl

theorem rd_stored_lo (p : StepPattern) {k : Int} (hk : k < 3 * p.mx.length) : rd p.stored.getP k = rd p.getP k := by
  unfold rd
  split
  · rw [getP_stored_lo p (by omega)]
  · rfl

theorem rd_stored_hi (p : StepPattern) {k : Int} (hk : 3 * p.mx.length ≤ k) :
    rd p.stored.getP k = (rd p.getP k).map storedWeight := by
  unfold rd
  split
  · rw [getP_stored_hi p (by omega)]
    cases p.getP[k.toNat]? <;> rfl
  · rfl

theorem ep_val {n i c k : Int} (h : ep n i c = .ok k) : k = c * n + i := by
  unfold ep i32 at h
  split at h
  · simp only [bind, Except.bind] at h
    split at h
    · exact (Except.ok.inj h).symm
    · cases h
  · cases h

theorem decodeRow_stored (p : StepPattern) {i : Nat} (hi : i < p.mx.length) :
    decodeRow p.mx.length p.stored.getP i = (decodeRow p.mx.length p.getP i).map CStep.stored := by
  unfold decodeRow
  have lo : ∀ c : Int, 0 ≤ c → c ≤ 2 → ∀ k, ep p.mx.length i c = .ok k → rd p.stored.getP k = rd p.getP k := by
    intro c h0 h2 k hk
    refine rd_stored_lo p ?_
    rw [ep_val hk]
    have : c * (p.mx.length : Int) ≤ 2 * p.mx.length := Int.mul_le_mul_of_nonneg_right h2 (by omega)
    omega
  have hi3 : ∀ k, ep p.mx.length i 3 = .ok k → rd p.stored.getP k = (rd p.getP k).map storedWeight := by
    intro k hk
    refine rd_stored_hi p ?_
    rw [ep_val hk]
    omega
  have b : ∀ c : Int, 0 ≤ c → c ≤ 2 → (ep p.mx.length i c >>= rd p.stored.getP) = (ep p.mx.length i c >>= rd p.getP) := by
    intro c h0 h2
    cases he : ep (p.mx.length : Int) i c with
    | error e => rfl
    | ok k => exact lo c h0 h2 k he
  have b3 : (ep p.mx.length i 3 >>= rd p.stored.getP) = (ep p.mx.length i 3 >>= rd p.getP).map storedWeight := by
    cases he : ep (p.mx.length : Int) i 3 with
    | error e => rfl
    | ok k => exact hi3 k he
  simp only [← bind_assoc, b 0 (by omega) (by omega), b 1 (by omega) (by omega), b 2 (by omega) (by omega), b3]
  generalize (ep (p.mx.length : Int) i 0 >>= rd p.getP) = x0
  generalize (ep (p.mx.length : Int) i 1 >>= rd p.getP) = x1
  generalize (ep (p.mx.length : Int) i 2 >>= rd p.getP) = x2
  generalize (ep (p.mx.length : Int) i 3 >>= rd p.getP) = x3
  rcases x0 with e | v0
  · rfl
  simp only [bind, Except.bind]
  rcases i32 (trunc v0) with e | w0
  · rfl
  simp only
  rcases i32 (w0 - 1) with e | w0
  · rfl
  simp only
  rcases x1 with e | v1
  · rfl
  simp only
  rcases i32 (trunc v1) with e | w1
  · rfl
  simp only
  rcases x2 with e | v2
  · rfl
  simp only
  rcases i32 (trunc v2) with e | w2
  · rfl
  simp only
  rcases x3 with e | v3
  · rfl
  simp only [Except.map]
  split <;> rfl

/-- The weight of a decoded row is the weight of a row of the pattern. -/
theorem decodeRow_weight (p : StepPattern) {i : Nat} (hi : i < p.mx.length) {c : CStep}
    (h : decodeRow p.mx.length p.getP i = .ok c) : ∃ s ∈ p.mx, c.sc = s.w := by
  unfold decodeRow at h
  simp only [← bind_assoc] at h
  have h3 : ∀ v, (ep (p.mx.length : Int) i 3 >>= rd p.getP) = .ok v → ∃ s ∈ p.mx, v = s.w := by
    intro v hv
    cases he : ep (p.mx.length : Int) i 3 with
    | error e => rw [he] at hv; cases hv
    | ok k =>
      rw [he] at hv
      have hk := ep_val he
      replace hv : rd p.getP k = .ok v := hv
      rw [hk, show 3 * (p.mx.length : Int) + i = ((3 * p.mx.length + i : Nat) : Int) by push_cast; ring] at hv
      unfold rd at hv
      rw [if_pos (by omega), Int.toNat_natCast] at hv
      unfold StepPattern.getP at hv
      rw [List.getElem?_append_right (by simp; omega)] at hv
      simp only [List.length_append, List.length_map, List.getElem?_map] at hv
      rw [show 3 * p.mx.length + i - (p.mx.length + p.mx.length + p.mx.length) = i by omega,
        List.getElem?_eq_getElem hi] at hv
      exact ⟨_, List.getElem_mem hi, (Except.ok.inj hv).symm⟩
  generalize (ep (p.mx.length : Int) i 0 >>= rd p.getP) = x0 at h
  generalize (ep (p.mx.length : Int) i 1 >>= rd p.getP) = x1 at h
  generalize (ep (p.mx.length : Int) i 2 >>= rd p.getP) = x2 at h
  generalize (ep (p.mx.length : Int) i 3 >>= rd p.getP) = x3 at h h3
  rcases x0 with e | v0
  · cases h
  simp only [bind, Except.bind] at h
  generalize i32 (trunc v0) = y0 at h
  rcases y0 with e | w0
  · cases h
  simp only at h
  generalize i32 (w0 - 1) = y0 at h
  rcases y0 with e | w0
  · cases h
  simp only at h
  rcases x1 with e | v1
  · cases h
  simp only at h
  generalize i32 (trunc v1) = y0 at h
  rcases y0 with e | w1
  · cases h
  simp only at h
  rcases x2 with e | v2
  · cases h
  simp only at h
  generalize i32 (trunc v2) = y0 at h
  rcases y0 with e | w2
  · cases h
  simp only at h
  rcases x3 with e | v3
  · cases h
  simp only at h
  split at h
  · cases h
  · cases h
    exact h3 _ rfl

theorem mapM_stored {f g : Nat → Except Err CStep} {Q : CStep → Prop} : ∀ (l : List Nat),
    (∀ i ∈ l, g i = (f i).map CStep.stored) → (∀ i ∈ l, ∀ c, f i = .ok c → Q c) →
    l.mapM g = (l.mapM f).map (List.map CStep.stored) ∧ ∀ cs, l.mapM f = .ok cs → ∀ c ∈ cs, Q c := by
  intro l
  induction l with
  | nil =>
    intro _ _
    refine ⟨rfl, ?_⟩
    intro cs h c hc
    cases h
    cases hc
  | cons i l ih =>
    intro h1 h2
    obtain ⟨e1, e2⟩ := ih (fun k hk => h1 k (List.mem_cons_of_mem _ hk)) (fun k hk => h2 k (List.mem_cons_of_mem _ hk))
    rw [List.mapM_cons, List.mapM_cons, h1 i (List.mem_cons_self ..), e1]
    have hq := h2 i (List.mem_cons_self ..)
    rcases hf : f i with e | c
    · exact ⟨rfl, fun cs h => by cases h⟩
    · rcases hl : l.mapM f with e | cs
      · exact ⟨rfl, fun cs h => by cases h⟩
      · refine ⟨rfl, ?_⟩
        intro cs' h c' hc'
        cases h
        rcases List.mem_cons.1 hc' with rfl | hc'
        · exact hq _ hf
        · exact e2 _ hl _ hc'

/-- What is needed of one weight. -/
def WeightOK (w : ℚ) : Prop := ∃ q, rnd64 w = fin q ∧ (q = -1 → w = -1)

theorem relax_stored (f : Bool) (n : Int) (lm cm : List F64) (i j : Int) (cl : List F64) {c : CStep} (h : WeightOK c.sc) :
    relax (binary64 f) n lm cm i j cl c.stored = relax (binary64 f) n lm cm i j cl c := by
  obtain ⟨q, hq, _⟩ := id h
  have e : (binary64 f).rnd (storedWeight c.sc) = (binary64 f).rnd c.sc := (stored_rnd hq).2
  unfold relax CStep.stored
  simp only [e, stored_marker h]

theorem foldlM_stored (f : Bool) (n : Int) (lm cm : List F64) (i j : Int) : ∀ (cs : List CStep) (cl : List F64),
    (∀ c ∈ cs, WeightOK c.sc) →
    (cs.map CStep.stored).foldlM (relax (binary64 f) n lm cm i j) cl = cs.foldlM (relax (binary64 f) n lm cm i j) cl := by
  intro cs
  induction cs with
  | nil => intro _ _; rfl
  | cons c cs ih =>
    intro cl h
    rw [List.map_cons, List.foldlM_cons, List.foldlM_cons, relax_stored f n lm cm i j cl (h c (List.mem_cons_self ..))]
    congr 1
    funext cl'
    exact ih cl' fun c hc => h c (List.mem_cons_of_mem _ hc)

theorem computeCM_stored (f : Bool) (hs : p.Storable) (n m : Nat) (wm : List Int) (lm cm : List F64) (sm : List Int) :
    computeCM (binary64 f) n m wm lm p.stored.getNRows p.stored.getP cm sm =
      computeCM (binary64 f) n m wm lm p.getNRows p.getP cm sm := by
  have hlen : p.stored.getNRows = p.getNRows := by simp [StepPattern.getNRows, StepPattern.stored]
  obtain ⟨hd, hq⟩ := mapM_stored (f := decodeRow p.mx.length p.getP) (g := decodeRow p.mx.length p.stored.getP)
    (Q := fun c => WeightOK c.sc) (List.range p.mx.length)
    (fun i hi => decodeRow_stored p (List.mem_range.1 hi))
    (fun i hi c hc => by
      obtain ⟨s, hsm, e⟩ := decodeRow_weight p (List.mem_range.1 hi) hc
      rw [e]
      exact hs s hsm)
  rw [hlen]
  unfold computeCM decode StepPattern.getNRows
  rw [hd]
  rcases hc : (List.range p.mx.length).mapM (decodeRow p.mx.length p.getP) with e | cs
  · rfl
  have hcell : ∀ (np : Nat) st (i j : Int), cell (binary64 f) n wm lm (cs.map CStep.stored) np st i j =
      cell (binary64 f) n wm lm cs np st i j := by
    intro np st i j
    unfold cell
    simp only [foldlM_stored f n lm _ i j cs _ (hq _ hc)]
  simp only [Except.map, bind, Except.bind, List.getLast?_map, hcell]
  rcases cs.getLast? with _ | c
  · rfl
  · rfl

theorem globalCostMatrix_stored (f : Bool) (hs : p.Storable) (lm : Mat F64) (lay : Layout) (wf : WinFn)
    (seed : Option (Mat F64)) (args : WinArgs) :
    globalCostMatrix (binary64 f) lm lay p.stored wf seed args = globalCostMatrix (binary64 f) lm lay p wf seed args := by
  have hnil : p.stored.getP = [] ↔ p.getP = [] := by
    unfold StepPattern.getP StepPattern.stored
    simp
  unfold globalCostMatrix computeCMWrapper
  simp only [computeCM_stored f hs, hnil]

theorem backtrack_stored (p : StepPattern) (D : Mat Int) (jmin : Int) : backtrack p.stored D jmin = backtrack p D jmin := by
  have h1 : p.stored.getNPatterns = p.getNPatterns := by
    unfold StepPattern.getNPatterns StepPattern.stored
    cases p.mx with
    | nil => rfl
    | cons s l => simp only [List.map_cons, List.foldl_map]
  have h2 : ∀ q, stepsCache p.stored q = stepsCache p q := by
    intro q
    unfold stepsCache StepPattern.stored
    simp only [List.filter_map, List.map_map]
    rfl
  have h3 : ∀ npat s, btStep p.stored npat D s = btStep p npat D s := by
    intro npat s
    unfold btStep
    simp only [h2]
  have h4 : ∀ npat k s, btLoop p.stored npat D k s = btLoop p npat D k s := by
    intro npat k
    induction k with
    | zero => intro s; rfl
    | succ k ih =>
      intro s
      unfold btLoop
      simp only [h3, ih]
  unfold backtrack
  simp only [h1, h4]

/-- C67: the doubles in which a pattern's weights are stored give, in double precision, the same result as the weights as
written; only the recorded pattern object differs. -/
theorem C67_stored (f : Bool) (hs : p.Storable) (a : Args) :
    dtw (binary64 f) { a with stepPattern := .obj p.stored } =
      (dtw (binary64 f) { a with stepPattern := .obj p }).map fun r => { r with stepPattern := p.stored } := by
  have hr : ∀ lm lay wf, runGCM (binary64 f) { a with stepPattern := .obj p.stored } lm lay wf p.stored =
      runGCM (binary64 f) { a with stepPattern := .obj p } lm lay wf p := by
    intro lm lay wf
    unfold runGCM
    simp only [globalCostMatrix_stored f hs]
    rfl
  have hm : ∀ sm j, pickMapping { a with stepPattern := .obj p.stored } p.stored sm j =
      pickMapping { a with stepPattern := .obj p } p sm j := by
    intro sm j
    unfold pickMapping
    simp only [backtrack_stored]
  have he : ∀ norm m cm lc, pickEnd { a with stepPattern := .obj p.stored } norm m cm lc =
      pickEnd { a with stepPattern := .obj p } norm m cm lc := fun _ _ _ _ => rfl
  have hh : p.stored.hint = p.hint := rfl
  unfold dtw
  show (localCost a >>= _) = Except.map _ (localCost a >>= _)
  rcases localCost a with e | ⟨lm, lay, qr⟩
  · rfl
  simp only [bind, Except.bind, canonPattern, hr, hm, he, hh]
  rcases runGCM (binary64 f) { a with stepPattern := .obj p } lm lay (canonWindow a.windowType) p with e | ⟨lm', cm, sm⟩
  · rfl
  simp only
  rcases pickEnd { a with stepPattern := .obj p } p.hint lm.cols cm
      (normalise (binary64 f) p.hint lm.rows (cm.row (cm.rows - 1))) with e | ⟨jmin, d⟩
  · rfl
  simp only
  rcases pickNorm p.hint (normalise (binary64 f) p.hint lm.rows (cm.row (cm.rows - 1))) jmin with e | nd
  · rfl
  simp only
  rcases pickMapping { a with stepPattern := .obj p } p sm jmin with e | mp
  · rfl
  · rfl

/-! ### Which patterns -/

/-- A weight that is -1, or a number between 2^-10 and 2^10 (or zero), or one between -3/2 and -1 that is not too close to
-1. -/
def PlainWeight (w : ℚ) : Prop :=
  w = -1 ∨ w = 0 ∨ (1 / 2 ^ 10 ≤ w ∧ w ≤ 2 ^ 10) ∨ (-3 / 2 ≤ w ∧ w ≤ -1 - 1 / 2 ^ 10)

instance (w : ℚ) : Decidable (PlainWeight w) := inferInstanceAs (Decidable (_ ∨ _))

theorem PlainWeight.near {w : ℚ} (h : PlainWeight w) :
    ∃ q, rnd64 w = fin q ∧ |q - w| ≤ 1 / 2 ^ 43 ∧ (w = -1 → q = -1) ∧ (w = 0 → q = 0) := by
  have hb : w = 0 ∨ (1 / 2 ^ 40 ≤ |w| ∧ |w| ≤ 2 ^ 10) := by
    rcases h with rfl | rfl | ⟨h1, h2⟩ | ⟨h1, h2⟩
    · right; norm_num
    · left; rfl
    · right
      rw [abs_of_nonneg (by linarith [show (0 : ℚ) < 1 / 2 ^ 10 by norm_num])]
      exact ⟨le_trans (by norm_num) h1, h2⟩
    · right
      have : w < 0 := by norm_num at h2; linarith
      rw [abs_of_neg this]
      constructor <;> norm_num at h1 h2 ⊢ <;> linarith
  obtain ⟨q, hq, he⟩ := rnd_err false (x := w) (by
    rcases hb with h | ⟨h1, h2⟩
    · exact .inl h
    · exact .inr ⟨h1, le_trans h2 (by norm_num)⟩)
  refine ⟨q, hq, le_trans he ?_, ?_, ?_⟩
  · have : |w| ≤ 2 ^ 10 := by
      rcases hb with rfl | ⟨_, h⟩
      · norm_num
      · exact h
    rw [div_le_iff₀ (by norm_num)]
    norm_num at this ⊢
    linarith
  · rintro rfl
    have : rnd64 (-1) = fin q := hq
    rw [rnd64_neg_one] at this
    exact (fin.inj this).symm
  · rintro rfl
    have : (binary64 false).rnd 0 = fin q := hq
    rw [(binary64 false).rnd_zero] at this
    exact (fin.inj this).symm

theorem PlainWeight.ok {w : ℚ} (h : PlainWeight w) : WeightOK w := by
  obtain ⟨q, hq, he, _, _⟩ := h.near
  refine ⟨q, hq, ?_⟩
  rintro rfl
  rw [abs_le] at he
  norm_num at he
  rcases h with rfl | rfl | ⟨h1, h2⟩ | ⟨h1, h2⟩
  · rfl
  · norm_num at he
  · norm_num at h1; linarith
  · norm_num at h2; linarith

theorem trunc_eq_neg_one {q : ℚ} : trunc q = -1 ↔ -2 < q ∧ q ≤ -1 := by
  have hd : (0 : Int) < q.den := by exact_mod_cast q.den_pos
  have hd' : (0 : ℚ) < q.den := by exact_mod_cast q.den_pos
  have e : q = (q.num : ℚ) / (q.den : ℚ) := (Rat.num_div_den q).symm
  have h1 : -2 < q ↔ -2 * (q.den : Int) < q.num := by
    conv_lhs => rw [e, lt_div_iff₀ hd']
    exact_mod_cast Iff.rfl
  have h2 : q ≤ -1 ↔ q.num ≤ -1 * (q.den : Int) := by
    conv_lhs => rw [e, div_le_iff₀ hd']
    exact_mod_cast Iff.rfl
  rw [h1, h2]
  unfold trunc
  constructor
  · intro h
    have hm := Int.mul_tdiv_add_tmod q.num q.den
    rw [h] at hm
    have hl := Int.tmod_lt_of_pos q.num hd
    have hg : -(q.den : Int) < Int.tmod q.num q.den := by
      have := Int.tmod_lt_of_pos (-q.num) hd
      rw [Int.neg_tmod] at this
      omega
    have : q.num < 0 := by
      by_contra hc
      have := Int.tdiv_nonneg (not_lt.1 hc) hd.le
      omega
    have hnp : Int.tmod q.num q.den ≤ 0 := by
      rw [← neg_neg q.num, Int.neg_tmod]
      have := Int.tmod_nonneg (q.den : Int) (show (0 : Int) ≤ -q.num by omega)
      omega
    omega
  · rintro ⟨g1, g2⟩
    rw [← neg_neg q.num, Int.neg_tdiv, Int.tdiv_eq_ediv_of_nonneg (by omega)]
    have : (-q.num) / (q.den : Int) = 1 := by
      rw [Int.ediv_eq_iff_of_pos hd]
      omega
    rw [this]

theorem PlainWeight.trunc_stored {w : ℚ} (h : PlainWeight w) : trunc (storedWeight w) = -1 ↔ trunc w = -1 := by
  obtain ⟨q, hq, he, hm, h0⟩ := h.near
  rw [(stored_rnd hq).1, trunc_eq_neg_one, trunc_eq_neg_one]
  rw [abs_le] at he
  norm_num at he
  rcases h with rfl | rfl | ⟨h1, h2⟩ | ⟨h1, h2⟩
  · rw [hm rfl]
  · rw [h0 rfl]
  · norm_num at h1 h2
    constructor <;> rintro ⟨g1, g2⟩ <;> exfalso <;> linarith
  · norm_num at h1 h2
    constructor <;> rintro ⟨g1, g2⟩ <;> constructor <;> linarith

/-- All weights are plain. -/
def StepPattern.PlainWeights (p : StepPattern) : Prop := ∀ s ∈ p.mx, PlainWeight s.w

instance (p : StepPattern) : Decidable p.PlainWeights := inferInstanceAs (Decidable (∀ s ∈ p.mx, PlainWeight s.w))

/-- C67: every bundled pattern, every Rabiner-Juang pattern and every mvm pattern has such weights. -/
theorem C67_weights :
    (∀ q ∈ Pat.table, q.2.PlainWeights) ∧
    (∀ t s sm p, rabinerJuang t s sm = .ok p → p.PlainWeights) ∧
    (∀ e, (mvmStepPattern e).PlainWeights) := by
  refine ⟨?_, ?_, ?_⟩
  · have : (Pat.table.all fun q => decide q.2.PlainWeights) = true := by decide +kernel
    intro q hq
    simpa using List.all_eq_true.1 this q hq
  · intro t s sm p hp
    have key : ([1, 2, 3, 4, 5, 6, 7].all fun t : Int => ["a", "b", "c", "d"].all fun s => [true, false].all fun sm =>
        match rabinerJuang t s sm with
          | .ok p => decide p.PlainWeights
          | .error _ => true) = true := by decide +kernel
    by_cases hc : (1 ≤ t ∧ t ≤ 7) ∧ s ∈ ["a", "b", "c", "d"]
    · have hmem : t ∈ ([1, 2, 3, 4, 5, 6, 7] : List Int) := by
        simp only [List.mem_cons, List.not_mem_nil, or_false]; omega
      have h1 := List.all_eq_true.1 (List.all_eq_true.1 (List.all_eq_true.1 key t hmem) s hc.2) sm (by cases sm <;> simp)
      rw [hp] at h1
      simpa using h1
    · obtain ⟨e, he⟩ := C32_C40_rabinerJuang_rejects t s sm (by tauto)
      rw [hp] at he
      cases he
  · intro e s hs
    unfold mvmStepPattern at hs
    simp only [List.mem_flatMap, List.mem_range, List.mem_cons, List.not_mem_nil, or_false] at hs
    obtain ⟨k, _, rfl | rfl⟩ := hs
    · exact .inl rfl
    · exact .inr (.inr (.inl (by norm_num)))

theorem StepPattern.PlainWeights.storable (h : p.PlainWeights) : p.Storable := fun s hs => (h s hs).ok

/-- C67, the module's own patterns: naming a pattern gives the result that the stored object gives, in double precision. -/
theorem C67_bundled (f : Bool) (q : String × StepPattern) (hq : q ∈ Pat.table) (a : Args) :
    dtw (binary64 f) { a with stepPattern := .obj q.2.stored } =
      (dtw (binary64 f) { a with stepPattern := .name q.1 }).map fun r => { r with stepPattern := q.2.stored } := by
  have hl : (Pat.table.all fun q => decide (Pat.table.lookup q.1 = some q.2)) = true := by decide +kernel
  have hl : Pat.table.lookup q.1 = some q.2 := by simpa using List.all_eq_true.1 hl q hq
  have e : dtw (binary64 f) { a with stepPattern := .name q.1 } = dtw (binary64 f) { a with stepPattern := .obj q.2 } := by
    have : canonPattern (.name q.1) = canonPattern (.obj q.2) := by
      simp only [canonPattern, hl]
    unfold dtw
    rw [this]
    rfl
  rw [e, C67_stored f (C67_weights.1 q hq).storable]

/-- C67, `countPaths`: the number of paths is the same for the stored weights. -/
theorem C67_countPaths (A : Arith) (h : p.PlainWeights) (d : Result) :
    countPaths A { d with stepPattern := p.stored } = countPaths A { d with stepPattern := p } := by
  have h1 : p.stored.getNPatterns = p.getNPatterns := by
    unfold StepPattern.getNPatterns StepPattern.stored
    cases p.mx with
    | nil => rfl
    | cons s l => simp only [List.map_cons, List.foldl_map]
  have h2 : p.stored.mkDirDeltas = p.mkDirDeltas := by
    unfold StepPattern.mkDirDeltas StepPattern.stored
    simp only [List.filter_map, List.map_map]
    have : ∀ l : List Step, (∀ s ∈ l, PlainWeight s.w) →
        l.filter ((fun s : Step => decide (trunc s.w = -1)) ∘ fun s : Step => { s with w := storedWeight s.w }) =
          l.filter fun s => decide (trunc s.w = -1) := by
      intro l hl
      apply List.filter_congr
      intro s hs
      simp only [Function.comp_apply, (hl s hs).trunc_stored]
    rw [this _ h]
    rfl
  unfold countPaths countMatrix
  simp only [h1, h2]

/-- C67, `print`: the stored weights of the module's patterns print as the weights in the source text. -/
theorem C67_print (q : String × StepPattern) (hq : q ∈ Pat.table) : q.2.stored.text = q.2.text := by
  have hl : (Pat.table.all fun q => match q.2.stored.text, q.2.text with
    | .ok s, .ok t => decide (s = t)
    | _, _ => false) = true := by decide +kernel
  have h := List.all_eq_true.1 hl q hq
  rcases h1 : q.2.stored.text with e | s
  · rw [h1] at h; cases h
  · rcases h2 : q.2.text with e | t
    · rw [h1, h2] at h; cases h
    · rw [h1, h2] at h
      simp only [decide_eq_true_eq] at h
      rw [h]

/-- C67, why a condition is needed: a weight within half a unit of -1 is stored as -1, that is, as a starting point. -/
theorem C67_rounded_marker : rnd64 (-1 - 1 / 2 ^ 60) = fin (-1) ∧
    ¬ (StepPattern.mk [⟨1, 1, 1, -1⟩, ⟨1, 0, 0, -1 - 1 / 2 ^ 60⟩] "NA").Storable := by
  have e : rnd64 (-1 - 1 / 2 ^ 60) = fin (-1) := by
    decide +kernel
  refine ⟨e, ?_⟩
  intro h
  obtain ⟨q, hq, h1⟩ := h ⟨1, 0, 0, -1 - 1 / 2 ^ 60⟩ (by simp)
  rw [e] at hq
  have := h1 (fin.inj hq).symm
  norm_num at this

/-- Some weights are really changed by storing: those of asymmetricP05 (1/3). -/
example : storedWeight (1 / 3) ≠ 1 / 3 ∧ (⟨3, 0, 0, 1 / 3⟩ : Step).w ∈ Pat.asymmetricP05.mx.map Step.w := by decide +kernel

end DTW
