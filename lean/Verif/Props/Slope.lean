import Verif.Proofs.ReachProof
import Verif.Props.PathShape
import Verif.Props.Optimal
import Verif.Proofs.OpenBegin

/-!
# C51: local slope constraints
-/

namespace DTW
open F64

variable {A : Arith} {a : Args} {n m : Nat} {L : Nat → Nat → F64} {W : Nat → Nat → Bool} {p : StepPattern}
  {rs : List Rule} {r : Result} {mp : Mapping} {lo hi : ℚ}

/-- Every rule advances, per query element, by at least `lo` and at most `hi` reference elements. -/
def SlopeBounds (lo hi : ℚ) (rs : List Rule) : Prop := ∀ r ∈ rs, lo * r.a ≤ r.b ∧ (r.b : ℚ) ≤ hi * r.a

instance (lo hi : ℚ) (rs : List Rule) : Decidable (SlopeBounds lo hi rs) := inferInstanceAs (Decidable (∀ _ ∈ _, _))

/-- Between two points of a curve, the second one later, the slope is between `lo` and `hi`. -/
def SlopeRel (lo hi : ℚ) (u v : Int × Int) : Prop :=
  lo * (v.1 - u.1) ≤ v.2 - u.2 ∧ ((v.2 : ℚ) - u.2) ≤ hi * (v.1 - u.1)

instance (lo hi : ℚ) : IsTrans (Int × Int) (SlopeRel lo hi) where
  trans u v w h1 h2 := by
    unfold SlopeRel at *
    constructor
    · have := add_le_add h1.1 h2.1
      calc lo * ((w.1 : ℚ) - u.1) = lo * (v.1 - u.1) + lo * (w.1 - v.1) := by ring
        _ ≤ _ := this
        _ = _ := by ring
    · have := add_le_add h1.2 h2.2
      calc ((w.2 : ℚ) - u.2) = (v.2 - u.2) + (w.2 - v.2) := by ring
        _ ≤ _ := this
        _ = _ := by ring

/-- The slopes between all pairs of corner points drawn by a rule sequence. -/
theorem coarse_slopes (hs : SlopeBounds lo hi rs) (ks : List Int) (i j : Int) :
    (coarse rs i j ks).Pairwise (SlopeRel lo hi) := by
  have hc := coarse_chain (rs := rs) (fun di dj => lo * di ≤ dj ∧ (dj : ℚ) ≤ hi * di)
    (fun r hr => by exact_mod_cast hs r hr) ks i j
  have hc' : (coarse rs i j ks).IsChain (SlopeRel lo hi) := by
    refine hc.imp fun u v h => ?_
    unfold SlopeRel
    push_cast at h
    exact h
  exact hc'.pairwise

/-- C51.  Whatever the options, the slope between any two corner points of the alignment is within the bounds
of the pattern. -/
theorem C51_slopes (hs : SlopeBounds lo hi rs) (h : Problem a n m L W p rs) (hr : dtw A a = .ok r)
    (hmp : r.mapping = some mp) :
    (mp.index1s.zip mp.index2s).Pairwise (SlopeRel lo hi) := by
  by_cases hob : a.openBegin = true
  · have hh : p.hint = "N" := by
      by_contra hh; rw [open_bad_hint h hob hh] at hr; simp at hr
    obtain ⟨G, D, qr, hB, _, hd⟩ := dtw_open A h hob hh
    obtain ⟨j, j0, ks, hrun⟩ := open_ok h hob hB hd hr
    have : mp = (curve rs 0 j0 ks).dropNull := by
      have e : r.mapping = some (curve rs 0 j0 ks).dropNull := by rw [hrun.result]; rfl
      rw [hmp] at e
      exact Option.some.inj e
    rw [this, dropNull_curve]
    simp only
    rw [zip_fst_snd]
    exact (coarse_slopes hs ks (-1) j0).tail
  rw [Bool.not_eq_true] at hob
  obtain ⟨j, ks, _, _, _, rfl, _⟩ := closed_mapping h hob hr hmp
  have e : (curve rs 0 0 ks).index1s.zip (curve rs 0 0 ks).index2s = coarse rs 0 0 ks := zip_fst_snd _
  rw [e]
  exact coarse_slopes hs ks 0 0

/-- C51.  The corner points of a closed alignment lie in the parallelogram spanned by the slope bounds from both
corners (the local counterpart of the Itakura parallelogram). -/
theorem C51_parallelogram (hs : SlopeBounds lo hi rs) (h : Problem a n m L W p rs) (hr : dtw A a = .ok r)
    (hmp : r.mapping = some mp) (hob : a.openBegin = false) (hoe : a.openEnd = false) :
    ∀ u ∈ mp.index1s.zip mp.index2s,
      (lo * u.1 ≤ u.2 ∧ (u.2 : ℚ) ≤ hi * u.1) ∧
      (lo * (((n : ℚ) - 1) - u.1) ≤ ((m : ℚ) - 1) - u.2 ∧ ((m : ℚ) - 1) - u.2 ≤ hi * (((n : ℚ) - 1) - u.1)) := by
  have hn := h.n_pos
  have hm := h.m_pos
  have hpw := C51_slopes hs h hr hmp
  obtain ⟨j, ks, _, _, hj, rfl, hp⟩ := closed_mapping h hob hr hmp
  obtain rfl := hj hoe
  have e : (curve rs 0 0 ks).index1s.zip (curve rs 0 0 ks).index2s = coarse rs 0 0 ks := zip_fst_snd _
  rw [e] at hpw ⊢
  intro u hu
  have e1 : (((n - 1 : Nat) : Int) : ℚ) = (n : ℚ) - 1 := by
    rw [Int.cast_natCast, Nat.cast_sub hn]; simp
  have e2 : (((m - 1 : Nat) : Int) : ℚ) = (m : ℚ) - 1 := by
    rw [Int.cast_natCast, Nat.cast_sub hm]; simp
  constructor
  · obtain ⟨t, ht⟩ := coarse_cons rs 0 0 ks
    rw [ht] at hu hpw
    rcases List.mem_cons.1 hu with rfl | hu
    · simp
    · have := List.rel_of_pairwise_cons hpw hu
      simpa [SlopeRel] using this
  · obtain ⟨pts, hpts, _⟩ := hp.toWalk.coarse_end
    have hpts' : coarse rs 0 0 ks = pts ++ [(((n - 1 : Nat) : Int), ((m - 1 : Nat) : Int))] := by simpa using hpts
    rw [hpts'] at hu hpw
    rcases List.mem_append.1 hu with hu | hu
    · have := (List.pairwise_append.1 hpw).2.2 u hu _ (List.mem_singleton.2 rfl)
      simp only [SlopeRel, e1, e2] at this
      exact this
    · rw [List.mem_singleton] at hu
      subst hu
      rw [e1, e2]; simp

/-- C51.  A closed alignment whose overall slope is out of bounds is rejected. -/
theorem C51_out_of_bounds_raises (hs : SlopeBounds lo hi rs) (h : Problem a n m L W p rs)
    (hob : a.openBegin = false) (hoe : a.openEnd = false)
    (hout : ((m : ℚ) - 1) < lo * ((n : ℚ) - 1) ∨ hi * ((n : ℚ) - 1) < (m : ℚ) - 1) :
    dtw A a = .error (.valueError "No warping path found compatible with the local constraints") := by
  have hn := h.n_pos
  have hm := h.m_pos
  have hno : ∀ ks, ¬ RulePath rs W ks (n - 1) (m - 1) := by
    intro ks hp
    have key : ∀ {ks i j}, RulePath rs W ks i j → lo * (i : ℚ) ≤ j ∧ (j : ℚ) ≤ hi * i := by
      intro ks i j hp
      induction hp with
      | start => simp
      | step k q _ hq _ ih =>
        have := hs q (List.mem_of_getElem? hq)
        push_cast
        constructor <;> linarith [ih.1, ih.2, this.1, this.2]
    have hk := key hp
    rw [Nat.cast_sub hn, Nat.cast_sub hm, Nat.cast_one] at hk
    rcases hout with ho | ho <;> linarith [hk.1, hk.2]
  refine (C02_no_path_iff (A := A) h hob hoe).1.2 ⟨?_, ?_⟩
  · rintro ⟨ks, c, hp, _⟩; exact hno ks hp.toRulePath
  · rintro ⟨rfl, rfl, _⟩; exact hno [] .start

/-! ### When an alignment exists -/

/-- Reachability without window from a decomposition into two kinds of moves. -/
theorem reach_two {i j a b c d x y : Nat} (h1 : HasMove rs a b) (h2 : HasMove rs c d)
    (hi : i = x * a + y * c) (hj : j = x * b + y * d) : Reach rs (fun _ _ => true) i j := by
  have := ((Reach.start (rs := rs) (W := fun _ _ => true)).repeat h1 x (fun _ _ _ => rfl)).repeat h2 y
    (fun _ _ _ => rfl)
  rw [hi, hj]
  simpa using this

/-- The families of bundled step patterns by slope: which moves they have. -/
inductive SlopeFamily : ℚ → ℚ → List Rule → Prop
  | half {rs : List Rule} : SlopeBounds (1 / 2) 2 rs → HasMove rs 1 1 → HasMove rs 1 2 → HasMove rs 2 1 → SlopeFamily (1 / 2) 2 rs
  | third {rs : List Rule} : SlopeBounds (1 / 3) 3 rs → HasMove rs 1 1 → HasMove rs 1 2 → HasMove rs 2 1 → HasMove rs 1 3 →
      HasMove rs 3 1 → SlopeFamily (1 / 3) 3 rs
  | twoThirds {rs : List Rule} : SlopeBounds (2 / 3) (3 / 2) rs → HasMove rs 1 1 → HasMove rs 2 3 → HasMove rs 3 2 →
      SlopeFamily (2 / 3) (3 / 2) rs
  | one {rs : List Rule} : SlopeBounds 1 1 rs → HasMove rs 1 1 → SlopeFamily 1 1 rs
  | flat {rs : List Rule} : SlopeBounds 0 2 rs → HasMove rs 1 0 → HasMove rs 1 1 → HasMove rs 1 2 → SlopeFamily 0 2 rs

theorem SlopeFamily.bounds (h : SlopeFamily lo hi rs) : SlopeBounds lo hi rs := by cases h <;> assumption

theorem SlopeFamily.reach (h : SlopeFamily lo hi rs) {i j : Nat} (h1 : lo * i ≤ j) (h2 : (j : ℚ) ≤ hi * i) :
    Reach rs (fun _ _ => true) i j := by
  cases h with
  | half _ m11 m12 m21 =>
    have h1' : i ≤ 2 * j := by
      have : (i : ℚ) ≤ 2 * j := by linarith
      exact_mod_cast this
    have h2' : j ≤ 2 * i := by exact_mod_cast h2
    rcases Nat.le_total i j with hle | hle
    · exact reach_two (x := 2 * i - j) (y := j - i) m11 m12 (by omega) (by omega)
    · exact reach_two (x := 2 * j - i) (y := i - j) m11 m21 (by omega) (by omega)
  | third _ m11 m12 m21 m13 m31 =>
    have h1' : i ≤ 3 * j := by
      have : (i : ℚ) ≤ 3 * j := by linarith
      exact_mod_cast this
    have h2' : j ≤ 3 * i := by exact_mod_cast h2
    rcases Nat.le_total i j with hle | hle
    · rcases Nat.le_total j (2 * i) with hle2 | hle2
      · exact reach_two (x := 2 * i - j) (y := j - i) m11 m12 (by omega) (by omega)
      · exact reach_two (x := 3 * i - j) (y := j - 2 * i) m12 m13 (by omega) (by omega)
    · rcases Nat.le_total i (2 * j) with hle2 | hle2
      · exact reach_two (x := 2 * j - i) (y := i - j) m11 m21 (by omega) (by omega)
      · exact reach_two (x := 3 * j - i) (y := i - 2 * j) m21 m31 (by omega) (by omega)
  | twoThirds _ m11 m23 m32 =>
    have h1' : 2 * i ≤ 3 * j := by
      have : 2 * (i : ℚ) ≤ 3 * j := by linarith
      exact_mod_cast this
    have h2' : 2 * j ≤ 3 * i := by
      have : 2 * (j : ℚ) ≤ 3 * i := by linarith
      exact_mod_cast this
    rcases Nat.le_total i j with hle | hle
    · exact reach_two (x := 3 * i - 2 * j) (y := j - i) m11 m23 (by omega) (by omega)
    · exact reach_two (x := 3 * j - 2 * i) (y := i - j) m11 m32 (by omega) (by omega)
  | one _ m11 =>
    have h1' : i ≤ j := by
      have : (i : ℚ) ≤ j := by linarith
      exact_mod_cast this
    have h2' : j ≤ i := by
      have : (j : ℚ) ≤ i := by linarith
      exact_mod_cast this
    exact reach_two (x := i) (y := 0) m11 m11 (by omega) (by omega)
  | flat _ m10 m11 m12 =>
    have h2' : j ≤ 2 * i := by exact_mod_cast h2
    rcases Nat.le_total i j with hle | hle
    · exact reach_two (x := 2 * i - j) (y := j - i) m11 m12 (by omega) (by omega)
    · exact reach_two (x := i - j) (y := j) m10 m11 (by omega) (by omega)

/-- C51.  Without window and with finite costs (exact arithmetic), a closed alignment exists exactly when the overall
slope `(M-1)/(N-1)` is within the bounds of the pattern. -/
theorem C51_exists_iff {ℓ : Nat → Nat → ℚ} (hs : SlopeFamily lo hi rs)
    (h : Problem a n m (fun i j => fin (ℓ i j)) (fun _ _ => true) p rs)
    (hob : a.openBegin = false) (hoe : a.openEnd = false) :
    (∃ r, dtw Arith.exact a = .ok r) ↔
      lo * ((n : ℚ) - 1) ≤ (m : ℚ) - 1 ∧ (m : ℚ) - 1 ≤ hi * ((n : ℚ) - 1) := by
  have hn := h.n_pos
  have hm := h.m_pos
  constructor
  · rintro ⟨r, hr⟩
    by_contra hc
    have hout : ((m : ℚ) - 1) < lo * ((n : ℚ) - 1) ∨ hi * ((n : ℚ) - 1) < (m : ℚ) - 1 := by
      by_contra hno
      rw [not_or, not_lt, not_lt] at hno
      exact hc hno
    rw [C51_out_of_bounds_raises hs.bounds h hob hoe hout] at hr
    simp at hr
  · rintro ⟨h1, h2⟩
    rw [exact_success_iff h hob hoe]
    exact hs.reach (by rw [Nat.cast_sub hn, Nat.cast_sub hm]; simpa using h1)
      (by rw [Nat.cast_sub hn, Nat.cast_sub hm]; simpa using h2)

/-- C51.  The slope ranges of the bundled patterns.  Sakoe-Chiba's `P = 1/2, 1, 2` give `P/(P+1) .. (P+1)/P`. -/
theorem C51_bundled : ∀ q ∈ Pat.table,
    (q.1 ∈ ["symmetricP05", "asymmetricP05", "typeIVc"] → SlopeFamily (1 / 3) 3 (rulesOf q.2)) ∧
    (q.1 ∈ ["symmetricP1", "asymmetricP1", "typeIa", "typeIb", "typeIc", "typeId", "typeIas", "typeIbs", "typeIcs",
        "typeIds", "typeIIa", "typeIIb", "typeIIc", "typeIId", "typeIIIc", "mori2006", "_asymmetricItakura"] →
      SlopeFamily (1 / 2) 2 (rulesOf q.2)) ∧
    (q.1 ∈ ["symmetricP2", "asymmetricP2"] → SlopeFamily (2 / 3) (3 / 2) (rulesOf q.2)) ∧
    (q.1 = "rigid" → SlopeFamily 1 1 (rulesOf q.2)) ∧
    (q.1 = "asymmetric" → SlopeFamily 0 2 (rulesOf q.2)) := by
  have key : (Pat.table.all fun q =>
      (!decide (q.1 ∈ ["symmetricP05", "asymmetricP05", "typeIVc"]) ||
        decide (SlopeBounds (1 / 3) 3 (rulesOf q.2) ∧ HasMove (rulesOf q.2) 1 1 ∧ HasMove (rulesOf q.2) 1 2 ∧
          HasMove (rulesOf q.2) 2 1 ∧ HasMove (rulesOf q.2) 1 3 ∧ HasMove (rulesOf q.2) 3 1)) &&
      (!decide (q.1 ∈ ["symmetricP1", "asymmetricP1", "typeIa", "typeIb", "typeIc", "typeId", "typeIas", "typeIbs", "typeIcs",
        "typeIds", "typeIIa", "typeIIb", "typeIIc", "typeIId", "typeIIIc", "mori2006", "_asymmetricItakura"]) ||
        decide (SlopeBounds (1 / 2) 2 (rulesOf q.2) ∧ HasMove (rulesOf q.2) 1 1 ∧ HasMove (rulesOf q.2) 1 2 ∧
          HasMove (rulesOf q.2) 2 1)) &&
      (!decide (q.1 ∈ ["symmetricP2", "asymmetricP2"]) ||
        decide (SlopeBounds (2 / 3) (3 / 2) (rulesOf q.2) ∧ HasMove (rulesOf q.2) 1 1 ∧ HasMove (rulesOf q.2) 2 3 ∧
          HasMove (rulesOf q.2) 3 2)) &&
      (!decide (q.1 = "rigid") || decide (SlopeBounds 1 1 (rulesOf q.2) ∧ HasMove (rulesOf q.2) 1 1)) &&
      (!decide (q.1 = "asymmetric") || decide (SlopeBounds 0 2 (rulesOf q.2) ∧ HasMove (rulesOf q.2) 1 0 ∧
        HasMove (rulesOf q.2) 1 1 ∧ HasMove (rulesOf q.2) 1 2))) = true := by decide +kernel
  intro q hq
  have := List.all_eq_true.1 key q hq
  simp only [Bool.and_eq_true, Bool.or_eq_true, Bool.not_eq_true', decide_eq_false_iff_not, decide_eq_true_eq] at this
  obtain ⟨⟨⟨⟨h1, h2⟩, h3⟩, h4⟩, h5⟩ := this
  refine ⟨fun h => ?_, fun h => ?_, fun h => ?_, fun h => ?_, fun h => ?_⟩
  · obtain ⟨a1, a2, a3, a4, a5, a6⟩ := h1.resolve_left (fun hc => hc h); exact .third a1 a2 a3 a4 a5 a6
  · obtain ⟨a1, a2, a3, a4⟩ := h2.resolve_left (fun hc => hc h); exact .half a1 a2 a3 a4
  · obtain ⟨a1, a2, a3, a4⟩ := h3.resolve_left (fun hc => hc h); exact .twoThirds a1 a2 a3 a4
  · obtain ⟨a1, a2⟩ := h4.resolve_left (fun hc => hc h); exact .one a1 a2
  · obtain ⟨a1, a2, a3, a4⟩ := h5.resolve_left (fun hc => hc h); exact .flat a1 a2 a3 a4

/-- C51: all the other bundled patterns (`symmetric1`, `symmetric2`, `symmetricP0`, `asymmetricP0`,
`_asymmetricP0b`, `_symmetricVelichkoZagoruyko`) may move along either axis alone. -/
theorem C51_bundled_rest : ∀ q ∈ Pat.table,
    q.1 ∈ ["symmetricP05", "asymmetricP05", "typeIVc", "symmetricP1", "asymmetricP1", "typeIa", "typeIb", "typeIc",
      "typeId", "typeIas", "typeIbs", "typeIcs", "typeIds", "typeIIa", "typeIIb", "typeIIc", "typeIId", "typeIIIc",
      "mori2006", "_asymmetricItakura", "symmetricP2", "asymmetricP2", "rigid", "asymmetric"] ∨
    (HasMove (rulesOf q.2) 1 0 ∧ HasMove (rulesOf q.2) 0 1) := by
  have key : (Pat.table.all fun q => decide (
    q.1 ∈ ["symmetricP05", "asymmetricP05", "typeIVc", "symmetricP1", "asymmetricP1", "typeIa", "typeIb", "typeIc",
      "typeId", "typeIas", "typeIbs", "typeIcs", "typeIds", "typeIIa", "typeIIb", "typeIIc", "typeIId", "typeIIIc",
      "mori2006", "_asymmetricItakura", "symmetricP2", "asymmetricP2", "rigid", "asymmetric"] ∨
    (HasMove (rulesOf q.2) 1 0 ∧ HasMove (rulesOf q.2) 0 1))) = true := by decide +kernel
  intro q hq
  exact of_decide_eq_true (List.all_eq_true.1 key q hq)

/-- C51: and with those an alignment of finite costs always exists, whatever the lengths. -/
theorem C51_unrestricted_exists {ℓ : Nat → Nat → ℚ} (h10 : HasMove rs 1 0) (h01 : HasMove rs 0 1)
    (h : Problem a n m (fun i j => fin (ℓ i j)) (fun _ _ => true) p rs)
    (hob : a.openBegin = false) (hoe : a.openEnd = false) : ∃ r, dtw Arith.exact a = .ok r := by
  rw [exact_success_iff h hob hoe]
  exact reach_two (x := n - 1) (y := m - 1) h10 h01 (by omega) (by omega)

/-- C51: minimum variance matching with elasticity `e` admits slopes 1 to `e`. -/
theorem C51_mvm (e : Nat) : SlopeBounds 1 e (mvmRules e) := by
  intro r hr
  simp only [mvmRules, List.mem_map, List.mem_range] at hr
  obtain ⟨k, hk, rfl⟩ := hr
  constructor
  · push_cast; linarith [show (0 : ℚ) ≤ k from Nat.cast_nonneg k]
  · have : ((k + 1 : Nat) : ℚ) ≤ e := by exact_mod_cast hk
    simpa using this

/-- C51: and an alignment with elasticity `e ≥ 1` exists exactly when `N - 1 ≤ M - 1 ≤ e (N - 1)`. -/
theorem C51_mvm_exists_iff {e : Nat} {ℓ : Nat → Nat → ℚ}
    (h : Problem a n m (fun i j => fin (ℓ i j)) (fun _ _ => true) (mvmStepPattern e) (mvmRules e))
    (hob : a.openBegin = false) (hoe : a.openEnd = false) :
    (∃ r, dtw Arith.exact a = .ok r) ↔ n - 1 ≤ m - 1 ∧ m - 1 ≤ e * (n - 1) := by
  have hn := h.n_pos
  have hm := h.m_pos
  rw [exact_success_iff h hob hoe]
  constructor
  · rintro ⟨ks, hp⟩
    have key : ∀ {ks i j}, RulePath (mvmRules e) (fun _ _ => true) ks i j → i ≤ j ∧ j ≤ e * i := by
      intro ks i j hp
      induction hp with
      | start => simp
      | @step ks i j k q _ hq _ ih =>
        have hq' := List.mem_of_getElem? hq
        simp only [mvmRules, List.mem_map, List.mem_range] at hq'
        obtain ⟨k', hk', rfl⟩ := hq'
        simp only [Nat.mul_add, Nat.mul_one]
        omega
    exact key hp
  · rintro ⟨h1, h2⟩
    have move : ∀ b, 1 ≤ b → b ≤ e → HasMove (mvmRules e) 1 b := by
      intro b hb1 hb2
      exact ⟨⟨1, b, [⟨0, 0, 1⟩]⟩, List.mem_map.2 ⟨b - 1, List.mem_range.2 (by omega), by
        simp only [Rule.mk.injEq, and_true, true_and]; omega⟩, rfl, rfl⟩
    generalize n - 1 = i at h1 h2
    generalize m - 1 = j at h1 h2
    rcases Nat.eq_zero_or_pos i with rfl | hi
    · have : j = 0 := by omega
      subst this; exact Reach.start
    · -- j = i*q + s: s steps of q+1 and i - s of q
      have hdm := Nat.div_add_mod j i
      have hmod := Nat.mod_lt j hi
      have hq1 : 1 ≤ j / i := (Nat.le_div_iff_mul_le hi).2 (by omega)
      have hqe : j / i ≤ e := by
        have : j / i ≤ (e * i) / i := Nat.div_le_div_right h2
        rwa [Nat.mul_div_cancel _ hi] at this
      rcases Nat.eq_zero_or_pos (j % i) with h0 | h0
      · refine reach_two (x := i) (y := 0) (move (j / i) hq1 hqe) (move (j / i) hq1 hqe) (by omega) ?_
        rw [h0] at hdm; omega
      · have hlt : j / i + 1 ≤ e := by
          by_contra hc
          have : j / i = e := by omega
          rw [this] at hdm
          rw [Nat.mul_comm] at hdm; omega
        refine reach_two (x := i - j % i) (y := j % i) (move (j / i) hq1 hqe) (move (j / i + 1) (by omega) hlt)
          (by omega) ?_
        have e1 : (i - j % i) * (j / i) + j % i * (j / i + 1) = i * (j / i) + j % i := by
          rw [Nat.sub_mul, Nat.mul_add, Nat.mul_one]
          have : j % i * (j / i) ≤ i * (j / i) := Nat.mul_le_mul_right _ (by omega)
          omega
        omega

/-! ### Non-vacuity -/

example : Problem Ex.band 3 4 Ex.L Ex.bandW Pat.asymmetric (rulesOf Pat.asymmetric) ∧
    SlopeFamily 0 2 (rulesOf Pat.asymmetric) ∧ (dtw Arith.exact Ex.band).toOption.isSome = true := by
  refine ⟨Ex.band_problem, ?_, Ex.band_ok⟩
  exact (C51_bundled ("asymmetric", Pat.asymmetric) (by decide +kernel)).2.2.2.2 rfl

/-- Both outcomes happen: with symmetricP1 a 3 × 5 matrix can be aligned, a 3 × 6 matrix cannot. -/
example : ((dtw Arith.exact { x := .d2 (Mat.ofFn 3 5 fun _ _ => fin 1), stepPattern := .name "symmetricP1" }
      ).toOption.map (·.distance)) = some (fin 7) ∧
    (dtw Arith.exact { x := .d2 (Mat.ofFn 3 6 fun _ _ => fin 1), stepPattern := .name "symmetricP1" }
      ).toOption.isSome = false := by decide +kernel

end DTW
