import Verif.Props.Contraction
import Verif.Props.AnyEnds
import Verif.Props.Search

/-!
# C97: one occurrence after another

All the occurrences of a query in a long reference are found by searching (`open_begin`), forbidding the reference elements found
(`cost[:, index2] = np.inf`, or NaN) and searching again, until the call raises.
-/

namespace DTW
open F64

variable {A : Arith} {rs : List Rule} {p : StepPattern} {a a' : Args} {n m k : Nat} {ℓ : Nat → Nat → ℚ} {v : F64} {W : Nat → Nat → Bool}
  {r r' : Result} {mp : Mapping}

/-- The local costs after the reference elements `used` have been forbidden: `v` is written in their columns. -/
def masked (ℓ : Nat → Nat → ℚ) (v : F64) (used : List Int) (i j : Nat) : F64 := if (j : Int) ∈ used then v else fin (ℓ i j)

/-- The reference elements found in the first `s` searches. -/
def usedBefore (mp : Nat → Mapping) (s : Nat) : List Int := (List.range s).flatMap fun t => (mp t).index2

/-- `k` successful searches for the same query (same step pattern, same window, `open_begin`), each in the reference without the elements
found before; `v` is the value written (`np.inf` or NaN). -/
structure Searches (A : Arith) (rs : List Rule) (p : StepPattern) (n m : Nat) (W : Nat → Nat → Bool) (ℓ : Nat → Nat → ℚ) (v : F64)
    (openEnd : Bool) (k : Nat) (a : Nat → Args) (r : Nat → Result) (mp : Nat → Mapping) : Prop where
  problem : ∀ s < k, Problem (a s) n m (masked ℓ v (usedBefore mp s)) W p rs
  begins : ∀ s < k, (a s).openBegin = true ∧ (a s).openEnd = openEnd
  run : ∀ s < k, dtw A (a s) = .ok (r s)
  mapping : ∀ s < k, (r s).mapping = some (mp s)

theorem mem_usedBefore {mp : Nat → Mapping} {s : Nat} {x : Int} : x ∈ usedBefore mp s ↔ ∃ t < s, x ∈ (mp t).index2 := by
  simp [usedBefore]

theorem masked_dearer (hw : NonnegWeights A rs) (hv : v = nan ∨ v = pinf) {used used' : List Int} (hu : ∀ x ∈ used, x ∈ used') (i j : Nat) :
    Dearer A rs (masked ℓ v used i j) (masked ℓ v used' i j) := by
  unfold masked
  by_cases h1 : (j : Int) ∈ used
  · rw [if_pos h1, if_pos (hu _ h1)]; exact .inl rfl
  · rw [if_neg h1]
    by_cases h2 : (j : Int) ∈ used'
    · rw [if_pos h2]
      rcases hv with rfl | rfl
      · exact .inr (.inl rfl)
      · exact .inr (.inr ⟨hw, _, rfl, by simp [F64.le, F64.lt]⟩)
    · rw [if_neg h2]; exact .inl rfl

/-- **C97** The more elements are forbidden, the worse what is found: if the search that forbids more finds something (of a finite
normalized distance), so does the one that forbids less, and nothing worse.  Any arithmetic. -/
theorem C97_compare {used used' : List Int} (h : Problem a n m (masked ℓ v used) W p rs) (h' : Problem a' n m (masked ℓ v used') W p rs)
    (hw : NonnegWeights A rs) (hv : v = nan ∨ v = pinf) (hu : ∀ x ∈ used, x ∈ used') (hob : a.openBegin = true) (hob' : a'.openBegin = true)
    (hoe : a.openEnd = a'.openEnd) (hr' : dtw A a' = .ok r') :
    (∀ r, dtw A a = .ok r → F64.le r.normalizedDistance r'.normalizedDistance ∧ (a.openEnd = false → F64.le r.distance r'.distance)) ∧
    (a.distanceOnly = false → usable r'.normalizedDistance → ∃ r, dtw A a = .ok r) := by
  have hn := h.n_pos
  have hh : p.hint = "N" := by
    by_contra hc
    rw [open_bad_hint h' hob' hc] at hr'
    cases hr'
  obtain ⟨G, D, qr, hB, _, hd⟩ := dtw_open A h hob hh
  obtain ⟨G', D', qr', hB', _, hd'⟩ := dtw_open A h' hob' hh
  obtain ⟨j', j0', ks', hrun'⟩ := open_ok h' hob' hB' hd' hr'
  have hdear : ∀ i < n + 1, ∀ j < m, Dearer A rs (nullRow (masked ℓ v used) i j) (nullRow (masked ℓ v used') i j) := by
    intro i _ j _
    unfold nullRow
    split
    · exact .inl rfl
    · exact masked_dearer hw hv hu _ _
  have hdom : ∀ j < m, G' (n + 1 - 1) j ≠ nan → F64.le (G (n + 1 - 1) j) (G' (n + 1 - 1) j) := fun j hj hne =>
    hB.dearer h.wf.valid (fun _ _ _ _ hW => hW) hdear hB' (by omega) hj hne
  have hlt' := hrun'.endAt.lt
  have hle' := hdom j' hlt' hrun'.endAt.ne_nan
  refine ⟨fun r hr => ?_, fun hdo hfin => ?_⟩
  · obtain ⟨j, j0, ks, hrun⟩ := open_ok h hob hB hd hr
    have := endsNoWorse hn hoe.symm hrun'.endAt hrun.endAt hrun'.result hrun.result hdom
    rw [hoe]
    exact ⟨this.2 (by rw [hh]; decide), this.1⟩
  · have hnd : r'.normalizedDistance = normBy A p.hint n j' (G' n j') := by
      rw [hrun'.result]
      simp [mkResult, hh]
    cases hc : a.openEnd with
    | false =>
      have e := hrun'.endAt.closed (by rw [← hoe]; exact hc)
      rcases open_closed h hob hc hB hd with ⟨h1, _⟩ | ⟨_, h1⟩
      · rw [e] at hle'
        exact absurd h1 hle'.1
      · rw [hdo] at h1
        exact h1
    | true =>
      have hle := normBy_mono A p.hint (j := j') hn hle'
      have hu : usable (normBy A p.hint n j' (G (n + 1 - 1) j')) := by
        refine usable_of_le hle ?_
        rw [hnd] at hfin
        exact hfin
      obtain ⟨k, hk, hkn, hpe⟩ := pickEnd_open_ok (a := a) (G := G) (q := n + 1) (Nat.succ_pos n) hc (by rw [hh]; decide) hlt' hu
      exact open_succeeds h hob hdo hB hd hk hkn hpe

variable {oe : Bool} {as : Nat → Args} {res : Nat → Result} {mps : Nat → Mapping}

/-- **C97** The occurrences come in the order of their normalized distances, the best first. -/
theorem C97_order (h : Searches A rs p n m W ℓ v oe k as res mps) (hw : NonnegWeights A rs) (hv : v = nan ∨ v = pinf)
    {s t : Nat} (hst : s ≤ t) (ht : t < k) :
    F64.le (res s).normalizedDistance (res t).normalizedDistance ∧ (oe = false → F64.le (res s).distance (res t).distance) := by
  have := (C97_compare (h.problem s (by omega)) (h.problem t ht) hw hv
    (fun x hx => by
      obtain ⟨u, hu, hx⟩ := mem_usedBefore.1 hx
      exact mem_usedBefore.2 ⟨u, by omega, hx⟩)
    (h.begins s (by omega)).1 (h.begins t ht).1 ((h.begins s (by omega)).2.trans (h.begins t ht).2.symm) (h.run t ht)).1 _ (h.run s (by omega))
  rw [(h.begins s (by omega)).2] at this
  exact this

/-- **C97** No reference element is found twice. -/
theorem C97_disjoint (h : Searches A rs p n m W ℓ v oe k as res mps) (hw : ∀ q ∈ rs, ∀ t ∈ q.terms, 0 ≤ t.w) (hv : v = nan ∨ v = pinf)
    (ha : ∀ q ∈ rs, ∃ t ∈ q.terms, t.di = 0 ∧ t.dj = 0) (hs : ∀ q ∈ rs, ∀ t ∈ q.terms, 0 < q.a → t.di < q.a)
    {s t : Nat} (hst : s < t) (ht : t < k) : ∀ x ∈ (mps s).index2, x ∉ (mps t).index2 := by
  intro x hxs hxt
  have hP := h.problem t ht
  have hob := (h.begins t ht).1
  have hlen := (C05_open_begin hP hob (h.run t ht) (h.mapping t ht)).1
  obtain ⟨-, -, -, h2, h1⟩ := C05_open_begin_in_range hP hob (h.run t ht) (h.mapping t ht)
  obtain ⟨u, hu⟩ := List.getElem?_of_mem hxt
  have hul := (List.getElem?_eq_some_iff.1 hu).1
  obtain ⟨y, hy⟩ : ∃ y, (mps t).index1[u]? = some y := ⟨_, List.getElem?_eq_getElem (by omega)⟩
  have hz : (y, x) ∈ (mps t).index1.zip (mps t).index2 := List.mem_of_getElem? (i := u) (by rw [List.getElem?_zip_eq_some]; exact ⟨hy, hu⟩)
  have hy0 := h1 hs y (List.mem_of_getElem? hy)
  have hx0 := (h2 x hxt).1
  rcases C58_path_avoids hP ha (h.run t ht) (h.mapping t ht) _ hz hy0 with hF | ⟨-, -, -, -, hd⟩
  · apply hF
    have : masked ℓ v (usedBefore mps t) y.toNat x.toNat = v := by
      unfold masked
      rw [if_pos]
      rw [Int.toNat_of_nonneg hx0]
      exact mem_usedBefore.2 ⟨s, hst, hxs⟩
    simp only [this]
    rcases hv with rfl | rfl
    · exact .inl rfl
    · exact .inr ⟨rfl, hw⟩
  · rcases C58_distance_usable hP (h.run t ht) with hus | ⟨hc, -⟩
    · rw [hd] at hus; simp [usable] at hus
    · rw [hob] at hc; cases hc

/-- **C97** The occurrences fit into the reference: the numbers of elements they match sum to at most its length. -/
theorem C97_room (h : Searches A rs p n m W ℓ v oe k as res mps) (hw : ∀ q ∈ rs, ∀ t ∈ q.terms, 0 ≤ t.w) (hv : v = nan ∨ v = pinf)
    (ha : ∀ q ∈ rs, ∃ t ∈ q.terms, t.di = 0 ∧ t.dj = 0) (hs : ∀ q ∈ rs, ∀ t ∈ q.terms, 0 < q.a → t.di < q.a) :
    ∑ s ∈ Finset.range k, (mps s).index2.toFinset.card ≤ m := by
  rw [← Finset.card_biUnion]
  · have hsub : (Finset.range k).biUnion (fun s => (mps s).index2.toFinset) ⊆ (Finset.range m).image (fun x : Nat => (x : Int)) := by
      intro x hx
      obtain ⟨s, hsk, hx⟩ := Finset.mem_biUnion.1 hx
      have hsk := Finset.mem_range.1 hsk
      obtain ⟨-, -, -, h2, -⟩ := C05_open_begin_in_range (h.problem s hsk) (h.begins s hsk).1 (h.run s hsk) (h.mapping s hsk)
      have := h2 x (List.mem_toFinset.1 hx)
      exact Finset.mem_image.2 ⟨x.toNat, Finset.mem_range.2 (by omega), by omega⟩
    have := Finset.card_le_card hsub
    exact this.trans (Finset.card_image_le.trans (by rw [Finset.card_range]))
  · intro s hs' t ht' hne
    have hs' := Finset.mem_range.1 hs'
    have ht' := Finset.mem_range.1 ht'
    rw [Function.onFun, Finset.disjoint_left]
    intro x hx1 hx2
    rw [List.mem_toFinset] at hx1 hx2
    rcases Nat.lt_or_gt_of_ne hne with hlt | hgt
    · exact C97_disjoint h hw hv ha hs hlt ht' x hx1 hx2
    · exact C97_disjoint h hw hv ha hs hgt hs' x hx2 hx1

/-- **C97** So the loop ends: at most `m` searches succeed. -/
theorem C97_terminates (h : Searches A rs p n m W ℓ v oe k as res mps) (hw : ∀ q ∈ rs, ∀ t ∈ q.terms, 0 ≤ t.w) (hv : v = nan ∨ v = pinf)
    (ha : ∀ q ∈ rs, ∃ t ∈ q.terms, t.di = 0 ∧ t.dj = 0) (hs : ∀ q ∈ rs, ∀ t ∈ q.terms, 0 < q.a → t.di < q.a) : k ≤ m := by
  refine _root_.le_trans ?_ (C97_room h hw hv ha hs)
  have : ∀ s ∈ Finset.range k, 1 ≤ (mps s).index2.toFinset.card := by
    intro s hsk
    have hsk := Finset.mem_range.1 hsk
    obtain ⟨mp', j, j0, hmp, -, -, -, -, -, -, -, hl, -⟩ := C22_open_begin_indices (h.problem s hsk) (h.begins s hsk).1 (h.run s hsk)
    rw [h.mapping s hsk] at hmp
    obtain rfl := Option.some.inj hmp
    exact Finset.card_pos.2 ⟨j, List.mem_toFinset.2 (List.mem_of_getLast? hl)⟩
  have := Finset.card_nsmul_le_sum _ _ 1 this
  simpa using this

/-- **C97** With `rigid` and `mvmStepPattern` every occurrence takes `n` reference elements of its own: at most `m / n` are found. -/
theorem C97_room_rigid (h : Searches A rs p n m W ℓ v oe k as res mps) (hv : v = nan ∨ v = pinf)
    (h1 : ∀ q ∈ rs, q.OnePer ∧ 0 < q.b ∧ q.terms = [⟨0, 0, 1⟩]) : k * n ≤ m := by
  have hw : ∀ q ∈ rs, ∀ t ∈ q.terms, 0 ≤ t.w := by
    intro q hq t ht
    rw [(h1 q hq).2.2, List.mem_singleton] at ht
    rw [ht]; norm_num
  have ha : ∀ q ∈ rs, ∃ t ∈ q.terms, t.di = 0 ∧ t.dj = 0 := fun q hq => by rw [(h1 q hq).2.2]; exact ⟨_, List.mem_singleton.2 rfl, rfl, rfl⟩
  have hs : ∀ q ∈ rs, ∀ t ∈ q.terms, 0 < q.a → t.di < q.a := by
    intro q hq t ht hpos
    rw [(h1 q hq).2.2, List.mem_singleton] at ht
    rw [ht]; exact hpos
  refine _root_.le_trans ?_ (C97_room h hw hv ha hs)
  have : ∀ s ∈ Finset.range k, n ≤ (mps s).index2.toFinset.card := by
    intro s hsk
    have hsk := Finset.mem_range.1 hsk
    have hlen := (C05_open_begin (h.problem s hsk) (h.begins s hsk).1 (h.run s hsk) (h.mapping s hsk)).1
    obtain ⟨e1, e2⟩ := C27_C43_open_begin (fun x => 0 < x) (h.problem s hsk) (h.begins s hsk).1 (fun q hq => (h1 q hq).1)
      (fun q hq => by exact_mod_cast (h1 q hq).2.1) (h.run s hsk) (h.mapping s hsk)
    have hp : (mps s).index2.Pairwise (· < ·) := by
      refine List.isChain_iff_pairwise.1 (e2.imp ?_)
      intro x y hxy
      omega
    rw [List.toFinset_card_of_nodup (hp.imp fun hlt => _root_.ne_of_lt hlt), ← hlen, e1]
    simp
  have := Finset.card_nsmul_le_sum _ _ n this
  simpa using this

theorem fnSum_masked {used : List Int} {f : Nat → Nat} (hv : v = nan ∨ v = pinf) :
    ((∀ i < n, ((f i : Nat) : Int) ∉ used) ∧ fnSum Arith.exact (masked ℓ v used) n f = fin (fnCost ℓ n f)) ∨
    ((∃ i < n, ((f i : Nat) : Int) ∈ used) ∧
      (fnSum Arith.exact (masked ℓ v used) n f = nan ∨ fnSum Arith.exact (masked ℓ v used) n f = pinf)) := by
  induction n with
  | zero => exact .inl ⟨by omega, by simp [fnSum, fnCost]⟩
  | succ n ih =>
    rw [fnSum_succ, fnCost_succ]
    have e1 : Arith.exact.rnd 1 = fin 1 := rfl
    rw [e1]
    by_cases hu : ((f n : Nat) : Int) ∈ used
    · right
      refine ⟨⟨n, by omega, hu⟩, ?_⟩
      have : masked ℓ v used n (f n) = v := if_pos hu
      rw [this]
      rcases hv with rfl | rfl
      · exact .inl (mac_nan_cost _ _)
      · rcases ih with ⟨-, h⟩ | ⟨-, h | h⟩ <;> rw [h]
        · right; simp [Arith.mac, Arith.exact, Arith.mul, Arith.mulWith, Arith.add, infTimes]
        · left; simp [Arith.mac, Arith.exact, Arith.mul, Arith.mulWith, Arith.add, infTimes]
        · right; simp [Arith.mac, Arith.exact, Arith.mul, Arith.mulWith, Arith.add, infTimes]
    · have : masked ℓ v used n (f n) = fin (ℓ n (f n)) := if_neg hu
      rw [this]
      rcases ih with ⟨h1, h⟩ | ⟨⟨i, hi, h1⟩, h | h⟩ <;> rw [h]
      · left
        refine ⟨fun i hi => ?_, by simp [Arith.mac, Arith.exact, Arith.mul, Arith.mulWith, Arith.add]⟩
        rcases Nat.lt_succ_iff_lt_or_eq.1 hi with hi | rfl
        · exact h1 i hi
        · exact hu
      · right
        exact ⟨⟨i, by omega, h1⟩, .inl (by simp [Arith.mac, Arith.exact, Arith.mul, Arith.mulWith, Arith.add])⟩
      · right
        exact ⟨⟨i, by omega, h1⟩, .inr (by simp [Arith.mac, Arith.exact, Arith.mul, Arith.mulWith, Arith.add])⟩

/-- **C97** Each search returns the best of the placements left (`asymmetric`, `rigid`, `mvmStepPattern`; exact arithmetic; both ends open):
those that match no element found before. -/
theorem C97_best_left {jump : Nat → Nat → Prop} (hF : FnRules rs jump) {used : List Int}
    (h : Problem a n m (masked ℓ v used) W p rs) (hv : v = nan ∨ v = pinf) (hob : a.openBegin = true) (hoe : a.openEnd = true)
    (hr : dtw Arith.exact a = .ok r) :
    (∃ f, IsPlacement jump W false n m f ∧ (∀ i < n, ((f i : Nat) : Int) ∉ used) ∧ r.jmin = f (n - 1) ∧ r.distance = fin (fnCost ℓ n f)) ∧
    ∀ g, IsPlacement jump W false n m g → (∀ i < n, ((g i : Nat) : Int) ∉ used) → F64.le r.distance (fin (fnCost ℓ n g)) := by
  have hn := h.n_pos
  obtain ⟨⟨f, hf, hj, hd⟩, -, hopt⟩ := C59_any_arithmetic hF h hob hr
  rw [hoe] at hf
  have hus : usable r.distance := by
    rcases C58_distance_usable h hr with hus | ⟨hc, -⟩
    · exact hus
    · rw [hob] at hc; cases hc
  have hfin : (∀ i < n, ((f i : Nat) : Int) ∉ used) ∧ r.distance = fin (fnCost ℓ n f) := by
    rcases fnSum_masked (n := n) (ℓ := ℓ) (used := used) (f := f) hv with ⟨h1, h2⟩ | ⟨-, h2 | h2⟩
    · exact ⟨h1, hd.trans h2⟩
    · rw [hd, h2] at hus; simp [usable] at hus
    · rw [hd, h2] at hus; simp [usable] at hus
  refine ⟨⟨f, hf, hfin.1, hj, hfin.2⟩, fun g hg hgu => ?_⟩
  rcases fnSum_masked (n := n) (ℓ := ℓ) (used := used) (f := g) hv with ⟨-, h2⟩ | ⟨⟨i, hi, h1⟩, -⟩
  · have h3 := hopt hoe g hg (by rw [h2]; simp)
    rw [(C22_open_both_optimal h hob hoe hr).1, h2, hfin.2] at h3
    have hn' : (0 : ℚ) < n := by exact_mod_cast hn
    rw [divQ_fin hn', divQ_fin hn'] at h3
    rw [hfin.2, F64.le_fin]
    have h4 := (F64.le_fin _ _).1 h3
    exact (div_le_div_iff_of_pos_right hn').1 h4
  · exact absurd h1 (hgu i hi)

/-- **C97** When the loop stops nothing is left: a search raises exactly when every placement of the query matches an element found before. -/
theorem C97_complete {jump : Nat → Nat → Prop} (hF : FnRules rs jump) {used : List Int}
    (h : Problem a n m (masked ℓ v used) W p rs) (hv : v = nan ∨ v = pinf) (hob : a.openBegin = true) (hdo : a.distanceOnly = false)
    (hh : p.hint = "N") :
    (∃ r, dtw Arith.exact a = .ok r) ↔ ∃ f, IsPlacement jump W (!a.openEnd) n m f ∧ ∀ i < n, ((f i : Nat) : Int) ∉ used := by
  rw [C59_any_arithmetic_succeeds_iff exact_idempotent hF h hob hdo hh]
  refine exists_congr fun f => and_congr_right fun _ => ?_
  rcases fnSum_masked (n := n) (ℓ := ℓ) (used := used) (f := f) hv with ⟨h1, h2⟩ | ⟨⟨i, hi, h1⟩, h2⟩
  · rw [h2]
    exact ⟨fun _ => h1, fun _ => by simp [usable, F64.lt]⟩
  · refine ⟨fun hc => ?_, fun hc => absurd h1 (hc i hi)⟩
    rcases h2 with h2 | h2 <;> rw [h2] at hc <;> simp [usable] at hc

/-- **C97** The bundled patterns that accept `open_begin` and have no negative weight satisfy all the premises; so do those of
`mvmStepPattern`, and `rigid` and `mvmStepPattern` those of `C97_room_rigid`. -/
theorem C97_bundled :
    (∀ q ∈ Pat.table, q.2.hint = "N" → q.1 ≠ "_asymmetricP0b" → (∀ x ∈ rulesOf q.2, ∀ t ∈ x.terms, 0 ≤ t.w) ∧
      (∀ x ∈ rulesOf q.2, ∃ t ∈ x.terms, t.di = 0 ∧ t.dj = 0) ∧ ∀ x ∈ rulesOf q.2, ∀ t ∈ x.terms, 0 < x.a → t.di < x.a) ∧
    (∀ q ∈ rulesOf Pat.rigid, q.OnePer ∧ 0 < q.b ∧ q.terms = [⟨0, 0, 1⟩]) ∧
    ∀ e, ∀ q ∈ mvmRules e, q.OnePer ∧ 0 < q.b ∧ q.terms = [⟨0, 0, 1⟩] := by
  refine ⟨by decide +kernel, by unfold Rule.OnePer; decide +kernel, fun e q hq => ?_⟩
  obtain ⟨k, -, rfl⟩ := List.mem_map.1 hq
  exact ⟨⟨rfl, rfl⟩, by simp, rfl⟩

/-! ### Non-vacuity -/

/-- The query 1, 3 in the recording 5, 1, 3, 9, 1, 4, 0, 1, 3. -/
def Ex.occCost (i j : Nat) : ℚ := |([1, 3] : List ℚ).getD i 0 - ([5, 1, 3, 9, 1, 4, 0, 1, 3] : List ℚ).getD j 0|

def Ex.occCall (used : List Int) : Args :=
  { Ex.call 2 9 (masked Ex.occCost pinf used) "rigid" with openBegin := true, openEnd := true }

def Ex.occMap (s : Nat) : Mapping :=
  let j : Int := [1, 7, 4].getD s 0
  ⟨[0, 1], [j, j + 1], [0, 1], [j, j + 1], [1, 1]⟩

theorem Ex.occ_problem (used : List Int) : Problem (Ex.occCall used) 2 9 (masked Ex.occCost pinf used) (fun _ _ => true) Pat.rigid
    (rulesOf Pat.rigid) where
  n_pos := by decide
  m_pos := by decide
  cost := .matrix rfl rfl rfl rfl
  pattern := by
    have : canonPattern (.name "rigid") = .ok Pat.rigid := by decide +kernel
    exact this
  wf := table_wf ("rigid", Pat.rigid) (by decide +kernel)
  fits := table_fits (n := 3) (m := 9) (by decide) ("rigid", Pat.rigid) (by decide +kernel)
  window := .inl ⟨rfl, fun _ _ _ _ => rfl⟩

/-- Three searches succeed - the two copies, then 1, 4 - and the fourth raises; exactly, and in doubles. -/
theorem Ex.occ_searches {A : Arith} (hA : A = Arith.exact ∨ A = binary64 false) : ∃ r, Searches A (rulesOf Pat.rigid) Pat.rigid 2 9 (fun _ _ => true)
    Ex.occCost pinf true 3 (fun s => Ex.occCall (usedBefore Ex.occMap s)) r Ex.occMap := by
  have key : ∀ s < 3, ((dtw A (Ex.occCall (usedBefore Ex.occMap s))).toOption.bind (·.mapping)) = some (Ex.occMap s) := by
    rcases hA with rfl | rfl <;> decide +kernel
  have key' : ∀ s, ∃ r, s < 3 → dtw A (Ex.occCall (usedBefore Ex.occMap s)) = .ok r ∧ r.mapping = some (Ex.occMap s) := by
    intro s
    by_cases hs : s < 3
    · obtain ⟨r, h⟩ := Ex.get_mapping (key s hs)
      exact ⟨r, fun _ => h⟩
    · obtain ⟨r, -⟩ := Ex.get_mapping (key 0 (by decide))
      exact ⟨r, fun hc => absurd hc hs⟩
  choose r hr using key'
  exact ⟨r, fun s _ => Ex.occ_problem _, fun s _ => ⟨rfl, rfl⟩, fun s hs => (hr s hs).1, fun s hs => (hr s hs).2⟩

example : (dtw Arith.exact (Ex.occCall (usedBefore Ex.occMap 3))).toOption.isSome = false ∧
    (List.range 3).map (fun s => (dtw Arith.exact (Ex.occCall (usedBefore Ex.occMap s))).toOption.map (·.normalizedDistance)) =
      [some (fin 0), some (fin 0), some (fin (1 / 2))] := by decide +kernel

/-- Every placement that is left after three searches touches an element found: the recording is exhausted. -/
example : ¬ ∃ f, IsPlacement (fun j j' => j' = j + 1) (fun _ _ => true) false 2 9 f ∧
    ∀ i < 2, ((f i : Nat) : Int) ∉ usedBefore Ex.occMap 3 := by
  have h := C97_complete rigid_fnRules (Ex.occ_problem (usedBefore Ex.occMap 3)) (.inr rfl) rfl rfl rfl
  refine fun hc => ?_
  obtain ⟨r, hr⟩ := h.2 hc
  have : (dtw Arith.exact (Ex.occCall (usedBefore Ex.occMap 3))).toOption.isSome = false := by decide +kernel
  rw [hr] at this
  cases this

/-- The premises of `C97_compare`, `C97_order`, `C97_disjoint`, `C97_room_rigid` and `C97_best_left`. -/
example : ∃ r : Nat → Result, (∀ s t, s ≤ t → t < 3 → F64.le (r s).normalizedDistance (r t).normalizedDistance) ∧
    (∀ s t, s < t → t < 3 → ∀ x ∈ (Ex.occMap s).index2, x ∉ (Ex.occMap t).index2) ∧ 3 * 2 ≤ 9 := by
  obtain ⟨r, h⟩ := Ex.occ_searches (.inl rfl)
  have hw := C12_bundled_weights ("rigid", Pat.rigid) (by decide +kernel) (by decide)
  obtain ⟨h1, h2, h3⟩ := C97_bundled.1 ("rigid", Pat.rigid) (by decide +kernel) rfl (by decide)
  exact ⟨r, fun s t hst ht => (C97_order h hw (.inr rfl) hst ht).1, fun s t hst ht => C97_disjoint h h1 (.inr rfl) h2 h3 hst ht,
    C97_room_rigid h (.inr rfl) C97_bundled.2.1⟩

end DTW
