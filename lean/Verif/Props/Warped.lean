import Verif.Props.WarpDoubles
import Verif.Props.Pruning
import Verif.Props.Accuracy
import Verif.Props.Mean
import Verif.Props.Hold
import Mathlib.Algebra.Order.BigOperators.Group.List

/-!
# C89: what one gets by applying `warp`

`wq = warp(d, index_reference=False); query[wq]` is the documented way to warp the query onto the reference.  `warp` returns truncated
means of indices; that `(wq[k], k)` is nevertheless a pair the alignment matched, and how far `query[wq]` is from the reference, is the
subject here.
-/

namespace DTW
open F64

variable {A : Arith} {a : Args} {n m : Nat} {L : Nat → Nat → F64} {ℓ : Nat → Nat → ℚ} {W : Nat → Nat → Bool}
  {p : StepPattern} {rs : List Rule} {r : Result} {mp : Mapping}

/-! ### The truncated mean of a run of indices belongs to the run -/

/-- Consecutive points differ by 0 or 1 in each coordinate. -/
abbrev ByUnits (l : List (Int × Int)) : Prop :=
  l.IsChain fun u v => (v.1 = u.1 ∨ v.1 = u.1 + 1) ∧ (v.2 = u.2 ∨ v.2 = u.2 + 1)

/-- A curve of unit steps takes every ordinate between two of its points, without leaving their abscissae. -/
theorem ByUnits.between {l : List (Int × Int)} {u : Int × Int} (h : ByUnits (u :: l)) {v : Int × Int} (hv : v ∈ u :: l) :
    (u.1 ≤ v.1 ∧ u.2 ≤ v.2) ∧ ∀ x : Int, u.2 ≤ x → x ≤ v.2 → ∃ z ∈ u :: l, z.2 = x ∧ u.1 ≤ z.1 ∧ z.1 ≤ v.1 := by
  induction l generalizing u with
  | nil =>
    obtain rfl : v = u := by simpa using hv
    exact ⟨⟨_root_.le_refl _, _root_.le_refl _⟩, fun x h1 h2 => ⟨v, by simp, by omega, _root_.le_refl _, _root_.le_refl _⟩⟩
  | cons w l ih =>
    rcases List.mem_cons.1 hv with rfl | hv'
    · exact ⟨⟨_root_.le_refl _, _root_.le_refl _⟩, fun x h1 h2 => ⟨v, by simp, by omega, _root_.le_refl _, _root_.le_refl _⟩⟩
    · obtain ⟨hstep, hrest⟩ := List.isChain_cons_cons.1 h
      obtain ⟨⟨m1, m2⟩, hb⟩ := ih hrest hv'
      refine ⟨⟨by omega, by omega⟩, fun x h1 h2 => ?_⟩
      by_cases hx : x = u.2
      · exact ⟨u, by simp, hx.symm, _root_.le_refl _, by omega⟩
      · obtain ⟨z, hz, e, z1, z2⟩ := hb x (by omega) h2
        exact ⟨z, List.mem_cons_of_mem _ hz, e, by omega, z2⟩

/-- The points of a curve of unit steps above one abscissa have consecutive ordinates. -/
theorem ByUnits.run {l : List (Int × Int)} (h : ByUnits l) {k y1 y2 x : Int} (h1 : (k, y1) ∈ l) (h2 : (k, y2) ∈ l)
    (hx1 : y1 ≤ x) (hx2 : x ≤ y2) : (k, x) ∈ l := by
  obtain ⟨s, t, rfl⟩ := List.append_of_mem h1
  rcases List.mem_append.1 h2 with h3 | h3
  · obtain ⟨s', t', rfl⟩ := List.append_of_mem h3
    have hc : ByUnits ((k, y2) :: (t' ++ (k, y1) :: t)) := by
      have : s' ++ (k, y2) :: t' ++ (k, y1) :: t = s' ++ ((k, y2) :: (t' ++ (k, y1) :: t)) := by simp
      rw [ByUnits, this] at h
      exact (List.isChain_append.1 h).2.1
    have := (hc.between (v := (k, y1)) (by simp)).1.2
    simp only at this
    obtain rfl : x = y1 := by omega
    exact h1
  · have hc : ByUnits ((k, y1) :: t) := (List.isChain_append.1 h).2.1
    obtain ⟨z, hz, e, z1, z2⟩ := (hc.between h3).2 x hx1 hx2
    have : z = (k, x) := by
      ext
      · simp only at z1 z2 ⊢; omega
      · exact e
    rw [← this]
    exact List.mem_append_right _ hz

/-- The integer part of the mean of integers lies between two of them. -/
theorem floor_mean_between {l : List Int} (hl : l ≠ []) : (∃ i ∈ l, i ≤ ⌊mean l⌋) ∧ ∃ i ∈ l, ⌊mean l⌋ ≤ i := by
  have hlen : (0 : ℚ) < l.length := by exact_mod_cast List.length_pos_iff.2 hl
  have hm : mean l * l.length = l.sum := by unfold mean; rw [div_mul_cancel₀ _ hlen.ne']
  have lo := Int.floor_le (mean l)
  have hi := Int.lt_floor_add_one (mean l)
  constructor
  · by_contra hcon
    push Not at hcon
    have := List.card_nsmul_le_sum l (⌊mean l⌋ + 1) (fun i hi => by have := hcon i hi; omega)
    rw [nsmul_eq_mul] at this
    have h2 : (l.length : ℚ) * ((⌊mean l⌋ : ℚ) + 1) ≤ l.sum := by exact_mod_cast this
    rw [← hm] at h2
    nlinarith
  · by_contra hcon
    push Not at hcon
    have := List.sum_le_card_nsmul l (⌊mean l⌋ - 1) (fun i hi => by have := hcon i hi; omega)
    rw [nsmul_eq_mul] at this
    have h2 : (l.sum : ℚ) ≤ (l.length : ℚ) * ((⌊mean l⌋ : ℚ) - 1) := by exact_mod_cast this
    rw [← hm] at h2
    nlinarith

theorem mem_matchedTo_iff {js is : List Int} {k i : Int} : i ∈ matchedTo js is k ↔ (k, i) ∈ js.zip is := by
  unfold matchedTo
  rw [List.mem_map]
  constructor
  · rintro ⟨u, hu, rfl⟩
    obtain ⟨h1, h2⟩ := List.mem_filter.1 hu
    have : u.1 = k := by simpa using h2
    rw [← this]; exact h1
  · intro h
    exact ⟨(k, i), List.mem_filter.2 ⟨h, by simp⟩, rfl⟩

theorem ByUnits.floor_mean {js is : List Int} (h : ByUnits (js.zip is)) (hl : js.length = is.length) {k : Int} (hk : k ∈ js) :
    (k, ⌊mean (matchedTo js is k)⌋) ∈ js.zip is := by
  obtain ⟨⟨i, hi, hi'⟩, ⟨j, hj, hj'⟩⟩ := floor_mean_between (matchedTo_ne_nil hl hk)
  exact h.run (mem_matchedTo_iff.1 hi) (mem_matchedTo_iff.1 hj) hi' hj'

/-! ### The pairs `warp` selects -/

/-- How many indices `warp` returns. -/
def warpLength (b : Bool) (n : Nat) (r : Result) : Nat := if b then n else r.jmin.toNat + 1

/-- The pair (query index, reference index) that `warp` proposes for target index `k`: with `index_reference=False` the target is the
reference. -/
def warpPair (b : Bool) (k v : Nat) : Nat × Nat := if b then (k, v) else (v, k)

/-- **C89** (what `warp` selects; double precision, current scipy).  For a closed-begin alignment with a pattern that skips nothing, of
series whose lengths sum to at most `2^26`: `warp` returns one index `g k` per target element `k`, and `k` and `g k` are matched to each
other by the alignment — although `g k` is a truncated mean. -/
theorem C89_matched (f : Bool) (h : Problem a n m L W p rs) (hob : a.openBegin = false)
    (hc : ∀ q ∈ rs, q.Continuous) (hs : ∀ q ∈ rs, q.Strict) (hnm : n + m ≤ 2 ^ 26) (hr : dtw A a = .ok r)
    (hmp : r.mapping = some mp) (b : Bool) :
    ∃ g : Nat → Nat, warp (binary64 f) .numpy r b = .ok ((List.range (warpLength b n r)).map fun k => (g k : Int)) ∧
      ∀ k < warpLength b n r, (((warpPair b k (g k)).1 : Int), ((warpPair b k (g k)).2 : Int)) ∈ mp.index1.zip mp.index2 := by
  obtain ⟨jmax, hj, hax, hall, hsrc⟩ := axes_of_dtw h hob hc hr hmp b
  have hjmin : 0 ≤ r.jmin := by
    obtain ⟨hj, _, _, _, _, _, h4, _, _⟩ := C04_end_points h hob hr hmp
    obtain ⟨_, _, _, r2, _⟩ := C05_monotone_in_range h hob hr hmp
    exact (r2 _ (List.mem_of_getLast? h4)).1
  have hn := h.n_pos
  have hlen : warpLength b n r = jmax + 1 := by
    unfold warpLength
    cases b
    · simp only [Bool.false_eq_true, if_false] at hj ⊢; omega
    · simp only [if_true] at hj ⊢; omega
  have hu : ByUnits ((mp.target b).zip (mp.source b)) := by
    have h1 := (C28_continuous_curve h hob hc hr hmp).1
    have h2 : ByUnits (mp.index1.zip mp.index2) := h1.imp fun u v huv => ⟨huv.1, huv.2.1⟩
    cases b with
    | true => exact h2
    | false =>
      have e : (mp.target false).zip (mp.source false) = (mp.index1.zip mp.index2).map Prod.swap := by
        show mp.index2.zip mp.index1 = _
        rw [List.zip_swap]
      rw [ByUnits, e, List.isChain_map]
      exact h2.imp fun u v huv => ⟨huv.2, huv.1⟩
  have key : ∀ k : Nat, k ≤ jmax → ((k : Int), ⌊mean (matchedTo (mp.target b) (mp.source b) k)⌋) ∈ (mp.target b).zip (mp.source b) :=
    fun k hk => hu.floor_mean hax.length (hall k hk)
  have hpos : ∀ k : Nat, k ≤ jmax → 0 ≤ ⌊mean (matchedTo (mp.target b) (mp.source b) k)⌋ :=
    fun k hk => hax.source _ (List.of_mem_zip (key k hk)).2
  refine ⟨fun k => ⌊mean (matchedTo (mp.target b) (mp.source b) k)⌋.toNat, ?_, ?_⟩
  · have := C41_double_of_dtw f h hob hc hs hnm hr hmp b
    rw [this]
    show Except.ok ((List.range (warpLength b n r)).map _) = _
    congr 1
    apply List.map_congr_left
    intro k hk
    rw [List.mem_range, hlen] at hk
    exact (Int.toNat_of_nonneg (hpos k (by omega))).symm
  · intro k hk
    rw [hlen] at hk
    have h1 := key k (by omega)
    have h2 := Int.toNat_of_nonneg (hpos k (by omega))
    cases b with
    | true =>
      simp only [warpPair, if_true]
      rw [h2]; exact h1
    | false =>
      simp only [warpPair, Bool.false_eq_true, if_false]
      rw [h2]
      have h3 : ((k : Int), ⌊mean (matchedTo (mp.target false) (mp.source false) k)⌋) ∈ mp.index2.zip mp.index1 := h1
      rw [← List.zip_swap, List.mem_map] at h3
      obtain ⟨u, hu, e⟩ := h3
      have : u = (⌊mean (matchedTo (mp.target false) (mp.source false) k)⌋, (k : Int)) := by
        rw [← Prod.swap_swap u, e]; rfl
      rw [← this]; exact hu

/-! ### The distance bounds the matched costs -/

/-- Every cell a rule passes, the one it arrives at included, is charged at least once; the arithmetic represents the weights. -/
def FullyCharged (A : Arith) (rs : List Rule) : Prop :=
  ∀ q ∈ rs, (∃ t ∈ q.terms, t.di = 0 ∧ t.dj = 0) ∧ ∀ t ∈ q.terms, 1 ≤ t.w ∧ A.rnd t.w = fin t.w

/-- A point a rule draws is a cell it charges. -/
theorem Rule.fine_term {q : Rule} (hv : q.Valid) (h0 : ∃ t ∈ q.terms, t.di = 0 ∧ t.dj = 0) {i j : Nat} {x : Int × Int}
    (hx : x ∈ q.fine i j) : ∃ t ∈ q.terms, x = (((i + q.a - t.di : Nat) : Int), ((j + q.b - t.dj : Nat) : Int)) := by
  unfold Rule.fine at hx
  rcases List.mem_append.1 hx with hx | hx
  · obtain ⟨t, ht, rfl⟩ := List.mem_map.1 hx
    have ht := (List.mem_filter.1 ht).1
    have := (hv.2 t ht).2
    exact ⟨t, ht, by ext <;> simp only <;> omega⟩
  · obtain ⟨t, ht, h1, h2⟩ := h0
    rw [List.mem_singleton] at hx
    exact ⟨t, ht, by rw [hx, h1, h2]; ext <;> simp⟩

theorem charge_ge_terms (hA : Idempotent A) {ts : List Term} {i j : Nat} (hw : ∀ t ∈ ts, 1 ≤ t.w ∧ A.rnd t.w = fin t.w)
    (hl : ∀ t ∈ ts, 0 ≤ ℓ (i - t.di) (j - t.dj) ∧ A.rnd (ℓ (i - t.di) (j - t.dj)) = fin (ℓ (i - t.di) (j - t.dj))) {c : F64}
    (hc : Representable A c) (h0 : F64.le (fin 0) c) :
    let d := ts.foldl (fun c t => A.mac c (A.rnd t.w) (fin (ℓ (i - t.di) (j - t.dj)))) c
    Representable A d ∧ F64.le c d ∧ ∀ t ∈ ts, F64.le (fin (ℓ (i - t.di) (j - t.dj))) d := by
  induction ts generalizing c with
  | nil => exact ⟨hc, F64.le_refl h0.2.1, by simp⟩
  | cons t ts ih =>
    obtain ⟨w1, w2⟩ := hw t (by simp)
    obtain ⟨l1, l2⟩ := hl t (by simp)
    have hself := mac_ge_self (w := t.w) hc h0 (by linarith) l1
    have hz : F64.le (fin 0) (fin 0) := F64.le_refl (by simp)
    have hadd := mac_ge_add (A := A) (c := c) (w := t.w) hz h0 l1 (le_mul_of_one_le_left l1 w1) l2
    have e : A.add (fin 0) (fin (ℓ (i - t.di) (j - t.dj))) = fin (ℓ (i - t.di) (j - t.dj)) := by simpa [Arith.add] using l2
    rw [e] at hadd
    obtain ⟨h1, h2, h3⟩ := ih (fun t ht => hw t (by simp [ht])) (fun t ht => hl t (by simp [ht])) (representable_mac hA)
      (F64.le_trans h0 hself)
    simp only [List.foldl_cons, w2]
    refine ⟨h1, F64.le_trans hself h2, fun t' ht' => ?_⟩
    rcases List.mem_cons.1 ht' with rfl | ht'
    · exact F64.le_trans hadd h2
    · exact h3 t' ht'

theorem WarpPath.ge_each (hA : Idempotent A) (hF : FullyCharged A rs) (hv : ∀ q ∈ rs, q.Valid)
    (hl : ∀ i < n, ∀ j < m, 0 ≤ ℓ i j ∧ A.rnd (ℓ i j) = fin (ℓ i j)) {ks : List Int} {i j : Nat} {c : F64}
    (h : WarpPath A rs W (fun i j => fin (ℓ i j)) ks i j c) (hi : i < n) (hj : j < m) :
    Representable A c ∧ F64.le (fin 0) c ∧ ∀ x ∈ fine rs 0 0 ks, F64.le (fin (ℓ x.1.toNat x.2.toNat)) c := by
  induction h with
  | start =>
    obtain ⟨l1, l2⟩ := hl 0 (by omega) 0 (by omega)
    refine ⟨fun q hq => by rw [← F64.fin.inj hq]; exact l2, (F64.le_fin _ _).2 l1, ?_⟩
    intro x hx
    obtain rfl : x = (0, 0) := by simpa [fine, fineTail] using hx
    exact F64.le_refl (by simp)
  | @step ks i j c k q hw hq hW ih =>
    have hm := List.mem_of_getElem? hq
    obtain ⟨h1, h2, h3⟩ := ih (by omega) (by omega)
    have hs := hw.toWalk.fine_snoc hq
    rw [show ((0 : Nat) : Int) = 0 from rfl] at hs
    rw [hs]
    obtain ⟨g1, g2, g3⟩ := charge_ge_terms (ℓ := ℓ) (i := i + q.a) (j := j + q.b) hA (hF q hm).2 (fun t _ => hl _ (by omega) _ (by omega)) h1 h2
    refine ⟨g1, F64.le_trans h2 g2, fun x hx => ?_⟩
    rcases List.mem_append.1 hx with hx | hx
    · exact F64.le_trans (h3 x hx) g2
    · obtain ⟨t, ht, rfl⟩ := Rule.fine_term (hv q hm) (hF q hm).1 hx
      have := g3 t ht
      rw [Int.toNat_natCast, Int.toNat_natCast]
      exact this

/-- **C89** (any rounding).  Non-negative representable local costs, a pattern that charges every cell it passes: the distance is at least
the local cost of every matched pair. -/
theorem C89_each (hA : Idempotent A) (hF : FullyCharged A rs) (h : Problem a n m (fun i j => fin (ℓ i j)) W p rs)
    (hob : a.openBegin = false) (hl : ∀ i < n, ∀ j < m, 0 ≤ ℓ i j ∧ A.rnd (ℓ i j) = fin (ℓ i j))
    (hr : dtw A a = .ok r) (hmp : r.mapping = some mp) :
    ∀ x ∈ mp.index1.zip mp.index2, F64.le (fin (ℓ x.1.toNat x.2.toNat)) r.distance := by
  obtain ⟨j, ks, hj, hjm, _, rfl, hw⟩ := closed_mapping h hob hr hmp
  simp only [curve, zip_fst_snd]
  exact (hw.ge_each hA hF h.wf.valid hl (by have := h.n_pos; omega) hjm).2.2

/-- Sum of the local costs of a list of cells. -/
def cellSum (ℓ : Nat → Nat → ℚ) (l : List (Int × Int)) : ℚ := (l.map fun x => ℓ x.1.toNat x.2.toNat).sum

theorem charge_sum (q : Rule) (i j : Nat) (c : ℚ) :
    charge Arith.exact (fun i j => fin (ℓ i j)) q i j (fin c) =
      fin (c + (q.terms.map fun t => t.w * ℓ (i - t.di) (j - t.dj)).sum) := by
  unfold charge
  generalize q.terms = ts
  induction ts generalizing c with
  | nil => simp
  | cons t ts ih =>
    rw [List.foldl_cons, List.map_cons, List.sum_cons, ← add_assoc, ← ih]
    rfl

theorem WarpPath.ge_sum (hF : FullyCharged Arith.exact rs) (hv : ∀ q ∈ rs, q.Valid)
    (hl : ∀ i < n, ∀ j < m, 0 ≤ ℓ i j) {ks : List Int} {i j : Nat} {c : F64}
    (h : WarpPath Arith.exact rs W (fun i j => fin (ℓ i j)) ks i j c) (hi : i < n) (hj : j < m) :
    ∃ d, c = fin d ∧ cellSum ℓ (fine rs 0 0 ks) ≤ d := by
  induction h with
  | start => exact ⟨_, rfl, by simp [cellSum, fine, fineTail]⟩
  | @step ks i j c k q hw hq hW ih =>
    have hm := List.mem_of_getElem? hq
    obtain ⟨d, rfl, hd⟩ := ih (by omega) (by omega)
    have hs := hw.toWalk.fine_snoc hq
    rw [show ((0 : Nat) : Int) = 0 from rfl] at hs
    rw [hs]
    refine ⟨_, charge_sum _ _ _ _, ?_⟩
    have key : cellSum ℓ (q.fine i j) ≤ (q.terms.map fun t => t.w * ℓ (i + q.a - t.di) (j + q.b - t.dj)).sum := by
      have e : cellSum ℓ (q.fine i j) =
          ((q.terms.filter fun t => t.di ≠ 0 ∨ t.dj ≠ 0).map fun t => ℓ (i + q.a - t.di) (j + q.b - t.dj)).sum + ℓ (i + q.a) (j + q.b) := by
        unfold cellSum Rule.fine
        rw [List.map_append, List.sum_append, List.map_map]
        congr 1
        · congr 1
          apply List.map_congr_left
          intro t ht
          have := ((hv q hm).2 t (List.mem_filter.1 ht).1).2
          simp only [Function.comp]
          congr 1 <;> omega
        · simp
          rfl
      rw [e]
      have hall := (hF q hm).2
      have h0 := (hF q hm).1
      have hn : ∀ t ∈ q.terms, 0 ≤ ℓ (i + q.a - t.di) (j + q.b - t.dj) := fun t _ => hl _ (by omega) _ (by omega)
      have gen : ∀ ts : List Term, (∀ t ∈ ts, 1 ≤ t.w) → (∀ t ∈ ts, 0 ≤ ℓ (i + q.a - t.di) (j + q.b - t.dj)) →
          ((ts.filter fun t => t.di ≠ 0 ∨ t.dj ≠ 0).map fun t => ℓ (i + q.a - t.di) (j + q.b - t.dj)).sum ≤
            (ts.map fun t => t.w * ℓ (i + q.a - t.di) (j + q.b - t.dj)).sum ∧
          ((∃ t ∈ ts, t.di = 0 ∧ t.dj = 0) →
            ((ts.filter fun t => t.di ≠ 0 ∨ t.dj ≠ 0).map fun t => ℓ (i + q.a - t.di) (j + q.b - t.dj)).sum + ℓ (i + q.a) (j + q.b) ≤
            (ts.map fun t => t.w * ℓ (i + q.a - t.di) (j + q.b - t.dj)).sum) := by
        intro ts
        induction ts with
        | nil => intro _ _; simp
        | cons t ts ih =>
          intro h1 h2
          obtain ⟨i1, i2⟩ := ih (fun t ht => h1 t (by simp [ht])) (fun t ht => h2 t (by simp [ht]))
          have w1 := le_mul_of_one_le_left (h2 t (by simp)) (h1 t (by simp))
          have l0 := h2 t (by simp)
          by_cases ht : t.di ≠ 0 ∨ t.dj ≠ 0
          · rw [List.filter_cons_of_pos (by simpa using ht)]
            simp only [List.map_cons, List.sum_cons]
            refine ⟨by linarith, ?_⟩
            rintro ⟨t', ht', z1, z2⟩
            rcases List.mem_cons.1 ht' with rfl | ht'
            · omega
            · have := i2 ⟨t', ht', z1, z2⟩
              linarith
          · rw [List.filter_cons_of_neg (by simpa using ht)]
            simp only [List.map_cons, List.sum_cons]
            refine ⟨by linarith, fun _ => ?_⟩
            have z1 : t.di = 0 := by omega
            have z2 : t.dj = 0 := by omega
            rw [z1, z2, Nat.sub_zero, Nat.sub_zero] at w1 ⊢
            linarith
      exact (gen q.terms (fun t ht => (hall t ht).1) hn).2 h0
    have e2 : cellSum ℓ (fine rs 0 0 ks ++ q.fine i j) = cellSum ℓ (fine rs 0 0 ks) + cellSum ℓ (q.fine i j) := by
      unfold cellSum; rw [List.map_append, List.sum_append]
    rw [e2]
    linarith

/-- Distinct cells of a list cost at most the whole list. -/
theorem cellSum_le {s l : List (Int × Int)} (hs : s.Nodup) (hsl : s ⊆ l) (hl : ∀ x ∈ l, 0 ≤ ℓ x.1.toNat x.2.toNat) :
    cellSum ℓ s ≤ cellSum ℓ l := by
  obtain ⟨s', h1, h2⟩ := hs.subperm hsl
  unfold cellSum
  rw [← (h1.map _).sum_eq]
  exact (h2.map _).sum_le_sum (by
    intro x hx
    obtain ⟨u, hu, rfl⟩ := List.mem_map.1 hx
    exact hl u hu)

theorem warpPairs_nodup (b : Bool) (g : Nat → Nat) (K : Nat) :
    ((List.range K).map fun k => (((warpPair b k (g k)).1 : Int), ((warpPair b k (g k)).2 : Int))).Nodup := by
  rw [List.nodup_map_iff_inj_on List.nodup_range]
  intro x _ y _ hxy
  cases b with
  | true => simp only [warpPair, if_true, Prod.mk.injEq] at hxy; omega
  | false => simp only [warpPair, Bool.false_eq_true, if_false, Prod.mk.injEq] at hxy; omega

theorem warp_sum_le (b : Bool) {g : Nat → Nat} {K : Nat} {l : List (Int × Int)}
    (hg : ∀ k < K, (((warpPair b k (g k)).1 : Int), ((warpPair b k (g k)).2 : Int)) ∈ l)
    (hl : ∀ x ∈ l, 0 ≤ ℓ x.1.toNat x.2.toNat) :
    ((List.range K).map fun k => ℓ (warpPair b k (g k)).1 (warpPair b k (g k)).2).sum ≤ cellSum ℓ l := by
  have := cellSum_le (ℓ := ℓ) (warpPairs_nodup b g K) (l := l) (by
    intro x hx
    obtain ⟨k, hk, rfl⟩ := List.mem_map.1 hx
    exact hg k (List.mem_range.1 hk)) hl
  refine _root_.le_trans (le_of_eq ?_) this
  unfold cellSum
  rw [List.map_map]
  rfl

/-- The curve lies in the matrix. -/
theorem curve_nonneg {L : Nat → Nat → F64} (h : Problem a n m L W p rs) (hob : a.openBegin = false)
    (hl : ∀ i < n, ∀ j < m, 0 ≤ ℓ i j) (hr : dtw A a = .ok r) (hmp : r.mapping = some mp) :
    ∀ x ∈ mp.index1.zip mp.index2, 0 ≤ ℓ x.1.toNat x.2.toNat := by
  intro x hx
  obtain ⟨_, _, r1, r2, _⟩ := C05_monotone_in_range h hob hr hmp
  obtain ⟨h1, h2⟩ := List.of_mem_zip hx
  have := r1 _ h1
  have := r2 _ h2
  exact hl _ (by omega) _ (by omega)

/-- **C89** (how far the warped series is; exact arithmetic in `dtw`).  With a pattern that skips nothing and charges every cell it passes
(`C89_bundled`), non-negative costs: the local costs between the warped query and the reference, `Σ_k ℓ(g k, k)` with `g = warp(d)`, sum to
at most the distance.  The same the other way round (`index_reference=True`). -/
theorem C89_total (f : Bool) (hF : FullyCharged Arith.exact rs) (h : Problem a n m (fun i j => fin (ℓ i j)) W p rs) (hob : a.openBegin = false)
    (hc : ∀ q ∈ rs, q.Continuous) (hs : ∀ q ∈ rs, q.Strict) (hnm : n + m ≤ 2 ^ 26) (hl : ∀ i < n, ∀ j < m, 0 ≤ ℓ i j)
    (hr : dtw Arith.exact a = .ok r) (hmp : r.mapping = some mp) (b : Bool) :
    ∃ (g : Nat → Nat) (d : ℚ), warp (binary64 f) .numpy r b = .ok ((List.range (warpLength b n r)).map fun k => (g k : Int)) ∧
      r.distance = fin d ∧
      ((List.range (warpLength b n r)).map fun k => ℓ (warpPair b k (g k)).1 (warpPair b k (g k)).2).sum ≤ d := by
  obtain ⟨g, hw, hg⟩ := C89_matched f h hob hc hs hnm hr hmp b
  have hnn := curve_nonneg h hob hl hr hmp
  obtain ⟨j, ks, hj, hjm, _, rfl, hp⟩ := closed_mapping h hob hr hmp
  obtain ⟨d, hd, hle⟩ := hp.ge_sum hF h.wf.valid hl (by have := h.n_pos; omega) hjm
  simp only [curve, zip_fst_snd] at hg hnn
  exact ⟨g, d, hw, hd, _root_.le_trans (warp_sum_le b hg hnn) hle⟩

/-- **C89** (the same with `dtw` in double precision): the sum is at most the distance, up to the relative error of `C49`. -/
theorem C89_total_doubles (f : Bool) (hF : FullyCharged Arith.exact rs) (hM : ModestWeights rs)
    (h : Problem a n m (fun i j => fin (ℓ i j)) W p rs) (hob : a.openBegin = false) (hdo : a.distanceOnly = false)
    (hc : ∀ q ∈ rs, q.Continuous) (hs : ∀ q ∈ rs, q.Strict) (hnm : n + m ≤ 2 ^ 26) (hl : ∀ i < n, ∀ j < m, ModestCost (ℓ i j))
    (hr : dtw (binary64 f) a = .ok r) (b : Bool) :
    ∃ (g : Nat → Nat) (d : ℚ), warp (binary64 f) .numpy r b = .ok ((List.range (warpLength b n r)).map fun k => (g k : Int)) ∧
      r.distance = fin d ∧
      (1 - ((3 * (n + m) + 6 : ℕ) : ℚ) / 2 ^ 52) *
        ((List.range (warpLength b n r)).map fun k => ℓ (warpPair b k (g k)).1 (warpPair b k (g k)).2).sum ≤ d := by
  obtain ⟨mp, _, hmp, _, _⟩ := C03_path_realises_distance h hob hdo hr
  have hl0 : ∀ i < n, ∀ j < m, 0 ≤ ℓ i j := fun i hi j hj => by
    rcases hl i hi j hj with h0 | ⟨h0, _⟩
    · exact h0.ge
    · exact _root_.le_trans (by positivity) h0
  obtain ⟨g, hw, hg⟩ := C89_matched f h hob hc hs hnm hr hmp b
  have hnn := curve_nonneg h hob hl0 hr hmp
  obtain ⟨hex, hall⟩ := C49_any_ends f h hM hl
  obtain ⟨r0, hr0⟩ := hex.1 ⟨r, hr⟩
  obtain ⟨_, _, _, j, ks, x, hjm, _, hks, hpath, hclose, _⟩ := hall r r0 hr hr0
  rw [if_neg (by simp [hob])] at hpath
  obtain ⟨j', ks', _, _, _, rfl, hp⟩ := closed_mapping h hob hr hmp
  have := hks _ hmp
  obtain rfl : ks' = ks := this
  obtain ⟨x', hx', hle⟩ := hpath.ge_sum hF h.wf.valid hl0 (by have := h.n_pos; omega) hjm
  obtain rfl := F64.fin.inj hx'
  simp only [curve, zip_fst_snd] at hg hnn
  have hsum := _root_.le_trans (warp_sum_le b hg hnn) hle
  rcases hclose with ⟨_, hc2⟩ | ⟨d, d0, hd, hd0, h0, hab⟩
  · simp at hc2
  · obtain rfl := F64.fin.inj hd0
    refine ⟨g, d, hw, hd, ?_⟩
    have hε : ((3 * (n + m) + 6 : ℕ) : ℚ) / 2 ^ 52 ≤ 1 := by
      rw [div_le_one (by norm_num)]
      have : 3 * (n + m) + 6 ≤ 2 ^ 52 := by omega
      exact_mod_cast this
    have h1 := mul_le_mul_of_nonneg_left hsum (sub_nonneg.2 hε)
    have := (abs_le.1 hab).1
    linarith

/-- **C89** (zero distance, double precision): then the warped query *is* the reference.  If local cost 0 means equality of elements,
`query[warp(d)]` equals the reference (up to where the alignment ends), element by element, although `warp` averages indices. -/
theorem C89_exact_copy {α : Type} (f : Bool) {x y : Nat → α} (hF : FullyCharged (binary64 f) rs)
    (h : Problem a n m (fun i j => fin (ℓ i j)) W p rs) (hob : a.openBegin = false) (hdo : a.distanceOnly = false)
    (hc : ∀ q ∈ rs, q.Continuous) (hs : ∀ q ∈ rs, q.Strict) (hnm : n + m ≤ 2 ^ 26)
    (hl : ∀ i < n, ∀ j < m, 0 ≤ ℓ i j ∧ IsDouble (ℓ i j)) (hxy : ∀ i < n, ∀ j < m, ℓ i j = 0 → x i = y j)
    (hr : dtw (binary64 f) a = .ok r) (h0 : r.distance = fin 0) :
    (∃ g : Nat → Nat, warp (binary64 f) .numpy r false = .ok ((List.range (r.jmin.toNat + 1)).map fun k => (g k : Int)) ∧
      ∀ k ≤ r.jmin.toNat, x (g k) = y k) ∧
    ∃ g : Nat → Nat, warp (binary64 f) .numpy r true = .ok ((List.range n).map fun k => (g k : Int)) ∧ ∀ k < n, x k = y (g k) := by
  obtain ⟨mp, _, hmp, _, _⟩ := C03_path_realises_distance h hob hdo hr
  have hl' : ∀ i < n, ∀ j < m, 0 ≤ ℓ i j ∧ (binary64 f).rnd (ℓ i j) = fin (ℓ i j) :=
    fun i hi j hj => ⟨(hl i hi j hj).1, rnd64_double (hl i hi j hj).2⟩
  have hall := C89_each (C20_C22_double_idempotent f) hF h hob hl' hr hmp
  obtain ⟨_, _, r1, r2, _⟩ := C05_monotone_in_range h hob hr hmp
  have key : ∀ i j : Nat, ((i : Int), (j : Int)) ∈ mp.index1.zip mp.index2 → x i = y j := by
    intro i j hij
    obtain ⟨h1, h2⟩ := List.of_mem_zip hij
    have b1 := r1 _ h1
    have b2 := r2 _ h2
    have := hall _ hij
    rw [h0, F64.le_fin] at this
    simp only [Int.toNat_natCast] at this
    have hi : i < n := by omega
    have hj : j < m := by omega
    exact hxy i hi j hj (_root_.le_antisymm this (hl i hi j hj).1)
  constructor
  · obtain ⟨g, hw, hg⟩ := C89_matched f h hob hc hs hnm hr hmp false
    exact ⟨g, hw, fun k hk => key _ _ (hg k (by simp only [warpLength, Bool.false_eq_true, if_false]; omega))⟩
  · obtain ⟨g, hw, hg⟩ := C89_matched f h hob hc hs hnm hr hmp true
    exact ⟨g, hw, fun k hk => key _ _ (hg k (by simpa [warpLength] using hk))⟩

/-! ### Two stretched copies of the same series -/

/-- Moving between cells of cost 0 costs nothing. -/
theorem charge_zero (f : Bool) {q : Rule} {w : ℚ} (hq : q.terms = [⟨0, 0, w⟩]) (hw : rnd64 w = fin w) {i j : Nat} (h0 : ℓ i j = 0) :
    charge (binary64 f) (fun i j => fin (ℓ i j)) q i j (fin 0) = fin 0 := by
  unfold charge
  rw [hq]
  simp only [List.foldl_cons, List.foldl_nil, Nat.sub_zero, h0]
  have hw' : (binary64 f).rnd w = fin w := hw
  rw [hw']
  have hr : rnd64 0 = fin 0 := (binary64 false).rnd_zero
  cases f <;> simp [Arith.mac, Arith.mul, Arith.mulWith, Arith.add, hr, binary64]

/-- Cells of equal elements are reached at no cost. -/
theorem stretched_path (f : Bool) {α β γ : ℚ} {u v : Nat → Nat} {K : Nat} (ht : ThreeMoves rs α β γ) (hF : FullyCharged (binary64 f) rs)
    (hu : Blocks u n K) (hv : Blocks v m K) (hz : ∀ i < n, ∀ j < m, u i = v j → ℓ i j = 0) :
    ∀ s i j, i + j ≤ s → i < n → j < m → u i = v j →
      ∃ ks, WarpPath (binary64 f) rs (fun _ _ => true) (fun i j => fin (ℓ i j)) ks i j (fin 0) := by
  intro s
  induction s with
  | zero =>
    intro i j hs hi hj hij
    obtain rfl : i = 0 := by omega
    obtain rfl : j = 0 := by omega
    have := WarpPath.start (A := binary64 f) (rs := rs) (W := fun _ _ => true) (L := fun i j => fin (ℓ i j))
    simp only [hz 0 hi 0 hj hij] at this
    exact ⟨[], this⟩
  | succ s ih =>
    intro i j hs hi hj hij
    by_cases hzero : i + j = 0
    · exact ih i j (by omega) hi hj hij
    have move : ∀ {i' j' k : Nat} {q : Rule} {w : ℚ}, rs[k]? = some q → q.terms = [⟨0, 0, w⟩] → i' + q.a = i → j' + q.b = j →
        i' + j' ≤ s → u i' = v j' →
        ∃ ks, WarpPath (binary64 f) rs (fun _ _ => true) (fun i j => fin (ℓ i j)) ks i j (fin 0) := by
      intro i' j' k q w hk hq hi' hj' hs' he
      obtain ⟨ks, hp⟩ := ih i' j' hs' (by omega) (by omega) he
      have hw := (hF q (List.mem_of_getElem? hk)).2 ⟨0, 0, w⟩ (by rw [hq]; simp)
      have := WarpPath.step k q hp hk rfl
      rw [hi', hj', charge_zero f hq hw.2 (hz i hi j hj hij)] at this
      exact ⟨_, this⟩
    obtain ⟨k1, hk1⟩ := ht.down
    obtain ⟨k2, hk2⟩ := ht.right
    obtain ⟨k3, hk3⟩ := ht.diag
    by_cases hi0 : 0 < i ∧ u (i - 1) = u i
    · exact move (i' := i - 1) (j' := j) hk1 rfl (by simp only; omega) rfl (by omega) (by rw [hi0.2, hij])
    · by_cases hj0 : 0 < j ∧ v (j - 1) = v j
      · exact move (i' := i) (j' := j - 1) hk2 rfl rfl (by simp only; omega) (by omega) (by rw [hj0.2, hij])
      · have hu0 := hu.first
        have hv0 := hv.first
        have nu : 0 < i → u i = u (i - 1) + 1 := by
          intro h0
          have := hu.next (i - 1) (by omega)
          rw [show i - 1 + 1 = i by omega] at this
          omega
        have nv : 0 < j → v j = v (j - 1) + 1 := by
          intro h0
          have := hv.next (j - 1) (by omega)
          rw [show j - 1 + 1 = j by omega] at this
          omega
        have hip : 0 < i := by
          by_contra h0
          obtain rfl : i = 0 := by omega
          have := nv (by omega)
          omega
        have hjp : 0 < j := by
          by_contra h0
          obtain rfl : j = 0 := by omega
          have := nu (by omega)
          omega
        have := nu hip
        have := nv hjp
        exact move (i' := i - 1) (j' := j - 1) hk3 rfl (by simp only; omega) (by simp only; omega) (by omega) (by omega)

/-- **C89** (stretched copies, double precision).  Two series that both arise from a third by repeating elements (`x i = z (u i)`,
`y j = z (v j)`, with `u`, `v` advancing by at most 1) are aligned at distance 0 by `symmetric1`, `symmetric2`, `symmetricP0`, whatever the
element type and the cost, as long as the cost of equal elements is 0 and of others positive; and `x[warp(d)]` is `y`,
`y[warp(d, index_reference=True)]` is `x`. -/
theorem C89_stretched {E : Type} (f : Bool) {α β γ : ℚ} {u v : Nat → Nat} {K : Nat} {x y : Nat → E} {z : Nat → E}
    (ht : ThreeMoves rs α β γ) (hF : FullyCharged (binary64 f) rs)
    (h : Problem a n m (fun i j => fin (ℓ i j)) (fun _ _ => true) p rs) (hob : a.openBegin = false) (hoe : a.openEnd = false)
    (hdo : a.distanceOnly = false) (hc : ∀ q ∈ rs, q.Continuous) (hs : ∀ q ∈ rs, q.Strict) (hnm : n + m ≤ 2 ^ 26)
    (hl : ∀ i < n, ∀ j < m, 0 ≤ ℓ i j ∧ IsDouble (ℓ i j)) (hxy : ∀ i < n, ∀ j < m, ℓ i j = 0 ↔ x i = y j)
    (hu : Blocks u n K) (hv : Blocks v m K) (hx : ∀ i < n, x i = z (u i)) (hy : ∀ j < m, y j = z (v j)) :
    ∃ r, dtw (binary64 f) a = .ok r ∧ r.distance = fin 0 ∧
      (∃ g : Nat → Nat, warp (binary64 f) .numpy r false = .ok ((List.range m).map fun k => (g k : Int)) ∧ ∀ k < m, x (g k) = y k) ∧
      ∃ g : Nat → Nat, warp (binary64 f) .numpy r true = .ok ((List.range n).map fun k => (g k : Int)) ∧ ∀ k < n, x k = y (g k) := by
  have hn := h.n_pos
  have hm := h.m_pos
  obtain ⟨ks, hp⟩ := stretched_path (ℓ := ℓ) f ht hF hu hv
    (fun i hi j hj e => (hxy i hi j hj).2 (by rw [hx i hi, hy j hj, e])) _ (n - 1) (m - 1) (Nat.le_refl _) (by omega) (by omega) (by rw [hu.last, hv.last])
  obtain ⟨r, hr⟩ := (C02_no_path_iff h hob hoe).2.2 (.inl ⟨ks, _, hp, by simp [usable, F64.lt]⟩)
  have h1 := (C01_distance_optimal h hob hoe hr).2 ks _ hp (by simp)
  obtain ⟨mp, _, hmp, _, _⟩ := C03_path_realises_distance h hob hdo hr
  obtain ⟨j, ks', hj, hjm, hcl, _, hw⟩ := closed_mapping h hob hr hmp
  have h2 := (hw.ge_each (C20_C22_double_idempotent f) hF h.wf.valid
    (fun i hi j hj => ⟨(hl i hi j hj).1, rnd64_double (hl i hi j hj).2⟩) (by omega) hjm).2.1
  have h0 : r.distance = fin 0 := by
    cases hd : r.distance with
    | fin d => rw [hd] at h1 h2; rw [_root_.le_antisymm ((F64.le_fin _ _).1 h1) ((F64.le_fin _ _).1 h2)]
    | _ => rw [hd] at h1 h2; simp [F64.le, F64.lt] at h1 h2
  have hjm' : r.jmin.toNat + 1 = m := by have := hcl hoe; omega
  obtain ⟨⟨g, hg, hg'⟩, h3⟩ := C89_exact_copy f hF h hob hdo hc hs hnm hl (fun i hi j hj => (hxy i hi j hj).1) hr h0
  rw [hjm'] at hg
  exact ⟨r, hr, h0, ⟨g, hg, fun k hk => hg' k (by omega)⟩, h3⟩

/-! ### One reference element per query element -/

theorem matchedTo_range (l : List Int) (k : Nat) (hk : k < l.length) :
    matchedTo ((List.range l.length).map fun (x : Nat) => (x : Int)) l k = [l[k]] := by
  induction l using List.reverseRecOn with
  | nil => simp at hk
  | append_singleton l x ih =>
    have e : (List.range (l ++ [x]).length).map (fun (x : Nat) => (x : Int)) =
        (List.range l.length).map (fun (x : Nat) => (x : Int)) ++ [(l.length : Int)] := by
      rw [List.length_append, List.length_singleton, List.range_succ, List.map_append]; rfl
    unfold matchedTo at ih ⊢
    rw [e, List.zip_append (by simp), List.filter_append, List.map_append]
    by_cases hkl : k < l.length
    · rw [ih hkl, List.zip_cons_cons, List.filter_cons_of_neg (by simp; omega), List.getElem_append_left hkl]
      simp
    · obtain rfl : k = l.length := by simp at hk; omega
      have hnil : (((List.range l.length).map fun (x : Nat) => (x : Int)).zip l).filter (fun p => decide (p.1 = (l.length : Int))) = [] := by
        rw [List.filter_eq_nil_iff]
        intro u hu
        obtain ⟨y, hy, hyu⟩ := List.mem_map.1 (List.of_mem_zip hu).1
        rw [List.mem_range] at hy
        simp only [decide_eq_true_eq]
        omega
      rw [hnil, List.zip_cons_cons, List.filter_cons_of_pos (by simp)]
      simp

/-- **C89** (one reference element per query element; double precision, any begin and end).  With patterns that match every query element
once (`asymmetric`, `rigid`, minimum variance matching: `C27_C43_one_per_query`), `warp(d, index_reference=True)` is `d.index2`, whatever
reference elements are skipped: `reference[warp(d, index_reference=True)]` is the reference warped onto the query, element by element. -/
theorem C89_one_per_query (f : Bool) (h : Problem a n m L W p rs) (h1 : ∀ q ∈ rs, q.OnePer) (hm : m ≤ 2 ^ 53)
    (hr : dtw A a = .ok r) (hmp : r.mapping = some mp) :
    mp.index2.length = n ∧ warp (binary64 f) .numpy r true = .ok mp.index2 := by
  have hn := h.n_pos
  have key : mp.index1 = (List.range n).map (fun (x : Nat) => (x : Int)) ∧ mp.index1.length = mp.index2.length ∧
      ∀ x ∈ mp.index2, 0 ≤ x ∧ x < m := by
    cases hob : a.openBegin with
    | false =>
      obtain ⟨l1, _, _, r2, _⟩ := C05_monotone_in_range h hob hr hmp
      refine ⟨?_, l1, r2⟩
      obtain ⟨j, ks, hj, hlt, hcl, rfl, hp⟩ := closed_mapping h hob hr hmp
      have := hp.toWalk.onePer_index h1 rfl
      rw [show n - 1 + 1 = n by omega] at this
      exact this
    | true =>
      obtain ⟨_, _, _, r2, _⟩ := C05_open_begin_in_range h hob hr hmp
      exact ⟨(C27_C43_open_begin (fun _ => True) h hob h1 (fun _ _ => trivial) hr hmp).1, (C05_open_begin h hob hr hmp).1, r2⟩
  obtain ⟨e1, hl, h2⟩ := key
  have hlen : mp.index2.length = n := by rw [← hl, e1]; simp
  have hax : Axes mp true (n - 1) := by
    refine ⟨hl, fun i hi => (h2 i hi).1, ?_, ?_⟩
    · intro j hj
      have hj' : j ∈ mp.index1 := hj
      rw [e1] at hj'
      obtain ⟨y, hy, rfl⟩ := List.mem_map.1 hj'
      rw [List.mem_range] at hy
      omega
    · show ((n - 1 : Nat) : Int) ∈ mp.index1
      rw [e1]
      exact List.mem_map.2 ⟨n - 1, List.mem_range.2 (by omega), rfl⟩
  have hmt : ∀ k (hk : k < mp.index2.length), matchedTo (mp.target true) (mp.source true) (k : Nat) = [mp.index2[k]] := by
    intro k hk
    have := matchedTo_range mp.index2 k hk
    rw [hlen, ← e1] at this
    exact this
  refine ⟨hlen, ?_⟩
  have := C41_double f hmp hax (fun k hk => by
    rw [hmt k (by omega)]
    have := h2 _ (List.getElem_mem (l := mp.index2) (n := k) (by omega))
    have e : (2 : Int) ^ 53 = ((2 ^ 53 : Nat) : Int) := by norm_num
    simp only [List.sum_cons, List.sum_nil]
    omega)
  rw [this, show n - 1 + 1 = n by omega]
  congr 1
  apply List.ext_getElem
  · simp [hlen]
  · intro k hk hk'
    have hin : (k : Int) ∈ mp.target true := by
      show (k : Int) ∈ mp.index1
      rw [e1]
      exact List.mem_map.2 ⟨k, List.mem_range.2 (by omega), rfl⟩
    simp only [List.getElem_map, List.getElem_range]
    rw [if_pos hin, hmt k hk']
    simp [mean]

/-! ### The bundled patterns, and examples -/

/-- **C89** (bundled patterns): these skip nothing, charge every cell they pass, with weights that are doubles. -/
theorem C89_bundled (f : Bool) : ∀ s ∈ ["symmetric1", "symmetric2", "symmetricP0", "symmetricP05", "symmetricP1", "symmetricP2",
      "typeIb", "typeId", "typeIbs", "mori2006", "rigid"],
    ∃ q ∈ Pat.table, q.1 = s ∧ (∀ x ∈ rulesOf q.2, x.Continuous) ∧ (∀ x ∈ rulesOf q.2, x.Strict) ∧ ModestWeights (rulesOf q.2) ∧
      FullyCharged Arith.exact (rulesOf q.2) ∧ FullyCharged (binary64 f) (rulesOf q.2) := by
  have key : ∀ s ∈ ["symmetric1", "symmetric2", "symmetricP0", "symmetricP05", "symmetricP1", "symmetricP2",
      "typeIb", "typeId", "typeIbs", "mori2006", "rigid"],
      ∃ q ∈ Pat.table, q.1 = s ∧ (∀ x ∈ rulesOf q.2, x.Continuous) ∧ (∀ x ∈ rulesOf q.2, x.Strict) ∧ q.1 ≠ "_symmetricVelichkoZagoruyko" ∧
      ∀ x ∈ rulesOf q.2, (∃ t ∈ x.terms, t.di = 0 ∧ t.dj = 0) ∧ ∀ t ∈ x.terms, t.w = 1 ∨ t.w = 2 ∨ t.w = 3 := by decide +kernel
  intro s hs
  obtain ⟨q, hq, e, h1, h2, hne, h3⟩ := key s hs
  have hw : ∀ w : ℚ, w = 1 ∨ w = 2 ∨ w = 3 → 1 ≤ w ∧ rnd64 w = fin w := by
    rintro w (rfl | rfl | rfl)
    · exact ⟨_root_.le_refl _, by decide +kernel⟩
    · exact ⟨by norm_num, by decide +kernel⟩
    · exact ⟨by norm_num, by decide +kernel⟩
  exact ⟨q, hq, e, h1, h2, C49_bundled q hq hne, fun x hx => ⟨(h3 x hx).1, fun t ht => ⟨(hw _ ((h3 x hx).2 t ht)).1, rfl⟩⟩,
    fun x hx => ⟨(h3 x hx).1, fun t ht => hw _ ((h3 x hx).2 t ht)⟩⟩

/-- A query, and a longer series that repeats some of its elements. -/
def Ex.brief : List ℚ := [0, 1, 3, 2, 7]
def Ex.long : List ℚ := [0, 1, 1, 1, 3, 2, 2, 7]
def Ex.stretch : Args := Ex.call 5 8 (fun i j => fin |Ex.brief.getD i 0 - Ex.long.getD j 0|) "symmetric2"

/-- The stretched copy is recovered: `brief[warp]` is `long`, and conversely. -/
theorem C89_example :
    (dtw (binary64 true) Ex.stretch).toOption.map (fun r => (r.distance, (warp (binary64 true) .numpy r false).toOption,
      (warp (binary64 true) .numpy r true).toOption)) =
    some (fin 0, some [0, 1, 1, 1, 2, 3, 3, 4], some [0, 2, 4, 5, 7]) := by decide +kernel

/-- `C89_stretched`, hence `C89_exact_copy`, `C89_each` and `C89_matched`, apply to it. -/
example : ∃ r, dtw (binary64 true) Ex.stretch = .ok r ∧ r.distance = fin 0 := by
  have hP : Problem Ex.stretch 5 8 _ _ _ _ := bundled_problem (by decide) (by decide) (by decide) _ _ Ex.sym2_mem
  obtain ⟨α, β, ht⟩ := C86_patterns ("symmetric2", 2) (by decide) _ Ex.sym2_mem
  have hF : FullyCharged (binary64 true) (rulesOf Pat.symmetric2) := by
    have : ∀ x ∈ rulesOf Pat.symmetric2, (∃ t ∈ x.terms, t.di = 0 ∧ t.dj = 0) ∧ ∀ t ∈ x.terms, 1 ≤ t.w ∧ rnd64 t.w = fin t.w := by
      decide +kernel
    exact this
  have hl : ∀ i ∈ List.range 5, ∀ j ∈ List.range 8, ∃ z ∈ List.range 8, |Ex.brief.getD i 0 - Ex.long.getD j 0| = (z : ℚ) := by
    intro i hi j hj
    refine ⟨(Ex.brief.getD i 0 - Ex.long.getD j 0).num.natAbs, ?_, ?_⟩
    · revert i j; decide +kernel
    · have : ∀ i ∈ List.range 5, ∀ j ∈ List.range 8, (Ex.brief.getD i 0 - Ex.long.getD j 0).den = 1 := by decide +kernel
      have hd := this i hi j hj
      rw [← Rat.num_div_den (Ex.brief.getD i 0 - Ex.long.getD j 0), hd]
      simp
  obtain ⟨r, hr, h0, -⟩ := C89_stretched (x := fun i => Ex.brief.getD i 0) (y := fun j => Ex.long.getD j 0)
    (z := fun i => Ex.brief.getD i 0) (u := id) (v := fun j => [0, 1, 1, 1, 2, 3, 3, 4].getD j 0) (K := 5)
    true ht hF hP rfl rfl rfl (by decide +kernel) (fun q hq => C61_bundled.1 _ Ex.sym2_mem q hq) (by norm_num)
    (fun i hi j hj => by
      obtain ⟨z, _, e⟩ := hl i (List.mem_range.2 hi) j (List.mem_range.2 hj)
      have := isDouble_int (z := (z : Int)) (by
        have := List.mem_range.1 ‹z ∈ _›
        rw [abs_of_nonneg (by omega)]; omega)
      exact ⟨abs_nonneg _, by rw [e]; exact_mod_cast this⟩)
    (fun i _ j _ => by rw [abs_eq_zero, sub_eq_zero])
    ⟨rfl, fun i _ => .inr rfl, rfl⟩ ⟨rfl, by
      intro j hj
      have : ∀ j ∈ List.range 7, [0, 1, 1, 1, 2, 3, 3, 4].getD (j + 1) 0 = [0, 1, 1, 1, 2, 3, 3, 4].getD j 0 ∨
          [0, 1, 1, 1, 2, 3, 3, 4].getD (j + 1) 0 = [0, 1, 1, 1, 2, 3, 3, 4].getD j 0 + 1 := by decide
      exact this j (List.mem_range.2 (by omega)), rfl⟩ (fun _ _ => rfl) (fun j hj => by
      have : ∀ j ∈ List.range 8, Ex.long.getD j 0 = Ex.brief.getD ([0, 1, 1, 1, 2, 3, 3, 4].getD j 0) 0 := by decide +kernel
      exact this j (List.mem_range.2 hj))
  exact ⟨r, hr, h0⟩

/-- `C89_one_per_query`, with reference elements skipped: `asymmetric` matches the query `0,3,2,7` to elements 0, 2, 3 and 5 of the
reference `0,1,3,2,6,7`, and that is what `warp` returns; in the other direction (`index_reference=False`) the skipped elements have no
index (`C41_gap_not_interpolated`). -/
theorem C89_one_per_query_example :
    (dtw (binary64 true) (Ex.call 4 6 (fun i j => fin |([0, 3, 2, 7] : List ℚ).getD i 0 - ([0, 1, 3, 2, 6, 7] : List ℚ).getD j 0|) "asymmetric")).toOption.map
      (fun r => (r.mapping.map (·.index2), (warp (binary64 true) .numpy r true).toOption, (warp (binary64 true) .numpy r false).toOption)) =
    some (some [0, 2, 3, 5], some [0, 2, 3, 5], some [0, -9223372036854775808, 1, 2, -9223372036854775808, 3]) := by decide +kernel

end DTW
