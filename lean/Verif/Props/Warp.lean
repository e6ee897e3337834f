import Verif.Proofs.WarpProof
import Verif.Props.PathShape
import Verif.Props.Options
import Mathlib.Data.Rat.Floor
import Mathlib.Algebra.Order.BigOperators.Group.List

/-!
# C41: warp

`matchedTo js is k` and `mean` are in Spec.lean.  `warp(d, index_reference=False)` has target axis
`js = index2` and source axis `is = index1`; `index_reference=True` exchanges them.
-/

namespace DTW
open F64

variable {A : Arith} {rs : List Rule} {W : Nat → Nat → Bool} {n m : Nat} {p : StepPattern}
  {a : Args} {d r : Result} {L : Nat → Nat → F64} {mp : Mapping}

/-- Source axis of `warp`. -/
def Mapping.source (mp : Mapping) (indexReference : Bool) : List Int :=
  if indexReference then mp.index2 else mp.index1

/-- Target axis of `warp`. -/
def Mapping.target (mp : Mapping) (indexReference : Bool) : List Int :=
  if indexReference then mp.index1 else mp.index2

/-- The axes of a mapping are usable by `warp`: equal lengths, non-negative source indices, target indices
between 0 and `jmax`, which occurs. -/
structure Axes (mp : Mapping) (b : Bool) (jmax : Nat) : Prop where
  length : (mp.target b).length = (mp.source b).length
  source : ∀ i ∈ mp.source b, 0 ≤ i
  target : ∀ j ∈ mp.target b, 0 ≤ j ∧ j ≤ jmax
  max : (jmax : Int) ∈ mp.target b

theorem trunc_floor {q : ℚ} (h : 0 ≤ q) : trunc q = ⌊q⌋ := by
  rw [Rat.floor_def']
  unfold trunc
  exact Int.tdiv_eq_ediv_of_nonneg (Rat.num_nonneg.2 h)

theorem mean_nonneg {l : List Int} (h : ∀ i ∈ l, 0 ≤ i) : 0 ≤ mean l := by
  unfold mean
  have : 0 ≤ l.sum := List.sum_nonneg h
  have h2 : (0 : ℚ) ≤ (l.sum : Int) := by exact_mod_cast this
  positivity

theorem mem_matchedTo {js is : List Int} {k i : Int} (h : i ∈ matchedTo js is k) : i ∈ is := by
  unfold matchedTo at h
  obtain ⟨p, hp, rfl⟩ := List.mem_map.1 h
  exact (List.of_mem_zip (List.mem_filter.1 hp).1).2

theorem warp_numpy (hmp : d.mapping = some mp) {b : Bool} {jmax : Nat} (h : Axes mp b jmax) :
    warp A .numpy d b = (nanFix ((List.range (jmax + 1)).map (tiePoint A (mp.target b) (mp.source b)))
      (mp.source b).head?).bind fun l => .ok (l.map castInt) := by
  unfold warp
  rw [hmp]
  have e1 : (if b then mp.index2 else mp.index1) = mp.source b := rfl
  have e2 : (if b then mp.index1 else mp.index2) = mp.target b := rfl
  simp only [e1, e2]
  rw [npMax_eq (fun x hx => (h.target x hx).2) h.max, Except_bind_ok, solveTies_eq h.length h.target h.max,
    Except_bind_ok, show ((jmax : Int) + 1).toNat = jmax + 1 by omega,
    mapM_ok _ (fun k : Nat => tiePoint A (mp.target b) (mp.source b) k) _ (by
      intro k hk
      rw [List.mem_range] at hk
      exact interp1d_range_numpy (jmax + 1) k hk _), Except_bind_ok]
  rfl

/-- **C41** (complete description; current scipy, which delegates to `numpy.interp`; exact arithmetic).
`warp` returns `jmax+1` integers; the `k`-th is the truncated mean of the source indices matched to `k`; if no
index is matched to `k`, it is the first source index when target index 0 is unmatched too, and the minimal
int64 otherwise (the documented interpolation does not take place). -/
theorem C41_complete (hmp : d.mapping = some mp) {b : Bool} {jmax : Nat} (h : Axes mp b jmax) :
    warp Arith.exact .numpy d b = .ok ((List.range (jmax + 1)).map fun (k : Nat) =>
      if (k : Int) ∈ mp.target b then ⌊mean (matchedTo (mp.target b) (mp.source b) k)⌋
      else if 0 ∈ mp.target b then -9223372036854775808
      else (mp.source b).head?.getD 0) := by
  rw [warp_numpy hmp h]
  have hv : ∀ k : Nat, (k : Int) ∈ mp.target b →
      tiePoint Arith.exact (mp.target b) (mp.source b) k = fin (mean (matchedTo (mp.target b) (mp.source b) k)) :=
    fun k hk => tiePoint_exact (matchedTo_ne_nil h.length hk)
  have hn : ∀ k : Nat, (k : Int) ∉ mp.target b →
      tiePoint Arith.exact (mp.target b) (mp.source b) k = nan := by
    intro k hk
    have : matchedTo (mp.target b) (mp.source b) k = [] := by
      unfold matchedTo
      rw [List.map_eq_nil_iff, List.filter_eq_nil_iff]
      intro u hu
      have := (List.of_mem_zip hu).1
      simp only [decide_eq_true_eq]
      intro he
      exact hk (he ▸ this)
    simp [tiePoint, this, Arith.divQ]
  have hcast : ∀ k : Nat, (k : Int) ∈ mp.target b →
      castInt (tiePoint Arith.exact (mp.target b) (mp.source b) k) =
        ⌊mean (matchedTo (mp.target b) (mp.source b) k)⌋ := by
    intro k hk
    rw [hv k hk]
    exact trunc_floor (mean_nonneg fun i hi => h.source i (mem_matchedTo hi))
  have h0 : (List.range (jmax + 1)).map (tiePoint Arith.exact (mp.target b) (mp.source b)) =
      tiePoint Arith.exact (mp.target b) (mp.source b) 0 ::
        (List.range jmax).map fun k => tiePoint Arith.exact (mp.target b) (mp.source b) (k + 1) := by
    rw [List.range_succ_eq_map, List.map_cons, List.map_map]; rfl
  by_cases hz : (0 : Int) ∈ mp.target b
  · have hz' : tiePoint Arith.exact (mp.target b) (mp.source b) 0 ≠ nan := by rw [hv 0 hz]; simp
    have : nanFix ((List.range (jmax + 1)).map (tiePoint Arith.exact (mp.target b) (mp.source b)))
        (mp.source b).head? = .ok ((List.range (jmax + 1)).map (tiePoint Arith.exact (mp.target b) (mp.source b))) := by
      rw [h0]
      unfold nanFix
      simp only
      rw [if_neg (by simpa using hz')]
    rw [this]
    show Except.ok _ = _
    rw [List.map_map]
    congr 1
    apply List.map_congr_left
    intro k _
    simp only [Function.comp]
    by_cases hk : (k : Int) ∈ mp.target b
    · rw [if_pos hk, hcast k hk]
    · rw [if_neg hk, if_pos hz, hn k hk]; rfl
  · have hz' : tiePoint Arith.exact (mp.target b) (mp.source b) 0 = nan := hn 0 hz
    obtain ⟨i0, hi0⟩ : ∃ i0, (mp.source b).head? = some i0 := by
      cases hs : mp.source b with
      | nil =>
        have := h.length
        rw [hs, List.length_nil, List.length_eq_zero_iff] at this
        have hm := h.max
        rw [this] at hm
        simp at hm
      | cons i0 _ => exact ⟨i0, rfl⟩
    have : nanFix ((List.range (jmax + 1)).map (tiePoint Arith.exact (mp.target b) (mp.source b)))
        (mp.source b).head? = .ok (((List.range (jmax + 1)).map (tiePoint Arith.exact (mp.target b) (mp.source b))).map
          fun x => if isNan x then fin (i0 : ℚ) else x) := by
      rw [h0, hi0]
      unfold nanFix
      simp only
      rw [if_pos (by simpa using hz')]
    rw [this]
    show Except.ok _ = _
    rw [List.map_map, List.map_map]
    congr 1
    apply List.map_congr_left
    intro k _
    simp only [Function.comp]
    by_cases hk : (k : Int) ∈ mp.target b
    · rw [if_pos hk, ← hcast k hk, hv k hk]; rfl
    · rw [if_neg hk, if_neg hz, hn k hk, hi0]
      simp [castInt, isNan, trunc_intCast]

/-- C41.  If every target index occurs, `warp` returns the truncated means (current scipy, or older scipy when
the target axis has at least two elements; exact arithmetic). -/
theorem C41_means (hmp : d.mapping = some mp) {b : Bool} {jmax : Nat} (h : Axes mp b jmax)
    (hall : ∀ k : Nat, k ≤ jmax → (k : Int) ∈ mp.target b) (impl : InterpImpl)
    (hi : impl = .numpy ∨ 1 ≤ jmax) :
    warp Arith.exact impl d b = .ok ((List.range (jmax + 1)).map fun (k : Nat) =>
      ⌊mean (matchedTo (mp.target b) (mp.source b) k)⌋) := by
  have key : warp Arith.exact impl d b = warp Arith.exact .numpy d b := by
    cases impl with
    | numpy => rfl
    | scipyLinear =>
      have hj : 1 ≤ jmax := by
        rcases hi with hi | hi
        · cases hi
        · exact hi
      rw [warp_numpy hmp h]
      unfold warp
      rw [hmp]
      have e1 : (if b then mp.index2 else mp.index1) = mp.source b := rfl
      have e2 : (if b then mp.index1 else mp.index2) = mp.target b := rfl
      simp only [e1, e2]
      have hpts : ((List.range (jmax + 1)).map fun (k : Nat) => ((k : Int), tiePoint Arith.exact (mp.target b) (mp.source b) k)) =
          (List.range (jmax + 1)).map fun (k : Nat) => ((k : Int), fin (mean (matchedTo (mp.target b) (mp.source b) k))) := by
        apply List.map_congr_left
        intro k hk
        rw [List.mem_range] at hk
        rw [tiePoint_exact (matchedTo_ne_nil h.length (hall k (by omega)))]
      rw [npMax_eq (fun x hx => (h.target x hx).2) h.max, Except_bind_ok, solveTies_eq h.length h.target h.max,
        Except_bind_ok, show ((jmax : Int) + 1).toNat = jmax + 1 by omega,
        mapM_ok _ (fun k : Nat => tiePoint Arith.exact (mp.target b) (mp.source b) k) _ (by
          intro k hk
          rw [List.mem_range] at hk
          rw [hpts, tiePoint_exact (matchedTo_ne_nil h.length (hall k (by omega)))]
          exact interp1d_range_scipy (jmax + 1) k hk (by omega) _), Except_bind_ok]
      rfl
  rw [key, C41_complete hmp h]
  congr 1
  apply List.map_congr_left
  intro k hk
  rw [List.mem_range] at hk
  rw [if_pos (hall k (by omega))]

/-! ### Rounding -/

theorem foldl_add_ints {B : Nat} (hA : ExactUpTo A B) : ∀ (l : List Int) (v : Nat), (∀ i ∈ l, 0 ≤ i) →
    (v : Int) + l.sum ≤ B →
    (l.map fun (y : Int) => fin (y : ℚ)).foldl A.add (fin (v : ℚ)) = fin (((v : Int) + l.sum : Int) : ℚ) := by
  intro l
  induction l with
  | nil => intro v _ _; simp
  | cons y l ih =>
    intro v h0 hB
    obtain ⟨y', rfl⟩ := Int.eq_ofNat_of_zero_le (h0 y (by simp))
    have hs : 0 ≤ l.sum := List.sum_nonneg fun i hi => h0 i (by simp [hi])
    rw [List.sum_cons] at hB
    have e : A.add (fin (v : ℚ)) (fin (((y' : Nat) : Int) : ℚ)) = fin ((v + y' : Nat) : ℚ) := by
      simp only [Arith.add]
      rw [← hA (v + y') (by omega)]
      congr 1
      push_cast
      ring
    rw [List.map_cons, List.foldl_cons, e, ih (v + y') (fun i hi => h0 i (by simp [hi])) (by push_cast; omega),
      List.sum_cons]
    congr 1
    push_cast
    ring

/-- **C41** (any rounding; current scipy).  If every target index occurs and index sums are exactly
representable, the `k`-th value lies between the smallest and the largest source index matched to `k`. -/
theorem C41_between {B : Nat} (hA : ExactUpTo A B) (hmp : d.mapping = some mp) {b : Bool} {jmax : Nat}
    (h : Axes mp b jmax) (hall : ∀ k : Nat, k ≤ jmax → (k : Int) ∈ mp.target b)
    (hB : ∀ k : Nat, k ≤ jmax → (matchedTo (mp.target b) (mp.source b) k).sum ≤ B) :
    ∃ out : List Int, warp A .numpy d b = .ok out ∧ out.length = jmax + 1 ∧
      ∀ (k : Nat) (v : Int), out[k]? = some v → ∀ lo hi : Int,
        (∀ i ∈ matchedTo (mp.target b) (mp.source b) k, lo ≤ i ∧ i ≤ hi) → lo ≤ v ∧ v ≤ hi := by
  have val : ∀ k : Nat, k ≤ jmax → ∃ q : ℚ, tiePoint A (mp.target b) (mp.source b) k = fin q ∧ 0 ≤ q ∧
      ∀ lo hi : Int, (∀ i ∈ matchedTo (mp.target b) (mp.source b) k, lo ≤ i ∧ i ≤ hi) → (lo : ℚ) ≤ q ∧ q ≤ hi := by
    intro k hk
    have hl0 : ∀ i ∈ matchedTo (mp.target b) (mp.source b) k, 0 ≤ i := fun i hi => h.source i (mem_matchedTo hi)
    have hle : ∀ i ∈ matchedTo (mp.target b) (mp.source b) k, i ≤ B := fun i hi =>
      le_trans (List.single_le_sum hl0 i hi) (hB k hk)
    have hne := matchedTo_ne_nil h.length (hall k hk)
    generalize hM : matchedTo (mp.target b) (mp.source b) k = l at *
    have hlen : (0 : ℚ) < l.length := by have := List.length_pos_iff.2 hne; positivity
    have hsum := hB k hk
    rw [hM] at hsum
    have ht : tiePoint A (mp.target b) (mp.source b) k = A.rnd (((l.sum : Int) : ℚ) / l.length) := by
      unfold tiePoint
      rw [hM]
      have := foldl_add_ints hA l 0 hl0 (by simpa using hsum)
      simp only [Nat.cast_zero, zero_add] at this
      rw [this]
      simp only [Arith.divQ, if_neg hlen.ne']
    have bound : ∀ lo hi : Int, (∀ i ∈ l, lo ≤ i ∧ i ≤ hi) →
        (lo : ℚ) ≤ ((l.sum : Int) : ℚ) / l.length ∧ ((l.sum : Int) : ℚ) / l.length ≤ hi := by
      intro lo hi hb
      rw [le_div_iff₀ hlen, div_le_iff₀ hlen]
      have h1 : (l.length : Int) * lo ≤ l.sum := by
        have := List.card_nsmul_le_sum l lo fun i hi => (hb i hi).1
        simpa using this
      have h2 : l.sum ≤ (l.length : Int) * hi := by
        have := List.sum_le_card_nsmul l hi fun i hi => (hb i hi).2
        simpa using this
      constructor
      · rw [mul_comm]; exact_mod_cast h1
      · rw [mul_comm]; exact_mod_cast h2
    -- a natural upper bound that occurs
    obtain ⟨i1, hi1⟩ := List.exists_mem_of_ne_nil l hne
    have rb : ∀ c : Int, 0 ≤ c → c ≤ B → A.rnd (c : ℚ) = fin (c : ℚ) := by
      intro c h0 h1
      obtain ⟨c', rfl⟩ := Int.eq_ofNat_of_zero_le h0
      have := hA c' (by omega)
      simpa using this
    have hup := A.rnd_le (bound 0 B fun i hi => ⟨hl0 i hi, hle i hi⟩).2
    have hlow := A.rnd_le (bound 0 B fun i hi => ⟨hl0 i hi, hle i hi⟩).1
    rw [rb B (by omega) (le_refl _)] at hup
    rw [rb 0 (le_refl _) (by omega)] at hlow
    rw [ht]
    cases hr : A.rnd (((l.sum : Int) : ℚ) / l.length) with
    | nan => exact absurd hr (A.rnd_ne_nan _)
    | pinf => rw [hr] at hup; simp [F64.le, F64.lt] at hup
    | ninf => rw [hr] at hlow; simp [F64.le, F64.lt] at hlow
    | fin q =>
      rw [hr] at hlow
      refine ⟨q, rfl, by simpa using hlow, ?_⟩
      intro lo hi hb
      constructor
      · by_cases h0 : 0 ≤ lo
        · have := A.rnd_le (bound lo hi hb).1
          rw [rb lo h0 (le_trans (hb i1 hi1).1 (hle i1 hi1)), hr] at this
          simpa using this
        · have : (lo : ℚ) ≤ 0 := by exact_mod_cast (by omega : lo ≤ 0)
          have h2 : (0 : ℚ) ≤ q := by simpa using hlow
          linarith
      · by_cases h1 : hi ≤ B
        · have := A.rnd_le (bound lo hi hb).2
          rw [rb hi (le_trans (hl0 i1 hi1) (hb i1 hi1).2) h1, hr] at this
          simpa using this
        · have h2 : q ≤ ((B : Int) : ℚ) := by rw [hr] at hup; simpa using hup
          have h3 : ((B : Int) : ℚ) ≤ hi := by exact_mod_cast (by omega : (B : Int) ≤ hi)
          linarith
  rw [warp_numpy hmp h, nanFix_of_ne (by simp) (by
    intro v hv
    obtain ⟨k, hk, rfl⟩ := List.mem_map.1 hv
    rw [List.mem_range] at hk
    obtain ⟨q, hq, _⟩ := val k (by omega)
    rw [hq]; simp)]
  refine ⟨_, rfl, by simp, ?_⟩
  intro k v hv lo hi hb
  rw [List.getElem?_map, List.getElem?_map] at hv
  by_cases hk : k < jmax + 1
  · rw [List.getElem?_range hk] at hv
    simp only [Option.map_some, Option.some.injEq] at hv
    obtain ⟨q, hq, h0, hqb⟩ := val k (by omega)
    rw [hq] at hv
    simp only [castInt] at hv
    rw [trunc_floor h0] at hv
    obtain ⟨b1, b2⟩ := hqb lo hi hb
    rw [← hv]
    constructor
    · exact Int.le_floor.2 b1
    · exact Int.floor_le_iff.2 (by linarith)
  · rw [List.getElem?_eq_none (by simp; omega)] at hv
    simp at hv

/-! ### Range and monotonicity -/

theorem zip_pairwise {js is : List Int} (hj : js.Pairwise (· ≤ ·)) (hi : is.Pairwise (· ≤ ·)) :
    (js.zip is).Pairwise fun u v => u.1 ≤ v.1 ∧ u.2 ≤ v.2 := by
  induction js generalizing is with
  | nil => simp
  | cons j js ih =>
    cases is with
    | nil => simp
    | cons i is =>
      rw [List.zip_cons_cons, List.pairwise_cons]
      rw [List.pairwise_cons] at hj hi
      refine ⟨?_, ih hj.2 hi.2⟩
      intro v hv
      have := List.of_mem_zip (a := v.1) (b := v.2) hv
      exact ⟨hj.1 _ this.1, hi.1 _ this.2⟩

theorem pairwise_mem {α} {R : α → α → Prop} {l : List α} (h : l.Pairwise R) {u v : α} (hu : u ∈ l) (hv : v ∈ l) :
    u = v ∨ R u v ∨ R v u := by
  induction l with
  | nil => simp at hu
  | cons x l ih =>
    rw [List.pairwise_cons] at h
    rcases List.mem_cons.1 hu with rfl | hu'
    · rcases List.mem_cons.1 hv with rfl | hv'
      · exact .inl rfl
      · exact .inr (.inl (h.1 v hv'))
    · rcases List.mem_cons.1 hv with rfl | hv'
      · exact .inr (.inr (h.1 u hu'))
      · exact ih h.2 hu' hv'

/-- On a monotone curve, what is matched to a smaller index comes first. -/
theorem matchedTo_le {js is : List Int} (hj : js.Pairwise (· ≤ ·)) (hi : is.Pairwise (· ≤ ·)) {k k' : Int} (hk : k < k')
    {i i' : Int} (h : i ∈ matchedTo js is k) (h' : i' ∈ matchedTo js is k') : i ≤ i' := by
  unfold matchedTo at h h'
  obtain ⟨u, hu, rfl⟩ := List.mem_map.1 h
  obtain ⟨v, hv, rfl⟩ := List.mem_map.1 h'
  obtain ⟨hu1, hu2⟩ := List.mem_filter.1 hu
  obtain ⟨hv1, hv2⟩ := List.mem_filter.1 hv
  simp only [decide_eq_true_eq] at hu2 hv2
  rcases pairwise_mem (zip_pairwise hj hi) hu1 hv1 with rfl | hR | hR
  · omega
  · exact hR.2
  · omega

/-- **C41** (results of `dtw`, any rounding).  For a closed-begin alignment with a step pattern that skips no
element, `warp` returns one valid index per target element, in non-decreasing order: for
`index_reference=False`, `jmin+1` query indices; for `index_reference=True`, `N` reference indices. -/
theorem C41_of_dtw {B : Nat} (hA : ExactUpTo A B) (h : Problem a n m L W p rs) (hob : a.openBegin = false)
    (hc : ∀ q ∈ rs, q.Continuous) (hr : dtw A a = .ok r) (hmp : r.mapping = some mp) (b : Bool)
    (hB : ∀ k : Int, (matchedTo (mp.target b) (mp.source b) k).sum ≤ B) :
    ∃ out : List Int, warp A .numpy r b = .ok out ∧
      (out.length : Int) = (if b then (n : Int) else r.jmin + 1) ∧
      (∀ v ∈ out, 0 ≤ v ∧ v ≤ (if b then r.jmin else (n : Int) - 1)) ∧
      out.Pairwise (· ≤ ·) := by
  have hn := h.n_pos
  obtain ⟨hj, h1, h2, _, _, h3, h4, _, _⟩ := C04_end_points h hob hr hmp
  obtain ⟨l1, _, r1, r2, _, _, hmono, _⟩ := C05_monotone_in_range h hob hr hmp
  obtain ⟨_, cov1, cov2⟩ := C28_continuous_curve h hob hc hr hmp
  have hord : ∀ q ∈ rs, q.Ordered := fun q hq => (hc q hq).imp fun u v huv => ⟨huv.1, huv.2.2.1⟩
  obtain ⟨m1, m2⟩ := hmono hord
  have hjm : ∀ x ∈ mp.index2, x ≤ r.jmin := by
    intro x hx
    have hlast : r.jmin ∈ mp.index2 := List.mem_of_getLast? h4
    obtain ⟨l', hl'⟩ : ∃ l', mp.index2 = l' ++ [r.jmin] := by
      rw [List.getLast?_eq_some_iff] at h4; exact h4
    rw [hl'] at hx m2
    rcases List.mem_append.1 hx with hx | hx
    · exact (List.pairwise_append.1 m2).2.2 x hx r.jmin (by simp)
    · simp at hx; omega
  obtain ⟨jmax, hjmax⟩ : ∃ jmax : Nat, (jmax : Int) = (if b then (n : Int) - 1 else r.jmin) := by
    cases b with
    | true => exact ⟨n - 1, by simp; omega⟩
    | false => exact ⟨r.jmin.toNat, by simp; omega⟩
  have hax : Axes mp b jmax := by
    cases b with
    | true =>
      simp only [if_true] at hjmax
      exact ⟨by simp [Mapping.target, Mapping.source, l1], fun i hi => (r2 i (by simpa [Mapping.source] using hi)).1,
        fun j hj => by have := r1 j (by simpa [Mapping.target] using hj); omega,
        by rw [hjmax]; simpa [Mapping.target] using cov1 ((n : Int) - 1) (by omega) (by omega)⟩
    | false =>
      simp only [Bool.false_eq_true, if_false] at hjmax
      exact ⟨by simp [Mapping.target, Mapping.source, l1], fun i hi => (r1 i (by simpa [Mapping.source] using hi)).1,
        fun j hj => by
          have hj' : j ∈ mp.index2 := by simpa [Mapping.target] using hj
          exact ⟨(r2 j hj').1, by rw [hjmax]; exact hjm j hj'⟩,
        by rw [hjmax]; simpa [Mapping.target] using List.mem_of_getLast? h4⟩
  have hall : ∀ k : Nat, k ≤ jmax → (k : Int) ∈ mp.target b := by
    intro k hk
    cases b with
    | true =>
      simp only [if_true] at hjmax
      simpa [Mapping.target] using cov1 k (by omega) (by omega)
    | false =>
      simp only [Bool.false_eq_true, if_false] at hjmax
      simpa [Mapping.target] using cov2 k (by omega) (by omega)
  obtain ⟨out, ho, hlen, hv⟩ := C41_between hA hmp hax hall fun k _ => hB k
  have hidx : ∀ v ∈ out, ∃ k : Nat, k ≤ jmax ∧ out[k]? = some v := by
    intro v hvm
    obtain ⟨k, hk⟩ := List.getElem?_of_mem hvm
    refine ⟨k, ?_, hk⟩
    have := (List.getElem?_eq_some_iff.1 hk).1
    omega
  refine ⟨out, ho, ?_, ?_, ?_⟩
  · rw [hlen]; push_cast; rw [hjmax]; cases b <;> simp
  · intro v hvm
    obtain ⟨k, hk, hkv⟩ := hidx v hvm
    refine hv k v hkv 0 _ fun i hi => ?_
    have hi' := mem_matchedTo hi
    refine ⟨hax.source i hi', ?_⟩
    cases b with
    | true => simpa using hjm i (by simpa [Mapping.source] using hi')
    | false => have := (r1 i (by simpa [Mapping.source] using hi')).2; simp; omega
  · have ms : (mp.source b).Pairwise (· ≤ ·) := by cases b <;> simp [Mapping.source] <;> assumption
    have mt : (mp.target b).Pairwise (· ≤ ·) := by cases b <;> simp [Mapping.target] <;> assumption
    rw [List.pairwise_iff_getElem]
    intro k k' hk hk' hlt
    have g : out[k]? = some out[k] := List.getElem?_eq_getElem hk
    have g' : out[k']? = some out[k'] := List.getElem?_eq_getElem hk'
    have hub : ∀ i' ∈ matchedTo (mp.target b) (mp.source b) k', out[k] ≤ i' := by
      intro i' hi'
      exact (hv k _ g 0 i' fun i hi => ⟨hax.source i (mem_matchedTo hi), matchedTo_le mt ms (by omega) hi hi'⟩).2
    have himax : ∀ i ∈ matchedTo (mp.target b) (mp.source b) k', i ≤ B := fun i hi =>
      le_trans (List.single_le_sum (fun i hi => hax.source i (mem_matchedTo hi)) i hi) (hB k')
    exact (hv k' _ g' _ B fun i hi => ⟨hub i hi, himax i hi⟩).1

/-! ### Concrete cases -/

/-- `warp` on the 3 × 4 symmetric2 alignment; the hypotheses of the theorems above hold for it. -/
example : (dtw Arith.exact Ex.plain).toOption.map (fun d =>
    ((warp Arith.exact .numpy d false).toOption, (warp Arith.exact .scipyLinear d true).toOption)) =
    some (some [0, 1, 2, 2], some [0, 1, 2]) := by decide +kernel

example : ∃ out : List Int, ∀ r mp, dtw Arith.exact Ex.plain = .ok r → r.mapping = some mp →
    warp Arith.exact .numpy r false = .ok out ∧ out.length = 4 := by
  refine ⟨[0, 1, 2, 2], fun r mp hr _ => ?_⟩
  have h1 : (dtw Arith.exact Ex.plain).toOption.map (fun d => (warp Arith.exact .numpy d false).toOption) =
    some (some [0, 1, 2, 2]) := by decide +kernel
  rw [hr] at h1
  simp only [Except.toOption, Option.map_some, Option.some.injEq] at h1
  cases hw : warp Arith.exact .numpy r false with
  | error e => rw [hw] at h1; simp at h1
  | ok v => rw [hw] at h1; simp only [Option.some.injEq] at h1; exact ⟨by rw [h1], rfl⟩

/-- The side condition of `C41_of_dtw` (continuous rules) holds for symmetric2. -/
example : ∀ q ∈ rulesOf Pat.symmetric2, q.Continuous := by decide +kernel

/-- C41, negative witness: a gap in the target axis is not interpolated.  The asymmetric alignment of a
2-element query with a 3-element reference matches (0,0) and (1,2); reference element 1 gets index `-2^63`. -/
theorem C41_gap_not_interpolated :
    (dtw Arith.exact { x := .d2 (Mat.ofFn 2 3 fun _ _ => fin 1), stepPattern := .name "asymmetric" }).toOption.map
      (fun d => (warp Arith.exact .numpy d false).toOption) = some (some [0, -9223372036854775808, 1]) := by
  decide +kernel

/-- C41, negative witness: with older scipy the element after the gap is lost as well. -/
theorem C41_gap_not_interpolated_scipy :
    (dtw Arith.exact { x := .d2 (Mat.ofFn 2 3 fun _ _ => fin 1), stepPattern := .name "asymmetric" }).toOption.map
      (fun d => (warp Arith.exact .scipyLinear d false).toOption) = some (some [0, 0, 0]) := by
  decide +kernel

/-- C41, negative witness: with open begin a gap after the first match is filled with the *first* query index,
which breaks monotonicity: here query 0,1,2 is matched to reference 1,3,4. -/
theorem C41_open_begin_gap :
    (dtw Arith.exact { x := .d2 (Mat.ofFn 3 5 fun i j => if j = [1, 3, 4][i]?.getD 0 then fin 0 else fin 9)
                       stepPattern := .name "asymmetric", openBegin := true }).toOption.map
      (fun d => (d.mapping.map (·.index2), (warp Arith.exact .numpy d false).toOption)) =
    some (some [1, 3, 4], some [0, 0, 0, 1, 2]) := by
  decide +kernel

/-- `warp` needs the warping path: after `distance_only=True` it raises AttributeError. -/
theorem C41_distance_only (b : Bool) (impl : InterpImpl) (hd : d.mapping = none) :
    warp A impl d b = .error .attributeError := by
  unfold warp; rw [hd]

end DTW
