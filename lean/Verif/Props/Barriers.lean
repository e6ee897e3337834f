import Verif.Props.OpenBegin

/-!
# C58: forbidden cells

NaN and +inf local costs act as barriers: no returned alignment visits them, and for step patterns that charge only the
cell they arrive at, writing NaN into a cell of the local cost matrix is the same thing as excluding it by a window.
-/

namespace DTW
open F64

variable {A : Arith} {a a' : Args} {n m : Nat} {L L' S : Nat → Nat → F64} {W W' : Nat → Nat → Bool}
  {p : StepPattern} {rs : List Rule} {r : Result} {mp : Mapping}

/-! ### One charge -/

theorem mac_nan (acc w : F64) : A.mac acc w nan = nan := by
  unfold Arith.mac
  have : (if A.fused then Arith.mulWith fin w nan else A.mul w nan) = nan := by
    unfold Arith.mul; split <;> cases w <;> rfl
  rw [this]
  cases acc <;> rfl

theorem rnd_nonneg {w : ℚ} (h : 0 ≤ w) : A.rnd w = pinf ∨ ∃ w', A.rnd w = fin w' ∧ 0 ≤ w' := by
  have h1 := A.rnd_mono 0 w h
  rw [A.rnd_zero] at h1
  have h2 := A.rnd_ne_nan w
  cases hw : A.rnd w with
  | nan => exact absurd hw h2
  | ninf => rw [hw] at h1; simp [F64.lt] at h1
  | pinf => exact .inl rfl
  | fin q => rw [hw] at h1; exact .inr ⟨q, rfl, by simpa [F64.lt] using h1⟩

/-- Charging +inf with a weight that is not negative gives a cost that no cell can carry. -/
theorem mac_pinf {w : ℚ} (h : 0 ≤ w) (acc : F64) : ¬ usable (A.mac acc (A.rnd w) pinf) := by
  have key : ∀ v, (v = nan ∨ v = pinf) → ¬ usable (A.add acc v) := by
    rintro v (rfl | rfl) <;> cases acc <;> simp [Arith.add, usable, F64.lt]
  unfold Arith.mac
  apply key
  rcases rnd_nonneg (A := A) h with hw | ⟨w', hw, h0⟩
  · rw [hw]; right; split <;> rfl
  · rw [hw]
    have : ∀ f, Arith.mulWith f (fin w') pinf = infTimes w' := fun _ => rfl
    unfold Arith.mul
    rw [this, this]
    unfold infTimes
    rcases eq_or_lt_of_le h0 with h1 | h1
    · subst h1; simp
    · rw [if_neg (ne_of_gt h1), if_pos h1]; simp

/-- `x` is a forbidden local cost for the rules `rs`: NaN, or +inf when no weight is negative. -/
def Forbidden (rs : List Rule) (x : F64) : Prop :=
  x = nan ∨ (x = pinf ∧ ∀ q ∈ rs, ∀ t ∈ q.terms, 0 ≤ t.w)

theorem foldl_mac_forbidden {i j : Nat} : ∀ (ts : List Term) (c : F64),
    (∃ t ∈ ts, L (i - t.di) (j - t.dj) = nan ∨ (L (i - t.di) (j - t.dj) = pinf ∧ 0 ≤ t.w)) →
    ¬ usable (ts.foldl (fun c t => A.mac c (A.rnd t.w) (L (i - t.di) (j - t.dj))) c) := by
  intro ts
  induction ts with
  | nil => rintro c ⟨t, ht, _⟩; simp at ht
  | cons t ts ih =>
    rintro c ⟨t', ht', hL⟩
    simp only [List.foldl_cons]
    rcases List.mem_cons.1 ht' with rfl | ht'
    · intro hu
      have hu' := foldl_mac_usable A L i j ts _ hu
      rcases hL with hL | ⟨hL, hw⟩
      · rw [hL, mac_nan] at hu'; simp [usable] at hu'
      · rw [hL] at hu'; exact mac_pinf hw c hu'
    · exact ih _ ⟨t', ht', hL⟩

/-- A rule that charges a forbidden cell leads nowhere. -/
theorem charge_forbidden {q : Rule} (hq : q ∈ rs) {i j : Nat} {t : Term} (ht : t ∈ q.terms)
    (hL : Forbidden rs (L (i - t.di) (j - t.dj))) (c : F64) : ¬ usable (charge A L q i j c) := by
  refine foldl_mac_forbidden q.terms c ⟨t, ht, ?_⟩
  rcases hL with hL | ⟨hL, hw⟩
  · exact .inl hL
  · exact .inr ⟨hL, hw q hq t ht⟩

/-- Every point a rule draws is one whose local cost it charges, when it lists its arrival cell. -/
theorem Rule.fine_charged {q : Rule} (ha : ∃ t ∈ q.terms, t.di = 0 ∧ t.dj = 0) (hv : q.Valid) {i j : Nat}
    {u : Int × Int} (hu : u ∈ q.fine i j) :
    ∃ t ∈ q.terms, u = (((i + q.a - t.di : Nat) : Int), ((j + q.b - t.dj : Nat) : Int)) := by
  unfold Rule.fine at hu
  rw [List.mem_append, List.mem_map] at hu
  rcases hu with ⟨t, ht, rfl⟩ | hu
  · have ht' := (List.mem_filter.1 ht).1
    have := hv.2 t ht'
    refine ⟨t, ht', ?_⟩
    ext <;> simp only <;> omega
  · obtain ⟨t, ht, h1, h2⟩ := ha
    refine ⟨t, ht, ?_⟩
    rw [List.mem_singleton.1 hu, h1, h2]
    ext <;> simp

/-- No point of a path of usable cost, its start excepted, is forbidden. -/
theorem Path.not_forbidden (hv : ∀ q ∈ rs, q.Valid) (ha : ∀ q ∈ rs, ∃ t ∈ q.terms, t.di = 0 ∧ t.dj = 0)
    {i0 j0 : Nat} {ks : List Int} {i j : Nat} {c : F64} (h : Path A rs W L S i0 j0 ks i j c)
    (hu : usable c) : ∀ u ∈ fineTail rs i0 j0 ks, ¬ Forbidden rs (L u.1.toNat u.2.toNat) := by
  induction h with
  | start => intro u hu; simp [fineTail] at hu
  | @step ks i j c k q hp hq hW hS ih =>
    intro u huf
    have hmem := List.mem_of_getElem? hq
    obtain ⟨pts, h1, h2⟩ := hp.toWalk.coarse_end
    rw [fineTail_snoc rs ks i0 j0 pts i j k q hq h1 h2, List.mem_append] at huf
    rcases huf with huf | huf
    · exact ih (charge_usable hu) u huf
    · obtain ⟨t, ht, rfl⟩ := Rule.fine_charged (ha q hmem) (hv q hmem) huf
      intro hf
      simp only [Int.toNat_natCast] at hf
      exact charge_forbidden hmem ht hf _ hu

theorem Path.start_usable {i0 j0 : Nat} {ks : List Int} {i j : Nat} {c : F64} (h : Path A rs W L S i0 j0 ks i j c)
    (hu : usable c) : usable (S i0 j0) := by
  induction h with
  | start => exact hu
  | step _ _ _ _ _ _ ih => exact ih (charge_usable hu)

/-- C58.  The distance is finite or -inf, with one exception: a closed-begin alignment that stops at its first cell
(one query element, matched to the first reference element only) whose local cost is +inf. -/
theorem C58_distance_usable (h : Problem a n m L W p rs) (hr : dtw A a = .ok r) :
    usable r.distance ∨ (a.openBegin = false ∧ n = 1 ∧ r.jmin = 0 ∧ L 0 0 = pinf ∧ r.distance = pinf) := by
  have hn := h.n_pos
  cases hob : a.openBegin with
  | false =>
    obtain ⟨G, D, qr, hB, _, hd⟩ := dtw_closed A h hob
    obtain ⟨j, ks, hrun⟩ := closed_ok h hob hB hd hr
    have hdist : r.distance = G (n - 1) j := by rw [hrun.result]; rfl
    have hjm : r.jmin = j := by rw [hrun.result]; rfl
    have hne := hrun.endAt.ne_nan
    by_cases hS : closedSeed L (n - 1) j = nan
    · left; rw [hdist]
      exact hB.usable_of_ne_nan (by omega) hrun.endAt.lt hS hne
    · obtain ⟨h1, h2, _⟩ := closedSeed_ne_nan hS
      have hG := (hB.seeded (n - 1) (by omega) j hrun.endAt.lt hS).1
      have hv : r.distance = L 0 0 := by
        rw [hdist, hG]; simp [closedSeed, h1, h2]
      by_cases hu : usable r.distance
      · exact .inl hu
      · have hp : r.distance = pinf := by
          by_contra hx
          exact hu (usable_iff.2 ⟨by rw [hdist]; exact hne, hx⟩)
        exact .inr ⟨rfl, by omega, by rw [hjm, h2]; rfl, by rw [← hv]; exact hp, hp⟩
  | true =>
    have hh : p.hint = "N" := by
      by_contra hh; rw [open_bad_hint h hob hh] at hr; simp at hr
    obtain ⟨G, D, qr, hB, _, hd⟩ := dtw_open A h hob hh
    obtain ⟨j, j0, ks, hrun⟩ := open_ok h hob hB hd hr
    have hdist : r.distance = G n j := by rw [hrun.result]; rfl
    left; rw [hdist]
    refine hB.usable_of_ne_nan (by omega) hrun.endAt.lt ?_ hrun.endAt.ne_nan
    simp [openSeed]; omega

/-- C58.  No point of a returned alignment has a forbidden local cost: the alignment goes round the NaN and — when no
weight is negative — the +inf cells.  (One exception: the alignment that consists of the single point (0,0), with +inf
there.)  Open ends, windows and every rounding are covered; the step pattern must list, in each rule, the cell it arrives
at (all public bundled ones do).  (With open begin some patterns draw points on the null row, which has no local cost; they are
excluded by `0 ≤ u.1`.) -/
theorem C58_path_avoids (h : Problem a n m L W p rs) (ha : ∀ q ∈ rs, ∃ t ∈ q.terms, t.di = 0 ∧ t.dj = 0)
    (hr : dtw A a = .ok r) (hmp : r.mapping = some mp) :
    ∀ u ∈ mp.index1.zip mp.index2, 0 ≤ u.1 →
      ¬ Forbidden rs (L u.1.toNat u.2.toNat) ∨
      (mp.index1 = [0] ∧ mp.index2 = [0] ∧ u = (0, 0) ∧ L 0 0 = pinf ∧ r.distance = pinf) := by
  have hnan := C02_distance_never_nan h hr
  cases hob : a.openBegin with
  | false =>
    obtain ⟨j, ks, hj, _, _, rfl, hp⟩ := closed_mapping h hob hr hmp
    intro u hu _
    have hu' : u ∈ fine rs 0 0 ks := by
      simpa [curve, zip_fst_snd] using hu
    have hpp := hp.toPath h.wf.valid hnan
    rcases C58_distance_usable h hr with hus | ⟨_, h1, h2, h3, h4⟩
    · left
      rcases List.mem_cons.1 hu' with rfl | hu'
      · have h0 := hpp.start_usable hus
        simp only [closedSeed, and_self, if_true] at h0
        simp only [Int.toNat_zero]
        rintro (hL | ⟨hL, _⟩)
        · rw [hL] at h0; simp [usable] at h0
        · rw [hL] at h0; simp [usable] at h0
      · exact hpp.not_forbidden h.wf.valid ha hus u (by simpa using hu')
    · right
      have hlen := hp.toWalk.length_le h.wf.valid
      have hks : ks = [] := List.length_eq_zero_iff.1 (by omega)
      subst hks
      refine ⟨rfl, rfl, ?_, h3, h4⟩
      simpa [fine, fineTail] using hu'
  | true =>
    obtain ⟨j, j0, ks, hj, _, rfl, hp⟩ := open_mapping h hob hr hmp
    intro u hu h0
    left
    have hus : usable r.distance := by
      rcases C58_distance_usable h hr with hus | ⟨h1, _⟩
      · exact hus
      · rw [hob] at h1; simp at h1
    rw [dropNull_curve] at hu
    simp only at hu
    rw [zip_fst_snd] at hu
    have e1 := fineTail_shift rs ks 0 j0
    simp only [zero_sub] at e1
    rw [← e1, List.mem_map] at hu
    obtain ⟨v, hv, rfl⟩ := hu
    have := hp.toPath.not_forbidden h.wf.valid ha hus v (by simpa using hv)
    simp only at h0 ⊢
    intro hf
    apply this
    have e : nullRow L v.1.toNat v.2.toNat = L (v.1 - 1).toNat v.2.toNat := by
      unfold nullRow
      rw [if_neg (by omega)]
      congr 1; omega
    rw [e]; exact hf

/-! ### NaN cells and windows -/

/-- The alignment part of a result, without the local cost matrix. -/
def Result.alignment (r : Result) : Core := { r.core with localCostMatrix := none }

theorem finish_alignment (ho : SameOptions a a') {q : Nat} {qr qr' : Option (Mat F64 × Mat F64)} (hq : 0 < q)
    {G G' : Nat → Nat → F64} {D D' : Nat → Nat → Int}
    (hG : ∀ i < q, ∀ j < m, G i j = G' i j) (hD : ∀ i < q, ∀ j < m, D i j = D' i j) (lm lm' : Mat F64) :
    (finish A a p n m qr q lm G D).map Result.alignment =
      (finish A a' p n m qr' q lm' G' D').map Result.alignment := by
  unfold finish
  have e1 : tab m (G (q - 1)) = tab m (G' (q - 1)) := by
    unfold tab
    apply List.map_congr_left
    intro j hj
    exact hG _ (by omega) _ (List.mem_range.1 hj)
  rw [e1, ofFn_congr hG, ofFn_congr hD]
  simp only
  rw [pickEnd_options ho]
  cases pickEnd a' p.hint m (Mat.ofFn q m G') (normalise A p.hint n (tab m (G' (q - 1)))) with
  | error e => rfl
  | ok jd =>
    simp only [Except_bind_ok]
    cases pickNorm p.hint (normalise A p.hint n (tab m (G' (q - 1)))) jd.1 with
    | error e => rfl
    | ok v =>
      simp only [Except_bind_ok]
      rw [pickMapping_options ho]
      cases pickMapping a' p (Mat.ofFn q m D') jd.1 with
      | error e => rfl
      | ok mp =>
        simp only [Except_bind_ok, Except.map, Result.alignment, Result.core, ho.keepInternals, ho.openBegin]

/-- A recursion in which the forbidden cells are replaced by window exclusions has the same solution. -/
theorem Bellman.mask {G : Nat → Nat → F64} {D : Nat → Nat → Int} {B : Nat → Nat → Bool}
    (ha : ∀ q ∈ rs, q.terms ≠ [] ∧ ∀ t ∈ q.terms, t.di = 0 ∧ t.dj = 0)
    (hB : Bellman A rs n m W L S G D)
    (hF : ∀ i < n, ∀ j < m, S i j = nan → B i j = true → Forbidden rs (L i j))
    (hL : ∀ i < n, ∀ j < m, S i j = nan → B i j = false → L' i j = L i j)
    (hW : ∀ i < n, ∀ j < m, S i j = nan → W' i j = (W i j && !B i j)) :
    Bellman A rs n m W' L' S G D where
  seeded := hB.seeded
  outside := by
    intro i hi j hj hS h
    rw [hW i hi j hj hS] at h
    cases hWb : W i j with
    | false => exact hB.outside i hi j hj hS hWb
    | true =>
      cases hBb : B i j with
      | false => rw [hWb, hBb] at h; simp at h
      | true =>
        rcases hB.inside i hi j hj hS hWb with ⟨k, hk, _, hu, _⟩ | ⟨_, h1, h2⟩
        · exfalso
          rw [List.getElem?_map] at hk
          obtain ⟨q, hq, hc⟩ := Option.map_eq_some_iff.1 hk
          have hmem := List.mem_of_getElem? hq
          obtain ⟨hne, h00⟩ := ha q hmem
          obtain ⟨t, ht⟩ := List.exists_mem_of_ne_nil _ hne
          have h0 := h00 t ht
          unfold cand at hc
          split at hc
          · rw [← hc] at hu
            refine charge_forbidden hmem ht ?_ _ hu
            rw [h0.1, h0.2]
            exact hF i hi j hj hS hBb
          · rw [← hc] at hu; simp [usable] at hu
        · exact ⟨h1, h2⟩
  inside := by
    intro i hi j hj hS h
    rw [hW i hi j hj hS] at h
    simp only [Bool.and_eq_true, Bool.not_eq_true'] at h
    have := hB.inside i hi j hj hS h.1
    have e : rs.map (cand A L' G i j) = rs.map (cand A L G i j) := by
      apply List.map_congr_left
      intro q hq
      unfold cand
      split
      · apply charge_congr
        intro t ht
        have h0 := (ha q hq).2 t ht
        rw [h0.1, h0.2]
        exact hL i hi j hj hS h.2
      · rfl
    rw [e]; exact this

/-- C58.  For a step pattern whose rules charge only the cell they arrive at, forbidding cells `B` by writing NaN (or +inf,
when no weight is negative) into the local cost matrix gives the same outcome — failure, distance, end point, path, cost
and direction matrices — as excluding them by the window, whatever local costs the excluded cells then have.  The start
(0,0) is not subject to the window, so its local cost is kept. -/
theorem C58_mask_is_window {B : Nat → Nat → Bool} (h : Problem a n m L W p rs) (h' : Problem a' n m L' W' p rs)
    (ho : SameOptions a a') (hob : a.openBegin = false)
    (ha : ∀ q ∈ rs, q.terms ≠ [] ∧ ∀ t ∈ q.terms, t.di = 0 ∧ t.dj = 0) (h0 : L' 0 0 = L 0 0)
    (hF : ∀ i < n, ∀ j < m, B i j = true → Forbidden rs (L i j))
    (hL : ∀ i < n, ∀ j < m, B i j = false → L' i j = L i j)
    (hW : ∀ i < n, ∀ j < m, W' i j = (W i j && !B i j)) :
    (dtw A a').map Result.alignment = (dtw A a).map Result.alignment := by
  have hob' : a'.openBegin = false := by rw [← ho.openBegin]; exact hob
  obtain ⟨G, D, qr, hB, _, hd⟩ := dtw_closed A h hob
  obtain ⟨G', D', qr', hB', _, hd'⟩ := dtw_closed A h' hob'
  have hs : closedSeed L' = closedSeed L := by unfold closedSeed; rw [h0]
  have hM := hB.mask ha (fun i hi j hj _ => hF i hi j hj) (fun i hi j hj _ => hL i hi j hj)
    (fun i hi j hj _ => hW i hi j hj)
  have hu := hB'.unique h.wf.valid hM le_rfl le_rfl le_rfl le_rfl (fun _ _ _ _ => rfl) (fun _ _ _ _ => rfl)
    (fun _ _ _ _ => by rw [hs])
  rw [hd, hd']
  exact finish_alignment ⟨ho.openBegin.symm, ho.openEnd.symm, ho.distanceOnly.symm, ho.keepInternals.symm⟩ h.n_pos
    (fun i hi j hj => (hu i hi j hj).1) (fun i hi j hj => (hu i hi j hj).2) _ _

/-- C58, open begin: the window of the extended matrix has the query rows at `i + 1`. -/
theorem C58_mask_is_window_open {B : Nat → Nat → Bool} (h : Problem a n m L W p rs)
    (h' : Problem a' n m L' W' p rs) (ho : SameOptions a a') (hob : a.openBegin = true)
    (ha : ∀ q ∈ rs, q.terms ≠ [] ∧ ∀ t ∈ q.terms, t.di = 0 ∧ t.dj = 0)
    (hF : ∀ i < n, ∀ j < m, B i j = true → Forbidden rs (L i j))
    (hL : ∀ i < n, ∀ j < m, B i j = false → L' i j = L i j)
    (hW : ∀ i < n, ∀ j < m, W' (i + 1) j = (W (i + 1) j && !B i j)) :
    (dtw A a').map Result.alignment = (dtw A a).map Result.alignment := by
  have hob' : a'.openBegin = true := by rw [← ho.openBegin]; exact hob
  by_cases hh : p.hint = "N"
  · obtain ⟨G, D, qr, hB, _, hd⟩ := dtw_open A h hob hh
    obtain ⟨G', D', qr', hB', _, hd'⟩ := dtw_open A h' hob' hh
    have hM := hB.mask (L' := nullRow L') (W' := W') (B := fun i j => B (i - 1) j) ha
      (by
        intro i hi j hj hS hb
        have hi0 : i ≠ 0 := by rintro rfl; simp [openSeed] at hS
        unfold nullRow; rw [if_neg hi0]
        exact hF (i - 1) (by omega) j hj hb)
      (by
        intro i hi j hj hS hb
        have hi0 : i ≠ 0 := by rintro rfl; simp [openSeed] at hS
        unfold nullRow; rw [if_neg hi0, if_neg hi0]
        exact hL (i - 1) (by omega) j hj hb)
      (by
        intro i hi j hj hS
        have hi0 : i ≠ 0 := by rintro rfl; simp [openSeed] at hS
        have := hW (i - 1) (by omega) j hj
        rwa [Nat.sub_add_cancel (by omega)] at this)
    have hu := hB'.unique h.wf.valid hM le_rfl le_rfl le_rfl le_rfl (fun _ _ _ _ => rfl) (fun _ _ _ _ => rfl)
      (fun _ _ _ _ => rfl)
    rw [hd, hd']
    exact finish_alignment ⟨ho.openBegin.symm, ho.openEnd.symm, ho.distanceOnly.symm, ho.keepInternals.symm⟩
      (Nat.succ_pos n) (fun i hi j hj => (hu i hi j hj).1) (fun i hi j hj => (hu i hi j hj).2) _ _
  · rw [open_bad_hint h hob hh, open_bad_hint h' hob' hh]

/-- C58.  Which bundled patterns the theorems above apply to: all but two private ones list the arrival cell in each rule
and have no negative weight (so that +inf is forbidden too); the named ones charge only the arrival cell. -/
theorem C58_bundled (q : String × StepPattern) (hq : q ∈ Pat.table)
    (hne : q.1 ≠ "_symmetricVelichkoZagoruyko" ∧ q.1 ≠ "_asymmetricP0b") :
    (∀ r ∈ rulesOf q.2, ∃ t ∈ r.terms, t.di = 0 ∧ t.dj = 0) ∧
    (∀ x, Forbidden (rulesOf q.2) x ↔ x = nan ∨ x = pinf) ∧
    (q.1 ∈ ["symmetric1", "symmetric2", "asymmetric", "symmetricP0", "asymmetricP0", "typeIIa", "typeIIb", "typeIIc",
        "typeIId", "rigid"] →
      ∀ r ∈ rulesOf q.2, r.terms ≠ [] ∧ ∀ t ∈ r.terms, t.di = 0 ∧ t.dj = 0) := by
  have h1 : (Pat.table.all fun q => decide (q.1 = "_symmetricVelichkoZagoruyko") || decide (q.1 = "_asymmetricP0b") ||
      (rulesOf q.2).all fun r => r.terms.any fun t => decide (t.di = 0 ∧ t.dj = 0)) = true := by decide +kernel
  have h2 : ∀ q ∈ Pat.table,
      q.1 ∈ ["symmetric1", "symmetric2", "asymmetric", "symmetricP0", "asymmetricP0", "typeIIa", "typeIIb", "typeIIc",
        "typeIId", "rigid"] →
      ∀ r ∈ rulesOf q.2, r.terms ≠ [] ∧ ∀ t ∈ r.terms, t.di = 0 ∧ t.dj = 0 := by decide +kernel
  refine ⟨?_, ?_, h2 q hq⟩
  · intro r hr
    have := List.all_eq_true.1 h1 q hq
    simp only [hne.1, hne.2, decide_false, Bool.false_or] at this
    obtain ⟨t, ht, h⟩ := List.any_eq_true.1 (List.all_eq_true.1 this r hr)
    exact ⟨t, ht, of_decide_eq_true h⟩
  · intro x
    have hw := C12_bundled_weights q hq hne.1
    constructor
    · rintro (h | ⟨h, _⟩)
      · exact .inl h
      · exact .inr h
    · rintro (h | h)
      · exact .inl h
      · exact .inr ⟨h, fun r hr t ht => (hw r hr t ht).1⟩

/-- C58, for `mvmStepPattern e`. -/
theorem C58_mvm (e : Nat) :
    (∀ q ∈ mvmRules e, q.terms ≠ [] ∧ ∀ t ∈ q.terms, t.di = 0 ∧ t.dj = 0) ∧
    (∀ x, Forbidden (mvmRules e) x ↔ x = nan ∨ x = pinf) := by
  have hT : ∀ q ∈ mvmRules e, q.terms = [⟨0, 0, 1⟩] := by
    intro q hq
    unfold mvmRules at hq
    obtain ⟨k, _, rfl⟩ := List.mem_map.1 hq
    rfl
  refine ⟨fun q hq => by rw [hT q hq]; simp, fun x => ⟨?_, ?_⟩⟩
  · rintro (h | ⟨h, _⟩)
    · exact .inl h
    · exact .inr h
  · rintro (h | h)
    · exact .inl h
    · refine .inr ⟨h, fun q hq t ht => ?_⟩
      rw [hT q hq, List.mem_singleton] at ht
      rw [ht]; norm_num

/-- C58, negative witness: a rule of the private `_asymmetricP0b` charges nothing, and its alignments do visit NaN cells. -/
theorem C58_uncharged_cell_visited :
    (dtw Arith.exact
      { x := .d2 (Mat.ofFn 1 3 fun _ j => if j = 0 then fin 5 else nan)
        stepPattern := .name "_asymmetricP0b" }).toOption.map (fun r => (r.distance, r.mapping.map (·.index2))) =
      some (fin 5, some [0, 1, 2]) := by decide +kernel

namespace Ex

/-- A 3 × 3 matrix with a NaN and a +inf cell. -/
def wallL : Nat → Nat → F64 := fun i j =>
  if i = 1 ∧ j = 1 then nan else if i = 1 ∧ j = 2 then pinf else fin ((i : ℚ) + j)

/-- The calls `dtw(wallL)` and … -/
def wall : Args := { x := .d2 (Mat.ofFn 3 3 wallL) }

/-- … `dtw` of the same matrix with zeros in these cells, and a window function that excludes them. -/
def wallWin : Args :=
  { x := .d2 (Mat.ofFn 3 3 fun i j => if i = 1 ∧ 1 ≤ j then fin 0 else wallL i j)
    windowType := .fn (.user fun _ i j _ _ => .ok (!decide (i = 1 ∧ 1 ≤ j))) }

theorem wall_problem : Problem wall 3 3 wallL (fun _ _ => true) Pat.symmetric2 (rulesOf Pat.symmetric2) where
  n_pos := by decide
  m_pos := by decide
  cost := .matrix rfl rfl rfl rfl
  pattern := by decide +kernel
  wf := wf_of_check (by decide +kernel)
  fits := fits_of_check (by decide +kernel)
  window := .inl ⟨rfl, fun _ _ _ _ => rfl⟩

theorem wallWin_problem : Problem wallWin 3 3 (fun i j => if i = 1 ∧ 1 ≤ j then fin 0 else wallL i j)
    (fun i j => !decide (i = 1 ∧ 1 ≤ j)) Pat.symmetric2 (rulesOf Pat.symmetric2) where
  n_pos := by decide
  m_pos := by decide
  cost := .matrix rfl rfl rfl rfl
  pattern := by decide +kernel
  wf := wf_of_check (by decide +kernel)
  fits := fits_of_check (by decide +kernel)
  window := .inr ⟨by simp [wallWin, canonWindow], by decide +kernel⟩

theorem sym2_public : ("symmetric2", Pat.symmetric2) ∈ Pat.table := by decide +kernel

/-- Both calls succeed, going round the wall, and agree. -/
example : (∃ r mp, dtw Arith.exact wall = .ok r ∧ r.mapping = some mp ∧
      ∀ u ∈ mp.index1.zip mp.index2, 0 ≤ u.1 →
        ¬ Forbidden (rulesOf Pat.symmetric2) (wallL u.1.toNat u.2.toNat) ∨ (mp.index1 = [0] ∧ mp.index2 = [0] ∧
          u = (0, 0) ∧ wallL 0 0 = pinf ∧ r.distance = pinf)) ∧
    (dtw Arith.exact wallWin).map Result.alignment = (dtw Arith.exact wall).map Result.alignment := by
  obtain ⟨h1, h2, h3⟩ := C58_bundled _ sym2_public (by decide)
  constructor
  · obtain ⟨r, hr⟩ := get_ok (x := dtw Arith.exact wall) (by decide +kernel)
    obtain ⟨mp, hmp⟩ : ∃ mp, r.mapping = some mp := by
      have : ((dtw Arith.exact wall).toOption.bind (·.mapping)).isSome = true := by decide +kernel
      rw [hr] at this
      exact Option.isSome_iff_exists.1 this
    exact ⟨r, mp, hr, hmp, C58_path_avoids wall_problem h1 hr hmp⟩
  · refine C58_mask_is_window (B := fun i j => decide (i = 1 ∧ 1 ≤ j)) wall_problem wallWin_problem
      ⟨rfl, rfl, rfl, rfl⟩ rfl (h3 (by decide)) rfl ?_ ?_ ?_
    · intro i _ j hj hb
      rw [h2]
      have : i = 1 ∧ 1 ≤ j := of_decide_eq_true hb
      unfold wallL
      by_cases h : j = 1
      · left; simp [this.1, h]
      · right; simp [this.1, show j = 2 by omega]
    · intro i _ j _ hb
      have : ¬ (i = 1 ∧ 1 ≤ j) := of_decide_eq_false hb
      exact if_neg this
    · intro i _ j _; simp

end Ex

end DTW
