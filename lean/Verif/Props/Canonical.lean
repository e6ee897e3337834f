import Verif.Props.OpenBegin
import Verif.Props.Substructure
import Verif.Props.Witnesses
import Verif.Props.Series

/-!
# C77: what lies off the alignment does not matter

The alignment `dtw` returns is decided by the cells it uses: making the other cells dearer, or forbidding them altogether,
changes neither the alignment nor its distance.
-/

namespace DTW
open F64

variable {A : Arith} {a a' : Args} {n m : Nat} {L L' S G G' : Nat → Nat → F64} {W W' : Nat → Nat → Bool}
  {D D' : Nat → Nat → Int} {p : StepPattern} {rs : List Rule} {r : Result} {mp : Mapping}

/-- The local cost `x'` is at least as dear as `x`: it is the same, or NaN (no match possible), or - when the step weights
are not negative - a number (or infinity) that is not smaller. -/
def Dearer (A : Arith) (rs : List Rule) (x x' : F64) : Prop :=
  x' = x ∨ x' = nan ∨ (NonnegWeights A rs ∧ ∃ q, x = fin q ∧ F64.le (fin q) x')

theorem mac_nan_cost (c w : F64) : A.mac c w nan = nan := by
  unfold Arith.mac
  have : (if A.fused then Arith.mulWith fin w nan else A.mul w nan) = nan := by
    split <;> cases w <;> rfl
  rw [this]
  cases c <;> rfl

/-- Dearer local costs on top of a dearer origin. -/
theorem charge_dearer {q : Rule} (hq : q ∈ rs) {i j : Nat}
    (hl : ∀ t ∈ q.terms, Dearer A rs (L (i - t.di) (j - t.dj)) (L' (i - t.di) (j - t.dj)))
    {c c' : F64} (hc : F64.le c c') (hu : usable (charge A L' q i j c')) :
    F64.le (charge A L q i j c) (charge A L' q i j c') := by
  have hw : NonnegWeights A rs → ∀ t ∈ q.terms, 0 ≤ t.w ∧ A.rnd t.w ≠ pinf := fun h => h q hq
  unfold charge at hu ⊢
  generalize q.terms = ts at hw hl hu
  induction ts generalizing c c' with
  | nil => exact hc
  | cons t ts ih =>
    simp only [List.foldl_cons] at hu ⊢
    have hu1 := foldl_mac_usable A L' i j ts _ hu
    refine ih ?_ (fun h t' ht' => hw h t' (List.mem_cons_of_mem _ ht'))
      (fun t' ht' => hl t' (List.mem_cons_of_mem _ ht')) hu
    rcases hl t (List.mem_cons_self ..) with e | e | ⟨hN, x, ex, hx⟩
    · rw [e] at hu1 ⊢
      exact A.mac_mono hc hu1
    · rw [e, mac_nan_cost] at hu1
      simp [usable, F64.lt] at hu1
    · obtain ⟨w', hw', hw0⟩ := rnd_weight (hw hN t (List.mem_cons_self ..))
      rw [hw'] at hu1 ⊢
      rw [ex]
      exact A.mac_mono2 hw0 hc hx hu1

theorem Path.dearer {q : Nat} (hsub : ∀ i < q, ∀ j < m, W' i j = true → W i j = true)
    (hl : ∀ i < q, ∀ j < m, Dearer A rs (L i j) (L' i j)) {i0 j0 ks i j c'}
    (h : Path A rs W' L' S i0 j0 ks i j c') : i < q → j < m → (ks ≠ [] → usable c') →
    ∃ c, Path A rs W L S i0 j0 ks i j c ∧ F64.le c c' := by
  induction h with
  | start hn => intro hi hj _; exact ⟨_, .start _ _ hn, F64.le_refl hn⟩
  | @step ks i j c' k r hp hr hW hn ih =>
    intro hi hj hu
    have huc := hu (by simp)
    obtain ⟨c, hc, hle⟩ := ih (by omega) (by omega) (fun _ => charge_usable huc)
    exact ⟨_, .step k r hc hr (hsub _ hi _ hj hW) hn, charge_dearer (List.mem_of_getElem? hr)
      (fun t _ => hl _ (by omega) _ (by omega)) hle huc⟩

theorem Bellman.dearer {q : Nat} (hv : ∀ r ∈ rs, r.Valid) (hsub : ∀ i < q, ∀ j < m, W' i j = true → W i j = true)
    (hl : ∀ i < q, ∀ j < m, Dearer A rs (L i j) (L' i j)) (hB : Bellman A rs q m W L S G D)
    (hB' : Bellman A rs q m W' L' S G' D') {i j : Nat} (hi : i < q) (hj : j < m) (hG : G' i j ≠ nan) :
    F64.le (G i j) (G' i j) := by
  by_cases h0 : S i j = nan
  · obtain ⟨i0, j0, ks, hp, _⟩ := hB'.sound hv _ i j rfl hi hj hG
    have hu := hB'.usable_of_ne_nan hi hj h0 hG
    obtain ⟨c, hc, hle⟩ := hp.dearer hsub hl hi hj (fun _ => hu)
    exact F64.le_trans (hB.optimal hc hi hj (usable_of_le hle hu)) hle
  · rw [(hB'.seeded i hi j hj h0).1, (hB.seeded i hi j hj h0).1]
    exact F64.le_refl h0

theorem charge_agree {q : Rule} {i j : Nat}
    (hl : ∀ t ∈ q.terms, L' (i - t.di) (j - t.dj) = L (i - t.di) (j - t.dj)) (c : F64) :
    charge A L' q i j c = charge A L q i j c := by
  unfold charge
  generalize q.terms = ts at hl
  induction ts generalizing c with
  | nil => rfl
  | cons t ts ih =>
    simp only [List.foldl_cons]
    rw [hl t (List.mem_cons_self ..)]
    exact ih _ (fun t' ht' => hl t' (List.mem_cons_of_mem _ ht'))

/-- Along the trace the two systems agree: same cells, same directions. -/
theorem Bellman.kept {q : Nat} (hv : ∀ r ∈ rs, r.Valid) (hsub : ∀ i < q, ∀ j < m, W' i j = true → W i j = true)
    (hl : ∀ i < q, ∀ j < m, Dearer A rs (L i j) (L' i j)) (hB : Bellman A rs q m W L S G D)
    (hB' : Bellman A rs q m W' L' S G' D') {i0 j0 ks i j} (ht : Trace rs D S i0 j0 ks i j) : i < q → j < m →
    (∀ i j : Nat, ((i : Int), (j : Int)) ∈ (coarse rs i0 j0 ks).tail → W' i j = true) →
    (∀ i j : Nat, ((i : Int), (j : Int)) ∈ fineTail rs i0 j0 ks → L' i j = L i j) →
    G' i j = G i j ∧ Trace rs D' S i0 j0 ks i j := by
  induction ht with
  | start hS hD =>
    intro hi hj _ _
    exact ⟨by rw [(hB'.seeded _ hi _ hj hS).1, (hB.seeded _ hi _ hj hS).1], .start _ _ hS (hB'.seeded _ hi _ hj hS).2⟩
  | @step ks i j k q' ht hr hS hD ih =>
    intro hi hj hW hL
    have hvr := hv q' (List.mem_of_getElem? hr)
    rw [ht.coarse_snoc hr] at hW
    have hf : fineTail rs i0 j0 (ks ++ [(k : Int) + 1]) = fineTail rs i0 j0 ks ++ q'.fine i j := by
      have := ht.fine_snoc hr
      unfold fine at this
      simpa using this
    rw [hf] at hL
    have hne : coarse rs i0 j0 ks ≠ [] := by
      obtain ⟨pts, h1, _⟩ := ht.coarse_end
      rw [h1]; simp
    rw [List.tail_append_of_ne_nil hne] at hW
    obtain ⟨hG, htr⟩ := ih (by omega) (by omega) (fun i j h => hW i j (List.mem_append_left _ h))
      (fun i j h => hL i j (List.mem_append_left _ h))
    have hW1 : W' (i + q'.a) (j + q'.b) = true := hW _ _ (List.mem_append_right _ (by simp))
    have hW0 := hsub _ hi _ hj hW1
    have hb := hB.inside _ hi _ hj hS hW0
    have hb' := hB'.inside _ hi _ hj hS hW1
    have hcell : ∀ t ∈ q'.terms, L' (i + q'.a - t.di) (j + q'.b - t.dj) = L (i + q'.a - t.di) (j + q'.b - t.dj) := by
      intro t htm
      obtain ⟨_, h1, h2⟩ := hvr.2 t htm
      apply hL
      apply List.mem_append_right
      unfold Rule.fine
      by_cases h0 : t.di ≠ 0 ∨ t.dj ≠ 0
      · apply List.mem_append_left
        refine List.mem_map.2 ⟨t, List.mem_filter.2 ⟨htm, by simpa using h0⟩, ?_⟩
        rw [Nat.cast_sub (by omega), Nat.cast_sub (by omega)]
        push_cast
        rfl
      · push Not at h0
        apply List.mem_append_right
        simp [h0.1, h0.2]
    have hcand : ∀ x ∈ rs, usable (cand A L' G' (i + q'.a) (j + q'.b) x) →
        F64.le (cand A L G (i + q'.a) (j + q'.b) x) (cand A L' G' (i + q'.a) (j + q'.b) x) := by
      intro x hx hu
      unfold cand at hu ⊢
      split at hu
      · rename_i hle
        simp only [if_pos hle]
        have hu1 := charge_usable hu
        exact charge_dearer hx (fun t _ => hl _ (by omega) _ (by omega))
          (hB.dearer hv hsub hl hB' (by omega) (by omega) (usable_ne_nan hu1)) hu
      · simp [usable, F64.lt] at hu
    have hk : cand A L' G' (i + q'.a) (j + q'.b) q' = cand A L G (i + q'.a) (j + q'.b) q' := by
      unfold cand
      simp only [Nat.le_add_left, and_self, if_true, Nat.add_sub_cancel]
      rw [hG, charge_agree hcell]
    have hbest : IsBest (rs.map (cand A L' G' (i + q'.a) (j + q'.b))) (G (i + q'.a) (j + q'.b)) ((k : Int) + 1) := by
      rcases hb with ⟨k1, h1, h2, h3, h4, h5⟩ | ⟨_, _, h3⟩
      · have : k1 = k := by omega
        subst this
        rw [List.getElem?_map, hr, Option.map_some, Option.some.injEq] at h1
        left
        refine ⟨k1, by rw [List.getElem?_map, hr, Option.map_some, hk, h1], rfl, h3, ?_, ?_⟩
        · intro x hx
          obtain ⟨y, hy, rfl⟩ := List.mem_map.1 hx
          by_contra hlt
          rw [Bool.not_eq_false] at hlt
          have hu : usable (cand A L' G' (i + q'.a) (j + q'.b) y) := usable_of_le (F64.le_of_lt hlt) h3
          have := F64.lt_of_le_of_lt (hcand y hy hu) hlt
          rw [h4 _ (List.mem_map_of_mem hy)] at this
          cases this
        · intro k' hk' x hx he
          subst he
          rw [List.getElem?_map] at hx
          cases hy : rs[k']? with
          | none => rw [hy] at hx; simp at hx
          | some y =>
            rw [hy, Option.map_some, Option.some.injEq] at hx
            have hym := List.mem_of_getElem? hy
            have hle := hcand y hym (by rw [hx]; exact h3)
            rw [hx] at hle
            have e : cand A L G (i + q'.a) (j + q'.b) y = G (i + q'.a) (j + q'.b) :=
              F64.le_antisymm hle ⟨hle.2.1, hle.1, h4 _ (List.mem_map_of_mem hym)⟩
            exact h5 k' hk' _ (by rw [List.getElem?_map, hy]; rfl) e
      · rw [h3] at hD
        unfold intMin at hD
        omega
    obtain ⟨e1, e2⟩ := hb'.unique hbest
    exact ⟨e1, .step k q' htr hr hS e2⟩

/-- The two calls end in the same column. -/
theorem EndAt.kept {hint : String} {q j j' : Nat} (hn : 0 < n) (hoe : a.openEnd = a'.openEnd)
    (hdom : ∀ j < m, G' (q - 1) j ≠ nan → F64.le (G (q - 1) j) (G' (q - 1) j))
    (h : EndAt A a hint n m q G j) (h' : EndAt A a' hint n m q G' j') (he : G' (q - 1) j = G (q - 1) j) : j' = j := by
  cases hc : a.openEnd with
  | false => rw [h.closed hc, h'.closed (by rw [← hoe]; exact hc)]
  | true =>
    have hb := (h.opened hc).2
    have hb' := (h'.opened (by rw [← hoe]; exact hc)).2
    have hle : F64.le (normBy A hint n j (G (q - 1) j)) (normBy A hint n j' (G' (q - 1) j')) := by
      have h1 := hdom j' h'.lt h'.ne_nan
      exact F64.le_trans (hb.min j' h'.lt (normBy_ne_nan A hn h1.1)) (normBy_mono A hint hn h1)
    rcases Nat.lt_trichotomy j' j with hlt | heq | hgt
    · have h1 := hdom j' h'.lt h'.ne_nan
      have h2 := hb.first j' hlt (normBy_ne_nan A hn h1.1)
      have h3 := F64.lt_of_lt_of_le h2 (normBy_mono A hint (j := j') hn h1)
      have h4 := hb'.min j h.lt (by rw [he]; exact hb.num)
      simp only [he] at h4
      have := h4.2.2
      rw [h3] at this
      cases this
    · exact heq
    · have h2 := hb'.first j hgt (by rw [he]; exact hb.num)
      simp only [he] at h2
      have := hle.2.2
      rw [h2] at this
      cases this

/-- C77.  Let `dtw` return an alignment (closed begin, end closed or open).  Take another call about series of the same
lengths, with the same step pattern, whose local costs are the same on the cells the alignment visits and at least as dear
elsewhere, and whose window is contained in the first one and still contains the corner points of the alignment.  It returns
the same alignment, at the same distance - in any arithmetic. -/
theorem C77_kept (h : Problem a n m L W p rs) (h' : Problem a' n m L' W' p rs) (hob : a.openBegin = false)
    (hob' : a'.openBegin = false) (hoe : a.openEnd = a'.openEnd) (hdo' : a'.distanceOnly = false)
    (hr : dtw A a = .ok r) (hmp : r.mapping = some mp) (hfin : a.openEnd = true → usable r.normalizedDistance)
    (hdear : ∀ i < n, ∀ j < m, Dearer A rs (L i j) (L' i j))
    (hcells : ∀ (t i j : Nat), mp.index1[t]? = some (i : Int) → mp.index2[t]? = some (j : Int) → L' i j = L i j)
    (hsub : ∀ i < n, ∀ j < m, W' i j = true → W i j = true)
    (hcorners : ∀ (t i j : Nat), 0 < t → mp.index1s[t]? = some (i : Int) → mp.index2s[t]? = some (j : Int) → W' i j = true) :
    ∃ r', dtw A a' = .ok r' ∧ r'.mapping = some mp ∧ r'.distance = r.distance ∧
      r'.normalizedDistance = r.normalizedDistance ∧ r'.jmin = r.jmin := by
  have hn := h.n_pos
  have hm := h.m_pos
  obtain ⟨G, D, qr, hB, _, hd⟩ := dtw_closed A h hob
  obtain ⟨G', D', qr', hB', _, hd'⟩ := dtw_closed A h' hob'
  obtain ⟨j, ks, hrun⟩ := closed_ok h hob hB hd hr
  have hmp' : mp = curve rs 0 0 ks := by
    have : r.mapping = if a.distanceOnly then none else some (curve rs 0 0 ks) := by rw [hrun.result]; rfl
    rw [hmp] at this
    split at this
    · cases this
    · exact Option.some.inj this
  subst hmp'
  have h00 : L' 0 0 = L 0 0 := hcells 0 0 0 (by simp [curve, fine]) (by simp [curve, fine])
  have hseed : closedSeed L' = closedSeed L := by
    funext i j; unfold closedSeed; rw [h00]
  rw [hseed] at hB'
  have hlt := hrun.endAt.lt
  obtain ⟨hG, ht⟩ := hB.kept h.wf.valid hsub hdear hB' hrun.trace (by omega) hlt
    (by
      intro i j hij
      obtain ⟨t, ht⟩ := List.mem_iff_getElem?.1 hij
      rw [List.getElem?_tail] at ht
      simp only [Nat.cast_zero] at ht
      refine hcorners (t + 1) i j (by omega) ?_ ?_ <;> simp [curve, ht])
    (by
      intro i j hij
      obtain ⟨t, ht⟩ := List.mem_iff_getElem?.1 hij
      simp only [Nat.cast_zero] at ht
      refine hcells (t + 1) i j ?_ ?_ <;> simp [curve, fine, ht])
  have hdom : ∀ j < m, G' (n - 1) j ≠ nan → F64.le (G (n - 1) j) (G' (n - 1) j) := fun j hj hne =>
    hB.dearer h.wf.valid hsub hdear hB' (by omega) hj hne
  rw [← hseed] at hB'
  have hne : G' (n - 1) j ≠ nan := by rw [hG]; exact hrun.endAt.ne_nan
  have hnd : r.normalizedDistance = if p.hint = "NA" then nan else normBy A p.hint n j (G (n - 1) j) := by
    rw [hrun.result]; rfl
  obtain ⟨r', hr'⟩ : ∃ r', dtw A a' = .ok r' := by
    cases hc : a.openEnd with
    | false =>
      have hc' : a'.openEnd = false := by rw [← hoe]; exact hc
      rcases closed_closed h' hob' hc' hB' hd' with ⟨h1, _⟩ | ⟨_, h1⟩
      · rw [← hrun.endAt.closed hc] at h1
        exact absurd h1 hne
      · exact h1
    | true =>
      have hc' : a'.openEnd = true := by rw [← hoe]; exact hc
      have hNA := (hrun.endAt.opened hc).1
      have hu := hfin hc
      rw [hnd, if_neg hNA, ← hG] at hu
      obtain ⟨k, hk, hkn, hpe⟩ := pickEnd_open_ok (a := a') (G := G') hn hc' hNA hlt hu
      exact closed_succeeds h' hob' hB' hd' hk hkn hpe
  obtain ⟨j', ks', hrun'⟩ := closed_ok h' hob' hB' hd' hr'
  obtain rfl := hrun.endAt.kept hn hoe hdom hrun'.endAt hG
  have htr := hrun'.trace
  rw [hseed] at htr
  obtain ⟨_, _, rfl⟩ := htr.det h.wf.valid ht
  refine ⟨r', hr', by rw [hrun'.result]; simp [mkResult, hdo'], ?_, ?_, ?_⟩
  · rw [hrun'.result, hrun.result]; exact hG
  · rw [hnd, hrun'.result]; simp only [mkResult, hG]
  · rw [hrun'.result, hrun.result]; rfl

theorem Trace.rows_pos {i0 j0 ks i j} (ht : Trace rs D openSeed i0 j0 ks i j) :
    ∀ x ∈ (coarse rs i0 j0 ks).tail, 0 < x.1 := by
  induction ht with
  | start => simp [coarse]
  | @step ks i j k q ht hr hS hD ih =>
    rw [ht.coarse_snoc hr]
    have hne : coarse rs i0 j0 ks ≠ [] := by
      obtain ⟨pts, h1, _⟩ := ht.coarse_end
      rw [h1]; simp
    rw [List.tail_append_of_ne_nil hne]
    intro x hx
    rcases List.mem_append.1 hx with hx | hx
    · exact ih x hx
    · simp only [List.mem_singleton] at hx
      subst hx
      by_contra hc
      have : i + q.a = 0 := by simp at hc; omega
      simp [openSeed, this] at hS

/-- C77, open begin (end closed or open); the window is given in the coordinates of the matrix on which the recursion runs,
where the query element `i` is row `i + 1`. -/
theorem C77_kept_open_begin (h : Problem a n m L W p rs) (h' : Problem a' n m L' W' p rs) (hob : a.openBegin = true)
    (hob' : a'.openBegin = true) (hoe : a.openEnd = a'.openEnd) (hdo' : a'.distanceOnly = false)
    (hr : dtw A a = .ok r) (hmp : r.mapping = some mp) (hfin : a.openEnd = true → usable r.normalizedDistance)
    (hdear : ∀ i < n, ∀ j < m, Dearer A rs (L i j) (L' i j))
    (hcells : ∀ (t i j : Nat), mp.index1[t]? = some (i : Int) → mp.index2[t]? = some (j : Int) → L' i j = L i j)
    (hsub : ∀ i < n + 1, ∀ j < m, W' i j = true → W i j = true)
    (hcorners : ∀ (t i j : Nat), mp.index1s[t]? = some (i : Int) → mp.index2s[t]? = some (j : Int) → W' (i + 1) j = true) :
    ∃ r', dtw A a' = .ok r' ∧ r'.mapping = some mp ∧ r'.distance = r.distance ∧
      r'.normalizedDistance = r.normalizedDistance ∧ r'.jmin = r.jmin := by
  have hn := h.n_pos
  have hm := h.m_pos
  have hh : p.hint = "N" := by
    by_contra hc
    rw [open_bad_hint h hob hc] at hr
    cases hr
  obtain ⟨G, D, qr, hB, _, hd⟩ := dtw_open A h hob hh
  obtain ⟨G', D', qr', hB', _, hd'⟩ := dtw_open A h' hob' hh
  obtain ⟨j, j0, ks, hrun⟩ := open_ok h hob hB hd hr
  have hmp' : mp = (curve rs 0 j0 ks).dropNull := by
    have : r.mapping = some (curve rs 0 j0 ks).dropNull := by rw [hrun.result]; rfl
    rw [hmp] at this
    exact Option.some.inj this
  subst hmp'
  have hlt := hrun.endAt.lt
  have hdear' : ∀ i < n + 1, ∀ j < m, Dearer A rs (nullRow L i j) (nullRow L' i j) := by
    intro i hi j hj
    unfold nullRow
    split
    · exact .inl rfl
    · exact hdear _ (by omega) _ hj
  have hrows : ∀ x ∈ (coarse rs ((0 : Nat) : Int) j0 ks).tail, 0 < x.1 := hrun.trace.rows_pos
  obtain ⟨hG, ht⟩ := hB.kept h.wf.valid hsub hdear' hB' hrun.trace (by omega) hlt
    (by
      intro i j hij
      have hpos := hrows _ hij
      obtain ⟨t, ht⟩ := List.mem_iff_getElem?.1 hij
      simp only [Nat.cast_zero] at ht
      obtain ⟨i, rfl⟩ : ∃ i', i = i' + 1 := ⟨i - 1, by simp at hpos; omega⟩
      refine hcorners t i j ?_ ?_ <;> simp [curve, Mapping.dropNull, ← List.map_tail, ht])
    (by
      intro i j hij
      unfold nullRow
      split
      · rfl
      · obtain ⟨t, ht⟩ := List.mem_iff_getElem?.1 hij
        simp only [Nat.cast_zero] at ht
        obtain ⟨i, rfl⟩ : ∃ i', i = i' + 1 := ⟨i - 1, by omega⟩
        refine hcells t i j ?_ ?_ <;> simp [curve, fine, Mapping.dropNull, ht])
  have hdom : ∀ j < m, G' (n + 1 - 1) j ≠ nan → F64.le (G (n + 1 - 1) j) (G' (n + 1 - 1) j) := fun j hj hne =>
    hB.dearer h.wf.valid hsub hdear' hB' (by omega) hj hne
  have hne : G' n j ≠ nan := by rw [hG]; exact hrun.endAt.ne_nan
  have hnd : r.normalizedDistance = if p.hint = "NA" then nan else normBy A p.hint n j (G n j) := by
    rw [hrun.result]; rfl
  obtain ⟨r', hr'⟩ : ∃ r', dtw A a' = .ok r' := by
    cases hc : a.openEnd with
    | false =>
      have hc' : a'.openEnd = false := by rw [← hoe]; exact hc
      rcases open_closed h' hob' hc' hB' hd' with ⟨h1, _⟩ | ⟨_, h1⟩
      · rw [← hrun.endAt.closed hc] at h1
        exact absurd h1 hne
      · rw [hdo'] at h1
        exact h1
    | true =>
      have hc' : a'.openEnd = true := by rw [← hoe]; exact hc
      have hNA := (hrun.endAt.opened hc).1
      have hu := hfin hc
      rw [hnd, if_neg hNA, ← hG] at hu
      obtain ⟨k, hk, hkn, hpe⟩ := pickEnd_open_ok (a := a') (G := G') (q := n + 1) (Nat.succ_pos n) hc' hNA hlt hu
      exact open_succeeds h' hob' hdo' hB' hd' hk hkn hpe
  obtain ⟨j', j0', ks', hrun'⟩ := open_ok h' hob' hB' hd' hr'
  obtain rfl := hrun.endAt.kept hn hoe hdom hrun'.endAt hG
  obtain ⟨_, rfl, rfl⟩ := hrun'.trace.det h.wf.valid ht
  refine ⟨r', hr', by rw [hrun'.result]; rfl, ?_, ?_, ?_⟩
  · rw [hrun'.result, hrun.result]; exact hG
  · rw [hnd, hrun'.result]; simp only [mkResult, Nat.add_sub_cancel, hG]
  · rw [hrun'.result, hrun.result]; rfl

/-! ### Ties -/

/-- `ks` precedes `ks'` when they are compared from their ends: they finish alike, and before the common ending the rule of
`ks` has the smaller number. -/
def Precedes (ks ks' : List Int) : Prop :=
  ∃ s s' u x y, ks = s ++ x :: u ∧ ks' = s' ++ y :: u ∧ x < y

theorem Precedes.snoc {ks ks' : List Int} (h : Precedes ks ks') (z : Int) : Precedes (ks ++ [z]) (ks' ++ [z]) := by
  obtain ⟨s, s', u, x, y, rfl, rfl, hxy⟩ := h
  exact ⟨s, s', u ++ [z], x, y, by simp, by simp, hxy⟩

theorem Precedes.asymm {ks ks' : List Int} (h : Precedes ks ks') (h' : Precedes ks' ks) : False := by
  obtain ⟨s, s', u, x, y, e1, e2, hxy⟩ := h
  obtain ⟨t, t', v, z, w, e3, e4, hzw⟩ := h'
  have r1 : ks.reverse = u.reverse ++ x :: s.reverse := by rw [e1]; simp
  have r2 : ks'.reverse = u.reverse ++ y :: s'.reverse := by rw [e2]; simp
  have r3 : ks'.reverse = v.reverse ++ z :: t.reverse := by rw [e3]; simp
  have r4 : ks.reverse = v.reverse ++ w :: t'.reverse := by rw [e4]; simp
  generalize ks.reverse = l1 at *
  generalize ks'.reverse = l2 at *
  generalize u.reverse = u at *
  generalize v.reverse = v at *
  clear e1 e2 e3 e4
  induction u generalizing v l1 l2 with
  | nil =>
    cases v with
    | nil => simp_all; omega
    | cons b v => simp_all
  | cons b u ih =>
    cases v with
    | nil => simp_all
    | cons c v =>
      simp only [List.cons_append] at r1 r2 r3 r4
      subst r1 r2
      simp only [List.cons.injEq] at r3 r4
      exact ih _ _ rfl rfl v r4.2 r3.2

theorem mac_finite {c l : F64} {w v : ℚ} (h : Arith.exact.mac c (fin w) l = fin v) :
    (∃ x, c = fin x) ∧ ∃ y, l = fin y := by
  cases l <;> cases c <;> simp [Arith.mac, Arith.exact, Arith.mul, Arith.mulWith, Arith.add, infTimes] at h ⊢
  all_goals
    split_ifs at h

/-- Without rounding a finite charge is a finite amount added to the origin's cost. -/
theorem charge_finite {q : Rule} {i j : Nat} {c : F64} {v : ℚ} (h : charge Arith.exact L q i j c = fin v) :
    (∃ x, c = fin x) ∧
    ∃ t : ℚ, (∀ x, charge Arith.exact L q i j (fin x) = fin (x + t)) ∧ charge Arith.exact L q i j ninf = ninf := by
  unfold charge at h ⊢
  generalize q.terms = ts at h
  induction ts generalizing c with
  | nil => exact ⟨⟨v, h⟩, 0, by simp, rfl⟩
  | cons t ts ih =>
    simp only [List.foldl_cons] at h ⊢
    obtain ⟨⟨x, hx⟩, t1, h1, h2⟩ := ih h
    obtain ⟨hc, y, hy⟩ := mac_finite hx
    refine ⟨hc, t.w * y + t1, ?_, ?_⟩
    · intro x
      rw [hy, show Arith.exact.mac (fin x) (Arith.exact.rnd t.w) (fin y) = fin (x + t.w * y) from rfl, h1, add_assoc]
    · rw [hy, show Arith.exact.mac ninf (Arith.exact.rnd t.w) (fin y) = ninf from rfl, h2]

theorem Trace.inv {i0 j0 ks i j} (ht : Trace rs D S i0 j0 ks i j) (hS : S i j = nan) :
    ∃ (i2 j2 k : Nat) (q : Rule) (ks1 : List Int), ks = ks1 ++ [(k : Int) + 1] ∧ Trace rs D S i0 j0 ks1 i2 j2 ∧
      rs[k]? = some q ∧ i = i2 + q.a ∧ j = j2 + q.b ∧ D i j = (k : Int) + 1 := by
  cases ht with
  | start hS' _ => exact absurd hS hS'
  | step k q ht hq _ hD => exact ⟨_, _, k, q, _, rfl, ht, hq, rfl, rfl, hD⟩

/-- Every optimal path to a cell equals the trace of that cell, or is preceded by it. -/
theorem Bellman.precedes (hB : Bellman Arith.exact rs n m W L S G D) {i0 j0 ks i j c}
    (hp : Path Arith.exact rs W L S i0 j0 ks i j c) : i < n → j < m → (∃ v, c = fin v) → c = G i j →
    ∀ {i1 j1 ks0}, Trace rs D S i1 j1 ks0 i j → ks0 = ks ∨ Precedes ks0 ks := by
  induction hp with
  | start hS =>
    intro hi hj _ _ i1 j1 ks0 ht
    cases ht with
    | start => exact .inl rfl
    | step k r _ _ hS' _ => exact absurd hS' hS
  | @step ks i j c k q hp hq hW hS ih =>
    intro hi hj hfin hG i1 j1 ks0 ht
    obtain ⟨v, hv'⟩ := hfin
    obtain ⟨⟨x, hx⟩, t, h1, h2⟩ := charge_finite hv'
    subst hx
    have hopt := hB.optimal hp (by omega) (by omega) (by simp [usable, F64.lt])
    have hb := hB.inside _ hi _ hj hS hW
    rw [← hG] at hb
    have hcand : cand Arith.exact L G (i + q.a) (j + q.b) q = charge Arith.exact L q (i + q.a) (j + q.b) (G i j) := by
      unfold cand
      simp
    have hmem : cand Arith.exact L G (i + q.a) (j + q.b) q ∈ rs.map (cand Arith.exact L G (i + q.a) (j + q.b)) :=
      List.mem_map_of_mem (List.mem_of_getElem? hq)
    rw [h1] at hb hG
    have hGo : G i j = fin x := by
      cases hg : G i j with
      | nan => exact absurd hg hopt.1
      | pinf => rw [hg] at hopt; simp [F64.le, F64.lt] at hopt
      | ninf =>
        rw [hcand, hg, h2] at hmem
        have := (hb.le hmem (by simp [usable, F64.lt])).2.2
        simp [F64.lt] at this
      | fin y =>
        rw [hg, F64.le_fin] at hopt
        rw [hcand, hg, h1] at hmem
        have := hb.le hmem (by simp [usable, F64.lt])
        rw [F64.le_fin] at this
        congr 1
        linarith
    rw [hGo, h1] at hcand
    obtain ⟨i2, j2, k1, r, ks1, rfl, ht1, hr, e1, e2, hD⟩ := ht.inv hS
    rw [hD] at hb
    rcases hb with ⟨k2, g1, g2, g3, g4, g5⟩ | ⟨_, g2, _⟩
    · have : k2 = k1 := by omega
      subst this
      have hcq : (rs.map (cand Arith.exact L G (i + q.a) (j + q.b)))[k]? = some (fin (x + t)) := by
        rw [List.getElem?_map, hq, Option.map_some, hcand]
      have hle : k2 ≤ k := by
        by_contra hlt
        exact g5 k (by omega) _ hcq rfl
      rcases Nat.lt_or_ge k2 k with hlt | hge
      · exact .inr ⟨ks1, ks, [], _, _, rfl, rfl, by omega⟩
      · obtain rfl : k2 = k := by omega
        obtain rfl : r = q := by rw [hr] at hq; exact Option.some.inj hq
        obtain rfl : i = i2 := by omega
        obtain rfl : j = j2 := by omega
        rcases ih (by omega) (by omega) ⟨x, rfl⟩ hGo.symm ht1 with h | h
        · exact .inl (by rw [h])
        · exact .inr (h.snoc _)
    · cases g2

/-- C77, ties (no rounding; closed begin).  Of all the alignments that end where the returned one ends and cost what it
costs, `dtw` returns the first in the order that compares the rule numbers from the end of the alignment backwards. -/
theorem C77_ties (h : Problem a n m L W p rs) (hob : a.openBegin = false) (hr : dtw Arith.exact a = .ok r)
    (hmp : r.mapping = some mp) {v : ℚ} (hv : r.distance = fin v) {ks : List Int} {j : Nat} (hj : r.jmin = j)
    (hp : WarpPath Arith.exact rs W L ks (n - 1) j (fin v)) :
    mp.stepsTaken = ks ∨ Precedes mp.stepsTaken ks := by
  have hn := h.n_pos
  obtain ⟨G, D, qr, hB, _, hd⟩ := dtw_closed Arith.exact h hob
  obtain ⟨j1, ks1, hrun⟩ := closed_ok h hob hB hd hr
  have hmp' : mp = curve rs 0 0 ks1 := by
    have : r.mapping = if a.distanceOnly then none else some (curve rs 0 0 ks1) := by rw [hrun.result]; rfl
    rw [hmp] at this
    split at this
    · cases this
    · exact Option.some.inj this
  subst hmp'
  obtain rfl : j1 = j := by
    have : r.jmin = (j1 : Int) := by rw [hrun.result]; rfl
    omega
  have hd1 : r.distance = G (n - 1) j1 := by rw [hrun.result]; rfl
  exact hB.precedes (hp.toPath h.wf.valid (by simp)) (by omega) hrun.endAt.lt ⟨v, rfl⟩ (by rw [← hv, hd1])
    hrun.trace

/-- C77, ties, with open begin: among all open-begin alignments ending there at that cost, whatever their starting column. -/
theorem C77_ties_open_begin (h : Problem a n m L W p rs) (hob : a.openBegin = true) (hr : dtw Arith.exact a = .ok r)
    (hmp : r.mapping = some mp) {v : ℚ} (hv : r.distance = fin v) {ks : List Int} {j j0 : Nat} (hj : r.jmin = j)
    (hp : OpenPath Arith.exact rs W L j0 ks n j (fin v)) :
    mp.stepsTaken = ks ∨ Precedes mp.stepsTaken ks := by
  have hn := h.n_pos
  have hh : p.hint = "N" := by
    by_contra hc
    rw [open_bad_hint h hob hc] at hr
    cases hr
  obtain ⟨G, D, qr, hB, _, hd⟩ := dtw_open Arith.exact h hob hh
  obtain ⟨j1, j01, ks1, hrun⟩ := open_ok h hob hB hd hr
  have hmp' : mp = (curve rs 0 j01 ks1).dropNull := by
    have : r.mapping = some (curve rs 0 j01 ks1).dropNull := by rw [hrun.result]; rfl
    rw [hmp] at this
    exact Option.some.inj this
  subst hmp'
  obtain rfl : j1 = j := by
    have : r.jmin = (j1 : Int) := by rw [hrun.result]; rfl
    omega
  have hd1 : r.distance = G n j1 := by rw [hrun.result]; rfl
  exact hB.precedes hp.toPath (by omega) hrun.endAt.lt ⟨v, rfl⟩ (by rw [← hv, hd1]) hrun.trace

/-- C77, the choice depends only on the set of optimal alignments (no rounding, closed ends): two calls about series of the
same lengths, with the same step pattern, whose optimal rule sequences are the same - whatever the local costs, windows and
distances - return the same alignment. -/
theorem C77_same_optima {a' : Args} {r' : Result} {mp' : Mapping} (h : Problem a n m L W p rs)
    (h' : Problem a' n m L' W' p rs) (hob : a.openBegin = false) (hob' : a'.openBegin = false)
    (hoe : a.openEnd = false) (hoe' : a'.openEnd = false) (hr : dtw Arith.exact a = .ok r)
    (hr' : dtw Arith.exact a' = .ok r') (hmp : r.mapping = some mp) (hmp' : r'.mapping = some mp')
    {v v' : ℚ} (hv : r.distance = fin v) (hv' : r'.distance = fin v')
    (hsame : ∀ ks, WarpPath Arith.exact rs W L ks (n - 1) (m - 1) (fin v) ↔
      WarpPath Arith.exact rs W' L' ks (n - 1) (m - 1) (fin v')) :
    mp = mp' := by
  have hm := h.m_pos
  obtain ⟨G, D, qr, hB, _, hd⟩ := dtw_closed Arith.exact h hob
  obtain ⟨G', D', qr', hB', _, hd'⟩ := dtw_closed Arith.exact h' hob'
  obtain ⟨j, ks, hrun⟩ := closed_ok h hob hB hd hr
  obtain ⟨j', ks', hrun'⟩ := closed_ok h' hob' hB' hd' hr'
  have e : mp = curve rs 0 0 ks := by
    have : r.mapping = if a.distanceOnly then none else some (curve rs 0 0 ks) := by rw [hrun.result]; rfl
    rw [hmp] at this
    split at this
    · cases this
    · exact Option.some.inj this
  have e' : mp' = curve rs 0 0 ks' := by
    have : r'.mapping = if a'.distanceOnly then none else some (curve rs 0 0 ks') := by rw [hrun'.result]; rfl
    rw [hmp'] at this
    split at this
    · cases this
    · exact Option.some.inj this
  have ej := hrun.endAt.closed hoe
  have ej' := hrun'.endAt.closed hoe'
  have hjm : r.jmin = ((m - 1 : Nat) : Int) := by rw [hrun.result, ← ej]; rfl
  have hjm' : r'.jmin = ((m - 1 : Nat) : Int) := by rw [hrun'.result, ← ej']; rfl
  have hp := hrun.path
  have hp' := hrun'.path
  rw [show G (n - 1) j = fin v by rw [← hv, hrun.result]; rfl, ej] at hp
  rw [show G' (n - 1) j' = fin v' by rw [← hv', hrun'.result]; rfl, ej'] at hp'
  have h1 := C77_ties h hob hr hmp hv hjm ((hsame _).2 hp')
  have h2 := C77_ties h' hob' hr' hmp' hv' hjm' ((hsame _).1 hp)
  subst e e'
  simp only [curve] at h1 h2
  rcases h1 with h1 | h1
  · rw [h1]
  · rcases h2 with h2 | h2
    · rw [h2]
    · exact (h1.asymm h2).elim

/-- C77, a band that is wide enough: if the unrestricted alignment of two series (closed ends, bundled step pattern) never
strays more than `w` from the diagonal, then the Sakoe-Chiba band of width `w` returns the same alignment at the same distance.
In any arithmetic. -/
theorem C77_band {o o' : Args} {x y : List ℚ} {q : String × StepPattern} {w : ℚ} (hx : x ≠ []) (hy : y ≠ [])
    (hs : (x.length + 1) * y.length < 2147483648) (hq : q ∈ Pat.table) (hp : o.stepPattern = .name q.1)
    (hp' : o'.stepPattern = .name q.1) (hw : canonWindow o.windowType = .noWindow)
    (hu : Uses o' "sakoechiba" [("window_size", w)]) (hob : o.openBegin = false) (hob' : o'.openBegin = false)
    (hoe : o.openEnd = false) (hoe' : o'.openEnd = false) (hdo' : o'.distanceOnly = false)
    (hr : dtw A (ask o x y) = .ok r) (hmp : r.mapping = some mp)
    (hclose : ∀ (t : Nat) (i j : Int), mp.index1s[t]? = some i → mp.index2s[t]? = some j → |(i : ℚ) - j| ≤ w) :
    ∃ r', dtw A (ask o' x y) = .ok r' ∧ r'.mapping = some mp ∧ r'.distance = r.distance ∧
      r'.normalizedDistance = r.normalizedDistance := by
  have h := ask_problem (sensible_free (List.length_pos_iff.2 hx) (List.length_pos_iff.2 hy) hs hq hp hw)
  have h' := ask_problem (sensible_band (List.length_pos_iff.2 hx) (List.length_pos_iff.2 hy) hs hq hp' hu)
  obtain ⟨r', h1, h2, h3, h4, _⟩ := C77_kept h h' hob hob' (by show o.openEnd = o'.openEnd; rw [hoe, hoe']) hdo' hr hmp
    (by intro hc; rw [show (ask o x y).openEnd = o.openEnd from rfl, hoe] at hc; cases hc)
    (fun _ _ _ _ => .inl rfl) (fun _ _ _ _ _ => rfl) (fun _ _ _ _ _ => rfl)
    (fun t i j _ hi hj => by
      have := hclose t i j hi hj
      simpa [bandOf] using this)
  exact ⟨r', h1, h2, h3, h4⟩

/-! ### The hypotheses are met -/

namespace Ex

/-- The two waves, with every cell off the alignment (0,0) (0,1) (1,2) (2,3) (3,4) (4,4) spoilt: some infinite, some NaN,
some merely dearer. -/
def spoilt : Nat → Nat → F64 := fun i j =>
  if (i, j) ∈ [(0, 0), (0, 1), (1, 2), (2, 3), (3, 4), (4, 4)] then fin (waveCosts i j)
  else if i < j then pinf else if i = j then nan else fin (waveCosts i j + 10)

def spoiltCall : Args :=
  { x := .d2 (Mat.ofFn 5 5 spoilt), stepPattern := .name "symmetric2", keepInternals := true }

end Ex

/-- C77 is met: with infinite, NaN and raised costs off the path, in double precision, the alignment survives. -/
example (f : Bool) : ∃ r r' mp, dtw (binary64 f) (Ex.wave 5 5) = .ok r ∧ dtw (binary64 f) Ex.spoiltCall = .ok r' ∧
    r.mapping = some mp ∧ r'.mapping = some mp ∧ r'.distance = r.distance := by
  obtain ⟨r, hr⟩ := Ex.get_ok (x := dtw (binary64 f) (Ex.wave 5 5)) (by cases f <;> decide +kernel)
  have hm : (dtw (binary64 f) (Ex.wave 5 5)).toOption.map (fun r => r.mapping.map fun q => (q.index1, q.index2, q.index1s, q.index2s)) =
      some (some ([0, 0, 1, 2, 3, 4], [0, 1, 2, 3, 4, 4], [0, 0, 1, 2, 3, 4], [0, 1, 2, 3, 4, 4])) := by
    cases f <;> decide +kernel
  rw [hr] at hm
  cases hmp : r.mapping with
  | none => simp [Except.toOption, hmp] at hm
  | some mp =>
    simp only [Except.toOption, Option.map_some, hmp, Option.some.injEq, Prod.mk.injEq] at hm
    obtain ⟨e1, e2, e3, e4⟩ := hm
    have hp' : Problem Ex.spoiltCall 5 5 Ex.spoilt (fun _ _ => true) Pat.symmetric2 (rulesOf Pat.symmetric2) :=
      { n_pos := by decide
        m_pos := by decide
        cost := .matrix rfl rfl rfl rfl
        pattern := Ex.plain_problem.pattern
        wf := Ex.plain_problem.wf
        fits := (Ex.wave_problem (n := 5) (m := 5) (by decide) (by decide) (by decide) (by decide)).fits
        window := .inl ⟨rfl, fun _ _ _ _ => rfl⟩ }
    obtain ⟨r', h1, h2, h3, _⟩ := C77_kept (Ex.wave_problem (by decide) (by decide) (by decide) (by decide)) hp' rfl rfl rfl rfl
      hr hmp (by intro h; cases h)
      (by
        intro i _ j _
        unfold Ex.spoilt
        split_ifs with h1 h2 h3
        · exact .inl rfl
        · exact .inr (.inr ⟨C12_C14_C15_bundled_double f _ Ex.sym2_mem (by decide), _, rfl, by simp [F64.le, F64.lt]⟩)
        · exact .inr (.inl rfl)
        · exact .inr (.inr ⟨C12_C14_C15_bundled_double f _ Ex.sym2_mem (by decide), _, rfl, by simp [F64.le, F64.lt]⟩))
      (by
        intro t i j hi hj
        rw [e1] at hi
        rw [e2] at hj
        have ht : t < 6 := by
          have := (List.getElem?_eq_some_iff.1 hi).1
          simpa using this
        have hz : ((i : Int), (j : Int)) ∈ [((0 : Int), (0 : Int)), (0, 1), (1, 2), (2, 3), (3, 4), (4, 4)] := by
          have : ∀ t < 6, ∀ i, ([0, 0, 1, 2, 3, 4] : List Int)[t]? = some i → ∀ j, ([0, 1, 2, 3, 4, 4] : List Int)[t]? = some j →
              (i, j) ∈ [((0 : Int), (0 : Int)), (0, 1), (1, 2), (2, 3), (3, 4), (4, 4)] := by
            intro t ht
            have h6 : t = 0 ∨ t = 1 ∨ t = 2 ∨ t = 3 ∨ t = 4 ∨ t = 5 := by omega
            rcases h6 with rfl | rfl | rfl | rfl | rfl | rfl <;> simp
          exact this t ht _ hi _ hj
        have hz' : (i, j) ∈ [(0, 0), (0, 1), (1, 2), (2, 3), (3, 4), (4, 4)] := by
          simp only [List.mem_cons, Prod.mk.injEq, List.not_mem_nil, or_false] at hz ⊢
          omega
        simp [Ex.spoilt, hz'])
      (fun _ _ _ _ _ => rfl) (fun _ _ _ _ _ _ => rfl)
    exact ⟨r, r', mp, hr, h1, hmp, h2, h3⟩

/-- Ties: aligning the constant series 1,1,1 with 1,1 under "symmetric1" all alignments cost 0; the one returned takes the
lowest-numbered rule (the diagonal) as late as possible. -/
example : (dtw Arith.exact (Ex.call 3 2 (fun _ _ => fin 0) "symmetric1")).toOption.map
      (fun r => (r.distance, r.mapping.map fun q => q.stepsTaken)) = some (fin 0, some [3, 1]) ∧
    WarpPath Arith.exact (rulesOf Pat.symmetric1) (fun _ _ => true) (fun _ _ => fin 0) [1, 3] 2 1 (fin 0) ∧
    Precedes [3, 1] [1, 3] := by
  have h0 : (rulesOf Pat.symmetric1)[0]? = some ⟨1, 1, [⟨0, 0, 1⟩]⟩ := by decide +kernel
  have h2 : (rulesOf Pat.symmetric1)[2]? = some ⟨1, 0, [⟨0, 0, 1⟩]⟩ := by decide +kernel
  have := WarpPath.step (A := Arith.exact) (W := fun _ _ => true) (L := fun _ _ => fin 0) 2 _
    (WarpPath.step 0 _ .start h0 rfl) h2 rfl
  have e : charge Arith.exact (fun _ _ => fin 0) ⟨1, 0, [⟨0, 0, 1⟩]⟩ 2 1
      (charge Arith.exact (fun _ _ => fin 0) ⟨1, 1, [⟨0, 0, 1⟩]⟩ 1 1 (fin 0)) = fin 0 := by decide +kernel
  refine ⟨by decide +kernel, by convert this using 1 <;> first | rfl | exact e.symm, [3], [1], [], 1, 3, rfl, rfl, by decide⟩

namespace Ex

/-- The search of [1,3,2] in [4,2,3,1], with no match possible outside reference element 1. -/
def onlyOne : Nat → Nat → F64 := fun i j => if j = 1 then openL i j else nan

def onlyOneCall : Args :=
  { x := .d2 (Mat.ofFn 3 4 onlyOne), stepPattern := .name "asymmetric", openBegin := true, openEnd := true }

theorem onlyOne_problem :
    Problem onlyOneCall 3 4 onlyOne (fun _ _ => true) Pat.asymmetric (rulesOf Pat.asymmetric) where
  n_pos := by decide
  m_pos := by decide
  cost := .matrix rfl rfl rfl rfl
  pattern := openBoth_problem.pattern
  wf := openBoth_problem.wf
  fits := openBoth_problem.fits
  window := .inl ⟨rfl, fun _ _ _ _ => rfl⟩

end Ex

/-- C77 with both ends open is met. -/
example : ∃ r r' mp, dtw Arith.exact Ex.openBoth = .ok r ∧ dtw Arith.exact Ex.onlyOneCall = .ok r' ∧
    r.mapping = some mp ∧ r'.mapping = some mp ∧ r'.distance = r.distance ∧ r'.jmin = r.jmin := by
  obtain ⟨r, hr⟩ := Ex.get_ok (x := dtw Arith.exact Ex.openBoth) (by decide +kernel)
  have hm : (dtw Arith.exact Ex.openBoth).toOption.map (fun r => (r.normalizedDistance, r.mapping.map fun q => q.index2)) =
      some (fin (2 / 3), some [1, 1, 1]) := by decide +kernel
  rw [hr] at hm
  cases hmp : r.mapping with
  | none => simp [Except.toOption, hmp] at hm
  | some mp =>
    simp only [Except.toOption, Option.map_some, hmp, Option.some.injEq, Prod.mk.injEq] at hm
    obtain ⟨e0, e2⟩ := hm
    obtain ⟨r', h1, h2, h3, _, h5⟩ := C77_kept_open_begin Ex.openBoth_problem Ex.onlyOne_problem rfl rfl rfl rfl hr hmp
      (by intro _; rw [e0]; simp [usable, F64.lt])
      (by
        intro i _ j _
        unfold Ex.onlyOne
        split
        · exact .inl rfl
        · exact .inr (.inl rfl))
      (by
        intro t i j _ hj
        rw [e2] at hj
        have : (j : Int) ∈ ([1, 1, 1] : List Int) := List.mem_of_getElem? hj
        have : j = 1 := by simpa using this
        simp [Ex.onlyOne, this])
      (fun _ _ _ _ _ => rfl) (fun _ _ _ _ _ => rfl)
    exact ⟨r, r', mp, hr, h1, hmp, h2, h3, h5⟩

end DTW
