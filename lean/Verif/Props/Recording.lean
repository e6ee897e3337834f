import Verif.Props.Canonical
import Verif.Props.Doubles

/-!
# C81: searching in a longer recording

A reference that is part of a longer one (`reference = recording[k:k+m]`): what the search in the longer one finds compared
with the search in the part.
-/

namespace DTW
open F64

variable {A : Arith} {a a' : Args} {n m m' k : Nat} {L L' S S' G G' : Nat → Nat → F64} {W W' : Nat → Nat → Bool}
  {D D' : Nat → Nat → Int} {p : StepPattern} {rs : List Rule} {r r' : Result} {mp mp' : Mapping}

/-! ### Moving by `k` columns -/

theorem coarse_across (rs : List Rule) (k : Int) : ∀ (ks : List Int) (i j : Int),
    coarse rs i (j + k) ks = (coarse rs i j ks).map fun u => (u.1, u.2 + k) := by
  intro ks
  induction ks with
  | nil => intro i j; rfl
  | cons x ks ih =>
    intro i j
    unfold coarse
    cases rs[(x - 1).toNat]? with
    | none => rfl
    | some r =>
      simp only [List.map_cons]
      rw [← ih, show j + k + (r.b : Int) = j + r.b + k by ring]

theorem Rule.fine_across (r : Rule) (i j k : Int) :
    r.fine i (j + k) = (r.fine i j).map fun u => (u.1, u.2 + k) := by
  unfold Rule.fine
  simp only [List.map_append, List.map_map, List.map_cons, List.map_nil]
  congr 1
  · apply List.map_congr_left
    intro t _
    simp only [Function.comp_apply, Prod.mk.injEq, true_and]
    ring
  · rw [show j + k + (r.b : Int) = j + r.b + k by ring]

theorem fineTail_across (rs : List Rule) (k : Int) : ∀ (ks : List Int) (i j : Int),
    fineTail rs i (j + k) ks = (fineTail rs i j ks).map fun u => (u.1, u.2 + k) := by
  intro ks
  induction ks with
  | nil => intro i j; rfl
  | cons x ks ih =>
    intro i j
    unfold fineTail
    cases rs[(x - 1).toNat]? with
    | none => rfl
    | some r =>
      simp only [List.map_append]
      rw [← ih, Rule.fine_across, show j + k + (r.b : Int) = j + r.b + k by ring]

theorem charge_across {q : Rule} {i j : Nat} (hq : q.Valid) (ha : q.a ≤ i) (hb : q.b ≤ j) (hi : i < n) (hj : j < m)
    (hL : ∀ i < n, ∀ j < m, L' i (j + k) = L i j) (c : F64) :
    charge A L' q i (j + k) c = charge A L q i j c := by
  have hd : ∀ t ∈ q.terms, t.dj ≤ j := fun t ht => _root_.le_trans (hq.2 t ht).2.2 hb
  unfold charge
  generalize q.terms = ts at hd
  induction ts generalizing c with
  | nil => rfl
  | cons t ts ih =>
    simp only [List.foldl_cons]
    have h0 := hd t (List.mem_cons_self ..)
    rw [show j + k - t.dj = j - t.dj + k by omega, hL _ (by omega) _ (by omega)]
    exact ih _ (fun t' ht' => hd t' (List.mem_cons_of_mem _ ht'))

/-- An alignment within the part is an alignment within the whole, at the same cost. -/
theorem Path.across (hv : ∀ r ∈ rs, r.Valid) (hS : ∀ i < n, ∀ j < m, S' i (j + k) = S i j)
    (hL : ∀ i < n, ∀ j < m, L' i (j + k) = L i j) (hW : ∀ i < n, ∀ j < m, W i j = true → W' i (j + k) = true)
    {i0 j0 ks i j c} (h : Path A rs W L S i0 j0 ks i j c) : i < n → j < m →
    Path A rs W' L' S' i0 (j0 + k) ks i (j + k) c := by
  induction h with
  | start hn => intro hi hj; rw [← hS _ hi _ hj] at hn ⊢; exact .start _ _ hn
  | @step ks i j c' x q hp hq hWc hn ih =>
    intro hi hj
    have hvq := hv q (List.mem_of_getElem? hq)
    have e : charge A L q (i + q.a) (j + q.b) c' = charge A L' q (i + q.a) (j + k + q.b) c' := by
      rw [← charge_across hvq (by omega) (by omega) hi hj hL, show j + q.b + k = j + k + q.b by omega]
    rw [e, show j + q.b + k = j + k + q.b by omega]
    refine .step x q (ih (by omega) (by omega)) hq ?_ ?_
    · rw [show j + k + q.b = j + q.b + k by omega]; exact hW _ hi _ hj hWc
    · rw [show j + k + q.b = j + q.b + k by omega, hS _ hi _ hj]; exact hn

/-- Cell by cell, the whole is no dearer than the part. -/
theorem Bellman.across (hv : ∀ r ∈ rs, r.Valid) (hkm : m + k ≤ m') (hS : ∀ i < n, ∀ j < m, S' i (j + k) = S i j)
    (hL : ∀ i < n, ∀ j < m, L' i (j + k) = L i j) (hW : ∀ i < n, ∀ j < m, W i j = true → W' i (j + k) = true)
    (hB : Bellman A rs n m W L S G D) (hB' : Bellman A rs n m' W' L' S' G' D') {i j : Nat} (hi : i < n) (hj : j < m)
    (hG : G i j ≠ nan) : F64.le (G' i (j + k)) (G i j) := by
  by_cases h0 : S i j = nan
  · obtain ⟨i0, j0, ks, hp, _⟩ := hB.sound hv _ i j rfl hi hj hG
    exact hB'.optimal (hp.across hv hS hL hW hi hj) hi (by omega) (hB.usable_of_ne_nan hi hj h0 hG)
  · rw [(hB.seeded i hi j hj h0).1, (hB'.seeded i hi (j + k) (by omega) (by rw [hS i hi j hj]; exact h0)).1, hS i hi j hj]
    exact F64.le_refl h0

/-- Where the traceback of the whole stays within the part, the two systems agree: same cells, same directions. -/
theorem Bellman.across_kept (hv : ∀ r ∈ rs, r.Valid) (hkm : m + k ≤ m') (hS : ∀ i < n, ∀ j < m, S' i (j + k) = S i j)
    (hL : ∀ i < n, ∀ j < m, L' i (j + k) = L i j) (hW : ∀ i < n, ∀ j < m, W i j = true → W' i (j + k) = true)
    (hB : Bellman A rs n m W L S G D) (hB' : Bellman A rs n m' W' L' S' G' D') {i0 c0 ks i c}
    (ht : Trace rs D' S' i0 c0 ks i c) : ∀ {j0 j : Nat}, c0 = j0 + k → c = j + k → i < n → j < m →
    (∀ i j : Nat, ((i : Int), ((j + k : Nat) : Int)) ∈ (coarse rs i0 c0 ks).tail → W i j = true) →
    G i j = G' i (j + k) ∧ Trace rs D S i0 j0 ks i j := by
  induction ht with
  | start hSn hD =>
    intro j0 j e0 e hi hj _
    have ej : j0 = j := by omega
    subst ej
    rw [e] at hSn hD
    have hs : S i0 j0 ≠ nan := by rw [← hS _ hi _ hj]; exact hSn
    exact ⟨by rw [(hB.seeded _ hi _ hj hs).1, (hB'.seeded _ hi _ (by omega) hSn).1, hS _ hi _ hj],
      .start _ _ hs (hB.seeded _ hi _ hj hs).2⟩
  | @step ks i c x q ht hr hSn hD ih =>
    intro j0 j e0 e hi hj hWc
    have hvq := hv q (List.mem_of_getElem? hr)
    have hle := ht.le_coords
    obtain ⟨j1, rfl⟩ : ∃ j1, c = j1 + k := ⟨c - k, by omega⟩
    obtain rfl : j = j1 + q.b := by omega
    have e' : j1 + k + q.b = j1 + q.b + k := by omega
    rw [e'] at hSn hD
    rw [ht.coarse_snoc hr] at hWc
    have hne : coarse rs i0 c0 ks ≠ [] := by
      obtain ⟨pts, h1, _⟩ := ht.coarse_end
      rw [h1]; simp
    rw [List.tail_append_of_ne_nil hne] at hWc
    obtain ⟨hG, htr⟩ := ih e0 rfl (by omega) (by omega) (fun i j h => hWc i j (List.mem_append_left _ h))
    have hW1 : W (i + q.a) (j1 + q.b) = true := hWc _ _ (List.mem_append_right _ (by
      simp only [List.mem_singleton, Prod.mk.injEq]
      constructor <;> push_cast <;> ring))
    have hs : S (i + q.a) (j1 + q.b) = nan := by rw [← hS _ hi _ hj]; exact hSn
    have hb := hB.inside _ hi _ hj hs hW1
    have hb' := hB'.inside _ hi _ (by omega) hSn (hW _ hi _ hj hW1)
    have hcand : ∀ y ∈ rs, usable (cand A L G (i + q.a) (j1 + q.b) y) →
        F64.le (cand A L' G' (i + q.a) (j1 + q.b + k) y) (cand A L G (i + q.a) (j1 + q.b) y) := by
      intro y hy hu
      unfold cand at hu ⊢
      split at hu
      · rename_i hc
        rw [if_pos hc, if_pos ⟨hc.1, by omega⟩]
        have hu1 := charge_usable hu
        have hk := hB.across hv hkm hS hL hW hB' (i := i + q.a - y.a) (j := j1 + q.b - y.b) (by omega) (by omega)
          (usable_ne_nan hu1)
        rw [show j1 + q.b - y.b + k = j1 + q.b + k - y.b by omega] at hk
        rw [charge_across (hv y hy) hc.1 hc.2 hi hj hL]
        exact charge_mono hk hu
      · simp [usable, F64.lt] at hu
    have hk : cand A L G (i + q.a) (j1 + q.b) q = cand A L' G' (i + q.a) (j1 + q.b + k) q := by
      unfold cand
      rw [if_pos ⟨by omega, by omega⟩, if_pos ⟨by omega, by omega⟩, charge_across hvq (by omega) (by omega) hi hj hL]
      rw [Nat.add_sub_cancel, Nat.add_sub_cancel, show j1 + q.b + k - q.b = j1 + k by omega, hG]
    have hbest : IsBest (rs.map (cand A L G (i + q.a) (j1 + q.b))) (G' (i + q.a) (j1 + q.b + k)) ((x : Int) + 1) := by
      rcases hb' with ⟨x1, h1, h2, h3, h4, h5⟩ | ⟨_, _, h3⟩
      · have : x1 = x := by omega
        subst this
        rw [List.getElem?_map, hr, Option.map_some, Option.some.injEq] at h1
        left
        refine ⟨x1, by rw [List.getElem?_map, hr, Option.map_some, hk, h1], rfl, h3, ?_, ?_⟩
        · intro z hz
          obtain ⟨y, hy, rfl⟩ := List.mem_map.1 hz
          by_contra hlt
          rw [Bool.not_eq_false] at hlt
          have hu : usable (cand A L G (i + q.a) (j1 + q.b) y) := usable_of_le (F64.le_of_lt hlt) h3
          have := F64.lt_of_le_of_lt (hcand y hy hu) hlt
          rw [h4 _ (List.mem_map_of_mem hy)] at this
          cases this
        · intro k' hk' z hz he
          subst he
          rw [List.getElem?_map] at hz
          cases hy : rs[k']? with
          | none => rw [hy] at hz; simp at hz
          | some y =>
            rw [hy, Option.map_some, Option.some.injEq] at hz
            have hym := List.mem_of_getElem? hy
            have hle := hcand y hym (by rw [hz]; exact h3)
            rw [hz] at hle
            have e : cand A L' G' (i + q.a) (j1 + q.b + k) y = G' (i + q.a) (j1 + q.b + k) :=
              F64.le_antisymm hle ⟨hle.2.1, hle.1, h4 _ (List.mem_map_of_mem hym)⟩
            exact h5 k' hk' _ (by rw [List.getElem?_map, hy]; rfl) e
      · rw [h3] at hD
        unfold intMin at hD
        omega
    obtain ⟨e1, e2⟩ := hb.unique hbest
    exact ⟨e1, .step x q htr hr hs e2⟩

theorem normBy_N {j j' : Nat} {v : F64} : normBy A "N" n j v = normBy A "N" n j' v := by
  unfold normBy
  rw [if_neg (by decide), if_pos rfl, if_neg (by decide), if_pos rfl]

theorem nullRow_across (hL : ∀ i < n, ∀ j < m, L' i (j + k) = L i j) :
    ∀ i < n + 1, ∀ j < m, nullRow L' i (j + k) = nullRow L i j := by
  intro i hi j hj
  unfold nullRow
  split
  · rfl
  · exact hL _ (by omega) _ hj

theorem openSeed_representable (i j : Nat) : Representable A (openSeed i j) := by
  unfold openSeed
  split
  · intro q hq
    simp only [F64.fin.injEq] at hq
    rw [← hq]
    exact A.rnd_zero
  · intro q hq; simp at hq

/-- An open-begin call with a usable cell in its last row (its last cell, if the end is closed) succeeds. -/
theorem open_usable_succeeds (hA : Idempotent A) (h : Problem a n m L W p rs) (hob : a.openBegin = true)
    (hdo : a.distanceOnly = false) (hh : p.hint = "N") {qr} (hB : Bellman A rs (n + 1) m W (nullRow L) openSeed G D)
    (hd : dtw A a = finish A a p n m qr (n + 1) (Mat.ofFn (n + 1) m (nullRow L)) G D) {j : Nat} (hj : j < m)
    (hend : a.openEnd = false → j = m - 1) (hu : usable (G n j)) : ∃ r, dtw A a = .ok r := by
  cases hc : a.openEnd with
  | false =>
    rcases open_closed h hob hc hB hd with ⟨h1, _⟩ | ⟨_, h1⟩
    · rw [← hend hc] at h1
      exact absurd h1 (usable_ne_nan hu)
    · rw [hdo] at h1
      exact h1
  | true =>
    obtain ⟨i0, j0, ks', hp', _⟩ := hB.sound h.wf.valid _ n j rfl (by omega) hj (usable_ne_nan hu)
    have hrep := hp'.representable hA (openSeed_representable _ _)
    have hu' : usable (normBy A p.hint n j (G (n + 1 - 1) j)) := normBy_usable h.n_pos hrep hu
    obtain ⟨x, hx, hxn, hpe⟩ := pickEnd_open_ok (a := a) (G := G) (q := n + 1) (Nat.succ_pos n) hc (by rw [hh]; decide) hj hu'
    exact open_succeeds h hob hdo hB hd hx hxn hpe

/-- **C81** Search (open begin) in a recording and in a part of it, `reference = recording[k:k+m]`: if the search in the part
finds something, the search in the whole recording does too, and nothing worse.  With a closed end the part must be the end of
the recording.  Any pattern, any window of the recording that contains that of the part, any arithmetic with idempotent rounding. -/
theorem C81_longer_no_worse (hA : Idempotent A) (h : Problem a n m L W p rs) (h' : Problem a' n m' L' W' p rs)
    (hob : a.openBegin = true) (hob' : a'.openBegin = true) (hoe : a.openEnd = a'.openEnd) (hdo' : a'.distanceOnly = false)
    (hkm : m + k ≤ m') (hend : a.openEnd = false → m + k = m')
    (hL : ∀ i < n, ∀ j < m, L' i (j + k) = L i j)
    (hW : ∀ i < n + 1, ∀ j < m, W i j = true → W' i (j + k) = true) (hr : dtw A a = .ok r) :
    ∃ r', dtw A a' = .ok r' ∧ (a.openEnd = false → F64.le r'.distance r.distance) ∧
      F64.le r'.normalizedDistance r.normalizedDistance := by
  have hn := h.n_pos
  have hh : p.hint = "N" := by
    by_contra hc
    rw [open_bad_hint h hob hc] at hr
    cases hr
  obtain ⟨G, D, qr, hB, _, hd⟩ := dtw_open A h hob hh
  obtain ⟨G', D', qr', hB', _, hd'⟩ := dtw_open A h' hob' hh
  obtain ⟨j, j0, ks, hrun⟩ := open_ok h hob hB hd hr
  have hlt := hrun.endAt.lt
  have hne : G n j ≠ nan := hrun.endAt.ne_nan
  have hS : ∀ i < n + 1, ∀ j < m, openSeed i (j + k) = openSeed i j := fun _ _ _ _ => rfl
  have hle := hB.across h.wf.valid hkm hS (nullRow_across hL) hW hB' (by omega) hlt hne
  have hs0 : openSeed n j = nan := by unfold openSeed; rw [if_neg (by omega)]
  have hu' := usable_of_le hle (hB.usable_of_ne_nan (by omega) hlt hs0 hne)
  obtain ⟨r', hr'⟩ := open_usable_succeeds hA h' hob' hdo' hh hB' hd' (j := j + k) (by omega)
    (fun hc => by
      have h1 := hrun.endAt.closed (by rw [hoe]; exact hc)
      have h2 := hend (by rw [hoe]; exact hc)
      omega) hu'
  obtain ⟨j', j0', ks', hrun'⟩ := open_ok h' hob' hB' hd' hr'
  have hnorm : F64.le (normBy A "N" n j' (G' n (j + k))) (normBy A "N" n j (G n j)) := by
    rw [normBy_N (j := j') (j' := j)]
    exact normBy_mono A "N" hn hle
  have e1 : r.normalizedDistance = normBy A "N" n j (G n j) := by
    rw [hrun.result]; simp [mkResult, hh]
  have e2 : r'.normalizedDistance = normBy A "N" n j' (G' n j') := by
    rw [hrun'.result]; simp [mkResult, hh]
  have hclosed : a.openEnd = false → j' = j + k := by
    intro hc
    have h1 := hrun'.endAt.closed (by rw [← hoe]; exact hc)
    have h2 := hrun.endAt.closed hc
    have h3 := hend hc
    have := h.m_pos
    omega
  refine ⟨r', hr', fun hc => ?_, ?_⟩
  · have hj := hclosed hc
    subst hj
    rw [hrun'.result, hrun.result]
    exact hle
  · rw [e1, e2]
    cases hc : a.openEnd with
    | false =>
      rw [hclosed hc] at hnorm ⊢
      exact hnorm
    | true =>
      have hb := (hrun'.endAt.opened (by rw [← hoe]; exact hc)).2
      rw [hh] at hb
      have hm := hb.min (j + k) (by omega) (normBy_ne_nan A hn hle.1)
      simp only [Nat.add_sub_cancel] at hm
      refine F64.le_trans hm ?_
      rw [normBy_N (j := j + k) (j' := j')]
      exact hnorm

/-- **C81** Let the search (open begin) in a recording find an alignment that begins and ends within the part
`reference = recording[k:k+m]` - its first step included, which is why its first reference index must be at least `k` plus the
advance of the first step taken (0 for `asymmetric`, see `C81_asymmetric_first_step`).  Then the search in the part finds the same
alignment: same steps, same query indices, reference indices counted from `k`, same distance and normalized distance - ties
included. -/
theorem C81_cut_out (hA : Idempotent A) (h : Problem a n m L W p rs) (h' : Problem a' n m' L' W' p rs)
    (hob : a.openBegin = true) (hob' : a'.openBegin = true) (hoe : a.openEnd = a'.openEnd) (hdo : a.distanceOnly = false)
    (hkm : m + k ≤ m') (hend : a.openEnd = false → m + k = m')
    (hL : ∀ i < n, ∀ j < m, L' i (j + k) = L i j)
    (hW : ∀ i < n + 1, ∀ j < m, W i j = true → W' i (j + k) = true) (hr' : dtw A a' = .ok r') (hmp' : r'.mapping = some mp')
    {t : Nat} {q : Rule} {c1 : Int} (ht : mp'.stepsTaken.head? = some ((t : Int) + 1)) (hq : rs[t]? = some q)
    (hc1 : mp'.index2s.head? = some c1) (hk : (k : Int) + q.b ≤ c1) (hlast : r'.jmin < (k : Int) + m)
    (hcorners : ∀ (x i j : Nat), mp'.index1s[x]? = some (i : Int) → mp'.index2s[x]? = some ((j + k : Nat) : Int) →
      W (i + 1) j = true) :
    ∃ r mp, dtw A a = .ok r ∧ r.mapping = some mp ∧ r.distance = r'.distance ∧
      r.normalizedDistance = r'.normalizedDistance ∧ r'.jmin = r.jmin + k ∧ mp'.stepsTaken = mp.stepsTaken ∧
      mp'.index1 = mp.index1 ∧ mp'.index1s = mp.index1s ∧
      mp'.index2 = mp.index2.map (· + (k : Int)) ∧ mp'.index2s = mp.index2s.map (· + (k : Int)) := by
  have hn := h.n_pos
  have hh : p.hint = "N" := by
    by_contra hc
    rw [open_bad_hint h' hob' hc] at hr'
    cases hr'
  obtain ⟨G, D, qr, hB, _, hd⟩ := dtw_open A h hob hh
  obtain ⟨G', D', qr', hB', _, hd'⟩ := dtw_open A h' hob' hh
  obtain ⟨c, c0, ks, hrun'⟩ := open_ok h' hob' hB' hd' hr'
  have hm' : mp' = (curve rs 0 c0 ks).dropNull := by
    have : r'.mapping = some (curve rs 0 c0 ks).dropNull := by rw [hrun'.result]; rfl
    rw [hmp'] at this
    exact Option.some.inj this
  subst hm'
  have hlt' := hrun'.endAt.lt
  have hjm : r'.jmin = (c : Int) := by rw [hrun'.result]; rfl
  -- where it starts
  have hc0 : k ≤ c0 := by
    cases ks with
    | nil => simp [Mapping.dropNull, curve] at ht
    | cons y ks =>
      simp only [Mapping.dropNull, curve, List.head?_cons, Option.some.injEq] at ht
      subst ht
      simp only [Mapping.dropNull, curve, coarse, add_sub_cancel_right, Int.toNat_natCast, hq, List.map_cons, List.tail_cons] at hc1
      have : ∀ (i j : Int) (ks : List Int), ((coarse rs i j ks).map Prod.snd).head? = some j := by
        intro i j ks
        cases ks with
        | nil => rfl
        | cons y ks => unfold coarse; split <;> rfl
      rw [this, Option.some.injEq] at hc1
      omega
  have hle := hrun'.trace.le_coords
  obtain ⟨j0, rfl⟩ : ∃ j0, c0 = j0 + k := ⟨c0 - k, by omega⟩
  obtain ⟨j, rfl⟩ : ∃ j, c = j + k := ⟨c - k, by omega⟩
  have hj : j < m := by omega
  have hS : ∀ i < n + 1, ∀ j < m, openSeed i (j + k) = openSeed i j := fun _ _ _ _ => rfl
  have hrows : ∀ x ∈ (coarse rs ((0 : Nat) : Int) ((j0 + k : Nat) : Int) ks).tail, 0 < x.1 := hrun'.trace.rows_pos
  obtain ⟨hG, htr⟩ := hB.across_kept h.wf.valid hkm hS (nullRow_across hL) hW hB' hrun'.trace (j0 := j0) rfl rfl (by omega) hj (by
    intro i j hij
    have hpos := hrows _ hij
    obtain ⟨x, hx⟩ := List.mem_iff_getElem?.1 hij
    simp only [Nat.cast_zero] at hx
    obtain ⟨i, rfl⟩ : ∃ i', i = i' + 1 := ⟨i - 1, by simp at hpos; omega⟩
    refine hcorners x i j ?_ ?_ <;> simp only [curve, Mapping.dropNull, ← List.map_tail, List.getElem?_map, hx] <;> simp)
  have hs0 : openSeed n (j + k) = nan := by unfold openSeed; rw [if_neg (by omega)]
  have hne' : G' n (j + k) ≠ nan := hrun'.endAt.ne_nan
  have hu' := hB'.usable_of_ne_nan (by omega) hlt' hs0 hne'
  obtain ⟨r, hr⟩ := open_usable_succeeds hA h hob hdo hh hB hd (j := j) hj
    (fun hc => by
      have h1 := hrun'.endAt.closed (by rw [← hoe]; exact hc)
      have h2 := hend hc
      omega) (by rw [hG]; exact hu')
  obtain ⟨j2, j02, ks2, hrun⟩ := open_ok h hob hB hd hr
  have ej : j2 = j := by
    cases hc : a.openEnd with
    | false =>
      have h1 := hrun'.endAt.closed (by rw [← hoe]; exact hc)
      have h2 := hrun.endAt.closed hc
      have h3 := hend hc
      omega
    | true =>
      have hb := (hrun.endAt.opened hc).2
      have hb' := (hrun'.endAt.opened (by rw [← hoe]; exact hc)).2
      rw [hh] at hb hb'
      have hlt2 := hrun.endAt.lt
      have hdom := hB.across h.wf.valid hkm hS (nullRow_across hL) hW hB' (i := n) (by omega) hlt2 hrun.endAt.ne_nan
      have hnorm : F64.le (normBy A "N" n (j2 + k) (G' n (j2 + k))) (normBy A "N" n j2 (G n j2)) := by
        rw [normBy_N (j := j2 + k) (j' := j2)]
        exact normBy_mono A "N" hn hdom
      have hsame : normBy A "N" n (j + k) (G' n (j + k)) = normBy A "N" n j (G n j) := by
        rw [normBy_N (j := j + k) (j' := j), hG]
      rcases Nat.lt_trichotomy j2 j with hl | he | hg
      · have h2 := hb'.first (j2 + k) (by omega) (normBy_ne_nan A hn hdom.1)
        simp only [Nat.add_sub_cancel] at h2
        have h3 := F64.lt_of_lt_of_le h2 hnorm
        have hnum := hb'.num
        simp only [Nat.add_sub_cancel] at hnum
        have h4 := hb.min j hj (by simp only [Nat.add_sub_cancel]; rw [← hsame]; exact hnum)
        simp only [Nat.add_sub_cancel] at h4
        rw [hsame] at h3
        have := h4.2.2
        rw [h3] at this
        cases this
      · exact he
      · have hnum := hb'.num
        simp only [Nat.add_sub_cancel] at hnum
        have h2 := hb.first j hg (by simp only [Nat.add_sub_cancel]; rw [← hsame]; exact hnum)
        simp only [Nat.add_sub_cancel] at h2
        have h3 := hb'.min (j2 + k) (by omega) (normBy_ne_nan A hn hdom.1)
        simp only [Nat.add_sub_cancel] at h3
        have h4 := F64.le_trans h3 hnorm
        rw [hsame] at h4
        have := h4.2.2
        rw [h2] at this
        cases this
  subst ej
  obtain ⟨_, e2, e3⟩ := hrun.trace.det h.wf.valid htr
  subst e2 e3
  refine ⟨r, (curve rs 0 j02 ks2).dropNull, hr, by rw [hrun.result]; rfl, ?_, ?_, ?_, rfl, ?_, ?_, ?_, ?_⟩
  · rw [hrun'.result, hrun.result]; exact hG
  · rw [hrun'.result, hrun.result]
    simp only [mkResult, hh, Nat.add_sub_cancel, hG]
    rw [normBy_N (j := j2 + k) (j' := j2)]
  · rw [hjm, hrun.result]; simp [mkResult]
  all_goals
    have ec := coarse_across rs (k : Int) ks2 0 j02
    have ef := fineTail_across rs (k : Int) ks2 0 j02
    simp only [Mapping.dropNull, curve, fine, Nat.cast_add, ec, ef, List.map_cons, List.tail_cons, List.map_map, ← List.map_tail]
    rfl

/-! ### Appending to the reference -/

/-- The first best of more candidates is the old one, or a strictly better new one. -/
theorem FirstBest.append {f f' : Nat → F64} {j j' : Nat} (hm : m ≤ m') (h : FirstBest m f j) (h' : FirstBest m' f' j')
    (hf : ∀ j < m, f' j = f j) : j' = j ∨ (m ≤ j' ∧ F64.lt (f' j') (f j) = true) := by
  have hj := h.lt
  have hjn := h.num
  rcases Nat.lt_or_ge j' m with hlt | hge
  · left
    have e := hf j hj
    have e' := hf j' hlt
    have hjn' := h'.num
    rw [e'] at hjn'
    rcases Nat.lt_trichotomy j' j with h1 | h1 | h1
    · have h2 := h.first j' h1 hjn'
      have h3 := h'.min j (by omega) (by rw [e]; exact hjn)
      rw [e, e'] at h3
      have := h3.2.2
      rw [h2] at this
      cases this
    · exact h1
    · have h2 := h'.first j h1 (by rw [e]; exact hjn)
      rw [e, e'] at h2
      have h3 := (h.min j' hlt hjn').2.2
      rw [h2] at h3
      cases h3
  · right
    have := h'.first j (by omega) (by rw [hf j hj]; exact hjn)
    rw [hf j hj] at this
    exact ⟨hge, this⟩

/-- **C81** An open-end alignment when the reference has grown (`reference = recording[:m]`, for instance on-line): the call on the
longer reference succeeds as well, and its result is either the same - same end point, distance, normalized distance and alignment -
or an alignment that ends in the new part and is strictly better, normalized.  Begin closed or open; any pattern, any arithmetic;
windows that agree on the old part. -/
theorem C81_appended (h : Problem a n m L W p rs) (h' : Problem a' n m' L' W' p rs) (hob : a.openBegin = a'.openBegin)
    (hoe : a.openEnd = true) (hoe' : a'.openEnd = true) (hdo : a.distanceOnly = false) (hdo' : a'.distanceOnly = false)
    (hm : m ≤ m') (hL : ∀ i < n, ∀ j < m, L' i j = L i j) (hW : ∀ i < gridRows a n, ∀ j < m, W' i j = W i j)
    (hr : dtw A a = .ok r) (hfin : usable r.normalizedDistance) :
    ∃ r', dtw A a' = .ok r' ∧
      ((r'.jmin = r.jmin ∧ r'.distance = r.distance ∧ r'.normalizedDistance = r.normalizedDistance ∧ r'.mapping = r.mapping) ∨
       ((m : Int) ≤ r'.jmin ∧ F64.lt r'.normalizedDistance r.normalizedDistance = true)) := by
  have hn := h.n_pos
  cases hb : a.openBegin with
  | false =>
    have hb' : a'.openBegin = false := by rw [← hob]; exact hb
    simp only [gridRows, hb, Bool.false_eq_true, if_false] at hW
    obtain ⟨G, D, qr, hB, _, hd⟩ := dtw_closed A h hb
    obtain ⟨G', D', qr', hB', _, hd'⟩ := dtw_closed A h' hb'
    obtain ⟨j, ks, hrun⟩ := closed_ok h hb hB hd hr
    have hu := hB'.unique h.wf.valid hB le_rfl le_rfl hm le_rfl hW hL (fun i hi j hj => by
      unfold closedSeed; split
      · exact hL 0 (by omega) 0 (by have := h.m_pos; omega)
      · rfl)
    obtain ⟨hNA, hbest⟩ := hrun.endAt.opened hoe
    have hlt := hrun.endAt.lt
    have e : r.normalizedDistance = normBy A p.hint n j (G (n - 1) j) := by
      rw [hrun.result]; simp [mkResult, hNA]
    have hG := hu (n - 1) (by omega) j hlt
    obtain ⟨x, hx, hxn, hpe⟩ := pickEnd_open_ok (a := a') (m := m') (G := G') hn hoe' hNA (j := j) (by omega)
      (by rw [hG.1, ← e]; exact hfin)
    obtain ⟨r', hr'⟩ := closed_succeeds h' hb' hB' hd' hx hxn hpe
    obtain ⟨j', ks', hrun'⟩ := closed_ok h' hb' hB' hd' hr'
    have e' : r'.normalizedDistance = normBy A p.hint n j' (G' (n - 1) j') := by
      rw [hrun'.result]; simp [mkResult, hNA]
    refine ⟨r', hr', ?_⟩
    rcases hbest.append hm (hrun'.endAt.opened hoe').2 (fun j hj => by rw [(hu (n - 1) (by omega) j hj).1]) with rfl | ⟨h1, h2⟩
    · left
      have tr : Trace rs D' (closedSeed L') 0 0 ks (n - 1) j' := by
        have hs : ∀ i j, closedSeed L' i j = closedSeed L i j := by
          intro i j
          unfold closedSeed
          rw [hL 0 hn 0 h.m_pos]
        have : closedSeed L' = closedSeed L := by funext i j; exact hs i j
        rw [this]
        exact hrun.trace.restrict (fun i hi j hj => ((hu i hi j hj).2).symm) (by omega) hlt
      obtain ⟨_, _, rfl⟩ := hrun'.trace.det h.wf.valid tr
      refine ⟨by rw [hrun'.result, hrun.result]; rfl, by rw [hrun'.result, hrun.result]; exact hG.1, by rw [e, e', hG.1], ?_⟩
      rw [hrun'.result, hrun.result]
      simp [mkResult, hdo, hdo']
    · right
      exact ⟨by rw [hrun'.result]; simpa [mkResult] using h1, by rw [e, e']; exact h2⟩
  | true =>
    have hb' : a'.openBegin = true := by rw [← hob]; exact hb
    have hh : p.hint = "N" := by
      by_contra hh; rw [open_bad_hint h hb hh] at hr; simp at hr
    simp only [gridRows, hb, if_true] at hW
    obtain ⟨G, D, qr, hB, _, hd⟩ := dtw_open A h hb hh
    obtain ⟨G', D', qr', hB', _, hd'⟩ := dtw_open A h' hb' hh
    obtain ⟨j, j0, ks, hrun⟩ := open_ok h hb hB hd hr
    have hu := hB'.unique h.wf.valid hB le_rfl le_rfl hm le_rfl hW (fun i hi j hj => by
      unfold nullRow; split
      · rfl
      · exact hL _ (by omega) _ hj) (fun _ _ _ _ => rfl)
    obtain ⟨hNA, hbest⟩ := hrun.endAt.opened hoe
    have hlt := hrun.endAt.lt
    have e : r.normalizedDistance = normBy A p.hint n j (G n j) := by
      rw [hrun.result]; simp [mkResult, hNA]
    have hG := hu n (by omega) j hlt
    obtain ⟨x, hx, hxn, hpe⟩ := pickEnd_open_ok (a := a') (m := m') (G := G') (q := n + 1) (Nat.succ_pos n) hoe' hNA (j := j) (by omega)
      (by rw [Nat.add_sub_cancel, hG.1, ← e]; exact hfin)
    obtain ⟨r', hr'⟩ := open_succeeds h' hb' hdo' hB' hd' hx hxn hpe
    obtain ⟨j', j0', ks', hrun'⟩ := open_ok h' hb' hB' hd' hr'
    have e' : r'.normalizedDistance = normBy A p.hint n j' (G' n j') := by
      rw [hrun'.result]; simp [mkResult, hNA]
    refine ⟨r', hr', ?_⟩
    rcases hbest.append hm (hrun'.endAt.opened hoe').2 (fun j hj => by rw [(hu (n + 1 - 1) (by omega) j hj).1]) with rfl | ⟨h1, h2⟩
    · left
      obtain ⟨_, rfl, rfl⟩ := hrun'.trace.det h.wf.valid
        (hrun.trace.restrict (fun i hi j hj => ((hu i hi j hj).2).symm) (by omega) hlt)
      refine ⟨by rw [hrun'.result, hrun.result]; rfl, by rw [hrun'.result, hrun.result]; exact hG.1, by rw [e, e', hG.1], ?_⟩
      rw [hrun'.result, hrun.result]
      rfl
    · right
      exact ⟨by rw [hrun'.result]; simpa [mkResult] using h1, by rw [e, e']; exact h2⟩

/-! ### The first step -/

theorem Trace.of_nil {i0 j0 i j} (ht : Trace rs D S i0 j0 [] i j) : i = i0 ∧ j = j0 ∧ S i j ≠ nan := by
  generalize hk : ([] : List Int) = ks at ht
  cases ht with
  | start hS _ => exact ⟨rfl, rfl, hS⟩
  | step k q _ _ _ _ => simp at hk

/-- The first step out of the null row, when all rules advance by one query element and charge alike. -/
theorem Trace.first_step {q0 : Rule} (hq0 : rs[0]? = some q0)
    (hall : ∀ q ∈ rs, q.a = 1 ∧ q.terms = q0.terms ∧ q0.b ≤ q.b)
    (hB : Bellman A rs (n + 1) m W L openSeed G D) {i0 j0 ks i j} (ht : Trace rs D openSeed i0 j0 ks i j) :
    i < n + 1 → j < m → ks = [] ∨ ks.head? = some 1 := by
  induction ht with
  | start => intro _ _; exact .inl rfl
  | @step ks i j k q ht hr hS hD ih =>
    intro hi hj
    right
    rcases ih (by omega) (by omega) with rfl | h1
    · have hS0 := ht.of_nil.2.2
      have hi0 : i = 0 := openSeed_ne_nan hS0
      subst hi0
      have hqm := List.mem_of_getElem? hr
      obtain ⟨ha, hterms, hb⟩ := hall q hqm
      have ha0 := (hall q0 (List.mem_of_getElem? hq0)).1
      have hrow : ∀ c < m, G 0 c = fin 0 := fun c hc => (hB.seeded 0 (by omega) c hc (by simp [openSeed])).1
      cases hW : W (0 + q.a) (j + q.b) with
      | false =>
        rw [(hB.outside _ hi _ hj hS hW).2] at hD
        unfold intMin at hD
        omega
      | true =>
        rcases hB.inside _ hi _ hj hS hW with ⟨x, h1, h2, h3, h4, h5⟩ | ⟨_, _, h3⟩
        · have : x = k := by omega
          subst this
          cases x with
          | zero => rfl
          | succ x =>
            exfalso
            have e : ∀ y ∈ rs, y.b ≤ j + q.b → cand A L G (0 + q.a) (j + q.b) y = charge A L q0 (0 + q.a) (j + q.b) (fin 0) := by
              intro y hy hyb
              obtain ⟨ya, yt, _⟩ := hall y hy
              unfold cand
              rw [if_pos ⟨by omega, hyb⟩]
              unfold charge
              rw [show 0 + q.a - y.a = 0 by omega, hrow _ (by omega), yt]
            rw [List.getElem?_map, hr, Option.map_some, Option.some.injEq, e q hqm (by omega)] at h1
            refine h5 0 (by omega) (cand A L G (0 + q.a) (j + q.b) q0) (by rw [List.getElem?_map, hq0]; rfl) ?_
            rw [e q0 (List.mem_of_getElem? hq0) (by omega), h1]
        · rw [h3] at hD
          unfold intMin at hD
          omega
    · cases ks with
      | nil => simp at h1
      | cons y ks => simpa using h1

/-- **C81** Which first step a search takes: with `asymmetric`, `rigid` and `mvmStepPattern(e)` rule 1, always - all their rules charge
the arrival cell alone, and the first of equals is taken.  Rule 1 does not advance in the reference for `asymmetric`, so that in
`C81_cut_out` the alignment may begin at `k` itself, and advances by one for the other two, so that it must begin after `k`. -/
theorem C81_first_step {q0 : Rule} (hq0 : rs[0]? = some q0) (hall : ∀ q ∈ rs, q.a = 1 ∧ q.terms = q0.terms ∧ q0.b ≤ q.b)
    (h : Problem a n m L W p rs) (hob : a.openBegin = true) (hr : dtw A a = .ok r) (hmp : r.mapping = some mp) :
    mp.stepsTaken.head? = some 1 := by
  have hh : p.hint = "N" := by
    by_contra hh; rw [open_bad_hint h hob hh] at hr; simp at hr
  obtain ⟨G, D, qr, hB, _, hd⟩ := dtw_open A h hob hh
  obtain ⟨j, j0, ks, hrun⟩ := open_ok h hob hB hd hr
  have hm' : mp = (curve rs 0 j0 ks).dropNull := by
    have : r.mapping = some (curve rs 0 j0 ks).dropNull := by rw [hrun.result]; rfl
    rw [hmp] at this
    exact Option.some.inj this
  subst hm'
  rcases hrun.trace.first_step hq0 hall hB (by omega) hrun.endAt.lt with h0 | h0
  · have ht := hrun.trace
    have hn := h.n_pos
    subst h0
    have := ht.of_nil.1
    omega
  · exact h0

/-- The patterns meant. -/
theorem C81_first_step_patterns :
    (∀ q ∈ rulesOf Pat.asymmetric, q.a = 1 ∧ q.terms = [⟨0, 0, 1⟩] ∧ 0 ≤ q.b) ∧
    (∀ q ∈ rulesOf Pat.rigid, q.a = 1 ∧ q.terms = [⟨0, 0, 1⟩] ∧ 1 ≤ q.b) ∧
    (∀ e, ∀ q ∈ mvmRules e, q.a = 1 ∧ q.terms = [⟨0, 0, 1⟩] ∧ 1 ≤ q.b) ∧
    (rulesOf Pat.asymmetric)[0]? = some ⟨1, 0, [⟨0, 0, 1⟩]⟩ ∧ (rulesOf Pat.rigid)[0]? = some ⟨1, 1, [⟨0, 0, 1⟩]⟩ ∧
    (∀ e, 0 < e → (mvmRules e)[0]? = some ⟨1, 1, [⟨0, 0, 1⟩]⟩) := by
  refine ⟨by decide +kernel, by decide +kernel, ?_, by decide +kernel, by decide +kernel, ?_⟩
  · intro e q hq
    unfold mvmRules at hq
    obtain ⟨x, _, rfl⟩ := List.mem_map.1 hq
    exact ⟨rfl, rfl, by simp⟩
  · intro e he
    unfold mvmRules
    rw [List.getElem?_map, List.getElem?_range he]
    rfl

/-! ### Series -/

theorem gap_across (x pre y suf : List ℚ) {i j : Nat} (hj : j < y.length) :
    gap x (pre ++ y ++ suf) i (j + pre.length) = gap x y i j := by
  unfold gap
  have e : (pre ++ y ++ suf)[j + pre.length]? = y[j]? := by
    rw [List.append_assoc, List.getElem?_append_right (by omega), Nat.add_sub_cancel, List.getElem?_append_left hj]
  rw [List.getD_eq_getElem?_getD, List.getD_eq_getElem?_getD, List.getD_eq_getElem?_getD, e]

/-- **C81** (series).  Both ends open, no window, a bundled pattern: whatever is recorded before and after, the search for `x` finds
something no worse in `pre ++ y ++ suf` than in `y` (exact local costs; the accumulation in any arithmetic with idempotent
rounding). -/
theorem C81_series (hA : Idempotent A) {o : Args} {q : String × StepPattern} (x pre y suf : List ℚ) (hq : q ∈ Pat.table)
    (hp : o.stepPattern = .name q.1) (hw : canonWindow o.windowType = .noWindow) (hob : o.openBegin = true)
    (hoe : o.openEnd = true) (hdo : o.distanceOnly = false) (hx : x ≠ []) (hy : y ≠ [])
    (hs : (x.length + 1) * (pre ++ y ++ suf).length < 2147483648) (hr : dtw A (ask o x y) = .ok r) :
    ∃ r', dtw A (ask o x (pre ++ y ++ suf)) = .ok r' ∧ F64.le r'.normalizedDistance r.normalizedDistance := by
  have hxl := List.length_pos_iff.2 hx
  have hyl := List.length_pos_iff.2 hy
  have hlen : (pre ++ y ++ suf).length = pre.length + y.length + suf.length := by simp [Nat.add_assoc]
  have h1 : Sensible o x.length y.length (fun _ _ => true) q :=
    sensible_free hxl hyl (_root_.lt_of_le_of_lt (Nat.mul_le_mul_left _ (by omega)) hs) hq hp hw
  have h2 : Sensible o x.length (pre ++ y ++ suf).length (fun _ _ => true) q := sensible_free hxl (by omega) hs hq hp hw
  obtain ⟨r', hr', _, hle⟩ := C81_longer_no_worse (k := pre.length) hA (ask_problem h1) (ask_problem h2) hob hob rfl hdo (by omega)
    (fun hc => by
      have e : (ask o x y).openEnd = o.openEnd := rfl
      rw [e, hoe] at hc; cases hc) (fun i hi j hj => by rw [gap_across x pre y suf hj]) (fun _ _ _ _ _ => rfl) hr
  exact ⟨r', hr', hle⟩

/-! ### Concrete cases -/

def Ex.seek : Args := { x := .d1 [], stepPattern := .name "asymmetric", openBegin := true, openEnd := true }
def Ex.motif : List ℚ := [1, 3, 2]
def Ex.part : List ℚ := [9, 1, 4, 5 / 4]
def Ex.recording : List ℚ := [9, 7] ++ Ex.part ++ [9, 0]

theorem Ex.part_problem : Problem (ask Ex.seek Ex.motif Ex.part) 3 4 (fun i j => fin (gap Ex.motif Ex.part i j)) (fun _ _ => true)
    Pat.asymmetric (rulesOf Pat.asymmetric) :=
  ask_problem (q := ("asymmetric", Pat.asymmetric)) (sensible_free (by decide) (by decide) (by decide) Ex.asym_mem rfl rfl)

theorem Ex.recording_problem : Problem (ask Ex.seek Ex.motif Ex.recording) 3 8 (fun i j => fin (gap Ex.motif Ex.recording i j))
    (fun _ _ => true) Pat.asymmetric (rulesOf Pat.asymmetric) :=
  ask_problem (q := ("asymmetric", Pat.asymmetric)) (sensible_free (by decide) (by decide) (by decide) Ex.asym_mem rfl rfl)

/-- What the search in the recording returns, in doubles. -/
theorem Ex.recording_found : (dtw (binary64 true) (ask Ex.seek Ex.motif Ex.recording)).toOption.map (fun r =>
      ((r.jmin, r.distance), (r.mapping.map fun mp => mp.stepsTaken), (r.mapping.map fun mp => mp.index2s))) =
    some ((5, fin (7 / 4)), some [1, 2, 2], some [3, 4, 5]) := by decide +kernel

/-- It lies in the part, `recording[2:6]`, so the search there finds it too. -/
example : ∃ r mp, dtw (binary64 true) (ask Ex.seek Ex.motif Ex.part) = .ok r ∧ r.mapping = some mp ∧
    r.distance = fin (7 / 4) ∧ r.jmin = 3 ∧ mp.stepsTaken = [1, 2, 2] := by
  obtain ⟨r', hr'⟩ := Ex.get_ok (x := dtw (binary64 true) (ask Ex.seek Ex.motif Ex.recording)) (by decide +kernel)
  have hf := Ex.recording_found
  rw [hr'] at hf
  have hf := Option.some.inj hf
  simp only [Prod.mk.injEq] at hf
  obtain ⟨⟨h1, h2⟩, h3, h4⟩ := hf
  cases hm : r'.mapping with
  | none => rw [hm] at h3; simp at h3
  | some mp' =>
    rw [hm] at h3 h4
    have s1 : mp'.stepsTaken = [1, 2, 2] := Option.some.inj h3
    have s3 : mp'.index2s = [3, 4, 5] := Option.some.inj h4
    obtain ⟨r, mp, hr, hmp, e1, _, e3, e4, _⟩ := C81_cut_out (k := 2) (C20_C22_double_idempotent true) Ex.part_problem
      Ex.recording_problem rfl rfl rfl rfl (by decide) (by intro h; cases h)
      (fun i hi j hj => congrArg fin (gap_across Ex.motif [9, 7] Ex.part [9, 0] (i := i) hj))
      (fun _ _ _ _ _ => rfl) hr' hm (t := 0) (q := ⟨1, 0, [⟨0, 0, 1⟩]⟩) (c1 := 3) (by rw [s1]; rfl) (by decide +kernel)
      (by rw [s3]; rfl) (by decide) (by rw [h1]; decide) (fun _ _ _ _ _ => rfl)
    exact ⟨r, mp, hr, hmp, by rw [e1, h2], by push_cast at e3; omega, by rw [← e4, s1]⟩

/-- The other two theorems apply as well. -/
example : (∃ r', dtw (binary64 true) (ask Ex.seek Ex.motif ([9, 7] ++ Ex.part ++ [9, 0])) = .ok r' ∧
      F64.le r'.normalizedDistance (rnd64 (7 / 12))) ∧
    ∃ r', dtw (binary64 true) (ask Ex.seek Ex.motif ([] ++ Ex.part ++ [1, 3, 2])) = .ok r' ∧
      (r'.jmin = 3 ∨ (4 : Int) ≤ r'.jmin) := by
  obtain ⟨r, hr⟩ := Ex.get_ok (x := dtw (binary64 true) (ask Ex.seek Ex.motif Ex.part)) (by decide +kernel)
  have hv : (dtw (binary64 true) (ask Ex.seek Ex.motif Ex.part)).toOption.map (fun r => (r.jmin, r.normalizedDistance)) =
      some (3, rnd64 (7 / 12)) := by decide +kernel
  rw [hr] at hv
  have hv := Option.some.inj hv
  simp only [Prod.mk.injEq] at hv
  constructor
  · obtain ⟨r', hr', hle⟩ := C81_series (C20_C22_double_idempotent true) Ex.motif [9, 7] Ex.part [9, 0] Ex.asym_mem rfl rfl rfl rfl rfl
      (by decide) (by decide) (by decide) hr
    exact ⟨r', hr', by rw [← hv.2]; exact hle⟩
  · have hP : Problem (ask Ex.seek Ex.motif ([] ++ Ex.part ++ [1, 3, 2])) 3 7 _ _ _ _ :=
      ask_problem (q := ("asymmetric", Pat.asymmetric)) (sensible_free (by decide) (by decide) (by decide) Ex.asym_mem rfl rfl)
    obtain ⟨r', hr', h⟩ := C81_appended Ex.part_problem hP rfl rfl rfl rfl rfl (by decide)
      (fun i hi j hj => by
        have := gap_across Ex.motif [] Ex.part [1, 3, 2] (i := i) hj
        simpa using this) (fun _ _ _ _ => rfl) hr (by rw [hv.2]; decide +kernel)
    exact ⟨r', hr', by rcases h with ⟨h, _⟩ | ⟨h, _⟩
                       · left; rw [h]; exact hv.1
                       · right; exact_mod_cast h⟩

/-- Negative: `rigid` never matches reference element 0, so what it finds in a recording may be lost in a part that begins with it
(here at `recording[1]`). -/
theorem C81_rigid_boundary :
    (dtw Arith.exact (ask { Ex.seek with stepPattern := .name "rigid" } [1, 3] [7, 1, 3, 9])).toOption.map (·.distance) = some (fin 0) ∧
    (dtw Arith.exact (ask { Ex.seek with stepPattern := .name "rigid" } [1, 3] [1, 3, 9])).toOption.map (·.distance) = some (fin 8) := by
  constructor <;> decide +kernel

end DTW
