import Verif.Proofs.OpenBegin
import Verif.Props.Options
import Verif.Props.Relational
import Verif.Props.PathShape

/-!
# C05-C12, C14, C27, C28, C43 with open ends

The closed-begin statements of these properties, for alignments with open begin and/or open end.
-/

namespace DTW
open F64

variable {A : Arith} {a a' : Args} {n m : Nat} {L L' : Nat → Nat → F64} {W W' : Nat → Nat → Bool}
  {p : StepPattern} {rs : List Rule} {r r' : Result} {mp : Mapping}

/-- What a successful open-begin call with a path looks like. -/
theorem open_mapping (h : Problem a n m L W p rs) (hob : a.openBegin = true) (hr : dtw A a = .ok r)
    (hmp : r.mapping = some mp) :
    ∃ (j j0 : Nat) (ks : List Int), r.jmin = j ∧ j < m ∧ mp = (curve rs 0 j0 ks).dropNull ∧
      OpenPath A rs W L j0 ks n j r.distance := by
  have hh : p.hint = "N" := by
    by_contra hh; rw [open_bad_hint h hob hh] at hr; simp at hr
  obtain ⟨G, D, qr, hB, _, hd⟩ := dtw_open A h hob hh
  obtain ⟨j, j0, ks, hrun⟩ := open_ok h hob hB hd hr
  have hdist : r.distance = G n j := by rw [hrun.result]; rfl
  refine ⟨j, j0, ks, by rw [hrun.result]; rfl, hrun.endAt.lt, ?_, ?_⟩
  · rw [hrun.result] at hmp
    simp only [mkResult, Option.some.injEq] at hmp
    exact hmp.symm
  · rw [hdist]; exact hrun.path.toOpenPath.2

theorem isChain_tail {α : Type} {R : α → α → Prop} {l : List α} (h : l.IsChain R) : l.tail.IsChain R := by
  cases l with
  | nil => simp
  | cons x l => exact h.of_cons

/-- C05, open begin: the index vectors have equal lengths and are non-decreasing, and so are the corner vectors, whose
consecutive points differ.  (That they stay in range: `C05_open_begin_in_range`.) -/
theorem C05_open_begin (h : Problem a n m L W p rs) (hob : a.openBegin = true)
    (hr : dtw A a = .ok r) (hmp : r.mapping = some mp) :
    mp.index1.length = mp.index2.length ∧ mp.index1s.length = mp.index2s.length ∧
    ((∀ q ∈ rs, q.Ordered) → mp.index1.Pairwise (· ≤ ·) ∧ mp.index2.Pairwise (· ≤ ·)) ∧
    mp.index1s.Pairwise (· ≤ ·) ∧ mp.index2s.Pairwise (· ≤ ·) ∧
    (mp.index1s.zip mp.index2s).IsChain (· ≠ ·) := by
  obtain ⟨j, j0, ks, hj, hlt, rfl, hp⟩ := open_mapping h hob hr hmp
  rw [dropNull_curve]
  have hcc := isChain_tail (coarse_chain (rs := rs) (fun x y => 0 ≤ x ∧ 0 ≤ y ∧ 0 < x + y)
    (fun r hr => by have := (h.wf.valid r hr).1; omega) ks (-1) j0)
  have hcp := pairwise_of_chain (hcc.imp fun u v huv => ⟨huv.1, huv.2.1⟩)
  refine ⟨by simp, by simp, ?_, hcp.1, hcp.2, ?_⟩
  · intro ho
    have := fine_chain _ ho ks (-1) (j0 : Int)
    exact pairwise_of_chain (isChain_tail this)
  · simp only
    rw [zip_fst_snd]
    refine hcc.imp ?_
    rintro u v huv rfl
    omega

/-- C06, open begin: one corner point per rule taken.  The first is reached by the first rule from row `-1` and some
column `j0`; each further one differs from its predecessor by the deltas of its rule; the full curve is the concatenation
of the points each rule visits. -/
theorem C06_open_begin (h : Problem a n m L W p rs) (hob : a.openBegin = true)
    (hr : dtw A a = .ok r) (hmp : r.mapping = some mp) :
    (∀ k ∈ mp.stepsTaken, 1 ≤ k ∧ k ≤ rs.length) ∧
    mp.index1s.length = mp.stepsTaken.length ∧
    ∃ j0 : Nat, j0 < m ∧
      (∀ (t : Nat) (k : Int) (u v : Int × Int), mp.stepsTaken[t]? = some k →
        ((-1, (j0 : Int)) :: mp.index1s.zip mp.index2s)[t]? = some u → (mp.index1s.zip mp.index2s)[t]? = some v →
        ∃ (q : Nat) (r : Rule), k = (q : Int) + 1 ∧ rs[q]? = some r ∧ v = (u.1 + r.a, u.2 + r.b)) ∧
      mp.index1.zip mp.index2 = fineTail rs (-1) j0 mp.stepsTaken ∧
      (mp.index1s.zip mp.index2s).Sublist (mp.index1.zip mp.index2) := by
  obtain ⟨j, j0, ks, hj, hlt, rfl, hp⟩ := open_mapping h hob hr hmp
  rw [dropNull_curve]
  have hw := hp.toPath.toWalk
  have hleg := hw.legal
  have hlen := coarse_length ks (-1) (j0 : Int) hleg
  obtain ⟨t, ht⟩ := coarse_cons rs (-1) (j0 : Int) ks
  have hle := hw.le_coords
  refine ⟨?_, ?_, j0, by omega, ?_, ?_, ?_⟩
  · intro k hk
    obtain ⟨q, r, rfl, hq⟩ := hleg k hk
    have := (List.getElem?_eq_some_iff.1 hq).1
    omega
  · simp only [List.length_map, List.length_tail]; omega
  · intro t k u v
    simp only
    rw [zip_fst_snd]
    intro h1 h2 h3
    refine coarse_deltas ks (-1) (j0 : Int) hleg t k u v h1 ?_ ?_
    · rw [ht] at h2 ⊢; exact h2
    · rw [ht] at h3 ⊢; simpa using h3
  · simp only; rw [zip_fst_snd]
  · simp only; rw [zip_fst_snd, zip_fst_snd]
    have hs := coarse_sublist (rs := rs) ks (-1) (j0 : Int)
    rw [ht] at hs ⊢
    unfold fine at hs
    simpa using hs

/-- The candidate cost of rule `r` at cell `(i,j)` of an open-begin alignment whose cumulative costs are `G`: a rule may
start from the null row before the query (row `-1` of `G`), at no cost, in any column; local costs charged in the null
row are zero. -/
def candOpen (A : Arith) (L G : Nat → Nat → F64) (i j : Nat) (r : Rule) : F64 :=
  if r.a ≤ i + 1 ∧ r.b ≤ j then
    charge A (fun i' j' => if i' = 0 then fin 0 else L (i' - 1) j') r (i + 1) j
      (if r.a = i + 1 then fin 0 else G (i - r.a) (j - r.b))
  else nan

/-- C07 / C08, open begin: the recursion satisfied by the returned matrices. -/
theorem C07_C08_open_begin (h : Problem a n m L W p rs) (hob : a.openBegin = true)
    (hki : a.keepInternals = true) (hr : dtw A a = .ok r) :
    ∃ (G : Nat → Nat → F64) (D : Nat → Nat → Int),
      r.costMatrix = some (Mat.ofFn n m G) ∧ r.directionMatrix = some (Mat.ofFn n m D) ∧
      r.localCostMatrix = some (Mat.ofFn n m L) ∧
      (∀ i < n, ∀ j < m, W (i + 1) j = false → G i j = nan ∧ D i j = -2147483648) ∧
      (∀ i < n, ∀ j < m, W (i + 1) j = true →
        IsBest (rs.map (candOpen A L G i j)) (G i j) (D i j)) := by
  have hh : p.hint = "N" := by
    by_contra hh; rw [open_bad_hint h hob hh] at hr; simp at hr
  obtain ⟨G, D, qr, hB, _, hd⟩ := dtw_open A h hob hh
  obtain ⟨j, j0, ks, hrun⟩ := open_ok h hob hB hd hr
  have hS : ∀ i j, openSeed (i + 1) j = nan := fun i j => by simp [openSeed]
  refine ⟨fun i j => G (i + 1) j, fun i j => D (i + 1) j, ?_, ?_, ?_, ?_, ?_⟩
  · rw [hrun.result]; simp [mkResult, hki, hob, dropRow_ofFn]
  · rw [hrun.result]; simp [mkResult, hki, hob, dropRow_ofFn]
  · rw [hrun.result]; simp [mkResult, hki, hob, dropRow_ofFn, nullRow]
  · intro i hi j hj hW
    exact hB.outside (i + 1) (by omega) j hj (hS i j) hW
  · intro i hi j hj hW
    have hb := hB.inside (i + 1) (by omega) j hj (hS i j) hW
    have e : rs.map (candOpen A L (fun i j => G (i + 1) j) i j) = rs.map (cand A (nullRow L) G (i + 1) j) := by
      apply List.map_congr_left
      intro q _
      unfold candOpen cand
      by_cases hq : q.a ≤ i + 1 ∧ q.b ≤ j
      · rw [if_pos hq, if_pos hq]
        have e2 : (if q.a = i + 1 then fin 0 else G (i - q.a + 1) (j - q.b)) = G (i + 1 - q.a) (j - q.b) := by
          split
          · rename_i hqa
            have hseed : openSeed (i + 1 - q.a) (j - q.b) ≠ nan := by
              rw [show i + 1 - q.a = 0 by omega]; simp [openSeed]
            have := (hB.seeded (i + 1 - q.a) (by omega) (j - q.b) (by omega) hseed).1
            rw [this, show i + 1 - q.a = 0 by omega]
            simp [openSeed]
          · rw [show i + 1 - q.a = i - q.a + 1 by omega]
        rw [e2]
        rfl
      · rw [if_neg hq, if_neg hq]
    simp only at e ⊢
    rw [e]
    exact hb

/-- C09, open begin: every cell of the returned cost matrix is the least cost of an open-begin path to it. -/
theorem C09_open_begin (h : Problem a n m L W p rs) (hob : a.openBegin = true)
    (hki : a.keepInternals = true) (hr : dtw A a = .ok r) :
    ∃ G : Nat → Nat → F64, r.costMatrix = some (Mat.ofFn n m G) ∧ ∀ i < n, ∀ j < m,
      (G i j ≠ nan → ∃ j0 ks, OpenPath A rs W L j0 ks (i + 1) j (G i j)) ∧
      (∀ j0 ks c, OpenPath A rs W L j0 ks (i + 1) j c → usable c → F64.le (G i j) c) := by
  have hh : p.hint = "N" := by
    by_contra hh; rw [open_bad_hint h hob hh] at hr; simp at hr
  obtain ⟨G, D, qr, hB, _, hd⟩ := dtw_open A h hob hh
  obtain ⟨j, j0, ks, hrun⟩ := open_ok h hob hB hd hr
  refine ⟨fun i j => G (i + 1) j, by rw [hrun.result]; simp [mkResult, hki, hob, dropRow_ofFn], ?_⟩
  intro i hi j hj
  refine ⟨?_, ?_⟩
  · intro hG
    obtain ⟨i0, j0, ks, hp, _⟩ := hB.sound h.wf.valid _ (i + 1) j rfl (by omega) hj hG
    exact ⟨j0, ks, hp.toOpenPath.2⟩
  · intro j0 ks c hp hu
    exact hB.optimal hp.toPath (by omega) hj hu

theorem OpenPath.window {j0 : Nat} {ks : List Int} {i j : Nat} {c : F64} (h : OpenPath A rs W L j0 ks i j c) :
    ∀ u ∈ (coarse rs 0 j0 ks).tail, ∃ i' j' : Nat, u = (((i' : Int) + 1), (j' : Int)) ∧ W (i' + 1) j' = true := by
  induction h with
  | start => intro u hu; simp [coarse] at hu
  | @step ks i j c k q hp hq h0 hW ih =>
    have hs := hp.toPath.toWalk.coarse_snoc hq
    simp only [Nat.cast_zero] at hs
    intro u hu
    rw [hs] at hu
    obtain ⟨t, ht⟩ := coarse_cons rs 0 (j0 : Int) ks
    rw [ht] at hu ih
    simp only [List.cons_append, List.tail_cons, List.mem_append, List.mem_singleton] at hu ih
    rcases hu with hu | rfl
    · exact ih u hu
    · refine ⟨i + q.a - 1, j + q.b, ?_, ?_⟩
      · have : ((i + q.a - 1 : Nat) : Int) + 1 = (i : Int) + q.a := by omega
        rw [this]; push_cast; rfl
      · rw [show i + q.a - 1 + 1 = i + q.a by omega]; exact hW

/-- C10, open begin: every corner point `(i,j)` lies inside the window, in the coordinates of the extended matrix, that
is `(i+1,j)`. -/
theorem C10_open_begin (h : Problem a n m L W p rs) (hob : a.openBegin = true)
    (hr : dtw A a = .ok r) (hmp : r.mapping = some mp) :
    ∀ u ∈ mp.index1s.zip mp.index2s,
      ∃ i j : Nat, u = ((i : Int), (j : Int)) ∧ i < n ∧ j < m ∧ W (i + 1) j = true := by
  obtain ⟨j, j0, ks, hj, hlt, rfl, hp⟩ := open_mapping h hob hr hmp
  have hcr := hp.toPath.toWalk.coarse_range h.wf.valid
  intro u hu
  have e : (curve rs 0 j0 ks).dropNull.index1s.zip (curve rs 0 j0 ks).dropNull.index2s =
      ((coarse rs 0 j0 ks).tail).map fun u => (u.1 - 1, u.2) := by
    rw [dropNull_curve]
    simp only
    rw [zip_fst_snd, List.map_tail, coarse_shift]
    rfl
  rw [e, List.mem_map] at hu
  obtain ⟨v, hv, rfl⟩ := hu
  obtain ⟨i', j', rfl, hW⟩ := hp.window v hv
  have := hcr _ (List.mem_of_mem_tail hv)
  simp only at this
  exact ⟨i', j', by simp, by omega, by omega, hW⟩

/-! ### Comparing calls, whatever their ends -/

theorem divQ_mono (A : Arith) {v w : F64} {b : ℚ} (hb : 0 < b) (h : F64.le v w) :
    F64.le (A.divQ v b) (A.divQ w b) := by
  have hb0 : b ≠ 0 := ne_of_gt hb
  have hb1 : ¬ b < 0 := not_lt.2 (le_of_lt hb)
  cases v <;> cases w <;> simp only [F64.le, F64.lt, Arith.divQ, if_neg hb0, if_neg hb1] at h ⊢ <;> simp at h ⊢
  · exact ⟨A.rnd_ne_nan _, by cases A.rnd _ <;> rfl⟩
  · exact ⟨A.rnd_ne_nan _, A.rnd_ne_nan _, A.rnd_mono _ _ (div_le_div_of_nonneg_right h (_root_.le_of_lt hb))⟩
  · exact ⟨A.rnd_ne_nan _, by cases A.rnd _ <;> rfl⟩

theorem normBy_mono (A : Arith) (hint : String) {n j : Nat} (hn : 0 < n) {v w : F64} (h : F64.le v w) :
    F64.le (normBy A hint n j v) (normBy A hint n j w) := by
  have h1 : (0 : ℚ) < n := by exact_mod_cast hn
  have h2 : (0 : ℚ) ≤ j := by positivity
  unfold normBy
  split
  · exact divQ_mono A (by linarith) h
  · split
    · exact divQ_mono A h1 h
    · split
      · exact divQ_mono A (by linarith) h
      · exact h

/-- A result ends no worse than another if its last row of cumulative costs is no worse. -/
structure EndsNoWorse (openEnd : Bool) (hint : String) (r' r : Result) : Prop where
  distance : openEnd = false → F64.le r'.distance r.distance
  normalized : hint ≠ "NA" → F64.le r'.normalizedDistance r.normalizedDistance

theorem endsNoWorse {q : Nat} {G G' : Nat → Nat → F64} {D D' qr qr' lm lm' j j' mp mp'} (hn : 0 < n)
    (hoe : a.openEnd = a'.openEnd)
    (he : EndAt A a p.hint n m q G j) (he' : EndAt A a' p.hint n m q G' j')
    (hr : r = mkResult A a p n m q qr lm G D j mp) (hr' : r' = mkResult A a' p n m q qr' lm' G' D' j' mp')
    (hG : ∀ j < m, G (q - 1) j ≠ nan → F64.le (G' (q - 1) j) (G (q - 1) j)) :
    EndsNoWorse a.openEnd p.hint r' r := by
  subst hr hr'
  have hj := hG j he.lt he.ne_nan
  constructor
  · intro hc
    have e := he.closed hc
    have e' := he'.closed (by rw [← hoe]; exact hc)
    subst e e'
    exact hj
  · intro hna
    simp only [mkResult, if_neg hna]
    have h2 := normBy_mono A p.hint (n := n) (j := j) hn hj
    cases hc : a.openEnd with
    | false =>
      have e := he.closed hc
      have e' := he'.closed (by rw [← hoe]; exact hc)
      subst e e'
      exact h2
    | true =>
      have hb := (he'.opened (by rw [← hoe]; exact hc)).2
      exact F64.le_trans (hb.min j he.lt (normBy_ne_nan A hn hj.1)) h2

theorem Path.window_mono {S : Nat → Nat → F64} {q : Nat} (hsub : ∀ i < q, ∀ j < m, W i j = true → W' i j = true)
    {i0 j0 ks i j c} (h : Path A rs W L S i0 j0 ks i j c) : i < q → j < m → Path A rs W' L S i0 j0 ks i j c := by
  induction h with
  | start hS => intro _ _; exact .start _ _ hS
  | step k r _ hr hW hS ih =>
    intro hi hj
    exact .step k r (ih (by omega) (by omega)) hr (hsub _ hi _ hj hW) hS

theorem Bellman.window_mono {S G G' : Nat → Nat → F64} {D D' : Nat → Nat → Int} {q : Nat} (hv : ∀ r ∈ rs, r.Valid)
    (hB : Bellman A rs q m W L S G D) (hB' : Bellman A rs q m W' L S G' D')
    (hsub : ∀ i < q, ∀ j < m, W i j = true → W' i j = true) {i j : Nat} (hi : i < q) (hj : j < m)
    (hG : G i j ≠ nan) : F64.le (G' i j) (G i j) := by
  by_cases hS : S i j = nan
  · obtain ⟨i0, j0, ks, hp, _⟩ := hB.sound hv _ i j rfl hi hj hG
    exact hB'.optimal (hp.window_mono hsub hi hj) hi hj (hB.usable_of_ne_nan hi hj hS hG)
  · rw [(hB.seeded i hi j hj hS).1, (hB'.seeded i hi j hj hS).1]
    exact F64.le_refl hS

/-- C11, any ends (open begin and/or open end).  If two calls differ only in their windows and the second window allows
whatever the first does, then the second is no worse: its distance is not larger when the end is fixed, its normalised
distance is not larger when the pattern is normalisable. -/
theorem C11_any_ends (h : Problem a n m L W p rs) (h' : Problem a' n m L W' p rs)
    (hob : a.openBegin = a'.openBegin) (hoe : a.openEnd = a'.openEnd)
    (hsub : ∀ i < gridRows a n, ∀ j < m, W i j = true → W' i j = true)
    (hr : dtw A a = .ok r) (hr' : dtw A a' = .ok r') :
    (a.openEnd = false → F64.le r'.distance r.distance) ∧
    (p.hint ≠ "NA" → F64.le r'.normalizedDistance r.normalizedDistance) := by
  have hn := h.n_pos
  cases hb : a.openBegin with
  | false =>
    have hb' : a'.openBegin = false := by rw [← hob]; exact hb
    obtain ⟨G, D, qr, hB, _, hd⟩ := dtw_closed A h hb
    obtain ⟨G', D', qr', hB', _, hd'⟩ := dtw_closed A h' hb'
    obtain ⟨j, ks, hrun⟩ := closed_ok h hb hB hd hr
    obtain ⟨j', ks', hrun'⟩ := closed_ok h' hb' hB' hd' hr'
    simp only [gridRows, hb] at hsub
    have := endsNoWorse hn hoe hrun.endAt hrun'.endAt hrun.result hrun'.result
      (fun j hj hG => hB.window_mono h.wf.valid hB' (by simpa using hsub) (by omega) hj hG)
    exact ⟨this.1, this.2⟩
  | true =>
    have hb' : a'.openBegin = true := by rw [← hob]; exact hb
    have hh : p.hint = "N" := by
      by_contra hh; rw [open_bad_hint h hb hh] at hr; simp at hr
    obtain ⟨G, D, qr, hB, _, hd⟩ := dtw_open A h hb hh
    obtain ⟨G', D', qr', hB', _, hd'⟩ := dtw_open A h' hb' hh
    obtain ⟨j, j0, ks, hrun⟩ := open_ok h hb hB hd hr
    obtain ⟨j', j0', ks', hrun'⟩ := open_ok h' hb' hB' hd' hr'
    simp only [gridRows, hb] at hsub
    have := endsNoWorse hn hoe hrun.endAt hrun'.endAt hrun.result hrun'.result
      (fun j hj hG => hB.window_mono h.wf.valid hB' (by simpa using hsub) (by omega) hj hG)
    exact ⟨this.1, this.2⟩

/-- C11, open begin: success is inherited too (closed end). -/
theorem C11_open_begin_succeeds (h : Problem a n m L W p rs) (h' : Problem a' n m L W' p rs)
    (hob : a.openBegin = true) (hob' : a'.openBegin = true) (hoe : a.openEnd = false) (hoe' : a'.openEnd = false)
    (hdo : a'.distanceOnly = false)
    (hsub : ∀ i < n + 1, ∀ j < m, W i j = true → W' i j = true) (hr : dtw A a = .ok r) :
    ∃ r', dtw A a' = .ok r' ∧ F64.le r'.distance r.distance := by
  have hh : p.hint = "N" := by
    by_contra hh; rw [open_bad_hint h hob hh] at hr; simp at hr
  have hm := h.m_pos
  obtain ⟨mp, j, j0, hmp, hj, hlt, hcl, hp, _⟩ := C22_open_begin_optimal h hob hr
  have hdo0 : a.distanceOnly = false := by
    obtain ⟨G, D, qr, hB, _, hd⟩ := dtw_open A h hob hh
    obtain ⟨j, j0, ks, hrun⟩ := open_ok h hob hB hd hr
    exact hrun.full
  obtain ⟨j1, ks1, c1, hp1, hu1⟩ := (C22_open_begin_succeeds_iff (A := A) h hob hoe hdo0 hh).1 ⟨r, hr⟩
  have hp1' := (hp1.toPath.window_mono hsub (by omega) (by omega)).toOpenPath.2
  obtain ⟨r', hr'⟩ := (C22_open_begin_succeeds_iff (A := A) h' hob' hoe' hdo hh).2 ⟨j1, ks1, c1, hp1', hu1⟩
  refine ⟨r', hr', (C11_any_ends h h' (by rw [hob, hob']) (by rw [hoe, hoe']) ?_ hr hr').1 hoe⟩
  simpa [gridRows, hob] using hsub

theorem Path.mono {ℓ : Nat → Nat → ℚ} {S S' : Nat → Nat → F64} {q : Nat} (hw : NonnegWeights A rs)
    (hS : ∀ i < q, ∀ j < m, S' i j ≠ nan → F64.le (S i j) (S' i j)) (hS' : ∀ i < q, ∀ j < m, S' i j = nan → S i j = nan)
    (hl : ∀ i < q, ∀ j < m, F64.le (fin (ℓ i j)) (L' i j))
    {i0 j0 ks i j c'} (h : Path A rs W L' S' i0 j0 ks i j c') : i < q → j < m → (ks ≠ [] → usable c') →
    ∃ c, Path A rs W (fun i j => fin (ℓ i j)) S i0 j0 ks i j c ∧ F64.le c c' := by
  induction h with
  | start hn =>
    intro hi hj _
    have := hS i0 hi j0 hj hn
    exact ⟨_, .start _ _ this.1, this⟩
  | @step ks i j c' k r hp hr hW hn ih =>
    intro hi hj hu
    have huc := hu (by simp)
    have hu1 := charge_usable huc
    obtain ⟨c, hc, hle⟩ := ih (by omega) (by omega) (fun _ => hu1)
    refine ⟨_, .step k r hc hr hW (hS' _ hi _ hj hn), ?_⟩
    exact charge_mono2 (hw r (List.mem_of_getElem? hr))
      (fun t _ => hl _ (by omega) _ (by omega)) hle huc

theorem Bellman.cost_mono {ℓ : Nat → Nat → ℚ} {S S' G G' : Nat → Nat → F64} {D D' : Nat → Nat → Int} {q : Nat}
    (hv : ∀ r ∈ rs, r.Valid) (hw : NonnegWeights A rs)
    (hS : ∀ i < q, ∀ j < m, S' i j ≠ nan → F64.le (S i j) (S' i j)) (hS' : ∀ i < q, ∀ j < m, S' i j = nan → S i j = nan)
    (hl : ∀ i < q, ∀ j < m, F64.le (fin (ℓ i j)) (L' i j))
    (hB : Bellman A rs q m W (fun i j => fin (ℓ i j)) S G D) (hB' : Bellman A rs q m W L' S' G' D')
    {i j : Nat} (hi : i < q) (hj : j < m) (hG : G' i j ≠ nan) : F64.le (G i j) (G' i j) := by
  by_cases h0 : S' i j = nan
  · obtain ⟨i0, j0, ks, hp, _⟩ := hB'.sound hv _ i j rfl hi hj hG
    have hu := hB'.usable_of_ne_nan hi hj h0 hG
    obtain ⟨c, hc, hle⟩ := hp.mono hw hS hS' hl hi hj (fun _ => hu)
    exact F64.le_trans (hB.optimal hc hi hj (usable_of_le hle hu)) hle
  · have h1 := hS i hi j hj h0
    rw [(hB'.seeded i hi j hj h0).1, (hB.seeded i hi j hj h1.1).1]
    exact h1

/-- C12, any ends (open begin and/or open end).  Lowering local costs pointwise never makes the alignment worse: the
distance is not larger when the end is fixed, the normalised distance is not larger when the pattern is normalisable. -/
theorem C12_any_ends {ℓ : Nat → Nat → ℚ} (h : Problem a n m (fun i j => fin (ℓ i j)) W p rs)
    (h' : Problem a' n m L' W p rs) (hob : a.openBegin = a'.openBegin) (hoe : a.openEnd = a'.openEnd)
    (hw : NonnegWeights A rs) (hle : ∀ i < n, ∀ j < m, F64.le (fin (ℓ i j)) (L' i j))
    (hr : dtw A a = .ok r) (hr' : dtw A a' = .ok r') :
    (a.openEnd = false → F64.le r.distance r'.distance) ∧
    (p.hint ≠ "NA" → F64.le r.normalizedDistance r'.normalizedDistance) := by
  have hn := h.n_pos
  have hm := h.m_pos
  cases hb : a.openBegin with
  | false =>
    have hb' : a'.openBegin = false := by rw [← hob]; exact hb
    obtain ⟨G, D, qr, hB, _, hd⟩ := dtw_closed A h hb
    obtain ⟨G', D', qr', hB', _, hd'⟩ := dtw_closed A h' hb'
    obtain ⟨j, ks, hrun⟩ := closed_ok h hb hB hd hr
    obtain ⟨j', ks', hrun'⟩ := closed_ok h' hb' hB' hd' hr'
    have := endsNoWorse hn hoe.symm hrun'.endAt hrun.endAt hrun'.result hrun.result
      (fun j hj hG => hB.cost_mono h.wf.valid hw (S' := closedSeed L') (L' := L') (by
          intro i hi j hj hne
          obtain ⟨rfl, rfl, _⟩ := closedSeed_ne_nan hne
          simpa [closedSeed] using hle 0 hn 0 hm) (by
          intro i hi j hj he
          unfold closedSeed at he ⊢
          by_cases h0 : i = 0 ∧ j = 0
          · rw [if_pos h0] at he
            exact absurd he (hle 0 hn 0 hm).2.1
          · rw [if_neg h0]) hle hB' (by omega) hj hG)
    rw [hoe]
    exact ⟨this.1, this.2⟩
  | true =>
    have hb' : a'.openBegin = true := by rw [← hob]; exact hb
    have hh : p.hint = "N" := by
      by_contra hh; rw [open_bad_hint h hb hh] at hr; simp at hr
    obtain ⟨G, D, qr, hB, _, hd⟩ := dtw_open A h hb hh
    obtain ⟨G', D', qr', hB', _, hd'⟩ := dtw_open A h' hb' hh
    obtain ⟨j, j0, ks, hrun⟩ := open_ok h hb hB hd hr
    obtain ⟨j', j0', ks', hrun'⟩ := open_ok h' hb' hB' hd' hr'
    have en : nullRow (fun i j => fin (ℓ i j)) = fun i j => fin (if i = 0 then 0 else ℓ (i - 1) j) := by
      funext i j; unfold nullRow; split <;> rfl
    rw [en] at hB
    have := endsNoWorse hn hoe.symm hrun'.endAt hrun.endAt hrun'.result hrun.result
      (fun j hj hG => hB.cost_mono h.wf.valid hw (S' := openSeed) (L' := nullRow L')
          (fun i hi j hj hne => F64.le_refl hne) (fun i hi j hj he => he) (by
            intro i hi j hj
            unfold nullRow
            split
            · simp
            · exact hle _ (by omega) _ hj) hB' (by omega) hj hG)
    rw [hoe]
    exact ⟨this.1, this.2⟩

theorem OpenPath.nonneg {ℓ : Nat → Nat → ℚ} (hw : NonnegWeights A rs) {j0 : Nat} {ks : List Int} {i j : Nat} {c : F64}
    (h : OpenPath A rs W (fun i j => fin (ℓ i j)) j0 ks i j c) (hl : ∀ i' < i, ∀ j' ≤ j, 0 ≤ ℓ i' j') :
    F64.le (fin 0) c := by
  induction h with
  | start => simp
  | @step ks i j c k r hp hr h0 hW ih =>
    have en : (fun i' j' => if i' = 0 then fin 0 else (fun i j => fin (ℓ i j)) (i' - 1) j') =
        fun i j => fin (if i = 0 then 0 else ℓ (i - 1) j) := by
      funext i j; split <;> rfl
    rw [en]
    refine charge_nonneg (hw r (List.mem_of_getElem? hr)) ?_ (ih fun i' hi' j' hj' => hl i' (by omega) j' (by omega))
    intro t _
    split
    · exact le_rfl
    · exact hl _ (by omega) _ (by omega)

/-- C14, open begin (either end): non-negative finite local costs and weights give a non-negative distance. -/
theorem C14_open_begin {ℓ : Nat → Nat → ℚ} (h : Problem a n m (fun i j => fin (ℓ i j)) W p rs)
    (hob : a.openBegin = true) (hw : NonnegWeights A rs) (hl : ∀ i < n, ∀ j < m, 0 ≤ ℓ i j)
    (hr : dtw A a = .ok r) : F64.le (fin 0) r.distance := by
  obtain ⟨mp, j, j0, _, _, hlt, _, hp, _⟩ := C22_open_begin_optimal h hob hr
  exact hp.nonneg hw (fun i hi j' hj' => hl i hi j' (by omega))

/-- C27 / C43, open begin: with patterns whose rules advance one query element and charge the arrival cell (`asymmetric`,
`rigid`, mvm) every query element is matched exactly once, and `index2` advances by the rules' reference deltas. -/
theorem C27_C43_open_begin (P : Int → Prop) (h : Problem a n m L W p rs) (hob : a.openBegin = true)
    (h1 : ∀ q ∈ rs, q.OnePer) (hP : ∀ q ∈ rs, P q.b) (hr : dtw A a = .ok r) (hmp : r.mapping = some mp) :
    mp.index1 = (List.range n).map (fun (x : Nat) => (x : Int)) ∧ mp.index2.IsChain fun u v => P (v - u) := by
  obtain ⟨j, j0, ks, hj, hlt, rfl, hp⟩ := open_mapping h hob hr hmp
  have hw := hp.toPath.toWalk
  constructor
  · have := hw.onePer_index h1 rfl
    simp only [Mapping.dropNull, curve]
    simp only [Nat.cast_zero] at this
    rw [this, List.range_succ_eq_map]
    simp [Function.comp_def]
  · have := Walk.onePer_chain P h1 hP ks 0 (j0 : Int)
    simp only [Mapping.dropNull, curve]
    exact isChain_tail this

/-- C27 / C43: the patterns in question. -/
theorem C27_C43_one_per_query :
    (∀ q ∈ rulesOf Pat.asymmetric, q.OnePer ∧ ((q.b : Int) = 0 ∨ (q.b : Int) = 1 ∨ (q.b : Int) = 2)) ∧
    (∀ q ∈ rulesOf Pat.rigid, q.OnePer ∧ (q.b : Int) = 1) ∧
    (∀ e, ∀ q ∈ mvmRules e, q.OnePer ∧ (0 < (q.b : Int) ∧ (q.b : Int) ≤ e)) := by
  refine ⟨by unfold Rule.OnePer; decide +kernel, by unfold Rule.OnePer; decide +kernel, ?_⟩
  intro e q hq
  simp only [mvmRules, List.mem_map, List.mem_range] at hq
  obtain ⟨k, hk, rfl⟩ := hq
  exact ⟨⟨rfl, rfl⟩, by simp, by simp; omega⟩

/-- C28, open begin: if the rules advance by unit steps, consecutive points of the curve differ by 0 or 1 in each
coordinate, not both 0; so every reference index between the first and the last matched one is matched. -/
theorem C28_open_begin (h : Problem a n m L W p rs) (hob : a.openBegin = true)
    (hc : ∀ q ∈ rs, q.Continuous) (hr : dtw A a = .ok r) (hmp : r.mapping = some mp) :
    ((mp.index1.zip mp.index2).IsChain fun u v =>
      (v.1 = u.1 ∨ v.1 = u.1 + 1) ∧ (v.2 = u.2 ∨ v.2 = u.2 + 1) ∧ v ≠ u) ∧
    (∀ j1 x : Int, mp.index2.head? = some j1 → j1 ≤ x → x ≤ r.jmin → x ∈ mp.index2) := by
  obtain ⟨mp', j', j0', hmp', hj', _, _, _, _, _, _, hl2, _⟩ := C22_open_begin_indices h hob hr
  rw [hmp] at hmp'
  cases hmp'
  obtain ⟨j, j0, ks, hj, hlt, rfl, hp⟩ := open_mapping h hob hr hmp
  have hch := isChain_tail (fine_chain _ hc ks (-1) (j0 : Int))
  rw [dropNull_curve] at hl2 ⊢
  refine ⟨?_, ?_⟩
  · simp only; rw [zip_fst_snd]
    refine hch.imp ?_
    intro u v huv
    refine ⟨by omega, by omega, ?_⟩
    rintro rfl
    omega
  · intro j1 x h1 hx hx'
    refine covers_of_chain _ j1 _ h1 hl2 ?_ x hx (by omega)
    simp only
    rw [List.isChain_map]
    exact hch.imp fun u v huv => by omega

/-- The open-begin example: `asymmetric` on a 3 × 4 matrix with both ends open. -/
example : Problem Ex.openBoth 3 4 Ex.openL (fun _ _ => true) Pat.asymmetric (rulesOf Pat.asymmetric) ∧
    Ex.openBoth.openBegin = true ∧
    ((dtw Arith.exact { Ex.openBoth with keepInternals := true }).toOption.bind fun r => r.mapping.map fun mp =>
      (mp.stepsTaken, mp.index1s, mp.index2s, mp.index1, mp.index2)) =
      some ([1, 1, 1], [0, 1, 2], [1, 1, 1], [0, 1, 2], [1, 1, 1]) :=
  ⟨Ex.openBoth_problem, rfl, by decide +kernel⟩

end DTW
