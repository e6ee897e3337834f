import Verif.Props.OpenBegin
import Verif.Props.DoublesMore

/-!
# C20, C22: when an open-end call succeeds, in every arithmetic whose values are representable

Normalisation divides the last row by lengths; the quotients of representable numbers are representable, so that no
candidate end is lost.
-/

namespace DTW
open F64

variable {A : Arith} {a a' : Args} {n m : Nat} {L S : Nat → Nat → F64} {W : Nat → Nat → Bool}
  {p : StepPattern} {rs : List Rule} {r : Result}

/-- Rounding a rounded value changes nothing. -/
def Idempotent (A : Arith) : Prop := ∀ x q, A.rnd x = fin q → A.rnd q = fin q

/-- `v` is a value the arithmetic can represent. -/
def Representable (A : Arith) (v : F64) : Prop := ∀ q, v = fin q → A.rnd q = fin q

theorem exact_idempotent : Idempotent Arith.exact := fun _ _ _ => rfl

theorem representable_exact (v : F64) : Representable Arith.exact v := fun _ _ => rfl

theorem representable_rnd (hA : Idempotent A) (x : ℚ) : Representable A (A.rnd x) := fun q h => hA x q h

theorem representable_add (hA : Idempotent A) (x y : F64) : Representable A (A.add x y) := by
  intro q h
  cases x <;> cases y <;> simp only [Arith.add] at h <;> first | exact hA _ _ h | simp at h

theorem charge_representable (hA : Idempotent A) {q : Rule} {i j : Nat} {c : F64} (hc : Representable A c) :
    Representable A (charge A L q i j c) := by
  unfold charge
  generalize q.terms = ts
  induction ts generalizing c with
  | nil => exact hc
  | cons t ts ih => exact ih (representable_add hA _ _)

theorem Path.representable (hA : Idempotent A) {i0 j0 : Nat} {ks : List Int} {i j : Nat} {c : F64}
    (h : Path A rs W L S i0 j0 ks i j c) (hS : Representable A (S i0 j0)) : Representable A c := by
  induction h with
  | start => exact hS
  | step _ _ _ _ _ _ ih => exact charge_representable hA ih

theorem divQ_usable {v : F64} {d : ℚ} (hd : 1 ≤ d) (hr : Representable A v) (hu : usable v) :
    usable (A.divQ v d) := by
  cases v with
  | nan => simp [usable] at hu
  | pinf => simp [usable] at hu
  | ninf => simp [Arith.divQ, usable, F64.lt, not_lt.2 (zero_le_one.trans hd)]
  | fin q =>
    have h0 : d ≠ 0 := by intro h; rw [h] at hd; norm_num at hd
    simp only [Arith.divQ, if_neg h0]
    have key : A.rnd (q / d) ≠ pinf := by
      intro hp
      rcases le_total 0 q with hq | hq
      · have h1 : q / d ≤ q := div_le_self hq hd
        have := A.rnd_mono _ _ h1
        rw [hr q rfl, hp] at this
        simp [F64.lt] at this
      · have h1 : q / d ≤ 0 := div_nonpos_of_nonpos_of_nonneg hq (by linarith)
        have := A.rnd_mono _ _ h1
        rw [A.rnd_zero, hp] at this
        simp [F64.lt] at this
    exact usable_iff.2 ⟨A.rnd_ne_nan _, key⟩

theorem normBy_usable {hint : String} {j : Nat} {v : F64} (hn : 0 < n) (hr : Representable A v) (hu : usable v) :
    usable (normBy A hint n j v) := by
  have h1 : (1 : ℚ) ≤ n := by exact_mod_cast hn
  have h2 : (0 : ℚ) ≤ j := by positivity
  unfold normBy
  split
  · exact divQ_usable (by linarith) hr hu
  · split
    · exact divQ_usable h1 hr hu
    · split
      · exact divQ_usable (by linarith) hr hu
      · exact hu

theorem pickEnd_open_ok {hint : String} {q : Nat} {G : Nat → Nat → F64} {j : Nat} (hq : 0 < q)
    (hoe : a.openEnd = true) (hNA : hint ≠ "NA") (hj : j < m)
    (hu : usable (normBy A hint n j (G (q - 1) j))) :
    ∃ k < m, G (q - 1) k ≠ nan ∧
      pickEnd a hint m (Mat.ofFn q m G) (normalise A hint n (tab m (G (q - 1)))) =
        .ok ((k : Int), G (q - 1) k) := by
  obtain ⟨k, hk⟩ := nanargmin_tab_error.2
    (⟨j, hj, usable_ne_nan hu⟩ : ∃ j < m, (fun j => normBy A hint n j (G (q - 1) j)) j ≠ nan)
  obtain ⟨hkm, hmin, hfirst⟩ := nanargmin_tab hk
  have hkne : G (q - 1) k ≠ nan := by
    intro hc
    have := hmin j hj
    rw [hc, normBy_nan, unNan_of (usable_ne_nan hu)] at this
    unfold usable at hu
    simp [unNan, isNan, hu] at this
  refine ⟨k, hkm, hkne, ?_⟩
  unfold pickEnd
  rw [normalise_tab, hk, hoe]
  simp only [if_true, if_neg hNA, Except_bind_ok]
  rw [pyGet_neg_one G hq hkm, Except_bind_ok]
  rw [if_neg (by simpa using hkne)]

/-- C20.  An open-end call with a normalisable pattern succeeds exactly when some cell of the last query row is reached by
a path of usable cost (degenerate exception: one query element and a corner of +inf).  Every arithmetic in which rounding
is idempotent, double precision in particular; the local cost of the corner must be a representable number. -/
theorem C20_open_end_succeeds_any (hA : Idempotent A) (h : Problem a n m L W p rs) (hob : a.openBegin = false)
    (hoe : a.openEnd = true) (hNA : p.hint ≠ "NA") (hL : Representable A (L 0 0)) (hne : L 0 0 ≠ pinf) :
    (∃ r, dtw A a = .ok r) ↔ ∃ ks j c, j < m ∧ WarpPath A rs W L ks (n - 1) j c ∧ usable c := by
  have hn := h.n_pos
  have hm := h.m_pos
  obtain ⟨G, D, qr, hB, _, hd⟩ := dtw_closed A h hob
  have hS : ∀ i j, Representable A (closedSeed L i j) := by
    intro i j; unfold closedSeed
    split
    · exact hL
    · intro q hq; simp at hq
  constructor
  · rintro ⟨r, hr⟩
    obtain ⟨j, ks, hrun⟩ := closed_ok h hob hB hd hr
    refine ⟨ks, j, _, hrun.endAt.lt, hrun.path, ?_⟩
    have hdist : r.distance = G (n - 1) j := by rw [hrun.result]; rfl
    by_cases hSn : closedSeed L (n - 1) j = nan
    · exact hB.usable_of_ne_nan (by omega) hrun.endAt.lt hSn hrun.endAt.ne_nan
    · have hg := (hB.seeded _ (by omega) _ hrun.endAt.lt hSn).1
      obtain ⟨h1, h2, h3⟩ := closedSeed_ne_nan hSn
      rw [hg]
      have e : closedSeed L (n - 1) j = L 0 0 := by simp [closedSeed, h1, h2]
      rw [e]; exact usable_iff.2 ⟨h3, hne⟩
  · rintro ⟨ks, j, c, hj, hp, hu⟩
    have hopt := hB.optimal (hp.toPath h.wf.valid (usable_ne_nan hu)) (by omega) hj hu
    have hGu := usable_of_le hopt hu
    obtain ⟨i0, j0, ks', hp', _⟩ := hB.sound h.wf.valid _ (n - 1) j rfl (by omega) hj hopt.1
    have hrep := hp'.representable hA (hS _ _)
    obtain ⟨k, hk, hkn, hpe⟩ := pickEnd_open_ok (a := a) (G := G) hn hoe hNA hj (normBy_usable hn hrep hGu)
    exact closed_succeeds h hob hB hd hk hkn hpe

theorem open_succeeds (h : Problem a n m L W p rs) (hob : a.openBegin = true) (hdo : a.distanceOnly = false)
    {G : Nat → Nat → F64} {D : Nat → Nat → Int} {qr} (hB : Bellman A rs (n + 1) m W (nullRow L) openSeed G D)
    (hd : dtw A a = finish A a p n m qr (n + 1) (Mat.ofFn (n + 1) m (nullRow L)) G D) {j : Nat} (hj : j < m)
    (hne : G n j ≠ nan)
    (hpe : pickEnd a p.hint m (Mat.ofFn (n + 1) m G) (normalise A p.hint n (tab m (G n))) =
      .ok ((j : Int), G n j)) :
    ∃ r, dtw A a = .ok r := by
  obtain ⟨i0, j0, ks, hp, ht⟩ := hB.sound h.wf.valid _ n j rfl (by omega) hj hne
  rw [hd, finish_of (q := n + 1) hj (by simpa using hpe),
    pickMapping_trace h.wf (Nat.succ_pos n) (by simpa using ht) hj, hob, hdo]
  exact ⟨_, rfl⟩

/-- C22.  With both ends open, the call succeeds exactly when some admissible path leads from the null row to the last
query row at a usable cost. -/
theorem C22_open_both_succeeds_iff (hA : Idempotent A) (h : Problem a n m L W p rs) (hob : a.openBegin = true)
    (hoe : a.openEnd = true) (hdo : a.distanceOnly = false) (hh : p.hint = "N") :
    (∃ r, dtw A a = .ok r) ↔ ∃ j0 ks j c, j < m ∧ OpenPath A rs W L j0 ks n j c ∧ usable c := by
  have hn := h.n_pos
  have hm := h.m_pos
  obtain ⟨G, D, qr, hB, _, hd⟩ := dtw_open A h hob hh
  constructor
  · rintro ⟨r, hr⟩
    obtain ⟨j, j0, ks, hrun⟩ := open_ok h hob hB hd hr
    refine ⟨j0, ks, j, _, hrun.endAt.lt, hrun.path.toOpenPath.2, ?_⟩
    refine hB.usable_of_ne_nan (by omega) hrun.endAt.lt ?_ hrun.endAt.ne_nan
    unfold openSeed; rw [if_neg (by omega)]
  · rintro ⟨j0, ks, j, c, hj, hp, hu⟩
    have hopt := hB.optimal hp.toPath (by omega) hj hu
    have hGu := usable_of_le hopt hu
    obtain ⟨i0, j0', ks', hp', _⟩ := hB.sound h.wf.valid _ n j rfl (by omega) hj hopt.1
    have hrep := hp'.representable hA (by
      unfold openSeed; split
      · intro q hq
        have : q = 0 := by simpa using hq.symm
        rw [this]; exact A.rnd_zero
      · intro q hq; simp at hq)
    obtain ⟨k, hk, hkn, hpe⟩ := pickEnd_open_ok (q := n + 1) (a := a) (G := G) (Nat.succ_pos n) hoe
      (by rw [hh]; decide) hj (normBy_usable (hint := p.hint) hn hrep hGu)
    exact open_succeeds h hob hdo hB hd hk hkn hpe

/-- C20.  What the open end means for paths: `jmin` is the end of an admissible path of cost `distance`; the
normalized distance is that cost normalized; no admissible path from the start to any cell of the last query row
has a smaller normalized cost, and those that end before `jmin` have a strictly larger one. -/
theorem C20_open_end_optimal (h : Problem a n m L W p rs) (hob : a.openBegin = false)
    (hoe : a.openEnd = true) (hr : dtw A a = .ok r) :
    ∃ (j : Nat) (ks : List Int), r.jmin = j ∧ j < m ∧ WarpPath A rs W L ks (n - 1) j r.distance ∧
      r.normalizedDistance = normBy A p.hint n j r.distance ∧
      (∀ ks' j' c, j' < m → WarpPath A rs W L ks' (n - 1) j' c → c ≠ nan →
        F64.le r.normalizedDistance (normBy A p.hint n j' c)) ∧
      (∀ ks' j' c, j' < j → WarpPath A rs W L ks' (n - 1) j' c → usable c →
        F64.lt r.normalizedDistance (normBy A p.hint n j' c) = true) := by
  have hn := h.n_pos
  obtain ⟨G, D, qr, hB, _, hd⟩ := dtw_closed A h hob
  obtain ⟨j, ks, hrun⟩ := closed_ok h hob hB hd hr
  obtain ⟨hna, hb⟩ := hrun.endAt.opened hoe
  have hnd : r.normalizedDistance = normBy A p.hint n j (G (n - 1) j) := by
    rw [hrun.result]; simp [mkResult, hna]
  have hdist : r.distance = G (n - 1) j := by rw [hrun.result]; rfl
  refine ⟨j, ks, by rw [hrun.result]; rfl, hrun.endAt.lt, by rw [hdist]; exact hrun.path, by rw [hnd, hdist], ?_, ?_⟩
  · intro ks' j' c hj' hp hc
    rw [hnd]
    by_cases hu : usable c
    · have h1 := hB.optimal (hp.toPath h.wf.valid hc) (by omega) hj' hu
      exact F64.le_trans (hb.min j' hj' (normBy_ne_nan A hn h1.1)) (normBy_mono A _ hn h1)
    · have e : c = pinf := by
        by_contra hne; exact hu (usable_iff.2 ⟨hc, hne⟩)
      have : normBy A p.hint n j' pinf = pinf := by
        have h1 : (0 : ℚ) ≤ n := by positivity
        have h2 : (0 : ℚ) ≤ j' := by positivity
        unfold normBy; split_ifs <;> simp [Arith.divQ] <;> linarith
      rw [e, this]
      exact le_pinf (normBy_ne_nan A hn hrun.endAt.ne_nan)
  · intro ks' j' c hj' hp hu
    have hj := hrun.endAt.lt
    have h1 := hB.optimal (hp.toPath h.wf.valid (usable_ne_nan hu)) (by omega) (by omega) hu
    rw [hnd]
    exact F64.lt_of_lt_of_le (hb.first j' hj' (normBy_ne_nan A hn h1.1)) (normBy_mono A _ hn h1)

/-- C22.  With both ends open the normalized distance is the least normalized cost over all admissible paths from the null
row to the last query row, wherever they start and end. -/
theorem C22_open_both_optimal (h : Problem a n m L W p rs) (hob : a.openBegin = true)
    (hoe : a.openEnd = true) (hr : dtw A a = .ok r) :
    r.normalizedDistance = A.divQ r.distance n ∧
    ∀ j0 ks j c, j < m → OpenPath A rs W L j0 ks n j c → c ≠ nan → F64.le r.normalizedDistance (A.divQ c n) := by
  have hn := h.n_pos
  have hh : p.hint = "N" := by
    by_contra hh; rw [open_bad_hint h hob hh] at hr; simp at hr
  obtain ⟨G, D, qr, hB, _, hd⟩ := dtw_open A h hob hh
  obtain ⟨j, j0, ks, hrun⟩ := open_ok h hob hB hd hr
  obtain ⟨_, hb⟩ := hrun.endAt.opened hoe
  have hN : ∀ j v, normBy A p.hint n j v = A.divQ v n := by
    intro j v; unfold normBy; rw [hh, if_neg (by decide), if_pos rfl]
  have hnd : r.normalizedDistance = A.divQ (G n j) n := by
    rw [hrun.result, ← hN j]; simp [mkResult, hh]
  have hdist : r.distance = G n j := by rw [hrun.result]; rfl
  have hpos : (0 : ℚ) < n := by exact_mod_cast hn
  refine ⟨by rw [hnd, hdist], ?_⟩
  intro j0' ks' j' c hj' hp hc
  rw [hnd]
  by_cases hu : usable c
  · have h1 := hB.optimal hp.toPath (by omega) hj' hu
    have h2 := hb.min j' hj' (by simpa [hN] using normBy_ne_nan (hint := p.hint) (j := j') A hn h1.1)
    simp only [hN, Nat.add_sub_cancel] at h2
    exact F64.le_trans h2 (divQ_mono A hpos h1)
  · have e : c = pinf := by
      by_contra hne; exact hu (usable_iff.2 ⟨hc, hne⟩)
    rw [e]
    have : A.divQ pinf n = pinf := by simp [Arith.divQ]
    rw [this]
    refine le_pinf ?_
    have := normBy_ne_nan (hint := p.hint) (j := j) A hn hrun.endAt.ne_nan
    simpa [hN] using this

/-- C20 / C22 apply to double precision. -/
theorem C20_C22_double_idempotent (f : Bool) : Idempotent (binary64 f) := by
  intro x q h
  exact rnd64_double ((C49_nearest x).1 q h).1

/-- Non-vacuity, in double precision: `dtw([1,3,2],[1,2,3,1], asymmetric, open_begin, open_end)`. -/
example : (∃ r, dtw (binary64 true) Ex.openBoth = .ok r) ↔
    ∃ j0 ks j c, j < 4 ∧ OpenPath (binary64 true) (rulesOf Pat.asymmetric) (fun _ _ => true) Ex.openL j0 ks 3 j c ∧
      usable c :=
  C22_open_both_succeeds_iff (C20_C22_double_idempotent true) Ex.openBoth_problem rfl rfl rfl (by decide +kernel)

end DTW
