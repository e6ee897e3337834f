import Verif.Props.Coarse
import Verif.Props.Options2
import Verif.Props.DoublesMore
import Verif.Props.Witnesses

/-!
# C79: stricter step patterns never align more cheaply
-/

namespace DTW
open F64

variable {A : Arith} {a a' : Args} {n m : Nat} {ℓ : Nat → Nat → ℚ} {W : Nat → Nat → Bool}
  {p p' : StepPattern} {rs rs' : List Rule} {r r' : Result}

/-- How far a sequence of rules goes in the query, and in the reference. -/
def totalA (ss : List Rule) : Nat := (ss.map (·.a)).sum
def totalB (ss : List Rule) : Nat := (ss.map (·.b)).sum

/-- The cells charged by a sequence of rules, in order, counted back from the cell where the sequence ends, as in a single rule. -/
def flat : List Rule → List Term
  | [] => []
  | s :: ss => s.terms.map (fun t => ⟨t.di + totalA ss, t.dj + totalB ss, t.w⟩) ++ flat ss

/-- The first list charges cells of the second one, in the same order, each at a weight that is not greater. -/
def covered : List Term → List Term → Bool
  | [], _ => true
  | _ :: _, [] => false
  | t' :: ts', t :: ts =>
    if t'.di = t.di ∧ t'.dj = t.dj ∧ t'.w ≤ t.w then covered ts' ts else covered (t' :: ts') ts

/-- The rules `rs'` can imitate the rule `q`: some of them, one after the other (`one`: a single one), lead from the same origin to the
same cell and charge cells that `q` charges, in the same order and at weights that are not greater. -/
def Imitates (one : Bool) (rs' : List Rule) (q : Rule) : Prop :=
  ∃ ss : List Rule, (∀ s ∈ ss, s ∈ rs') ∧ totalA ss = q.a ∧ totalB ss = q.b ∧ covered (flat ss) q.terms = true ∧
    (one = true → ss.length = 1)

/-- All weights are non-negative and stay finite when rounded (C12). -/
theorem rnd_weight_le_of_le {w w' : ℚ} (h : 0 ≤ w ∧ A.rnd w ≠ pinf) (h0 : 0 ≤ w') (hle : w' ≤ w) :
    ∃ v v', A.rnd w = fin v ∧ A.rnd w' = fin v' ∧ 0 ≤ v' ∧ v' ≤ v := by
  obtain ⟨v, hv, -⟩ := rnd_weight h
  have hm := A.rnd_mono w' w hle
  rw [hv] at hm
  have hp : A.rnd w' ≠ pinf := fun e => by rw [e] at hm; simp [F64.lt] at hm
  obtain ⟨v', hv', h0'⟩ := rnd_weight ⟨h0, hp⟩
  rw [hv'] at hm
  refine ⟨v, v', hv, hv', h0', ?_⟩
  simpa using hm

/-- Charging fewer cells, at smaller weights, costs no more. -/
theorem covered_cost (hA : Idempotent A) {L : Term → ℚ} : ∀ (ts' ts : List Term), covered ts' ts = true →
    (∀ t ∈ ts', 0 ≤ t.w) → (∀ t ∈ ts, 0 ≤ t.w ∧ A.rnd t.w ≠ pinf) → (∀ t ∈ ts, 0 ≤ L t) →
    (∀ t t' : Term, t.di = t'.di → t.dj = t'.dj → L t = L t') → ∀ c' c : F64, Representable A c → F64.le (fin 0) c' → F64.le c' c →
    F64.le (fin 0) (ts'.foldl (fun c t => A.mac c (A.rnd t.w) (fin (L t))) c') ∧
    F64.le (ts'.foldl (fun c t => A.mac c (A.rnd t.w) (fin (L t))) c') (ts.foldl (fun c t => A.mac c (A.rnd t.w) (fin (L t))) c) := by
  intro ts' ts
  induction ts generalizing ts' with
  | nil =>
    intro hc hw' hw hl hL c' c hrep h0 hle
    cases ts' with
    | nil => exact ⟨h0, hle⟩
    | cons t' ts' => simp [covered] at hc
  | cons t ts ih =>
    intro hc hw' hw hl hL c' c hrep h0 hle
    have hwt := hw t (by simp)
    have hlt := hl t (by simp)
    have skip : F64.le c' (A.mac c (A.rnd t.w) (fin (L t))) := by
      obtain ⟨v, hv, hv0⟩ := rnd_weight hwt
      rw [hv]
      exact F64.le_trans hle (mac_ge_self hrep (F64.le_trans h0 hle) hv0 hlt)
    cases ts' with
    | nil =>
      exact ih [] (by simp [covered]) (by simp) (fun t ht => hw t (by simp [ht])) (fun t ht => hl t (by simp [ht])) hL c' _
        (representable_mac hA) h0 skip
    | cons t' ts' =>
      unfold covered at hc
      split at hc
      · rename_i hh
        obtain ⟨e1, e2, e3⟩ := hh
        have hw0 := hw' t' (by simp)
        obtain ⟨v, v', hv, hv', h1, h2⟩ := rnd_weight_le_of_le hwt hw0 e3
        have eL := hL t' t e1 e2
        simp only [List.foldl_cons]
        have hn : F64.le (fin 0) (A.mac c' (A.rnd t'.w) (fin (L t'))) := by
          rw [hv', eL]
          have := mac_ge_add (A := A) (w := v') (l := L t) (s := fin 0) (b := 0) (F64.le_refl (by simp)) h0 (le_refl 0)
            (mul_nonneg h1 hlt) A.rnd_zero
          simpa [Arith.add, A.rnd_zero] using this
        refine ih ts' hc (fun t ht => hw' t (by simp [ht])) (fun t ht => hw t (by simp [ht])) (fun t ht => hl t (by simp [ht])) hL _ _
          (representable_mac hA) hn ?_
        rw [hv, hv', eL]
        exact mac_mono_all h0 hle (mul_nonneg h1 hlt) (mul_le_mul_of_nonneg_right h2 hlt)
      · exact ih (t' :: ts') hc hw' (fun t ht => hw t (by simp [ht])) (fun t ht => hl t (by simp [ht])) hL c' _
          (representable_mac hA) h0 skip

theorem totalA_cons (s : Rule) (ss : List Rule) : totalA (s :: ss) = s.a + totalA ss := by simp [totalA]
theorem totalB_cons (s : Rule) (ss : List Rule) : totalB (s :: ss) = s.b + totalB ss := by simp [totalB]

theorem flat_weights {ss : List Rule} (h : ∀ s ∈ ss, ∀ t ∈ s.terms, 0 ≤ t.w) : ∀ t ∈ flat ss, 0 ≤ t.w := by
  induction ss with
  | nil => simp [flat]
  | cons s ss ih =>
    intro t ht
    simp only [flat, List.mem_append, List.mem_map] at ht
    rcases ht with ⟨x, hx, rfl⟩ | ht
    · exact h s (by simp) x hx
    · exact ih (fun s hs => h s (by simp [hs])) t ht

/-- Rules in sequence may pass cells the window excludes; a single one does not. -/
def Passes (W : Nat → Nat → Bool) (ss : List Rule) (i j : Nat) : Prop :=
  (ss.length ≤ 1 ∧ ∀ s ∈ ss, W (i + s.a) (j + s.b) = true) ∨ ∀ i j, W i j = true

theorem Passes.tail {s : Rule} {ss : List Rule} {i j : Nat} (h : Passes W (s :: ss) i j) : Passes W ss (i + s.a) (j + s.b) := by
  rcases h with ⟨h1, -⟩ | h
  · have : ss = [] := by simpa using h1
    subst this
    exact .inl ⟨by simp, by simp⟩
  · exact .inr h

theorem Passes.head {s : Rule} {ss : List Rule} {i j : Nat} (h : Passes W (s :: ss) i j) : W (i + s.a) (j + s.b) = true := by
  rcases h with ⟨-, h⟩ | h
  · exact h s (by simp)
  · exact h _ _

theorem flat_fold {L : Nat → Nat → F64} (s : Rule) (ss : List Rule) (i j : Nat) (c : F64) :
    (flat (s :: ss)).foldl (fun c t => A.mac c (A.rnd t.w) (L (i + totalA (s :: ss) - t.di) (j + totalB (s :: ss) - t.dj))) c =
    (flat ss).foldl (fun c t => A.mac c (A.rnd t.w) (L (i + s.a + totalA ss - t.di) (j + s.b + totalB ss - t.dj)))
      (charge A L s (i + s.a) (j + s.b) c) := by
  rw [flat, List.foldl_append, totalA_cons, totalB_cons, ← Nat.add_assoc, ← Nat.add_assoc, List.foldl_map]
  congr 1
  unfold charge
  congr 1
  funext c t
  rw [show i + s.a + totalA ss - (t.di + totalA ss) = i + s.a - t.di by omega,
    show j + s.b + totalB ss - (t.dj + totalB ss) = j + s.b - t.dj by omega]

/-- Applying rules one after the other. -/
theorem WarpPath.chain {L : Nat → Nat → F64} : ∀ (ss : List Rule), (∀ s ∈ ss, s ∈ rs) → ∀ {ks : List Int} {i j : Nat} {c : F64},
    WarpPath A rs W L ks i j c → Passes W ss i j →
    ∃ ks', WarpPath A rs W L ks' (i + totalA ss) (j + totalB ss)
      ((flat ss).foldl (fun c t => A.mac c (A.rnd t.w) (L (i + totalA ss - t.di) (j + totalB ss - t.dj))) c)
  | [], _, ks, i, j, c, h, _ => ⟨ks, by simpa [flat, totalA, totalB] using h⟩
  | s :: ss, hs, ks, i, j, c, h, hW => by
    obtain ⟨k, hk⟩ := List.getElem?_of_mem (hs s (by simp))
    obtain ⟨ks', h'⟩ := WarpPath.chain ss (fun s hs' => hs s (by simp [hs'])) (h.step k s hk hW.head) hW.tail
    rw [flat_fold, totalA_cons, totalB_cons, ← Nat.add_assoc, ← Nat.add_assoc]
    exact ⟨ks', h'⟩

theorem OpenPath.chain {L : Nat → Nat → F64} {j0 : Nat} (ha : ∀ s ∈ rs, 0 < s.a) : ∀ (ss : List Rule), (∀ s ∈ ss, s ∈ rs) →
    ∀ {ks : List Int} {i j : Nat} {c : F64}, OpenPath A rs W L j0 ks i j c → Passes W ss i j →
    ∃ ks', OpenPath A rs W L j0 ks' (i + totalA ss) (j + totalB ss)
      ((flat ss).foldl (fun c t => A.mac c (A.rnd t.w)
        ((fun i' j' => if i' = 0 then fin 0 else L (i' - 1) j') (i + totalA ss - t.di) (j + totalB ss - t.dj))) c)
  | [], _, ks, i, j, c, h, _ => ⟨ks, by simpa [flat, totalA, totalB] using h⟩
  | s :: ss, hs, ks, i, j, c, h, hW => by
    obtain ⟨k, hk⟩ := List.getElem?_of_mem (hs s (by simp))
    have h0 := ha s (hs s (by simp))
    obtain ⟨ks', h'⟩ := OpenPath.chain ha ss (fun s hs' => hs s (by simp [hs'])) (h.step k s hk (by omega) hW.head) hW.tail
    rw [flat_fold (L := fun i' j' => if i' = 0 then fin 0 else L (i' - 1) j'), totalA_cons, totalB_cons, ← Nat.add_assoc,
      ← Nat.add_assoc]
    exact ⟨ks', h'⟩

/-- `rs'` imitates all of `rs`; by single rules, or there is no window. -/
structure Looser (A : Arith) (rs rs' : List Rule) (W : Nat → Nat → Bool) : Prop where
  one : ∃ one : Bool, (∀ q ∈ rs, Imitates one rs' q) ∧ (one = true ∨ ∀ i j, W i j = true)
  weights : NonnegWeights A rs
  weights' : ∀ q ∈ rs', ∀ t ∈ q.terms, 0 ≤ t.w

theorem Looser.plan (h : Looser A rs rs' W) {q : Rule} (hq : q ∈ rs) {i j : Nat} (hW : W (i + q.a) (j + q.b) = true) :
    ∃ ss : List Rule, (∀ s ∈ ss, s ∈ rs') ∧ totalA ss = q.a ∧ totalB ss = q.b ∧ covered (flat ss) q.terms = true ∧
      Passes W ss i j ∧ ∀ t ∈ flat ss, 0 ≤ t.w := by
  obtain ⟨one, h1, h2⟩ := h.one
  obtain ⟨ss, g1, g2, g3, g4, g5⟩ := h1 q hq
  refine ⟨ss, g1, g2, g3, g4, ?_, flat_weights fun s hs => h.weights' s (g1 s hs)⟩
  rcases h2 with h2 | h2
  · obtain ⟨s, rfl⟩ := List.length_eq_one_iff.1 (g5 h2)
    refine .inl ⟨by simp, fun x hx => ?_⟩
    rw [List.mem_singleton] at hx
    subst hx
    have e1 : x.a = q.a := by simpa [totalA] using g2
    have e2 : x.b = q.b := by simpa [totalB] using g3
    rw [e1, e2]
    exact hW
  · exact .inr h2

/-- A path of the stricter pattern is imitated by a path of the looser one that costs no more. -/
theorem WarpPath.imitate (hA : Idempotent A) (hS : Looser A rs rs' W) (hl : ∀ i < n, ∀ j < m, 0 ≤ ℓ i j ∧ A.rnd (ℓ i j) = fin (ℓ i j))
    {ks : List Int} {i j : Nat} {c : F64} (h : WarpPath A rs W (fun i j => fin (ℓ i j)) ks i j c) : i < n → j < m →
    Representable A c ∧ ∃ ks' c', WarpPath A rs' W (fun i j => fin (ℓ i j)) ks' i j c' ∧ F64.le (fin 0) c' ∧ F64.le c' c := by
  induction h with
  | start =>
    intro hi hj
    have hb := hl 0 hi 0 hj
    exact ⟨fun q hq => by cases hq; exact hb.2, [], _, .start, (F64.le_fin _ _).2 hb.1, F64.le_refl (by simp)⟩
  | @step ks i j c k q hp hq hW ih =>
    intro hi hj
    obtain ⟨hrep, ks', c', hp', hc0, hcc⟩ := ih (by omega) (by omega)
    have hq' := List.mem_of_getElem? hq
    obtain ⟨ss, g1, g2, g3, g4, g5, g6⟩ := hS.plan hq' hW
    obtain ⟨ks2, h2⟩ := hp'.chain ss g1 g5
    rw [g2, g3] at h2
    have key := covered_cost hA (L := fun t => ℓ (i + q.a - t.di) (j + q.b - t.dj)) _ _ g4 g6 (hS.weights q hq')
      (fun t _ => (hl _ (by omega) _ (by omega)).1) (fun t t' e1 e2 => by rw [e1, e2]) c' c hrep hc0 hcc
    exact ⟨charge_representable hA hrep, ks2, _, h2, key.1, key.2⟩

theorem OpenPath.imitate (hA : Idempotent A) (hS : Looser A rs rs' W) (ha : ∀ s ∈ rs', 0 < s.a)
    (hl : ∀ i < n, ∀ j < m, 0 ≤ ℓ i j ∧ A.rnd (ℓ i j) = fin (ℓ i j)) {j0 : Nat}
    {ks : List Int} {i j : Nat} {c : F64} (h : OpenPath A rs W (fun i j => fin (ℓ i j)) j0 ks i j c) : i ≤ n → j < m →
    Representable A c ∧ ∃ ks' c', OpenPath A rs' W (fun i j => fin (ℓ i j)) j0 ks' i j c' ∧ F64.le (fin 0) c' ∧ F64.le c' c := by
  have e : (fun i' j' => if i' = 0 then fin 0 else fin (ℓ (i' - 1) j')) = fun i j => fin (if i = 0 then 0 else ℓ (i - 1) j) := by
    funext i j; by_cases h0 : i = 0 <;> simp [h0]
  induction h with
  | start =>
    intro hi hj
    exact ⟨fun q hq => by cases hq; exact A.rnd_zero, [], _, .start, F64.le_refl (by simp), F64.le_refl (by simp)⟩
  | @step ks i j c k q hp hq h0 hW ih =>
    intro hi hj
    obtain ⟨hrep, ks', c', hp', hc0, hcc⟩ := ih (by omega) (by omega)
    have hq' := List.mem_of_getElem? hq
    obtain ⟨ss, g1, g2, g3, g4, g5, g6⟩ := hS.plan hq' hW
    obtain ⟨ks2, h2⟩ := hp'.chain ha ss g1 g5
    rw [g2, g3, e] at h2
    have key := covered_cost hA (L := fun t => if i + q.a - t.di = 0 then 0 else ℓ (i + q.a - t.di - 1) (j + q.b - t.dj)) _ _ g4 g6
      (hS.weights q hq') (fun t _ => by
        split
        · exact le_refl 0
        · exact (hl _ (by omega) _ (by omega)).1) (fun t t' e1 e2 => by rw [e1, e2]) c' c hrep hc0 hcc
    refine ⟨charge_representable hA hrep, ks2, _, h2, key.1, ?_⟩
    rw [e]
    exact key.2

/-- **C79** (closed ends).  If the rules of one pattern can be imitated by those of another (`Looser`), then whenever the first one
finds an alignment the other one does, and its distance is not greater: non-negative local costs, any arithmetic whose results are
representable (exact, doubles), any window if single rules suffice, otherwise no window. -/
theorem C79_closed (hA : Idempotent A) (hS : Looser A rs rs' W)
    (h : Problem a n m (fun i j => fin (ℓ i j)) W p rs) (h' : Problem a' n m (fun i j => fin (ℓ i j)) W p' rs')
    (hob : a.openBegin = false) (hob' : a'.openBegin = false) (hoe : a.openEnd = false) (hoe' : a'.openEnd = false)
    (hl : ∀ i < n, ∀ j < m, 0 ≤ ℓ i j ∧ A.rnd (ℓ i j) = fin (ℓ i j)) (hr : dtw A a = .ok r) :
    ∃ r', dtw A a' = .ok r' ∧ F64.le r'.distance r.distance := by
  have hn := h.n_pos
  have hm := h.m_pos
  obtain ⟨ks, c, hp, hu⟩ := ((C02_no_path_iff h hob hoe).2.1 ⟨r, hr⟩).resolve_right (by simp)
  obtain ⟨-, ks', c', hp', _, hc⟩ := hp.imitate hA hS hl (by omega) (by omega)
  obtain ⟨r', hr'⟩ := (C02_no_path_iff h' hob' hoe').2.2 (.inl ⟨ks', c', hp', finite_usable hc hu⟩)
  refine ⟨r', hr', ?_⟩
  obtain ⟨⟨ks2, hp2⟩, _⟩ := C01_distance_optimal h hob hoe hr
  obtain ⟨-, ks3, c3, hp3, h30, hc3⟩ := hp2.imitate hA hS hl (by omega) (by omega)
  exact F64.le_trans ((C01_distance_optimal h' hob' hoe' hr').2 ks3 c3 hp3 h30.2.1) hc3

/-- **C79** (open end): the same for the normalized distance, if both patterns are normalized alike. -/
theorem C79_open_end (hA : Idempotent A) (hS : Looser A rs rs' W)
    (h : Problem a n m (fun i j => fin (ℓ i j)) W p rs) (h' : Problem a' n m (fun i j => fin (ℓ i j)) W p' rs')
    (hob : a.openBegin = false) (hob' : a'.openBegin = false) (hoe : a.openEnd = true) (hoe' : a'.openEnd = true)
    (hh : p'.hint = p.hint) (hl : ∀ i < n, ∀ j < m, 0 ≤ ℓ i j ∧ A.rnd (ℓ i j) = fin (ℓ i j)) (hr : dtw A a = .ok r) :
    ∃ r', dtw A a' = .ok r' ∧ F64.le r'.normalizedDistance r.normalizedDistance := by
  have hn := h.n_pos
  have hm := h.m_pos
  have hNA : p.hint ≠ "NA" := fun hNA => by
    obtain ⟨t, ht⟩ := C20_rejects_NA (A := A) h hoe hNA
    rw [hr] at ht; cases ht
  have rep : Representable A (fin (ℓ 0 0)) := fun q hq => by cases hq; exact (hl 0 hn 0 hm).2
  obtain ⟨ks, j, c, hj, hp, hu⟩ := (C20_open_end_succeeds_any hA h hob hoe hNA rep (by simp)).1 ⟨r, hr⟩
  obtain ⟨-, ks', c', hp', _, hc⟩ := hp.imitate hA hS hl (by omega) hj
  obtain ⟨r', hr'⟩ := (C20_open_end_succeeds_any hA h' hob' hoe' (by rw [hh]; exact hNA) rep (by simp)).2
    ⟨ks', j, c', hj, hp', finite_usable hc hu⟩
  refine ⟨r', hr', ?_⟩
  obtain ⟨j2, ks2, _, hj2, hp2, hnd, _⟩ := C20_open_end_optimal h hob hoe hr
  obtain ⟨_, _, _, _, _, _, hbest, _⟩ := C20_open_end_optimal h' hob' hoe' hr'
  obtain ⟨-, ks3, c3, hp3, h30, hc3⟩ := hp2.imitate hA hS hl (by omega) hj2
  have h1 := hbest ks3 j2 c3 hj2 hp3 h30.2.1
  rw [hnd]
  refine F64.le_trans h1 ?_
  rw [hh]
  exact normBy_mono A _ hn hc3

/-- **C79** (open begin, with or without open end; both patterns with hint N): distance and normalized distance. -/
theorem C79_open_begin (hA : Idempotent A) (hS : Looser A rs rs' W) (ha : ∀ s ∈ rs', 0 < s.a)
    (h : Problem a n m (fun i j => fin (ℓ i j)) W p rs) (h' : Problem a' n m (fun i j => fin (ℓ i j)) W p' rs')
    (hob : a.openBegin = true) (hob' : a'.openBegin = true) (hoe : a'.openEnd = a.openEnd) (hdo : a.distanceOnly = false)
    (hdo' : a'.distanceOnly = false) (hN : p.hint = "N") (hN' : p'.hint = "N")
    (hl : ∀ i < n, ∀ j < m, 0 ≤ ℓ i j ∧ A.rnd (ℓ i j) = fin (ℓ i j)) (hr : dtw A a = .ok r) :
    ∃ r', dtw A a' = .ok r' ∧ F64.le r'.normalizedDistance r.normalizedDistance ∧
      (a.openEnd = false → F64.le r'.distance r.distance) := by
  have hn := h.n_pos
  have hm := h.m_pos
  cases he : a.openEnd with
  | false =>
    have he' := hoe.trans he
    obtain ⟨j0, ks, c, hp, hu⟩ := (C22_open_begin_succeeds_iff h hob he hdo hN).1 ⟨r, hr⟩
    obtain ⟨-, ks', c', hp', _, hc⟩ := hp.imitate hA hS ha hl (_root_.le_refl n) (by omega)
    obtain ⟨r', hr'⟩ := (C22_open_begin_succeeds_iff h' hob' he' hdo' hN').2 ⟨j0, ks', c', hp', finite_usable hc hu⟩
    obtain ⟨mp, j, j1, _, hjm, hj, hjc, hp2, -⟩ := C22_open_begin_optimal h hob hr
    obtain ⟨mp', j', j1', _, hjm', hj', hjc', hp2', hopt⟩ := C22_open_begin_optimal h' hob' hr'
    obtain ⟨-, ks3, c3, hp3, h30, hc3⟩ := hp2.imitate hA hS ha hl (_root_.le_refl n) hj
    rw [hjc he, ← hjc' he'] at hp3
    have hle := F64.le_trans (hopt _ _ _ hp3 h30.2.1) hc3
    refine ⟨r', hr', ?_, fun _ => hle⟩
    have nrm : ∀ {a : Args} {p rs} {r : Result}, Problem a n m (fun i j => fin (ℓ i j)) W p rs → a.openBegin = true → p.hint = "N" →
        dtw A a = .ok r → r.normalizedDistance = A.divQ r.distance n := by
      intro a p rs r h hob hN hr
      obtain ⟨G, D, qr, hB, _, hd⟩ := dtw_open A h hob hN
      obtain ⟨j, j0, ks, hrun⟩ := open_ok h hob hB hd hr
      rw [hrun.result]; simp [mkResult, hN, normBy]
    rw [nrm h hob hN hr, nrm h' hob' hN' hr']
    exact divQ_mono A (by exact_mod_cast hn) hle
  | true =>
    have he' := hoe.trans he
    obtain ⟨j0, ks, j, c, hj, hp, hu⟩ := (C22_open_both_succeeds_iff hA h hob he hdo hN).1 ⟨r, hr⟩
    obtain ⟨-, ks', c', hp', _, hc⟩ := hp.imitate hA hS ha hl (_root_.le_refl n) hj
    obtain ⟨r', hr'⟩ := (C22_open_both_succeeds_iff hA h' hob' he' hdo' hN').2 ⟨j0, ks', j, c', hj, hp', finite_usable hc hu⟩
    refine ⟨r', hr', ?_, by simp⟩
    obtain ⟨g1, -⟩ := C22_open_both_optimal h hob he hr
    obtain ⟨-, g2⟩ := C22_open_both_optimal h' hob' he' hr'
    obtain ⟨mp, j2, j1, _, hjm, hj2, hjc, hp2, -⟩ := C22_open_begin_optimal h hob hr
    obtain ⟨-, ks3, c3, hp3, h30, hc3⟩ := hp2.imitate hA hS ha hl (_root_.le_refl n) hj2
    rw [g1]
    exact F64.le_trans (g2 _ _ _ _ hj2 hp3 h30.2.1) (divQ_mono A (by exact_mod_cast hn) hc3)

/-! ### The bundled patterns -/

/-- All sequences of rules that advance by `(a, b)`. -/
def sequences (rs : List Rule) : Nat → Nat → Nat → List (List Rule)
  | 0, a, b => if a = 0 ∧ b = 0 then [[]] else []
  | fuel + 1, a, b =>
    (if a = 0 ∧ b = 0 then [[]] else []) ++ rs.flatMap fun s =>
      if s.a ≤ a ∧ s.b ≤ b ∧ 0 < s.a + s.b then (sequences rs fuel (a - s.a) (b - s.b)).map (s :: ·) else []

def imitatesCheck (one : Bool) (rs' : List Rule) (q : Rule) : Bool :=
  (sequences rs' (q.a + q.b) q.a q.b).any fun ss => covered (flat ss) q.terms && (!one || ss.length == 1)

theorem sequences_sound {rs : List Rule} : ∀ {fuel a b : Nat} {ss : List Rule}, ss ∈ sequences rs fuel a b →
    (∀ s ∈ ss, s ∈ rs) ∧ totalA ss = a ∧ totalB ss = b := by
  intro fuel
  induction fuel with
  | zero =>
    intro a b ss h
    unfold sequences at h
    split at h
    · rename_i h0
      rw [List.mem_singleton] at h
      subst h
      simp [totalA, totalB, h0.1, h0.2]
    · simp at h
  | succ fuel ih =>
    intro a b ss h
    simp only [sequences, List.mem_append, List.mem_flatMap] at h
    rcases h with h | ⟨s, hs, h⟩
    · split at h
      · rename_i h0
        rw [List.mem_singleton] at h
        subst h
        simp [totalA, totalB, h0.1, h0.2]
      · simp at h
    · split at h
      · rename_i h0
        obtain ⟨tl, htl, rfl⟩ := List.mem_map.1 h
        obtain ⟨g1, g2, g3⟩ := ih htl
        refine ⟨fun x hx => ?_, ?_, ?_⟩
        · rcases List.mem_cons.1 hx with rfl | hx
          · exact hs
          · exact g1 x hx
        · rw [totalA_cons, g2]; omega
        · rw [totalB_cons, g3]; omega
      · simp at h

theorem imitatesCheck_sound {one : Bool} {rs' : List Rule} {q : Rule} (h : imitatesCheck one rs' q = true) : Imitates one rs' q := by
  obtain ⟨ss, hss, hc⟩ := List.any_eq_true.1 h
  rw [Bool.and_eq_true] at hc
  obtain ⟨g1, g2, g3⟩ := sequences_sound hss
  refine ⟨ss, g1, g2, g3, hc.1, fun ho => ?_⟩
  have := hc.2
  rw [ho] at this
  simpa using this


/-- Pairs of bundled patterns, the stricter one first; `true`: also inside any window. -/
def hierarchy : List (Bool × String × String) := [
  (true, "symmetric2", "symmetric1"), (true, "symmetricP0", "symmetric2"), (true, "symmetric2", "symmetricP0"),
  (true, "symmetric1", "asymmetricP0"), (true, "symmetricP1", "symmetricP05"), (true, "asymmetricP1", "asymmetricP05"),
  (true, "symmetricP1", "asymmetricP1"), (true, "symmetricP2", "asymmetricP2"), (true, "symmetricP05", "asymmetricP05"),
  (true, "typeIc", "typeIa"), (true, "typeIb", "typeIc"), (true, "_asymmetricItakura", "typeIVc"),
  (true, "_asymmetricItakura", "typeIIIc"),
  (false, "symmetricP05", "symmetric2"), (false, "symmetricP1", "symmetric2"), (false, "symmetricP2", "symmetric2"),
  (false, "symmetricP2", "symmetricP1"), (false, "symmetricP2", "symmetricP05"), (false, "_asymmetricItakura", "asymmetric"),
  (false, "symmetricP1", "asymmetric"), (false, "symmetricP2", "typeIc")]

/-- **C79** (bundled patterns): each pair of `hierarchy` meets the premise of the theorems above, in exact arithmetic and in doubles. -/
theorem C79_bundled : ∀ x ∈ hierarchy, ∃ p p', (x.2.1, p) ∈ Pat.table ∧ (x.2.2, p') ∈ Pat.table ∧
    ∀ W : Nat → Nat → Bool, (x.1 = true ∨ ∀ i j, W i j = true) →
      Looser Arith.exact (rulesOf p) (rulesOf p') W ∧ ∀ f, Looser (binary64 f) (rulesOf p) (rulesOf p') W := by
  have key : (hierarchy.all fun x => match Pat.table.lookup x.2.1, Pat.table.lookup x.2.2 with
      | some p, some p' => decide ((x.2.1, p) ∈ Pat.table) && decide ((x.2.2, p') ∈ Pat.table) &&
        (rulesOf p).all (imitatesCheck x.1 (rulesOf p')) && decide (x.2.1 ≠ "_symmetricVelichkoZagoruyko") &&
        decide (x.2.2 ≠ "_symmetricVelichkoZagoruyko")
      | _, _ => false) = true := by decide +kernel
  intro x hx
  have h := List.all_eq_true.1 key x hx
  revert h
  cases hp : Pat.table.lookup x.2.1 with
  | none => simp
  | some p =>
    cases hp' : Pat.table.lookup x.2.2 with
    | none => simp
    | some p' =>
      intro h
      simp only [Bool.and_eq_true, decide_eq_true_eq] at h
      obtain ⟨⟨⟨⟨h1, h2⟩, h3⟩, h4⟩, h5⟩ := h
      refine ⟨p, p', h1, h2, fun W hW => ?_⟩
      have him : ∀ q ∈ rulesOf p, Imitates x.1 (rulesOf p') q := fun q hq => imitatesCheck_sound (List.all_eq_true.1 h3 q hq)
      have hw' : ∀ q ∈ rulesOf p', ∀ t ∈ q.terms, 0 ≤ t.w := fun q hq t ht => (C12_bundled_weights _ h2 h5 q hq t ht).1
      exact ⟨⟨⟨x.1, him, hW⟩, C12_bundled_weights _ h1 h4, hw'⟩,
        fun f => ⟨⟨x.1, him, hW⟩, C12_C14_C15_bundled_double f _ h1 h4, hw'⟩⟩

/-- **C79** (`mvmStepPattern`): more elasticity never costs more. -/
theorem C79_mvm {e e' : Nat} (he : e ≤ e') : Looser Arith.exact (mvmRules e) (mvmRules e') W ∧
    ∀ f, Looser (binary64 f) (mvmRules e) (mvmRules e') W := by
  have him : ∀ q ∈ mvmRules e, Imitates true (mvmRules e') q := by
    intro q hq
    refine ⟨[q], ?_, by simp [totalA], by simp [totalB], ?_, by simp⟩
    · intro s hs
      rw [List.mem_singleton] at hs
      subst hs
      simp only [mvmRules, List.mem_map, List.mem_range] at hq ⊢
      obtain ⟨k, hk, rfl⟩ := hq
      exact ⟨k, by omega, rfl⟩
    · simp only [mvmRules, List.mem_map, List.mem_range] at hq
      obtain ⟨k, hk, rfl⟩ := hq
      simp [flat, covered, totalA, totalB]
  have hw : ∀ e, ∀ q ∈ mvmRules e, ∀ t ∈ q.terms, t.w = 1 := by
    intro e q hq t ht
    simp only [mvmRules, List.mem_map, List.mem_range] at hq
    obtain ⟨k, hk, rfl⟩ := hq
    simp only [List.mem_singleton] at ht
    rw [ht]
  refine ⟨⟨⟨true, him, .inl rfl⟩, ?_, ?_⟩, fun f => ⟨⟨true, him, .inl rfl⟩, ?_, ?_⟩⟩
  · intro q hq t ht
    rw [hw e q hq t ht]
    exact ⟨zero_le_one, by simp [Arith.exact]⟩
  · intro q hq t ht
    rw [hw e' q hq t ht]
    exact zero_le_one
  · apply C12_weights_double
    intro q hq t ht
    rw [hw e q hq t ht]
    norm_num
  · intro q hq t ht
    rw [hw e' q hq t ht]
    exact zero_le_one

/-- A closed call on the 4 × 5 example, in doubles: `symmetric1` finds an alignment because `symmetric2` does, and at no greater cost. -/
example (f : Bool) {r : Result} (hr : dtw (binary64 f) (Ex.latCall "symmetric2") = .ok r) :
    ∃ r', dtw (binary64 f) (Ex.latCall "symmetric1") = .ok r' ∧ F64.le r'.distance r.distance := by
  obtain ⟨p, p', hp, hp', h⟩ := C79_bundled (true, "symmetric2", "symmetric1") (by decide)
  refine C79_closed (C20_C22_double_idempotent f) ((h _ (.inr fun _ _ => rfl)).2 f) (Ex.lat_problem _ hp) (Ex.lat_problem _ hp') rfl rfl
    rfl rfl ?_ hr
  intro i hi j hj
  have : ∀ i ∈ List.range 4, ∀ j ∈ List.range 5, ∃ k ∈ List.range 4, Ex.lat i j = ((k : ℤ) : ℚ) := by decide +kernel
  obtain ⟨k, hk, e⟩ := this i (List.mem_range.2 hi) j (List.mem_range.2 hj)
  refine ⟨Ex.lat_nonneg i j, ?_⟩
  rw [e]
  exact C50_binary64_integers f k (by have := List.mem_range.1 hk; omega)

/-- The call of the example above succeeds. -/
example : ∃ r, dtw (binary64 false) (Ex.latCall "symmetric2") = .ok r := Ex.get_ok (by decide +kernel)

theorem Ex.lat_exact : ∀ i < 4, ∀ j < 5, 0 ≤ Ex.lat i j ∧ Arith.exact.rnd (Ex.lat i j) = fin (Ex.lat i j) :=
  fun i _ j _ => ⟨Ex.lat_nonneg i j, rfl⟩

theorem Ex.lat_options_problem (q : String × StepPattern) (hq : q ∈ Pat.table) (ob oe : Bool) :
    Problem { Ex.latCall q.1 with openBegin := ob, openEnd := oe } 4 5 (fun i j => fin (Ex.lat i j)) (fun _ _ => true) q.2
      (rulesOf q.2) where
  n_pos := by decide
  m_pos := by decide
  cost := .matrix rfl rfl rfl rfl
  pattern := (Ex.lat_problem q hq).pattern
  wf := table_wf q hq
  fits := by
    cases ob
    · exact table_fits (n := 4) (m := 5) (by decide) q hq
    · exact table_fits (n := 5) (m := 5) (by decide) q hq
  window := .inl ⟨rfl, fun _ _ _ _ => rfl⟩

/-- An open end. -/
example : ∃ r r', dtw Arith.exact { Ex.latCall "symmetricP1" with openBegin := false, openEnd := true } = .ok r ∧
    dtw Arith.exact { Ex.latCall "symmetric2" with openBegin := false, openEnd := true } = .ok r' ∧
    F64.le r'.normalizedDistance r.normalizedDistance := by
  obtain ⟨r, hr⟩ := Ex.get_ok (x := dtw Arith.exact { Ex.latCall "symmetricP1" with openBegin := false, openEnd := true })
    (by decide +kernel)
  obtain ⟨p, p', hp, hp', h⟩ := C79_bundled (false, "symmetricP1", "symmetric2") (by decide)
  have hh : ∀ x ∈ Pat.table, x.1 ∈ ["symmetricP1", "symmetric2"] → x.2.hint = "N+M" := by decide +kernel
  obtain ⟨r', hr', hle⟩ := C79_open_end exact_idempotent (h _ (.inr fun _ _ => rfl)).1
    (Ex.lat_options_problem _ hp false true) (Ex.lat_options_problem _ hp' false true) rfl rfl rfl rfl
    ((hh _ hp' (by simp)).trans (hh _ hp (by simp)).symm) Ex.lat_exact hr
  exact ⟨r, r', hr, hr', hle⟩

/-- Both ends open. -/
example : ∃ r r', dtw Arith.exact { Ex.latCall "asymmetricP1" with openBegin := true, openEnd := true } = .ok r ∧
    dtw Arith.exact { Ex.latCall "asymmetricP05" with openBegin := true, openEnd := true } = .ok r' ∧
    F64.le r'.normalizedDistance r.normalizedDistance := by
  obtain ⟨r, hr⟩ := Ex.get_ok (x := dtw Arith.exact { Ex.latCall "asymmetricP1" with openBegin := true, openEnd := true })
    (by decide +kernel)
  obtain ⟨p, p', hp, hp', h⟩ := C79_bundled (true, "asymmetricP1", "asymmetricP05") (by decide)
  have hh : ∀ x ∈ Pat.table, x.1 ∈ ["asymmetricP1", "asymmetricP05"] → x.2.hint = "N" ∧ ∀ s ∈ rulesOf x.2, 0 < s.a := by
    decide +kernel
  obtain ⟨r', hr', hle, -⟩ := C79_open_begin exact_idempotent (h _ (.inr fun _ _ => rfl)).1
    (hh _ hp' (by simp)).2 (Ex.lat_options_problem _ hp true true) (Ex.lat_options_problem _ hp' true true) rfl rfl rfl rfl rfl
    (hh _ hp (by simp)).1 (hh _ hp' (by simp)).1 Ex.lat_exact hr
  exact ⟨r, r', hr, hr', hle⟩

/-- The order is strict: a case where the looser pattern is cheaper. -/
example : ((dtw Arith.exact (Ex.call 2 2 (fun _ _ => fin 1) "symmetric1")).toOption.map (·.distance),
    (dtw Arith.exact (Ex.call 2 2 (fun _ _ => fin 1) "symmetric2")).toOption.map (·.distance)) = (some (fin 2), some (fin 3)) := by
  decide +kernel

/-- Not all patterns are comparable: `asymmetric` is cheaper than `symmetric2` here … -/
example : ((dtw Arith.exact (Ex.call 2 2 (fun _ _ => fin 1) "asymmetric")).toOption.map (·.distance),
    (dtw Arith.exact (Ex.call 2 2 (fun _ _ => fin 1) "symmetric2")).toOption.map (·.distance)) = (some (fin 2), some (fin 3)) := by
  decide +kernel

/-- … and finds nothing here, where `symmetric2` does. -/
example : ((dtw Arith.exact (Ex.call 1 2 (fun _ _ => fin 1) "asymmetric")).toOption.map (·.distance),
    (dtw Arith.exact (Ex.call 1 2 (fun _ _ => fin 1) "symmetric2")).toOption.map (·.distance)) = (none, some (fin 2)) := by
  decide +kernel

/-- With a negative local cost the looser pattern can be dearer: `symmetric1` 1, `symmetric2` 0. -/
example : ((dtw Arith.exact (Ex.call 2 2 (fun i j => fin (if i = 1 ∧ j = 1 then -1 else if i = 0 ∧ j = 0 then 2 else 9)) "symmetric1")).toOption.map (·.distance),
    (dtw Arith.exact (Ex.call 2 2 (fun i j => fin (if i = 1 ∧ j = 1 then -1 else if i = 0 ∧ j = 0 then 2 else 9)) "symmetric2")).toOption.map (·.distance)) = (some (fin 1), some (fin 0)) := by
  decide +kernel

/-- In sequence, rules pass through intermediate cells: a window that excludes them makes the order fail.  In a 3 × 4 problem whose
window keeps the two corners only, `symmetricP2` has an alignment (one rule) and `symmetric2` has none. -/
example : ∃ W : WinFn,
    ((dtw Arith.exact { Ex.call 3 4 (fun _ _ => fin 1) "symmetricP2" with windowType := .fn W }).toOption.map (·.distance),
    (dtw Arith.exact { Ex.call 3 4 (fun _ _ => fin 1) "symmetric2" with windowType := .fn W }).toOption.map (·.distance)) =
    (some (fin 6), none) :=
  ⟨.user fun _ iw jw _ _ => .ok ((iw == 0 && jw == 0) || (iw == 2 && jw == 3)), by decide +kernel⟩

end DTW
