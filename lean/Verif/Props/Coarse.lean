import Verif.Props.Pruning
import Verif.Props.SeriesDoubles

/-!
# C76: coarse alignments bound fine ones

A series may be cut into consecutive blocks (runs of equal samples, frames, …).  Aligning blocks, at a cost that does not exceed
the local cost of any two of their elements, gives a lower bound of the distance.
-/

namespace DTW
open F64

variable {A : Arith} {a a' : Args} {n m n' m' : Nat} {ℓ ℓ' : Nat → Nat → ℚ} {W W' : Nat → Nat → Bool}
  {p : StepPattern} {rs : List Rule} {r r' : Result} {f g : Nat → Nat}

/-- `f` numbers the blocks of a series of `n` elements cut into `n'` consecutive blocks: element `i` is in block `f i`. -/
structure Blocks (f : Nat → Nat) (n n' : Nat) : Prop where
  first : f 0 = 0
  next : ∀ i, i + 1 < n → f (i + 1) = f i ∨ f (i + 1) = f i + 1
  last : f (n - 1) = n' - 1

/-- Whatever part of a rule's advance is left in terms of blocks (`F d d'`: an advance by `d` query elements may become one by `d'`),
there is a rule for it that charges its arrival cell at most as often. -/
def Shrinks (A : Arith) (rs : List Rule) (F : Nat → Nat → Prop) : Prop :=
  ∀ q ∈ rs, ∃ w : ℚ, q.terms = [⟨0, 0, w⟩] ∧ 0 ≤ w ∧ A.rnd w = fin w ∧
    ∀ d e, F q.a d → e ≤ q.b → (d = 0 ∧ e = 0) ∨
      ∃ (k : Nat) (q' : Rule) (w' : ℚ), rs[k]? = some q' ∧ q'.a = d ∧ q'.b = e ∧ q'.terms = [⟨0, 0, w'⟩] ∧ 0 ≤ w' ∧ w' ≤ w ∧ A.rnd w' = fin w'

theorem Blocks.step (hf : Blocks f n n') {i : Nat} : ∀ {d : Nat}, i + d < n → f i ≤ f (i + d) ∧ f (i + d) ≤ f i + d
  | 0, _ => ⟨Nat.le_refl _, Nat.le_refl _⟩
  | d + 1, h => by
    have h1 := hf.step (i := i) (d := d) (by omega)
    have h2 := hf.next (i + d) (by omega)
    rw [← Nat.add_assoc]
    omega

theorem Blocks.lt (hf : Blocks f n n') (hn' : 0 < n') {i : Nat} (hi : i < n) : f i < n' := by
  have h := (hf.step (i := i) (d := n - 1 - i) (by omega)).1
  rw [show i + (n - 1 - i) = n - 1 by omega, hf.last] at h
  omega

/-- Accumulation is monotone in everything. -/
theorem mac_mono_all {c c' : F64} {w w' l l' : ℚ} (hc0 : F64.le (fin 0) c') (hc : F64.le c' c) (h0 : 0 ≤ w' * l') (h : w' * l' ≤ w * l) :
    F64.le (A.mac c' (fin w') (fin l')) (A.mac c (fin w) (fin l)) := by
  have nn : ∀ z : F64, F64.le (fin 0) z → A.add c' z ≠ nan := by
    intro z hz
    rcases nonneg_cases hc0 with rfl | ⟨y, rfl, _⟩ <;> rcases nonneg_cases hz with rfl | ⟨t, rfl, _⟩ <;>
      simp [Arith.add]
    exact A.rnd_ne_nan _
  have hprod : ∀ z' z : F64, F64.le (fin 0) z' → F64.le z' z → F64.le (A.add c' z') (A.add c z) := by
    intro z' z hz0 hz
    have hz0' := F64.le_trans hz0 hz
    rcases nonneg_cases (F64.le_trans hc0 hc) with rfl | ⟨y, rfl, hy⟩
    · rcases nonneg_cases hz0' with rfl | ⟨v, rfl, _⟩ <;> exact le_pinf (nn _ hz0)
    · rcases nonneg_cases hz0' with rfl | ⟨v, rfl, _⟩
      · exact le_pinf (nn _ hz0)
      · rcases nonneg_cases hc0 with rfl | ⟨t, rfl, _⟩
        · simp [F64.le, F64.lt] at hc
        · rcases nonneg_cases hz0 with rfl | ⟨u, rfl, _⟩
          · simp [F64.le, F64.lt] at hz
          · have h1 := (F64.le_fin _ _).1 hc
            have h2 := (F64.le_fin _ _).1 hz
            exact rnd_le (by linarith)
  unfold Arith.mac
  split
  · exact hprod _ _ ((F64.le_fin _ _).2 h0) ((F64.le_fin _ _).2 h)
  · refine hprod _ _ ?_ (rnd_le h)
    show F64.le (fin 0) (A.rnd _)
    rw [← A.rnd_zero]
    exact rnd_le h0

/-- The blocks of a path form a path that costs no more. -/
theorem WarpPath.coarsen (hA : Idempotent A) {F : Nat → Nat → Prop} (hS : Shrinks A rs F) (hf : Blocks f n n') (hg : Blocks g m m')
    (hF : ∀ i d, i + d < n → F d (f (i + d) - f i))
    (hl : ∀ i < n, ∀ j < m, A.rnd (ℓ i j) = fin (ℓ i j))
    (hlb : ∀ i < n, ∀ j < m, W i j = true ∨ (i = 0 ∧ j = 0) → 0 ≤ ℓ' (f i) (g j) ∧ ℓ' (f i) (g j) ≤ ℓ i j)
    (hW : ∀ i < n, ∀ j < m, W i j = true → W' (f i) (g j) = true) {ks : List Int} {i j : Nat} {c : F64}
    (h : WarpPath A rs W (fun i j => fin (ℓ i j)) ks i j c) : i < n → j < m →
    Representable A c ∧ ∃ ks' c', WarpPath A rs W' (fun i j => fin (ℓ' i j)) ks' (f i) (g j) c' ∧ F64.le (fin 0) c' ∧ F64.le c' c := by
  induction h with
  | start =>
    intro hi hj
    have hb := hlb 0 hi 0 hj (.inr ⟨rfl, rfl⟩)
    refine ⟨?_, ?_⟩
    · intro q hq
      cases hq
      exact hl 0 hi 0 hj
    · rw [hf.first, hg.first] at hb ⊢
      exact ⟨[], _, .start, (F64.le_fin _ _).2 hb.1, (F64.le_fin _ _).2 hb.2⟩
  | @step ks i j c k q hp hq hWW ih =>
    intro hi hj
    obtain ⟨w, ht, h0, hw, hs⟩ := hS q (List.mem_of_getElem? hq)
    obtain ⟨hrep, ks', c', hp', hc0, hcc⟩ := ih (by omega) (by omega)
    rw [charge_arrival _ ht hw]
    refine ⟨representable_mac hA, ?_⟩
    have hb := hlb _ hi _ hj (.inl hWW)
    have h1 := hf.step hi
    have h2 := hg.step hj
    rcases hs _ (g (j + q.b) - g j) (hF i q.a hi) (by omega) with ⟨e1, e2⟩ | ⟨k', q', w', hq', ea, eb, ht', hw0, hww, hwr⟩
    · rw [show f (i + q.a) = f i by omega, show g (j + q.b) = g j by omega] at hb ⊢
      exact ⟨ks', c', hp', hc0, F64.le_trans hcc (mac_ge_self hrep (F64.le_trans hc0 hcc) h0 (hb.1.trans hb.2))⟩
    · have ef : f i + q'.a = f (i + q.a) := by omega
      have eg : g j + q'.b = g (j + q.b) := by omega
      have hst := WarpPath.step k' q' hp' hq' (by rw [ef, eg]; exact hW _ hi _ hj hWW)
      rw [ef, eg, charge_arrival _ ht' hwr] at hst
      refine ⟨_, _, hst, ?_, ?_⟩
      · have := mac_ge_add (A := A) (w := w') (l := ℓ' (f (i + q.a)) (g (j + q.b))) (s := fin 0) (b := 0) (F64.le_refl (by simp)) hc0 (le_refl 0)
          (mul_nonneg hw0 hb.1) A.rnd_zero
        simpa [Arith.add, A.rnd_zero] using this
      · exact mac_mono_all hc0 hcc (mul_nonneg hw0 hb.1) (mul_le_mul hww hb.2 hb.1 h0)

theorem finite_usable {c : F64} {c' : F64} (h : F64.le c' c) (hu : usable c) : usable c' := by
  obtain ⟨h1, h2, h3⟩ := h
  cases c <;> cases c' <;> simp_all [usable, F64.lt]

/-- **C76** (coarse bound, closed ends).  `a'` aligns the blocks of the series `a` aligns, with the same pattern, at local costs
that are non-negative and not greater than those of any two of their elements, in a window that admits the blocks of admitted
cells.  Then the coarse call succeeds whenever the fine one does, and its distance is not greater - in any arithmetic whose results
are representable. -/
theorem C76_closed (hA : Idempotent A) (hS : Shrinks A rs fun d d' => d' ≤ d)
    (h : Problem a n m (fun i j => fin (ℓ i j)) W p rs) (h' : Problem a' n' m' (fun i j => fin (ℓ' i j)) W' p rs)
    (hob : a.openBegin = false) (hob' : a'.openBegin = false) (hoe : a.openEnd = false) (hoe' : a'.openEnd = false)
    (hf : Blocks f n n') (hg : Blocks g m m') (hl : ∀ i < n, ∀ j < m, A.rnd (ℓ i j) = fin (ℓ i j))
    (hlb : ∀ i < n, ∀ j < m, W i j = true ∨ (i = 0 ∧ j = 0) → 0 ≤ ℓ' (f i) (g j) ∧ ℓ' (f i) (g j) ≤ ℓ i j)
    (hW : ∀ i < n, ∀ j < m, W i j = true → W' (f i) (g j) = true) (hr : dtw A a = .ok r) :
    ∃ r', dtw A a' = .ok r' ∧ F64.le r'.distance r.distance := by
  have hn := h.n_pos
  have hm := h.m_pos
  have hF : ∀ i d, i + d < n → f (i + d) - f i ≤ d := fun i d hd => by have := hf.step hd; omega
  have push : ∀ {ks c}, WarpPath A rs W (fun i j => fin (ℓ i j)) ks (n - 1) (m - 1) c →
      ∃ ks' c', WarpPath A rs W' (fun i j => fin (ℓ' i j)) ks' (n' - 1) (m' - 1) c' ∧ F64.le (fin 0) c' ∧ F64.le c' c := by
    intro ks c hp
    have := (hp.coarsen hA hS hf hg hF hl hlb hW (by omega) (by omega)).2
    rwa [hf.last, hg.last] at this
  obtain ⟨ks, c, hp, hu⟩ := ((C02_no_path_iff h hob hoe).2.1 ⟨r, hr⟩).resolve_right (by simp)
  obtain ⟨ks', c', hp', _, hc⟩ := push hp
  obtain ⟨r', hr'⟩ := (C02_no_path_iff h' hob' hoe').2.2 (.inl ⟨ks', c', hp', finite_usable hc hu⟩)
  refine ⟨r', hr', ?_⟩
  obtain ⟨⟨ks2, hp2⟩, _⟩ := C01_distance_optimal h hob hoe hr
  obtain ⟨ks3, c3, hp3, h30, hc3⟩ := push hp2
  exact F64.le_trans ((C01_distance_optimal h' hob' hoe' hr').2 ks3 c3 hp3 h30.2.1) hc3

/-- **C76** (coarse bound, open end, blocks of the reference only): the normalized distance of the best prefix. -/
theorem C76_open_end (hA : Idempotent A) (hS : Shrinks A rs fun d d' => d' = d)
    (h : Problem a n m (fun i j => fin (ℓ i j)) W p rs) (h' : Problem a' n m' (fun i j => fin (ℓ' i j)) W' p rs) (hh : p.hint = "N")
    (hob : a.openBegin = false) (hob' : a'.openBegin = false) (hoe : a.openEnd = true) (hoe' : a'.openEnd = true)
    (hg : Blocks g m m') (hl : ∀ i < n, ∀ j < m, A.rnd (ℓ i j) = fin (ℓ i j))
    (hl' : A.rnd (ℓ' 0 0) = fin (ℓ' 0 0))
    (hlb : ∀ i < n, ∀ j < m, W i j = true ∨ (i = 0 ∧ j = 0) → 0 ≤ ℓ' i (g j) ∧ ℓ' i (g j) ≤ ℓ i j)
    (hW : ∀ i < n, ∀ j < m, W i j = true → W' i (g j) = true) (hr : dtw A a = .ok r) :
    ∃ r', dtw A a' = .ok r' ∧ F64.le r'.normalizedDistance r.normalizedDistance := by
  have hn := h.n_pos
  have hm := h.m_pos
  have hf : Blocks id n n := ⟨rfl, fun i _ => .inr rfl, rfl⟩
  have push : ∀ {ks j c}, j < m → WarpPath A rs W (fun i j => fin (ℓ i j)) ks (n - 1) j c →
      ∃ ks' c', WarpPath A rs W' (fun i j => fin (ℓ' i j)) ks' (n - 1) (g j) c' ∧ F64.le (fin 0) c' ∧ F64.le c' c := by
    intro ks j c hj hp
    exact (hp.coarsen hA hS hf hg (fun i d _ => by simp) hl hlb hW (by omega) hj).2
  have rep : ∀ (x : ℚ), A.rnd x = fin x → Representable A (fin x) := fun x hx q hq => by cases hq; exact hx
  have hNA : p.hint ≠ "NA" := by rw [hh]; decide
  obtain ⟨ks, j, c, hj, hp, hu⟩ := (C20_open_end_succeeds_any hA h hob hoe hNA (rep _ (hl 0 hn 0 hm)) (by simp)).1 ⟨r, hr⟩
  obtain ⟨ks', c', hp', _, hc⟩ := push hj hp
  obtain ⟨r', hr'⟩ := (C20_open_end_succeeds_any hA h' hob' hoe' hNA (rep _ hl') (by simp)).2
    ⟨ks', g j, c', hg.lt h'.m_pos hj, hp', finite_usable hc hu⟩
  refine ⟨r', hr', ?_⟩
  obtain ⟨j2, ks2, _, hj2, hp2, hnd, _⟩ := C20_open_end_optimal h hob hoe hr
  obtain ⟨_, _, _, _, _, _, hbest, _⟩ := C20_open_end_optimal h' hob' hoe' hr'
  obtain ⟨ks3, c3, hp3, h30, hc3⟩ := push hj2 hp2
  have h1 := hbest ks3 (g j2) c3 (hg.lt h'.m_pos hj2) hp3 h30.2.1
  rw [hnd]
  refine F64.le_trans h1 ?_
  simp only [normBy, hh]
  exact divQ_mono A (by exact_mod_cast hn) hc3

/-- The same for paths with an open begin; blocks of the reference only. -/
theorem OpenPath.coarsen (hA : Idempotent A) (hS : Shrinks A rs fun d d' => d' = d) (hg : Blocks g m m')
    (hlb : ∀ i < n, ∀ j < m, W (i + 1) j = true → 0 ≤ ℓ' i (g j) ∧ ℓ' i (g j) ≤ ℓ i j)
    (hW : ∀ i ≤ n, ∀ j < m, W i j = true → W' i (g j) = true) {j0 : Nat} {ks : List Int} {i j : Nat} {c : F64}
    (h : OpenPath A rs W (fun i j => fin (ℓ i j)) j0 ks i j c) : i ≤ n → j < m →
    Representable A c ∧ ∃ ks' c', OpenPath A rs W' (fun i j => fin (ℓ' i j)) (g j0) ks' i (g j) c' ∧ F64.le (fin 0) c' ∧ F64.le c' c := by
  induction h with
  | start =>
    intro _ _
    refine ⟨?_, [], _, .start, F64.le_refl (by simp), F64.le_refl (by simp)⟩
    intro q hq
    cases hq
    exact A.rnd_zero
  | @step ks i j c k q hp hq h0i hWW ih =>
    intro hi hj
    obtain ⟨w, ht, h0, hw, hs⟩ := hS q (List.mem_of_getElem? hq)
    obtain ⟨hrep, ks', c', hp', hc0, hcc⟩ := ih (by omega) (by omega)
    obtain ⟨t, hti⟩ : ∃ t, i + q.a = t + 1 := ⟨i + q.a - 1, by omega⟩
    have hcell : ∀ (lc : Nat → Nat → ℚ) (v : Nat), (if i + q.a = 0 then fin 0 else fin (lc (i + q.a - 1) v)) = fin (lc t v) := by
      intro lc v
      simp [hti]
    have hch := charge_arrival (A := A) (fun i' j' => if i' = 0 then fin 0 else fin (ℓ (i' - 1) j')) ht hw (i + q.a) (j + q.b) c
    simp only [hcell] at hch
    have hb := hlb t (by omega) _ hj (by rw [← hti]; exact hWW)
    have h2 := hg.step hj
    have goal : Representable A (A.mac c (fin w) (fin (ℓ t (j + q.b)))) ∧ ∃ ks' c',
        OpenPath A rs W' (fun i j => fin (ℓ' i j)) (g j0) ks' (i + q.a) (g (j + q.b)) c' ∧ F64.le (fin 0) c' ∧
          F64.le c' (A.mac c (fin w) (fin (ℓ t (j + q.b)))) := by
      refine ⟨representable_mac hA, ?_⟩
      rcases hs q.a (g (j + q.b) - g j) rfl (by omega) with ⟨e1, e2⟩ | ⟨k', q', w', hq', ea, eb, ht', hw0, hww, hwr⟩
      · rw [show i + q.a = i by omega, show g (j + q.b) = g j by omega]
        exact ⟨ks', c', hp', hc0, F64.le_trans hcc (mac_ge_self hrep (F64.le_trans hc0 hcc) h0 (hb.1.trans hb.2))⟩
      · have eg : g j + q'.b = g (j + q.b) := by omega
        have hst := OpenPath.step k' q' hp' hq' (by omega) (by rw [ea, eg]; exact hW _ hi _ hj hWW)
        have hch' := charge_arrival (A := A) (fun i' j' => if i' = 0 then fin 0 else fin (ℓ' (i' - 1) j')) ht' hwr (i + q.a) (g (j + q.b)) c'
        simp only [hcell] at hch'
        rw [eg, ea] at hst
        simp only [hch'] at hst
        refine ⟨_, _, hst, ?_, ?_⟩
        · have := mac_ge_add (A := A) (w := w') (l := ℓ' t (g (j + q.b))) (s := fin 0) (b := 0) (F64.le_refl (by simp)) hc0 (le_refl 0)
            (mul_nonneg hw0 hb.1) A.rnd_zero
          simpa [Arith.add, A.rnd_zero] using this
        · exact mac_mono_all hc0 hcc (mul_nonneg hw0 hb.1) (mul_le_mul hww hb.2 hb.1 h0)
    rw [hch]; exact goal

/-- **C76** (coarse bound for a search, both ends open, blocks of the reference): the best match in the coarse reference is not worse
than the best match in the reference, so no match is missed by discarding references whose coarse value exceeds a threshold. -/
theorem C76_search (hA : Idempotent A) (hS : Shrinks A rs fun d d' => d' = d)
    (h : Problem a n m (fun i j => fin (ℓ i j)) W p rs) (h' : Problem a' n m' (fun i j => fin (ℓ' i j)) W' p rs)
    (hob : a.openBegin = true) (hob' : a'.openBegin = true) (hoe : a.openEnd = true) (hoe' : a'.openEnd = true)
    (hdo : a'.distanceOnly = false) (hg : Blocks g m m')
    (hlb : ∀ i < n, ∀ j < m, W (i + 1) j = true → 0 ≤ ℓ' i (g j) ∧ ℓ' i (g j) ≤ ℓ i j)
    (hW : ∀ i ≤ n, ∀ j < m, W i j = true → W' i (g j) = true) (hr : dtw A a = .ok r) :
    ∃ r', dtw A a' = .ok r' ∧ F64.le r'.normalizedDistance r.normalizedDistance := by
  have hn := h.n_pos
  have hh : p.hint = "N" := by
    by_contra hh
    rw [open_bad_hint h hob hh] at hr
    simp at hr
  have hdo0 : a.distanceOnly = false := by
    cases hd : a.distanceOnly with
    | false => rfl
    | true => exact absurd hr (C24_open_begin_always_fails hob hd r)
  have push : ∀ {j0 ks j c}, j < m → OpenPath A rs W (fun i j => fin (ℓ i j)) j0 ks n j c →
      ∃ ks' c', OpenPath A rs W' (fun i j => fin (ℓ' i j)) (g j0) ks' n (g j) c' ∧ F64.le (fin 0) c' ∧ F64.le c' c := by
    intro j0 ks j c hj hp
    exact (hp.coarsen hA hS hg hlb hW (Nat.le_refl n) hj).2
  obtain ⟨j0, ks, j, c, hj, hp, hu⟩ := (C22_open_both_succeeds_iff hA h hob hoe hdo0 hh).1 ⟨r, hr⟩
  obtain ⟨ks', c', hp', _, hc⟩ := push hj hp
  obtain ⟨r', hr'⟩ := (C22_open_both_succeeds_iff hA h' hob' hoe' hdo hh).2
    ⟨g j0, ks', g j, c', hg.lt h'.m_pos hj, hp', finite_usable hc hu⟩
  refine ⟨r', hr', ?_⟩
  obtain ⟨mp, j2, j02, _, _, hj2, _, hp2, _⟩ := C22_open_begin_optimal h hob hr
  obtain ⟨ks3, c3, hp3, h30, hc3⟩ := push hj2 hp2
  rw [(C22_open_both_optimal h hob hoe hr).1]
  exact F64.le_trans ((C22_open_both_optimal h' hob' hoe' hr').2 _ ks3 (g j2) c3 (hg.lt h'.m_pos hj2) hp3 h30.2.1)
    (divQ_mono A (by exact_mod_cast hn) hc3)

/-- **C76**: the patterns, in doubles.  Both series may be cut into blocks for `symmetric1`, `symmetric2` (the default), `symmetricP0`
and `asymmetricP0`; the reference also for `asymmetric`. -/
theorem C76_patterns (b : Bool) :
    (∀ x ∈ Pat.table, x.1 ∈ ["symmetric1", "symmetric2", "symmetricP0", "asymmetricP0"] →
      Shrinks (binary64 b) (rulesOf x.2) fun d d' => d' ≤ d) ∧
    ∀ x ∈ Pat.table, x.1 ∈ ["symmetric1", "symmetric2", "symmetricP0", "asymmetricP0", "asymmetric"] →
      Shrinks (binary64 b) (rulesOf x.2) fun d d' => d' = d := by
  have key : (Pat.table.all fun x =>
      decide (x.1 ∉ ["symmetric1", "symmetric2", "symmetricP0", "asymmetricP0", "asymmetric"]) ||
      (rulesOf x.2).all fun q => decide (∃ w ∈ List.range 3, q.terms = [⟨0, 0, (w : ℚ)⟩] ∧ q.a < 2 ∧
        ∀ d ∈ List.range 2, ∀ e ∈ List.range 3, e ≤ q.b → (d = q.a ∨ (x.1 ≠ "asymmetric" ∧ d ≤ q.a)) → (d = 0 ∧ e = 0) ∨
          ∃ k ∈ List.range 10, ∃ w' ∈ List.range 3, w' ≤ w ∧ ((rulesOf x.2)[k]?.map fun q' => decide (q'.a = d ∧ q'.b = e ∧ q'.terms = [⟨0, 0, (w' : ℚ)⟩])) =
            some true) && decide (q.b < 3)) = true := by decide +kernel
  have main : ∀ x ∈ Pat.table, x.1 ∈ ["symmetric1", "symmetric2", "symmetricP0", "asymmetricP0", "asymmetric"] →
      Shrinks (binary64 b) (rulesOf x.2) fun d d' => d' = d ∨ (x.1 ≠ "asymmetric" ∧ d' ≤ d) := by
    intro x hx hs q hq
    have h1 := List.all_eq_true.1 key x hx
    rw [Bool.or_eq_true, decide_eq_true_eq] at h1
    have h2 := List.all_eq_true.1 (h1.resolve_left (fun hc => hc hs)) q hq
    rw [Bool.and_eq_true, decide_eq_true_eq, decide_eq_true_eq] at h2
    obtain ⟨⟨w, hw, ht, ha, hall⟩, hb⟩ := h2
    have := List.mem_range.1 hw
    refine ⟨w, ht, by positivity, C50_binary64_integers b w (by omega), ?_⟩
    intro d e hd he
    rcases hall d (List.mem_range.2 (by omega)) e (List.mem_range.2 (by omega)) he hd with h0 | ⟨k, _, w', hw', hle, hk⟩
    · exact .inl h0
    · right
      have := List.mem_range.1 hw'
      cases hr : (rulesOf x.2)[k]? with
      | none => rw [hr] at hk; simp at hk
      | some q' =>
        rw [hr] at hk
        simp only [Option.map_some, Option.some.injEq, decide_eq_true_eq] at hk
        exact ⟨k, q', w', hr, hk.1, hk.2.1, hk.2.2, by positivity, by exact_mod_cast hle, C50_binary64_integers b w' (by omega)⟩
  refine ⟨?_, ?_⟩
  · intro x hx hs q hq
    have hne : x.1 ≠ "asymmetric" := by rintro e; rw [e] at hs; revert hs; decide
    obtain ⟨w, h1, h2, h3, h4⟩ := main x hx (by simp only [List.mem_cons, List.not_mem_nil, or_false] at hs ⊢; tauto) q hq
    exact ⟨w, h1, h2, h3, fun d e hd he => h4 d e (.inr ⟨hne, hd⟩) he⟩
  · intro x hx hs q hq
    obtain ⟨w, h1, h2, h3, h4⟩ := main x hx hs q hq
    exact ⟨w, h1, h2, h3, fun d e hd he => h4 d e (.inl hd) he⟩

/-! ### Series -/

/-- The runs of equal samples are blocks. -/
theorem squash_blocks (x : List ℚ) (hx : x ≠ []) :
    ∃ f, Blocks f x.length (squash x).length ∧ ∀ i < x.length, (squash x).getD (f i) 0 = x.getD i 0 := by
  induction x with
  | nil => exact absurd rfl hx
  | cons u l ih =>
    cases l with
    | nil =>
      refine ⟨fun _ => 0, ⟨rfl, fun i hi => by simp at hi, rfl⟩, ?_⟩
      intro i hi
      obtain rfl : i = 0 := by simpa using hi
      rfl
    | cons v l =>
      obtain ⟨f, hf, hv⟩ := ih (by simp)
      have hpos : 0 < (squash (v :: l)).length := by
        obtain ⟨t, ht⟩ := squash_head v l
        rw [ht]; simp
      have hl := hf.last
      simp only [List.length_cons, Nat.add_sub_cancel] at hl
      by_cases huv : u = v
      · refine ⟨fun i => f (i - 1), ⟨hf.first, ?_, ?_⟩, ?_⟩
        · intro i hi
          cases i with
          | zero => exact .inl (by simp)
          | succ i => exact hf.next i (by simpa using hi)
        · rw [squash, if_pos huv]
          simpa using hl
        · intro i hi
          rw [squash, if_pos huv]
          cases i with
          | zero => rw [huv]; simpa using hv 0 (by simp)
          | succ i => simpa using hv i (by simpa using hi)
      · refine ⟨fun i => if i = 0 then 0 else f (i - 1) + 1, ⟨by simp, ?_, ?_⟩, ?_⟩
        · intro i hi
          cases i with
          | zero => right; simp [hf.first]
          | succ i => have := hf.next i (by simpa using hi); simp; omega
        · rw [squash, if_neg huv]
          simp only [List.length_cons, Nat.add_sub_cancel]
          simp only [Nat.add_eq_zero_iff, Nat.succ_ne_self, and_false, if_false]
          rw [hl]
          omega
        · intro i hi
          rw [squash, if_neg huv]
          cases i with
          | zero => simp
          | succ i => simpa using hv i (by simpa using hi)

variable {o : Args} {x y : List ℚ} {q : String × StepPattern}

/-- **C76** Removing repetitions from both series never increases the distance (`symmetric1`, `symmetric2`, the default, `symmetricP0`,
`asymmetricP0`; no window; doubles). -/
theorem C76_repetitions (b : Bool) {M : List F64 → List F64 → F64} (hM : IsGap M x y) (hM' : IsGap M (squash x) (squash y))
    (h : Sensible o x.length y.length (fun _ _ => true) q)
    (h' : Sensible o (squash x).length (squash y).length (fun _ _ => true) q)
    (hob : o.openBegin = false) (hoe : o.openEnd = false) (hs : q.1 ∈ ["symmetric1", "symmetric2", "symmetricP0", "asymmetricP0"])
    (hr : dtw (binary64 b) (askWith M o x y) = .ok r) :
    ∃ r', dtw (binary64 b) (askWith M o (squash x) (squash y)) = .ok r' ∧ F64.le r'.distance r.distance := by
  have hx : x ≠ [] := by have := h.n_pos; rintro rfl; simp at this
  have hy : y ≠ [] := by have := h.m_pos; rintro rfl; simp at this
  obtain ⟨f, hf, hfv⟩ := squash_blocks x hx
  obtain ⟨g, hg, hgv⟩ := squash_blocks y hy
  refine C76_closed (C20_C22_double_idempotent b) ((C76_patterns b).1 q h.mem hs) (askWith_problem h hM) (askWith_problem h' hM')
    hob hob hoe hoe hf hg (fun i _ j _ => rnd64_double (roundedGap_double i j).2) ?_ (fun _ _ _ _ _ => rfl) hr
  intro i hi j hj _
  have e : roundedGap (squash x) (squash y) (f i) (g j) = roundedGap x y i j := by
    unfold roundedGap
    rw [hfv i hi, hgv j hj]
  rw [e]
  exact ⟨(roundedGap_double i j).1, le_refl _⟩

/-- How far two intervals are apart. -/
def between (lo hi lo' hi' : ℚ) : ℚ := max 0 (max (lo - hi') (lo' - hi))

/-- **C76** Bounding boxes: block `I` of the query lies in `[u I, v I]`, block `J` of the reference in `[u' J, v' J]`, and `e I J` is
the rounded distance of the two intervals (or anything non-negative below it).  The distance of the matrix `e` never exceeds the
distance of the series. -/
theorem C76_boxes (b : Bool) {M : List F64 → List F64 → F64} (hM : IsGap M x y) (hO : NoOverflow x y)
    (h : Sensible o x.length y.length W q) {e : Nat → Nat → ℚ} {u v u' v' : Nat → ℚ}
    (h' : Problem a' n' m' (fun i j => fin (e i j)) W' q.2 (rulesOf q.2))
    (hob : o.openBegin = false) (hoe : o.openEnd = false) (hob' : a'.openBegin = false) (hoe' : a'.openEnd = false)
    (hs : q.1 ∈ ["symmetric1", "symmetric2", "symmetricP0", "asymmetricP0"])
    (hf : Blocks f x.length n') (hg : Blocks g y.length m')
    (hx : ∀ i < x.length, u (f i) ≤ x.getD i 0 ∧ x.getD i 0 ≤ v (f i))
    (hy : ∀ j < y.length, u' (g j) ≤ y.getD j 0 ∧ y.getD j 0 ≤ v' (g j))
    (he : ∀ I < n', ∀ J < m', 0 ≤ e I J ∧ F64.le (fin (e I J)) (rnd64 (between (u I) (v I) (u' J) (v' J))))
    (hW : ∀ i < x.length, ∀ j < y.length, W i j = true → W' (f i) (g j) = true)
    (hr : dtw (binary64 b) (askWith M o x y) = .ok r) :
    ∃ r', dtw (binary64 b) a' = .ok r' ∧ F64.le r'.distance r.distance := by
  refine C76_closed (C20_C22_double_idempotent b) ((C76_patterns b).1 q h.mem hs) (askWith_problem h hM) h'
    hob hob' hoe hoe' hf hg (fun i _ j _ => rnd64_double (roundedGap_double i j).2) ?_ hW hr
  intro i hi j hj _
  obtain ⟨h0, hle⟩ := he (f i) (hf.lt h'.n_pos hi) (g j) (hg.lt h'.m_pos hj)
  refine ⟨h0, ?_⟩
  obtain ⟨d, hd⟩ := hO i hi j hj
  rw [roundedGap_of hd]
  have hb : between (u (f i)) (v (f i)) (u' (g j)) (v' (g j)) ≤ |x.getD i 0 - y.getD j 0| := by
    have h1 := hx i hi
    have h2 := hy j hj
    refine max_le (abs_nonneg _) (max_le ?_ ?_)
    · exact _root_.le_trans (by linarith) (le_abs_self _)
    · exact _root_.le_trans (by linarith) (neg_le_abs _)
  have := F64.le_trans hle (rnd_le (A := binary64 b) hb)
  rw [show (binary64 b).rnd |x.getD i 0 - y.getD j 0| = fin |d| from rnd64_abs hd] at this
  exact (F64.le_fin _ _).1 this

/-! ### Witnesses -/

/-- Repetitions: `[0,0,2,5]` and `[1,2,2]` against `[0,2,5]` and `[1,2]`. -/
example : ∃ r r', dtw (binary64 false) (askWith (cityblock (binary64 false)) Ex.serOpts [0, 0, 2, 5] [1, 2, 2]) = .ok r ∧
    dtw (binary64 false) (askWith (cityblock (binary64 false)) Ex.serOpts [0, 2, 5] [1, 2]) = .ok r' ∧
    F64.le r'.distance r.distance := by
  have hO : NoOverflow [0, 0, 2, 5] [1, 2, 2] := Ex.small_noOverflow (by decide +kernel) (by decide +kernel)
  have e1 : squash [0, 0, 2, 5] = [0, 2, 5] := by decide +kernel
  have e2 : squash [1, 2, 2] = [1, 2] := by decide +kernel
  have hO' : NoOverflow (squash [0, 0, 2, 5]) (squash [1, 2, 2]) := by
    rw [e1, e2]
    exact Ex.small_noOverflow (by decide +kernel) (by decide +kernel)
  obtain ⟨r, hr⟩ := Ex.get_ok (x := dtw (binary64 false) (askWith (cityblock (binary64 false)) Ex.serOpts [0, 0, 2, 5] [1, 2, 2]))
    (by decide +kernel)
  obtain ⟨r', hr', hle⟩ := C76_repetitions false (q := ("symmetric2", Pat.symmetric2)) (isGap_cityblock false hO)
    (isGap_cityblock false hO') (sensible_free (by decide) (by decide) (by decide) Ex.sym2_mem rfl rfl)
    (by rw [e1, e2]; exact sensible_free (by decide) (by decide) (by decide) Ex.sym2_mem rfl rfl) rfl rfl (by decide) hr
  rw [e1, e2] at hr'
  exact ⟨r, r', hr, hr', hle⟩

/-- Cutting a reference of five elements into the blocks 0, 1-2, 3-4, searched for with both ends open: block costs 0. -/
def Ex.pairs (j : Nat) : Nat := (j + 1) / 2

theorem Ex.pairs_blocks : Blocks Ex.pairs 5 3 := ⟨rfl, fun i _ => by unfold Ex.pairs; omega, rfl⟩

/-- The coarse bound is not trivial: block costs 1 where the element costs are at least 1. -/
example : ∃ r r', dtw (binary64 true) (Ex.call 3 5 (fun i j => fin ((1 : ℚ) + ((i + 2 * j) % 3 : Nat))) "asymmetricP0") = .ok r ∧
    dtw (binary64 true) (Ex.call 3 3 (fun _ _ => fin 1) "asymmetricP0") = .ok r' ∧ F64.le r'.distance r.distance := by
  have hmem : ("asymmetricP0", Pat.asymmetricP0) ∈ Pat.table := by decide +kernel
  obtain ⟨r, hr⟩ := Ex.get_ok
    (x := dtw (binary64 true) (Ex.call 3 5 (fun i j => fin ((1 : ℚ) + ((i + 2 * j) % 3 : Nat))) "asymmetricP0")) (by decide +kernel)
  have hl : ∀ i < 3, ∀ j < 5, (binary64 true).rnd ((1 : ℚ) + ((i + 2 * j) % 3 : Nat)) = fin ((1 : ℚ) + ((i + 2 * j) % 3 : Nat)) := by
    intro i _ j _
    have : (1 : ℚ) + ((i + 2 * j) % 3 : Nat) = ((1 + (i + 2 * j) % 3 : Nat) : ℚ) := by push_cast; ring
    rw [this]
    exact C50_binary64_integers true _ (by omega)
  obtain ⟨r', hr', hle⟩ := C76_closed (f := id) (g := Ex.pairs) (W' := fun _ _ => true) (C20_C22_double_idempotent true)
    ((C76_patterns true).1 _ hmem (by decide))
    (bundled_problem (by norm_num) (by norm_num) (by norm_num) _ ("asymmetricP0", Pat.asymmetricP0) hmem)
    (bundled_problem (n := 3) (m := 3) (by norm_num) (by norm_num) (by norm_num) (fun _ _ => fin 1) ("asymmetricP0", Pat.asymmetricP0) hmem)
    rfl rfl rfl rfl ⟨rfl, fun _ _ => .inr rfl, rfl⟩ Ex.pairs_blocks hl (fun i _ j _ _ => ⟨by norm_num, by simp⟩) (fun _ _ _ _ _ => rfl) hr
  exact ⟨r, r', hr, hr', hle⟩

/-- A search: query of 3 elements in a reference of 5, cut into the blocks 0, 1-2, 3-4; each block as close as its closest element. -/
def Ex.fineCost (i j : Nat) : ℚ := ((2 * i + 3 * j) % 7 : Nat)
def Ex.blockCost (i J : Nat) : ℚ :=
  if J = 0 then Ex.fineCost i 0 else if J = 1 then min (Ex.fineCost i 1) (Ex.fineCost i 2) else min (Ex.fineCost i 3) (Ex.fineCost i 4)
def Ex.searchCall (ob : Bool) (m : Nat) (c : Nat → Nat → ℚ) : Args :=
  { x := .d2 (Mat.ofFn 3 m fun i j => fin (c i j)), stepPattern := .name "asymmetric", openBegin := ob, openEnd := true }

theorem Ex.search_problem (ob : Bool) {m : Nat} (hm : 0 < m) (hm' : m < 100) (c : Nat → Nat → ℚ) :
    Problem (Ex.searchCall ob m c) 3 m (fun i j => fin (c i j)) (fun _ _ => true) Pat.asymmetric (rulesOf Pat.asymmetric) where
  n_pos := by decide
  m_pos := hm
  cost := .matrix rfl rfl rfl rfl
  pattern := by
    show canonPattern (.name "asymmetric") = _
    decide +kernel
  wf := table_wf _ Ex.asym_mem
  fits := table_fits (by
    have : gridRows (Ex.searchCall ob m c) 3 ≤ 4 := by unfold gridRows; split <;> omega
    have := Nat.mul_le_mul this hm'.le
    omega) _ Ex.asym_mem
  window := .inl ⟨rfl, fun _ _ _ _ => rfl⟩

theorem Ex.block_le : ∀ i < 3, ∀ j < 5, 0 ≤ Ex.blockCost i (Ex.pairs j) ∧ Ex.blockCost i (Ex.pairs j) ≤ Ex.fineCost i j := by decide +kernel

theorem Ex.fine_exact (i j : Nat) : (binary64 false).rnd (Ex.fineCost i j) = fin (Ex.fineCost i j) :=
  C50_binary64_integers false _ (by omega)

/-- Both ends open; the end open. -/
example : (∃ r r', dtw (binary64 false) (Ex.searchCall true 5 Ex.fineCost) = .ok r ∧
      dtw (binary64 false) (Ex.searchCall true 3 Ex.blockCost) = .ok r' ∧ F64.le r'.normalizedDistance r.normalizedDistance) ∧
    ∃ r r', dtw (binary64 false) (Ex.searchCall false 5 Ex.fineCost) = .ok r ∧
      dtw (binary64 false) (Ex.searchCall false 3 Ex.blockCost) = .ok r' ∧ F64.le r'.normalizedDistance r.normalizedDistance := by
  have hS := (C76_patterns false).2 ("asymmetric", Pat.asymmetric) Ex.asym_mem (by decide)
  constructor
  · obtain ⟨r, hr⟩ := Ex.get_ok (x := dtw (binary64 false) (Ex.searchCall true 5 Ex.fineCost)) (by decide +kernel)
    obtain ⟨r', hr', hle⟩ := C76_search (C20_C22_double_idempotent false) hS (Ex.search_problem true (by norm_num) (by norm_num) Ex.fineCost)
      (Ex.search_problem true (m := 3) (by norm_num) (by norm_num) Ex.blockCost) rfl rfl rfl rfl rfl Ex.pairs_blocks
      (fun i hi j hj _ => Ex.block_le i hi j hj) (fun _ _ _ _ _ => rfl) hr
    exact ⟨r, r', hr, hr', hle⟩
  · obtain ⟨r, hr⟩ := Ex.get_ok (x := dtw (binary64 false) (Ex.searchCall false 5 Ex.fineCost)) (by decide +kernel)
    obtain ⟨r', hr', hle⟩ := C76_open_end (C20_C22_double_idempotent false) hS (Ex.search_problem false (by norm_num) (by norm_num) Ex.fineCost)
      (Ex.search_problem false (m := 3) (by norm_num) (by norm_num) Ex.blockCost) (by decide +kernel) rfl rfl rfl rfl Ex.pairs_blocks
      (fun i _ j _ => Ex.fine_exact i j) (Ex.fine_exact 0 0) (fun i hi j hj _ => Ex.block_le i hi j hj) (fun _ _ _ _ _ => rfl) hr
    exact ⟨r, r', hr, hr', hle⟩

end DTW
