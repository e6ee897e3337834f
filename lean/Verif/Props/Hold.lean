import Verif.Props.Coarse
import Verif.Props.Witnesses

/-!
# C86: sample-and-hold resampling

Repeat each sample of a series some number of times, at most `K`.  The distance does not fall and grows at most by the factor `K` (and by
at most `(K - 1)` times the first local cost more, for symmetric2, whose diagonal step weighs 2 where the first cell weighs 1).
-/

namespace DTW
open F64

variable {a a' : Args} {n m n' m' K : Nat} {ℓ ℓ' : Nat → Nat → ℚ} {W W' : Nat → Nat → Bool}
  {p : StepPattern} {rs : List Rule} {r r' : Result} {f g : Nat → Nat} {α β γ : ℚ}

/-- The three elementary moves (and no other), each charging the cell where it ends: down at weight `α`, right at `β`, diagonal at `γ`. -/
structure ThreeMoves (rs : List Rule) (α β γ : ℚ) : Prop where
  down : ∃ k : Nat, rs[k]? = some ⟨1, 0, [⟨0, 0, α⟩]⟩
  right : ∃ k : Nat, rs[k]? = some ⟨0, 1, [⟨0, 0, β⟩]⟩
  diag : ∃ k : Nat, rs[k]? = some ⟨1, 1, [⟨0, 0, γ⟩]⟩
  only : ∀ q ∈ rs, q = ⟨1, 0, [⟨0, 0, α⟩]⟩ ∨ q = ⟨0, 1, [⟨0, 0, β⟩]⟩ ∨ q = ⟨1, 1, [⟨0, 0, γ⟩]⟩
  down_le : 0 ≤ α ∧ α ≤ γ
  right_le : 0 ≤ β ∧ β ≤ γ
  one_le : 1 ≤ γ

/-- Element `i` of the long series repeats element `f i` of the short one; no element is repeated more than `K` times. -/
structure Held (f : Nat → Nat) (n n' K : Nat) : Prop extends Blocks f n n' where
  few : ∀ i, i + K < n → f i < f (i + K)

theorem Held.pos (hf : Held f n n' K) (hn : 0 < n) : 0 < K := by
  rcases Nat.eq_zero_or_pos K with rfl | h
  · have := hf.few 0 (by omega)
    simp at this
  · exact h

/-- Where the block before began to end. -/
theorem Held.prev (hf : Held f n n' K) {I : Nat} : ∀ {i : Nat}, i < n → f i = I + 1 →
    ∃ i0 u, i = i0 + u ∧ 0 < u ∧ u ≤ K ∧ f i0 = I ∧ ∀ s, 0 < s → s ≤ u → f (i0 + s) = I + 1 := by
  have key : ∀ i, i < n → f i = I + 1 → ∃ i0 u, i = i0 + u ∧ 0 < u ∧ f i0 = I ∧ ∀ s, 0 < s → s ≤ u → f (i0 + s) = I + 1 := by
    intro i
    induction i with
    | zero =>
      intro _ h
      rw [hf.first] at h
      omega
    | succ i ih =>
      intro hi h
      rcases hf.next i hi with e | e
      · obtain ⟨i0, u, rfl, hu, h0, hs⟩ := ih (by omega) (by omega)
        refine ⟨i0, u + 1, by omega, by omega, h0, fun s h1 h2 => ?_⟩
        rcases Nat.lt_or_ge u s with h3 | h3
        · have : s = u + 1 := by omega
          subst this
          rw [← h]
          rfl
        · exact hs s h1 h3
      · refine ⟨i, 1, rfl, by omega, by omega, fun s h1 h2 => ?_⟩
        have : s = 1 := by omega
        rw [this, h]
  intro i hi h
  obtain ⟨i0, u, rfl, hu, h0, hs⟩ := key i hi h
  refine ⟨i0, u, rfl, hu, ?_, h0, hs⟩
  by_contra hK
  have h1 := hf.few (i0 + 1) (by omega)
  have h2 := hs 1 (by omega) (by omega)
  have h3 := hs (1 + K) (by omega) (by omega)
  rw [← Nat.add_assoc] at h3
  omega

theorem Held.head (hf : Held f n n' K) : ∀ {i : Nat}, i < n → f i = 0 → i < K ∧ ∀ s ≤ i, f s = 0 := by
  intro i hi h
  have mono := fun s (hs : s ≤ i) => (hf.toBlocks.step (i := s) (d := i - s) (by omega)).1
  have h0 : ∀ s ≤ i, f s = 0 := fun s hs => by
    have := mono s hs
    rw [show s + (i - s) = i by omega] at this
    omega
  refine ⟨?_, h0⟩
  by_contra hK
  have h1 := hf.few 0 (by omega)
  have h2 := h0 (0 + K) (by omega)
  omega

/-- Repeating one move. -/
theorem WarpPath.run {w μ : ℚ} {da db k : Nat} (hk : rs[k]? = some ⟨da, db, [⟨0, 0, w⟩]⟩) (hw : 0 ≤ w) {i j : Nat} {ks : List Int} {x : ℚ}
    (hp : WarpPath Arith.exact rs W (fun i j => fin (ℓ i j)) ks i j (fin x)) : ∀ N : Nat,
    (∀ s, 0 < s → s ≤ N → W (i + s * da) (j + s * db) = true ∧ ℓ (i + s * da) (j + s * db) ≤ μ) →
    ∃ ks' y, WarpPath Arith.exact rs W (fun i j => fin (ℓ i j)) ks' (i + N * da) (j + N * db) (fin y) ∧ y ≤ x + w * N * μ
  | 0, _ => ⟨ks, x, by simpa using hp, by simp⟩
  | N + 1, h => by
    obtain ⟨ks', y, h1, h2⟩ := WarpPath.run hk hw hp N (fun s h0 hs => h s h0 (by omega))
    obtain ⟨h3, h4⟩ := h (N + 1) (by omega) (by omega)
    have ei : i + (N + 1) * da = i + N * da + da := by rw [Nat.succ_mul]; omega
    have ej : j + (N + 1) * db = j + N * db + db := by rw [Nat.succ_mul]; omega
    rw [ei, ej] at h3 h4 ⊢
    have h5 := h1.step k _ hk h3
    refine ⟨_, y + w * ℓ (i + N * da + da) (j + N * db + db), h5, ?_⟩
    have := mul_le_mul_of_nonneg_left h4 hw
    push_cast
    linarith

/-- From the end of one block to the end of the next one, in both series. -/
theorem WarpPath.across_block (h : ThreeMoves rs α β γ) {μ : ℚ} (hμ : 0 ≤ μ) {i j u v N : Nat} {ks : List Int} {x : ℚ}
    (hp : WarpPath Arith.exact rs W (fun i j => fin (ℓ i j)) ks i j (fin x)) (hu : u ≤ N) (hv : v ≤ N)
    (hc : ∀ s t, 0 < s ∧ 0 < t ∨ 0 < s ∧ v = 0 ∨ 0 < t ∧ u = 0 → s ≤ u → t ≤ v → W (i + s) (j + t) = true ∧ ℓ (i + s) (j + t) ≤ μ) :
    ∃ ks' y, WarpPath Arith.exact rs W (fun i j => fin (ℓ i j)) ks' (i + u) (j + v) (fin y) ∧
      y ≤ x + N * μ * (if u = 0 then β else if v = 0 then α else γ) := by
  obtain ⟨kd, hkd⟩ := h.down
  obtain ⟨kr, hkr⟩ := h.right
  obtain ⟨kg, hkg⟩ := h.diag
  have hγ : 0 ≤ γ := _root_.le_trans zero_le_one h.one_le
  rcases Nat.le_total u v with huv | huv
  · obtain ⟨ks1, y1, p1, c1⟩ := hp.run hkg hγ (μ := μ) u (fun s h0 hs => by
      simpa using hc s s (.inl ⟨h0, h0⟩) hs (by omega))
    obtain ⟨ks2, y2, p2, c2⟩ := p1.run hkr h.right_le.1 (μ := μ) (v - u) (fun s h0 hs => by
      have := hc u (u + s) (by omega) (Nat.le_refl _) (by omega)
      simpa [Nat.add_assoc] using this)
    refine ⟨ks2, y2, ?_, ?_⟩
    · simpa [show j + u + (v - u) = j + v by omega] using p2
    · have e : ((v - u : Nat) : ℚ) = v - u := Nat.cast_sub huv
      have hN : (v : ℚ) ≤ N := by exact_mod_cast hv
      have hu0 : (0 : ℚ) ≤ u := Nat.cast_nonneg u
      have huv' : (u : ℚ) ≤ v := by exact_mod_cast huv
      rw [e] at c2
      split_ifs with h1 h2
      · subst h1
        simp only [Nat.cast_zero, mul_zero, zero_mul, add_zero, sub_zero] at c1 c2
        have : β * v * μ ≤ β * N * μ := mul_le_mul_of_nonneg_right (mul_le_mul_of_nonneg_left hN h.right_le.1) hμ
        linarith
      · omega
      · have h3 : γ * u + β * (v - u) ≤ γ * N := by nlinarith [h.right_le.2]
        have := mul_le_mul_of_nonneg_right h3 hμ
        linarith
  · obtain ⟨ks1, y1, p1, c1⟩ := hp.run hkg hγ (μ := μ) v (fun s h0 hs => by
      simpa using hc s s (.inl ⟨h0, h0⟩) (by omega) hs)
    obtain ⟨ks2, y2, p2, c2⟩ := p1.run hkd h.down_le.1 (μ := μ) (u - v) (fun s h0 hs => by
      have := hc (v + s) v (by omega) (by omega) (Nat.le_refl _)
      simpa [Nat.add_assoc] using this)
    refine ⟨ks2, y2, ?_, ?_⟩
    · simpa [show i + v + (u - v) = i + u by omega] using p2
    · have e : ((u - v : Nat) : ℚ) = u - v := Nat.cast_sub huv
      have hN : (u : ℚ) ≤ N := by exact_mod_cast hu
      have hu0 : (0 : ℚ) ≤ v := Nat.cast_nonneg v
      have huv' : (v : ℚ) ≤ u := by exact_mod_cast huv
      rw [e] at c2
      split_ifs with h1 h2
      · subst h1
        have h2 : v = 0 := by omega
        subst h2
        simp only [Nat.cast_zero, mul_zero, zero_mul, add_zero, sub_zero] at c1 c2
        have : 0 ≤ (N : ℚ) * μ * β := mul_nonneg (mul_nonneg (Nat.cast_nonneg _) hμ) h.right_le.1
        linarith
      · subst h2
        simp only [Nat.cast_zero, mul_zero, zero_mul, add_zero, sub_zero] at c1 c2
        have : α * u * μ ≤ α * N * μ := mul_le_mul_of_nonneg_right (mul_le_mul_of_nonneg_left hN h.down_le.1) hμ
        linarith
      · have h3 : γ * v + α * (u - v) ≤ γ * N := by nlinarith [h.down_le.2]
        have := mul_le_mul_of_nonneg_right h3 hμ
        linarith

/-- A path of the short series can be followed by the long ones. -/
theorem WarpPath.refine_held (h : ThreeMoves rs α β γ) (hf : Held f n n' K) (hg : Held g m m' K) (hn' : 0 < n') (hm' : 0 < m')
    (hl0 : ∀ I < n', ∀ J < m', 0 ≤ ℓ' I J) (hl : ∀ i < n, ∀ j < m, ℓ i j ≤ ℓ' (f i) (g j))
    (hW : ∀ i < n, ∀ j < m, W' (f i) (g j) = true ∨ (f i = 0 ∧ g j = 0) → W i j = true)
    {ks : List Int} {I J : Nat} {c : F64} (hp : WarpPath Arith.exact rs W' (fun i j => fin (ℓ' i j)) ks I J c) :
    ∀ i j, i < n → j < m → f i = I → g j = J → ∃ x ks' y, c = fin x ∧
      WarpPath Arith.exact rs W (fun i j => fin (ℓ i j)) ks' i j (fin y) ∧ y ≤ K * x + (γ - 1) * (K - 1) * ℓ' 0 0 := by
  induction hp with
  | start =>
    intro i j hi hj ei ej
    obtain ⟨h1, h2⟩ := hf.head hi ei
    obtain ⟨h3, h4⟩ := hg.head hj ej
    have h5 := hl0 0 hn' 0 hm'
    have hcell : ∀ s t, s ≤ i → t ≤ j → W (0 + s) (0 + t) = true ∧ ℓ (0 + s) (0 + t) ≤ ℓ' 0 0 := by
      intro s t hs ht
      rw [Nat.zero_add, Nat.zero_add]
      refine ⟨hW s (by omega) t (by omega) (.inr ⟨h2 s hs, h4 t ht⟩), ?_⟩
      have := hl s (by omega) t (by omega)
      rwa [h2 s hs, h4 t ht] at this
    obtain ⟨ks', y, p1, c1⟩ := WarpPath.across_block h h5 (N := K - 1) (u := i) (v := j)
      (WarpPath.start (A := Arith.exact) (rs := rs) (W := W) (L := fun i j => fin (ℓ i j))) (by omega) (by omega)
      (fun s t _ hs ht => hcell s t hs ht)
    rw [Nat.zero_add, Nat.zero_add] at p1
    refine ⟨_, ks', y, rfl, p1, _root_.le_trans c1 ?_⟩
    have e : ((K - 1 : Nat) : ℚ) = K - 1 := by rw [Nat.cast_sub (by omega)]; simp
    have hK : (1 : ℚ) ≤ K := by exact_mod_cast (by omega : 1 ≤ K)
    have h6 : ℓ 0 0 ≤ ℓ' 0 0 := (hcell 0 0 (Nat.zero_le _) (Nat.zero_le _)).2
    have h7 : (if i = 0 then β else if j = 0 then α else γ) ≤ γ := by
      split_ifs
      · exact h.right_le.2
      · exact h.down_le.2
      · exact _root_.le_refl _
    rw [e]
    have := mul_le_mul_of_nonneg_left h7 (mul_nonneg (by linarith : (0 : ℚ) ≤ K - 1) h5)
    nlinarith
  | @step ks I J c k q hp' hq hWq ih =>
    intro i j hi hj ei ej
    have hI : I + q.a < n' := ei ▸ hf.toBlocks.lt hn' hi
    have hJ : J + q.b < m' := ej ▸ hg.toBlocks.lt hm' hj
    have h5 := hl0 _ hI _ hJ
    -- where the previous block ended
    have pi : ∃ i0 u, i = i0 + u ∧ u ≤ K ∧ f i0 = I ∧ (u = 0 ↔ q.a = 0) ∧ ∀ s, (0 < s ∨ u = 0) → s ≤ u → f (i0 + s) = I + q.a := by
      rcases h.only q (List.mem_of_getElem? hq) with rfl | rfl | rfl
      · obtain ⟨i0, u, e1, e2, e3, e4, e5⟩ := hf.prev hi ei
        exact ⟨i0, u, e1, e3, e4, by simp; omega, fun s h1 h2 => e5 s (by omega) h2⟩
      · exact ⟨i, 0, rfl, by omega, ei, by simp, fun s _ h2 => by obtain rfl : s = 0 := by omega
                                                                  exact ei⟩
      · obtain ⟨i0, u, e1, e2, e3, e4, e5⟩ := hf.prev hi ei
        exact ⟨i0, u, e1, e3, e4, by simp; omega, fun s h1 h2 => e5 s (by omega) h2⟩
    have pj : ∃ j0 v, j = j0 + v ∧ v ≤ K ∧ g j0 = J ∧ (v = 0 ↔ q.b = 0) ∧ ∀ s, (0 < s ∨ v = 0) → s ≤ v → g (j0 + s) = J + q.b := by
      rcases h.only q (List.mem_of_getElem? hq) with rfl | rfl | rfl
      · exact ⟨j, 0, rfl, by omega, ej, by simp, fun s _ h2 => by obtain rfl : s = 0 := by omega
                                                                  exact ej⟩
      · obtain ⟨i0, u, e1, e2, e3, e4, e5⟩ := hg.prev hj ej
        exact ⟨i0, u, e1, e3, e4, by simp; omega, fun s h1 h2 => e5 s (by omega) h2⟩
      · obtain ⟨i0, u, e1, e2, e3, e4, e5⟩ := hg.prev hj ej
        exact ⟨i0, u, e1, e3, e4, by simp; omega, fun s h1 h2 => e5 s (by omega) h2⟩
    obtain ⟨i0, u, rfl, hu, hfi, hu0, hfs⟩ := pi
    obtain ⟨j0, v, rfl, hv, hgj, hv0, hgs⟩ := pj
    obtain ⟨x, ks0, y0, rfl, p0, c0⟩ := ih i0 j0 (by omega) (by omega) hfi hgj
    obtain ⟨ks', y, p1, c1⟩ := p0.across_block h h5 hu hv (fun s t hst hs ht => by
      have e1 := hfs s (by omega) hs
      have e2 := hgs t (by omega) ht
      have h6 := hl (i0 + s) (by omega) (j0 + t) (by omega)
      rw [e1, e2] at h6
      exact ⟨hW _ (by omega) _ (by omega) (.inl (by rw [e1, e2]; exact hWq)), h6⟩)
    rcases h.only q (List.mem_of_getElem? hq) with rfl | rfl | rfl
    · simp only [one_ne_zero, iff_false, iff_true] at hu0 hv0
      rw [if_neg hu0, if_pos hv0] at c1
      refine ⟨x + α * ℓ' (I + 1) (J + 0), ks', y, rfl, p1, ?_⟩
      nlinarith
    · simp only [one_ne_zero, iff_false, iff_true] at hu0 hv0
      rw [if_pos hu0] at c1
      refine ⟨x + β * ℓ' (I + 0) (J + 1), ks', y, rfl, p1, ?_⟩
      nlinarith
    · simp only [one_ne_zero, iff_false] at hu0 hv0
      rw [if_neg hu0, if_neg hv0] at c1
      refine ⟨x + γ * ℓ' (I + 1) (J + 1), ks', y, rfl, p1, ?_⟩
      nlinarith

theorem ThreeMoves.shrinks (h : ThreeMoves rs α β γ) : Shrinks Arith.exact rs fun d d' => d' ≤ d := by
  obtain ⟨kd, hkd⟩ := h.down
  obtain ⟨kr, hkr⟩ := h.right
  obtain ⟨kg, hkg⟩ := h.diag
  have hγ : 0 ≤ γ := _root_.le_trans zero_le_one h.one_le
  intro q hq
  rcases h.only q hq with rfl | rfl | rfl
  · refine ⟨α, rfl, h.down_le.1, rfl, fun d e hd he => ?_⟩
    simp only at hd he
    rcases (by omega : (d = 0 ∧ e = 0) ∨ (d = 1 ∧ e = 0)) with h1 | ⟨rfl, rfl⟩
    · exact .inl h1
    · exact .inr ⟨kd, _, α, hkd, rfl, rfl, rfl, h.down_le.1, _root_.le_refl _, rfl⟩
  · refine ⟨β, rfl, h.right_le.1, rfl, fun d e hd he => ?_⟩
    simp only at hd he
    rcases (by omega : (d = 0 ∧ e = 0) ∨ (d = 0 ∧ e = 1)) with h1 | ⟨rfl, rfl⟩
    · exact .inl h1
    · exact .inr ⟨kr, _, β, hkr, rfl, rfl, rfl, h.right_le.1, _root_.le_refl _, rfl⟩
  · refine ⟨γ, rfl, hγ, rfl, fun d e hd he => ?_⟩
    simp only at hd he
    rcases (by omega : (d = 0 ∧ e = 0) ∨ (d = 1 ∧ e = 0) ∨ (d = 0 ∧ e = 1) ∨ (d = 1 ∧ e = 1)) with h1 | ⟨rfl, rfl⟩ | ⟨rfl, rfl⟩ | ⟨rfl, rfl⟩
    · exact .inl h1
    · exact .inr ⟨kd, _, α, hkd, rfl, rfl, rfl, h.down_le.1, h.down_le.2, rfl⟩
    · exact .inr ⟨kr, _, β, hkr, rfl, rfl, rfl, h.right_le.1, h.right_le.2, rfl⟩
    · exact .inr ⟨kg, _, γ, hkg, rfl, rfl, rfl, hγ, _root_.le_refl _, rfl⟩

/-- **C86**, closed ends, exact arithmetic.  `a` is the problem with held samples (`n × m`), `a'` the one without (`n' × m'`): cell `(i, j)`
costs what `(f i, g j)` costs and is admissible exactly when that is (for the lower bound non-negative costs are enough).  One call
succeeds exactly when the other does, and the distance with held samples is between `d` and `K d + (γ - 1) (K - 1) ℓ'(0,0)`. -/
theorem C86_hold (h : Problem a n m (fun i j => fin (ℓ i j)) W p rs) (h' : Problem a' n' m' (fun i j => fin (ℓ' i j)) W' p rs)
    (ht : ThreeMoves rs α β γ)
    (hob : a.openBegin = false) (hoe : a.openEnd = false) (hob' : a'.openBegin = false) (hoe' : a'.openEnd = false)
    (hf : Held f n n' K) (hg : Held g m m' K) (hl0 : ∀ I < n', ∀ J < m', 0 ≤ ℓ' I J) (hl : ∀ i < n, ∀ j < m, ℓ i j = ℓ' (f i) (g j))
    (hW : ∀ i < n, ∀ j < m, W i j = true ↔ W' (f i) (g j) = true) (hW0 : W' 0 0 = true) :
    ((∃ r, dtw Arith.exact a = .ok r) ↔ ∃ r', dtw Arith.exact a' = .ok r') ∧
    ∀ r r', dtw Arith.exact a = .ok r → dtw Arith.exact a' = .ok r' →
      ∃ d d', r.distance = fin d ∧ r'.distance = fin d' ∧ d' ≤ d ∧ d ≤ K * d' + (γ - 1) * (K - 1) * ℓ' 0 0 := by
  have hn := h.n_pos
  have hm := h.m_pos
  have hn' := h'.n_pos
  have hm' := h'.m_pos
  have lower : ∀ r, dtw Arith.exact a = .ok r → ∃ r', dtw Arith.exact a' = .ok r' ∧ F64.le r'.distance r.distance := by
    intro r hr
    refine C76_closed exact_idempotent ht.shrinks h h' hob hob' hoe hoe' hf.toBlocks hg.toBlocks (fun _ _ _ _ => rfl) ?_
      (fun i hi j hj => (hW i hi j hj).1) hr
    intro i hi j hj _
    exact ⟨hl0 _ (hf.toBlocks.lt hn' hi) _ (hg.toBlocks.lt hm' hj), _root_.le_of_eq (hl i hi j hj).symm⟩
  have upper : ∀ ks c, WarpPath Arith.exact rs W' (fun i j => fin (ℓ' i j)) ks (n' - 1) (m' - 1) c → ∃ x ks' y, c = fin x ∧
      WarpPath Arith.exact rs W (fun i j => fin (ℓ i j)) ks' (n - 1) (m - 1) (fin y) ∧ y ≤ K * x + (γ - 1) * (K - 1) * ℓ' 0 0 := by
    intro ks c hp
    refine hp.refine_held ht hf hg hn' hm' hl0 (fun i hi j hj => _root_.le_of_eq (hl i hi j hj)) ?_ (n - 1) (m - 1) (by omega) (by omega)
      hf.last hg.last
    rintro i hi j hj (h1 | ⟨h1, h2⟩)
    · exact (hW i hi j hj).2 h1
    · exact (hW i hi j hj).2 (by rw [h1, h2]; exact hW0)
  refine ⟨⟨fun ⟨r, hr⟩ => ?_, fun ⟨r', hr'⟩ => ?_⟩, fun r r' hr hr' => ?_⟩
  · obtain ⟨r', hr', -⟩ := lower r hr
    exact ⟨r', hr'⟩
  · obtain ⟨⟨ks, hks⟩, -⟩ := C01_distance_optimal h' hob' hoe' hr'
    obtain ⟨x, ks', y, -, hp, -⟩ := upper _ _ hks
    exact (exact_success_iff h hob hoe).2 ⟨_, hp.toRulePath⟩
  · obtain ⟨r'', hr'', hle⟩ := lower r hr
    rw [hr'] at hr''
    obtain rfl := Except.ok.inj hr''
    obtain ⟨⟨ks, hks⟩, -⟩ := C01_distance_optimal h' hob' hoe' hr'
    obtain ⟨x, ks', y, e1, hp, hy⟩ := upper _ _ hks
    obtain ⟨⟨ks2, hks2⟩, hopt⟩ := C01_distance_optimal h hob hoe hr
    obtain ⟨d, e2⟩ := hks2.finite
    have h1 := hopt _ _ hp
    rw [e2] at h1 hle
    rw [e1] at hle
    have h3 := (F64.le_fin _ _).1 (h1 (by simp))
    exact ⟨d, x, e2, e1, (F64.le_fin _ _).1 hle, by linarith⟩

/-- The bundled patterns made of the three elementary moves; the last number is the weight of the diagonal one. -/
def heldPatterns : List (String × ℚ) := [("symmetric1", 1), ("symmetric2", 2), ("symmetricP0", 2), ("asymmetricP0", 1)]

theorem C86_patterns (s : String × ℚ) (hs : s ∈ heldPatterns) (P : StepPattern) (hP : (s.1, P) ∈ Pat.table) :
    ∃ α β, ThreeMoves (rulesOf P) α β s.2 := by
  have key : (Pat.table.all fun x => heldPatterns.all fun s => !decide (s.1 = x.1) || [((1 : ℚ), (1 : ℚ)), (1, 0)].any fun ab =>
      ((List.range 4).any fun k => decide ((rulesOf x.2)[k]? = some ⟨1, 0, [⟨0, 0, ab.1⟩]⟩)) &&
      ((List.range 4).any fun k => decide ((rulesOf x.2)[k]? = some ⟨0, 1, [⟨0, 0, ab.2⟩]⟩)) &&
      ((List.range 4).any fun k => decide ((rulesOf x.2)[k]? = some ⟨1, 1, [⟨0, 0, s.2⟩]⟩)) &&
      ((rulesOf x.2).all fun q => decide (q = ⟨1, 0, [⟨0, 0, ab.1⟩]⟩) || (decide (q = ⟨0, 1, [⟨0, 0, ab.2⟩]⟩) ||
        decide (q = ⟨1, 1, [⟨0, 0, s.2⟩]⟩))) &&
      (decide (0 ≤ ab.1) && decide (ab.1 ≤ s.2)) && (decide (0 ≤ ab.2) && decide (ab.2 ≤ s.2)) && decide (1 ≤ s.2)) = true := by
    decide +kernel
  have := List.all_eq_true.1 (List.all_eq_true.1 key _ hP) s hs
  simp only [decide_true, Bool.not_true, Bool.false_or] at this
  obtain ⟨ab, -, h⟩ := List.any_eq_true.1 this
  simp only [Bool.and_eq_true, Bool.or_eq_true, List.any_eq_true, List.all_eq_true, decide_eq_true_eq] at h
  obtain ⟨⟨⟨⟨⟨⟨⟨k1, -, h1⟩, ⟨k2, -, h2⟩⟩, ⟨k3, -, h3⟩⟩, h4⟩, h5⟩, h6⟩, h7⟩ := h
  exact ⟨ab.1, ab.2, ⟨k1, h1⟩, ⟨k2, h2⟩, ⟨k3, h3⟩, h4, h5, h6, h7⟩

theorem ThreeMoves.reach (h : ThreeMoves rs α β γ) : ∀ i j : Nat, ∃ ks, RulePath rs (fun _ _ => true) ks i j
  | 0, 0 => ⟨[], RulePath.start⟩
  | i + 1, j => by
    obtain ⟨k, hk⟩ := h.down
    obtain ⟨ks, hp⟩ := h.reach i j
    exact ⟨_, RulePath.step k _ hp hk rfl⟩
  | 0, j + 1 => by
    obtain ⟨k, hk⟩ := h.right
    obtain ⟨ks, hp⟩ := h.reach 0 j
    exact ⟨_, RulePath.step k _ hp hk rfl⟩

/-- **C86** for two series: `x` repeats the samples of `x'`, `y` those of `y'`, at most `K` times each.  No window. -/
theorem C86_series {o : Args} {x y x' y' : List ℚ} {q : String × StepPattern}
    (h : Sensible o x.length y.length (fun _ _ => true) q) (h' : Sensible o x'.length y'.length (fun _ _ => true) q)
    (hs : (q.1, γ) ∈ heldPatterns) (hob : o.openBegin = false) (hoe : o.openEnd = false)
    (hf : Held f x.length x'.length K) (hg : Held g y.length y'.length K)
    (hx : ∀ i < x.length, x.getD i 0 = x'.getD (f i) 0) (hy : ∀ j < y.length, y.getD j 0 = y'.getD (g j) 0) :
    ∃ r r' d d', dtw Arith.exact (ask o x y) = .ok r ∧ dtw Arith.exact (ask o x' y') = .ok r' ∧
      r.distance = fin d ∧ r'.distance = fin d' ∧ d' ≤ d ∧ d ≤ K * d' + (γ - 1) * (K - 1) * |x'.getD 0 0 - y'.getD 0 0| := by
  obtain ⟨α, β, ht⟩ := C86_patterns _ hs q.2 h.mem
  have h1 := ask_problem h
  have h2 := ask_problem h'
  obtain ⟨hiff, hdist⟩ := C86_hold h1 h2 ht hob hoe hob hoe hf hg (fun _ _ _ _ => abs_nonneg _)
    (fun i hi j hj => by unfold gap; rw [hx i hi, hy j hj]) (fun _ _ _ _ => Iff.rfl) rfl
  obtain ⟨r', hr'⟩ := (exact_success_iff h2 hob hoe).2 (ht.reach _ _)
  obtain ⟨r, hr⟩ := hiff.2 ⟨r', hr'⟩
  obtain ⟨d, d', e1, e2, e3, e4⟩ := hdist r r' hr hr'
  exact ⟨r, r', d, d', hr, hr', e1, e2, e3, e4⟩

theorem held_uniform {n' K : Nat} (hn' : 0 < n') (hK : 0 < K) : Held (· / K) (K * n') n' K where
  first := Nat.zero_div _
  next i _ := by
    simp only [Nat.succ_div]
    split <;> simp
  last := by
    show (K * n' - 1) / K = n' - 1
    obtain ⟨t, rfl⟩ : ∃ t, n' = t + 1 := ⟨n' - 1, by omega⟩
    rw [Nat.mul_succ, show K * t + K - 1 = (K - 1) + K * t by omega, Nat.add_mul_div_left _ _ hK, Nat.div_eq_of_lt (by omega)]
    omega
  few i _ := by
    simp only [Nat.add_div_right _ hK]
    omega

/-- Every sample repeated `K` times. -/
def hold (K : Nat) (x : List ℚ) : List ℚ := x.flatMap (List.replicate K)

theorem hold_length (K : Nat) (x : List ℚ) : (hold K x).length = K * x.length := by
  induction x with
  | nil => simp [hold]
  | cons v x ih =>
    unfold hold at ih ⊢
    rw [List.flatMap_cons, List.length_append, ih, List.length_replicate, List.length_cons, Nat.mul_succ, Nat.add_comm]

theorem hold_get {K : Nat} (hK : 0 < K) : ∀ (x : List ℚ) (i : Nat), (hold K x).getD i 0 = x.getD (i / K) 0
  | [], i => by simp [hold]
  | v :: x, i => by
    have ih := hold_get hK x (i - K)
    unfold hold at ih ⊢
    rw [List.getD_eq_getElem?_getD, List.flatMap_cons, List.getElem?_append, List.length_replicate]
    split
    · rename_i h
      rw [Nat.div_eq_of_lt h, List.getElem?_replicate, if_pos h]
      simp
    · rename_i h
      rw [← List.getD_eq_getElem?_getD, ih]
      have : i / K = (i - K) / K + 1 := by
        rw [← Nat.add_div_right _ hK, Nat.sub_add_cancel (by omega)]
      rw [this]
      simp

/-- **C86**, uniform: hold every sample of both series for `K` instants. -/
theorem C86_uniform {o : Args} {x y : List ℚ} {q : String × StepPattern} (hK : 0 < K)
    (h : Sensible o (hold K x).length (hold K y).length (fun _ _ => true) q) (h' : Sensible o x.length y.length (fun _ _ => true) q)
    (hs : (q.1, γ) ∈ heldPatterns) (hob : o.openBegin = false) (hoe : o.openEnd = false) :
    ∃ r r' d d', dtw Arith.exact (ask o (hold K x) (hold K y)) = .ok r ∧ dtw Arith.exact (ask o x y) = .ok r' ∧
      r.distance = fin d ∧ r'.distance = fin d' ∧ d' ≤ d ∧ d ≤ K * d' + (γ - 1) * (K - 1) * |x.getD 0 0 - y.getD 0 0| :=
  C86_series h h' hs hob hoe (by rw [hold_length]; exact held_uniform h'.n_pos hK) (by rw [hold_length]; exact held_uniform h'.m_pos hK)
    (fun i _ => hold_get hK x i) (fun j _ => hold_get hK y j)

/-- The upper bound is attained: with symmetric1, `[0, 0]` against `[1, 1]` costs 2 and, each sample held three times, 6; with symmetric2 `[0]`
against `[1]` costs 1 and, held three times, 1 + 2 + 2 = 3 * 1 + 2 * 1. -/
theorem C86_attained :
    ((dtw Arith.exact (ask { x := .d1 [], stepPattern := .name "symmetric1" } [0, 0] [1, 1])).toOption.map (·.distance) = some (fin 2)) ∧
    ((dtw Arith.exact (ask { x := .d1 [], stepPattern := .name "symmetric1" } (hold 3 [0, 0]) (hold 3 [1, 1]))).toOption.map (·.distance) =
      some (fin 6)) ∧
    ((dtw Arith.exact (ask { x := .d1 [], stepPattern := .name "symmetric2" } [0] [1])).toOption.map (·.distance) = some (fin 1)) ∧
    ((dtw Arith.exact (ask { x := .d1 [], stepPattern := .name "symmetric2" } (hold 3 [0]) (hold 3 [1]))).toOption.map (·.distance) =
      some (fin 5)) := by
  refine ⟨?_, ?_, ?_, ?_⟩ <;> decide +kernel

/-- Five elements holding three. -/
def Ex.pairs2 (i : Nat) : Nat := if i < 2 then 0 else if i < 3 then 1 else 2

/-- The hypotheses are met, unequal repetitions: `[1, 1, 4, 2, 2]` holds samples of `[1, 4, 2]`. -/
example : ∃ r r' d d', dtw Arith.exact (ask { x := .d1 [], stepPattern := .name "symmetric2" } [1, 1, 4, 2, 2] [3, 0, 0]) = .ok r ∧
    dtw Arith.exact (ask { x := .d1 [], stepPattern := .name "symmetric2" } [1, 4, 2] [3, 0]) = .ok r' ∧
      r.distance = fin d ∧ r'.distance = fin d' ∧ d' ≤ d ∧ d ≤ (2 : Nat) * d' + (2 - 1) * ((2 : Nat) - 1) * |(1 : ℚ) - 3| := by
  refine C86_series (x := [1, 1, 4, 2, 2]) (y := [3, 0, 0]) (x' := [1, 4, 2]) (y' := [3, 0]) (K := 2) (γ := 2) (f := Ex.pairs2) (g := Ex.pairs)
    (q := ("symmetric2", Pat.symmetric2))
    (sensible_free (by decide) (by decide) (by decide) Ex.sym2_mem rfl rfl) (sensible_free (by decide) (by decide) (by decide) Ex.sym2_mem rfl rfl)
    (by decide) rfl rfl ?_ ?_ ?_ ?_
  · refine ⟨⟨by decide, fun i hi => ?_, by decide⟩, fun i hi => ?_⟩ <;> simp at hi <;> unfold Ex.pairs2 <;> split_ifs <;> omega
  · refine ⟨⟨by decide, fun i hi => ?_, by decide⟩, fun i hi => ?_⟩ <;> simp at hi <;> unfold Ex.pairs <;> omega
  · decide
  · decide

end DTW
