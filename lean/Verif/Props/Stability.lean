import Verif.Props.Weights
import Verif.Props.OpenEnd
import Verif.Props.Options2
import Verif.Props.Witnesses

/-!
# C62: stability

A small change of the local costs changes the answer little: if every local cost moves by at most `ε`, the
distance moves by at most `ε` times the largest total weight of a path, and the normalized distance of the
patterns with hint N or N+M by at most `ε`; whether an alignment exists does not change at all.  Exact
arithmetic; finite local costs; non-negative weights.
-/

namespace DTW
open F64

variable {a a' : Args} {n m : Nat} {ℓ ℓ' : Nat → Nat → ℚ} {W : Nat → Nat → Bool}
  {p : StepPattern} {rs : List Rule} {r r' : Result} {u v ε : ℚ}

/-- All weights are non-negative rationals. -/
def PosWeights (rs : List Rule) : Prop := ∀ q ∈ rs, ∀ t ∈ q.terms, 0 ≤ t.w

/-- The local costs differ by at most `ε` everywhere on the grid. -/
def CloseBy (ε : ℚ) (n m : Nat) (ℓ ℓ' : Nat → Nat → ℚ) : Prop := ∀ i < n, ∀ j < m, |ℓ' i j - ℓ i j| ≤ ε

theorem CloseBy.symm (h : CloseBy ε n m ℓ ℓ') : CloseBy ε n m ℓ' ℓ := fun i hi j hj => by
  rw [abs_sub_comm]; exact h i hi j hj

theorem charge_stable {q : Rule} {i j : Nat} (hq : ∀ t ∈ q.terms, 0 ≤ t.w) (hw : CloseBy ε n m ℓ ℓ') (hi : i < n)
    (hj : j < m) (c c' : ℚ) :
    ∃ d d', charge Arith.exact (fun i j => fin (ℓ i j)) q i j (fin c) = fin d ∧
      charge Arith.exact (fun i j => fin (ℓ' i j)) q i j (fin c') = fin d' ∧
      |d' - d| ≤ |c' - c| + ε * q.weight := by
  unfold charge Rule.weight
  revert hq c c'
  generalize q.terms = ts
  induction ts with
  | nil => intro _ c c'; exact ⟨c, c', rfl, rfl, by simp⟩
  | cons t ts ih =>
    intro hq c c'
    have h0 := hq t (by simp)
    obtain ⟨d, d', h1, h2, h3⟩ := ih (fun t ht => hq t (by simp [ht]))
      (c + t.w * ℓ (i - t.di) (j - t.dj)) (c' + t.w * ℓ' (i - t.di) (j - t.dj))
    have hl := hw (i - t.di) (by omega) (j - t.dj) (by omega)
    refine ⟨d, d', ?_, ?_, ?_⟩
    · rw [← h1]; rfl
    · rw [← h2]; rfl
    · refine _root_.le_trans h3 ?_
      simp only [List.map_cons, List.sum_cons]
      have e : c' + t.w * ℓ' (i - t.di) (j - t.dj) - (c + t.w * ℓ (i - t.di) (j - t.dj)) =
          (c' - c) + t.w * (ℓ' (i - t.di) (j - t.dj) - ℓ (i - t.di) (j - t.dj)) := by ring
      have h4 : |t.w * (ℓ' (i - t.di) (j - t.dj) - ℓ (i - t.di) (j - t.dj))| ≤ t.w * ε := by
        rw [abs_mul, abs_of_nonneg h0]
        exact mul_le_mul_of_nonneg_left hl h0
      have h5 := abs_add_le (c' - c) (t.w * (ℓ' (i - t.di) (j - t.dj) - ℓ (i - t.di) (j - t.dj)))
      rw [e]
      nlinarith

/-- The same rules cost almost the same. -/
theorem WarpPath.stable (hp : PosWeights rs) (hw : CloseBy ε n m ℓ ℓ') {ks : List Int} {i j : Nat} {c : F64}
    (h : WarpPath Arith.exact rs W (fun i j => fin (ℓ i j)) ks i j c) (hi : i < n) (hj : j < m) :
    ∃ d d', c = fin d ∧ WarpPath Arith.exact rs W (fun i j => fin (ℓ' i j)) ks i j (fin d') ∧
      |d' - d| ≤ ε * pathWeight rs ks := by
  induction h with
  | start => exact ⟨_, _, rfl, .start, by simpa [pathWeight] using hw 0 hi 0 hj⟩
  | step k q _ hq hW ih =>
    obtain ⟨d, d', rfl, h2, h3⟩ := ih (by omega) (by omega)
    obtain ⟨e, e', h4, h5, h6⟩ := charge_stable (hp q (List.mem_of_getElem? hq)) hw hi hj d d'
    refine ⟨e, e', h4, ?_, ?_⟩
    · rw [← h5]; exact .step k q h2 hq hW
    · unfold pathWeight at h3 ⊢
      rw [List.map_append, List.sum_append]
      have ek : ((k : Int) + 1 - 1).toNat = k := by omega
      simp only [List.map_cons, List.map_nil, List.sum_cons, List.sum_nil, ek, hq, add_zero]
      rw [← add_assoc, mul_add]
      linarith

/-- **C62.**  Closed ends.  If every local cost changes by at most `ε`, existence of an alignment does not
change, and the distance changes by at most `ε * K`, where `K` bounds the total weight of complete admissible
paths. -/
theorem C62_stable {K : ℚ} (h : Problem a n m (fun i j => fin (ℓ i j)) W p rs)
    (h' : Problem a' n m (fun i j => fin (ℓ' i j)) W p rs)
    (hob : a.openBegin = false) (hoe : a.openEnd = false) (hob' : a'.openBegin = false) (hoe' : a'.openEnd = false)
    (hp : PosWeights rs) (hw : CloseBy ε n m ℓ ℓ')
    (hK : ∀ ks, RulePath rs W ks (n - 1) (m - 1) → pathWeight rs ks ≤ K) :
    ((∃ r, dtw Arith.exact a = .ok r) ↔ ∃ r', dtw Arith.exact a' = .ok r') ∧
    ∀ r r', dtw Arith.exact a = .ok r → dtw Arith.exact a' = .ok r' →
      ∃ d d', r.distance = fin d ∧ r'.distance = fin d' ∧ |d' - d| ≤ ε * K := by
  have hn := h.n_pos
  have hm := h.m_pos
  have hε : 0 ≤ ε := _root_.le_trans (abs_nonneg _) (hw 0 hn 0 hm)
  refine ⟨by rw [exact_success_iff h hob hoe, exact_success_iff h' hob' hoe'], ?_⟩
  intro r r' hr hr'
  obtain ⟨⟨ks, hks⟩, hopt⟩ := C01_distance_optimal h hob hoe hr
  obtain ⟨⟨ks', hks'⟩, hopt'⟩ := C01_distance_optimal h' hob' hoe' hr'
  obtain ⟨d, e', h1, h2, h3⟩ := hks.stable hp hw (by omega) (by omega)
  obtain ⟨d', e, h1', h2', h3'⟩ := hks'.stable hp hw.symm (by omega) (by omega)
  refine ⟨d, d', h1, h1', ?_⟩
  have o := hopt _ _ h2' (by simp)
  have o' := hopt' _ _ h2 (by simp)
  rw [h1] at o
  rw [h1'] at o'
  rw [F64.le_fin] at o o'
  have k1 := mul_le_mul_of_nonneg_left (hK ks hks.toRulePath) hε
  have k2 := mul_le_mul_of_nonneg_left (hK ks' hks'.toRulePath) hε
  have a1 := abs_le.1 h3
  have a2 := abs_le.1 h3'
  rw [abs_le]
  constructor <;> linarith

/-! ### How large the total weight can be -/

theorem pathWeight_le {w : ℚ} (hw : ∀ q ∈ rs, q.weight ≤ w * (q.a + q.b)) {ks : List Int} {i j : Nat}
    (h : RulePath rs W ks i j) : pathWeight rs ks ≤ 1 + w * (i + j) := by
  induction h with
  | start => simp [pathWeight]
  | step k q _ hq _ ih =>
    unfold pathWeight at ih ⊢
    rw [List.map_append, List.sum_append, ← add_assoc]
    have e : ((k : Int) + 1 - 1).toNat = k := by omega
    simp only [List.map_cons, List.map_nil, List.sum_cons, List.sum_nil, e, hq, add_zero]
    have := hw q (List.mem_of_getElem? hq)
    push_cast
    nlinarith

/-- **C62**, bundled patterns: with symmetric1 the distance moves by at most `ε * (N + M - 1)`; the same for every
bundled pattern with hint N+M; with hint N by at most `ε * N`; with mori2006 by at most `ε * (3 * M - 2)`. -/
theorem C62_bundled (x : String × StepPattern) (hx : x ∈ Pat.table)
    (h : Problem a n m (fun i j => fin (ℓ i j)) W x.2 (rulesOf x.2))
    (h' : Problem a' n m (fun i j => fin (ℓ' i j)) W x.2 (rulesOf x.2))
    (hob : a.openBegin = false) (hoe : a.openEnd = false) (hob' : a'.openBegin = false) (hoe' : a'.openEnd = false)
    (hne : x.1 ≠ "_symmetricVelichkoZagoruyko") (hw : CloseBy ε n m ℓ ℓ')
    (hr : dtw Arith.exact a = .ok r) (hr' : dtw Arith.exact a' = .ok r') :
    ∃ d d', r.distance = fin d ∧ r'.distance = fin d' ∧
      |d' - d| ≤ ε * (if x.2.hint = "N" then (n : ℚ) else if x.2.hint = "M" then 3 * m - 2 else (n : ℚ) + m - 1) := by
  have hn := h.n_pos
  have hm := h.m_pos
  have key : (Pat.table.all fun x => decide (x.1 = "_symmetricVelichkoZagoruyko") ||
      (rulesOf x.2).all fun q => q.terms.all fun t => decide (0 ≤ t.w)) = true := by decide +kernel
  have key2 : (Pat.table.all fun x => decide (x.2.hint = "N") || decide (x.2.hint = "M") ||
      (rulesOf x.2).all fun q => decide (q.weight ≤ 1 * (q.a + q.b))) = true := by decide +kernel
  have hpw : PosWeights (rulesOf x.2) := by
    have := List.all_eq_true.1 key x hx
    simp only [Bool.or_eq_true, decide_eq_true_eq, List.all_eq_true] at this
    exact fun q hq t ht => (this.resolve_left hne) q hq t ht
  have e1 : ((n - 1 : Nat) : ℚ) = (n : ℚ) - 1 := by rw [Nat.cast_sub hn]; simp
  have e2 : ((m - 1 : Nat) : ℚ) = (m : ℚ) - 1 := by rw [Nat.cast_sub hm]; simp
  refine (C62_stable h h' hob hoe hob' hoe' hpw hw ?_).2 r r' hr hr'
  intro ks hks
  obtain ⟨t1, t2, t3⟩ := C19_bundled x hx
  split_ifs with c1 c2
  · exact _root_.le_of_eq ((C19_total_weight hn hm hks).1 (t1 c1))
  · exact _root_.le_of_eq ((C19_total_weight hn hm hks).2.2 (t3 c2))
  · have := List.all_eq_true.1 key2 x hx
    simp only [Bool.or_eq_true, decide_eq_true_eq, List.all_eq_true, c1, c2, false_or] at this
    have := pathWeight_le this hks
    rw [e1, e2] at this
    linarith

/-! ### The normalized distance, closed or open end -/

/-- What a closed-begin call optimises, whichever end option it has. -/
theorem best_end {A : Arith} {L : Nat → Nat → F64} (h : Problem a n m L W p rs) (hob : a.openBegin = false)
    (hNA : p.hint ≠ "NA") (hr : dtw A a = .ok r) :
    ∃ (j : Nat) (ks : List Int), j < m ∧ (a.openEnd = false → j = m - 1) ∧
      WarpPath A rs W L ks (n - 1) j r.distance ∧ r.normalizedDistance = normBy A p.hint n j r.distance ∧
      ∀ ks' j' c, j' < m → (a.openEnd = false → j' = m - 1) → WarpPath A rs W L ks' (n - 1) j' c → c ≠ nan →
        F64.le r.normalizedDistance (normBy A p.hint n j' c) := by
  have hn := h.n_pos
  have hm := h.m_pos
  cases hoe : a.openEnd with
  | false =>
    obtain ⟨⟨ks, hks⟩, hopt⟩ := C01_distance_optimal h hob hoe hr
    obtain ⟨G, D, _, _, _, hf⟩ := closed_facts A h hob hoe
    obtain ⟨d1, _, _, n1, _⟩ := hf r hr
    rw [if_neg hNA, ← d1] at n1
    refine ⟨m - 1, ks, by omega, fun _ => rfl, hks, n1, ?_⟩
    intro ks' j' c _ hj' hp hc
    rw [hj' rfl] at hp ⊢
    rw [n1]
    exact normBy_mono A _ hn (hopt _ _ hp hc)
  | true =>
    obtain ⟨j, ks, _, hj, hp, hnd, hmin, _⟩ := C20_open_end_optimal h hob hoe hr
    exact ⟨j, ks, hj, by simp, hp, hnd, fun ks' j' c h1 _ h3 h4 => hmin ks' j' c h1 h3 h4⟩

theorem divQ_fin {D : ℚ} (hD : 0 < D) (x : ℚ) : Arith.exact.divQ (fin x) D = fin (x / D) := by
  simp only [Arith.divQ, if_neg (ne_of_gt hD), Arith.exact_rnd]

theorem normBy_exact {hint : String} {j : Nat} (hn : 0 < n) {κ : ℚ}
    (hk : (hint = "N" ∧ u = 1 ∧ v = 0 ∧ κ = 1) ∨ (hint = "N+M" ∧ u = 1 ∧ v = 1 ∧ κ = 1) ∨
      (hint = "M" ∧ u = 0 ∧ v = 3 ∧ κ = 3)) :
    ∃ D : ℚ, 0 < D ∧ 1 + u * ((n - 1 : Nat) : ℚ) + v * j ≤ κ * D ∧
      ∀ x, normBy Arith.exact hint n j (fin x) = fin (x / D) := by
  have h1 : (1 : ℚ) ≤ n := by exact_mod_cast hn
  have h2 : (0 : ℚ) ≤ j := by positivity
  have e1 : ((n - 1 : Nat) : ℚ) = (n : ℚ) - 1 := by rw [Nat.cast_sub hn]; simp
  rw [e1]
  rcases hk with ⟨rfl, rfl, rfl, rfl⟩ | ⟨rfl, rfl, rfl, rfl⟩ | ⟨rfl, rfl, rfl, rfl⟩
  · refine ⟨n, by linarith, by linarith, fun x => ?_⟩
    unfold normBy
    rw [if_neg (by decide), if_pos rfl, divQ_fin (by linarith)]
  · refine ⟨n + j + 1, by linarith, by linarith, fun x => ?_⟩
    unfold normBy
    rw [if_pos rfl, divQ_fin (by linarith)]
  · refine ⟨1 + j, by linarith, by linarith, fun x => ?_⟩
    unfold normBy
    rw [if_neg (by decide), if_neg (by decide), if_pos rfl, divQ_fin (by linarith)]

theorem normalized_one_way {κ : ℚ} (h : Problem a n m (fun i j => fin (ℓ i j)) W p rs)
    (h' : Problem a' n m (fun i j => fin (ℓ' i j)) W p rs)
    (hob : a.openBegin = false) (hob' : a'.openBegin = false) (hoe : a.openEnd = a'.openEnd)
    (hp : PosWeights rs) (hw : CloseBy ε n m ℓ ℓ') (hlin : LinearWeights u v rs)
    (hk : (p.hint = "N" ∧ u = 1 ∧ v = 0 ∧ κ = 1) ∨ (p.hint = "N+M" ∧ u = 1 ∧ v = 1 ∧ κ = 1) ∨
      (p.hint = "M" ∧ u = 0 ∧ v = 3 ∧ κ = 3))
    (hr : dtw Arith.exact a = .ok r) (hr' : dtw Arith.exact a' = .ok r') :
    ∃ x, r.normalizedDistance = fin x ∧ F64.le r'.normalizedDistance (fin (x + κ * ε)) := by
  have hn := h.n_pos
  have hm := h.m_pos
  have hε : 0 ≤ ε := _root_.le_trans (abs_nonneg _) (hw 0 hn 0 hm)
  have hNA : p.hint ≠ "NA" := by
    rcases hk with ⟨e, _⟩ | ⟨e, _⟩ | ⟨e, _⟩ <;> rw [e] <;> decide
  obtain ⟨j, ks, hj, hjc, hpth, hnd, -⟩ := best_end h hob hNA hr
  obtain ⟨-, -, -, -, -, -, hmin'⟩ := best_end h' hob' hNA hr'
  obtain ⟨D, hD, hwt, hN⟩ := normBy_exact (n := n) (j := j) (hint := p.hint) (κ := κ) hn hk
  obtain ⟨d, d', h1, h2, h3⟩ := hpth.stable hp hw (by omega) hj
  rw [h1, hN] at hnd
  refine ⟨_, hnd, ?_⟩
  refine F64.le_trans (hmin' ks j _ hj (by rw [← hoe]; exact hjc) h2 (by simp)) ?_
  rw [hN, F64.le_fin, div_le_iff₀ hD, add_mul, div_mul_cancel₀ _ (ne_of_gt hD)]
  rw [C19_path_weight hlin hpth.toRulePath] at h3
  have := mul_le_mul_of_nonneg_left hwt hε
  have := (abs_le.1 h3).2
  nlinarith

/-- **C62**, normalized distance, closed or open end.  If every local cost moves by at most `ε`, the normalized
distance of a pattern with hint N or N+M moves by at most `ε` (hint M, i.e. mori2006, by at most `3 * ε`). -/
theorem C62_normalized {κ : ℚ} (h : Problem a n m (fun i j => fin (ℓ i j)) W p rs)
    (h' : Problem a' n m (fun i j => fin (ℓ' i j)) W p rs)
    (hob : a.openBegin = false) (hob' : a'.openBegin = false) (hoe : a.openEnd = a'.openEnd)
    (hp : PosWeights rs) (hw : CloseBy ε n m ℓ ℓ')
    (hk : (p.hint = "N" ∧ LinearWeights 1 0 rs ∧ κ = 1) ∨ (p.hint = "N+M" ∧ LinearWeights 1 1 rs ∧ κ = 1) ∨
      (p.hint = "M" ∧ LinearWeights 0 3 rs ∧ κ = 3))
    (hr : dtw Arith.exact a = .ok r) (hr' : dtw Arith.exact a' = .ok r') :
    ∃ x x', r.normalizedDistance = fin x ∧ r'.normalizedDistance = fin x' ∧ |x' - x| ≤ κ * ε := by
  have key : ∃ u v, LinearWeights u v rs ∧ ((p.hint = "N" ∧ u = 1 ∧ v = 0 ∧ κ = 1) ∨
      (p.hint = "N+M" ∧ u = 1 ∧ v = 1 ∧ κ = 1) ∨ (p.hint = "M" ∧ u = 0 ∧ v = 3 ∧ κ = 3)) := by
    rcases hk with ⟨e, hl, rfl⟩ | ⟨e, hl, rfl⟩ | ⟨e, hl, rfl⟩
    · exact ⟨1, 0, hl, .inl ⟨e, rfl, rfl, rfl⟩⟩
    · exact ⟨1, 1, hl, .inr (.inl ⟨e, rfl, rfl, rfl⟩)⟩
    · exact ⟨0, 3, hl, .inr (.inr ⟨e, rfl, rfl, rfl⟩)⟩
  obtain ⟨u, v, hlin, hk'⟩ := key
  obtain ⟨x, hx, hle⟩ := normalized_one_way h h' hob hob' hoe hp hw hlin hk' hr hr'
  obtain ⟨x', hx', hle'⟩ := normalized_one_way h' h hob' hob hoe.symm hp hw.symm hlin hk' hr' hr
  rw [hx', F64.le_fin] at hle
  rw [hx, F64.le_fin] at hle'
  exact ⟨x, x', hx, hx', by rw [abs_le]; constructor <;> linarith⟩

/-! ### Open begin -/

theorem OpenPath.stable (hp : PosWeights rs) (hw : CloseBy ε n m ℓ ℓ') {j0 : Nat} {ks : List Int} {i j : Nat} {c : F64}
    (h : OpenPath Arith.exact rs W (fun i j => fin (ℓ i j)) j0 ks i j c) (hε : 0 ≤ ε) (hi : i ≤ n) (hj : j < m) :
    ∃ d d', c = fin d ∧ OpenPath Arith.exact rs W (fun i j => fin (ℓ' i j)) j0 ks i j (fin d') ∧
      |d' - d| ≤ ε * (pathWeight rs ks - 1) := by
  have hw' : CloseBy ε (n + 1) m (fun i j => if i = 0 then 0 else ℓ (i - 1) j)
      (fun i j => if i = 0 then 0 else ℓ' (i - 1) j) := by
    intro i hi j hj
    by_cases h0 : i = 0
    · simp [h0, hε]
    · simp only [h0, if_false]; exact hw _ (by omega) _ hj
  have e : ∀ ℓ : Nat → Nat → ℚ, (fun i' j' => if i' = 0 then fin 0 else fin (ℓ (i' - 1) j')) =
      fun i j => fin (if i = 0 then 0 else ℓ (i - 1) j) := by
    intro ℓ; funext i j; by_cases h0 : i = 0 <;> simp [h0]
  induction h with
  | start => exact ⟨_, _, rfl, .start, by simp [pathWeight]⟩
  | step k q _ hq h0 hW ih =>
    obtain ⟨d, d', rfl, h2, h3⟩ := ih (by omega) (by omega)
    obtain ⟨x, x', h4, h5, h6⟩ := charge_stable (hp q (List.mem_of_getElem? hq)) hw' (Nat.lt_succ_of_le hi) hj d d'
    refine ⟨x, x', by rw [e ℓ]; exact h4, ?_, ?_⟩
    · rw [← h5, ← e ℓ']; exact .step k q h2 hq h0 hW
    · unfold pathWeight at h3 ⊢
      rw [List.map_append, List.sum_append]
      have ek : ((k : Int) + 1 - 1).toNat = k := by omega
      simp only [List.map_cons, List.map_nil, List.sum_cons, List.sum_nil, ek, hq, add_zero]
      rw [show ∀ A B : ℚ, 1 + (A + B) - 1 = (1 + A - 1) + B by intros; ring, mul_add]
      linarith

theorem openPath_weight {A : Arith} {L : Nat → Nat → F64} (hlin : LinearWeights u v rs) {j0 : Nat} {ks : List Int}
    {i j : Nat} {c : F64} (h : OpenPath A rs W L j0 ks i j c) :
    pathWeight rs ks = 1 + u * i + v * ((j : ℚ) - j0) := by
  induction h with
  | start => simp [pathWeight]
  | step k q _ hq _ _ ih =>
    unfold pathWeight at ih ⊢
    rw [List.map_append, List.sum_append, ← add_assoc, ih]
    have e : ((k : Int) + 1 - 1).toNat = k := by omega
    simp only [List.map_cons, List.map_nil, List.sum_cons, List.sum_nil, e, hq, add_zero]
    rw [hlin q (List.mem_of_getElem? hq)]
    push_cast
    ring

theorem open_one_way (h : Problem a n m (fun i j => fin (ℓ i j)) W p rs)
    (h' : Problem a' n m (fun i j => fin (ℓ' i j)) W p rs)
    (hob : a.openBegin = true) (hob' : a'.openBegin = true) (hoe : a.openEnd = a'.openEnd)
    (hp : PosWeights rs) (hw : CloseBy ε n m ℓ ℓ') (hlin : LinearWeights 1 0 rs)
    (hr : dtw Arith.exact a = .ok r) (hr' : dtw Arith.exact a' = .ok r') :
    ∃ d, r.distance = fin d ∧ F64.le r'.distance (fin (d + ε * n)) ∧ r.normalizedDistance = fin (d / n) := by
  have hn := h.n_pos
  have hm := h.m_pos
  have hn0 : (0 : ℚ) < n := by exact_mod_cast hn
  have hε : 0 ≤ ε := _root_.le_trans (abs_nonneg _) (hw 0 hn 0 hm)
  have hnd : ∀ {a : Args} {ℓ : Nat → Nat → ℚ} {r : Result} (_ : Problem a n m (fun i j => fin (ℓ i j)) W p rs)
      (_ : a.openBegin = true) (_ : dtw Arith.exact a = .ok r),
      r.normalizedDistance = Arith.exact.divQ r.distance n ∧
      (∀ x : ℚ, Arith.exact.divQ (fin x) n = fin (x / n)) := by
    intro a ℓ r h hob hr
    have hh : p.hint = "N" := by
      by_contra hh; rw [open_bad_hint h hob hh] at hr; simp at hr
    obtain ⟨G, D, qr, hB, _, hd⟩ := dtw_open Arith.exact h hob hh
    obtain ⟨j, j0, ks, hrun⟩ := open_ok h hob hB hd hr
    refine ⟨?_, fun x => ?_⟩
    · rw [hrun.result]; simp [mkResult, hh, normBy]
    · exact divQ_fin hn0 x
  obtain ⟨mp, j, j0, _, hjm, hj, hjc, hpth, -⟩ := C22_open_begin_optimal h hob hr
  obtain ⟨mp', j', j0', _, hjm', hj', hjc', hpth', hopt'⟩ := C22_open_begin_optimal h' hob' hr'
  obtain ⟨d, d', h1, h2, h3⟩ := hpth.stable hp hw hε (_root_.le_refl n) hj
  rw [openPath_weight hlin hpth] at h3
  have h4 : d' ≤ d + ε * n := by have := (abs_le.1 h3).2; linarith
  have h5 := (hnd h hob hr).1
  rw [h1, (hnd h hob hr).2] at h5
  refine ⟨d, h1, ?_, h5⟩
  cases hoe' : a'.openEnd with
  | false =>
    rw [hoe'] at hoe
    have e1 := hjc hoe
    have e2 := hjc' hoe'
    rw [e1, ← e2] at h2
    exact F64.le_trans (hopt' _ _ _ h2 (by simp)) (by rw [F64.le_fin]; exact h4)
  | true =>
    obtain ⟨g1, g2⟩ := C22_open_both_optimal h' hob' hoe' hr'
    have := g2 _ _ _ _ hj h2 (by simp)
    rw [g1, (hnd h hob hr).2] at this
    cases hd' : r'.distance with
    | fin y =>
      rw [hd', (hnd h hob hr).2, F64.le_fin] at this
      rw [F64.le_fin]
      have := (div_le_div_iff_of_pos_right hn0).1 this
      linarith
    | nan => rw [hd'] at this; exact absurd rfl this.1
    | ninf => simp [F64.le, F64.lt]
    | pinf =>
      rw [hd'] at this
      simp [Arith.divQ, not_lt.2 (_root_.le_of_lt hn0), F64.le, F64.lt] at this

/-- **C62**, open begin, closed or open end, patterns with hint N: the distance moves by at most `ε * N`, the
normalized distance by at most `ε`. -/
theorem C62_open_begin (h : Problem a n m (fun i j => fin (ℓ i j)) W p rs)
    (h' : Problem a' n m (fun i j => fin (ℓ' i j)) W p rs)
    (hob : a.openBegin = true) (hob' : a'.openBegin = true) (hoe : a.openEnd = a'.openEnd)
    (hp : PosWeights rs) (hw : CloseBy ε n m ℓ ℓ') (hlin : LinearWeights 1 0 rs)
    (hr : dtw Arith.exact a = .ok r) (hr' : dtw Arith.exact a' = .ok r') :
    ∃ d d', r.distance = fin d ∧ r'.distance = fin d' ∧ |d' - d| ≤ ε * n ∧
      r.normalizedDistance = fin (d / n) ∧ r'.normalizedDistance = fin (d' / n) ∧ |d' / n - d / n| ≤ ε := by
  have hn0 : (0 : ℚ) < n := by exact_mod_cast h.n_pos
  obtain ⟨d, h1, h2, h3⟩ := open_one_way h h' hob hob' hoe hp hw hlin hr hr'
  obtain ⟨d', h1', h2', h3'⟩ := open_one_way h' h hob' hob hoe.symm hp hw.symm hlin hr' hr
  rw [h1', F64.le_fin] at h2
  rw [h1, F64.le_fin] at h2'
  have hab : |d' - d| ≤ ε * n := by rw [abs_le]; constructor <;> linarith
  refine ⟨d, d', h1, h1', hab, h3, h3', ?_⟩
  rw [← sub_div, abs_div, abs_of_pos hn0, div_le_iff₀ hn0]
  exact hab

/-! ### Existence does not depend on the costs, as long as they are finite -/

theorem OpenPath.recost {j0 : Nat} {ks : List Int} {i j : Nat} {c : F64}
    (h : OpenPath Arith.exact rs W (fun i j => fin (ℓ i j)) j0 ks i j c) (ℓ' : Nat → Nat → ℚ) :
    ∃ d', OpenPath Arith.exact rs W (fun i j => fin (ℓ' i j)) j0 ks i j (fin d') := by
  have e : (fun i' j' => if i' = 0 then fin 0 else fin (ℓ' (i' - 1) j')) =
      fun i j => fin (if i = 0 then 0 else ℓ' (i - 1) j) := by
    funext i j; by_cases h0 : i = 0 <;> simp [h0]
  induction h with
  | start => exact ⟨_, .start⟩
  | @step ks i j c k q _ hq h0 hW ih =>
    obtain ⟨d', h2⟩ := ih
    obtain ⟨x, hx⟩ := charge_exact (fun i j => if i = 0 then 0 else ℓ' (i - 1) j) q (i + q.a) (j + q.b) d'
    refine ⟨x, ?_⟩
    rw [← hx, ← e]
    exact .step k q h2 hq h0 hW

theorem exists_imp (h : Problem a n m (fun i j => fin (ℓ i j)) W p rs)
    (h' : Problem a' n m (fun i j => fin (ℓ' i j)) W p rs) (ho : SameOptions a a')
    (hr : dtw Arith.exact a = .ok r) : ∃ r', dtw Arith.exact a' = .ok r' := by
  have ob := ho.openBegin
  have oe := ho.openEnd
  have od := ho.distanceOnly
  cases hob : a.openBegin with
  | false =>
    rw [hob] at ob
    cases hoe : a.openEnd with
    | false =>
      rw [hoe] at oe
      exact (exact_success_iff h' ob.symm oe.symm).2 ((exact_success_iff h hob hoe).1 ⟨r, hr⟩)
    | true =>
      rw [hoe] at oe
      have hNA : p.hint ≠ "NA" := fun hNA => by
        obtain ⟨t, ht⟩ := C20_rejects_NA (A := Arith.exact) h hoe hNA
        rw [hr] at ht; cases ht
      rcases (C20_open_end_succeeds_iff h hob hoe hNA).1 ⟨r, hr⟩ with ⟨ks, j, c, hj, hp, _⟩ | ⟨_, h0⟩
      · obtain ⟨c', hc'⟩ := hp.toRulePath.toWarpPath (A := Arith.exact) (L := fun i j => fin (ℓ' i j))
        obtain ⟨q, rfl⟩ := hc'.finite
        exact (C20_open_end_succeeds_iff h' ob.symm oe.symm hNA).2 (.inl ⟨ks, j, _, hj, hc', usable_fin q⟩)
      · cases h0
  | true =>
    rw [hob] at ob
    cases hod : a.distanceOnly with
    | true => exact absurd hr (C24_open_begin_always_fails hob hod r)
    | false =>
      rw [hod] at od
      by_cases hh : p.hint = "N"
      · cases hoe : a.openEnd with
        | false =>
          rw [hoe] at oe
          obtain ⟨j0, ks, c, hp, _⟩ := (C22_open_begin_succeeds_iff h hob hoe hod hh).1 ⟨r, hr⟩
          obtain ⟨d, hd⟩ := hp.recost ℓ'
          exact (C22_open_begin_succeeds_iff h' ob.symm oe.symm od.symm hh).2 ⟨j0, ks, _, hd, usable_fin d⟩
        | true =>
          rw [hoe] at oe
          obtain ⟨j0, ks, j, c, hj, hp, _⟩ := (C22_open_both_succeeds_iff exact_idempotent h hob hoe hod hh).1 ⟨r, hr⟩
          obtain ⟨d, hd⟩ := hp.recost ℓ'
          exact (C22_open_both_succeeds_iff exact_idempotent h' ob.symm oe.symm od.symm hh).2
            ⟨j0, ks, j, _, hj, hd, usable_fin d⟩
      · rw [open_bad_hint h hob hh] at hr; cases hr

/-- **C62**, existence, all options: two calls with the same dimensions, window, pattern and options, and finite
local costs, either both return an alignment or both fail. -/
theorem C62_existence (h : Problem a n m (fun i j => fin (ℓ i j)) W p rs)
    (h' : Problem a' n m (fun i j => fin (ℓ' i j)) W p rs) (ho : SameOptions a a') :
    (∃ r, dtw Arith.exact a = .ok r) ↔ ∃ r', dtw Arith.exact a' = .ok r' :=
  ⟨fun ⟨_, hr⟩ => exists_imp h h' ho hr,
   fun ⟨_, hr⟩ => exists_imp h' h
    ⟨ho.openBegin.symm, ho.openEnd.symm, ho.distanceOnly.symm, ho.keepInternals.symm⟩ hr⟩

/-! ### Non-vacuity -/

/-- The local costs of `Ex.lat`, each moved by `1/4` or `-1/4`. -/
def Ex.lat' : Nat → Nat → ℚ := fun i j => Ex.lat i j + (if (i + j) % 2 = 0 then 1 / 4 else -1 / 4)

def Ex.latCall' (s : String) : Args := Ex.call 4 5 (fun i j => fin (Ex.lat' i j)) s

theorem Ex.lat_within : CloseBy (1 / 4) 4 5 Ex.lat Ex.lat' := by
  intro i _ j _
  unfold Ex.lat'
  rw [add_sub_cancel_left]
  split
  · rw [abs_of_nonneg (by norm_num)]
  · rw [abs_of_nonpos (by norm_num)]; norm_num

theorem Ex.lat_problem' (q : String × StepPattern) (hq : q ∈ Pat.table) :
    Problem (Ex.latCall' q.1) 4 5 (fun i j => fin (Ex.lat' i j)) (fun _ _ => true) q.2 (rulesOf q.2) :=
  bundled_problem (by decide) (by decide) (by decide) _ q hq

example : ∃ r r' d d', dtw Arith.exact (Ex.latCall "symmetric2") = .ok r ∧
    dtw Arith.exact (Ex.latCall' "symmetric2") = .ok r' ∧ r.distance = fin d ∧ r'.distance = fin d' ∧
    |d' - d| ≤ 2 ∧ d ≠ d' := by
  obtain ⟨r, hr⟩ := Ex.get_ok (x := dtw Arith.exact (Ex.latCall "symmetric2")) (by decide +kernel)
  obtain ⟨r', hr'⟩ := Ex.get_ok (x := dtw Arith.exact (Ex.latCall' "symmetric2")) (by decide +kernel)
  obtain ⟨d, d', h1, h2, h3⟩ := C62_bundled ("symmetric2", Pat.symmetric2) Ex.sym2_mem (Ex.lat_problem _ Ex.sym2_mem)
    (Ex.lat_problem' _ Ex.sym2_mem) rfl rfl rfl rfl (by decide) Ex.lat_within hr hr'
  refine ⟨r, r', d, d', hr, hr', h1, h2, ?_, ?_⟩
  · have e : (if Pat.symmetric2.hint = "N" then ((4 : ℕ) : ℚ) else if Pat.symmetric2.hint = "M" then 3 * ((5 : ℕ) : ℚ) - 2
        else ((4 : ℕ) : ℚ) + ((5 : ℕ) : ℚ) - 1) = 8 := by
      rw [if_neg (by decide), if_neg (by decide)]; norm_num
    simp only [e] at h3
    linarith
  · have hne : (dtw Arith.exact (Ex.latCall "symmetric2")).toOption.map (·.distance) ≠
        (dtw Arith.exact (Ex.latCall' "symmetric2")).toOption.map (·.distance) := by decide +kernel
    rw [hr, hr'] at hne
    simpa [Except.toOption, h1, h2] using hne

/-- Open begin and open end, asymmetric. -/
def Ex.latOpen : Args := { Ex.latCall "asymmetric" with openBegin := true, openEnd := true }

def Ex.latOpen' : Args := { Ex.latCall' "asymmetric" with openBegin := true, openEnd := true }

theorem Ex.latOpen_problem' : Problem Ex.latOpen' 4 5 (fun i j => fin (Ex.lat' i j)) (fun _ _ => true) Pat.asymmetric
    (rulesOf Pat.asymmetric) where
  n_pos := by decide
  m_pos := by decide
  cost := .matrix rfl rfl rfl rfl
  pattern := (Ex.lat_problem' _ Ex.asym_mem).pattern
  wf := table_wf _ Ex.asym_mem
  fits := table_fits (by decide) _ Ex.asym_mem
  window := .inl ⟨rfl, fun _ _ _ _ => rfl⟩

example : ∃ r r' d d', dtw Arith.exact Ex.latOpen = .ok r ∧ dtw Arith.exact Ex.latOpen' = .ok r' ∧
    r.distance = fin d ∧ r'.distance = fin d' ∧ |d' - d| ≤ 1 ∧ d ≠ d' := by
  obtain ⟨r, hr⟩ := Ex.get_ok (x := dtw Arith.exact Ex.latOpen) (by decide +kernel)
  obtain ⟨r', hr'⟩ := (C62_existence (Ex.latOpen_problem true) Ex.latOpen_problem' ⟨rfl, rfl, rfl, rfl⟩).1 ⟨r, hr⟩
  obtain ⟨d, d', h1, h2, h3, _⟩ := C62_open_begin (Ex.latOpen_problem true) Ex.latOpen_problem' rfl rfl rfl
    (by unfold PosWeights; decide +kernel) Ex.lat_within (by decide +kernel) hr hr'
  refine ⟨r, r', d, d', hr, hr', h1, h2, ?_, ?_⟩
  · push_cast at h3; linarith
  · have hne : (dtw Arith.exact Ex.latOpen).toOption.map (·.distance) ≠
        (dtw Arith.exact Ex.latOpen').toOption.map (·.distance) := by decide +kernel
    rw [hr, hr'] at hne
    simpa [Except.toOption, h1, h2] using hne

end DTW
