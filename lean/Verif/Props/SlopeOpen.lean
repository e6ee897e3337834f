import Verif.Props.Totality
import Verif.Props.OpenEnd

/-!
# C51, C74: which lengths can be aligned when the ends are open
-/

namespace DTW
open F64

variable {a : Args} {n m : Nat} {p : StepPattern} {rs : List Rule} {ℓ : Nat → Nat → ℚ} {lo hi : ℚ}

theorem RulePath.slopes (hs : ∀ q ∈ rs, lo * q.a ≤ q.b) {W : Nat → Nat → Bool} {ks : List Int} {i j : Nat} (h : RulePath rs W ks i j) :
    lo * i ≤ j := by
  induction h with
  | start => simp
  | @step ks i j k q _ hq _ ih =>
    have := hs q (List.mem_of_getElem? hq)
    push_cast
    linarith [this]

theorem OpenPath.slopes {A : Arith} {L : Nat → Nat → F64} (hs : ∀ q ∈ rs, lo * q.a ≤ q.b) {W : Nat → Nat → Bool} {j0 : Nat} {ks : List Int}
    {i j : Nat} {c : F64} (h : OpenPath A rs W L j0 ks i j c) : lo * i + j0 ≤ j := by
  induction h with
  | start => simp
  | @step ks i j c k q _ hq _ _ ih =>
    have := hs q (List.mem_of_getElem? hq)
    push_cast
    linarith [this]

theorem OpenPath.finite {W : Nat → Nat → Bool} {j0 : Nat} {ks : List Int} {i j : Nat} {c : F64}
    (h : OpenPath Arith.exact rs W (fun i j => fin (ℓ i j)) j0 ks i j c) : ∃ q, c = fin q := by
  induction h with
  | start => exact ⟨_, rfl⟩
  | @step ks i j c k q hp hq h0 hW ih =>
    obtain ⟨x, rfl⟩ := ih
    have := charge_exact (fun i' j' => if i' = 0 then 0 else ℓ (i' - 1) j') q (i + q.a) (j + q.b) x
    obtain ⟨y, hy⟩ := this
    refine ⟨y, hy ▸ ?_⟩
    congr 1
    funext i' j'
    split <;> rfl

/-- Where every rule consumes query elements, an alignment of the grid can start at any element of the reference. -/
theorem RulePath.toOpen {A : Arith} {L : Nat → Nat → F64} (ha : ∀ q ∈ rs, 0 < q.a) (j0 : Nat) {ks : List Int} {i j : Nat}
    (h : RulePath rs (fun _ _ => true) ks i j) : ∃ c, OpenPath A rs (fun _ _ => true) L j0 ks i (j0 + j) c := by
  induction h with
  | start => exact ⟨_, .start⟩
  | @step ks i j k q _ hq _ ih =>
    obtain ⟨c, hc⟩ := ih
    have := hc.step k q hq (by have := ha q (List.mem_of_getElem? hq); omega) rfl
    rw [Nat.add_assoc] at this
    exact ⟨_, this⟩

theorem SlopeFamily.pos (hs : SlopeFamily lo hi rs) (hv : ∀ q ∈ rs, q.Valid) : ∀ q ∈ rs, 0 < q.a := by
  intro q hq
  by_contra h0
  have h0 : q.a = 0 := by omega
  have hb := (hs.bounds q hq).2
  rw [h0] at hb
  have : q.b = 0 := by
    have h1 : (q.b : ℚ) ≤ 0 := by simpa using hb
    have h2 : q.b ≤ 0 := by exact_mod_cast h1
    omega
  have := (hv q hq).1
  omega

theorem SlopeFamily.range (hs : SlopeFamily lo hi rs) : 0 ≤ lo ∧ lo ≤ 1 ∧ 1 ≤ hi := by
  cases hs <;> norm_num

/-- No rule is flatter than `lo`, every rule consumes query elements, and `lo` is attained: `i` query elements can be matched with
`⌈lo i⌉` steps along the reference. -/
structure LeastSlope (lo : ℚ) (rs : List Rule) : Prop where
  lower : ∀ q ∈ rs, lo * q.a ≤ q.b
  pos : ∀ q ∈ rs, 0 < q.a
  reach : ∀ i : Nat, Reach rs (fun _ _ => true) i ⌈lo * i⌉₊

theorem SlopeFamily.least (hs : SlopeFamily lo hi rs) (hv : ∀ q ∈ rs, q.Valid) : LeastSlope lo rs := by
  refine ⟨fun q hq => (hs.bounds q hq).1, hs.pos hv, fun i => ?_⟩
  obtain ⟨h0, h1, h2⟩ := hs.range
  have hi0 : (0 : ℚ) ≤ i := Nat.cast_nonneg i
  refine hs.reach (Nat.le_ceil _) ?_
  have h3 : ⌈lo * i⌉₊ ≤ i := Nat.ceil_le.2 (by nlinarith)
  have h4 : ((⌈lo * i⌉₊ : ℕ) : ℚ) ≤ i := by exact_mod_cast h3
  nlinarith

theorem mvm_least {e : Nat} (he : 0 < e) : LeastSlope 1 (mvmRules e) := by
  refine ⟨fun q hq => (C51_mvm e q hq).1, fun q hq => ?_, fun i => ?_⟩
  · simp only [mvmRules, List.mem_map, List.mem_range] at hq
    obtain ⟨k, -, rfl⟩ := hq
    exact Nat.one_pos
  · have h11 : HasMove (mvmRules e) 1 1 := ⟨⟨1, 1, [⟨0, 0, 1⟩]⟩, List.mem_map.2 ⟨0, List.mem_range.2 he, rfl⟩, rfl, rfl⟩
    have e1 : ⌈(1 : ℚ) * (i : ℚ)⌉₊ = i := by rw [one_mul, Nat.ceil_natCast]
    rw [e1]
    exact reach_two (x := i) (y := 0) h11 h11 (by omega) (by omega)

/-- **C51** Open end, exact arithmetic, no window: an alignment exists exactly when the reference is long enough for the query
at the smallest slope, `lo (N-1) ≤ M-1`; there is no upper bound. -/
theorem C51_open_end_iff (hs : LeastSlope lo rs) (h : Problem a n m (fun i j => fin (ℓ i j)) (fun _ _ => true) p rs)
    (hob : a.openBegin = false) (hoe : a.openEnd = true) (hNA : p.hint ≠ "NA") :
    (∃ r, dtw Arith.exact a = .ok r) ↔ lo * ((n : ℚ) - 1) ≤ (m : ℚ) - 1 := by
  have hn := h.n_pos
  have hm := h.m_pos
  have en : ((n - 1 : ℕ) : ℚ) = (n : ℚ) - 1 := by rw [Nat.cast_sub hn]; simp
  have em : ((m - 1 : ℕ) : ℚ) = (m : ℚ) - 1 := by rw [Nat.cast_sub hm]; simp
  rw [C20_open_end_succeeds_iff h hob hoe hNA, ← en, ← em]
  constructor
  · rintro (⟨ks, j, c, hj, hp, -⟩ | ⟨-, hc⟩)
    · refine (hp.toRulePath.slopes hs.lower).trans ?_
      exact_mod_cast (by omega : j ≤ m - 1)
    · simp at hc
  · intro hle
    obtain ⟨ks, hp⟩ := hs.reach (n - 1)
    obtain ⟨c, hc⟩ := hp.toWarpPath (A := Arith.exact) (L := fun i j => fin (ℓ i j))
    obtain ⟨x, rfl⟩ := hc.finite
    have : ⌈lo * (n - 1 : ℕ)⌉₊ ≤ m - 1 := Nat.ceil_le.2 hle
    exact .inl ⟨ks, _, _, by omega, hc, usable_fin x⟩

/-- **C51** Open begin, exact arithmetic, no window, whether the end is open or not: an alignment exists exactly when
`lo N ≤ M-1`.  (One query element more than with a closed beginning: the first step starts before the query.) -/
theorem C51_open_begin_iff (hs : LeastSlope lo rs) (h : Problem a n m (fun i j => fin (ℓ i j)) (fun _ _ => true) p rs)
    (hob : a.openBegin = true) (hdo : a.distanceOnly = false) (hN : p.hint = "N") :
    (∃ r, dtw Arith.exact a = .ok r) ↔ lo * (n : ℚ) ≤ (m : ℚ) - 1 := by
  have hn := h.n_pos
  have hm := h.m_pos
  have em : ((m - 1 : ℕ) : ℚ) = (m : ℚ) - 1 := by rw [Nat.cast_sub hm]; simp
  have need : ∀ {j0 : Nat} {ks : List Int} {j : Nat} {c : F64},
      OpenPath Arith.exact rs (fun _ _ => true) (fun i j => fin (ℓ i j)) j0 ks n j c → j < m → lo * (n : ℚ) ≤ (m - 1 : ℕ) := by
    intro j0 ks j c hp hj
    have h1 := hp.slopes hs.lower
    have h2 : (j : ℚ) ≤ (m - 1 : ℕ) := by exact_mod_cast (by omega : j ≤ m - 1)
    have h3 : (0 : ℚ) ≤ j0 := Nat.cast_nonneg j0
    linarith
  have make : lo * (n : ℚ) ≤ (m - 1 : ℕ) → ∃ j0 ks c,
      OpenPath Arith.exact rs (fun _ _ => true) (fun i j => fin (ℓ i j)) j0 ks n (m - 1) c ∧ usable c := by
    intro hle
    have h1 : ⌈lo * (n : ℕ)⌉₊ ≤ m - 1 := Nat.ceil_le.2 hle
    obtain ⟨ks, hp⟩ := hs.reach n
    obtain ⟨c, hc⟩ := hp.toOpen (A := Arith.exact) (L := fun i j => fin (ℓ i j)) hs.pos (m - 1 - ⌈lo * (n : ℕ)⌉₊)
    obtain ⟨x, rfl⟩ := hc.finite
    rw [Nat.sub_add_cancel h1] at hc
    exact ⟨_, ks, _, hc, usable_fin x⟩
  rw [← em]
  cases hoe : a.openEnd with
  | false =>
    rw [C22_open_begin_succeeds_iff h hob hoe hdo hN]
    exact ⟨fun ⟨_, _, _, hp, _⟩ => need hp (by omega), make⟩
  | true =>
    rw [C22_open_both_succeeds_iff exact_idempotent h hob hoe hdo hN]
    exact ⟨fun ⟨_, _, _, _, hj, hp, _⟩ => need hp hj, fun hle => by
      obtain ⟨j0, ks, c, h1, h2⟩ := make hle
      exact ⟨j0, ks, m - 1, c, by omega, h1, h2⟩⟩

/-- **C51** The patterns that may stay at one element of the reference (`symmetric1`, `symmetric2`, … and `asymmetric`) align series of
any lengths as soon as one end is open. -/
theorem C51_open_unrestricted (h10 : HasMove rs 1 0) (h : Problem a n m (fun i j => fin (ℓ i j)) (fun _ _ => true) p rs)
    (ho : a.openBegin = true ∧ a.distanceOnly = false ∧ p.hint = "N" ∨
      a.openBegin = false ∧ a.openEnd = true ∧ p.hint ≠ "NA") : ∃ r, dtw Arith.exact a = .ok r := by
  have hn := h.n_pos
  have hm := h.m_pos
  rcases ho with ⟨hob, hdo, hN⟩ | ⟨hob, hoe, hNA⟩
  · have hp : ∀ i, ∃ ks c, OpenPath Arith.exact rs (fun _ _ => true) (fun i j => fin (ℓ i j)) (m - 1) ks i (m - 1) c := by
      intro i
      induction i with
      | zero => exact ⟨[], _, .start⟩
      | succ i ih =>
        obtain ⟨ks, c, hp⟩ := ih
        obtain ⟨q, hq, ha, hb⟩ := h10
        obtain ⟨k, hk⟩ := List.getElem?_of_mem hq
        have := hp.step k q hk (by omega) rfl
        rw [ha, hb] at this
        exact ⟨_, _, this⟩
    obtain ⟨ks, c, hp⟩ := hp n
    obtain ⟨x, rfl⟩ := hp.finite
    cases hoe : a.openEnd with
    | false => exact (C22_open_begin_succeeds_iff h hob hoe hdo hN).2 ⟨_, _, _, hp, usable_fin x⟩
    | true => exact (C22_open_both_succeeds_iff exact_idempotent h hob hoe hdo hN).2 ⟨_, _, _, _, by omega, hp, usable_fin x⟩
  · rw [C20_open_end_succeeds_iff h hob hoe hNA]
    obtain ⟨ks, hp⟩ : Reach rs (fun _ _ => true) (n - 1) 0 := reach_two (x := n - 1) (y := 0) h10 h10 (by omega) (by omega)
    obtain ⟨c, hc⟩ := hp.toWarpPath (A := Arith.exact) (L := fun i j => fin (ℓ i j))
    obtain ⟨x, rfl⟩ := hc.finite
    exact .inl ⟨ks, _, _, by omega, hc, usable_fin x⟩

/-- **C74** In doubles, the same criteria: open end. -/
theorem C74_open_end (f : Bool) (hs : LeastSlope lo rs) (h : Problem a n m (fun i j => fin (ℓ i j)) (fun _ _ => true) p rs)
    (ht : BoundedData n m ℓ rs) (hob : a.openBegin = false) (hoe : a.openEnd = true) (hNA : p.hint ≠ "NA") :
    (∃ r, dtw (binary64 f) a = .ok r) ↔ lo * ((n : ℚ) - 1) ≤ (m : ℚ) - 1 := by
  rw [C74_success f h h (same_options a) ht, C51_open_end_iff hs h hob hoe hNA]

/-- **C74** In doubles: open begin. -/
theorem C74_open_begin (f : Bool) (hs : LeastSlope lo rs) (h : Problem a n m (fun i j => fin (ℓ i j)) (fun _ _ => true) p rs)
    (ht : BoundedData n m ℓ rs) (hob : a.openBegin = true) (hdo : a.distanceOnly = false) (hN : p.hint = "N") :
    (∃ r, dtw (binary64 f) a = .ok r) ↔ lo * (n : ℚ) ≤ (m : ℚ) - 1 := by
  rw [C74_success f h h (same_options a) ht, C51_open_begin_iff hs h hob hdo hN]

/-- **C74** In doubles: the patterns that may stay at one element of the reference. -/
theorem C74_open_unrestricted (f : Bool) (h10 : HasMove rs 1 0) (h : Problem a n m (fun i j => fin (ℓ i j)) (fun _ _ => true) p rs)
    (ht : BoundedData n m ℓ rs) (ho : a.openBegin = true ∧ a.distanceOnly = false ∧ p.hint = "N" ∨
      a.openBegin = false ∧ a.openEnd = true ∧ p.hint ≠ "NA") : ∃ r, dtw (binary64 f) a = .ok r := by
  rw [C74_success f h h (same_options a) ht]
  exact C51_open_unrestricted h10 h ho

theorem bounded_mvm (e : Nat) (h1 : ∀ i < n, ∀ j < m, IsDouble (ℓ i j)) (h2 : ∀ i < n, ∀ j < m, |ℓ i j| ≤ 2 ^ (900 : ℤ)) :
    BoundedData n m ℓ (mvmRules e) := by
  refine ⟨h1, h2, fun q hq t ht => ?_, fun q hq => ?_⟩ <;> simp only [mvmRules, List.mem_map, List.mem_range] at hq <;>
    obtain ⟨k, -, rfl⟩ := hq
  · simp only [List.mem_singleton] at ht
    subst ht
    norm_num
  · simp

/-- **C74** Minimum variance matching in doubles, closed ends: exactly when `N-1 ≤ M-1 ≤ e (N-1)`. -/
theorem C74_mvm (f : Bool) {e : Nat}
    (h : Problem a n m (fun i j => fin (ℓ i j)) (fun _ _ => true) (mvmStepPattern e) (mvmRules e))
    (h1 : ∀ i < n, ∀ j < m, IsDouble (ℓ i j)) (h2 : ∀ i < n, ∀ j < m, |ℓ i j| ≤ 2 ^ (900 : ℤ))
    (hob : a.openBegin = false) (hoe : a.openEnd = false) :
    (∃ r, dtw (binary64 f) a = .ok r) ↔ n - 1 ≤ m - 1 ∧ m - 1 ≤ e * (n - 1) := by
  rw [C74_success f h h (same_options a) (bounded_mvm e h1 h2), C51_mvm_exists_iff h hob hoe]

/-- **C51** Minimum variance matching of elasticity `e ≥ 1` with open ends: `N ≤ M` if only the end is open, `N < M` if the
beginning is. -/
theorem C51_mvm_open {e : Nat} (he : 0 < e)
    (h : Problem a n m (fun i j => fin (ℓ i j)) (fun _ _ => true) (mvmStepPattern e) (mvmRules e)) :
    (a.openBegin = false → a.openEnd = true → ((∃ r, dtw Arith.exact a = .ok r) ↔ n ≤ m)) ∧
    (a.openBegin = true → a.distanceOnly = false → ((∃ r, dtw Arith.exact a = .ok r) ↔ n < m)) := by
  have hh : (mvmStepPattern e).hint = "N" := rfl
  refine ⟨fun hob hoe => ?_, fun hob hdo => ?_⟩
  · rw [C51_open_end_iff (mvm_least he) h hob hoe (by rw [hh]; decide), one_mul, sub_le_sub_iff_right]
    exact Nat.cast_le
  · rw [C51_open_begin_iff (mvm_least he) h hob hdo hh, one_mul, le_sub_iff_add_le]
    constructor
    · intro hx
      have : n + 1 ≤ m := by exact_mod_cast hx
      omega
    · intro hx
      exact_mod_cast (by omega : n + 1 ≤ m)

/-! ### Non-vacuity -/

theorem asymmetricP1_least : LeastSlope (1 / 2) (rulesOf Pat.asymmetricP1) :=
  ((C51_bundled ("asymmetricP1", Pat.asymmetricP1) (by decide +kernel)).2.1 (by simp)).least (by decide +kernel)

/-- A call with three query and `k` reference elements, all costs one, `asymmetricP1`, open end. -/
def Ex.short (k : Nat) (ob : Bool) : Args :=
  { x := .d2 (Mat.ofFn 3 k fun _ _ => fin 1), stepPattern := .name "asymmetricP1", openEnd := true, openBegin := ob }

theorem Ex.short_problem {k : Nat} (hk : 0 < k) (hk' : k < 1000) (ob : Bool) :
    Problem (Ex.short k ob) 3 k (fun _ _ => fin 1) (fun _ _ => true) Pat.asymmetricP1
      (rulesOf Pat.asymmetricP1) where
  n_pos := by norm_num
  m_pos := hk
  cost := .matrix rfl rfl rfl rfl
  pattern := rfl
  wf := table_wf ("asymmetricP1", Pat.asymmetricP1) (by decide +kernel)
  fits := table_fits (by unfold gridRows; split <;> omega) ("asymmetricP1", Pat.asymmetricP1) (by decide +kernel)
  window := .inl ⟨rfl, fun _ _ _ _ => rfl⟩

theorem Ex.short_bounded (k : Nat) : BoundedData 3 k (fun _ _ => 1) (rulesOf Pat.asymmetricP1) :=
  bounded_bundled (q := ("asymmetricP1", Pat.asymmetricP1)) (by decide +kernel)
    (fun _ _ _ _ => by have := isDouble_int (z := 1) (by norm_num); simpa using this)
    fun _ _ _ _ => by rw [abs_one]; exact one_le_zpow₀ (by norm_num) (by norm_num)

/-- With `asymmetricP1`, three query elements and two reference elements can be aligned with an open end, but not if the beginning
is open as well: relaxing the constraint makes the call fail.  With three reference elements both succeed. -/
example (f : Bool) :
    (∃ r, dtw (binary64 f) (Ex.short 2 false) = .ok r) ∧ (¬ ∃ r, dtw (binary64 f) (Ex.short 2 true) = .ok r) ∧
    (∃ r, dtw (binary64 f) (Ex.short 3 false) = .ok r) ∧ ∃ r, dtw (binary64 f) (Ex.short 3 true) = .ok r := by
  have e : ∀ k, 0 < k → k < 1000 → ((∃ r, dtw (binary64 f) (Ex.short k false) = .ok r) ↔ (1 / 2 : ℚ) * ((3 : ℕ) - 1) ≤ (k : ℚ) - 1) :=
    fun k h1 h2 => C74_open_end f asymmetricP1_least (Ex.short_problem h1 h2 false) (Ex.short_bounded k) rfl rfl (by decide +kernel)
  have b : ∀ k, 0 < k → k < 1000 → ((∃ r, dtw (binary64 f) (Ex.short k true) = .ok r) ↔ (1 / 2 : ℚ) * (3 : ℕ) ≤ (k : ℚ) - 1) :=
    fun k h1 h2 => C74_open_begin f asymmetricP1_least (Ex.short_problem h1 h2 true) (Ex.short_bounded k) rfl rfl rfl
  rw [e 2 (by norm_num) (by norm_num), e 3 (by norm_num) (by norm_num), b 2 (by norm_num) (by norm_num),
    b 3 (by norm_num) (by norm_num)]
  norm_num

end DTW
