import Verif.Props.Completions
import Verif.Props.Invariance
import Verif.Props.Search
import Verif.Props.Substructure

/-!
# C54, C55 in machine arithmetic: zero distances, pruning bounds
-/

namespace DTW
open F64

variable {A : Arith} {a a' : Args} {n m : Nat} {ℓ : Nat → Nat → ℚ} {W : Nat → Nat → Bool}
  {p : StepPattern} {rs : List Rule} {r : Result}

/-- The sum `b 0 + b 1 + … + b k`, accumulated from left to right in the arithmetic `A`. -/
def runningSum (A : Arith) (b : Nat → ℚ) : Nat → F64
  | 0 => fin (b 0)
  | k + 1 => A.add (runningSum A b k) (fin (b (k + 1)))

/-- Every rule takes at most one query element and charges only the cell it arrives at: at least once if it takes a query
element, a non-negative number of times otherwise; the arithmetic represents the weights. -/
def ChargesArrival (A : Arith) (rs : List Rule) : Prop :=
  ∀ q ∈ rs, q.a ≤ 1 ∧ ∃ w : ℚ, q.terms = [⟨0, 0, w⟩] ∧ 0 ≤ w ∧ (q.a = 1 → 1 ≤ w) ∧ A.rnd w = fin w

theorem rnd_le {x y : ℚ} (h : x ≤ y) : F64.le (A.rnd x) (A.rnd y) := ⟨A.rnd_ne_nan _, A.rnd_ne_nan _, A.rnd_mono _ _ h⟩

theorem le_pinf {v : F64} (h : v ≠ nan) : F64.le v pinf := ⟨h, by simp, by cases v <;> simp [F64.lt]⟩

/-- Accumulating at least `b` onto at least `s` gives at least `s + b`, all rounded. -/
theorem mac_ge_add {s c : F64} {w l b : ℚ} (hs : F64.le (fin 0) s) (hsc : F64.le s c) (h0 : 0 ≤ b) (hb : b ≤ w * l)
    (hbr : A.rnd b = fin b) : F64.le (A.add s (fin b)) (A.mac c (fin w) (fin l)) := by
  have hadd : A.add s (fin b) ≠ nan := by
    rcases nonneg_cases hs with rfl | ⟨y, rfl, _⟩
    · simp [Arith.add]
    · exact A.rnd_ne_nan _
  have hprod : ∀ x : F64, (x = fin (w * l) ∨ x = A.rnd (w * l)) → F64.le (A.add s (fin b)) (A.add c x) := by
    intro x hx
    have hx' : F64.le (fin b) x := by
      rcases hx with rfl | rfl
      · exact (F64.le_fin _ _).2 hb
      · rw [← hbr]; exact rnd_le hb
    have hx0 : F64.le (fin 0) x := F64.le_trans ((F64.le_fin _ _).2 h0) hx'
    rcases nonneg_cases (F64.le_trans hs hsc) with rfl | ⟨y, rfl, hy⟩
    · rcases nonneg_cases hx0 with rfl | ⟨v, rfl, _⟩ <;> exact le_pinf hadd
    · rcases nonneg_cases hx0 with rfl | ⟨v, rfl, _⟩
      · exact le_pinf hadd
      · rcases nonneg_cases hs with rfl | ⟨t, rfl, _⟩
        · simp [F64.le, F64.lt] at hsc
        · have h1 := (F64.le_fin _ _).1 hsc
          have h2 := (F64.le_fin _ _).1 hx'
          exact rnd_le (by linarith)
  unfold Arith.mac
  split
  · exact hprod _ (.inl rfl)
  · exact hprod _ (.inr rfl)

theorem add_zero_self {c : F64} (hc : Representable A c) : A.add c (fin 0) = c := by
  cases c with
  | fin q => simpa [Arith.add] using hc q rfl
  | _ => rfl

theorem mac_ge_self {c : F64} {w l : ℚ} (hc : Representable A c) (h0 : F64.le (fin 0) c) (hw : 0 ≤ w) (hl : 0 ≤ l) :
    F64.le c (A.mac c (fin w) (fin l)) := by
  have := mac_ge_add (A := A) h0 (F64.le_refl h0.2.1) (le_refl 0) (mul_nonneg hw hl) A.rnd_zero
  rwa [add_zero_self hc] at this

theorem representable_mac (hA : Idempotent A) {c w l : F64} : Representable A (A.mac c w l) := by
  unfold Arith.mac
  generalize (if A.fused then Arith.mulWith fin w l else A.mul w l) = x
  intro q hq
  cases c <;> cases x <;> simp only [Arith.add, reduceCtorEq] at hq
  exact hA _ _ hq

theorem charge_arrival (L : Nat → Nat → F64) {q : Rule} {w : ℚ} (hr : q.terms = [⟨0, 0, w⟩]) (hw : A.rnd w = fin w) (i j : Nat)
    (c : F64) : charge A L q i j c = A.mac c (fin w) (L i j) := by
  simp [charge, hr, hw]

theorem runningSum_nonneg {b : Nat → ℚ} {k : Nat} (hb : ∀ i ≤ k, 0 ≤ b i) : F64.le (fin 0) (runningSum A b k) := by
  induction k with
  | zero => exact (F64.le_fin _ _).2 (hb 0 (Nat.le_refl 0))
  | succ k ih =>
    have h1 := ih fun i hi => hb i (by omega)
    have h2 := hb (k + 1) (Nat.le_refl _)
    unfold runningSum
    rcases nonneg_cases h1 with e | ⟨y, e, hy⟩
    · rw [e]; exact le_pinf (by simp)
    · rw [e]
      show F64.le (fin 0) (A.rnd (y + b (k + 1)))
      rw [← A.rnd_zero]
      exact rnd_le (by linarith)

theorem WarpPath.rowBound (hA : Idempotent A) (hC : ChargesArrival A rs) {b : Nat → ℚ}
    (hl : ∀ i < n, ∀ j < m, 0 ≤ ℓ i j ∧ A.rnd (ℓ i j) = fin (ℓ i j)) (hb : ∀ i < n, 0 ≤ b i ∧ A.rnd (b i) = fin (b i))
    (hlb : ∀ i < n, ∀ j < m, W i j = true ∨ (i = 0 ∧ j = 0) → b i ≤ ℓ i j) {ks : List Int} {i j : Nat} {c : F64}
    (h : WarpPath A rs W (fun i j => fin (ℓ i j)) ks i j c) : i < n → j < m →
    Representable A c ∧ F64.le (runningSum A b i) c := by
  induction h with
  | start =>
    intro hi hj
    refine ⟨?_, ?_⟩
    · intro q hq
      cases hq
      exact (hl 0 hi 0 hj).2
    · exact (F64.le_fin _ _).2 (hlb 0 hi 0 hj (.inr ⟨rfl, rfl⟩))
  | @step ks i j c k q hp hq hW ih =>
    intro hi hj
    obtain ⟨ha, w, ht, h0, h1, hw⟩ := hC q (List.mem_of_getElem? hq)
    obtain ⟨hrep, hle⟩ := ih (by omega) (by omega)
    rw [charge_arrival _ ht hw]
    refine ⟨representable_mac hA, ?_⟩
    have hs := runningSum_nonneg (A := A) (b := b) (k := i) fun t ht => (hb t (by omega)).1
    have hc0 := F64.le_trans hs hle
    have hll := hl _ hi _ hj
    rcases Nat.lt_or_ge 0 q.a with hpos | hz
    · have e : q.a = 1 := by omega
      rw [e] at hi hW hll ⊢
      have hbb := hb (i + 1) hi
      refine mac_ge_add hs hle hbb.1 ?_ hbb.2
      exact (hlb _ hi _ hj (.inl hW)).trans (le_mul_of_one_le_left hll.1 (h1 e))
    · have e : q.a = 0 := by omega
      rw [e] at hll ⊢
      exact F64.le_trans hle (mac_ge_self hrep hc0 h0 hll.1)

/-- **C55** (the pruning bound in machine arithmetic).  Non-negative representable local costs, a pattern that charges the cell
it arrives at, closed begin, open or closed end, any window.  If `b i` is a representable non-negative lower bound of the
local costs of row `i` inside the window (and of the starting cell), the distance reported is at least the sum
`b 0 + … + b (n-1)` accumulated from left to right *in the same arithmetic*: rounding cannot make the bound exceed the distance. -/
theorem C55_row_bound_rounded (hA : Idempotent A) (hC : ChargesArrival A rs) (h : Problem a n m (fun i j => fin (ℓ i j)) W p rs)
    (hob : a.openBegin = false) {b : Nat → ℚ}
    (hl : ∀ i < n, ∀ j < m, 0 ≤ ℓ i j ∧ A.rnd (ℓ i j) = fin (ℓ i j)) (hb : ∀ i < n, 0 ≤ b i ∧ A.rnd (b i) = fin (b i))
    (hlb : ∀ i < n, ∀ j < m, W i j = true ∨ (i = 0 ∧ j = 0) → b i ≤ ℓ i j) (hr : dtw A a = .ok r) :
    F64.le (runningSum A b (n - 1)) r.distance := by
  have hn := h.n_pos
  obtain ⟨G, D, qr, hB, _, hd⟩ := dtw_closed A h hob
  obtain ⟨j, ks, hrun⟩ := closed_ok h hob hB hd hr
  have hdist : r.distance = G (n - 1) j := by rw [hrun.result]; rfl
  rw [hdist]
  exact (hrun.path.rowBound hA hC hl hb hlb (by omega) hrun.endAt.lt).2

theorem OpenPath.rowBound (hA : Idempotent A) (hC : ChargesArrival A rs) {b : Nat → ℚ}
    (hl : ∀ i < n, ∀ j < m, 0 ≤ ℓ i j ∧ A.rnd (ℓ i j) = fin (ℓ i j)) (hb : ∀ i < n, 0 ≤ b i ∧ A.rnd (b i) = fin (b i))
    (hlb : ∀ i < n, ∀ j < m, W (i + 1) j = true → b i ≤ ℓ i j) {j0 : Nat} {ks : List Int} {i j : Nat} {c : F64}
    (h : OpenPath A rs W (fun i j => fin (ℓ i j)) j0 ks i j c) : i ≤ n → j < m →
    Representable A c ∧ F64.le (fin 0) c ∧ (i = 0 → c = fin 0) ∧ ∀ k, i = k + 1 → F64.le (runningSum A b k) c := by
  induction h with
  | start =>
    intro _ _
    refine ⟨?_, by simp, fun _ => rfl, by omega⟩
    intro q hq
    cases hq
    exact A.rnd_zero
  | @step ks i j c k q hp hq h0i hW ih =>
    intro hi hj
    obtain ⟨ha, w, ht, h0, h1, hw⟩ := hC q (List.mem_of_getElem? hq)
    obtain ⟨hrep, hc0, hz, hle⟩ := ih (by omega) (by omega)
    obtain ⟨t, hti⟩ : ∃ t, i + q.a = t + 1 := ⟨i + q.a - 1, by omega⟩
    have hll := hl t (by omega) _ hj
    have hcell : (if i + q.a = 0 then fin 0 else fin (ℓ (i + q.a - 1) (j + q.b))) = fin (ℓ t (j + q.b)) := by
      simp [hti]
    have hch := charge_arrival (A := A) (fun i' j' => if i' = 0 then fin 0 else fin (ℓ (i' - 1) j')) ht hw (i + q.a) (j + q.b) c
    simp only [hcell] at hch
    have hself := mac_ge_self hrep hc0 h0 hll.1
    have goal : Representable A (A.mac c (fin w) (fin (ℓ t (j + q.b)))) ∧
        F64.le (fin 0) (A.mac c (fin w) (fin (ℓ t (j + q.b)))) ∧
        (i + q.a = 0 → A.mac c (fin w) (fin (ℓ t (j + q.b))) = fin 0) ∧
        ∀ k, i + q.a = k + 1 → F64.le (runningSum A b k) (A.mac c (fin w) (fin (ℓ t (j + q.b)))) := by
      refine ⟨representable_mac hA, F64.le_trans hc0 hself, by omega, ?_⟩
      intro k hk
      obtain rfl : k = t := by omega
      rcases Nat.lt_or_ge 0 q.a with hpos | hzero
      · have e : q.a = 1 := by omega
        have hbb := hb k (by omega)
        have hbl : b k ≤ w * ℓ k (j + q.b) :=
          (hlb k (by omega) _ hj (by rw [← hti]; exact hW)).trans (le_mul_of_one_le_left hll.1 (h1 e))
        cases k with
        | zero =>
          have hi0 : i = 0 := by omega
          rw [hz hi0]
          have := mac_ge_add (A := A) (F64.le_refl (by simp : fin 0 ≠ nan)) (F64.le_refl (by simp : fin 0 ≠ nan)) hbb.1 hbl hbb.2
          have e0 : A.add (fin 0) (fin (b 0)) = fin (b 0) := by simpa [Arith.add] using hbb.2
          rwa [e0] at this
        | succ k =>
          exact mac_ge_add (runningSum_nonneg fun t ht => (hb t (by omega)).1) (hle k (by omega)) hbb.1 hbl hbb.2
      · exact F64.le_trans (hle k (by omega)) hself
    rw [hch]; exact goal

/-- **C55** (open begin, machine arithmetic): the same when searching, with the window looked up one row below. -/
theorem C55_open_begin_rounded (hA : Idempotent A) (hC : ChargesArrival A rs) (h : Problem a n m (fun i j => fin (ℓ i j)) W p rs)
    (hob : a.openBegin = true) {b : Nat → ℚ}
    (hl : ∀ i < n, ∀ j < m, 0 ≤ ℓ i j ∧ A.rnd (ℓ i j) = fin (ℓ i j)) (hb : ∀ i < n, 0 ≤ b i ∧ A.rnd (b i) = fin (b i))
    (hlb : ∀ i < n, ∀ j < m, W (i + 1) j = true → b i ≤ ℓ i j) (hr : dtw A a = .ok r) :
    F64.le (runningSum A b (n - 1)) r.distance := by
  have hn := h.n_pos
  obtain ⟨mp, j, j0, _, _, hj, _, hp, _⟩ := C22_open_begin_optimal h hob hr
  exact (hp.rowBound hA hC hl hb hlb (Nat.le_refl n) hj).2.2.2 (n - 1) (by omega)

/-- **C55**: the patterns the bounds apply to, in doubles. -/
theorem C55_charges_arrival (f : Bool) :
    (∀ x ∈ Pat.table, x.1 ∈ ["symmetric1", "symmetric2", "symmetricP0", "asymmetric", "asymmetricP0", "rigid"] →
      ChargesArrival (binary64 f) (rulesOf x.2)) ∧ ∀ e, ChargesArrival (binary64 f) (mvmRules e) := by
  have key : (Pat.table.all fun x =>
      decide (x.1 ∉ ["symmetric1", "symmetric2", "symmetricP0", "asymmetric", "asymmetricP0", "rigid"]) ||
      (rulesOf x.2).all fun q => decide (q.a ≤ 1) && decide (∃ w ∈ List.range 3, q.terms = [⟨0, 0, (w : ℚ)⟩] ∧ (q.a = 1 → 1 ≤ w))) =
        true := by decide +kernel
  refine ⟨?_, ?_⟩
  · intro x hx hs q hq
    have h1 := List.all_eq_true.1 key x hx
    rw [Bool.or_eq_true, decide_eq_true_eq] at h1
    have h2 := List.all_eq_true.1 (h1.resolve_left (fun hc => hc hs)) q hq
    rw [Bool.and_eq_true, decide_eq_true_eq, decide_eq_true_eq] at h2
    obtain ⟨ha, w, hw, ht, hw1⟩ := h2
    have := List.mem_range.1 hw
    refine ⟨ha, w, ht, by positivity, fun e => by exact_mod_cast hw1 e, ?_⟩
    exact C50_binary64_integers f w (by omega)
  · intro e q hq
    simp only [mvmRules, List.mem_map, List.mem_range] at hq
    obtain ⟨k, hk, rfl⟩ := hq
    exact ⟨by simp, 1, rfl, by norm_num, fun _ => le_refl _, double_one f⟩

/-- **C55** in doubles, for the named patterns: a bound accumulated in doubles may be compared with a threshold instead of the
distance; if the bound exceeds it, so does the distance (whatever the ends). -/
theorem C55_pruning_is_safe (f : Bool) (hC : ChargesArrival (binary64 f) rs) (h : Problem a n m (fun i j => fin (ℓ i j)) W p rs)
    {b : Nat → ℚ} (hl : ∀ i < n, ∀ j < m, 0 ≤ ℓ i j ∧ IsDouble (ℓ i j)) (hb : ∀ i < n, 0 ≤ b i ∧ IsDouble (b i))
    (hlb : ∀ i < n, ∀ j < m, b i ≤ ℓ i j) {best : F64} (hbest : F64.lt best (runningSum (binary64 f) b (n - 1)) = true)
    (hr : dtw (binary64 f) a = .ok r) : F64.lt best r.distance = true := by
  have hl' : ∀ i < n, ∀ j < m, 0 ≤ ℓ i j ∧ (binary64 f).rnd (ℓ i j) = fin (ℓ i j) :=
    fun i hi j hj => ⟨(hl i hi j hj).1, rnd64_double (hl i hi j hj).2⟩
  have hb' : ∀ i < n, 0 ≤ b i ∧ (binary64 f).rnd (b i) = fin (b i) :=
    fun i hi => ⟨(hb i hi).1, rnd64_double (hb i hi).2⟩
  refine F64.lt_of_lt_of_le hbest ?_
  cases hob : a.openBegin with
  | false => exact C55_row_bound_rounded (C20_C22_double_idempotent f) hC h hob hl' hb' (fun i hi j hj _ => hlb i hi j hj) hr
  | true => exact C55_open_begin_rounded (C20_C22_double_idempotent f) hC h hob hl' hb' (fun i hi j hj _ => hlb i hi j hj) hr

/-- **C55** (upper bound in machine arithmetic).  Equal lengths, `symmetric1`: the distance is at most the lock-step sum along
the diagonal accumulated from left to right in the same arithmetic. -/
theorem C55_diagonal_bound_rounded (h1 : A.rnd 1 = fin 1)
    (h : Problem a n n (fun i j => fin (ℓ i j)) W Pat.symmetric1 (rulesOf Pat.symmetric1))
    (hob : a.openBegin = false) (hoe : a.openEnd = false) (hW : ∀ i < n, W i i = true)
    (hl : ∀ i < n, 0 ≤ ℓ i i ∧ A.rnd (ℓ i i) = fin (ℓ i i)) (hr : dtw A a = .ok r) :
    F64.le r.distance (runningSum A (fun i => ℓ i i) (n - 1)) := by
  have hn := h.n_pos
  obtain ⟨k, hk⟩ : ∃ k : Nat, (rulesOf Pat.symmetric1)[k]? = some ⟨1, 1, [⟨0, 0, 1⟩]⟩ :=
    List.getElem?_of_mem (by decide +kernel)
  have hnn : ∀ i < n, F64.le (fin 0) (runningSum A (fun i => ℓ i i) i) := fun i hi =>
    runningSum_nonneg fun t ht => (hl t (by omega)).1
  have hp : ∀ i < n, ∃ ks, WarpPath A (rulesOf Pat.symmetric1) W (fun i j => fin (ℓ i j)) ks i i
      (runningSum A (fun i => ℓ i i) i) := by
    intro i
    induction i with
    | zero => intro _; exact ⟨_, .start⟩
    | succ i ih =>
      intro hi
      obtain ⟨ks, hks⟩ := ih (by omega)
      have := WarpPath.step k _ hks hk (hW _ hi)
      rw [charge_arrival _ rfl h1] at this
      have e : A.mac (runningSum A (fun i => ℓ i i) i) (fin 1) (fin (ℓ (i + 1) (i + 1))) = runningSum A (fun i => ℓ i i) (i + 1) := by
        have hr := (hl (i + 1) hi).2
        unfold Arith.mac
        conv_rhs => unfold runningSum
        split <;> simp [Arith.mul, Arith.mulWith, hr]
      rw [← e]
      exact ⟨_, this⟩
  obtain ⟨ks, hks⟩ := hp (n - 1) (by omega)
  exact (C01_distance_optimal h hob hoe hr).2 ks _ hks (hnn _ (by omega)).2.1

/-! ### Zero distances -/

theorem WarpPath.zeroCurve (hA : Idempotent A) {wt : Move → ℚ} (hE : Elementary rs wt)
    (hwt : ∀ x, 1 ≤ wt x ∧ A.rnd (wt x) = fin (wt x))
    (hl : ∀ i < n, ∀ j < m, 0 ≤ ℓ i j ∧ A.rnd (ℓ i j) = fin (ℓ i j)) {ks : List Int} {i j : Nat} {c : F64}
    (h : WarpPath A rs W (fun i j => fin (ℓ i j)) ks i j c) : i < n → j < m →
    Representable A c ∧ F64.le (fin 0) c ∧ (c = fin 0 → ∃ w, IsCurve W w i j ∧ ∀ u ∈ visited (0, 0) w, ℓ u.1 u.2 = 0) := by
  induction h with
  | start =>
    intro hi hj
    refine ⟨?_, (F64.le_fin _ _).2 (hl 0 hi 0 hj).1, ?_⟩
    · intro q hq
      cases hq
      exact (hl 0 hi 0 hj).2
    · intro h0
      refine ⟨[], ⟨rfl, by simp [visited]⟩, ?_⟩
      intro u hu
      have : u = (0, 0) := by simpa [visited] using hu
      subst this
      simpa using h0
  | @step ks i j c k q hp hq hW ih =>
    intro hi hj
    obtain ⟨x, hx⟩ := hE.rule q (List.mem_of_getElem? hq)
    have ht : q.terms = [⟨0, 0, wt x⟩] := by rw [hx]
    have ea : q.a = x.delta.1 := by rw [hx]
    have eb : q.b = x.delta.2 := by rw [hx]
    obtain ⟨w1, wr⟩ := hwt x
    obtain ⟨hrep, hc0, hzero⟩ := ih (by omega) (by omega)
    obtain ⟨l0, lr⟩ := hl _ hi _ hj
    rw [charge_arrival _ ht wr]
    have hself := mac_ge_self hrep hc0 (by linarith : (0 : ℚ) ≤ wt x) l0
    refine ⟨representable_mac hA, F64.le_trans hc0 hself, ?_⟩
    intro hz
    have hc : c = fin 0 := F64.le_antisymm (by rw [hz] at hself; exact hself) hc0
    obtain ⟨w, ⟨hend, hWw⟩, hall⟩ := hzero hc
    have hlz : ℓ (i + q.a) (j + q.b) = 0 := by
      have := mac_ge_add (A := A) hc0 (F64.le_refl hc0.2.1) l0 (le_mul_of_one_le_left l0 w1) lr
      rw [hz, hc] at this
      have e : A.add (fin 0) (fin (ℓ (i + q.a) (j + q.b))) = fin (ℓ (i + q.a) (j + q.b)) := by simpa [Arith.add] using lr
      rw [e] at this
      exact _root_.le_antisymm ((F64.le_fin _ _).1 this) l0
    have hendx : endOf (0, 0) (w ++ [x]) = (i + q.a, j + q.b) := by
      rw [endOf_append, hend, ea, eb]; rfl
    refine ⟨w ++ [x], ⟨hendx, ?_⟩, ?_⟩
    · intro u hu
      rw [visited_snoc_tail, List.mem_append, List.mem_singleton, hendx] at hu
      rcases hu with hu | rfl
      · exact hWw u hu
      · exact hW
    · intro u hu
      obtain ⟨t, htl⟩ := visited_head (0, 0) (w ++ [x])
      have htail := visited_snoc_tail w x
      rw [htl, List.tail_cons] at htail
      rw [htl, htail] at hu
      obtain ⟨t', htl'⟩ := visited_head (0, 0) w
      rcases List.mem_cons.1 hu with rfl | hu
      · exact hall _ (by rw [htl']; simp)
      · rcases List.mem_append.1 hu with hu | hu
        · exact hall _ (List.mem_of_mem_tail hu)
        · rw [List.mem_singleton, hendx] at hu
          subst hu
          exact hlz

/-- **C54**, converse in machine arithmetic: with `symmetric1`, `symmetric2` and non-negative representable costs a distance
of zero comes from a curve of zero costs: rounding does not turn positive costs into a zero distance.  Closed begin; with an
open end the curve leads to where the alignment ends. -/
theorem C54_zero_curve_of_zero_rounded (hA : Idempotent A) (h1 : A.rnd 1 = fin 1) (h2 : A.rnd 2 = fin 2) (x : String × StepPattern)
    (hx : x ∈ Pat.table) (hs : x.1 ∈ ["symmetric1", "symmetric2", "symmetricP0"])
    (h : Problem a n m (fun i j => fin (ℓ i j)) W x.2 (rulesOf x.2)) (hob : a.openBegin = false)
    (hl : ∀ i < n, ∀ j < m, 0 ≤ ℓ i j ∧ A.rnd (ℓ i j) = fin (ℓ i j))
    (hr : dtw A a = .ok r) (h0 : r.distance = fin 0) :
    ∃ j w, r.jmin = (j : Nat) ∧ IsCurve W w (n - 1) j ∧ ∀ u ∈ visited (0, 0) w, ℓ u.1 u.2 = 0 := by
  have hn := h.n_pos
  have hE : ∃ wt : Move → ℚ, Elementary (rulesOf x.2) wt ∧ ∀ y, 1 ≤ wt y ∧ A.rnd (wt y) = fin (wt y) := by
    have key : (Pat.table.all fun x => decide (x.1 ∉ ["symmetric1", "symmetric2", "symmetricP0"]) ||
        decide (∃ w1 ∈ [(1 : ℚ), 2],
          (∀ r ∈ rulesOf x.2, r = ⟨1, 1, [⟨0, 0, w1⟩]⟩ ∨ r = ⟨0, 1, [⟨0, 0, 1⟩]⟩ ∨ r = ⟨1, 0, [⟨0, 0, 1⟩]⟩) ∧
          ⟨1, 1, [⟨0, 0, w1⟩]⟩ ∈ rulesOf x.2 ∧ ⟨0, 1, [⟨0, 0, 1⟩]⟩ ∈ rulesOf x.2 ∧
          ⟨1, 0, [⟨0, 0, 1⟩]⟩ ∈ rulesOf x.2)) = true := by decide +kernel
    have h3 := List.all_eq_true.1 key x hx
    rw [Bool.or_eq_true, decide_eq_true_eq, decide_eq_true_eq] at h3
    obtain ⟨w1, hw1, h4, h5, h6, h7⟩ := h3.resolve_left (fun hc => hc hs)
    refine ⟨fun x => match x with | .both => w1 | .ref => 1 | .query => 1, ⟨?_, ?_⟩, ?_⟩
    · intro r hr
      rcases h4 r hr with rfl | rfl | rfl
      · exact ⟨.both, rfl⟩
      · exact ⟨.ref, rfl⟩
      · exact ⟨.query, rfl⟩
    · intro x; cases x
      · exact h5
      · exact h6
      · exact h7
    · intro y; cases y
      · simp only [List.mem_cons, List.not_mem_nil, or_false] at hw1
        rcases hw1 with rfl | rfl
        · exact ⟨le_refl _, h1⟩
        · exact ⟨by norm_num, h2⟩
      · exact ⟨le_refl _, h1⟩
      · exact ⟨le_refl _, h1⟩
  obtain ⟨wt, hE, hwt⟩ := hE
  obtain ⟨G, D, qr, hB, _, hd⟩ := dtw_closed A h hob
  obtain ⟨j, ks, hrun⟩ := closed_ok h hob hB hd hr
  have hdist : r.distance = G (n - 1) j := by rw [hrun.result]; rfl
  have hjm : r.jmin = (j : Int) := by rw [hrun.result]; rfl
  obtain ⟨w, hw⟩ := (hrun.path.zeroCurve hA hE hwt hl (by omega) hrun.endAt.lt).2.2 (by rw [← hdist]; exact h0)
  exact ⟨j, w, hjm, hw⟩

/-- **C54** in doubles (closed ends): with `symmetric1`, `symmetric2` and non-negative double costs the distance is zero iff
some warping curve inside the window has only zero costs. -/
theorem C54_zero_iff_doubles (f : Bool) (x : String × StepPattern) (hx : x ∈ Pat.table)
    (hs : x.1 ∈ ["symmetric1", "symmetric2", "symmetricP0"])
    (h : Problem a n m (fun i j => fin (ℓ i j)) W x.2 (rulesOf x.2)) (hob : a.openBegin = false) (hoe : a.openEnd = false)
    (hl : ∀ i < n, ∀ j < m, 0 ≤ ℓ i j ∧ IsDouble (ℓ i j)) :
    (∃ r, dtw (binary64 f) a = .ok r ∧ r.distance = fin 0) ↔
      ∃ w, IsCurve W w (n - 1) (m - 1) ∧ ∀ u ∈ visited (0, 0) w, ℓ u.1 u.2 = 0 := by
  have two : (binary64 f).rnd 2 = fin 2 := by
    have := C50_binary64_integers f 2 (by norm_num)
    simpa using this
  constructor
  · rintro ⟨r, hr, h0⟩
    obtain ⟨j, w, hj, hc, hz⟩ := C54_zero_curve_of_zero_rounded (C20_C22_double_idempotent f) (double_one f) two x hx hs h hob
      (fun i hi j hj => ⟨(hl i hi j hj).1, rnd64_double (hl i hi j hj).2⟩) hr h0
    obtain ⟨G, D, qr, hB, _, hd⟩ := dtw_closed (binary64 f) h hob
    obtain ⟨j1, ks, hrun⟩ := closed_ok h hob hB hd hr
    have hjm : r.jmin = (j1 : Int) := by rw [hrun.result]; rfl
    have e := hrun.endAt.closed hoe
    obtain rfl : j = m - 1 := by omega
    exact ⟨w, hc, hz⟩
  · rintro ⟨w, hc, hz⟩
    have hs' : x.1 ∈ ["symmetric1", "symmetric2", "symmetricP0", "asymmetricP0"] := by
      simp only [List.mem_cons, List.not_mem_nil, or_false] at hs ⊢
      tauto
    refine C54_zero_of_zero_curve x hx hs' h hob hoe ?_ (fun i hi j hj => (hl i hi j hj).1) hc hz
    intro q hq t ht
    obtain ⟨-, w, e, h0, -, hw⟩ := (C55_charges_arrival f).1 x hx (by
      simp only [List.mem_cons, List.not_mem_nil, or_false] at hs ⊢
      tauto) q hq
    rw [e, List.mem_singleton] at ht
    subst ht
    exact ⟨h0, by rw [hw]; simp⟩

/-! ### Non-vacuity -/

/-- Local costs whose rows have the lower bounds 0, 1, 2. -/
def Ex.pruneCost : Nat → Nat → ℚ := fun i j => (((i * 2 + j * 3) % 5 + i : Nat) : ℚ)

/-- `dtw` of that matrix. -/
def Ex.prune : Args := { x := .d2 (Mat.ofFn 3 4 fun i j => fin (Ex.pruneCost i j)) }

theorem Ex.prune_problem :
    Problem Ex.prune 3 4 (fun i j => fin (Ex.pruneCost i j)) (fun _ _ => true) Pat.symmetric2 (rulesOf Pat.symmetric2) where
  n_pos := by decide
  m_pos := by decide
  cost := .matrix rfl rfl rfl rfl
  pattern := by decide +kernel
  wf := wf_of_check (by decide +kernel)
  fits := fits_of_check (by decide +kernel)
  window := .inl ⟨rfl, fun _ _ _ _ => rfl⟩

theorem Ex.nat_double (k : Nat) (h : k < 100) : (0 : ℚ) ≤ (k : ℚ) ∧ IsDouble (k : ℚ) := by
  refine ⟨by positivity, ?_⟩
  have := isDouble_int (z := (k : ℤ)) (by rw [Nat.abs_cast]; exact_mod_cast lt_trans h (by norm_num))
  push_cast at this
  exact this

/-- The hypotheses of the pruning theorem are met; the bound is 3 and the distance 11. -/
example : (∀ i < 3, ∀ j < 4, 0 ≤ Ex.pruneCost i j ∧ IsDouble (Ex.pruneCost i j)) ∧
    (∀ i : Nat, i < 3 → (0 : ℚ) ≤ (i : ℚ) ∧ IsDouble (i : ℚ)) ∧ (∀ i : Nat, i < 3 → ∀ j < 4, (i : ℚ) ≤ Ex.pruneCost i j) ∧
    F64.lt (fin 2) (runningSum (binary64 true) (fun i => (i : ℚ)) 2) = true ∧
    runningSum (binary64 true) (fun i => (i : ℚ)) 2 = fin 3 ∧
    (dtw (binary64 true) Ex.prune).toOption.map (·.distance) = some (fin 11) := by
  refine ⟨fun i hi j hj => Ex.nat_double _ (by omega), fun i hi => Ex.nat_double i (by omega), ?_, ?_, ?_, ?_⟩
  · intro i hi j hj
    have : i ≤ (i * 2 + j * 3) % 5 + i := by omega
    unfold Ex.pruneCost
    exact_mod_cast this
  all_goals decide +kernel

/-- A call at distance zero along a curve that is not the diagonal. -/
example : (dtw (binary64 true) { x := .d2 (Mat.ofFn 2 3 fun i j => fin (if i = 1 ∧ j = 0 ∨ i = 0 ∧ j = 2 then 7 else 0)) }
    ).toOption.map (·.distance) = some (fin 0) ∧
    IsCurve (fun _ _ => true) [.ref, .both] 1 2 := by
  refine ⟨by decide +kernel, rfl, by simp⟩

end DTW
