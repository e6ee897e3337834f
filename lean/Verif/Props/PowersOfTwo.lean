import Verif.Props.SeriesDoubles
import Verif.Props.Totality

/-!
# C13 in doubles: change of units by a power of two
-/

namespace DTW
open F64

variable {a a' : Args} {n m : Nat} {W : Nat → Nat → Bool} {p : StepPattern} {rs : List Rule} {r : Result} {ℓ : Nat → Nat → ℚ}
  {k : ℤ}

theorem log_scale {q : ℚ} (hq : 0 < q) (k : ℤ) : Int.log 2 ((2 : ℚ) ^ k * q) = k + Int.log 2 q := by
  have hp : (0 : ℚ) < 2 ^ k * q := mul_pos (two_zpow_pos _) hq
  have h1 : (2 : ℚ) ^ Int.log 2 q ≤ q := by simpa using Int.zpow_log_le_self (b := 2) (by norm_num) hq
  have h2 : q < (2 : ℚ) ^ (Int.log 2 q + 1) := by simpa using Int.lt_zpow_succ_log_self (b := 2) (by norm_num) q
  refine _root_.le_antisymm ?_ ?_
  · refine Int.lt_add_one_iff.1 ((Int.lt_zpow_iff_log_lt (by norm_num) hp).1 ?_)
    push_cast
    rw [add_assoc, zpow_add₀ (by norm_num : (2 : ℚ) ≠ 0)]
    exact mul_lt_mul_of_pos_left h2 (two_zpow_pos _)
  · refine (Int.zpow_le_iff_le_log (by norm_num) hp).1 ?_
    push_cast
    rw [zpow_add₀ (by norm_num : (2 : ℚ) ≠ 0)]
    exact mul_le_mul_of_nonneg_left h1 (two_zpow_pos _).le

/-- Rounding commutes with multiplication by a power of two as long as there is neither underflow nor overflow. -/
theorem rnd64_scale {x : ℚ} (h : x = 0 ∨ ((2 : ℚ) ^ (-960 : ℤ) ≤ x ∧ x ≤ 2 ^ (970 : ℤ))) (h1 : -50 ≤ k) (h2 : k ≤ 50) :
    rnd64 ((2 : ℚ) ^ k * x) = scaleF (2 ^ k) (rnd64 x) := by
  rcases h with rfl | ⟨hlo, hhi⟩
  · rw [mul_zero, show rnd64 0 = fin 0 from (binary64 false).rnd_zero]
    simp [scaleF]
  · have hx : 0 < x := lt_of_lt_of_le (two_zpow_pos _) hlo
    have hp : (0 : ℚ) < 2 ^ k * x := mul_pos (two_zpow_pos _) hx
    have hl : -960 ≤ Int.log 2 x := (Int.zpow_le_iff_le_log (by norm_num) hx).1 (by simpa using hlo)
    have hu : ulpExp ((2 : ℚ) ^ k * x) = k + ulpExp x := by
      unfold ulpExp
      rw [log_scale hx]
      omega
    have hr : roundPos ((2 : ℚ) ^ k * x) = 2 ^ k * roundPos x := by
      unfold roundPos
      rw [hu, zpow_add₀ (by norm_num : (2 : ℚ) ≠ 0), mul_div_mul_left _ _ (two_zpow_pos k).ne']
      ring
    have hb : roundPos x ≤ 2 ^ (970 : ℤ) := by
      have he : (-1074 : ℤ) ≤ 970 := by norm_num
      generalize (970 : ℤ) = e at hhi he ⊢
      have := roundPos_mono hx hhi
      have e1 := roundPos_double (m := 1) (e := e) (by norm_num) (by norm_num) he
      rw [Int.cast_one, one_mul] at e1
      rwa [e1] at this
    have hlt : roundPos x < 2 ^ (1024 : ℤ) :=
      lt_of_le_of_lt hb (zpow_lt_zpow_right₀ (by norm_num) (by norm_num))
    have hlt' : (2 : ℚ) ^ k * roundPos x < 2 ^ (1024 : ℤ) := by
      refine lt_of_le_of_lt (mul_le_mul_of_nonneg_left hb (two_zpow_pos k).le) ?_
      rw [← zpow_add₀ (by norm_num : (2 : ℚ) ≠ 0)]
      exact zpow_lt_zpow_right₀ (by norm_num) (by omega)
    simp only [rnd64, hx, hp, if_true, hr, overflow, if_neg (not_le.2 hlt), if_neg (not_le.2 hlt'), scaleF]

/-- Zero, or between 2^-920 and `K` units of 2^910. -/
def InScale (K : ℕ) (q : ℚ) : Prop := q = 0 ∨ ((2 : ℚ) ^ (-920 : ℤ) ≤ q ∧ q ≤ K * 2 ^ (910 : ℤ))

theorem InScale.range {K : ℕ} (hK : K ≤ 2 ^ 53) {q : ℚ} (h : InScale K q) :
    q = 0 ∨ ((2 : ℚ) ^ (-960 : ℤ) ≤ q ∧ q ≤ 2 ^ (970 : ℤ)) := by
  rcases h with h | ⟨h1, h2⟩
  · exact .inl h
  · refine .inr ⟨(two_zpow_le (by norm_num)).trans h1, h2.trans ?_⟩
    have : (K : ℚ) ≤ 2 ^ (60 : ℤ) := by
      have : (K : ℚ) ≤ 2 ^ 53 := by exact_mod_cast hK
      exact this.trans (by norm_num)
    refine (mul_le_mul_of_nonneg_right this (two_zpow_pos _).le).trans (le_of_eq ?_)
    rw [← zpow_add₀ (by norm_num : (2 : ℚ) ≠ 0)]
    norm_num

theorem InScale.nonneg {K : ℕ} {q : ℚ} (h : InScale K q) : 0 ≤ q := by
  rcases h with h | ⟨h, _⟩
  · rw [h]
  · exact (two_zpow_pos _).le.trans h

theorem InScale.rnd {K : ℕ} (hK : K ≤ 2 ^ 53) {q : ℚ} (h : InScale K q) : ∃ v, rnd64 q = fin v ∧ InScale K v := by
  rcases h with rfl | ⟨h1, h2⟩
  · exact ⟨0, (binary64 false).rnd_zero, .inl rfl⟩
  · have e1 := rnd64_mono h1
    have e2 := rnd64_mono h2
    rw [rnd64_double (isDouble_zpow (by norm_num) (by norm_num))] at e1
    rw [rnd64_double (isDouble_units (by norm_num) (by norm_num) hK)] at e2
    cases hv : rnd64 q with
    | nan => exact absurd hv ((binary64 false).rnd_ne_nan q)
    | ninf => rw [hv] at e1; simp [F64.lt] at e1
    | pinf => rw [hv] at e2; simp [F64.lt] at e2
    | fin v =>
      rw [hv] at e1 e2
      simp only [lt_fin, decide_eq_false_iff_not, not_lt] at e1 e2
      exact ⟨v, rfl, .inr ⟨e1, e2⟩⟩

theorem InScale.add {K K' : ℕ} {x y : ℚ} (hx : InScale K x) (hy : InScale K' y) : InScale (K + K') (x + y) := by
  have nx := hx.nonneg
  have ny := hy.nonneg
  have hp : (0 : ℚ) < 2 ^ (910 : ℤ) := two_zpow_pos _
  rcases hx with rfl | ⟨x1, x2⟩
  · rcases hy with rfl | ⟨y1, y2⟩
    · left; simp
    · right
      rw [zero_add]
      refine ⟨y1, y2.trans (mul_le_mul_of_nonneg_right ?_ hp.le)⟩
      push_cast
      linarith [(Nat.cast_nonneg K : (0 : ℚ) ≤ K)]
  · right
    refine ⟨by linarith, ?_⟩
    have y2 : y ≤ K' * 2 ^ (910 : ℤ) := by
      rcases hy with rfl | ⟨_, y2⟩
      · exact mul_nonneg (Nat.cast_nonneg _) hp.le
      · exact y2
    push_cast
    rw [add_mul]
    exact add_le_add x2 y2

theorem scaleF_fin (c q : ℚ) : scaleF c (fin q) = fin (c * q) := rfl

/-- One multiply-add: stays in range and commutes with the scaling. -/
theorem scale_mac_pow (f : Bool) (h1 : -50 ≤ k) (h2 : k ≤ 50) {K : ℕ} (hK : K + 1 ≤ 2 ^ 53) {c w l : ℚ} (hc : InScale K c)
    (hwl : InScale 1 (w * l)) :
    ∃ v, (binary64 f).mac (fin c) (fin w) (fin l) = fin v ∧ InScale (K + 1) v ∧
      (binary64 f).mac (fin (2 ^ k * c)) (fin w) (fin (2 ^ k * l)) = fin (2 ^ k * v) := by
  have sum : ∀ y, InScale 1 y → ∃ v, rnd64 (c + y) = fin v ∧ InScale (K + 1) v ∧ rnd64 (2 ^ k * c + 2 ^ k * y) = fin (2 ^ k * v) := by
    intro y hy
    obtain ⟨v, e, hv⟩ := (hc.add hy).rnd hK
    refine ⟨v, e, hv, ?_⟩
    rw [← mul_add, rnd64_scale ((hc.add hy).range hK) h1 h2, e, scaleF_fin]
  have hm : w * (2 ^ k * l) = 2 ^ k * (w * l) := by ring
  cases f with
  | true =>
    obtain ⟨v, e, hv, e'⟩ := sum _ hwl
    refine ⟨v, e, hv, ?_⟩
    show rnd64 (2 ^ k * c + w * (2 ^ k * l)) = _
    rw [hm]
    exact e'
  | false =>
    obtain ⟨y, ey, hy⟩ := hwl.rnd (by norm_num)
    obtain ⟨v, e, hv, e'⟩ := sum y hy
    have ey' : rnd64 (w * (2 ^ k * l)) = fin (2 ^ k * y) := by
      rw [hm, rnd64_scale (hwl.range (by norm_num)) h1 h2, ey, scaleF_fin]
    refine ⟨v, ?_, hv, ?_⟩
    · show (binary64 false).add (fin c) (rnd64 (w * l)) = _
      rw [ey]; exact e
    · show (binary64 false).add (fin (2 ^ k * c)) (rnd64 (w * (2 ^ k * l))) = _
      rw [ey']; exact e'

/-- Costs and weights in the middle of the range of doubles: costs 0 or from 2^-900 to 2^900, weights 0 or from 2^-10 to 2^9. -/
structure MidRange (n m : Nat) (ℓ : Nat → Nat → ℚ) (rs : List Rule) : Prop where
  costs : ∀ i < n, ∀ j < m, ℓ i j = 0 ∨ ((2 : ℚ) ^ (-900 : ℤ) ≤ ℓ i j ∧ ℓ i j ≤ 2 ^ (900 : ℤ))
  weights : ∀ q ∈ rs, ∀ t ∈ q.terms, t.w = 0 ∨ ((2 : ℚ) ^ (-10 : ℤ) ≤ t.w ∧ t.w ≤ 2 ^ (9 : ℤ))
  terms : ∀ q ∈ rs, q.terms.length ≤ 2 ^ 20

theorem rnd_weight_range (f : Bool) {w : ℚ} (h : w = 0 ∨ ((2 : ℚ) ^ (-10 : ℤ) ≤ w ∧ w ≤ 2 ^ (9 : ℤ))) :
    ∃ v, (binary64 f).rnd w = fin v ∧ (v = 0 ∨ ((2 : ℚ) ^ (-10 : ℤ) ≤ v ∧ v ≤ 2 ^ (9 : ℤ))) := by
  show ∃ v, rnd64 w = fin v ∧ _
  rcases h with rfl | ⟨h1, h2⟩
  · exact ⟨0, (binary64 f).rnd_zero, .inl rfl⟩
  · have e1 := rnd64_mono h1
    have e2 := rnd64_mono h2
    rw [rnd64_double (isDouble_zpow (by norm_num) (by norm_num))] at e1 e2
    cases hv : rnd64 w with
    | nan => exact absurd hv ((binary64 f).rnd_ne_nan w)
    | ninf => rw [hv] at e1; simp [F64.lt] at e1
    | pinf => rw [hv] at e2; simp [F64.lt] at e2
    | fin v =>
      rw [hv] at e1 e2
      simp only [lt_fin, decide_eq_false_iff_not, not_lt] at e1 e2
      exact ⟨v, rfl, .inr ⟨e1, e2⟩⟩

theorem weighted_range {w l : ℚ} (hw : w = 0 ∨ ((2 : ℚ) ^ (-10 : ℤ) ≤ w ∧ w ≤ 2 ^ (9 : ℤ)))
    (hl : l = 0 ∨ ((2 : ℚ) ^ (-900 : ℤ) ≤ l ∧ l ≤ 2 ^ (900 : ℤ))) : InScale 1 (w * l) := by
  rcases hw with rfl | ⟨w1, w2⟩
  · left; simp
  rcases hl with rfl | ⟨l1, l2⟩
  · left; simp
  right
  have hw0 : 0 ≤ w := (two_zpow_pos _).le.trans w1
  have hl0 : 0 ≤ l := (two_zpow_pos _).le.trans l1
  constructor
  · refine le_trans ?_ (mul_le_mul w1 l1 (two_zpow_pos _).le hw0)
    rw [← zpow_add₀ (by norm_num : (2 : ℚ) ≠ 0)]
    exact two_zpow_le (by norm_num)
  · refine (mul_le_mul w2 l2 hl0 (two_zpow_pos _).le).trans ?_
    rw [← zpow_add₀ (by norm_num : (2 : ℚ) ≠ 0), Nat.cast_one, one_mul]
    exact two_zpow_le (by norm_num)

/-- The charge of a rule: stays in range and commutes with the scaling. -/
theorem scale_charge_pow (f : Bool) (h1 : -50 ≤ k) (h2 : k ≤ 50) {ts : List Term}
    (hw : ∀ t ∈ ts, t.w = 0 ∨ ((2 : ℚ) ^ (-10 : ℤ) ≤ t.w ∧ t.w ≤ 2 ^ (9 : ℤ))) {l : Term → ℚ}
    (hl : ∀ t ∈ ts, l t = 0 ∨ ((2 : ℚ) ^ (-900 : ℤ) ≤ l t ∧ l t ≤ 2 ^ (900 : ℤ))) {K : ℕ} (hK : K + ts.length ≤ 2 ^ 53) {c : ℚ}
    (hc : InScale K c) :
    ∃ v, ts.foldl (fun c t => (binary64 f).mac c ((binary64 f).rnd t.w) (fin (l t))) (fin c) = fin v ∧
      InScale (K + ts.length) v ∧
      ts.foldl (fun c t => (binary64 f).mac c ((binary64 f).rnd t.w) (fin (2 ^ k * l t))) (fin (2 ^ k * c)) = fin (2 ^ k * v) := by
  induction ts generalizing K c with
  | nil => exact ⟨c, rfl, hc, rfl⟩
  | cons t ts ih =>
    simp only [List.length_cons] at hK
    obtain ⟨w, ew, hw'⟩ := rnd_weight_range f (hw t (by simp))
    obtain ⟨v, e, hv, e'⟩ := scale_mac_pow f h1 h2 (K := K) (by omega) hc (weighted_range hw' (hl t (by simp)))
    obtain ⟨u, eu, hu, eu'⟩ := ih (fun t ht => hw t (by simp [ht])) (fun t ht => hl t (by simp [ht])) (K := K + 1) (by omega) hv
    refine ⟨u, ?_, ?_, ?_⟩
    · rw [List.foldl_cons, ew, e]; exact eu
    · rw [List.length_cons, show K + (ts.length + 1) = K + 1 + ts.length by omega]; exact hu
    · rw [List.foldl_cons, ew, e']; exact eu'

variable {L S G : Nat → Nat → F64} {D : Nat → Nat → Int}

/-- The costs of paths stay in range. -/
theorem Path.inScale (f : Bool) (hm : MidRange n m ℓ rs) (hv : ∀ q ∈ rs, q.Valid)
    (hS : ∀ i < n, ∀ j < m, S i j ≠ nan → ∃ q, S i j = fin q ∧ InScale 1 q) {i0 j0 : Nat} {ks : List Int} {i j : Nat} {c : F64}
    (h : Path (binary64 f) rs W (fun i j => fin (ℓ i j)) S i0 j0 ks i j c) :
    i < n → j < m → n + m ≤ 2 ^ 32 → ∃ q, c = fin q ∧ InScale (1 + 2 ^ 20 * (i + j)) q := by
  induction h with
  | start hs =>
    intro hi hj _
    obtain ⟨q, e, hq⟩ := hS _ hi _ hj hs
    refine ⟨q, e, ?_⟩
    rcases hq with h | ⟨h1, h2⟩
    · exact .inl h
    · refine .inr ⟨h1, h2.trans (mul_le_mul_of_nonneg_right ?_ (two_zpow_pos _).le)⟩
      exact_mod_cast Nat.le_add_right 1 _
  | @step ks i j c k q hp hq hW hs ih =>
    intro hi hj hnm
    have hmem := List.mem_of_getElem? hq
    have hval := (hv q hmem).1
    have hT := hm.terms q hmem
    obtain ⟨c, rfl, hc⟩ := ih (by omega) (by omega) hnm
    obtain ⟨v, e, hv', -⟩ := scale_charge_pow (k := 0) f (by norm_num) (by norm_num) (ts := q.terms) (hm.weights q hmem)
      (l := fun t => ℓ (i + q.a - t.di) (j + q.b - t.dj)) (fun t _ => hm.costs _ (by omega) _ (by omega))
      (K := 1 + 2 ^ 20 * (i + j)) (by omega) hc
    refine ⟨v, e, ?_⟩
    rcases hv' with h | ⟨g1, g2⟩
    · exact .inl h
    · refine .inr ⟨g1, g2.trans (mul_le_mul_of_nonneg_right ?_ (two_zpow_pos _).le)⟩
      exact_mod_cast (by omega : 1 + 2 ^ 20 * (i + j) + q.terms.length ≤ 1 + 2 ^ 20 * (i + q.a + (j + q.b)))

/-- `Bellman.map` when the candidates commute with `f` on the values that occur. -/
theorem Bellman.map_on {A : Arith} {L' : Nat → Nat → F64} {f : F64 → F64} (hf : ∀ x y, lt (f x) (f y) = lt x y)
    (hinj : ∀ x y, f x = f y → x = y) (hp : f pinf = pinf) (hn : f nan = nan)
    (hch : ∀ r ∈ rs, ∀ i < n, ∀ j < m, r.a ≤ i → r.b ≤ j →
      f (charge A L r i j (G (i - r.a) (j - r.b))) = charge A L' r i j (f (G (i - r.a) (j - r.b))))
    (h : Bellman A rs n m W L S G D) :
    Bellman A rs n m W L' (fun i j => f (S i j)) (fun i j => f (G i j)) D where
  seeded := by
    intro i hi j hj hs
    have hs' : S i j ≠ nan := by intro hc; rw [hc, hn] at hs; exact hs rfl
    have := h.seeded i hi j hj hs'
    exact ⟨by rw [this.1], this.2⟩
  outside := by
    intro i hi j hj hs hw
    have hs' : S i j = nan := hinj _ _ (by rw [hs, hn])
    have := h.outside i hi j hj hs' hw
    exact ⟨by rw [this.1, hn], this.2⟩
  inside := by
    intro i hi j hj hs hw
    have hs' : S i j = nan := hinj _ _ (by rw [hs, hn])
    have := (h.inside i hi j hj hs' hw).map hf hinj hp hn
    rw [List.map_map] at this
    have e : rs.map (f ∘ cand A L G i j) = rs.map (cand A L' (fun i j => f (G i j)) i j) := by
      apply List.map_congr_left
      intro r hr
      simp only [Function.comp_apply, cand]
      split
      · rename_i hc
        exact hch r hr i hi j hj hc.1 hc.2
      · exact hn
    rw [e] at this
    exact this

/-- The cells of the cost matrix are NaN or in range. -/
theorem Bellman.inScale (f : Bool) (hm : MidRange n m ℓ rs) (hv : ∀ q ∈ rs, q.Valid)
    (hS : ∀ i < n, ∀ j < m, S i j ≠ nan → ∃ q, S i j = fin q ∧ InScale 1 q) (hnm : n + m ≤ 2 ^ 32)
    (hB : Bellman (binary64 f) rs n m W (fun i j => fin (ℓ i j)) S G D) {i j : Nat} (hi : i < n) (hj : j < m) :
    G i j = nan ∨ ∃ q, G i j = fin q ∧ InScale (1 + 2 ^ 20 * (i + j)) q := by
  by_cases hG : G i j = nan
  · exact .inl hG
  · obtain ⟨i0, j0, ks, hp, -⟩ := hB.sound hv _ i j rfl hi hj hG
    exact .inr (hp.inScale f hm hv hS hi hj hnm)

/-- Scaling all local costs by 2^k scales the solution of the recursion. -/
theorem Bellman.scale_pow (f : Bool) (h1 : -50 ≤ k) (h2 : k ≤ 50) (hm : MidRange n m ℓ rs) (hv : ∀ q ∈ rs, q.Valid)
    (hS : ∀ i < n, ∀ j < m, S i j ≠ nan → ∃ q, S i j = fin q ∧ InScale 1 q) (hnm : n + m ≤ 2 ^ 32)
    (hB : Bellman (binary64 f) rs n m W (fun i j => fin (ℓ i j)) S G D) :
    Bellman (binary64 f) rs n m W (fun i j => fin (2 ^ k * ℓ i j)) (fun i j => scaleF (2 ^ k) (S i j))
      (fun i j => scaleF (2 ^ k) (G i j)) D := by
  refine hB.map_on (scale_lt (two_zpow_pos k)) (scale_inj (two_zpow_pos k)) rfl rfl ?_
  intro r hr i hi j hj ha hb
  rcases hB.inScale f hm hv hS hnm (i := i - r.a) (j := j - r.b) (by omega) (by omega) with e | ⟨q, e, hq⟩
  · rw [e]
    have nn : ∀ (L : Nat → Nat → F64), charge (binary64 f) L r i j nan = nan := by
      intro L
      unfold charge
      generalize r.terms = ts
      induction ts with
      | nil => rfl
      | cons t ts ih =>
        rw [List.foldl_cons]
        have : (binary64 f).mac nan ((binary64 f).rnd t.w) (L (i - t.di) (j - t.dj)) = nan := by
          unfold Arith.mac; rfl
        rw [this]; exact ih
    rw [nn, show scaleF (2 ^ k) nan = nan from rfl, nn]
  · rw [e]
    have hT := hm.terms r hr
    obtain ⟨v, ev, -, ev'⟩ := scale_charge_pow f h1 h2 (ts := r.terms) (hm.weights r hr)
      (l := fun t => ℓ (i - t.di) (j - t.dj)) (fun t _ => hm.costs _ (by omega) _ (by omega))
      (K := 1 + 2 ^ 20 * (i - r.a + (j - r.b))) (by omega) hq
    unfold charge
    rw [ev, scaleF_fin, scaleF_fin]
    exact ev'.symm

theorem scale_divQ_pow (f : Bool) (h1 : -50 ≤ k) (h2 : k ≤ 50) {K : ℕ} (hK : K ≤ 2 ^ 53) {q b : ℚ} (hq : InScale K q) (hb : 1 ≤ b)
    (hb2 : b ≤ 8589934592) :
    (binary64 f).divQ (fin (2 ^ k * q)) b = scaleF (2 ^ k) ((binary64 f).divQ (fin q) b) := by
  have hb0 : b ≠ 0 := by linarith
  have dv : ∀ z : ℚ, (binary64 f).divQ (fin z) b = rnd64 (z / b) := by
    intro z
    show (if b = 0 then _ else rnd64 (z / b)) = _
    rw [if_neg hb0]
  rw [dv, dv]
  rw [mul_div_assoc]
  refine rnd64_scale ?_ h1 h2
  rcases hq.range hK with rfl | ⟨_, g2⟩
  · left; simp
  rcases hq with rfl | ⟨g1, _⟩
  · left; simp
  right
  have hq0 : 0 ≤ q := (two_zpow_pos _).le.trans g1
  constructor
  · rw [le_div_iff₀ (by linarith)]
    refine le_trans ?_ g1
    have hb3 : b ≤ (2 : ℚ) ^ (33 : ℤ) := hb2.trans (by norm_num)
    refine (mul_le_mul_of_nonneg_left hb3 (two_zpow_pos _).le).trans ?_
    rw [← zpow_add₀ (by norm_num : (2 : ℚ) ≠ 0)]
    exact two_zpow_le (by norm_num)
  · exact (div_le_self hq0 hb).trans g2

theorem scale_normBy_pow (f : Bool) (h1 : -50 ≤ k) (h2 : k ≤ 50) {hint : String} {j : Nat} (hn : 0 < n) (hn2 : n ≤ 2 ^ 31)
    (hj2 : j ≤ 2 ^ 31) {K : ℕ} (hK : K ≤ 2 ^ 53) {v : F64} (hv : v = nan ∨ ∃ q, v = fin q ∧ InScale K q) :
    normBy (binary64 f) hint n j (scaleF (2 ^ k) v) = scaleF (2 ^ k) (normBy (binary64 f) hint n j v) := by
  have d1 : (1 : ℚ) ≤ n := by exact_mod_cast hn
  have d2 : (n : ℚ) ≤ 2147483648 := by exact_mod_cast hn2
  have d3 : (0 : ℚ) ≤ j := by positivity
  have d4 : (j : ℚ) ≤ 2147483648 := by exact_mod_cast hj2
  rcases hv with rfl | ⟨q, rfl, hq⟩
  · unfold normBy
    split_ifs <;> rfl
  · unfold normBy
    rw [scaleF_fin]
    split_ifs
    · exact scale_divQ_pow f h1 h2 hK hq (by linarith) (by linarith)
    · exact scale_divQ_pow f h1 h2 hK hq (by linarith) (by linarith)
    · exact scale_divQ_pow f h1 h2 hK hq (by linarith) (by linarith)
    · rfl

theorem InScale.of_cost {l : ℚ} (hl : l = 0 ∨ ((2 : ℚ) ^ (-900 : ℤ) ≤ l ∧ l ≤ 2 ^ (900 : ℤ))) : InScale 1 l := by
  have := weighted_range (w := 1) (.inr ⟨?_, ?_⟩) hl
  · rwa [one_mul] at this
  · have := two_zpow_le (a := -10) (b := 0) (by norm_num)
    rwa [zpow_zero] at this
  · have := two_zpow_le (a := 0) (b := 9) (by norm_num)
    rwa [zpow_zero] at this

/-- **C13** in doubles.  Multiplying every local cost by a power of two - a change of units that rounds nothing - multiplies
distance, normalized distance and cost matrix by it, to the last bit, and changes nothing else: not the end point, not the path,
not the direction matrix, not success or failure.  All options.  Costs 0 or between 2^-900 and 2^900; weights 0 or between
2^-10 and 2^9. -/
theorem C13_powers_of_two (f : Bool) (h1 : -50 ≤ k) (h2 : k ≤ 50) (h : Problem a n m (fun i j => fin (ℓ i j)) W p rs)
    (h' : Problem a' n m (fun i j => fin (2 ^ k * ℓ i j)) W p rs) (ho : SameOptions a a') (hm : MidRange n m ℓ rs) :
    (dtw (binary64 f) a').map Result.core = ((dtw (binary64 f) a).map Result.core).map (Core.scale (2 ^ k)) := by
  have hn := h.n_pos
  have hm0 := h.m_pos
  have hsz : n * m ≤ 2147483647 := by
    have h1 : n * m ≤ gridRows a n * m := Nat.mul_le_mul_right m (by unfold gridRows; split <;> omega)
    have h2 := h.fits.cells
    omega
  have hnb : n ≤ 2147483647 := le_trans (Nat.le_mul_of_pos_right n hm0) hsz
  have hmb : m ≤ 2147483647 := le_trans (Nat.le_mul_of_pos_left m hn) hsz
  have hc := two_zpow_pos k
  cases hob : a.openBegin with
  | false =>
    have hob' : a'.openBegin = false := by rw [← ho.openBegin]; exact hob
    obtain ⟨G, D, qr, hB, _, hd⟩ := dtw_closed (binary64 f) h hob
    obtain ⟨G', D', qr', hB', _, hd'⟩ := dtw_closed (binary64 f) h' hob'
    have hS : ∀ i < n, ∀ j < m, closedSeed (fun i j => fin (ℓ i j)) i j ≠ nan →
        ∃ q, closedSeed (fun i j => fin (ℓ i j)) i j = fin q ∧ InScale 1 q := by
      intro i _ j _ hs
      unfold closedSeed at hs ⊢
      split
      · exact ⟨_, rfl, .of_cost (hm.costs 0 hn 0 hm0)⟩
      · rename_i hh; rw [if_neg hh] at hs; exact absurd rfl hs
    have hmap := hB.scale_pow f h1 h2 hm h.wf.valid hS (by omega)
    have hu := hB'.unique h.wf.valid hmap le_rfl le_rfl le_rfl le_rfl (fun _ _ _ _ => rfl)
      (fun _ _ _ _ => rfl) (by
        intro i _ j _
        unfold closedSeed
        split <;> rfl)
    rw [hd, hd', ← finish_scale_of (qr' := qr) hc ho (Mat.ofFn n m fun i j => fin (ℓ i j)) (fun j hj =>
      scale_normBy_pow f h1 h2 hn (by omega) (by omega) (K := 1 + 2 ^ 20 * (n - 1 + j)) (by omega)
        (hB.inScale f hm h.wf.valid hS (by omega) (by omega) hj))]
    rw [← scaleM_ofFn]
    refine finish_core ?_ hn (fun i hi j hj => (hu i hi j hj).1) (fun i hi j hj => (hu i hi j hj).2) _
    exact ⟨rfl, rfl, rfl, rfl⟩
  | true =>
    have hob' : a'.openBegin = true := by rw [← ho.openBegin]; exact hob
    by_cases hh : p.hint = "N"
    · obtain ⟨G, D, qr, hB, _, hd⟩ := dtw_open (binary64 f) h hob hh
      obtain ⟨G', D', qr', hB', _, hd'⟩ := dtw_open (binary64 f) h' hob' hh
      have hnull : ∀ c : ℚ, (nullRow fun i j => fin (c * ℓ i j)) = fun i j => fin (c * if i = 0 then 0 else ℓ (i - 1) j) := by
        intro c
        funext i j
        unfold nullRow
        split <;> simp
      have hn1 : (nullRow fun i j => fin (ℓ i j)) = fun i j => fin (if i = 0 then 0 else ℓ (i - 1) j) := by
        have := hnull 1
        simpa only [one_mul] using this
      have hm' : MidRange (n + 1) m (fun i j => if i = 0 then 0 else ℓ (i - 1) j) rs := by
        refine ⟨?_, hm.weights, hm.terms⟩
        intro i hi j hj
        by_cases h0 : i = 0
        · simp [h0]
        · simp only [h0, if_false]
          exact hm.costs _ (by omega) _ hj
      rw [hn1] at hB hd
      rw [hnull] at hB' hd'
      have hS : ∀ i < n + 1, ∀ j < m, openSeed i j ≠ nan → ∃ q, openSeed i j = fin q ∧ InScale 1 q := by
        intro i _ j _ hs
        unfold openSeed at hs ⊢
        split
        · exact ⟨0, rfl, .inl rfl⟩
        · rename_i hh; rw [if_neg hh] at hs; exact absurd rfl hs
      have hmap := hB.scale_pow f h1 h2 hm' h.wf.valid hS (by omega)
      have hu := hB'.unique h.wf.valid hmap le_rfl le_rfl le_rfl le_rfl (fun _ _ _ _ => rfl)
        (fun _ _ _ _ => rfl) (by
          intro i _ j _
          unfold openSeed
          split <;> simp [scaleF])
      rw [hd, hd', ← finish_scale_of (qr' := qr) hc ho (Mat.ofFn (n + 1) m fun i j => fin (if i = 0 then 0 else ℓ (i - 1) j))
        (fun j hj => scale_normBy_pow f h1 h2 hn (by omega) (by omega) (K := 1 + 2 ^ 20 * (n + 1 - 1 + j)) (by omega)
          (hB.inScale f hm' h.wf.valid hS (by omega) (by omega) hj))]
      rw [← scaleM_ofFn]
      refine finish_core ?_ (Nat.succ_pos n) (fun i hi j hj => (hu i hi j hj).1)
        (fun i hi j hj => (hu i hi j hj).2) _
      exact ⟨rfl, rfl, rfl, rfl⟩
    · rw [open_bad_hint h hob hh, open_bad_hint h' hob' hh]
      rfl

/-- **C13** The bundled patterns have such weights, the internal `_symmetricVelichkoZagoruyko` (a negative weight) apart. -/
theorem C13_bundled_range : ∀ q ∈ Pat.table, q.1 ≠ "_symmetricVelichkoZagoruyko" → ∀ x ∈ rulesOf q.2,
    (∀ t ∈ x.terms, t.w = 0 ∨ ((2 : ℚ) ^ (-10 : ℤ) ≤ t.w ∧ t.w ≤ 2 ^ (9 : ℤ))) ∧ x.terms.length ≤ 2 ^ 20 := by
  have key : (Pat.table.all fun q => decide (q.1 = "_symmetricVelichkoZagoruyko") || (rulesOf q.2).all fun x =>
      (x.terms.all fun t => decide (t.w = 0) || (decide (1 / 1024 ≤ t.w) && decide (t.w ≤ 512))) && decide (x.terms.length ≤ 100)) =
        true := by decide +kernel
  intro q hq hne x hx
  have h1 := List.all_eq_true.1 key q hq
  rw [Bool.or_eq_true, decide_eq_true_eq] at h1
  have h2 := List.all_eq_true.1 (h1.resolve_left hne) x hx
  rw [Bool.and_eq_true, decide_eq_true_eq] at h2
  refine ⟨fun t ht => ?_, h2.2.trans (by norm_num)⟩
  have h3 := List.all_eq_true.1 h2.1 t ht
  rw [Bool.or_eq_true, Bool.and_eq_true, decide_eq_true_eq, decide_eq_true_eq, decide_eq_true_eq] at h3
  rcases h3 with h3 | ⟨h3, h4⟩
  · exact .inl h3
  · exact .inr ⟨_root_.le_trans (by norm_num) h3, h4.trans (by norm_num)⟩

/-! ### Series -/

/-- Signed version of `rnd64_scale`. -/
theorem rnd64_scale_abs {x : ℚ} (h : x = 0 ∨ ((2 : ℚ) ^ (-960 : ℤ) ≤ |x| ∧ |x| ≤ 2 ^ (970 : ℤ))) (h1 : -50 ≤ k) (h2 : k ≤ 50) :
    rnd64 ((2 : ℚ) ^ k * x) = scaleF (2 ^ k) (rnd64 x) := by
  rcases le_or_gt 0 x with h0 | h0
  · rw [abs_of_nonneg h0] at h
    exact rnd64_scale h h1 h2
  · rw [abs_of_neg h0] at h
    have h' : -x = 0 ∨ ((2 : ℚ) ^ (-960 : ℤ) ≤ -x ∧ -x ≤ 2 ^ (970 : ℤ)) := by
      rcases h with h | h
      · left; rw [h, neg_zero]
      · exact .inr h
    have e := rnd64_scale h' h1 h2
    rw [mul_neg, rnd64_neg, rnd64_neg] at e
    have e2 := congrArg F64.neg e
    cases hx : rnd64 x <;> cases hy : rnd64 ((2 : ℚ) ^ k * x) <;> rw [hx, hy] at e2 <;> simp [F64.neg, scaleF] at e2 ⊢
    exact e2

/-- Samples whose differences are 0 or between 2^-400 and 2^400 in size. -/
def Apart (x y : List ℚ) : Prop := ∀ i < x.length, ∀ j < y.length,
  x.getD i 0 - y.getD j 0 = 0 ∨ ((2 : ℚ) ^ (-400 : ℤ) ≤ |x.getD i 0 - y.getD j 0| ∧ |x.getD i 0 - y.getD j 0| ≤ 2 ^ (400 : ℤ))

theorem rnd64_apart {z : ℚ} (h : z = 0 ∨ ((2 : ℚ) ^ (-400 : ℤ) ≤ |z| ∧ |z| ≤ 2 ^ (400 : ℤ))) :
    ∃ d, rnd64 z = fin d ∧ (d = 0 ∨ ((2 : ℚ) ^ (-400 : ℤ) ≤ |d| ∧ |d| ≤ 2 ^ (400 : ℤ))) := by
  have pos : ∀ z : ℚ, (2 : ℚ) ^ (-400 : ℤ) ≤ z → z ≤ 2 ^ (400 : ℤ) →
      ∃ d, rnd64 z = fin d ∧ (2 : ℚ) ^ (-400 : ℤ) ≤ d ∧ d ≤ 2 ^ (400 : ℤ) := by
    intro z h1 h2
    have e1 := rnd64_mono h1
    have e2 := rnd64_mono h2
    rw [rnd64_double (isDouble_zpow (by norm_num) (by norm_num))] at e1 e2
    cases hv : rnd64 z with
    | nan => exact absurd hv ((binary64 false).rnd_ne_nan z)
    | ninf => rw [hv] at e1; simp [F64.lt] at e1
    | pinf => rw [hv] at e2; simp [F64.lt] at e2
    | fin v =>
      rw [hv] at e1 e2
      simp only [lt_fin, decide_eq_false_iff_not, not_lt] at e1 e2
      exact ⟨v, rfl, e1, e2⟩
  rcases h with rfl | ⟨h1, h2⟩
  · exact ⟨0, (binary64 false).rnd_zero, .inl rfl⟩
  rcases abs_cases z with ⟨e, _⟩ | ⟨e, _⟩
  · rw [e] at h1 h2
    obtain ⟨d, hd, g1, g2⟩ := pos z h1 h2
    have : |d| = d := abs_of_nonneg ((two_zpow_pos _).le.trans g1)
    exact ⟨d, hd, .inr (by rw [this]; exact ⟨g1, g2⟩)⟩
  · rw [e] at h1 h2
    obtain ⟨d, hd, g1, g2⟩ := pos (-z) h1 h2
    refine ⟨-d, ?_, .inr ?_⟩
    · rw [rnd64_neg] at hd
      cases hz : rnd64 z <;> rw [hz] at hd <;> simp [F64.neg] at hd ⊢
      rw [← hd, neg_neg]
    · have : |-d| = d := by rw [abs_neg]; exact abs_of_nonneg ((two_zpow_pos _).le.trans g1)
      rw [this]; exact ⟨g1, g2⟩

variable {o : Args} {x y : List ℚ} {q : String × StepPattern}

/-- **C75** Change of units: multiplying both series by 2^k multiplies distance, normalized distance and cost matrix by 2^k to the
last bit and changes nothing else, for the default metric, "cityblock" and "chebyshev", any bundled pattern without negative weights, any window
and options; differences of samples 0 or between 2^-400 and 2^400 in size. -/
theorem C75_scaling (f g : Bool) (h1 : -50 ≤ k) (h2 : k ≤ 50) {M : List F64 → List F64 → F64}
    (hM : M ∈ [euclidean (binary64 g), cityblock (binary64 g), chebyshev (binary64 g)]) (h : Sensible o x.length y.length W q)
    (hne : q.1 ≠ "_symmetricVelichkoZagoruyko") (hx : Apart x y) :
    (dtw (binary64 f) (askWith M o (x.map (2 ^ k * ·)) (y.map (2 ^ k * ·)))).map Result.core =
      ((dtw (binary64 f) (askWith M o x y)).map Result.core).map (Core.scale (2 ^ k)) := by
  have hp := two_zpow_pos k
  have get : ∀ (z : List ℚ) (i : Nat), (z.map ((2 : ℚ) ^ k * ·)).getD i 0 = 2 ^ k * z.getD i 0 :=
    fun z i => getD_map (mul_zero _) z i
  have hd : ∀ i < x.length, ∀ j < y.length, ∃ d, rnd64 (x.getD i 0 - y.getD j 0) = fin d ∧
      (d = 0 ∨ ((2 : ℚ) ^ (-400 : ℤ) ≤ |d| ∧ |d| ≤ 2 ^ (400 : ℤ))) ∧
      rnd64 ((2 : ℚ) ^ k * x.getD i 0 - 2 ^ k * y.getD j 0) = fin (2 ^ k * d) := by
    intro i hi j hj
    obtain ⟨d, e, hr⟩ := rnd64_apart (hx i hi j hj)
    refine ⟨d, e, hr, ?_⟩
    rw [← mul_sub, rnd64_scale_abs ?_ h1 h2, e, scaleF_fin]
    rcases hx i hi j hj with h0 | ⟨g1, g2⟩
    · exact .inl h0
    · exact .inr ⟨(two_zpow_le (by norm_num)).trans g1, g2.trans (two_zpow_le (by norm_num))⟩
  have moderate : ∀ {u v d : ℚ}, rnd64 (u - v) = fin d →
      (d = 0 ∨ ((2 : ℚ) ^ (-450 : ℤ) ≤ |d| ∧ |d| ≤ 2 ^ (450 : ℤ))) → Moderate u v d := by
    intro u v d e hr
    refine ⟨e, ?_⟩
    rcases hr with h0 | ⟨g1, g2⟩
    · exact .inl h0
    · exact .inr ⟨(two_zpow_le (by norm_num)).trans g1, lt_of_le_of_lt g2 (zpow_lt_zpow_right₀ (by norm_num) (by norm_num))⟩
  simp only [List.mem_cons, List.not_mem_nil, or_false] at hM
  have hgap : IsGap M x y := by
    have over : NoOverflow x y := fun i hi j hj => by
      obtain ⟨d, e, -⟩ := hd i hi j hj
      exact ⟨d, e⟩
    rcases hM with rfl | rfl | rfl
    · refine isGap_euclidean g fun i hi j hj => ?_
      obtain ⟨d, e, hr, -⟩ := hd i hi j hj
      refine ⟨d, moderate e ?_⟩
      rcases hr with h0 | ⟨g1, g2⟩
      · exact .inl h0
      · exact .inr ⟨(two_zpow_le (by norm_num)).trans g1, g2.trans (two_zpow_le (by norm_num))⟩
    · exact isGap_cityblock g over
    · exact isGap_chebyshev g over
  have hgap' : IsGap M (x.map (2 ^ k * ·)) (y.map (2 ^ k * ·)) := by
    have over : NoOverflow (x.map (2 ^ k * ·)) (y.map (2 ^ k * ·)) := by
      intro i hi j hj
      rw [List.length_map] at hi hj
      obtain ⟨d, -, -, e'⟩ := hd i hi j hj
      rw [get, get]
      exact ⟨_, e'⟩
    rcases hM with rfl | rfl | rfl
    · refine isGap_euclidean g fun i hi j hj => ?_
      rw [List.length_map] at hi hj
      obtain ⟨d, e, hr, e'⟩ := hd i hi j hj
      rw [get, get]
      refine ⟨2 ^ k * d, moderate e' ?_⟩
      rcases hr with rfl | ⟨g1, g2⟩
      · left; simp
      · right
        rw [abs_mul, abs_of_pos hp]
        constructor
        · refine le_trans ?_ (mul_le_mul_of_nonneg_left g1 hp.le)
          rw [← zpow_add₀ (by norm_num : (2 : ℚ) ≠ 0)]
          exact two_zpow_le (by omega)
        · refine (mul_le_mul_of_nonneg_left g2 hp.le).trans ?_
          rw [← zpow_add₀ (by norm_num : (2 : ℚ) ≠ 0)]
          exact two_zpow_le (by omega)
    · exact isGap_cityblock g over
    · exact isGap_chebyshev g over
  have hP := askWith_problem h hgap
  have hP' := askWith_problem (o := o) (x := x.map (2 ^ k * ·)) (y := y.map (2 ^ k * ·)) (W := W) (q := q) (by simpa using h) hgap'
  rw [List.length_map, List.length_map] at hP'
  have hP2 : Problem (askWith M o (x.map (2 ^ k * ·)) (y.map (2 ^ k * ·))) x.length y.length
      (fun i j => fin (2 ^ k * roundedGap x y i j)) W q.2 (rulesOf q.2) := by
    have hc : ∀ i < x.length, ∀ j < y.length,
        roundedGap (x.map (2 ^ k * ·)) (y.map (2 ^ k * ·)) i j = 2 ^ k * roundedGap x y i j := by
      intro i hi j hj
      obtain ⟨d, e, -, e'⟩ := hd i hi j hj
      rw [roundedGap_of e, roundedGap_of (x := x.map (2 ^ k * ·)) (y := y.map (2 ^ k * ·)) (d := 2 ^ k * d) (by rw [get, get]; exact e'),
        abs_mul, abs_of_pos hp]
    refine { hP' with cost := ?_ }
    refine .series _ _ _ rfl (.d1 _) (.d1 _) rfl (by simp) (by simp) ?_
    intro i hi j hj
    rw [column_row _ i (by simpa using hi), column_row _ j (by simpa using hj), ← hc i hi j hj]
    exact (hgap' i (by simpa using hi) j (by simpa using hj)).symm
  refine C13_powers_of_two f h1 h2 hP hP2 ⟨rfl, rfl, rfl, rfl⟩ ⟨?_, ?_, ?_⟩
  · intro i hi j hj
    obtain ⟨d, e, hr, -⟩ := hd i hi j hj
    rw [roundedGap_of e]
    rcases hr with rfl | ⟨g1, g2⟩
    · left; simp
    · exact .inr ⟨(two_zpow_le (by norm_num)).trans g1, g2.trans (two_zpow_le (by norm_num))⟩
  · exact fun u hu => (C13_bundled_range q h.mem hne u hu).1
  · exact fun u hu => (C13_bundled_range q h.mem hne u hu).2

/-- **C13, negative witness.**  Other factors round: tripling the costs 1, 2^53 does not triple the distance. -/
theorem C13_other_factors :
    (dtw (binary64 false) { x := .d2 (Mat.ofFn 1 2 fun _ j => fin (if j = 0 then 1 else 2 ^ 53)) }).toOption.map (·.distance) =
      some (fin (2 ^ 53)) ∧
    (dtw (binary64 false) { x := .d2 (Mat.ofFn 1 2 fun _ j => fin (3 * if j = 0 then 1 else 2 ^ 53)) }).toOption.map (·.distance) =
      some (fin (3 * 2 ^ 53 + 4)) := by
  constructor <;> decide +kernel

/-! ### Witnesses -/

/-- Costs 3/8 and 7 in a 2 x 2 matrix, scaled by 8. -/
example : (dtw (binary64 true) (Ex.call 2 2 (fun i j => fin (2 ^ (3 : ℤ) * if i = j then 3 / 8 else 7)) "asymmetric")).map Result.core =
    ((dtw (binary64 true) (Ex.call 2 2 (fun i j => fin (if i = j then 3 / 8 else 7)) "asymmetric")).map Result.core).map
      (Core.scale (2 ^ (3 : ℤ))) := by
  refine C13_powers_of_two true (by norm_num) (by norm_num)
    (bundled_problem (by norm_num) (by norm_num) (by norm_num) _ ("asymmetric", Pat.asymmetric) Ex.asym_mem)
    (bundled_problem (by norm_num) (by norm_num) (by norm_num) _ ("asymmetric", Pat.asymmetric) Ex.asym_mem) ⟨rfl, rfl, rfl, rfl⟩ ⟨?_, ?_, ?_⟩
  · have hlo : (2 : ℚ) ^ (-900 : ℤ) ≤ 2 ^ (-4 : ℤ) := two_zpow_le (by norm_num)
    have hhi : (2 : ℚ) ^ (4 : ℤ) ≤ 2 ^ (900 : ℤ) := two_zpow_le (by norm_num)
    intro i _ j _
    right
    split
    · exact ⟨hlo.trans (by norm_num), _root_.le_trans (by norm_num) hhi⟩
    · exact ⟨hlo.trans (by norm_num), _root_.le_trans (by norm_num) hhi⟩
  · exact fun u hu => (C13_bundled_range _ Ex.asym_mem (by decide) u hu).1
  · exact fun u hu => (C13_bundled_range _ Ex.asym_mem (by decide) u hu).2

/-- Two series an eighth apart, in units 2^-7 of the original. -/
example : (dtw (binary64 false) (askWith (euclidean (binary64 false)) Ex.serOpts
      (([1 / 8, 3, 5 / 2, 1] : List ℚ).map (2 ^ (-7 : ℤ) * ·)) (([0, 1 / 4, 3, 3, 2, 1] : List ℚ).map (2 ^ (-7 : ℤ) * ·)))).map
        Result.core =
    ((dtw (binary64 false) (askWith (euclidean (binary64 false)) Ex.serOpts [1 / 8, 3, 5 / 2, 1] [0, 1 / 4, 3, 3, 2, 1])).map
      Result.core).map (Core.scale (2 ^ (-7 : ℤ))) := by
  refine C75_scaling false false (q := ("symmetric2", Pat.symmetric2)) (W := fun _ _ => true) (by norm_num) (by norm_num) (by simp)
    Ex.ser_sensible (by decide) ?_
  have hlo : (2 : ℚ) ^ (-400 : ℤ) ≤ 2 ^ (-4 : ℤ) := two_zpow_le (by norm_num)
  have hhi : (2 : ℚ) ^ (4 : ℤ) ≤ 2 ^ (400 : ℤ) := two_zpow_le (by norm_num)
  have key : ∀ i < 4, ∀ j < 6, ∀ z : ℚ, z = ([1 / 8, 3, 5 / 2, 1] : List ℚ).getD i 0 - ([0, 1 / 4, 3, 3, 2, 1] : List ℚ).getD j 0 →
      z = 0 ∨ ((2 : ℚ) ^ (-4 : ℤ) ≤ |z| ∧ |z| ≤ 2 ^ (4 : ℤ)) := by
    have : ∀ i < 4, ∀ j < 6, ([1 / 8, 3, 5 / 2, 1] : List ℚ).getD i 0 - ([0, 1 / 4, 3, 3, 2, 1] : List ℚ).getD j 0 = 0 ∨
        (1 / 16 : ℚ) ≤ ([1 / 8, 3, 5 / 2, 1] : List ℚ).getD i 0 - ([0, 1 / 4, 3, 3, 2, 1] : List ℚ).getD j 0 ∧
          ([1 / 8, 3, 5 / 2, 1] : List ℚ).getD i 0 - ([0, 1 / 4, 3, 3, 2, 1] : List ℚ).getD j 0 ≤ 16 ∨
        ([1 / 8, 3, 5 / 2, 1] : List ℚ).getD i 0 - ([0, 1 / 4, 3, 3, 2, 1] : List ℚ).getD j 0 ≤ -1 / 16 ∧
          -16 ≤ ([1 / 8, 3, 5 / 2, 1] : List ℚ).getD i 0 - ([0, 1 / 4, 3, 3, 2, 1] : List ℚ).getD j 0 := by decide +kernel
    intro i hi j hj z hz
    have := this i hi j hj
    rw [← hz] at this
    norm_num
    rcases this with h | ⟨h, h'⟩ | ⟨h, h'⟩
    · exact .inl h
    · right; rw [abs_of_pos (by linarith)]; constructor <;> linarith
    · right; rw [abs_of_neg (by linarith)]; constructor <;> linarith
  intro i hi j hj
  rcases key i hi j hj _ rfl with h | ⟨h, h'⟩
  · exact .inl h
  · exact .inr ⟨hlo.trans h, h'.trans hhi⟩

end DTW
