import Verif.Props.EndToEnd
import Verif.Props.Substructure
import Verif.Props.OpenBegin
import Mathlib.Data.List.FinRange

/-!
# C70: series with several features (columns)
-/

namespace DTW
open F64

variable {A B : Arith} {o : Args} {x y x' y' : Nd} {X Y X' Y' : Mat F64} {M : List F64 → List F64 → F64}

/-- `X'` is `X` with one more column, put before column `c`, that holds `v i` in row `i`. -/
structure ExtraColumn (c : Nat) (v : Nat → F64) (X X' : Mat F64) : Prop where
  rows : X'.rows = X.rows
  cols : X'.cols = X.cols + 1
  row : ∀ i < X.rows, ∃ a b, a.length = c ∧ X.row i = a ++ b ∧ X'.row i = a ++ v i :: b

/-- The four metrics, evaluated in the arithmetic `B`. -/
def metrics (B : Arith) : List (List F64 → List F64 → F64) := [euclidean B, sqEuclidean B, cityblock B, chebyshev B]

/-! ### Calls with the same local costs -/

theorem callWith_core (A : Arith) (hx : AsMatrix x X) (hy : AsMatrix y Y) (hc : X.cols = Y.cols) (hx' : AsMatrix x' X')
    (hy' : AsMatrix y' Y') (hc' : X'.cols = Y'.cols) (hr : X'.rows = X.rows) (hs : Y'.rows = Y.rows)
    (he : ∀ i < X.rows, ∀ j < Y.rows, M (X'.row i) (Y'.row j) = M (X.row i) (Y.row j)) :
    (dtw A (callWith M o x' y')).map Result.core = (dtw A (callWith M o x y)).map Result.core := by
  rw [C26_series_as_matrix (a := callWith M o x' y') rfl hx' hy' hc',
    C26_series_as_matrix (a := callWith M o x y) rfl hx hy hc]
  have : Mat.ofFn X'.rows Y'.rows (fun i j => M (X'.row i) (Y'.row j)) = Mat.ofFn X.rows Y.rows fun i j => M (X.row i) (Y.row j) := by
    rw [hr, hs]
    exact ofFn_congr he
  show (dtw A { callWith M o x' y' with
      x := .d2 (Mat.ofFn X'.rows Y'.rows fun i j => M (X'.row i) (Y'.row j))
      y := none, layout := ⟨true, true⟩, stackContig := true }).map Result.core = _
  rw [this]
  rfl

/-! ### The metrics, column by column -/

theorem absSub_self (u : ℚ) : absSub B (fin u) (fin u) = fin 0 := by
  unfold absSub
  have : B.add (fin u) (fin u).neg = B.rnd 0 := by
    show B.rnd (u + -u) = _
    rw [add_neg_cancel]
  rw [this, B.rnd_zero]
  simp [fabs]

theorem add_zero_representable {c : F64} (hc : Representable B c) : B.add c (fin 0) = c := by
  cases c with
  | fin q =>
    show B.rnd (q + 0) = _
    rw [add_zero]
    exact hc q rfl
  | nan => rfl
  | pinf => rfl
  | ninf => rfl

theorem mac_zero_representable {c : F64} (hc : Representable B c) : B.mac c (fin 0) (fin 0) = c := by
  unfold Arith.mac
  have : (if B.fused then Arith.mulWith fin (fin 0) (fin 0) else B.mul (fin 0) (fin 0)) = fin 0 := by
    split
    · simp [Arith.mulWith]
    · show B.rnd (0 * 0) = _
      rw [zero_mul, B.rnd_zero]
  rw [this]
  exact add_zero_representable hc

theorem representable_zero : Representable B (fin 0) := by
  intro q h
  cases h
  exact B.rnd_zero

theorem foldl_representable {step : F64 → F64 → F64 → F64} (hs : ∀ c u v, Representable B (step c u v)) :
    ∀ (l : List (F64 × F64)) (c : F64), Representable B c → Representable B (l.foldl (fun acc p => step acc p.1 p.2) c) := by
  intro l
  induction l with
  | nil => intro c hc; exact hc
  | cons p l ih => intro c _; exact ih _ (hs _ _ _)

theorem accumulate_extra {step : F64 → F64 → F64 → F64} (hs : ∀ c u v, Representable B (step c u v)) {z : F64}
    (hz : ∀ c, Representable B c → step c z z = c) {a b a' b' : List F64} (h : a.length = a'.length) :
    accumulate step (a ++ z :: b) (a' ++ z :: b') = accumulate step (a ++ b) (a' ++ b') := by
  unfold accumulate
  simp only [List.length_append, List.length_cons, h, Nat.add_left_cancel_iff, Nat.add_right_cancel_iff]
  split
  · rw [List.zip_append h, List.zip_append h, List.zip_cons_cons, List.foldl_append, List.foldl_append, List.foldl_cons,
      hz _ (foldl_representable hs _ _ representable_zero)]
  · rfl

/-- "chebyshev" only looks at the larger differences. -/
theorem chebyshev_nonneg : ∀ (l : List (F64 × F64)) (c : F64), F64.lt c (fin 0) = false →
    F64.lt (l.foldl (fun acc p => if F64.lt acc (absSub B p.1 p.2) then absSub B p.1 p.2 else acc) c) (fin 0) = false := by
  intro l
  induction l with
  | nil => intro c hc; exact hc
  | cons p l ih =>
    intro c hc
    refine ih _ ?_
    dsimp only
    split
    · unfold absSub
      cases B.add p.1 p.2.neg <;> simp [fabs, F64.lt]
    · exact hc

theorem chebyshev_extra {z : ℚ} {a b a' b' : List F64} (h : a.length = a'.length) :
    chebyshev B (a ++ fin z :: b) (a' ++ fin z :: b') = chebyshev B (a ++ b) (a' ++ b') := by
  unfold chebyshev accumulate
  simp only [List.length_append, List.length_cons, h, Nat.add_left_cancel_iff, Nat.add_right_cancel_iff]
  split
  · rw [List.zip_append h, List.zip_append h, List.zip_cons_cons, List.foldl_append, List.foldl_append, List.foldl_cons]
    dsimp only
    rw [absSub_self, if_neg]
    rw [chebyshev_nonneg (B := B) (a.zip a') (fin 0) (by simp [F64.lt])]
    simp
  · rfl

/-- **C70** A feature with the same (finite) value everywhere in both series changes nothing: the result of the call, whatever
the step pattern, window and options, is the same to the last bit - in exact arithmetic and in doubles - for each of the
four metrics, wherever the column stands. -/
theorem C70_constant_feature (hB : Idempotent B) (hM : M ∈ metrics B) (hx : AsMatrix x X) (hy : AsMatrix y Y)
    (hc : X.cols = Y.cols) (hx' : AsMatrix x' X') (hy' : AsMatrix y' Y') {c : Nat} {z : ℚ}
    (hX : ExtraColumn c (fun _ => fin z) X X') (hY : ExtraColumn c (fun _ => fin z) Y Y') :
    (dtw A (callWith M o x' y')).map Result.core = (dtw A (callWith M o x y)).map Result.core := by
  refine callWith_core A hx hy hc hx' hy' (by rw [hX.cols, hY.cols, hc]) hX.rows hY.rows fun i hi j hj => ?_
  obtain ⟨a, b, ha, e, e'⟩ := hX.row i hi
  obtain ⟨a1, b1, ha1, e1, e1'⟩ := hY.row j hj
  rw [e, e', e1, e1']
  have hl : a.length = a1.length := by rw [ha, ha1]
  have k1 : sqEuclidean B (a ++ fin z :: b) (a1 ++ fin z :: b1) = sqEuclidean B (a ++ b) (a1 ++ b1) := by
    refine accumulate_extra (B := B) (fun c u v => representable_add hB _ _) (fun c hc => ?_) hl
    rw [absSub_self]
    exact mac_zero_representable hc
  have k2 : cityblock B (a ++ fin z :: b) (a1 ++ fin z :: b1) = cityblock B (a ++ b) (a1 ++ b1) := by
    refine accumulate_extra (B := B) (fun c u v => representable_add hB _ _) (fun c hc => ?_) hl
    rw [absSub_self]
    exact add_zero_representable hc
  simp only [metrics, List.mem_cons, List.not_mem_nil, or_false] at hM
  rcases hM with rfl | rfl | rfl | rfl
  · unfold euclidean
    rw [k1]
  · exact k1
  · exact k2
  · exact chebyshev_extra hl

/-! ### More features, more distance -/

theorem absSub_nonneg (u v : ℚ) : F64.le (fin 0) (absSub B (fin u) (fin v)) := by
  unfold absSub
  have h : B.add (fin u) (fin v).neg = B.rnd (u + -v) := rfl
  rw [h]
  have := B.rnd_ne_nan (u + -v)
  cases hr : B.rnd (u + -v) with
  | nan => exact absurd hr this
  | fin q => simp [fabs, F64.le, F64.lt]
  | pinf => simp [fabs, F64.le, F64.lt]
  | ninf => simp [fabs, F64.le, F64.lt]

theorem nonneg_cases {v : F64} (h : F64.le (fin 0) v) : v = pinf ∨ ∃ q, v = fin q ∧ 0 ≤ q := by
  cases v with
  | nan => exact absurd rfl h.2.1
  | ninf => simp [F64.le, F64.lt] at h
  | pinf => exact .inl rfl
  | fin q => exact .inr ⟨q, rfl, by simpa [F64.le, F64.lt] using h⟩

theorem rnd_nonneg_le {q : ℚ} (h : 0 ≤ q) : F64.le (fin 0) (B.rnd q) := by
  rcases rnd_nonneg (A := B) h with e | ⟨w, e, h0⟩
  · rw [e]; simp [F64.le, F64.lt]
  · rw [e]; simpa [F64.le, F64.lt] using h0

theorem square_nonneg {d : F64} (h : F64.le (fin 0) d) :
    F64.le (fin 0) (if B.fused then Arith.mulWith fin d d else B.mul d d) := by
  rcases nonneg_cases h with rfl | ⟨q, rfl, hq⟩
  · split <;> simp [Arith.mul, Arith.mulWith, F64.le, F64.lt]
  · split
    · simp [Arith.mulWith, F64.le, F64.lt, mul_nonneg hq hq]
    · exact rnd_nonneg_le (mul_nonneg hq hq)

theorem add_nonneg_mono {a b t : F64} (ha : F64.le (fin 0) a) (h : F64.le a b) (ht : F64.le (fin 0) t) :
    F64.le (B.add a t) (B.add b t) ∧ F64.le (fin 0) (B.add a t) := by
  have hb := F64.le_trans ha h
  rcases nonneg_cases ha with rfl | ⟨p, rfl, hp⟩
  · rcases nonneg_cases hb with rfl | ⟨q, rfl, _⟩
    · rcases nonneg_cases ht with rfl | ⟨s, rfl, _⟩ <;> simp [Arith.add, F64.le, F64.lt]
    · simp [F64.le, F64.lt] at h
  · rcases nonneg_cases ht with rfl | ⟨s, rfl, hs⟩
    · rcases nonneg_cases hb with rfl | ⟨q, rfl, _⟩ <;> simp [Arith.add, F64.le, F64.lt]
    · have h0 : F64.le (fin 0) (B.add (fin p) (fin s)) := rnd_nonneg_le (add_nonneg hp hs)
      refine ⟨?_, h0⟩
      rcases nonneg_cases hb with rfl | ⟨q, rfl, _⟩
      · rcases nonneg_cases h0 with e | ⟨r, e, _⟩ <;> rw [e] <;> simp [Arith.add, F64.le, F64.lt]
      · have hpq : p ≤ q := by simpa [F64.le, F64.lt] using h
        exact ⟨B.rnd_ne_nan _, B.rnd_ne_nan _, B.rnd_mono _ _ (by linarith)⟩

/-- A step of an accumulation of non-negative terms. -/
structure Accumulates (B : Arith) (step : F64 → F64 → F64 → F64) : Prop where
  mono : ∀ a b (u v : ℚ), F64.le (fin 0) a → F64.le a b →
    F64.le (step a (fin u) (fin v)) (step b (fin u) (fin v)) ∧ F64.le (fin 0) (step a (fin u) (fin v))
  grows : ∀ a (u v : ℚ), F64.le (fin 0) a → Representable B a → F64.le a (step a (fin u) (fin v))
  repr : ∀ a u v, Representable B (step a u v)

theorem accumulates_of {step : F64 → F64 → F64 → F64} {t : F64 → F64 → F64} (hB : Idempotent B)
    (hs : ∀ a u v, step a u v = B.add a (t u v)) (ht : ∀ u v : ℚ, F64.le (fin 0) (t (fin u) (fin v))) : Accumulates B step where
  mono a b u v ha h := by
    rw [hs, hs]
    exact add_nonneg_mono ha h (ht u v)
  grows a u v ha hr := by
    rw [hs]
    have h0 := (add_nonneg_mono (B := B) ha (F64.le_refl ha.2.1) (ht u v)).2
    exact add_ge hr (ht u v) ha.2.1 h0.2.1
  repr a u v := by
    rw [hs]
    exact representable_add hB _ _

theorem foldl_nonneg {step : F64 → F64 → F64 → F64} (hs : Accumulates B step) : ∀ (l : List (ℚ × ℚ)) (a b : F64),
    F64.le (fin 0) a → F64.le a b →
    F64.le ((l.map fun p => (fin p.1, fin p.2)).foldl (fun acc p => step acc p.1 p.2) a)
      ((l.map fun p => (fin p.1, fin p.2)).foldl (fun acc p => step acc p.1 p.2) b) ∧
    F64.le (fin 0) ((l.map fun p => (fin p.1, fin p.2)).foldl (fun acc p => step acc p.1 p.2) a) := by
  intro l
  induction l with
  | nil => intro a b ha h; exact ⟨h, ha⟩
  | cons p l ih =>
    intro a b ha h
    obtain ⟨h1, h2⟩ := hs.mono a b p.1 p.2 ha h
    exact ih _ _ h2 h1

theorem zero_le_zero : F64.le (fin 0) (fin 0) := by simp [F64.le, F64.lt]

theorem accumulate_more {step : F64 → F64 → F64 → F64} (hs : Accumulates B step) {a a' b b' : List ℚ} {z z' : ℚ}
    (h : a.length = a'.length) (h' : b.length = b'.length) :
    F64.le (accumulate step (a.map fin ++ b.map fin) (a'.map fin ++ b'.map fin))
      (accumulate step (a.map fin ++ fin z :: b.map fin) (a'.map fin ++ fin z' :: b'.map fin)) ∧
    F64.le (fin 0) (accumulate step (a.map fin ++ b.map fin) (a'.map fin ++ b'.map fin)) := by
  unfold accumulate
  have hz : ∀ l l' : List ℚ, (l.map fin).zip (l'.map fin) = (l.zip l').map fun p => (fin p.1, fin p.2) := by
    intro l l'
    rw [List.zip_map]
    rfl
  rw [if_pos (by simp [h, h']), if_pos (by simp [h, h']), List.zip_append (by simp [h]), List.zip_append (by simp [h]),
    List.zip_cons_cons, List.foldl_append, List.foldl_append, List.foldl_cons, hz, hz]
  have h0 := (foldl_nonneg hs (a.zip a') (fin 0) (fin 0) zero_le_zero zero_le_zero).2
  exact foldl_nonneg hs _ _ _ h0 (hs.grows _ _ _ h0 (foldl_representable hs.repr _ _ representable_zero))

theorem nearSqrt_mono {y z : ℚ} (h : y ≤ z) : nearSqrt y ≤ nearSqrt z := by
  have hs : Nat.sqrt ⌊y⌋₊ ≤ Nat.sqrt ⌊z⌋₊ := Nat.sqrt_le_sqrt (Nat.floor_le_floor h)
  unfold nearSqrt
  rcases Nat.lt_or_ge (Nat.sqrt ⌊y⌋₊) (Nat.sqrt ⌊z⌋₊) with hlt | hge
  · split <;> split <;> omega
  · have e : Nat.sqrt ⌊y⌋₊ = Nat.sqrt ⌊z⌋₊ := by omega
    rw [e]
    split
    · rename_i h1
      rw [if_pos (lt_of_lt_of_le h1 (by linarith))]
    · split <;> omega

theorem sqrtPos_mono {p q : ℚ} (hp : 0 < p) (h : p ≤ q) : sqrtPos p ≤ sqrtPos q := by
  have hq : 0 < q := lt_of_lt_of_le hp h
  have hlog : Int.log 2 p ≤ Int.log 2 q := Int.log_mono_right hp h
  have he : sqrtExp p ≤ sqrtExp q := by
    unfold sqrtExp
    have := Int.ediv_le_ediv (c := 2) (by norm_num) hlog
    omega
  obtain ⟨p1, p2⟩ := sqrtUlps_bounds hp
  obtain ⟨q1, q2⟩ := sqrtUlps_bounds hq
  unfold sqrtPos
  rcases eq_or_lt_of_le he with e | hlt
  · have hu : sqrtUlps p ≤ sqrtUlps q := by
      unfold sqrtUlps
      rw [e]
      exact div_le_div_of_nonneg_right h (two_zpow_pos _).le
    have hn := nearSqrt_mono hu
    rw [e]
    exact mul_le_mul_of_nonneg_right (by exact_mod_cast hn) (two_zpow_pos _).le
  · obtain ⟨_, n2⟩ := nearSqrt_range p1 p2
    obtain ⟨n1, _⟩ := nearSqrt_range q1 q2
    have a1 : (nearSqrt (sqrtUlps p) : ℚ) ≤ 2 ^ 53 := by exact_mod_cast n2
    have a2 : (2 : ℚ) ^ 52 ≤ nearSqrt (sqrtUlps q) := by exact_mod_cast n1
    calc (nearSqrt (sqrtUlps p) : ℚ) * 2 ^ sqrtExp p ≤ 2 ^ 53 * 2 ^ sqrtExp p :=
          mul_le_mul_of_nonneg_right a1 (two_zpow_pos _).le
      _ = 2 ^ 52 * 2 ^ (sqrtExp p + 1) := by
          rw [zpow_add_one₀ (by norm_num)]; ring
      _ ≤ 2 ^ 52 * 2 ^ sqrtExp q := mul_le_mul_of_nonneg_left (two_zpow_le (by omega)) (by norm_num)
      _ ≤ _ := mul_le_mul_of_nonneg_right a2 (two_zpow_pos _).le

theorem sqrtPos_pos {q : ℚ} (hq : 0 < q) : 0 < sqrtPos q := by
  obtain ⟨q1, q2⟩ := sqrtUlps_bounds hq
  obtain ⟨n1, _⟩ := nearSqrt_range q1 q2
  unfold sqrtPos
  have : (0 : ℚ) < nearSqrt (sqrtUlps q) := by
    have : 0 < nearSqrt (sqrtUlps q) := lt_of_lt_of_le (by norm_num) n1
    exact_mod_cast this
  exact mul_pos this (two_zpow_pos _)

theorem sqrt64_mono {u v : F64} (hu : F64.le (fin 0) u) (h : F64.le u v) : F64.le (sqrt64 u) (sqrt64 v) := by
  have hv := F64.le_trans hu h
  have fin_le : ∀ {s t : ℚ}, s ≤ t → F64.le (fin s) (fin t) := fun h => by simpa [F64.le, F64.lt] using h
  have val : ∀ {q : ℚ}, 0 ≤ q → ∃ s, sqrt64 (fin q) = fin s := by
    intro q hq
    unfold sqrt64
    rcases eq_or_lt_of_le hq with rfl | hpos
    · exact ⟨0, by simp⟩
    · exact ⟨_, if_pos hpos⟩
  rcases nonneg_cases hv with rfl | ⟨q, rfl, hq⟩
  · rcases nonneg_cases hu with rfl | ⟨p, rfl, hp⟩
    · simp [sqrt64, F64.le, F64.lt]
    · obtain ⟨s, e⟩ := val hp
      rw [e]
      simp [sqrt64, F64.le, F64.lt]
  · rcases nonneg_cases hu with rfl | ⟨p, rfl, hp⟩
    · simp [F64.le, F64.lt] at h
    · have hpq : p ≤ q := by simpa [F64.le, F64.lt] using h
      have pos : ∀ {q : ℚ}, 0 < q → sqrt64 (fin q) = fin (sqrtPos q) := fun h => if_pos h
      rcases eq_or_lt_of_le hp with rfl | hpos
      · rcases eq_or_lt_of_le hq with rfl | hqpos
        · simp [sqrt64, F64.le, F64.lt]
        · rw [pos hqpos]
          have : sqrt64 (fin 0) = fin 0 := by simp [sqrt64]
          rw [this]
          exact fin_le (sqrtPos_pos hqpos).le
      · rw [pos hpos, pos (lt_of_lt_of_le hpos hpq)]
        exact fin_le (sqrtPos_mono hpos hpq)

theorem chebyshev_more {a a' b b' : List ℚ} {z z' : ℚ} (h : a.length = a'.length) (h' : b.length = b'.length) :
    F64.le (chebyshev B (a.map fin ++ b.map fin) (a'.map fin ++ b'.map fin))
      (chebyshev B (a.map fin ++ fin z :: b.map fin) (a'.map fin ++ fin z' :: b'.map fin)) := by
  have step : ∀ (c c' : F64) (u v : ℚ), F64.le (fin 0) c → F64.le c c' →
      F64.le (fin 0) (if F64.lt c (absSub B (fin u) (fin v)) then absSub B (fin u) (fin v) else c) ∧
      F64.le c (if F64.lt c (absSub B (fin u) (fin v)) then absSub B (fin u) (fin v) else c) ∧
      F64.le (if F64.lt c (absSub B (fin u) (fin v)) then absSub B (fin u) (fin v) else c)
        (if F64.lt c' (absSub B (fin u) (fin v)) then absSub B (fin u) (fin v) else c') := by
    intro c c' u v hc hcc
    have hd := absSub_nonneg (B := B) u v
    generalize absSub B (fin u) (fin v) = d at hd ⊢
    have hc' := F64.le_trans hc hcc
    refine ⟨by split <;> assumption, ?_, ?_⟩
    · split
      · rename_i h1
        rcases nonneg_cases hc with rfl | ⟨p, rfl, hp⟩ <;> rcases nonneg_cases hd with rfl | ⟨s, rfl, hs⟩ <;>
          simp_all [F64.le, F64.lt]
        exact h1.le
      · exact F64.le_refl hc.2.1
    · split <;> split
      · exact F64.le_refl hd.2.1
      · rename_i h1 h2
        exact (le_iff_not_lt hd.2.1 hc'.2.1).2 (by simpa using h2)
      · rename_i h1 h2
        have : F64.le d c := (le_iff_not_lt hd.2.1 hc.2.1).2 (by simpa using h1)
        have h3 := F64.le_trans this hcc
        rw [(le_iff_not_lt hd.2.1 hc'.2.1).1 h3] at h2
        simp at h2
      · exact hcc
  have mono : ∀ (l : List (ℚ × ℚ)) (c c' : F64), F64.le (fin 0) c → F64.le c c' →
      F64.le (fin 0) ((l.map fun p => (fin p.1, fin p.2)).foldl
        (fun acc p => if F64.lt acc (absSub B p.1 p.2) then absSub B p.1 p.2 else acc) c) ∧
      F64.le ((l.map fun p => (fin p.1, fin p.2)).foldl
        (fun acc p => if F64.lt acc (absSub B p.1 p.2) then absSub B p.1 p.2 else acc) c)
        ((l.map fun p => (fin p.1, fin p.2)).foldl
        (fun acc p => if F64.lt acc (absSub B p.1 p.2) then absSub B p.1 p.2 else acc) c') := by
    intro l
    induction l with
    | nil => intro c c' hc h; exact ⟨hc, h⟩
    | cons p l ih =>
      intro c c' hc h
      obtain ⟨s1, _, s3⟩ := step c c' p.1 p.2 hc h
      exact ih _ _ s1 s3
  unfold chebyshev accumulate
  have hz : ∀ l l' : List ℚ, (l.map fin).zip (l'.map fin) = (l.zip l').map fun p => (fin p.1, fin p.2) := by
    intro l l'
    rw [List.zip_map]
    rfl
  rw [if_pos (by simp [h, h']), if_pos (by simp [h, h']), List.zip_append (by simp [h]), List.zip_append (by simp [h]),
    List.zip_cons_cons, List.foldl_append, List.foldl_append, List.foldl_cons, hz, hz]
  have h0 := (mono (a.zip a') (fin 0) (fin 0) zero_le_zero zero_le_zero).1
  exact (mono _ _ _ h0 (step _ _ z z' h0 (F64.le_refl h0.2.1)).2.1).2

/-- One more column never lowers a local cost. -/
theorem metric_more (hB : Idempotent B) (hM : M ∈ metrics B) {a a' b b' : List ℚ} {z z' : ℚ}
    (h : a.length = a'.length) (h' : b.length = b'.length) :
    F64.le (M (a.map fin ++ b.map fin) (a'.map fin ++ b'.map fin))
      (M (a.map fin ++ fin z :: b.map fin) (a'.map fin ++ fin z' :: b'.map fin)) := by
  have k1 := accumulate_more (B := B) (step := fun acc u v => B.mac acc (absSub B u v) (absSub B u v)) (z := z) (z' := z')
    (accumulates_of hB (t := fun u v => if B.fused then Arith.mulWith fin (absSub B u v) (absSub B u v)
      else B.mul (absSub B u v) (absSub B u v)) (fun _ _ _ => rfl) fun u v => square_nonneg (absSub_nonneg u v)) h h'
  have k2 := accumulate_more (B := B) (step := fun acc u v => B.add acc (absSub B u v)) (z := z) (z' := z')
    (accumulates_of hB (t := absSub B) (fun _ _ _ => rfl) absSub_nonneg) h h'
  simp only [metrics, List.mem_cons, List.not_mem_nil, or_false] at hM
  rcases hM with rfl | rfl | rfl | rfl
  · exact sqrt64_mono k1.2 k1.1
  · exact k1.1
  · exact k2.1
  · exact chebyshev_more h h'

/-- **C70** More features never lower the distance.  Add one column to both series: whenever the closed-end call succeeds,
it succeeds without the column, with a distance that is not larger; with open ends, if both succeed the normalized distance
is not larger without the column.  In doubles (metric and recursion) and for every bundled pattern without negative weights;
the local costs of the smaller call must not overflow. -/
theorem C70_more_features (f : Bool) (hM : M ∈ metrics (binary64 f)) {u v : Nat → List ℚ} {k : Nat} (hx : Series x X u k)
    (hy : Series y Y v k) (hx' : AsMatrix x' X') (hy' : AsMatrix y' Y') {c : Nat} {s t : Nat → ℚ}
    (hX : ExtraColumn c (fun i => fin (s i)) X X') (hY : ExtraColumn c (fun j => fin (t j)) Y Y') {W : Nat → Nat → Bool}
    {q : String × StepPattern} (h : Sensible o X.rows Y.rows W q) (hne : q.1 ≠ "_symmetricVelichkoZagoruyko")
    (hfin : ∀ i < X.rows, ∀ j < Y.rows, ∃ r, M (X.row i) (Y.row j) = fin r) :
    (o.openBegin = false → o.openEnd = false → ∀ r', dtw (binary64 f) (callWith M o x' y') = .ok r' →
      ∃ r, dtw (binary64 f) (callWith M o x y) = .ok r ∧ F64.le r.distance r'.distance) ∧
    (q.2.hint ≠ "NA" → ∀ r r', dtw (binary64 f) (callWith M o x y) = .ok r → dtw (binary64 f) (callWith M o x' y') = .ok r' →
      F64.le r.normalizedDistance r'.normalizedDistance) := by
  have hP := callWith_problem (M := M) hx.mat hy.mat (hx.cols.trans hy.cols.symm) h
    (L := fun i j => fin (number (M (X.row i) (Y.row j)))) (by
      intro i hi j hj
      obtain ⟨r, h1⟩ := hfin i hi j hj
      rw [h1]; rfl)
  have hP' := callWith_problem (M := M) (o := o) (W := W) (q := q) hx' hy'
    (by rw [hX.cols, hY.cols, hx.cols, hy.cols]) (by rw [hX.rows, hY.rows]; exact h)
    (L := fun i j => M (X'.row i) (Y'.row j)) (fun _ _ _ _ => rfl)
  rw [hX.rows, hY.rows] at hP'
  have hle : ∀ i < X.rows, ∀ j < Y.rows, F64.le (fin (number (M (X.row i) (Y.row j)))) (M (X'.row i) (Y'.row j)) := by
    intro i hi j hj
    obtain ⟨r, h1⟩ := hfin i hi j hj
    have e0 : fin (number (M (X.row i) (Y.row j))) = M (X.row i) (Y.row j) := by rw [h1]; rfl
    rw [e0]
    obtain ⟨a, b, ha, e, e'⟩ := hX.row i hi
    obtain ⟨a1, b1, ha1, e1, e1'⟩ := hY.row j hj
    obtain ⟨r1, l1⟩ := hx.row i hi
    obtain ⟨r2, l2⟩ := hy.row j hj
    rw [e', e1', e, e1]
    rw [r1] at e
    rw [r2] at e1
    obtain ⟨p, p', hp, rfl, rfl⟩ := List.map_eq_append_iff.1 e
    obtain ⟨w, w', hw, rfl, rfl⟩ := List.map_eq_append_iff.1 e1
    rw [List.length_map] at ha ha1
    have e2 : p.length + p'.length = w.length + w'.length := by
      rw [← List.length_append, ← List.length_append, ← hp, ← hw, l1, l2]
    exact metric_more (C20_C22_double_idempotent f) hM (by omega) (by omega)
  have hw := C12_C14_C15_bundled_double f q h.mem hne
  constructor
  · intro hob hoe r' hr'
    exact C12_monotone_in_costs hP hP' hob hoe hob hoe hw hle hr'
  · intro hhint r r' hr hr'
    exact (C12_any_ends hP hP' rfl rfl hw hle hr hr').2 hhint

/-! ### Permuting and translating features -/

theorem pick_comm (c d e : F64) :
    (if F64.lt (if F64.lt c d then d else c) e then e else if F64.lt c d then d else c) =
    if F64.lt (if F64.lt c e then e else c) d then d else if F64.lt c e then e else c := by
  by_cases h1 : F64.lt c d = true <;> by_cases h2 : F64.lt c e = true
  · rw [if_pos h1, if_pos h2]
    by_cases h3 : F64.lt d e = true <;> by_cases h4 : F64.lt e d = true
    · have := F64.lt_trans h3 h4
      rw [F64.lt_irrefl] at this
      cases this
    · rw [if_pos h3, if_neg h4]
    · rw [if_neg h3, if_pos h4]
    · rw [if_neg h3, if_neg h4]
      exact F64.lt_tri (F64.ne_nan_of_lt_right h1) (F64.ne_nan_of_lt_right h2) (by simpa using h3) (by simpa using h4)
  · rw [if_pos h1, if_neg h2, if_pos h1, if_neg]
    exact fun h3 => h2 (F64.lt_trans h1 h3)
  · rw [if_neg h1, if_pos h2, if_neg]
    exact fun h3 => h1 (F64.lt_trans h2 h3)
  · rw [if_neg h1, if_neg h2, if_neg h1]

/-- "chebyshev" does not depend on the order of the columns, in doubles as in exact arithmetic and for any values. -/
theorem chebyshev_perm {l l' : List (F64 × F64)} (h : l.Perm l') :
    chebyshev B (l.map Prod.fst) (l.map Prod.snd) = chebyshev B (l'.map Prod.fst) (l'.map Prod.snd) := by
  have hz : ∀ l : List (F64 × F64), (l.map Prod.fst).zip (l.map Prod.snd) = l := by
    intro l
    rw [List.zip_map']
    simp
  unfold chebyshev accumulate
  rw [if_pos (by simp), if_pos (by simp), hz, hz]
  generalize (fin 0 : F64) = c
  induction h generalizing c with
  | nil => rfl
  | cons p _ ih => exact ih _
  | swap p q l =>
    simp only [List.foldl_cons]
    rw [pick_comm]
  | trans _ _ ih1 ih2 => rw [ih1 c, ih2 c]

/-- The exact values of the metrics. -/
theorem metric_exact (hM : M ∈ metrics Arith.exact) {l l' : List (ℚ × ℚ)}
    (h : (l.map fun p => |p.1 - p.2|).Perm (l'.map fun p => |p.1 - p.2|)) :
    M (l.map fun p => fin p.1) (l.map fun p => fin p.2) = M (l'.map fun p => fin p.1) (l'.map fun p => fin p.2) := by
  have k1 : sqEuclidean Arith.exact (l.map fun p => fin p.1) (l.map fun p => fin p.2) =
      sqEuclidean Arith.exact (l'.map fun p => fin p.1) (l'.map fun p => fin p.2) := by
    rw [sqEuclidean_exact, sqEuclidean_exact]
    have e : ∀ l : List (ℚ × ℚ), sumSquares l = ((l.map fun p => |p.1 - p.2|).map fun d => d ^ 2).sum := by
      intro l
      unfold sumSquares
      rw [List.map_map]
      congr 2
      funext p
      simp
    rw [e, e, (h.map _).sum_eq]
  have k2 : cityblock Arith.exact (l.map fun p => fin p.1) (l.map fun p => fin p.2) =
      cityblock Arith.exact (l'.map fun p => fin p.1) (l'.map fun p => fin p.2) := by
    rw [cityblock_exact, cityblock_exact, sumAbs, sumAbs, h.sum_eq]
  simp only [metrics, List.mem_cons, List.not_mem_nil, or_false] at hM
  rcases hM with rfl | rfl | rfl | rfl
  · unfold euclidean
    rw [k1]
  · exact k1
  · exact k2
  · rw [chebyshev_exact, chebyshev_exact, maxAbs_perm h]

/-- **C70** The order of the features does not matter (sums in exact arithmetic): permuting the columns of both series in the
same way changes nothing. -/
theorem C70_permuted_features (hM : M ∈ metrics Arith.exact) {k : Nat} {u v : Nat → Fin k → ℚ} (σ : Equiv.Perm (Fin k))
    (hx : Series x X (fun i => List.ofFn (u i)) k) (hy : Series y Y (fun j => List.ofFn (v j)) k)
    (hx' : Series x' X' (fun i => List.ofFn fun c => u i (σ c)) k) (hy' : Series y' Y' (fun j => List.ofFn fun c => v j (σ c)) k)
    (hr : X'.rows = X.rows) (hs : Y'.rows = Y.rows) :
    (dtw A (callWith M o x' y')).map Result.core = (dtw A (callWith M o x y)).map Result.core := by
  refine callWith_core A hx.mat hy.mat (hx.cols.trans hy.cols.symm) hx'.mat hy'.mat (hx'.cols.trans hy'.cols.symm) hr hs ?_
  intro i hi j hj
  obtain ⟨e1, e2, _⟩ := hx.pair hy hi hj
  obtain ⟨e1', e2', _⟩ := hx'.pair hy' (hr ▸ hi) (hs ▸ hj)
  rw [← e1, ← e2, ← e1', ← e2']
  refine metric_exact hM ?_
  have hz : ∀ (g g' : Fin k → ℚ), ((List.ofFn g).zip (List.ofFn g')).map (fun p => |p.1 - p.2|) =
      List.ofFn fun c => |g c - g' c| := by
    intro g g'
    apply List.ext_getElem
    · simp
    · intro n h1 h2
      simp
  rw [hz, hz]
  exact Equiv.Perm.ofFn_comp_perm σ fun c => |u i c - v j c|

/-- **C70** With "chebyshev" the order of the features does not matter in doubles either, for any number of them and any values,
NaN and infinities included. -/
theorem C70_chebyshev_order {k : Nat} {u v : Nat → Fin k → F64} (σ : Equiv.Perm (Fin k)) (hx : AsMatrix x X) (hy : AsMatrix y Y)
    (hc : X.cols = Y.cols) (hx' : AsMatrix x' X') (hy' : AsMatrix y' Y') (hc' : X'.cols = Y'.cols) (hr : X'.rows = X.rows)
    (hs : Y'.rows = Y.rows) (hX : ∀ i < X.rows, X.row i = List.ofFn (u i) ∧ X'.row i = List.ofFn fun c => u i (σ c))
    (hY : ∀ j < Y.rows, Y.row j = List.ofFn (v j) ∧ Y'.row j = List.ofFn fun c => v j (σ c)) :
    (dtw A (callWith (chebyshev B) o x' y')).map Result.core = (dtw A (callWith (chebyshev B) o x y)).map Result.core := by
  refine callWith_core A hx hy hc hx' hy' hc' hr hs fun i hi j hj => ?_
  rw [(hX i hi).1, (hX i hi).2, (hY j hj).1, (hY j hj).2]
  have hz : ∀ (g g' : Fin k → F64), List.ofFn g = (List.ofFn fun c => (g c, g' c)).map Prod.fst ∧
      List.ofFn g' = (List.ofFn fun c => (g c, g' c)).map Prod.snd := by
    intro g g'
    constructor <;> rw [List.map_ofFn] <;> rfl
  rw [(hz (u i) (v j)).1, (hz (u i) (v j)).2, (hz (fun c => u i (σ c)) fun c => v j (σ c)).1,
    (hz (fun c => u i (σ c)) fun c => v j (σ c)).2]
  exact chebyshev_perm (Equiv.Perm.ofFn_comp_perm σ fun c => (u i c, v j c))

/-- A metric only depends on the differences, column by column, in any arithmetic. -/
theorem metric_differences (hM : M ∈ metrics B) {l l' : List (ℚ × ℚ)}
    (h : l'.map (fun p => p.1 - p.2) = l.map fun p => p.1 - p.2) :
    M (l'.map fun p => fin p.1) (l'.map fun p => fin p.2) = M (l.map fun p => fin p.1) (l.map fun p => fin p.2) := by
  have acc : ∀ g : F64 → F64 → F64,
      accumulate (fun c u v => g c (absSub B u v)) (l'.map fun p => fin p.1) (l'.map fun p => fin p.2) =
      accumulate (fun c u v => g c (absSub B u v)) (l.map fun p => fin p.1) (l.map fun p => fin p.2) := by
    intro g
    have one : ∀ l : List (ℚ × ℚ), accumulate (fun c u v => g c (absSub B u v)) (l.map fun p => fin p.1) (l.map fun p => fin p.2) =
        (l.map fun p => p.1 - p.2).foldl (fun c d => g c (fabs (B.rnd d))) (fin 0) := by
      intro l
      unfold accumulate
      rw [if_pos (by simp)]
      generalize fin 0 = c
      induction l generalizing c with
      | nil => rfl
      | cons p l ih =>
        simp only [List.map_cons, List.zip_cons_cons, List.foldl_cons]
        rw [ih]
        congr 2
        show fabs (B.rnd (p.1 + -p.2)) = _
        rw [sub_eq_add_neg]
    rw [one, one, h]
  simp only [metrics, List.mem_cons, List.not_mem_nil, or_false] at hM
  have e2 := acc fun c d => B.mac c d d
  rcases hM with rfl | rfl | rfl | rfl
  · unfold euclidean sqEuclidean; rw [e2]
  · exact e2
  · exact acc fun c d => B.add c d
  · exact acc fun c d => if F64.lt c d then d else c

/-- **C70** Translating every feature by its own amount, in both series, changes nothing - to the last bit, in doubles as in exact
arithmetic - as long as the translated samples are exact. -/
theorem C70_translated_features (hM : M ∈ metrics B) {k : Nat} {u v : Nat → Fin k → ℚ} (t : Fin k → ℚ)
    (hx : Series x X (fun i => List.ofFn (u i)) k) (hy : Series y Y (fun j => List.ofFn (v j)) k)
    (hx' : Series x' X' (fun i => List.ofFn fun c => u i c + t c) k)
    (hy' : Series y' Y' (fun j => List.ofFn fun c => v j c + t c) k) (hr : X'.rows = X.rows) (hs : Y'.rows = Y.rows) :
    (dtw A (callWith M o x' y')).map Result.core = (dtw A (callWith M o x y)).map Result.core := by
  refine callWith_core A hx.mat hy.mat (hx.cols.trans hy.cols.symm) hx'.mat hy'.mat (hx'.cols.trans hy'.cols.symm) hr hs ?_
  intro i hi j hj
  obtain ⟨e1, e2, _⟩ := hx.pair hy hi hj
  obtain ⟨e1', e2', _⟩ := hx'.pair hy' (hr ▸ hi) (hs ▸ hj)
  rw [← e1, ← e2, ← e1', ← e2']
  refine metric_differences hM ?_
  have hz : ∀ (g g' : Fin k → ℚ), ((List.ofFn g).zip (List.ofFn g')).map (fun p => p.1 - p.2) =
      List.ofFn fun c => g c - g' c := by
    intro g g'
    apply List.ext_getElem
    · simp
    · intro n h1 h2
      simp
  rw [hz, hz]
  simp only [add_sub_add_right_eq_sub]

/-- In doubles, an absolute difference is a double. -/
theorem representable_absSub (f : Bool) (u v : F64) : Representable (binary64 f) (absSub (binary64 f) u v) := by
  have h := representable_add (C20_C22_double_idempotent f) u v.neg
  unfold absSub
  generalize (binary64 f).add u v.neg = d at h ⊢
  cases d with
  | fin q =>
    intro p hp
    simp only [fabs, fin.injEq] at hp
    subst hp
    have := h q rfl
    exact rnd64_double (isDouble_abs (rnd64_isDouble this))
  | nan => intro p hp; simp [fabs] at hp
  | pinf => intro p hp; simp [fabs] at hp
  | ninf => intro p hp; simp [fabs] at hp

theorem zero_add_representable {c : F64} (hc : Representable B c) : B.add (fin 0) c = c := by
  cases c with
  | fin q =>
    show B.rnd (0 + q) = _
    rw [zero_add]
    exact hc q rfl
  | nan => rfl
  | pinf => rfl
  | ninf => rfl

theorem add_comm_any (c d : F64) : B.add c d = B.add d c := by
  cases c <;> cases d <;> simp [Arith.add, add_comm]

/-- **C70** With two features their order does not matter in doubles either (any values, NaN and infinities included), unless
the compiler contracts `acc += d*d`. -/
theorem C70_two_features (f : Bool) (hM : M = cityblock (binary64 f) ∨ M ∈ metrics (binary64 false)) (hx : AsMatrix x X)
    (hy : AsMatrix y Y) (hc : X.cols = Y.cols) (hx' : AsMatrix x' X') (hy' : AsMatrix y' Y') (hc' : X'.cols = Y'.cols)
    (hr : X'.rows = X.rows) (hs : Y'.rows = Y.rows) {a b c d : Nat → F64}
    (hX : ∀ i < X.rows, X.row i = [a i, b i] ∧ X'.row i = [b i, a i])
    (hY : ∀ j < Y.rows, Y.row j = [c j, d j] ∧ Y'.row j = [d j, c j]) :
    (dtw A (callWith M o x' y')).map Result.core = (dtw A (callWith M o x y)).map Result.core := by
  refine callWith_core A hx hy hc hx' hy' hc' hr hs fun i hi j hj => ?_
  rw [(hX i hi).1, (hX i hi).2, (hY j hj).1, (hY j hj).2]
  generalize a i = a
  generalize b i = b
  generalize c j = c
  generalize d j = d
  have k1 : ∀ f, cityblock (binary64 f) [b, a] [d, c] = cityblock (binary64 f) [a, b] [c, d] := by
    intro f
    show (binary64 f).add ((binary64 f).add (fin 0) _) _ = (binary64 f).add ((binary64 f).add (fin 0) _) _
    rw [zero_add_representable (representable_absSub f _ _), zero_add_representable (representable_absSub f _ _)]
    exact add_comm_any _ _
  have k2 : sqEuclidean (binary64 false) [b, a] [d, c] = sqEuclidean (binary64 false) [a, b] [c, d] := by
    have hmul : ∀ e, Representable (binary64 false) ((binary64 false).mul e e) := by
      intro e
      cases e with
      | fin q => exact representable_rnd (C20_C22_double_idempotent false) _
      | nan => intro p hp; simp [Arith.mul, Arith.mulWith] at hp
      | pinf => intro p hp; simp [Arith.mul, Arith.mulWith] at hp
      | ninf => intro p hp; simp [Arith.mul, Arith.mulWith] at hp
    show (binary64 false).add ((binary64 false).add (fin 0) ((binary64 false).mul _ _)) ((binary64 false).mul _ _) =
      (binary64 false).add ((binary64 false).add (fin 0) ((binary64 false).mul _ _)) ((binary64 false).mul _ _)
    rw [zero_add_representable (hmul _), zero_add_representable (hmul _)]
    exact add_comm_any _ _
  rcases hM with rfl | hM
  · exact k1 f
  · simp only [metrics, List.mem_cons, List.not_mem_nil, or_false] at hM
    rcases hM with rfl | rfl | rfl | rfl
    · unfold euclidean
      rw [k2]
    · exact k2
    · exact k1 false
    · exact chebyshev_perm (l := [(b, d), (a, c)]) (l' := [(a, c), (b, d)]) (.swap _ _ _)

/-- **C70, negative witness.**  With three features their order can matter in doubles: the cityblock distance of
`(1, 2^-53, 2^-53)` from zero is 1, that of `(2^-53, 2^-53, 1)` is more. -/
theorem C70_order_matters :
    cityblock (binary64 false) [fin 1, fin (1 / 2 ^ 53), fin (1 / 2 ^ 53)] [fin 0, fin 0, fin 0] = fin 1 ∧
    cityblock (binary64 false) [fin (1 / 2 ^ 53), fin (1 / 2 ^ 53), fin 1] [fin 0, fin 0, fin 0] = fin (1 + 1 / 2 ^ 52) := by
  decide +kernel

/-! ### The hypotheses are met -/

/-- Two samples of one feature, and the same with a second feature. -/
def Ex.narrow : Mat F64 := ⟨3, 1, [fin 1, fin 2, fin 4]⟩
def Ex.wide (a b c : ℚ) : Mat F64 := ⟨3, 2, [fin a, fin 1, fin b, fin 2, fin c, fin 4]⟩

theorem Ex.narrow_extra (v : Nat → ℚ) : ExtraColumn 0 (fun i => fin (v i)) Ex.narrow (Ex.wide (v 0) (v 1) (v 2)) where
  rows := rfl
  cols := rfl
  row := by
    intro i hi
    refine ⟨[], Ex.narrow.row i, rfl, rfl, ?_⟩
    have : i = 0 ∨ i = 1 ∨ i = 2 := by simp only [Ex.narrow] at hi; omega
    rcases this with rfl | rfl | rfl <;> rfl

theorem Ex.narrow_series : Series (.d2 Ex.narrow) Ex.narrow (fun i => [[1], [2], [4]].getD i []) 1 where
  mat := .d2 _
  cols := rfl
  row := by decide

/-- `C70_constant_feature` and `C70_more_features` apply to them. -/
example : (dtw (binary64 true) (callWith (euclidean (binary64 true)) Ex.serOpts (.d2 (Ex.wide 5 5 5)) (.d2 (Ex.wide 5 5 5)))).map
      Result.core =
    (dtw (binary64 true) (callWith (euclidean (binary64 true)) Ex.serOpts (.d2 Ex.narrow) (.d2 Ex.narrow))).map Result.core :=
  C70_constant_feature (C20_C22_double_idempotent true) (by simp [metrics]) (.d2 _) (.d2 _) rfl (.d2 _) (.d2 _)
    (Ex.narrow_extra fun _ => 5) (Ex.narrow_extra fun _ => 5)

example (r' : Result) (h : dtw (binary64 true) (callWith (cityblock (binary64 true)) Ex.serOpts (.d2 (Ex.wide 1 2 3))
      (.d2 (Ex.wide 4 9 16))) = .ok r') :
    ∃ r, dtw (binary64 true) (callWith (cityblock (binary64 true)) Ex.serOpts (.d2 Ex.narrow) (.d2 Ex.narrow)) = .ok r ∧
      F64.le r.distance r'.distance :=
  (C70_more_features true (by simp [metrics]) Ex.narrow_series Ex.narrow_series (.d2 _) (.d2 _)
    (Ex.narrow_extra fun i => [1, 2, 3].getD i 0) (Ex.narrow_extra fun i => [4, 9, 16].getD i 0)
    (sensible_free (q := ("symmetric2", Pat.symmetric2)) (by decide) (by decide) (by decide) (by decide +kernel) rfl rfl)
    (by decide) (by
      have : ∀ i < 3, ∀ j < 3, ∃ r ∈ [0, 1, 2, 3], cityblock (binary64 true) (Ex.narrow.row i) (Ex.narrow.row j) = fin r := by
        decide +kernel
      intro i hi j hj
      obtain ⟨r, _, h⟩ := this i hi j hj
      exact ⟨r, h⟩)).1 rfl rfl r' h

/-- `C70_chebyshev_order` applies to three columns with a NaN and an infinity, rotated. -/
example (f : Bool) : (dtw (binary64 f) (callWith (chebyshev (binary64 f)) Ex.serOpts (.d2 ⟨2, 3, [nan, fin 3, fin 1, fin 5, fin 1, fin 0]⟩)
      (.d2 ⟨1, 3, [fin 2, fin 2, pinf]⟩))).map Result.core =
    (dtw (binary64 f) (callWith (chebyshev (binary64 f)) Ex.serOpts (.d2 ⟨2, 3, [fin 1, nan, fin 3, fin 0, fin 5, fin 1]⟩)
      (.d2 ⟨1, 3, [pinf, fin 2, fin 2]⟩))).map Result.core :=
  C70_chebyshev_order (k := 3) (u := fun i => if i = 0 then ![fin 1, nan, fin 3] else ![fin 0, fin 5, fin 1])
    (v := fun _ => ![pinf, fin 2, fin 2]) ⟨![1, 2, 0], ![2, 0, 1], by decide, by decide⟩ (.d2 _) (.d2 _) rfl (.d2 _) (.d2 _) rfl rfl rfl
    (by decide +kernel) (by decide +kernel)

end DTW
