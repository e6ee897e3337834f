import Verif.Props.Metrics
import Verif.Props.Coarse

/-!
# C93: transforming the samples

Clipping, rectifying, and any other map that does not move samples apart never increases the distance, in doubles as computed; maps that
stretch differences by bounded factors change it by these factors.
-/

namespace DTW
open F64

variable {o : Args} {x y : List ℚ} {W : Nat → Nat → Bool} {q : String × StepPattern} {r r' : Result} {φ : ℚ → ℚ} {κ K : ℚ}

/-- `φ` moves no sample of `x` away from one of `y`. -/
def NoFarther (φ : ℚ → ℚ) (x y : List ℚ) : Prop := ∀ s ∈ x, ∀ t ∈ y, |φ s - φ t| ≤ |s - t|

theorem getD_mapped (φ : ℚ → ℚ) {z : List ℚ} {k : Nat} (hk : k < z.length) : (z.map φ).getD k 0 = φ (z.getD k 0) ∧ z.getD k 0 ∈ z := by
  simp [List.getD, hk]

theorem sensible_map (φ ψ : ℚ → ℚ) (h : Sensible o x.length y.length W q) : Sensible o (x.map φ).length (y.map ψ).length W q := by
  simpa using h

theorem NoFarther.noOverflow (hφ : NoFarther φ x y) (h : NoOverflow x y) : NoOverflow (x.map φ) (y.map φ) := by
  intro i hi j hj
  rw [List.length_map] at hi hj
  obtain ⟨e1, m1⟩ := getD_mapped φ hi
  obtain ⟨e2, m2⟩ := getD_mapped φ hj
  obtain ⟨d, hd⟩ := h i hi j hj
  rw [e1, e2]
  have hle := hφ _ m1 _ m2
  have hd' := rnd64_abs hd
  have h1 : ∃ d', rnd64 |φ (x.getD i 0) - φ (y.getD j 0)| = fin d' := by
    have hm := rnd64_mono hle
    have h0 := rnd64_mono (abs_nonneg (φ (x.getD i 0) - φ (y.getD j 0)))
    rw [hd'] at hm
    rw [show rnd64 0 = fin 0 from (binary64 false).rnd_zero] at h0
    cases h : rnd64 |φ (x.getD i 0) - φ (y.getD j 0)| with
    | fin d' => exact ⟨d', rfl⟩
    | nan => exact absurd h ((binary64 false).rnd_ne_nan _)
    | pinf => rw [h] at hm; simp [F64.lt] at hm
    | ninf => rw [h] at h0; simp [F64.lt] at h0
  obtain ⟨d', hd'⟩ := h1
  rcases abs_cases (φ (x.getD i 0) - φ (y.getD j 0)) with ⟨e, _⟩ | ⟨e, _⟩
  · exact ⟨d', by rw [← e]; exact hd'⟩
  · rw [e, rnd64_neg] at hd'
    cases h : rnd64 (φ (x.getD i 0) - φ (y.getD j 0)) with
    | fin z => exact ⟨z, rfl⟩
    | nan => rw [h] at hd'; cases hd'
    | pinf => rw [h] at hd'; cases hd'
    | ninf => rw [h] at hd'; cases hd'

theorem NoFarther.gap (hφ : NoFarther φ x y) (hO : NoOverflow x y) {i j : Nat} (hi : i < x.length) (hj : j < y.length) :
    roundedGap (x.map φ) (y.map φ) i j ≤ roundedGap x y i j := by
  obtain ⟨e1, m1⟩ := getD_mapped φ hi
  obtain ⟨e2, m2⟩ := getD_mapped φ hj
  obtain ⟨d, hd⟩ := hO i hi j hj
  obtain ⟨d', hd'⟩ := hφ.noOverflow hO i (by simpa using hi) j (by simpa using hj)
  rw [roundedGap_of hd, roundedGap_of hd']
  rw [e1, e2] at hd'
  have := rnd64_mono (hφ _ m1 _ m2)
  rw [rnd64_abs hd, rnd64_abs hd'] at this
  simpa [F64.lt] using this

/-- **C93**, doubles, as computed.  Clipping, rectifying, or any map of the samples that moves no sample of the query away from one of
the reference: the call on the mapped series succeeds whenever the call on the original ones does, with a distance that is not larger;
with an open end or beginning the normalized distance is not larger. -/
theorem C93_doubles (f : Bool) {M M' : List F64 → List F64 → F64} (hφ : NoFarther φ x y) (hO : NoOverflow x y) (hM : IsGap M x y)
    (hM' : IsGap M' (x.map φ) (y.map φ)) (h : Sensible o x.length y.length W q) (hne : q.1 ≠ "_symmetricVelichkoZagoruyko") :
    (o.openBegin = false → o.openEnd = false → dtw (binary64 f) (askWith M o x y) = .ok r →
      ∃ r', dtw (binary64 f) (askWith M' o (x.map φ) (y.map φ)) = .ok r' ∧ F64.le r'.distance r.distance) ∧
    (dtw (binary64 f) (askWith M o x y) = .ok r → dtw (binary64 f) (askWith M' o (x.map φ) (y.map φ)) = .ok r' →
      (o.openEnd = false → F64.le r'.distance r.distance) ∧
      (q.2.hint ≠ "NA" → F64.le r'.normalizedDistance r.normalizedDistance)) := by
  have hP := askWith_problem h hM
  have hP' := askWith_problem (o := o) (x := x.map φ) (y := y.map φ) (W := W) (q := q) (sensible_map φ φ h) hM'
  rw [List.length_map, List.length_map] at hP'
  have hw := C12_C14_C15_bundled_double f q h.mem hne
  have hle : ∀ i < x.length, ∀ j < y.length, F64.le (fin (roundedGap (x.map φ) (y.map φ) i j)) (fin (roundedGap x y i j)) := by
    intro i hi j hj
    rw [F64.le_fin]
    exact hφ.gap hO hi hj
  exact ⟨fun hob hoe hr => C12_monotone_in_costs hP' hP hob hoe hob hoe hw hle hr,
    fun hr hr' => C12_any_ends (a := askWith M' o (x.map φ) (y.map φ)) (a' := askWith M o x y) hP' hP rfl rfl hw hle hr' hr⟩

/-- **C93**, exact arithmetic.  A map of the samples that shrinks or stretches the difference of every sample of the query and every sample
of the reference by a factor between `κ` and `K` changes the distance by a factor between `κ` and `K`; the two calls succeed together. -/
theorem C93_exact (hφ : ∀ s ∈ x, ∀ t ∈ y, κ * |s - t| ≤ |φ s - φ t| ∧ |φ s - φ t| ≤ K * |s - t|) (hκ : 0 < κ)
    (h : Sensible o x.length y.length W q) (hob : o.openBegin = false) (hoe : o.openEnd = false)
    (hne : q.1 ≠ "_symmetricVelichkoZagoruyko") :
    ((∃ r, dtw Arith.exact (ask o x y) = .ok r) ↔ ∃ r', dtw Arith.exact (ask o (x.map φ) (y.map φ)) = .ok r') ∧
    ∀ r r', dtw Arith.exact (ask o x y) = .ok r → dtw Arith.exact (ask o (x.map φ) (y.map φ)) = .ok r' →
      ∃ c c', r.distance = fin c ∧ r'.distance = fin c' ∧ κ * c ≤ c' ∧ c' ≤ K * c := by
  have hP := ask_problem h
  have hP' := ask_problem (o := o) (x := x.map φ) (y := y.map φ) (W := W) (q := q) (sensible_map φ φ h)
  rw [List.length_map, List.length_map] at hP'
  have hw := C12_bundled_weights q h.mem hne
  have hg : ∀ i < x.length, ∀ j < y.length, gap (x.map φ) (y.map φ) i j = |φ (x.getD i 0) - φ (y.getD j 0)| ∧
      x.getD i 0 ∈ x ∧ y.getD j 0 ∈ y := by
    intro i hi j hj
    obtain ⟨e1, m1⟩ := getD_mapped φ hi
    obtain ⟨e2, m2⟩ := getD_mapped φ hj
    exact ⟨by unfold gap; rw [e1, e2], m1, m2⟩
  have ho : SameOptions (ask o x y) (ask o (x.map φ) (y.map φ)) := ⟨rfl, rfl, rfl, rfl⟩
  have ho' : SameOptions (ask o (x.map φ) (y.map φ)) (ask o x y) := ⟨rfl, rfl, rfl, rfl⟩
  refine ⟨C62_existence hP hP' ho, fun r r' hr hr' => ?_⟩
  obtain ⟨c, c', e, e', -, up⟩ := C92_squares_upper hP hP' ho hob hoe (fun i _ j _ => abs_nonneg _) hr hr'
  obtain ⟨d', d, e1', e1, -, dn⟩ := C92_squares_upper hP' hP ho' hob hoe (fun i _ j _ => abs_nonneg _) hr' hr
  obtain rfl := F64.fin.inj (e.symm.trans e1)
  obtain rfl := F64.fin.inj (e'.symm.trans e1')
  refine ⟨c, c', e, e', ?_, up K hw fun i hi j hj => ?_⟩
  · have := dn κ⁻¹ hw fun i hi j hj => by
      obtain ⟨g, m1, m2⟩ := hg i hi j hj
      rw [g]
      have := (hφ _ m1 _ m2).1
      rw [inv_mul_eq_div, le_div_iff₀ hκ, mul_comm]
      exact this
    rw [inv_mul_eq_div, le_div_iff₀ hκ, mul_comm] at this
    exact this
  · obtain ⟨g, m1, m2⟩ := hg i hi j hj
    rw [g]
    exact (hφ _ m1 _ m2).2

/-- **C93** Clipping to an interval, rectifying and cutting off below (or above) a level move no two samples apart, nor does anything made
of such steps. -/
theorem C93_maps (lo hi : ℚ) : NoFarther (fun u => max lo (min hi u)) x y ∧ NoFarther (fun u => |u|) x y ∧ NoFarther (max lo) x y ∧
    NoFarther (min hi) x y ∧ (∀ ψ : ℚ → ℚ, NoFarther φ x y → NoFarther ψ (x.map φ) (y.map φ) → NoFarther (fun u => ψ (φ u)) x y) := by
  have hmax : ∀ s t : ℚ, |max lo s - max lo t| ≤ |s - t| := fun s t => by
    have := abs_max_sub_max_le_max lo s lo t
    simpa using this
  have hmin : ∀ s t : ℚ, |min hi s - min hi t| ≤ |s - t| := fun s t => by
    have := abs_min_sub_min_le_max hi s hi t
    simpa using this
  refine ⟨fun s _ t _ => (hmax _ _).trans (hmin _ _), fun s _ t _ => abs_abs_sub_abs_le_abs_sub s t, fun s _ t _ => hmax s t,
    fun s _ t _ => hmin s t, fun ψ h1 h2 s hs t ht => ?_⟩
  exact (h2 _ (List.mem_map_of_mem hs) _ (List.mem_map_of_mem ht)).trans (h1 s hs t ht)

/-! ### Examples -/

/-- Clipping a query and a reference to [0, 3]. -/
example : ∃ r r', dtw (binary64 false) (askWith (cityblock (binary64 false)) Ex.serOpts [-1, 0, 2, 5] [1, 2, 4]) = .ok r ∧
    dtw (binary64 false) (askWith (cityblock (binary64 false)) Ex.serOpts [0, 0, 2, 3] [1, 2, 3]) = .ok r' ∧
    F64.le r'.distance r.distance := by
  have hO : NoOverflow [-1, 0, 2, 5] [1, 2, 4] := Ex.small_noOverflow (by decide +kernel) (by decide +kernel)
  have hφ : NoFarther (fun u => max 0 (min 3 u)) [-1, 0, 2, 5] [1, 2, 4] := (C93_maps (φ := id) 0 3).1
  obtain ⟨r, hr⟩ := Ex.get_ok (x := dtw (binary64 false) (askWith (cityblock (binary64 false)) Ex.serOpts [-1, 0, 2, 5] [1, 2, 4]))
    (by decide +kernel)
  obtain ⟨r', hr', hle⟩ := (C93_doubles (r' := r) false (q := ("symmetric2", Pat.symmetric2)) hφ hO (isGap_cityblock false hO)
    (isGap_cityblock false (hφ.noOverflow hO)) (sensible_free (by decide) (by decide) (by decide) Ex.sym2_mem rfl rfl) (by decide)).1 rfl rfl hr
  have e : ([-1, 0, 2, 5] : List ℚ).map (fun u => max 0 (min 3 u)) = [0, 0, 2, 3] ∧
      ([1, 2, 4] : List ℚ).map (fun u => max 0 (min 3 u)) = [1, 2, 3] := by decide +kernel
  rw [e.1, e.2] at hr'
  exact ⟨r, r', hr, hr', hle⟩

/-- Halving or doubling: a map with bounded factors that is neither. -/
example : (∀ s ∈ ([0, 1, 3] : List ℚ), ∀ t ∈ ([0, 2, 4] : List ℚ),
      (1/2) * |s - t| ≤ |(if s ≤ 2 then s / 2 else 2 * s - 3) - (if t ≤ 2 then t / 2 else 2 * t - 3)| ∧
      |(if s ≤ 2 then s / 2 else 2 * s - 3) - (if t ≤ 2 then t / 2 else 2 * t - 3)| ≤ 2 * |s - t|) ∧
    Sensible Ex.serOpts 3 3 (fun _ _ => true) ("symmetric2", Pat.symmetric2) ∧
    (dtw Arith.exact (ask Ex.serOpts [0, 1, 3] [0, 2, 4])).toBool = true :=
  ⟨by decide +kernel, sensible_free (by decide) (by decide) (by decide) Ex.sym2_mem rfl rfl, by decide +kernel⟩

end DTW
