import Verif.DemoData
import Verif.Props.TextFiles
import Verif.Proofs.SlantedProof
import Verif.Props.Totality

/-!
# C73: the demonstration data
-/

namespace DTW
open F64 Read

/-- A text with one word per line. -/
def onePerLine (ws : List Txt) : Txt := (ws.map (· ++ ['\n'])).flatten

theorem splitWords_onePerLine {ws : List Txt} (h : ∀ w ∈ ws, Read.Word w) : splitWords (onePerLine ws) = ws := by
  induction ws with
  | nil => rfl
  | cons w ws ih =>
    have hw := h w (by simp)
    have e : onePerLine (w :: ws) = w ++ ('\n' :: onePerLine ws) := by simp [onePerLine]
    rw [e, splitWords_word hw.1 (fun c hc => not_space_of_visible (hw.2 c hc).1)]
    · have := splitWords_blanks (s := ['\n']) (by decide) (onePerLine ws)
      simp only [List.singleton_append] at this
      rw [this, ih (fun w hw => h w (by simp [hw]))]
    · intro c hc
      simp only [List.head?_cons, Option.mem_def, Option.some.injEq] at hc
      subst hc
      decide

/-- Timestamps, with their error. -/
theorem timestamp_near {k : ℕ} (hk : k ≤ 2 ^ 38) :
    ∃ t, timestamp k = fin t ∧ |t - k * (25 / 18)| ≤ k * (25 / 18) * (3 / 2 ^ 53) := by
  rcases Nat.eq_zero_or_pos k with rfl | h0
  · exact ⟨0, by decide +kernel, by norm_num⟩
  have h1 : (1 : ℚ) ≤ k := by exact_mod_cast h0
  have h2 : (k : ℚ) ≤ 274877906944 := by exact_mod_cast (by simpa using hk : k ≤ 274877906944)
  have hx0 : (0 : ℚ) ≤ k / 720 := by positivity
  obtain ⟨q, hq, hqe⟩ := rnd_err false (x := (k : ℚ) / 720) (.inr ⟨by
    rw [abs_of_nonneg hx0]; norm_num; linarith, by rw [abs_of_nonneg hx0]; norm_num; linarith⟩)
  rw [abs_of_nonneg hx0] at hqe
  obtain ⟨l1, l2⟩ := abs_le.1 hqe
  have hq0 : (0 : ℚ) ≤ q * 1000 := by
    have : (k : ℚ) / 720 / 2 ^ 53 ≤ k / 720 := div_le_self hx0 (by norm_num)
    linarith
  have hqlo : (k : ℚ) / 720 - k / 720 / 2 ^ 53 ≤ q := by linarith
  have hqhi : q ≤ (k : ℚ) / 720 + k / 720 / 2 ^ 53 := by linarith
  obtain ⟨t, ht, hte⟩ := rnd_err false (x := q * 1000) (.inr ⟨by
    rw [abs_of_nonneg hq0]; norm_num at hqlo ⊢; linarith, by rw [abs_of_nonneg hq0]; norm_num at hqhi ⊢; linarith⟩)
  rw [abs_of_nonneg hq0] at hte
  obtain ⟨m1, m2⟩ := abs_le.1 hte
  refine ⟨t, ?_, ?_⟩
  · have e1 : rnd64 ((k : ℚ) / 720) = fin q := hq
    have e2 : rnd64 (q * 1000) = fin t := ht
    simp only [timestamp, e1, e2]
  · rw [abs_le]
    norm_num at hqlo hqhi m1 m2 ⊢
    constructor <;> linarith

/-- **C73** The time stamps of the demonstration data (in ms, at 720 Hz) start with 0, are right up to a relative error of
3·2^-53, and increase strictly (up to 2^38 samples, 12 years). -/
theorem C73_timestamps :
    timestamp 0 = fin 0 ∧
    (∀ k : ℕ, k ≤ 2 ^ 38 → ∃ t, timestamp k = fin t ∧ |t - k * (1000 / 720)| ≤ k * (1000 / 720) * (3 / 2 ^ 53)) ∧
    ∀ k l : ℕ, k < l → l ≤ 2 ^ 38 → ∃ s t, timestamp k = fin s ∧ timestamp l = fin t ∧ s < t := by
  refine ⟨by decide +kernel, fun k hk => ?_, fun k l hkl hl => ?_⟩
  · obtain ⟨t, h1, h2⟩ := timestamp_near hk
    refine ⟨t, h1, ?_⟩
    norm_num at h2 ⊢
    exact h2
  · obtain ⟨s, hs, es⟩ := timestamp_near (k := k) (by omega)
    obtain ⟨t, ht, et⟩ := timestamp_near hl
    refine ⟨s, t, hs, ht, ?_⟩
    have h1 : (k : ℚ) + 1 ≤ l := by exact_mod_cast hkl
    have h2 : (l : ℚ) ≤ 274877906944 := by exact_mod_cast (by simpa using hl : l ≤ 274877906944)
    obtain ⟨-, a⟩ := abs_le.1 es
    obtain ⟨b, -⟩ := abs_le.1 et
    norm_num at a b
    linarith

/-- **C73** (negative) The time stamps are not exact: sample 2898 is at 4025 ms, but its time stamp is not 4025. -/
theorem C73_not_exact : (2898 : ℚ) * (1000 / 720) = 4025 ∧ timestamp 2898 ≠ fin 4025 := by
  refine ⟨by norm_num, by decide +kernel⟩

/-- **C73** Reading a file of decimal numerals, one per line: the table has two rows, the time stamps and the doubles nearest to
the numbers, one column per number. -/
theorem C73_table {ws : List Txt} {qs : List ℚ} (hw : ∀ w ∈ ws, Read.Word w) (hn : List.Forall₂ Numeral ws qs) :
    aamiTable (onePerLine ws) =
      some [(List.range qs.length).map timestamp, qs.map fun q => (binary64 false).rnd q] := by
  unfold aamiTable fromString
  rw [splitWords_onePerLine hw]
  have h : ws.mapM (pyFloat (binary64 false)) = some (qs.map fun q => (binary64 false).rnd q) := by
    clear hw
    induction hn with
    | nil => rfl
    | cons h1 _ ih =>
      rw [List.mapM_cons, ih, pyFloat_numeral _ (fun q => rnd64_neg q) h1]
      rfl
  rw [h]
  simp

/-- **C73** `aami()`: both tables, if both files consist of numerals, one per line. -/
theorem C73_aami {ws vs : List Txt} {qs rs : List ℚ} (hw : ∀ w ∈ ws, Read.Word w) (hv : ∀ w ∈ vs, Read.Word w)
    (hq : List.Forall₂ Numeral ws qs) (hr : List.Forall₂ Numeral vs rs) :
    aami (onePerLine ws) (onePerLine vs) =
      some ([(List.range qs.length).map timestamp, qs.map fun q => (binary64 false).rnd q],
        [(List.range rs.length).map timestamp, rs.map fun q => (binary64 false).rnd q]) := by
  simp only [aami, C73_table hw hq, C73_table hv hr]

/-- The beginning of data/aami3a.csv. -/
example : aamiTable (onePerLine [['0', '.', '1', '8', '5'], ['0', '.', '1', '8', '5'], ['0', '.', '1', '6', '9']]) =
    some [[fin 0, timestamp 1, timestamp 2],
      [rnd64 (185 / 1000), rnd64 (185 / 1000), rnd64 (169 / 1000)]] := by
  decide +kernel

/-- The abscissae of `sin_cos`: 100 strictly increasing numbers from 0 to 6.28 (rounded). -/
theorem C73_abscissae :
    sinCosIndex.length = 100 ∧ sinCosIndex.head? = some (fin 0) ∧ sinCosIndex.getLast? = some (rnd64 (628 / 100)) ∧
    sinCosIndex.Pairwise fun x y => F64.lt x y = true := by
  decide +kernel

/-- The abscissae are equally spaced: element `k` is `k * 6.28 / 99` up to 2^-49. -/
theorem C73_equally_spaced (k : Nat) (hk : k < 100) :
    ∃ q : ℚ, sinCosIndex[k]? = some (fin q) ∧ |q - k * (628 / 9900)| ≤ 1 / 2 ^ 49 := by
  have key : ((List.range 100).all fun k => match sinCosIndex[k]? with
      | some (fin q) => decide (-(1 / 2 ^ 49) ≤ q - k * (628 / 9900) ∧ q - k * (628 / 9900) ≤ 1 / 2 ^ 49)
      | _ => false) = true := by decide +kernel
  have h := List.all_eq_true.1 key k (List.mem_range.2 hk)
  split at h
  · rename_i q hq
    exact ⟨q, hq, abs_le.2 (of_decide_eq_true h)⟩
  · cases h

/-- **C73** `sin_cos()`: whatever noise is drawn from [0, 1/10], and for any `sin`, `cos` with values in [-1, 1], both series
have 100 finite samples, the reference within [-1, 1], the query within [-1, 1.1] (11/10 rounded). -/
theorem C73_sin_cos {sin cos : F64 → F64} {noise : List F64}
    (hs : ∀ x, ∃ q : ℚ, sin x = fin q ∧ -1 ≤ q ∧ q ≤ 1) (hc : ∀ x, ∃ q : ℚ, cos x = fin q ∧ -1 ≤ q ∧ q ≤ 1)
    (hlen : noise.length = 100) (hu : ∀ u ∈ noise, ∃ q : ℚ, u = fin q ∧ 0 ≤ q ∧ q ≤ 1 / 10) :
    (sinCos sin cos noise).1.length = 100 ∧ (sinCos sin cos noise).2.length = 100 ∧
    (∀ x ∈ (sinCos sin cos noise).1, ∃ q v : ℚ, x = fin q ∧ rnd64 (11 / 10) = fin v ∧ -1 ≤ q ∧ q ≤ v) ∧
    (∀ x ∈ (sinCos sin cos noise).2, ∃ q : ℚ, x = fin q ∧ -1 ≤ q ∧ q ≤ 1) := by
  have hi : sinCosIndex.length = 100 := C73_abscissae.1
  refine ⟨by simp [sinCos, hi, hlen], by simp [sinCos, hi], ?_, ?_⟩
  · intro x hx
    simp only [sinCos] at hx
    obtain ⟨k, hk, rfl⟩ := List.getElem_of_mem hx
    rw [List.getElem_zipWith]
    obtain ⟨a, ha, a1, a2⟩ := hs (sinCosIndex[k]'(by simp at hk; omega))
    obtain ⟨b, hb, b1, b2⟩ := hu (noise[k]'(by simp at hk; omega)) (List.getElem_mem _)
    rw [ha, hb]
    have e : (binary64 false).add (fin a) (fin b) = rnd64 (a + b) := rfl
    rw [e]
    have lo : ((-1 : ℤ) : ℚ) ≤ a + b := by push_cast; linarith
    have hi2 : a + b ≤ ((2 : ℤ) : ℚ) := by push_cast; linarith
    obtain ⟨q, hq, q1, -⟩ := rnd_between false (by norm_num) (by norm_num) lo hi2
    obtain ⟨v, hv, -, -⟩ := rnd_between false (lo := 1) (hi := 2) (x := 11 / 10) (by norm_num) (by norm_num) (by norm_num) (by norm_num)
    have hq' : rnd64 (a + b) = fin q := hq
    have hv' : rnd64 (11 / 10) = fin v := hv
    have hm := rnd64_mono (a := a + b) (b := 11 / 10) (by linarith)
    rw [hq', hv'] at hm
    refine ⟨q, v, hq', hv', by push_cast at q1; exact q1, ?_⟩
    simpa [F64.lt] using hm
  · intro x hx
    simp only [sinCos, List.mem_map] at hx
    obtain ⟨y, -, rfl⟩ := hx
    exact hc y

/-- A one-dimensional series of finite samples. -/
theorem finiteSeries_column {z : List F64} (h : ∀ x ∈ z, ∃ q : ℚ, x = fin q ∧ |q| ≤ 2 ^ (400 : ℤ)) :
    ∃ u, FiniteSeries (.d1 z) ⟨z.length, 1, z⟩ u 1 := by
  have e : z = (z.map number).map fin := by
    rw [List.map_map]
    conv_lhs => rw [← List.map_id z]
    refine List.map_congr_left fun x hx => ?_
    obtain ⟨q, rfl, -⟩ := h x hx
    rfl
  refine ⟨fun i => [(z.map number).getD i 0], ⟨.d1 z, rfl, fun i hi => ⟨?_, rfl⟩⟩, by norm_num, fun i hi w hw => ?_⟩
  · have hi' : i < (z.map number).length := by simpa using hi
    have := column_row (z.map number) i hi'
    rw [← e] at this
    exact this
  · have hi' : i < z.length := hi
    rw [List.mem_singleton] at hw
    subst hw
    obtain ⟨q, h1, h2⟩ := h z[i] (List.getElem_mem hi')
    simp only [List.getD, List.getElem?_map, List.getElem?_eq_getElem hi', Option.map_some, Option.getD_some, h1]
    exact h2

/-- **C73** The first steps of the documentation: `dtw(query, reference)` on the data of `sin_cos()`, with any pattern without
slope bounds (the default `symmetric2`) and any of the four metrics, always succeeds, with a finite distance. -/
theorem C73_quick_start (f : Bool) {sin cos : F64 → F64} {noise : List F64}
    (hs : ∀ x, ∃ q : ℚ, sin x = fin q ∧ -1 ≤ q ∧ q ≤ 1) (hc : ∀ x, ∃ q : ℚ, cos x = fin q ∧ -1 ≤ q ∧ q ≤ 1)
    (hlen : noise.length = 100) (hu : ∀ u ∈ noise, ∃ q : ℚ, u = fin q ∧ 0 ≤ q ∧ q ≤ 1 / 10)
    {M : List F64 → List F64 → F64} (hM : M ∈ metrics (binary64 f)) {o : Args} {q : String × StepPattern} (hq : q ∈ Pat.table)
    (hp : o.stepPattern = .name q.1)
    (hq' : q.1 ∈ ["symmetric1", "symmetric2", "symmetricP0", "asymmetricP0", "_asymmetricP0b", "_symmetricVelichkoZagoruyko"])
    (hw : canonWindow o.windowType = .noWindow) (hob : o.openBegin = false) (hoe : o.openEnd = false) :
    ∃ r, dtw (binary64 f) (callWith M o (.d1 (sinCos sin cos noise).1) (.d1 (sinCos sin cos noise).2)) = .ok r ∧
      ∃ d : ℚ, r.distance = fin d ∧ IsDouble d := by
  obtain ⟨l1, l2, b1, b2⟩ := C73_sin_cos hs hc hlen hu
  have two : (2 : ℚ) ≤ 2 ^ (400 : ℤ) := _root_.le_trans (by norm_num) (two_zpow_le (show (1 : ℤ) ≤ 400 by norm_num))
  obtain ⟨v, hv, -, v2⟩ := rnd_between false (lo := 1) (hi := 2) (x := 11 / 10) (by norm_num) (by norm_num) (by norm_num) (by norm_num)
  obtain ⟨u1, h1⟩ := finiteSeries_column (z := (sinCos sin cos noise).1) (fun x hx => by
    obtain ⟨q, w, rfl, hw, q1, q2⟩ := b1 x hx
    have hv' : rnd64 (11 / 10) = fin v := hv
    rw [hv'] at hw
    injection hw with hw
    subst hw
    push_cast at v2
    exact ⟨q, rfl, (abs_le.2 ⟨by linarith, by linarith⟩ : |q| ≤ 2).trans two⟩)
  obtain ⟨u2, h2⟩ := finiteSeries_column (z := (sinCos sin cos noise).2) (fun x hx => by
    obtain ⟨q, rfl, q1, q2⟩ := b2 x hx
    exact ⟨q, rfl, (abs_le.2 ⟨by linarith, by linarith⟩ : |q| ≤ 2).trans two⟩)
  refine C74_default_call f hM h1 h2 (q := q) ?_ hq' hob hoe
  refine sensible_free ?_ ?_ ?_ hq hp hw
  · show 0 < (sinCos sin cos noise).1.length
    omega
  · show 0 < (sinCos sin cos noise).2.length
    omega
  · show ((sinCos sin cos noise).1.length + 1) * (sinCos sin cos noise).2.length < 2147483648
    rw [l1, l2]
    norm_num

/-- The hypotheses are met. -/
example (f : Bool) : ∃ r, dtw (binary64 f) (callWith (euclidean (binary64 f)) Ex.serOpts
    (.d1 (sinCos (fun _ => fin (1 / 2)) (fun _ => fin (-1)) (List.replicate 100 (fin (1 / 16)))).1)
    (.d1 (sinCos (fun _ => fin (1 / 2)) (fun _ => fin (-1)) (List.replicate 100 (fin (1 / 16)))).2)) = .ok r ∧
      ∃ d : ℚ, r.distance = fin d ∧ IsDouble d := by
  refine C73_quick_start f (fun _ => ⟨1 / 2, rfl, by norm_num, by norm_num⟩) (fun _ => ⟨-1, rfl, by norm_num, by norm_num⟩) (by simp)
    (fun u hu => ⟨1 / 16, List.eq_of_mem_replicate hu, by norm_num, by norm_num⟩) (by simp [metrics]) Ex.sym2_mem rfl (by simp) rfl
    rfl rfl

end DTW
