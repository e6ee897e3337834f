import Verif.Props.Subsequence
import Verif.Props.Invariance
import Verif.Props.Witnesses
import Verif.Props.Count
import Verif.Props.AnyEnds

/-!
# C59, C54, C55 in any arithmetic: searching a reference for the query

The statements of `Props/Subsequence.lean` for any rounding of the additions (double precision in particular), and what a
distance of zero then means.
-/

namespace DTW
open F64

variable {A : Arith} {a : Args} {n m : Nat} {L : Nat → Nat → F64} {ℓ : Nat → Nat → ℚ} {W : Nat → Nat → Bool}
  {p : StepPattern} {rs : List Rule} {r : Result}

/-- The total cost of matching query element `i` to reference element `f i`, for `i = 0, …, n-1`, added up from left to
right in the arithmetic `A`. -/
def fnSum (A : Arith) (L : Nat → Nat → F64) (n : Nat) (f : Nat → Nat) : F64 :=
  (List.range n).foldl (fun acc i => A.mac acc (A.rnd 1) (L i (f i))) (fin 0)

theorem fnSum_succ (L : Nat → Nat → F64) (n : Nat) (f : Nat → Nat) :
    fnSum A L (n + 1) f = A.mac (fnSum A L n f) (A.rnd 1) (L n (f n)) := by
  simp [fnSum, List.range_succ]

theorem fnSum_congr (L : Nat → Nat → F64) {n : Nat} {f g : Nat → Nat} (h : ∀ i < n, f i = g i) :
    fnSum A L n f = fnSum A L n g := by
  induction n with
  | zero => rfl
  | succ n ih => rw [fnSum_succ, fnSum_succ, ih fun i hi => h i (by omega), h n (by omega)]

theorem charge_one_any (L : Nat → Nat → F64) {q : Rule} (hr : q.terms = [⟨0, 0, 1⟩]) (i j : Nat) (c : F64) :
    charge A (fun i' j' => if i' = 0 then fin 0 else L (i' - 1) j') q (i + 1) j c = A.mac c (A.rnd 1) (L i j) := by
  simp [charge, hr]

theorem FnRules.ofOpen_any {jump : Nat → Nat → Prop} (hF : FnRules rs jump) {j0 : Nat} {ks : List Int} {i j : Nat}
    {c : F64} (h : OpenPath A rs W L j0 ks i j c) :
    ∃ f : Nat → Nat, c = fnSum A L i f ∧ (i = 0 → j = j0) ∧ (0 < i → f (i - 1) = j) ∧ (0 < i → jump j0 (f 0)) ∧
      (∀ t, t + 1 < i → jump (f t) (f (t + 1))) ∧ (∀ t < i, W (t + 1) (f t) = true) ∧ (∀ t < i, f t ≤ j) := by
  induction h with
  | start => exact ⟨fun _ => 0, by simp [fnSum], fun _ => rfl, by omega, by omega, by omega, by omega, by omega⟩
  | @step ks i j c k q _ hr h0 hW ih =>
    obtain ⟨f, rfl, h1, h2, h3, h4, h5, h6⟩ := ih
    obtain ⟨e1, e2, e3⟩ := hF.rule q (List.mem_of_getElem? hr)
    rw [e1] at hW ⊢
    let g : Nat → Nat := fun t => if t = i then j + q.b else f t
    have hg : ∀ t, t < i → g t = f t := fun t ht => if_neg (by omega)
    have hgi : g i = j + q.b := if_pos rfl
    refine ⟨g, ?_, by omega, ?_, ?_, ?_, ?_, ?_⟩
    · rw [charge_one_any L e2, fnSum_succ, hgi, fnSum_congr L (g := f) hg]
    · intro _; simpa using hgi
    · intro _
      by_cases hi : i = 0
      · subst hi; rw [hgi, ← h1 rfl]; exact e3 j
      · rw [hg 0 (by omega)]; exact h3 (by omega)
    · intro t ht
      by_cases hti : t + 1 = i
      · rw [hti, hgi, hg t (by omega)]
        have := h2 (by omega)
        rw [show i - 1 = t by omega] at this
        rw [this]; exact e3 j
      · rw [hg t (by omega), hg (t + 1) (by omega)]; exact h4 t (by omega)
    · intro t ht
      by_cases hti : t = i
      · subst hti; rw [hgi]; exact hW
      · rw [hg t (by omega)]; exact h5 t (by omega)
    · intro t ht
      by_cases hti : t = i
      · subst hti; rw [hgi]
      · rw [hg t (by omega)]; have := h6 t (by omega); omega

theorem FnRules.toOpen_any {jump : Nat → Nat → Prop} (hF : FnRules rs jump) {f : Nat → Nat} {j0 : Nat} :
    ∀ (i : Nat), jump j0 (f 0) → (∀ t, t + 1 < i + 1 → jump (f t) (f (t + 1))) → (∀ t < i + 1, W (t + 1) (f t) = true) →
      ∃ ks, OpenPath A rs W L j0 ks (i + 1) (f i) (fnSum A L (i + 1) f) := by
  intro i
  induction i with
  | zero =>
    intro h0 _ hW
    obtain ⟨q, hq, hj⟩ := hF.has _ _ h0
    obtain ⟨e1, e2, _⟩ := hF.rule q hq
    obtain ⟨k, hk⟩ := List.mem_iff_getElem?.1 hq
    have hs := OpenPath.step k q (OpenPath.start (A := A) (rs := rs) (W := W) (L := L)
      (j0 := j0)) hk (by omega) (by rw [e1, ← hj]; exact hW 0 (by omega))
    rw [e1, ← hj, charge_one_any L e2] at hs
    exact ⟨[] ++ [(k : Int) + 1], by simpa [fnSum] using hs⟩
  | succ i ih =>
    intro h0 hj hW
    obtain ⟨ks, hp⟩ := ih h0 (fun t ht => hj t (by omega)) (fun t ht => hW t (by omega))
    obtain ⟨q, hq, hb⟩ := hF.has _ _ (hj i (by omega))
    obtain ⟨e1, e2, _⟩ := hF.rule q hq
    obtain ⟨k, hk⟩ := List.mem_iff_getElem?.1 hq
    have hs := OpenPath.step k q hp hk (by omega) (by rw [e1, ← hb]; exact hW (i + 1) (by omega))
    rw [e1, ← hb, charge_one_any L e2] at hs
    exact ⟨ks ++ [(k : Int) + 1], by rw [fnSum_succ L (i + 1) f]; exact hs⟩

theorem IsPlacement.path {jump : Nat → Nat → Prop} {ce : Bool} (hF : FnRules rs jump) {f : Nat → Nat} (hn : 0 < n)
    (hf : IsPlacement jump W ce n m f) :
    ∃ j0 ks, OpenPath A rs W L j0 ks n (f (n - 1)) (fnSum A L n f) := by
  obtain ⟨n, rfl⟩ : ∃ n', n = n' + 1 := ⟨n - 1, by omega⟩
  obtain ⟨j0, h0⟩ := hf.first
  obtain ⟨ks, hp⟩ := hF.toOpen_any (A := A) (L := L) n h0 hf.jumps hf.window
  exact ⟨j0, ks, hp⟩

theorem FnRules.placement {jump : Nat → Nat → Prop} (hF : FnRules rs jump) {j0 : Nat} {ks : List Int} {j : Nat}
    {c : F64} {ce : Bool} (hn : 0 < n) (h : OpenPath A rs W L j0 ks n j c) (hj : j < m) (hje : ce = true → j = m - 1) :
    ∃ f, IsPlacement jump W ce n m f ∧ f (n - 1) = j ∧ c = fnSum A L n f := by
  obtain ⟨f, rfl, _, h2, h3, h4, h5, h6⟩ := hF.ofOpen_any h
  refine ⟨f, ⟨fun i hi => lt_of_le_of_lt (h6 i hi) hj, ⟨j0, h3 hn⟩, h4, h5, ?_⟩, h2 hn, rfl⟩
  intro hc
  rw [h2 hn]; exact hje hc

/-- **C59 in any arithmetic** (any rounding, any costs, NaN and infinities included).  With a pattern that consumes one query
element per rule and charges the point reached, the open-begin distance is the left-to-right sum of the local costs of one
placement of the query in the reference, the one whose last match is `jmin`; no placement with the same last match has a
smaller sum (NaN sums apart), and with an open end no placement at all has a smaller normalized sum. -/
theorem C59_any_arithmetic {jump : Nat → Nat → Prop} (hF : FnRules rs jump) (h : Problem a n m L W p rs)
    (hob : a.openBegin = true) (hr : dtw A a = .ok r) :
    (∃ f, IsPlacement jump W (!a.openEnd) n m f ∧ r.jmin = f (n - 1) ∧ r.distance = fnSum A L n f) ∧
    (∀ g, IsPlacement jump W (!a.openEnd) n m g → r.jmin = g (n - 1) → fnSum A L n g ≠ nan →
      F64.le r.distance (fnSum A L n g)) ∧
    (a.openEnd = true → ∀ g, IsPlacement jump W false n m g → fnSum A L n g ≠ nan →
      F64.le r.normalizedDistance (A.divQ (fnSum A L n g) n)) := by
  have hn := h.n_pos
  obtain ⟨mp, j, j0, _, hjm, hj, hje, hp, hmin⟩ := C22_open_begin_optimal h hob hr
  refine ⟨?_, ?_, ?_⟩
  · obtain ⟨f, hf, hfj, hd⟩ := hF.placement (ce := !a.openEnd) hn hp hj (fun hc => hje (by simpa using hc))
    exact ⟨f, hf, by rw [hjm, hfj], hd⟩
  · intro g hg hgj hne
    obtain ⟨j0', ks', hp'⟩ := hg.path (A := A) (L := L) hF hn
    have e : g (n - 1) = j := by rw [hjm] at hgj; exact_mod_cast hgj.symm
    rw [e] at hp'
    exact hmin _ _ _ hp' hne
  · intro hoe g hg hne
    obtain ⟨j0', ks', hp'⟩ := hg.path (A := A) (L := L) hF hn
    exact (C22_open_both_optimal h hob hoe hr).2 _ _ _ _ (hg.inside _ (by omega)) hp' hne

/-- **C59 in any arithmetic, success.**  An open-begin call (without `distance_only`) succeeds iff some placement has a
usable sum (not NaN, not positive infinity). -/
theorem C59_any_arithmetic_succeeds_iff {jump : Nat → Nat → Prop} (hA : Idempotent A) (hF : FnRules rs jump)
    (h : Problem a n m L W p rs) (hob : a.openBegin = true) (hdo : a.distanceOnly = false) (hh : p.hint = "N") :
    (∃ r, dtw A a = .ok r) ↔ ∃ f, IsPlacement jump W (!a.openEnd) n m f ∧ usable (fnSum A L n f) := by
  have hn := h.n_pos
  have hm := h.m_pos
  cases hoe : a.openEnd with
  | false =>
    rw [C22_open_begin_succeeds_iff h hob hoe hdo hh]
    constructor
    · rintro ⟨j0, ks, c, hp, hu⟩
      obtain ⟨f, hf, _, rfl⟩ := hF.placement (ce := true) hn hp (by omega) (fun _ => rfl)
      exact ⟨f, hf, hu⟩
    · rintro ⟨f, hf, hu⟩
      obtain ⟨j0, ks, hp⟩ := hf.path (A := A) (L := L) hF hn
      rw [hf.last rfl] at hp
      exact ⟨j0, ks, _, hp, hu⟩
  | true =>
    rw [C22_open_both_succeeds_iff hA h hob hoe hdo hh]
    constructor
    · rintro ⟨j0, ks, j, c, hj, hp, hu⟩
      obtain ⟨f, hf, _, rfl⟩ := hF.placement (ce := false) hn hp hj (by simp)
      exact ⟨f, hf, hu⟩
    · rintro ⟨f, hf, hu⟩
      obtain ⟨j0, ks, hp⟩ := hf.path (A := A) (L := L) hF hn
      exact ⟨j0, ks, _, _, hf.inside _ (by omega), hp, hu⟩

/-! ### Sums of representable non-negative costs -/

theorem mac_one_rnd {x l : ℚ} (h1 : A.rnd 1 = fin 1) (hl : A.rnd l = fin l) :
    A.mac (fin x) (A.rnd 1) (fin l) = A.rnd (x + l) := by
  rw [h1]
  unfold Arith.mac
  split <;> simp [Arith.add, Arith.mul, Arith.mulWith, hl]

theorem mac_pinf_one {l : ℚ} (h1 : A.rnd 1 = fin 1) (hl : A.rnd l = fin l) :
    A.mac pinf (A.rnd 1) (fin l) = pinf := by
  rw [h1]
  unfold Arith.mac
  split <;> simp [Arith.add, Arith.mul, Arith.mulWith, hl]

/-- A left-to-right sum of representable non-negative costs is at least each of them, whatever the rounding. -/
theorem fnSum_ge (h1 : A.rnd 1 = fin 1) {f : Nat → Nat} {n : Nat}
    (hl : ∀ i < n, 0 ≤ ℓ i (f i) ∧ A.rnd (ℓ i (f i)) = fin (ℓ i (f i))) :
    F64.le (fin 0) (fnSum A (fun i j => fin (ℓ i j)) n f) ∧
      ∀ i < n, F64.le (fin (ℓ i (f i))) (fnSum A (fun i j => fin (ℓ i j)) n f) := by
  induction n with
  | zero => exact ⟨by simp [fnSum], by omega⟩
  | succ n ih =>
    obtain ⟨i1, i2⟩ := ih fun i hi => hl i (by omega)
    obtain ⟨l0, lr⟩ := hl n (by omega)
    rw [fnSum_succ]
    cases hs : fnSum A (fun i j => fin (ℓ i j)) n f with
    | nan => rw [hs] at i1; exact absurd rfl i1.2.1
    | ninf => rw [hs] at i1; exact absurd i1.2.2 (by simp [F64.lt])
    | pinf =>
      rw [mac_pinf_one h1 lr]
      refine ⟨by simp [F64.le, F64.lt], fun i _ => by simp [F64.le, F64.lt]⟩
    | fin s =>
      rw [hs] at i1 i2
      rw [mac_one_rnd h1 lr]
      have hs0 : 0 ≤ s := (F64.le_fin _ _).1 i1
      have key : ∀ x : ℚ, A.rnd x = fin x → x ≤ s + ℓ n (f n) → F64.le (fin x) (A.rnd (s + ℓ n (f n))) := by
        intro x hx hle
        refine ⟨by simp, A.rnd_ne_nan _, ?_⟩
        rw [← hx]; exact A.rnd_mono _ _ hle
      refine ⟨key 0 A.rnd_zero (by linarith), ?_⟩
      intro i hi
      by_cases hin : i = n
      · subst hin; exact key _ lr (by linarith)
      · have := (F64.le_fin _ _).1 (i2 i (by omega))
        exact key _ (hl i (by omega)).2 (by linarith)

theorem fnSum_zero (h1 : A.rnd 1 = fin 1) {f : Nat → Nat} {n : Nat} (hl : ∀ i < n, ℓ i (f i) = 0) :
    fnSum A (fun i j => fin (ℓ i j)) n f = fin 0 := by
  induction n with
  | zero => rfl
  | succ n ih =>
    rw [fnSum_succ, ih fun i hi => hl i (by omega), hl n (by omega), mac_one_rnd h1 A.rnd_zero]
    simp [A.rnd_zero]

/-- **C54, open begin.**  Non-negative representable costs, any arithmetic in which 1 is representable, a pattern that
consumes one query element per rule.  The distance is exactly zero iff the query can be placed in the reference so that
every match costs nothing; and if it can, the call (without `distance_only`) succeeds.  Rounding never turns a non-zero
placement into a zero distance, nor the other way round.  With an open end, which compares quotients by the query length,
one must exclude costs so small that the quotient of a positive one rounds to zero (`C54_open_end_underflow`). -/
theorem C54_open_begin {jump : Nat → Nat → Prop} (hA : Idempotent A) (h1 : A.rnd 1 = fin 1) (hF : FnRules rs jump)
    (h : Problem a n m (fun i j => fin (ℓ i j)) W p rs) (hob : a.openBegin = true) (hdo : a.distanceOnly = false)
    (hh : p.hint = "N") (hl : ∀ i < n, ∀ j < m, 0 ≤ ℓ i j ∧ A.rnd (ℓ i j) = fin (ℓ i j))
    (hq : a.openEnd = true → ∀ i < n, ∀ j < m, 0 < ℓ i j → A.rnd (ℓ i j / n) ≠ fin 0) :
    (∃ r, dtw A a = .ok r ∧ r.distance = fin 0) ↔
      ∃ f, IsPlacement jump W (!a.openEnd) n m f ∧ ∀ i < n, ℓ i (f i) = 0 := by
  have hn := h.n_pos
  constructor
  · rintro ⟨r, hr, h0⟩
    obtain ⟨⟨f, hf, _, hd⟩, _, _⟩ := C59_any_arithmetic hF h hob hr
    refine ⟨f, hf, ?_⟩
    intro i hi
    have hk := (fnSum_ge h1 (f := f) (n := n) fun i hi => hl i hi _ (hf.inside i hi)).2 i hi
    rw [← hd, h0] at hk
    exact _root_.le_antisymm ((F64.le_fin _ _).1 hk) (hl i hi _ (hf.inside i hi)).1
  · rintro ⟨f, hf, h0⟩
    have hz := fnSum_zero (A := A) h1 (ℓ := ℓ) h0
    obtain ⟨r, hr⟩ := (C59_any_arithmetic_succeeds_iff hA hF h hob hdo hh).2 ⟨f, hf, by rw [hz]; exact usable_fin 0⟩
    refine ⟨r, hr, ?_⟩
    obtain ⟨⟨g, hg, hgj, hd⟩, hsame, hopen⟩ := C59_any_arithmetic hF h hob hr
    have hge : F64.le (fin 0) r.distance := by
      rw [hd]; exact (fnSum_ge h1 (f := g) (n := n) fun i hi => hl i hi _ (hg.inside i hi)).1
    cases hoe : a.openEnd with
    | false =>
      rw [hoe] at hf hg hsame
      have e : r.jmin = f (n - 1) := by rw [hgj, hg.last rfl, hf.last rfl]
      have := hsame f hf e (by rw [hz]; simp)
      rw [hz] at this
      exact F64.le_antisymm this hge
    | true =>
      rw [hoe] at hf
      have hle := hopen hoe f (by simpa using hf) (by rw [hz]; simp)
      have hnd := (C22_open_both_optimal h hob hoe hr).1
      rw [hz, hnd] at hle
      have hpos : (0 : ℚ) < (n : ℚ) := by exact_mod_cast hn
      have hdz : A.divQ (fin 0) n = fin 0 := by
        simp [Arith.divQ, hpos.ne', A.rnd_zero]
      rw [hdz] at hle
      -- were a match of the chosen placement not free, the quotient would not be zero
      have hfree : ∀ i < n, ℓ i (g i) = 0 := by
        intro i hi
        by_contra hne
        have h0' := hl i hi _ (hg.inside i hi)
        have hk := (fnSum_ge h1 (f := g) (n := n) fun i hi => hl i hi _ (hg.inside i hi)).2 i hi
        rw [← hd] at hk
        have hmono := F64.le_trans (divQ_mono A hpos hk) hle
        have hval : A.divQ (fin (ℓ i (g i))) n = A.rnd (ℓ i (g i) / n) := by simp [Arith.divQ, hpos.ne']
        rw [hval] at hmono
        refine hq hoe i hi _ (hg.inside i hi) (lt_of_le_of_ne h0'.1 (Ne.symm hne)) (F64.le_antisymm hmono ?_)
        refine ⟨by simp, A.rnd_ne_nan _, ?_⟩
        rw [← A.rnd_zero]
        exact A.rnd_mono _ _ (div_nonneg h0'.1 (_root_.le_of_lt hpos))
      rw [hd]
      exact fnSum_zero h1 hfree

/-- **C55, open begin.**  Exact arithmetic: lower bounds of the rows (over the cells inside the window) add up to a lower
bound of the distance — the LB_Keogh principle for searching. -/
theorem C55_open_begin_row_bound {jump : Nat → Nat → Prop} (hF : FnRules rs jump)
    (h : Problem a n m (fun i j => fin (ℓ i j)) W p rs) (hob : a.openBegin = true) (hdo : a.distanceOnly = false)
    (hh : p.hint = "N") {lb : Nat → ℚ} (hlb : ∀ i < n, ∀ j < m, W (i + 1) j = true → lb i ≤ ℓ i j)
    (hr : dtw Arith.exact a = .ok r) :
    ∃ d, r.distance = fin d ∧ ((List.range n).map lb).sum ≤ d := by
  obtain ⟨d, hd, ⟨f, hf, rfl⟩, _⟩ := (hF.places h hob hdo hh).2 r hr
  refine ⟨_, hd, ?_⟩
  unfold fnCost
  refine List.sum_le_sum ?_
  intro i hi
  have hi := List.mem_range.1 hi
  exact hlb i hi _ (hf.inside i hi) (hf.window i hi)

/-! ### Double precision -/

theorem double_one (f : Bool) : (binary64 f).rnd 1 = fin 1 := by
  have := C50_binary64_integers f 1 (by norm_num)
  simpa using this

/-- A quotient of at least the least positive double does not round to zero. -/
theorem rnd64_pos {x : ℚ} (h : (2 : ℚ) ^ (-1074 : ℤ) ≤ x) : rnd64 x ≠ fin 0 := by
  intro h0
  have h1 := rnd64_mono h
  rw [h0, rnd64_double (isDouble_zpow (le_refl _) (by norm_num))] at h1
  have h2 : ¬ ((0 : ℚ) < 2 ^ (-1074 : ℤ)) := by simpa only [F64.lt, decide_eq_false_iff_not] using h1
  exact h2 (two_zpow_pos _)

/-- **C54, searching in double precision.**  Costs that are non-negative doubles; with an open end, the positive ones at
least `n` times the least positive double.  The reported distance is zero iff the query can be placed in the reference
(with the jumps of the pattern, inside the window, at the end of the reference unless `open_end`) at no cost. -/
theorem C54_open_begin_doubles {jump : Nat → Nat → Prop} (f : Bool) (hF : FnRules rs jump)
    (h : Problem a n m (fun i j => fin (ℓ i j)) W p rs) (hob : a.openBegin = true) (hdo : a.distanceOnly = false)
    (hh : p.hint = "N") (hl : ∀ i < n, ∀ j < m, 0 ≤ ℓ i j ∧ IsDouble (ℓ i j))
    (hq : a.openEnd = true → ∀ i < n, ∀ j < m, 0 < ℓ i j → (n : ℚ) * 2 ^ (-1074 : ℤ) ≤ ℓ i j) :
    (∃ r, dtw (binary64 f) a = .ok r ∧ r.distance = fin 0) ↔
      ∃ g, IsPlacement jump W (!a.openEnd) n m g ∧ ∀ i < n, ℓ i (g i) = 0 := by
  have hn : (0 : ℚ) < n := by exact_mod_cast h.n_pos
  refine C54_open_begin (C20_C22_double_idempotent f) (double_one f) hF h hob hdo hh
    (fun i hi j hj => ⟨(hl i hi j hj).1, rnd64_double (hl i hi j hj).2⟩) ?_
  intro hoe i hi j hj hpos
  refine rnd64_pos ?_
  rw [le_div_iff₀ hn, mul_comm]
  exact hq hoe i hi j hj hpos

/-- **C54, exact matches** (`rigid`, both ends open, double precision).  If the local cost is zero exactly for equal
elements, a distance of zero is reported iff the query occurs in the reference as a block of consecutive elements, at an
offset other than 0. -/
theorem C54_rigid_occurs {α : Type} (f : Bool) {x y : Nat → α}
    (h : Problem a n m (fun i j => fin (ℓ i j)) (fun _ _ => true) Pat.rigid (rulesOf Pat.rigid))
    (hob : a.openBegin = true) (hoe : a.openEnd = true) (hdo : a.distanceOnly = false)
    (hl : ∀ i < n, ∀ j < m, 0 ≤ ℓ i j ∧ IsDouble (ℓ i j)) (hxy : ∀ i < n, ∀ j < m, ℓ i j = 0 ↔ x i = y j)
    (hq : ∀ i < n, ∀ j < m, 0 < ℓ i j → (n : ℚ) * 2 ^ (-1074 : ℤ) ≤ ℓ i j) :
    (∃ r, dtw (binary64 f) a = .ok r ∧ r.distance = fin 0) ↔
      ∃ s, 1 ≤ s ∧ s + n ≤ m ∧ ∀ i < n, x i = y (s + i) := by
  have hn := h.n_pos
  rw [C54_open_begin_doubles f rigid_fnRules h hob hdo (by decide +kernel) hl (fun _ => hq)]
  constructor
  · rintro ⟨g, hg, h0⟩
    have hline : ∀ i < n, g i = g 0 + i := by
      intro i
      induction i with
      | zero => intro _; rfl
      | succ i ih => intro hi; rw [hg.jumps i hi, ih (by omega)]; omega
    obtain ⟨j0, hj0⟩ := hg.first
    have hlast := hg.inside (n - 1) (by omega)
    rw [hline (n - 1) (by omega)] at hlast
    refine ⟨g 0, by omega, by omega, fun i hi => ?_⟩
    have := (hxy i hi _ (hg.inside i hi)).1 (h0 i hi)
    rw [this, hline i hi]
  · rintro ⟨s, hs, hsm, heq⟩
    refine ⟨fun i => s + i, ⟨fun i hi => by omega, ⟨s - 1, by omega⟩, fun i _ => by omega, fun _ _ => rfl,
      fun he => by simp [hoe] at he⟩, fun i hi => (hxy i hi (s + i) (by omega)).2 (heq i hi)⟩

namespace Ex

/-- The least positive double. -/
def tiny : ℚ := 1 / 2 ^ 1074

/-- One query element costs the least positive double against the first reference element; everything else is free. -/
def tinyCosts : Args :=
  { x := .d2 (Mat.ofFn 3 2 fun i j => fin (if i = 0 ∧ j = 0 then tiny else 0))
    stepPattern := .name "asymmetric"
    openBegin := true
    openEnd := true }

end Ex

/-- C54, the excluded case: with an open end a placement of cost 2^-1074 is preferred to a later free one, because its
normalized cost underflows to zero; the distance reported is not zero (its normalized value is). -/
theorem C54_open_end_underflow :
    (dtw (binary64 false) Ex.tinyCosts).toOption.map (fun r => (r.distance, r.normalizedDistance, r.jmin)) =
      some (fin Ex.tiny, fin 0, 0) := by decide +kernel

/-- Non-vacuity: the query `[1,2]` in the reference `[1,2,5,3]` (present at offset 0 only: not found). -/
theorem Ex.slide_no_match : ¬ ∃ r, dtw (binary64 true) Ex.slide = .ok r ∧ r.distance = fin 0 := by
  have hz : ∀ i < 2, ∀ j < 4, ∃ k : ℕ, Ex.slideCost i j = k ∧ k ≤ 4 := by
    have : ∀ i < 2, ∀ j < 4, ∃ k ∈ List.range 5, Ex.slideCost i j = (k : ℕ) := by decide +kernel
    intro i hi j hj
    obtain ⟨k, h1, h2⟩ := this i hi j hj
    exact ⟨k, h2, by have := List.mem_range.1 h1; omega⟩
  have hint : ∀ k : ℕ, k ≤ 4 → IsDouble ((k : ℕ) : ℚ) := by
    intro k hk
    have := (C49_nearest (k : ℚ)).1 k (C50_binary64_integers true k (by omega))
    exact this.1
  rw [C54_rigid_occurs true (x := fun i => (i : ℚ) + 1) (y := fun j => ([1, 2, 5, 3][j]?).getD 0) Ex.slide_problem rfl rfl
    rfl]
  · rintro ⟨s, h1, h2, h3⟩
    have : s = 1 ∨ s = 2 := by omega
    have h0 := h3 0 (by omega)
    rcases this with rfl | rfl <;> norm_num at h0
  · intro i hi j hj
    obtain ⟨k, hk, hk4⟩ := hz i hi j hj
    rw [hk]
    exact ⟨by positivity, hint k hk4⟩
  · intro i _ j _
    unfold Ex.slideCost
    rw [abs_eq_zero, sub_eq_zero]
  · intro i hi j hj hpos
    obtain ⟨k, hk, hk4⟩ := hz i hi j hj
    rw [hk] at hpos ⊢
    have hk1 : (1 : ℚ) ≤ k := by
      have : 0 < k := by exact_mod_cast hpos
      exact_mod_cast this
    have : (2 : ℚ) ^ (-1074 : ℤ) ≤ 2 ^ (-1 : ℤ) := two_zpow_le (by norm_num)
    have e : (2 : ℚ) ^ (-1 : ℤ) = 1 / 2 := by norm_num
    rw [e] at this
    push_cast
    linarith

/-! ### C36, open begin -/

/-- Rules that advance the query by at most one element cannot jump over row 0: after its last point in row 0, a path from
the null row is one of the paths `countPaths` counts. -/
theorem OpenPath.toSeeded {W' : Nat → Nat → Bool} (h1 : ∀ q ∈ rs, q.a ≤ 1) (hW : ∀ i j, W (i + 1) j = true → W' i j = true)
    {j0 : Nat} {ks : List Int} {i j : Nat} {c : F64} (h : OpenPath A rs W L j0 ks i j c) :
    0 < i → ∃ j1 ks', SeededPath rs W' (fun i _ => decide (i = 0)) 0 j1 ks' (i - 1) j := by
  induction h with
  | start => intro h; omega
  | @step ks i j c k q hp hr h0 hWs ih =>
    intro _
    have hq := h1 q (List.mem_of_getElem? hr)
    by_cases hz : i + q.a = 1
    · rw [hz]
      exact ⟨j + q.b, [], .start 0 _ (by simp)⟩
    · obtain ⟨j1, ks', hs⟩ := ih (by omega)
      have e : i + q.a - 1 = i - 1 + q.a := by omega
      rw [e]
      refine ⟨j1, ks' ++ [(k : Int) + 1], .step k q hs hr (hW _ _ ?_) (by simp; omega)⟩
      rw [show i - 1 + q.a + 1 = i + q.a by omega]
      exact hWs

/-- **C36, open begin.**  Whenever an open-begin call succeeds, in any arithmetic, with a pattern none of whose rules
consumes more than one query element, the path count of the same problem is positive.  `W'` is the window `countPaths`
uses: the one of the call shifted by the null row. -/
theorem C36_open_begin_success_counts {d : Result} {W' : Nat → Nat → Bool} (h : Problem a n m L W p rs)
    (hob : a.openBegin = true) (h1 : ∀ q ∈ rs, q.a ≤ 1) (ht : MarkersSurvive rs) (hd : AboutProblem d n m p W')
    (hW : ∀ i j, W (i + 1) j = true → W' i j = true) (hdb : d.openBegin = true) (hde : d.openEnd = a.openEnd)
    (hr : dtw A a = .ok r) :
    ∃ k : Int, countPaths Arith.exact d = .ok k ∧ 0 < k := by
  have hn := h.n_pos
  obtain ⟨mp, j, j0, _, _, hj, hje, hp, _⟩ := C22_open_begin_optimal h hob hr
  obtain ⟨j1, ks', hs⟩ := hp.toSeeded h1 hW hn
  cases hoe : a.openEnd with
  | false =>
    obtain ⟨k, hk, hc⟩ := C35_open_begin h.wf ht hd hdb (hde.trans hoe) hn h.m_pos
    rw [hje hoe] at hs
    have := hc.pos_iff.2 ⟨(j1, ks'), hs⟩
    exact ⟨k, hk, by exact_mod_cast this⟩
  | true =>
    obtain ⟨k, hk, hc⟩ := C35_open_both h.wf ht hd hdb (hde.trans hoe) hn h.m_pos
    have := hc.pos_iff.2 ⟨(j, j1, ks'), hj, hs⟩
    exact ⟨k, hk, by exact_mod_cast this⟩

/-- C36, the converse fails with an open begin: `countPaths` starts in row 0, `dtw` in a row before it, so that a square
`rigid` problem has one path (counted here on a result object marked as open-begin) but no alignment. -/
theorem C36_open_begin_converse_fails :
    ((dtw Arith.exact { x := .d2 (Mat.ofFn 2 2 fun _ _ => fin 0), stepPattern := .name "rigid" }).toOption.map
      fun d => (countPaths Arith.exact { d with openBegin := true }).toOption) = some (some 1) ∧
    (dtw Arith.exact { x := .d2 (Mat.ofFn 2 2 fun _ _ => fin 0), stepPattern := .name "rigid"
                       openBegin := true }).toOption.isNone = true := by
  decide +kernel

/-- The patterns admitted by `C36_open_begin_success_counts` include these. -/
theorem C36_open_begin_patterns :
    (∀ q ∈ rulesOf Pat.asymmetric, q.a ≤ 1) ∧ (∀ q ∈ rulesOf Pat.rigid, q.a ≤ 1) ∧
    (∀ q ∈ rulesOf Pat.asymmetricP0, q.a ≤ 1) ∧ ∀ e, ∀ q ∈ mvmRules e, q.a ≤ 1 := by
  refine ⟨by decide +kernel, by decide +kernel, by decide +kernel, ?_⟩
  intro e q hq
  exact (((mvm_fnRules e).rule q hq).1).le

/-- Non-vacuity: every result of `dtw([[0,1,2],[1,0,3]], asymmetric, open_begin)` has a positive count. -/
example : ∀ r, dtw (binary64 true) Ex.openBoth = .ok r → ∃ k : Int, countPaths Arith.exact r = .ok k ∧ 0 < k := by
  intro r hr
  obtain ⟨q, S, L', G, D, qr, lm', j, mp, _, _, _, _, _, rfl⟩ := any_ok Ex.openBoth_problem hr
  refine C36_open_begin_success_counts (W' := fun _ _ => true) Ex.openBoth_problem rfl C36_open_begin_patterns.1
    (C35_bundled _ Ex.asym_mem (by decide)) ⟨rfl, rfl, rfl, fun _ _ _ _ => by
      simp [mkResult, Ex.openBoth, canonWindow, WinFn.call, noWindowVal]⟩ (fun _ _ h => rfl) rfl rfl hr

end DTW
