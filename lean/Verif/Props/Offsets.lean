import Verif.Props.Weights
import Verif.Props.Stability
import Verif.Props.RoundedWinner

/-!
# C91: offsets of query samples do not matter

Patterns that charge every query element exactly once, whatever the path: adding a number of one's own to each row of the local cost
matrix shifts the distance by the sum of these numbers and changes nothing else.
-/

namespace DTW
open F64

variable {rs : List Rule} {n m : Nat} {W : Nat → Nat → Bool} {L L' S S' G G' : Nat → Nat → F64} {D : Nat → Nat → Int}
  {p : StepPattern} {a a' : Args} {r r' : Result} {q : Nat} {κ : ℚ}

/-- Total weight a rule charges in the query row `k` rows before the one it arrives at. -/
def Rule.rowShare (x : Rule) (k : Nat) : ℚ := ((x.terms.filter fun t => t.di = k).map (·.w)).sum

/-- Total weight a rule charges in the reference column `k` columns before the one it arrives at. -/
def Rule.colShare (x : Rule) (k : Nat) : ℚ := ((x.terms.filter fun t => t.dj = k).map (·.w)).sum

/-- Every rule charges every query element it consumes with total weight 1, and the one it starts from with total weight 0. -/
def OncePerQuery (rs : List Rule) : Prop := ∀ x ∈ rs, ∀ k ≤ x.a, x.rowShare k = if k < x.a then 1 else 0

/-- Every rule charges every reference element it consumes with total weight `κ`, and the one it starts from with total weight 0. -/
def EvenPerReference (κ : ℚ) (rs : List Rule) : Prop := ∀ x ∈ rs, ∀ k ≤ x.b, x.colShare k = if k < x.b then κ else 0

/-- `f 0 + … + f (k-1)`. -/
def prefixSum (f : Nat → ℚ) (k : Nat) : ℚ := ((List.range k).map f).sum

theorem prefixSum_succ (f : Nat → ℚ) (k : Nat) : prefixSum f (k + 1) = prefixSum f k + f k := by
  simp [prefixSum, List.range_succ]

theorem prefixSum_zero (f : Nat → ℚ) : prefixSum f 0 = 0 := rfl

/-- A weighted sum over terms, collected by a number attached to each term. -/
theorem sum_by_class (ts : List Term) (c : Term → Nat) (φ : Nat → ℚ) {K : Nat} (hK : ∀ t ∈ ts, c t ≤ K) :
    (ts.map fun t => t.w * φ (c t)).sum = ((List.range (K + 1)).map fun k => ((ts.filter fun t => c t = k).map (·.w)).sum * φ k).sum := by
  induction ts with
  | nil => simp
  | cons t ts ih =>
    have h1 := ih fun t ht => hK t (List.mem_cons_of_mem _ ht)
    have h2 := hK t List.mem_cons_self
    rw [List.map_cons, List.sum_cons, h1]
    have key : ∀ k : Nat, (((t :: ts).filter fun t => c t = k).map (·.w)).sum * φ k =
        (if c t = k then t.w * φ k else 0) + ((ts.filter fun t => c t = k).map (·.w)).sum * φ k := by
      intro k
      by_cases e : c t = k
      · rw [List.filter_cons_of_pos (by simpa using e), if_pos e, List.map_cons, List.sum_cons]; ring
      · rw [List.filter_cons_of_neg (by simpa using e), if_neg e]; ring
    simp only [key]
    rw [List.sum_map_add]
    congr 1
    have : ∀ N, c t < N → ((List.range N).map fun k => if c t = k then t.w * φ k else 0).sum = t.w * φ (c t) := by
      intro N
      induction N with
      | zero => intro h; exact absurd h (Nat.not_lt_zero _)
      | succ N ihN =>
        intro hN
        rw [List.range_succ, List.map_append, List.sum_append]
        by_cases hc : c t = N
        · have z : ((List.range N).map fun k => if c t = k then t.w * φ k else 0).sum = 0 := by
            refine List.sum_eq_zero fun y hy => ?_
            obtain ⟨k, hk, rfl⟩ := List.mem_map.1 hy
            rw [if_neg (by have := List.mem_range.1 hk; omega)]
          rw [z]
          simp [hc]
        · rw [ihN (by omega)]
          simp [hc]
    rw [this _ (by omega)]

theorem sum_window (κ : ℚ) (f : Nat → ℚ) {i a : Nat} (h : a ≤ i + 1) :
    ((List.range (a + 1)).map fun k => (if k < a then κ else 0) * f (i - k)).sum = κ * (prefixSum f (i + 1) - prefixSum f (i + 1 - a)) := by
  have : ∀ b ≤ a, ((List.range b).map fun k => (if k < a then κ else 0) * f (i - k)).sum =
      κ * (prefixSum f (i + 1) - prefixSum f (i + 1 - b)) := by
    intro b
    induction b with
    | zero => intro _; simp
    | succ b ih =>
      intro hb
      rw [List.range_succ, List.map_append, List.sum_append, ih (by omega)]
      have e : prefixSum f (i + 1 - b) = prefixSum f (i + 1 - (b + 1)) + f (i - b) := by
        rw [show i + 1 - b = (i - b) + 1 by omega, prefixSum_succ, show i + 1 - (b + 1) = i - b by omega]
      rw [e]
      simp only [List.map_cons, List.map_nil, List.sum_cons, List.sum_nil, if_pos (show b < a by omega)]
      ring
  rw [List.range_succ, List.map_append, List.sum_append, this a (Nat.le_refl _)]
  simp

/-! ### Potentials -/

theorem offset_charge (g : Nat → Nat → ℚ) (L : Nat → Nat → F64) (x : Rule) (i j : Nat) (s : ℚ) (v : F64) :
    charge Arith.exact (fun i j => shiftF (g i j) (L i j)) x i j (shiftF s v) =
      shiftF (s + (x.terms.map fun t => t.w * g (i - t.di) (j - t.dj)).sum) (charge Arith.exact L x i j v) := by
  unfold charge
  generalize x.terms = ts
  induction ts generalizing s v with
  | nil => simp
  | cons t ts ih =>
    simp only [List.foldl_cons, List.map_cons, List.sum_cons]
    rw [Arith.exact_rnd, shift_mac, ih]
    congr 1
    ring

/-- If the offsets charged along every rule add up to a difference of potentials, the solution of the recursion is shifted by the
potential. -/
theorem Bellman.potential {g Φ : Nat → Nat → ℚ} (h : Bellman Arith.exact rs n m W L S G D)
    (hr : ∀ x ∈ rs, ∀ i < n, ∀ j < m, x.a ≤ i → x.b ≤ j →
      (x.terms.map fun t => t.w * g (i - t.di) (j - t.dj)).sum = Φ i j - Φ (i - x.a) (j - x.b))
    (hS : ∀ i < n, ∀ j < m, S' i j = shiftF (Φ i j) (S i j)) :
    Bellman Arith.exact rs n m W (fun i j => shiftF (g i j) (L i j)) S' (fun i j => shiftF (Φ i j) (G i j)) D where
  seeded := by
    intro i hi j hj hs
    have h0 : S i j ≠ nan := by intro hc; rw [hS i hi j hj, hc] at hs; exact hs rfl
    have := h.seeded i hi j hj h0
    exact ⟨by rw [this.1, hS i hi j hj], this.2⟩
  outside := by
    intro i hi j hj hs hw
    have h0 : S i j = nan := shift_inj (Φ i j) _ nan (by rw [← hS i hi j hj, hs]; rfl)
    have := h.outside i hi j hj h0 hw
    exact ⟨by rw [this.1]; rfl, this.2⟩
  inside := by
    intro i hi j hj hs hw
    have h0 : S i j = nan := shift_inj (Φ i j) _ nan (by rw [← hS i hi j hj, hs]; rfl)
    have := (h.inside i hi j hj h0 hw).map (shift_lt (Φ i j)) (shift_inj (Φ i j)) rfl rfl
    rw [List.map_map] at this
    have e : rs.map (shiftF (Φ i j) ∘ cand Arith.exact L G i j) =
        rs.map (cand Arith.exact (fun i j => shiftF (g i j) (L i j)) (fun i j => shiftF (Φ i j) (G i j)) i j) := by
      apply List.map_congr_left
      intro x hx
      simp only [Function.comp_apply, cand]
      split
      · rename_i hle
        rw [offset_charge, hr x hx i hi j hj hle.1 hle.2]
        congr 1
        ring
      · rfl
    rw [e] at this
    exact this

theorem shift_isNan (c : ℚ) (x : F64) : isNan (shiftF c x) = isNan x := by cases x <;> rfl

theorem lastRow_pyGet {φ : F64 → F64} (hq : 0 < q) (hG : ∀ j < m, G' (q - 1) j = φ (G (q - 1) j)) {j : Int} (hj : 0 ≤ j) :
    (Mat.ofFn q m G').pyGet (-1) j = ((Mat.ofFn q m G).pyGet (-1) j).map φ := by
  by_cases h : j < m
  · obtain ⟨k, rfl⟩ : ∃ k : Nat, j = k := ⟨j.toNat, by omega⟩
    have hk : k < m := by omega
    rw [pyGet_neg_one G' hq hk, pyGet_neg_one G hq hk, hG k hk]
    rfl
  · have hc : ∀ f : Nat → Nat → F64, (Mat.ofFn q m f).pyGet (-1) j = .error .indexError := by
      intro f
      unfold Mat.pyGet
      have e1 : (Mat.ofFn q m f).rows = q := rfl
      have e2 : (Mat.ofFn q m f).cols = m := rfl
      rw [e1, e2]
      simp only
      rw [if_neg (show ¬ j < 0 by omega)]
      rw [if_neg (by omega)]
    rw [hc, hc]
    rfl

/-- What a result says, apart from the matrices of costs. -/
def Result.gist (r : Result) : Int × F64 × F64 × Option Mapping × Option (Mat Int) :=
  (r.jmin, r.distance, r.normalizedDistance, r.mapping, r.directionMatrix)

/-- The same with the two distances shifted. -/
def gistShift (s t : ℚ) (x : Int × F64 × F64 × Option Mapping × Option (Mat Int)) : Int × F64 × F64 × Option Mapping × Option (Mat Int) :=
  (x.1, shiftF s x.2.1, shiftF t x.2.2.1, x.2.2.2)

theorem gist_congr {b : Args} {qr qr' : Option (Mat F64 × Mat F64)} {lm lm' : Mat F64} {D' : Nat → Nat → Int} 
    (hD : Mat.ofFn q m D' = Mat.ofFn q m D) :
    (finish Arith.exact b p n m qr' q lm' G D').map Result.gist = (finish Arith.exact b p n m qr q lm G D).map Result.gist := by
  unfold finish
  simp only
  rw [hD]
  cases pickEnd b p.hint m (Mat.ofFn q m G) (normalise Arith.exact p.hint n (tab m (G (q - 1)))) with
  | error e => rfl
  | ok jd =>
    simp only [Except_bind_ok]
    cases pickNorm p.hint (normalise Arith.exact p.hint n (tab m (G (q - 1)))) jd.1 with
    | error e => rfl
    | ok v =>
      simp only [Except_bind_ok]
      cases pickMapping b p (Mat.ofFn q m D) jd.1 with
      | error e => rfl
      | ok mp => rfl

theorem finish_offset {T : ℚ} {qr qr' : Option (Mat F64 × Mat F64)} {lm lm' : Mat F64} (ho : SameOptions a a') (hn : 0 < n) (hm : 0 < m)
    (hq : 0 < q) (hh : p.hint = "N") (hG : ∀ j < m, G' (q - 1) j = shiftF T (G (q - 1) j)) :
    (finish Arith.exact a' p n m qr' q lm' G' D).map Result.gist =
      ((finish Arith.exact a p n m qr q lm G D).map Result.gist).map (gistShift T (T / n)) := by
  have hn0 : (n : ℚ) ≠ 0 := by exact_mod_cast (Nat.pos_iff_ne_zero.1 hn)
  have hn1 : (0 : ℚ) < n := by exact_mod_cast hn
  have hN : ∀ j x, normBy Arith.exact "N" n j (shiftF T x) = shiftF (T / n) (normBy Arith.exact "N" n j x) := by
    intro j x
    simp only [normBy]
    rw [if_neg (by decide), if_pos trivial, if_neg (by decide), if_pos trivial]
    cases x with
    | nan => rfl
    | ninf => simp [shiftF, Arith.divQ, not_lt.2 hn1.le]
    | pinf => simp [shiftF, Arith.divQ, not_lt.2 hn1.le]
    | fin q =>
      simp only [shiftF, Arith.divQ, if_neg hn0, Arith.exact_rnd]
      rw [add_div]
  have e1 : normalise Arith.exact p.hint n (tab m (G' (q - 1))) =
      (normalise Arith.exact p.hint n (tab m (G (q - 1)))).map (shiftF (T / n)) := by
    rw [normalise_tab, normalise_tab, hh]
    simp only [tab, List.map_map]
    apply List.map_congr_left
    intro j hj
    rw [hG j (List.mem_range.1 hj)]
    exact hN j _
  unfold finish
  simp only
  rw [e1]
  generalize normalise Arith.exact p.hint n (tab m (G (q - 1))) = l
  have key : ∀ j : Int, 0 ≤ j →
      (do let distance ← (Mat.ofFn q m G').pyGet (-1) j
          if isNan distance = true then
            .error (.valueError "No warping path found compatible with the local constraints")
          else .ok (j, distance) : Except Err (Int × F64)) =
      ((do let distance ← (Mat.ofFn q m G).pyGet (-1) j
           if isNan distance = true then
             .error (.valueError "No warping path found compatible with the local constraints")
           else .ok (j, distance) : Except Err (Int × F64))).map fun x => (x.1, shiftF T x.2) := by
    intro j hj
    rw [lastRow_pyGet (φ := shiftF T) hq hG hj]
    cases (Mat.ofFn q m G).pyGet (-1) j with
    | error e => rfl
    | ok v =>
      simp only [Except.map, Except_bind_ok, shift_isNan]
      cases isNan v <;> rfl
  have e2 : pickEnd a' p.hint m (Mat.ofFn q m G') (l.map (shiftF (T / n))) =
      (pickEnd a p.hint m (Mat.ofFn q m G) l).map fun x => (x.1, shiftF T x.2) := by
    rw [← pickEnd_options ho]
    unfold pickEnd
    rw [nanargmin_map (shift_lt _) (shift_isNan _) rfl]
    cases a.openEnd with
    | false => exact key _ (by omega)
    | true =>
      simp only [if_true]
      split
      · rfl
      · cases nanargmin l with
        | error e => rfl
        | ok k => exact key _ (Int.natCast_nonneg k)
  rw [e2]
  cases pickEnd a p.hint m (Mat.ofFn q m G) l with
  | error e => rfl
  | ok jd =>
    simp only [Except_bind_ok, Except.map]
    have e3 : pickNorm p.hint (l.map (shiftF (T / n))) jd.1 = (pickNorm p.hint l jd.1).map (shiftF (T / n)) := by
      unfold pickNorm
      rw [List.getElem?_map]
      split
      · cases l[jd.1.toNat]? <;> rfl
      · rfl
    rw [e3]
    cases pickNorm p.hint l jd.1 with
    | error e => rfl
    | ok v =>
      simp only [Except_bind_ok, Except.map]
      rw [← pickMapping_options ho]
      cases pickMapping a p (Mat.ofFn q m D) jd.1 with
      | error e => rfl
      | ok mp =>
        simp only [Except_bind_ok, Result.gist, gistShift, ho.keepInternals, ho.openBegin]


/-! ### Rows -/

theorem OncePerQuery.potential (ho : OncePerQuery rs) (hv : ∀ r ∈ rs, r.Valid) (f : Nat → ℚ) {x : Rule} (hx : x ∈ rs) {i : Nat} (hi : x.a ≤ i) :
    (x.terms.map fun t => t.w * f (i - t.di)).sum = prefixSum f (i + 1) - prefixSum f (i - x.a + 1) := by
  rw [sum_by_class x.terms Term.di (fun k => f (i - k)) (K := x.a) (fun t ht => ((hv x hx).2 t ht).2.1)]
  have e : ∀ k ∈ List.range (x.a + 1), ((x.terms.filter fun t => t.di = k).map (·.w)).sum * f (i - k) =
      (if k < x.a then 1 else 0) * f (i - k) := by
    intro k hk
    rw [← ho x hx k (by have := List.mem_range.1 hk; omega)]
    rfl
  rw [List.map_congr_left e, sum_window 1 f (by omega), one_mul, show i + 1 - x.a = i - x.a + 1 by omega]

theorem EvenPerReference.potential (ho : EvenPerReference κ rs) (hv : ∀ r ∈ rs, r.Valid) (f : Nat → ℚ) {x : Rule} (hx : x ∈ rs) {j : Nat}
    (hj : x.b ≤ j) :
    (x.terms.map fun t => t.w * f (j - t.dj)).sum = κ * (prefixSum f (j + 1) - prefixSum f (j - x.b + 1)) := by
  rw [sum_by_class x.terms Term.dj (fun k => f (j - k)) (K := x.b) (fun t ht => ((hv x hx).2 t ht).2.2)]
  have e : ∀ k ∈ List.range (x.b + 1), ((x.terms.filter fun t => t.dj = k).map (·.w)).sum * f (j - k) =
      (if k < x.b then κ else 0) * f (j - k) := by
    intro k hk
    rw [← ho x hx k (by have := List.mem_range.1 hk; omega)]
    rfl
  rw [List.map_congr_left e, sum_window κ f (by omega), show j + 1 - x.b = j - x.b + 1 by omega]

theorem shiftF_zero (x : F64) : shiftF 0 x = x := by cases x <;> simp [shiftF]

/-- `f` with a zero placed before it. -/
def delayed (f : Nat → ℚ) : Nat → ℚ := fun i => if i = 0 then 0 else f (i - 1)

theorem prefixSum_delayed (f : Nat → ℚ) (k : Nat) : prefixSum (delayed f) (k + 1) = prefixSum f k := by
  induction k with
  | zero => simp [prefixSum, delayed]
  | succ k ih => rw [prefixSum_succ, ih, prefixSum_succ]; simp [delayed]

/-- C91.  With a pattern that charges every query element exactly once, adding a number of one's own to each row of the local cost matrix
changes nothing in the result of `dtw` but the two distances: `distance` grows by the sum of these numbers and `normalizedDistance` by
their mean, whatever the window, the ends and the costs (infinite and NaN ones included), in exact arithmetic.  The two calls also fail
together, with the same error. -/
theorem C91_rows (hw : OncePerQuery rs) (hh : p.hint = "N") {f : Nat → ℚ} (h : Problem a n m L W p rs)
    (h' : Problem a' n m (fun i j => shiftF (f i) (L i j)) W p rs) (ho : SameOptions a a') :
    (dtw Arith.exact a').map Result.gist =
      ((dtw Arith.exact a).map Result.gist).map (gistShift (prefixSum f n) (prefixSum f n / n)) := by
  have hn := h.n_pos
  have hm := h.m_pos
  cases hob : a.openBegin with
  | false =>
    have hob' : a'.openBegin = false := by rw [← ho.openBegin]; exact hob
    obtain ⟨G, D, qr, hB, _, hd⟩ := dtw_closed Arith.exact h hob
    obtain ⟨G', D', qr', hB', _, hd'⟩ := dtw_closed Arith.exact h' hob'
    have hp := hB.potential (g := fun i _ => f i) (Φ := fun i _ => prefixSum f (i + 1))
      (S' := closedSeed fun i j => shiftF (f i) (L i j))
      (fun x hx i _ j _ hi _ => hw.potential h.wf.valid f hx hi) (by
        intro i _ j _
        unfold closedSeed
        split
        · rename_i e
          rw [e.1]
          simp [prefixSum]
        · rfl)
    have hu := hB'.unique h.wf.valid hp le_rfl le_rfl le_rfl le_rfl (fun _ _ _ _ => rfl) (fun _ _ _ _ => rfl) (fun _ _ _ _ => rfl)
    rw [hd, hd', ← finish_offset (qr' := qr) (lm' := Mat.ofFn n m L) (G' := G') ho hn hm hn hh (fun j hj => by
      rw [(hu (n - 1) (by omega) j hj).1, show n - 1 + 1 = n by omega])]
    have e := ofFn_congr fun i hi j hj => (hu i hi j hj).2
    exact gist_congr e
  | true =>
    have hob' : a'.openBegin = true := by rw [← ho.openBegin]; exact hob
    obtain ⟨G, D, qr, hB, _, hd⟩ := dtw_open Arith.exact h hob hh
    obtain ⟨G', D', qr', hB', _, hd'⟩ := dtw_open Arith.exact h' hob' hh
    have hp := hB.potential (g := fun i _ => delayed f i) (Φ := fun i _ => prefixSum f i) (S' := openSeed)
      (fun x hx i _ j _ hi _ => by
        rw [hw.potential h.wf.valid (delayed f) hx hi, prefixSum_delayed, prefixSum_delayed]) (by
        intro i _ j _
        unfold openSeed
        split
        · rename_i e
          rw [e]
          simp [prefixSum, shiftF]
        · rfl)
    have hnull : ∀ i j, nullRow (fun i j => shiftF (f i) (L i j)) i j = shiftF (delayed f i) (nullRow L i j) := by
      intro i j
      unfold nullRow delayed
      split
      · rw [shiftF_zero]
      · rfl
    have hu := hB'.unique h.wf.valid hp le_rfl le_rfl le_rfl le_rfl (fun _ _ _ _ => rfl) (fun i _ j _ => hnull i j) (fun _ _ _ _ => rfl)
    rw [hd, hd', ← finish_offset (qr' := qr) (lm' := Mat.ofFn (n + 1) m (nullRow L)) (G' := G') ho hn hm (Nat.succ_pos n) hh (fun j hj => by
      rw [(hu (n + 1 - 1) (by omega) j hj).1]
      rfl)]
    have e := ofFn_congr fun i hi j hj => (hu i hi j hj).2
    exact gist_congr e


theorem gist_of_ok {x x' : Except Err Result} {s t : ℚ} (h : x'.map Result.gist = (x.map Result.gist).map (gistShift s t)) :
    ((∃ r, x = .ok r) ↔ ∃ r', x' = .ok r') ∧ ∀ r r', x = .ok r → x' = .ok r' →
      r'.jmin = r.jmin ∧ r'.distance = shiftF s r.distance ∧ r'.normalizedDistance = shiftF t r.normalizedDistance ∧
      r'.mapping = r.mapping ∧ r'.directionMatrix = r.directionMatrix := by
  cases x with
  | error e =>
    cases x' with
    | error e' => exact ⟨⟨fun ⟨_, h⟩ => by simp at h, fun ⟨_, h⟩ => by simp at h⟩, fun _ _ h => by simp at h⟩
    | ok r' => simp [Except.map] at h
  | ok r =>
    cases x' with
    | error e' => simp [Except.map] at h
    | ok r' =>
      simp only [Except.map, Except.ok.injEq, gistShift, Result.gist, Prod.mk.injEq] at h
      refine ⟨⟨fun _ => ⟨r', rfl⟩, fun _ => ⟨r, rfl⟩⟩, fun u v hu hv => ?_⟩
      simp only [Except.ok.injEq] at hu hv
      subst hu hv
      exact h

/-- C91, field by field: the two calls succeed together; the end point, the mapping and the direction matrix are equal; the distance grows
by the sum of the numbers added and the normalised distance by their mean. -/
theorem C91_fields (hw : OncePerQuery rs) (hh : p.hint = "N") {f : Nat → ℚ} (h : Problem a n m L W p rs)
    (h' : Problem a' n m (fun i j => shiftF (f i) (L i j)) W p rs) (ho : SameOptions a a') :
    ((∃ r, dtw Arith.exact a = .ok r) ↔ ∃ r', dtw Arith.exact a' = .ok r') ∧
    ∀ r r', dtw Arith.exact a = .ok r → dtw Arith.exact a' = .ok r' →
      r'.jmin = r.jmin ∧ r'.distance = shiftF ((List.range n).map f).sum r.distance ∧
      r'.normalizedDistance = shiftF (((List.range n).map f).sum / n) r.normalizedDistance ∧
      r'.mapping = r.mapping ∧ r'.directionMatrix = r.directionMatrix := gist_of_ok (C91_rows hw hh h h' ho)

/-- C91, the matrix of accumulated costs: its row `i` grows by the sum of the first `i + 1` numbers added, whatever the hint. -/
theorem C91_cost_matrix (hw : OncePerQuery rs) {f : Nat → ℚ} (h : Problem a n m L W p rs)
    (h' : Problem a' n m (fun i j => shiftF (f i) (L i j)) W p rs) (ho : SameOptions a a') (hob : a.openBegin = false)
    (hk : a.keepInternals = true) (hr : dtw Arith.exact a = .ok r) (hr' : dtw Arith.exact a' = .ok r') :
    ∃ G : Nat → Nat → F64, r.costMatrix = some (Mat.ofFn n m G) ∧
      r'.costMatrix = some (Mat.ofFn n m fun i j => shiftF ((List.range (i + 1)).map f).sum (G i j)) := by
  have hn := h.n_pos
  have hm := h.m_pos
  have hob' : a'.openBegin = false := by rw [← ho.openBegin]; exact hob
  have hk' : a'.keepInternals = true := by rw [← ho.keepInternals]; exact hk
  obtain ⟨G, D, qr, hB, _, hd⟩ := dtw_closed Arith.exact h hob
  obtain ⟨G', D', qr', hB', _, hd'⟩ := dtw_closed Arith.exact h' hob'
  have hp := hB.potential (g := fun i _ => f i) (Φ := fun i _ => prefixSum f (i + 1))
    (S' := closedSeed fun i j => shiftF (f i) (L i j))
    (fun x hx i _ j _ hi _ => hw.potential h.wf.valid f hx hi) (by
      intro i _ j _
      unfold closedSeed
      split
      · rename_i e
        rw [e.1]
        simp [prefixSum]
      · rfl)
  have hu := hB'.unique h.wf.valid hp le_rfl le_rfl le_rfl le_rfl (fun _ _ _ _ => rfl) (fun _ _ _ _ => rfl) (fun _ _ _ _ => rfl)
  rw [hd] at hr
  rw [hd'] at hr'
  obtain ⟨_, _, _, _, hres⟩ := finish_ok hn hn hm hr
  obtain ⟨_, _, _, _, hres'⟩ := finish_ok hn hn hm hr'
  refine ⟨G, by rw [hres]; simp [mkResult, hk, hob], ?_⟩
  rw [hres']
  simp only [mkResult, hk', hob', if_true, Bool.false_eq_true, if_false]
  rw [ofFn_congr fun i hi j hj => (hu i hi j hj).1]
  rfl

/-! ### Columns -/

/-- C91, columns.  With a pattern that charges every reference element `κ` times, the one of the starting cell once (`mori2006`: `κ = 3`),
adding a number of one's own to each column of the local cost matrix changes only the distance of a closed alignment, by `κ` times the sum
of these numbers, the first of them counted once. -/
theorem C91_columns (hw : EvenPerReference κ rs) {f : Nat → ℚ} (h : Problem a n m L W p rs)
    (h' : Problem a' n m (fun i j => shiftF (f j) (L i j)) W p rs) (ho : SameOptions a a')
    (hob : a.openBegin = false) (hoe : a.openEnd = false) :
    ((∃ r, dtw Arith.exact a = .ok r) ↔ ∃ r', dtw Arith.exact a' = .ok r') ∧
    ∀ r r', dtw Arith.exact a = .ok r → dtw Arith.exact a' = .ok r' →
      r'.distance = shiftF (f 0 + κ * (((List.range m).map f).sum - f 0)) r.distance ∧
      r'.mapping = r.mapping ∧ r'.directionMatrix = r.directionMatrix := by
  have hn := h.n_pos
  have hm := h.m_pos
  have hob' : a'.openBegin = false := by rw [← ho.openBegin]; exact hob
  have hoe' : a'.openEnd = false := by rw [← ho.openEnd]; exact hoe
  obtain ⟨G, D, qr, hB, _, hd⟩ := dtw_closed Arith.exact h hob
  obtain ⟨G', D', qr', hB', _, hd'⟩ := dtw_closed Arith.exact h' hob'
  have hp := hB.potential (g := fun _ j => f j) (Φ := fun _ j => f 0 + κ * (prefixSum f (j + 1) - f 0))
    (S' := closedSeed fun i j => shiftF (f j) (L i j))
    (fun x hx i _ j _ _ hj => by rw [hw.potential h.wf.valid f hx hj]; ring) (by
      intro i _ j _
      unfold closedSeed
      split
      · rename_i e
        rw [e.2]
        simp [prefixSum]
      · rfl)
  have hu := hB'.unique h.wf.valid hp le_rfl le_rfl le_rfl le_rfl (fun _ _ _ _ => rfl) (fun _ _ _ _ => rfl) (fun _ _ _ _ => rfl)
  have hG : G' (n - 1) (m - 1) = shiftF (f 0 + κ * (((List.range m).map f).sum - f 0)) (G (n - 1) (m - 1)) := by
    rw [(hu (n - 1) (by omega) (m - 1) (by omega)).1, show m - 1 + 1 = m by omega]
    rfl
  constructor
  · rcases closed_closed h hob hoe hB hd with ⟨h1, h2⟩ | ⟨h1, h2⟩ <;>
      rcases closed_closed h' hob' hoe' hB' hd' with ⟨h1', h2'⟩ | ⟨h1', h2'⟩
    · rw [h2, h2']
    · exact absurd (by rw [hG, h1]; rfl) h1'
    · exact absurd (shift_inj _ _ nan (by rw [← hG, h1']; rfl)) h1
    · exact ⟨fun _ => h2', fun _ => h2⟩
  · intro r r' hr hr'
    have hDD : Mat.ofFn n m D' = Mat.ofFn n m D := ofFn_congr fun i hi j hj => (hu i hi j hj).2
    rw [hd] at hr
    rw [hd'] at hr'
    obtain ⟨k, mp, hk, hmp, hres⟩ := finish_ok hn hn hm hr
    obtain ⟨k', mp', hk', hmp', hres'⟩ := finish_ok hn hn hm hr'
    obtain rfl := hk.closed hoe
    obtain rfl := hk'.closed hoe'
    refine ⟨?_, ?_, ?_⟩
    · rw [hres, hres']; exact hG
    · rw [hres, hres']
      simp only [mkResult]
      rw [hDD, ← pickMapping_options ho, hmp] at hmp'
      simpa using hmp'.symm
    · rw [hres, hres']; simp only [mkResult, hDD, ho.keepInternals, hob, hob']

/-- C91.  Squared differences: with such a pattern the squares of the query samples play no role in the alignment, which is the one of the
local cost `y_j² - 2·x_i·y_j`; the distance is larger by the sum of these squares. -/
theorem C91_squares (hw : OncePerQuery rs) (hh : p.hint = "N") {x y : Nat → ℚ}
    (h : Problem a n m (fun i j => fin (y j ^ 2 - 2 * x i * y j)) W p rs) (h' : Problem a' n m (fun i j => fin ((x i - y j) ^ 2)) W p rs)
    (ho : SameOptions a a') :
    ((∃ r, dtw Arith.exact a = .ok r) ↔ ∃ r', dtw Arith.exact a' = .ok r') ∧
    ∀ r r', dtw Arith.exact a = .ok r → dtw Arith.exact a' = .ok r' →
      r'.jmin = r.jmin ∧ r'.distance = shiftF ((List.range n).map fun i => x i ^ 2).sum r.distance ∧ r'.mapping = r.mapping := by
  have e : (fun i j => fin ((x i - y j) ^ 2)) = fun i j => shiftF (x i ^ 2) (fin (y j ^ 2 - 2 * x i * y j)) := by
    funext i j
    simp only [shiftF, fin.injEq]
    ring
  rw [e] at h'
  obtain ⟨h1, h2⟩ := C91_fields hw hh h h' ho
  refine ⟨h1, fun r r' hr hr' => ?_⟩
  obtain ⟨h3, h4, _, h5, _⟩ := h2 r r' hr hr'
  exact ⟨h3, h4, h5⟩

/-! ### Costs that depend on the query element only -/

theorem Path.potential {g Φ : Nat → Nat → ℚ} {i0 j0 i j : Nat} {ks : List Int} {v : F64} (h : Path Arith.exact rs W (fun i j => fin (g i j)) S i0 j0 ks i j v)
    (hr : ∀ x ∈ rs, ∀ i j, x.a ≤ i → x.b ≤ j →
      (x.terms.map fun t => t.w * g (i - t.di) (j - t.dj)).sum = Φ i j - Φ (i - x.a) (j - x.b))
    (hS : ∀ i j, S i j ≠ nan → S i j = fin (Φ i j)) : v = fin (Φ i j) := by
  induction h with
  | start h => exact hS i0 j0 h
  | @step ks i j c k x _ hq _ _ ih =>
    have e := offset_charge g (fun _ _ => fin 0) x (i + x.a) (j + x.b) (Φ i j) (fin 0)
    have e0 : charge Arith.exact (fun _ _ => fin 0) x (i + x.a) (j + x.b) (fin 0) = fin 0 := by
      unfold charge
      generalize x.terms = ts
      induction ts with
      | nil => rfl
      | cons t ts ih => simpa using ih
    rw [e0] at e
    simp only [shiftF, zero_add] at e
    rw [ih, e, hr x (List.mem_of_getElem? hq) _ _ (Nat.le_add_left _ _) (Nat.le_add_left _ _)]
    simp

theorem WarpPath.potential {g Φ : Nat → Nat → ℚ} {i j : Nat} {ks : List Int} {v : F64} (h : WarpPath Arith.exact rs W (fun i j => fin (g i j)) ks i j v)
    (hr : ∀ x ∈ rs, ∀ i j, x.a ≤ i → x.b ≤ j →
      (x.terms.map fun t => t.w * g (i - t.di) (j - t.dj)).sum = Φ i j - Φ (i - x.a) (j - x.b))
    (h0 : g 0 0 = Φ 0 0) : v = fin (Φ i j) := by
  induction h with
  | start => rw [h0]
  | @step ks i j c k x _ hq _ ih =>
    have e := offset_charge g (fun _ _ => fin 0) x (i + x.a) (j + x.b) (Φ i j) (fin 0)
    have e0 : charge Arith.exact (fun _ _ => fin 0) x (i + x.a) (j + x.b) (fin 0) = fin 0 := by
      unfold charge
      generalize x.terms = ts
      induction ts with
      | nil => rfl
      | cons t ts ih => simpa using ih
    rw [e0] at e
    simp only [shiftF, zero_add] at e
    rw [ih, e, hr x (List.mem_of_getElem? hq) _ _ (Nat.le_add_left _ _) (Nat.le_add_left _ _)]
    simp

/-- C91.  A local cost that depends on the query element only (a flat reference, for example): with such a pattern every alignment that
exists has the sum of these costs for its distance, whatever the window and the ends. -/
theorem C91_flat_reference (hw : OncePerQuery rs) (hh : p.hint = "N") {ρ : Nat → ℚ} (h : Problem a n m (fun i _ => fin (ρ i)) W p rs)
    (hr : dtw Arith.exact a = .ok r) : r.distance = fin ((List.range n).map ρ).sum := by
  have hn := h.n_pos
  cases hob : a.openBegin with
  | false =>
    obtain ⟨G, D, qr, hB, _, hd⟩ := dtw_closed Arith.exact h hob
    obtain ⟨j, ks, hrun⟩ := closed_ok h hob hB hd hr
    have hp := hrun.path.potential (Φ := fun i _ => prefixSum ρ (i + 1))
      (fun x hx i j hi _ => hw.potential h.wf.valid ρ hx hi) (by simp [prefixSum])
    rw [show n - 1 + 1 = n by omega] at hp
    rw [hrun.result]
    exact hp
  | true =>
    obtain ⟨G, D, qr, hB, _, hd⟩ := dtw_open Arith.exact h hob hh
    obtain ⟨j, j0, ks, hrun⟩ := open_ok h hob hB hd hr
    have e : nullRow (fun i _ => fin (ρ i)) = fun i _ => fin (delayed ρ i) := by
      funext i j
      unfold nullRow delayed
      split <;> rfl
    have hp := hrun.path
    rw [e] at hp
    have hp := hp.potential (Φ := fun i _ => prefixSum ρ i)
      (fun x hx i j hi _ => by rw [hw.potential h.wf.valid (delayed ρ) hx hi, prefixSum_delayed, prefixSum_delayed]) (by
        intro i j hs
        unfold openSeed at hs ⊢
        split
        · rename_i e
          rw [e]
          simp [prefixSum]
        · rename_i e
          rw [if_neg e] at hs
          exact absurd rfl hs)
    rw [hrun.result]
    exact hp

/-! ### Doubles -/

/-- C91 (double precision, closed ends).  The two calls succeed together and the difference of the distances computed in doubles is the sum
of the numbers added, up to `relError n m` of the two exact distances. -/
theorem C91_doubles (b : Bool) (hw : OncePerQuery rs) (hh : p.hint = "N") {ℓ : Nat → Nat → ℚ} {f : Nat → ℚ}
    (h : Problem a n m (fun i j => fin (ℓ i j)) W p rs)
    (h' : Problem a' n m (fun i j => fin (ℓ i j + f i)) W p rs) (ho : SameOptions a a') (hob : a.openBegin = false) (hoe : a.openEnd = false)
    (hW : ModestWeights rs) (hc : ∀ i < n, ∀ j < m, ModestCost (ℓ i j)) (hc' : ∀ i < n, ∀ j < m, ModestCost (ℓ i j + f i)) :
    ((∃ r, dtw (binary64 b) a = .ok r) ↔ ∃ r', dtw (binary64 b) a' = .ok r') ∧
    ∀ r r', dtw (binary64 b) a = .ok r → dtw (binary64 b) a' = .ok r' →
      ∃ r0 d d' d0, dtw Arith.exact a = .ok r0 ∧ r.distance = fin d ∧ r'.distance = fin d' ∧ r0.distance = fin d0 ∧
        |(d' - d) - ((List.range n).map f).sum| ≤ relError n m * (2 * d0 + ((List.range n).map f).sum) := by
  have hob' : a'.openBegin = false := by rw [← ho.openBegin]; exact hob
  have hoe' : a'.openEnd = false := by rw [← ho.openEnd]; exact hoe
  obtain ⟨x1, x2⟩ := C91_fields (f := f) (L := fun i j => fin (ℓ i j)) hw hh h h' ho
  obtain ⟨e1, near⟩ := double_near b h hob hoe hW hc
  obtain ⟨e1', near'⟩ := double_near b h' hob' hoe' hW hc'
  refine ⟨e1.trans (x1.trans e1'.symm), fun r r' hr hr' => ?_⟩
  obtain ⟨r0, hr0⟩ := e1.1 ⟨r, hr⟩
  obtain ⟨r0', hr0'⟩ := e1'.1 ⟨r', hr'⟩
  obtain ⟨d, d0, q1, q2, -, q3, -⟩ := near r r0 hr hr0
  obtain ⟨d', d0', q1', q2', -, q3', -⟩ := near' r' r0' hr' hr0'
  have e := (x2 r0 r0' hr0 hr0').2.1
  rw [q2, q2'] at e
  simp only [shiftF, fin.injEq] at e
  refine ⟨r0, d, d', d0, hr0, q1, q1', q2, ?_⟩
  rw [e] at q3'
  generalize ((List.range n).map f).sum = T at *
  rw [abs_le] at q3 q3' ⊢
  constructor <;> linarith [q3.1, q3.2, q3'.1, q3'.2]

/-- C91 (double precision).  A local cost that depends on the query element only: the distance computed in doubles is the sum of the costs
up to a relative error of `relError n m`. -/
theorem C91_flat_doubles (b : Bool) (hw : OncePerQuery rs) (hh : p.hint = "N") {ρ : Nat → ℚ}
    (h : Problem a n m (fun i _ => fin (ρ i)) W p rs) (hob : a.openBegin = false) (hoe : a.openEnd = false)
    (hW : ModestWeights rs) (hc : ∀ i < n, ModestCost (ρ i)) (hr : dtw (binary64 b) a = .ok r) :
    ∃ d, r.distance = fin d ∧ |d - ((List.range n).map ρ).sum| ≤ relError n m * ((List.range n).map ρ).sum := by
  obtain ⟨e1, near⟩ := double_near (ℓ := fun i _ => ρ i) b h hob hoe hW (fun i hi _ _ => hc i hi)
  obtain ⟨r0, hr0⟩ := e1.1 ⟨r, hr⟩
  obtain ⟨d, d0, q1, q2, -, q3, -⟩ := near r r0 hr hr0
  rw [C91_flat_reference hw hh h hr0, fin.injEq] at q2
  rw [← q2] at q3
  exact ⟨d, q1, q3⟩

/-! ### The patterns -/

instance : Decidable (OncePerQuery rs) := inferInstanceAs (Decidable (∀ _ ∈ _, _))
instance : Decidable (EvenPerReference κ rs) := inferInstanceAs (Decidable (∀ _ ∈ _, _))

/-- The bundled patterns that charge every query element exactly once. -/
def oncePatterns : List String :=
  ["asymmetric", "_asymmetricItakura", "asymmetricP0", "_asymmetricP0b", "asymmetricP05", "asymmetricP1", "typeIc", "typeIcs", "typeIIIc",
    "typeIVc", "rigid"]

/-- C91.  Which of the bundled patterns these theorems are about: all with hint N but `asymmetricP2` and `typeIIc`, and
`_asymmetricItakura` (hint NA); columns: `mori2006` and `rigid`. -/
theorem C91_bundled : ∀ q ∈ Pat.table,
    (OncePerQuery (rulesOf q.2) ↔ q.1 ∈ oncePatterns) ∧ (q.1 ∈ oncePatterns → q.1 ≠ "_asymmetricItakura" → q.2.hint = "N") ∧
    (EvenPerReference 3 (rulesOf q.2) ↔ q.1 = "mori2006") ∧ (EvenPerReference 1 (rulesOf q.2) ↔ q.1 = "rigid") := by
  have key : (Pat.table.all fun q => decide ((OncePerQuery (rulesOf q.2) ↔ q.1 ∈ oncePatterns) ∧
    (q.1 ∈ oncePatterns → q.1 ≠ "_asymmetricItakura" → q.2.hint = "N") ∧
    (EvenPerReference 3 (rulesOf q.2) ↔ q.1 = "mori2006") ∧ (EvenPerReference 1 (rulesOf q.2) ↔ q.1 = "rigid"))) = true := by decide +kernel
  intro q hq
  exact of_decide_eq_true (List.all_eq_true.1 key q hq)

/-- C91.  The patterns made by `mvmStepPattern` too, at every elasticity. -/
theorem C91_mvm (e : Nat) : OncePerQuery (mvmRules e) ∧ (mvmStepPattern e).hint = "N" := by
  refine ⟨?_, rfl⟩
  intro x hx k hk
  simp only [mvmRules, List.mem_map, List.mem_range] at hx
  obtain ⟨s, _, rfl⟩ := hx
  simp only at hk
  have : k = 0 ∨ k = 1 := by omega
  rcases this with rfl | rfl <;> simp [Rule.rowShare]


/-! ### Examples -/

private def Ex.off : Nat → ℚ := fun i => (i : ℚ) * i - 3 / 2

example : Problem (Ex.call 3 4 Ex.L "asymmetric") 3 4 Ex.L (fun _ _ => true) Pat.asymmetric (rulesOf Pat.asymmetric) ∧
    Problem (Ex.call 3 4 (fun i j => shiftF (Ex.off i) (Ex.L i j)) "asymmetric") 3 4 (fun i j => shiftF (Ex.off i) (Ex.L i j))
      (fun _ _ => true) Pat.asymmetric (rulesOf Pat.asymmetric) ∧
    SameOptions (Ex.call 3 4 Ex.L "asymmetric") (Ex.call 3 4 (fun i j => shiftF (Ex.off i) (Ex.L i j)) "asymmetric") ∧
    OncePerQuery (rulesOf Pat.asymmetric) ∧ Pat.asymmetric.hint = "N" :=
  ⟨bundled_problem (by decide) (by decide) (by decide) _ ("asymmetric", Pat.asymmetric) Ex.asym_mem,
    bundled_problem (by decide) (by decide) (by decide) _ ("asymmetric", Pat.asymmetric) Ex.asym_mem,
    ⟨rfl, rfl, rfl, rfl⟩, ((C91_bundled _ Ex.asym_mem).1).2 (by decide), rfl⟩

/-- The two calls succeed, with different distances. -/
example : ((dtw Arith.exact (Ex.call 3 4 Ex.L "asymmetric")).map (·.distance)) = .ok (fin 3) ∧
    ((dtw Arith.exact (Ex.call 3 4 (fun i j => shiftF (Ex.off i) (Ex.L i j)) "asymmetric")).map (·.distance)) = .ok (fin (7 / 2)) := by
  decide +kernel

/-- With `symmetric2`, offsets do change the alignment: here they make a path along the cheaper row better. -/
example : ((dtw Arith.exact (Ex.call 3 4 Ex.L "symmetric2")).map fun r => r.mapping.map (·.index1s)) ≠
    ((dtw Arith.exact (Ex.call 3 4 (fun i j => shiftF (if i = 1 then 9 else 0) (Ex.L i j)) "symmetric2")).map fun r => r.mapping.map (·.index1s)) := by
  decide +kernel

example : Problem (Ex.call 3 4 (fun i _ => fin (Ex.off i)) "asymmetric") 3 4 (fun i _ => fin (Ex.off i)) (fun _ _ => true) Pat.asymmetric
      (rulesOf Pat.asymmetric) ∧
    ((dtw Arith.exact (Ex.call 3 4 (fun i _ => fin (Ex.off i)) "asymmetric")).map (·.distance)) = .ok (fin (1 / 2)) :=
  ⟨bundled_problem (by decide) (by decide) (by decide) _ ("asymmetric", Pat.asymmetric) Ex.asym_mem, by decide +kernel⟩

end DTW
