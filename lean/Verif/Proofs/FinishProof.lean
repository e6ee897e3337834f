import Verif.Proofs.DtwProof

/-!
# The last part of `dtw`: choice of the end point, normalisation, mapping
-/

namespace DTW
open F64

theorem firstMin_eq : ∀ (l : List F64) (i ii : Nat) (vv : F64),
    ((firstMin l i ii vv : Nat) : Int) = argminLoop l i ii vv := by
  intro l
  induction l with
  | nil => intro i ii vv; rfl
  | cons x xs ih =>
    intro i ii vv
    unfold firstMin argminLoop
    split
    · rw [ih]; push_cast; rfl
    · rw [ih]; push_cast; rfl

theorem divQ_ne_nan (A : Arith) {v : F64} {d : ℚ} (hv : v ≠ nan) (hd : d ≠ 0) : A.divQ v d ≠ nan := by
  cases v with
  | nan => exact absurd rfl hv
  | fin q => simp only [Arith.divQ, if_neg hd]; exact A.rnd_ne_nan _
  | pinf => simp only [Arith.divQ]; split <;> simp
  | ninf => simp only [Arith.divQ]; split <;> simp

theorem normBy_nan (A : Arith) (hint : String) (n j : Nat) : normBy A hint n j nan = nan := by
  unfold normBy; simp [Arith.divQ]

theorem normBy_ne_nan (A : Arith) {hint : String} {n j : Nat} {v : F64} (hn : 0 < n) (hv : v ≠ nan) :
    normBy A hint n j v ≠ nan := by
  have h1 : (0 : ℚ) < n := by exact_mod_cast hn
  have h2 : (0 : ℚ) ≤ j := by positivity
  unfold normBy
  split
  · exact divQ_ne_nan A hv (by linarith)
  · split
    · exact divQ_ne_nan A hv (by linarith)
    · split
      · exact divQ_ne_nan A hv (by linarith)
      · exact hv

theorem normBy_eq_nan_iff (A : Arith) {hint : String} {n j : Nat} {v : F64} (hn : 0 < n) :
    normBy A hint n j v = nan ↔ v = nan := by
  constructor
  · intro h; by_contra hv; exact normBy_ne_nan A hn hv h
  · rintro rfl; exact normBy_nan A hint n j

theorem normalise_tab (A : Arith) (hint : String) (n m : Nat) (f : Nat → F64) :
    normalise A hint n (tab m f) = tab m (fun j => normBy A hint n j (f j)) := by
  apply List.ext_getElem?
  intro j
  unfold normalise normBy
  by_cases h0 : hint = "NA"
  · subst h0; simp
  · by_cases h1 : hint = "N+M"
    · subst h1; simp only [getElem?_tab]; simp [List.getElem?_mapIdx]
    · by_cases h2 : hint = "N"
      · subst h2; simp only [getElem?_tab]; simp
      · by_cases h3 : hint = "M"
        · subst h3; simp only [getElem?_tab]; simp [List.getElem?_mapIdx]
        · simp [h0, h1, h2, h3]

/-- NaN replaced by +inf. -/
def unNan (v : F64) : F64 := if isNan v then pinf else v

theorem unNan_ne_nan (v : F64) : unNan v ≠ nan := by cases v <;> simp [unNan, isNan]

theorem unNan_of {v : F64} (h : v ≠ nan) : unNan v = v := by cases v <;> simp_all [unNan, isNan]

theorem nanargmin_tab {m : Nat} {f : Nat → F64} {k : Nat} (h : nanargmin (tab m f) = .ok k) :
    k < m ∧ (∀ j < m, lt (unNan (f j)) (unNan (f k)) = false) ∧ (∀ j < k, unNan (f j) ≠ unNan (f k)) := by
  unfold nanargmin at h
  split at h
  · simp at h
  · have hmap : (tab m f).map (fun v => if isNan v = true then pinf else v) = tab m (fun j => unNan (f j)) := by
      simp [tab, unNan, Function.comp_def]
    rw [hmap] at h
    cases m with
    | zero => simp [tab] at h
    | succ m =>
      cases htab : tab (m + 1) (fun j => unNan (f j)) with
      | nil => have := congrArg List.length htab; simp at this
      | cons x xs =>
        rw [htab] at h
        simp only [Except.ok.injEq] at h
        have get : ∀ j, (x :: xs)[j]? = if j < m + 1 then some (unNan (f j)) else none := by
          intro j; rw [← htab, getElem?_tab]
        have hx : x = unNan (f 0) := by have := get 0; simpa using this
        have hxs : ∀ j, xs[j]? = if j + 1 < m + 1 then some (unNan (f (j + 1))) else none := by
          intro j; have := get (j + 1); simpa using this
        have hlen : xs.length = m := by
          have := congrArg List.length htab; simp at this; omega
        have hmemxs : ∀ j < m, unNan (f (j + 1)) ∈ xs := by
          intro j hj
          apply List.mem_of_getElem? (i := j)
          rw [hxs, if_pos (by omega)]
        have hk : (k : Int) = argminLoop xs 1 0 x := by
          rw [← h]; have := firstMin_eq xs 1 0 x; simpa using this
        rcases argminLoop_spec xs 1 0 x (by rw [hx]; exact unNan_ne_nan _) with
          ⟨h1, h2⟩ | ⟨q, v, h1, h2, h3, h4, h5⟩
        · have hk0 : k = 0 := by omega
          subst hk0
          refine ⟨by omega, ?_, by intro j hj; omega⟩
          intro j hj
          cases j with
          | zero => simp
          | succ j => rw [← hx]; exact h2 _ (hmemxs j (by omega))
        · have hkq : k = q + 1 := by omega
          have hqm : q + 1 < m + 1 := by
            by_contra hc; rw [hxs, if_neg hc] at h1; simp at h1
          rw [hxs, if_pos hqm] at h1
          simp only [Option.some.injEq] at h1
          subst hkq
          rw [h1]
          refine ⟨hqm, ?_, ?_⟩
          · intro j hj
            cases j with
            | zero =>
              rw [← hx]
              cases hc : lt x v with
              | false => rfl
              | true => have := lt_trans h3 hc; simp at this
            | succ j => exact h4 _ (hmemxs j (by omega))
          · intro j hj
            cases j with
            | zero => rw [← hx]; rintro rfl; simp at h3
            | succ j =>
              refine h5 j (by omega) _ ?_
              rw [hxs, if_pos (by omega)]

theorem nanargmin_tab_error {m : Nat} {f : Nat → F64} :
    (∃ k, nanargmin (tab m f) = .ok k) ↔ ∃ j < m, f j ≠ nan := by
  unfold nanargmin
  constructor
  · rintro ⟨k, h⟩
    split at h
    · simp at h
    · rename_i hall
      simp only [List.all_eq_true, not_forall] at hall
      obtain ⟨v, hv, hn⟩ := hall
      simp only [tab, List.mem_map, List.mem_range] at hv
      obtain ⟨j, hj, rfl⟩ := hv
      exact ⟨j, hj, by simpa using hn⟩
  · rintro ⟨j, hj, hn⟩
    have hall : ¬ ((tab m f).all isNan = true) := by
      simp only [List.all_eq_true, not_forall]
      exact ⟨f j, by simp only [tab, List.mem_map, List.mem_range]; exact ⟨j, hj, rfl⟩, by simpa using hn⟩
    rw [if_neg hall]
    split
    · rename_i h
      have := congrArg List.length h
      simp at this; omega
    · exact ⟨_, rfl⟩

theorem nanargmin_all_nan {m : Nat} {f : Nat → F64} (h : ∀ j < m, f j = nan) :
    nanargmin (tab m f) = .error (.valueError "All-NaN slice encountered") := by
  unfold nanargmin
  rw [if_pos]
  simp only [List.all_eq_true, tab, List.mem_map, List.mem_range]
  rintro v ⟨j, hj, rfl⟩
  simp [h j hj]

theorem firstBest_of_nanargmin {m : Nat} {f : Nat → F64} {k : Nat} (h : nanargmin (tab m f) = .ok k)
    (hk : f k ≠ nan) : FirstBest m f k := by
  obtain ⟨h1, h2, h3⟩ := nanargmin_tab h
  have hle : ∀ j < m, f j ≠ nan → F64.le (f k) (f j) := by
    intro j hj hn
    have := h2 j hj
    rw [unNan_of hn, unNan_of hk] at this
    exact ⟨hk, hn, this⟩
  refine ⟨h1, hk, hle, ?_⟩
  intro j hj hn
  have := h3 j hj
  rw [unNan_of hn, unNan_of hk] at this
  cases hc : lt (f k) (f j) with
  | true => rfl
  | false => exact absurd (lt_tri hn hk (hle j (by omega) hn).2.2 hc) this

/-! ### Inversion of a successful run -/

/-- The result object assembled from an end column `j`, a mapping `mp` and the matrices. -/
def mkResult (A : Arith) (a : Args) (p : StepPattern) (n m q : Nat) (qr : Option (Mat F64 × Mat F64))
    (lm' : Mat F64) (G : Nat → Nat → F64) (D : Nat → Nat → Int) (j : Nat) (mp : Option Mapping) : Result :=
  { N := n, M := m, openEnd := a.openEnd, openBegin := a.openBegin
    windowFunction := canonWindow a.windowType, windowArgs := a.windowArgs, stepPattern := p
    jmin := j, distance := G (q - 1) j
    normalizedDistance := if p.hint = "NA" then nan else normBy A p.hint n j (G (q - 1) j)
    mapping := mp
    costMatrix := if a.keepInternals then
      some (if a.openBegin then (Mat.ofFn q m G).dropRow else Mat.ofFn q m G) else none
    directionMatrix := if a.keepInternals then
      some (if a.openBegin then (Mat.ofFn q m D).dropRow else Mat.ofFn q m D) else none
    localCostMatrix := if a.keepInternals then
      some (if a.openBegin then lm'.dropRow else lm') else none
    queryReference := if a.keepInternals then qr else none }

theorem pickEnd_ok {A : Arith} {a : Args} {hint : String} {n m q : Nat} {G : Nat → Nat → F64} {j : Int} {d : F64}
    (hn : 0 < n) (hq : 0 < q) (hm : 0 < m)
    (h : pickEnd a hint m (Mat.ofFn q m G) (normalise A hint n (tab m (G (q - 1)))) = .ok (j, d)) :
    ∃ k : Nat, k < m ∧ j = k ∧ d = G (q - 1) k ∧ G (q - 1) k ≠ nan ∧ (a.openEnd = false → k = m - 1) ∧
      (a.openEnd = true → hint ≠ "NA" ∧ FirstBest m (fun j => normBy A hint n j (G (q - 1) j)) k) := by
  rw [normalise_tab] at h
  unfold pickEnd at h
  cases hoe : a.openEnd with
  | false =>
    rw [hoe] at h
    simp only [Bool.false_eq_true, if_false, Except_bind_ok] at h
    have e : ((m : Int) - 1) = ((m - 1 : Nat) : Int) := by omega
    rw [e, pyGet_neg_one G hq (by omega), Except_bind_ok] at h
    split at h
    · simp at h
    · rename_i hnan
      simp only [Except.ok.injEq, Prod.mk.injEq] at h
      refine ⟨m - 1, by omega, h.1.symm, h.2.symm, by simpa using hnan, by simp, by simp⟩
  | true =>
    rw [hoe] at h
    simp only [if_true] at h
    by_cases hNA : hint = "NA"
    · simp [hNA] at h
    · rw [if_neg hNA] at h
      cases hk : nanargmin (tab m fun j => normBy A hint n j (G (q - 1) j)) with
      | error e => rw [hk] at h; simp at h
      | ok k =>
        rw [hk] at h
        simp only [Except_bind_ok] at h
        have hkm := (nanargmin_tab hk).1
        rw [pyGet_neg_one G hq hkm, Except_bind_ok] at h
        split at h
        · simp at h
        · rename_i hnan
          simp only [Except.ok.injEq, Prod.mk.injEq] at h
          have hne : G (q - 1) k ≠ nan := by simpa using hnan
          refine ⟨k, hkm, h.1.symm, h.2.symm, hne, by simp, fun _ => ⟨hNA, ?_⟩⟩
          exact firstBest_of_nanargmin hk (normBy_ne_nan A hn hne)

theorem pickNorm_tab {A : Arith} {hint : String} {n m j : Nat} {f : Nat → F64} (hj : j < m) :
    pickNorm hint (normalise A hint n (tab m f)) j =
      .ok (if hint = "NA" then nan else normBy A hint n j (f j)) := by
  rw [normalise_tab]
  unfold pickNorm
  by_cases hNA : hint = "NA"
  · simp [hNA]
  · simp only [ne_eq, hNA, not_false_eq_true, if_true, Int.toNat_natCast, getElem?_tab, hj, if_false]

/-- A run succeeds as soon as the end point and the mapping do. -/
theorem finish_of {A : Arith} {a : Args} {p : StepPattern} {n m q : Nat} {qr} {lm' : Mat F64}
    {G : Nat → Nat → F64} {D : Nat → Nat → Int} {j : Nat} (hj : j < m)
    (hpe : pickEnd a p.hint m (Mat.ofFn q m G) (normalise A p.hint n (tab m (G (q - 1)))) =
      .ok ((j : Int), G (q - 1) j)) :
    finish A a p n m qr q lm' G D =
      (pickMapping a p (Mat.ofFn q m D) j).map (mkResult A a p n m q qr lm' G D j) := by
  unfold finish
  simp only
  rw [hpe]
  simp only [Except_bind_ok]
  rw [pickNorm_tab hj]
  simp only [Except_bind_ok]
  cases pickMapping a p (Mat.ofFn q m D) j <;> rfl

theorem finish_error {A : Arith} {a : Args} {p : StepPattern} {n m q : Nat} {qr} {lm' : Mat F64}
    {G : Nat → Nat → F64} {D : Nat → Nat → Int} {e : Err}
    (hpe : pickEnd a p.hint m (Mat.ofFn q m G) (normalise A p.hint n (tab m (G (q - 1)))) = .error e) :
    finish A a p n m qr q lm' G D = .error e := by
  unfold finish
  simp only
  rw [hpe]
  rfl

/-- The end column chosen by a successful run. -/
structure EndAt (A : Arith) (a : Args) (hint : String) (n m q : Nat) (G : Nat → Nat → F64) (j : Nat) :
    Prop where
  lt : j < m
  ne_nan : G (q - 1) j ≠ nan
  closed : a.openEnd = false → j = m - 1
  opened : a.openEnd = true → hint ≠ "NA" ∧ FirstBest m (fun j => normBy A hint n j (G (q - 1) j)) j

theorem finish_ok {A : Arith} {a : Args} {p : StepPattern} {n m q : Nat} {qr} {lm' : Mat F64}
    {G : Nat → Nat → F64} {D : Nat → Nat → Int} {r : Result} (hn : 0 < n) (hq : 0 < q) (hm : 0 < m)
    (h : finish A a p n m qr q lm' G D = .ok r) :
    ∃ j mp, EndAt A a p.hint n m q G j ∧ pickMapping a p (Mat.ofFn q m D) j = .ok mp ∧
      r = mkResult A a p n m q qr lm' G D j mp := by
  cases hpe : pickEnd a p.hint m (Mat.ofFn q m G) (normalise A p.hint n (tab m (G (q - 1)))) with
  | error e => rw [finish_error hpe] at h; simp at h
  | ok jd =>
    obtain ⟨j, d⟩ := jd
    obtain ⟨k, h1, rfl, rfl, h4, h5, h6⟩ := pickEnd_ok hn hq hm hpe
    rw [finish_of h1 hpe] at h
    cases hmp : pickMapping a p (Mat.ofFn q m D) k with
    | error e => rw [hmp] at h; simp [Except.map] at h
    | ok mp =>
      rw [hmp] at h
      simp only [Except.map, Except.ok.injEq] at h
      exact ⟨k, mp, ⟨h1, h4, h5, h6⟩, hmp, h.symm⟩

theorem pickEnd_closed {A : Arith} {a : Args} {hint : String} {n m q : Nat} {G : Nat → Nat → F64}
    (hq : 0 < q) (hm : 0 < m) (hoe : a.openEnd = false) :
    pickEnd a hint m (Mat.ofFn q m G) (normalise A hint n (tab m (G (q - 1)))) =
      if isNan (G (q - 1) (m - 1)) then
        .error (.valueError "No warping path found compatible with the local constraints")
      else .ok (((m - 1 : Nat) : Int), G (q - 1) (m - 1)) := by
  unfold pickEnd
  rw [hoe]
  simp only [Bool.false_eq_true, if_false, Except_bind_ok]
  have e : ((m : Int) - 1) = ((m - 1 : Nat) : Int) := by omega
  rw [e, pyGet_neg_one G hq (by omega), Except_bind_ok]

/-! ### The mapping -/

theorem pickMapping_trace {a : Args} {p : StepPattern} {rs : List Rule} {n m : Nat}
    {S : Nat → Nat → F64} {D : Nat → Nat → Int} (hp : WF p rs) {i0 j0 ks j}
    (hn : 0 < n) (ht : Trace rs D S i0 j0 ks (n - 1) j) (hj : j < m) :
    pickMapping a p (Mat.ofFn n m D) j =
      if a.openBegin then
        if a.distanceOnly then .error .attributeError else .ok (some (curve rs i0 j0 ks).dropNull)
      else .ok (if a.distanceOnly then none else some (curve rs i0 j0 ks)) := by
  have hb := backtrack_trace hp (m := m) (n := n) ht (by omega) hj
  unfold pickMapping
  cases a.distanceOnly <;> cases a.openBegin <;>
    simp only [Bool.false_eq_true, if_false, if_true, hb, Except_bind_ok] <;> rfl

end DTW
