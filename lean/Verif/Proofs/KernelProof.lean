import Verif.Spec

/-!
# `computeCM` refines the Bellman system
-/

namespace DTW
open F64

/-! ### Tabulated lists -/

/-- The list `[f 0, ..., f (N-1)]`. -/
def tab {α} (N : Nat) (f : Nat → α) : List α := (List.range N).map f

@[simp] theorem length_tab {α} (N : Nat) (f : Nat → α) : (tab N f).length = N := by simp [tab]
@[simp] theorem getElem?_tab {α} (N : Nat) (f : Nat → α) (k : Nat) :
    (tab N f)[k]? = if k < N then some (f k) else none := by
  by_cases h : k < N
  · simp [tab, h]
  · simp [tab, h]

theorem tab_congr {α} {N : Nat} {f g : Nat → α} (h : ∀ k < N, f k = g k) : tab N f = tab N g := by
  apply List.ext_getElem?; intro k; simp only [getElem?_tab]
  split <;> simp_all

theorem eq_tab_of {α} {l : List α} {N : Nat} {f : Nat → α} (hl : l.length = N)
    (h : ∀ k < N, l[k]? = some (f k)) : l = tab N f := by
  apply List.ext_getElem?; intro k; simp only [getElem?_tab]
  split
  · exact h k ‹_›
  · simp; omega

theorem rd_ok {α} {l : List α} {k : Nat} {v : α} (h : l[k]? = some v) : rd l (k : Int) = .ok v := by
  simp [rd, h]

theorem rd_tab {α} {N : Nat} {f : Nat → α} {k : Nat} (h : k < N) :
    rd (tab N f) (k : Int) = .ok (f k) := rd_ok (by rw [getElem?_tab, if_pos h])

theorem wr_ok {α} {l : List α} {k : Nat} {v : α} (h : k < l.length) :
    wr l (k : Int) v = .ok (l.set k v) := by simp [wr, h]

theorem set_tab {α} {N : Nat} {f : Nat → α} {k : Nat} {v : α} :
    (tab N f).set k v = tab N (fun x => if x = k then v else f x) := by
  apply List.ext_getElem?; intro x
  simp only [List.getElem?_set, getElem?_tab, length_tab]
  by_cases hx : k = x
  · subst hx; by_cases hk : k < N <;> simp [hk]
  · have : x ≠ k := fun h => hx h.symm
    simp [hx, this]

theorem wr_tab {α} {N : Nat} {f : Nat → α} {k : Nat} {v : α} (h : k < N) :
    wr (tab N f) (k : Int) v = .ok (tab N (fun x => if x = k then v else f x)) := by
  rw [wr_ok (by simpa using h), set_tab]

theorem replicate_eq_tab {α} (N : Nat) (v : α) : List.replicate N v = tab N (fun _ => v) := by
  apply eq_tab_of (by simp)
  intro k hk; simp [hk]

/-! ### Loops -/

theorem foldlM_range_inv {σ : Type} (f : σ → Nat → Except Err σ) (P : Nat → σ → Prop) :
    ∀ (n : Nat) (s : σ), P 0 s →
      (∀ k < n, ∀ s, P k s → ∃ s', f s k = .ok s' ∧ P (k + 1) s') →
      ∃ s', (List.range n).foldlM f s = .ok s' ∧ P n s' := by
  intro n
  induction n with
  | zero => intro s h _; exact ⟨s, rfl, h⟩
  | succ n ih =>
    intro s h hs
    obtain ⟨s', h1, h2⟩ := ih s h (fun k hk => hs k (by omega))
    obtain ⟨s'', h3, h4⟩ := hs n (by omega) s' h2
    refine ⟨s'', ?_, h4⟩
    rw [List.range_succ, List.foldlM_append, h1]
    simp [h3]

theorem mapM_ok {α β : Type} (f : α → Except Err β) (g : α → β) :
    ∀ l : List α, (∀ x ∈ l, f x = .ok (g x)) → l.mapM f = .ok (l.map g) := by
  intro l
  induction l with
  | nil => intro _; rfl
  | cons x xs ih =>
    intro h
    rw [List.mapM_cons, h x (by simp), Except_bind_ok, ih (fun y hy => h y (by simp [hy]))]
    simp

/-! ### Integers -/

theorem i32_ok {x : Int} (h1 : -2147483648 ≤ x) (h2 : x ≤ 2147483647) : i32 x = .ok x := by
  simp [i32, h1, h2]

theorem flat_lt {n m i j : Nat} (hi : i < n) (hj : j < m) : i * m + j < n * m := by
  calc i * m + j < i * m + m := by omega
    _ = (i + 1) * m := by ring
    _ ≤ n * m := Nat.mul_le_mul_right m hi

theorem em_ok {n m i j : Nat} (hi : i < n) (hj : j < m) (h : n * m < 2147483648) :
    em (m : Int) (j : Int) (i : Int) = .ok ((i * m + j : Nat) : Int) := by
  have h1 := flat_lt hi hj
  have h2 : i * m ≤ i * m + j := by omega
  have e1 : ((i : Int) * (m : Int)) = ((i * m : Nat) : Int) := by push_cast; ring
  unfold em
  rw [e1, i32_ok (by omega) (by omega)]
  simp only [Except_bind_ok]
  rw [i32_ok (by omega) (by omega)]
  push_cast; rfl

@[simp] theorem trunc_intCast (z : Int) : trunc (z : ℚ) = z := by
  simp [trunc]

@[simp] theorem trunc_neg_one : trunc (-1 : ℚ) = -1 := by
  have := trunc_intCast (-1); simpa using this

/-! ### Decoding of the step pattern -/

/-- A row of the (swapped) step-pattern matrix as decoded by C. -/
abbrev Step.toC (s : Step) : CStep := ⟨s.pid - 1, s.dj, s.di, s.w⟩

theorem getP_get (p : StepPattern) (i c : Nat) (s : Step) (hs : p.mx[i]? = some s) (hc : c < 4) :
    p.getP[c * p.mx.length + i]? =
      some (if c = 0 then (s.pid : ℚ) else if c = 1 then (s.dj : ℚ)
            else if c = 2 then (s.di : ℚ) else s.w) := by
  have hi : i < p.mx.length := by
    rw [List.getElem?_eq_some_iff] at hs; exact hs.1
  have hc' : c = 0 ∨ c = 1 ∨ c = 2 ∨ c = 3 := by omega
  unfold StepPattern.getP
  rcases hc' with rfl | rfl | rfl | rfl
  · rw [List.getElem?_append_left (by simp; omega), List.getElem?_append_left (by simp; omega),
      List.getElem?_append_left (by simp; omega)]
    simp [hs]
  · rw [List.getElem?_append_left (by simp; omega), List.getElem?_append_left (by simp; omega),
      List.getElem?_append_right (by simp)]
    simp [hs]
  · rw [List.getElem?_append_left (by simp; omega), List.getElem?_append_right (by simp; omega)]
    have : 2 * p.mx.length + i - (p.mx.length + p.mx.length) = i := by omega
    simp [this, hs]
  · rw [List.getElem?_append_right (by simp; omega)]
    have : 3 * p.mx.length + i - (p.mx.length + p.mx.length + p.mx.length) = i := by omega
    simp [this, hs, ← Nat.add_assoc]

theorem ep_ok {ns i c : Nat} (hi : i < ns) (hc : c < 4) (h : 4 * ns < 2147483648) :
    ep (ns : Int) (i : Int) (c : Int) = .ok ((c * ns + i : Nat) : Int) := by
  have h1 : c * ns ≤ 3 * ns := Nat.mul_le_mul_right _ (by omega)
  have e1 : ((c : Int) * (ns : Int)) = ((c * ns : Nat) : Int) := by push_cast; ring
  unfold ep
  rw [e1, i32_ok (by omega) (by omega)]
  simp only [Except_bind_ok]
  rw [i32_ok (by omega) (by omega)]
  push_cast; rfl

/-- Row bounds under which decoding succeeds. -/
def Step.OK (ns : Nat) (s : Step) : Prop :=
  1 ≤ s.pid ∧ s.pid ≤ ns ∧ 0 ≤ s.di ∧ s.di < 2147483648 ∧ 0 ≤ s.dj ∧ s.dj < 2147483648

/-- Values of a row that survive the conversion to C `int`. -/
def Step.IntOK (s : Step) : Prop :=
  -2147483647 ≤ s.pid ∧ s.pid ≤ 2147483647 ∧ -2147483648 ≤ s.di ∧ s.di ≤ 2147483647 ∧
  -2147483648 ≤ s.dj ∧ s.dj ≤ 2147483647

theorem decodeRow_eq (p : StepPattern) (h4 : 4 * p.mx.length < 2147483648) {i : Nat} {s : Step}
    (hs : p.mx[i]? = some s) (hok : s.IntOK) :
    decodeRow p.mx.length p.getP i =
      if s.pid - 1 < 0 ∨ s.pid - 1 ≥ (p.mx.length : Int) then .error .cExit else .ok s.toC := by
  have hi : i < p.mx.length := by
    rw [List.getElem?_eq_some_iff] at hs; exact hs.1
  obtain ⟨a1, a2, a3, a4, a5, a6⟩ := hok
  unfold decodeRow
  have e0 := ep_ok (c := 0) hi (by omega) h4
  have e1 := ep_ok (c := 1) hi (by omega) h4
  have e2 := ep_ok (c := 2) hi (by omega) h4
  have e3 := ep_ok (c := 3) hi (by omega) h4
  have g0 := rd_ok (getP_get p i 0 s hs (by omega))
  have g1 := rd_ok (getP_get p i 1 s hs (by omega))
  have g2 := rd_ok (getP_get p i 2 s hs (by omega))
  have g3 := rd_ok (getP_get p i 3 s hs (by omega))
  simp only [Nat.cast_zero, Nat.cast_one, Nat.cast_ofNat] at e0 e1 e2 e3
  rw [e0, Except_bind_ok, g0]
  simp only [Except_bind_ok, if_true, trunc_intCast]
  rw [i32_ok (by omega) (by omega)]
  simp only [Except_bind_ok]
  rw [i32_ok (by omega) (by omega)]
  simp only [Except_bind_ok]
  rw [e1, Except_bind_ok, g1]
  simp only [Except_bind_ok, one_ne_zero, if_false, if_true, trunc_intCast]
  rw [i32_ok (by omega) (by omega)]
  simp only [Except_bind_ok]
  rw [e2, Except_bind_ok, g2]
  simp only [Except_bind_ok, trunc_intCast, OfNat.ofNat_ne_zero, OfNat.ofNat_ne_one, if_false, if_true]
  rw [i32_ok (by omega) (by omega)]
  simp only [Except_bind_ok]
  rw [e3, Except_bind_ok, g3]
  simp only [Except_bind_ok]
  split <;> simp

theorem decode_ok (p : StepPattern) (h4 : 4 * p.mx.length < 2147483648)
    (hrow : ∀ s ∈ p.mx, s.OK p.mx.length) :
    decode p.getNRows p.getP = .ok (p.mx.map Step.toC) := by
  unfold decode StepPattern.getNRows
  have key : ∀ i ∈ List.range p.mx.length, decodeRow p.mx.length p.getP i =
      .ok ((fun i => (p.mx[i]?.getD ⟨1, 1, 1, -1⟩).toC) i) := by
    intro i hi
    have hi : i < p.mx.length := by simpa using hi
    obtain ⟨s, hs⟩ : ∃ s, p.mx[i]? = some s := ⟨_, List.getElem?_eq_getElem hi⟩
    have hm : s ∈ p.mx := List.mem_of_getElem? hs
    obtain ⟨a1, a2, a3, a4, a5, a6⟩ := hrow s hm
    rw [decodeRow_eq p h4 hs ⟨by omega, by omega, by omega, by omega, by omega, by omega⟩,
      if_neg (by omega)]
    simp [hs]
  rw [mapM_ok _ _ _ key]
  congr 1
  apply List.ext_getElem?
  intro i
  simp only [List.getElem?_map]
  by_cases hi : i < p.mx.length
  · simp [hi]
  · simp [hi]

theorem mapM_error {α β : Type} (f : α → Except Err β) (e : Err) :
    ∀ l : List α, (∀ x ∈ l, f x = .error e ∨ ∃ y, f x = .ok y) → (∃ x ∈ l, f x = .error e) →
      l.mapM f = .error e := by
  intro l
  induction l with
  | nil => rintro _ ⟨x, hx, _⟩; simp at hx
  | cons x xs ih =>
    intro h1 h2
    rw [List.mapM_cons]
    rcases h1 x (by simp) with hx | ⟨y, hx⟩
    · rw [hx]; rfl
    · rw [hx, Except_bind_ok]
      obtain ⟨z, hz, hez⟩ := h2
      have : ∃ z ∈ xs, f z = .error e := by
        rcases List.mem_cons.1 hz with rfl | hz
        · rw [hx] at hez; simp at hez
        · exact ⟨z, hz, hez⟩
      rw [ih (fun z hz => h1 z (by simp [hz])) this]
      rfl

theorem decode_exit (p : StepPattern) (h4 : 4 * p.mx.length < 2147483648)
    (hrow : ∀ s ∈ p.mx, s.IntOK) (hbad : ∃ s ∈ p.mx, s.pid < 1 ∨ (p.mx.length : Int) < s.pid) :
    decode p.getNRows p.getP = .error .cExit := by
  unfold decode StepPattern.getNRows
  apply mapM_error
  · intro i hi
    have hi : i < p.mx.length := by simpa using hi
    obtain ⟨s, hs⟩ : ∃ s, p.mx[i]? = some s := ⟨_, List.getElem?_eq_getElem hi⟩
    rw [decodeRow_eq p h4 hs (hrow s (List.mem_of_getElem? hs))]
    split
    · exact .inl rfl
    · exact .inr ⟨_, rfl⟩
  · obtain ⟨s, hs, hb⟩ := hbad
    obtain ⟨i, hi, hs'⟩ := List.mem_iff_getElem.1 hs
    refine ⟨i, by simpa using hi, ?_⟩
    rw [decodeRow_eq p h4 (s := s) (by rw [List.getElem?_eq_getElem hi, hs']) (hrow s hs),
      if_pos (by omega)]

/-! ### argmin -/

theorem argminLoop_spec : ∀ (l : List F64) (i ii : Int) (vv : F64), vv ≠ nan →
    (argminLoop l i ii vv = ii ∧ ∀ x ∈ l, lt x vv = false) ∨
    (∃ (k : Nat) (v : F64), l[k]? = some v ∧ argminLoop l i ii vv = i + k ∧ lt v vv = true ∧
      (∀ x ∈ l, lt x v = false) ∧ (∀ k' < k, ∀ x, l[k']? = some x → x ≠ v)) := by
  intro l
  induction l with
  | nil => intro i ii vv _; left; simp [argminLoop]
  | cons x xs ih =>
    intro i ii vv hvv
    unfold argminLoop
    cases hx : lt x vv with
    | true =>
      right
      simp only [if_true]
      rcases ih (i + 1) i x (ne_nan_of_lt_left hx) with ⟨h1, h2⟩ | ⟨k, v, h1, h2, h3, h4, h5⟩
      · refine ⟨0, x, by simp, by simp [h1], hx, ?_, ?_⟩
        · intro y hy; rcases List.mem_cons.1 hy with rfl | hy
          · simp
          · exact h2 y hy
        · intro k' hk'; omega
      · refine ⟨k + 1, v, by simpa using h1, by rw [h2]; push_cast; ring, lt_trans h3 hx, ?_, ?_⟩
        · intro y hy; rcases List.mem_cons.1 hy with rfl | hy
          · cases hyv : lt y v with
            | false => rfl
            | true => have := lt_trans h3 hyv; simp at this
          · exact h4 y hy
        · intro k' hk' y hy
          cases k' with
          | zero => simp at hy; subst hy; rintro rfl; simp at h3
          | succ k' => simp at hy; exact h5 k' (by omega) y hy
    | false =>
      simp only [Bool.false_eq_true, if_false]
      rcases ih (i + 1) ii vv hvv with ⟨h1, h2⟩ | ⟨k, v, h1, h2, h3, h4, h5⟩
      · left; refine ⟨h1, ?_⟩
        intro y hy; rcases List.mem_cons.1 hy with rfl | hy
        · exact hx
        · exact h2 y hy
      · right
        refine ⟨k + 1, v, by simpa using h1, by rw [h2]; push_cast; ring, h3, ?_, ?_⟩
        · intro y hy; rcases List.mem_cons.1 hy with rfl | hy
          · cases hyv : lt y v with
            | false => rfl
            | true => have := lt_trans hyv h3; simp [hx] at this
          · exact h4 y hy
        · intro k' hk' y hy
          cases k' with
          | zero => simp at hy; subst hy; rintro rfl; simp [h3] at hx
          | succ k' => simp at hy; exact h5 k' (by omega) y hy

theorem argmin_spec (l : List F64) :
    (argmin l = -1 ∧ ∀ x ∈ l, ¬ usable x) ∨
    (∃ (k : Nat) (v : F64), l[k]? = some v ∧ argmin l = k ∧ usable v ∧
      (∀ x ∈ l, lt x v = false) ∧ (∀ k' < k, ∀ x, l[k']? = some x → x ≠ v)) := by
  rcases argminLoop_spec l 0 (-1) .pinf (by simp) with ⟨h1, h2⟩ | ⟨k, v, h1, h2, h3⟩
  · left; refine ⟨h1, fun x hx => ?_⟩; simp [usable, h2 x hx]
  · right; exact ⟨k, v, h1, by simpa [argmin] using h2, h3⟩

/-! ### The loop over the step-pattern rows -/

theorem foldlM_relax_terms (A : Arith) (n m : Nat) (L : Nat → Nat → F64) (lm cm : List F64)
    (hlm : ∀ i < n, ∀ j < m, lm[i * m + j]? = some (L i j))
    (hnm : n * m < 2147483648) (i j k : Nat) (hi : i < n) (hj : j < m)
    (r : Rule) (hra : r.a < 2147483648) (hrb : r.b < 2147483648) :
    ∀ (ts : List Term), (∀ t ∈ ts, t.w ≠ -1 ∧ t.di ≤ r.a ∧ t.dj ≤ r.b) →
    ∀ (clist : List F64) (c : F64), clist[k]? = some c → (r.a ≤ i ∧ r.b ≤ j) ∨ c = nan →
    (ts.map fun t => (Step.mk ((k : Int) + 1) t.di t.dj t.w).toC).foldlM
      (relax A m lm cm (j : Int) (i : Int)) clist =
    .ok (clist.set k (ts.foldl (fun c t => A.mac c (A.rnd t.w) (L (i - t.di) (j - t.dj))) c)) := by
  have hmn : n < 2147483648 ∧ m < 2147483648 := by
    constructor
    · calc n ≤ n * m := Nat.le_mul_of_pos_right n (by omega)
        _ < _ := hnm
    · calc m ≤ n * m := Nat.le_mul_of_pos_left m (by omega)
        _ < _ := hnm
  intro ts
  induction ts with
  | nil =>
    intro _ clist c hc _
    simp only [List.map_nil, List.foldlM_nil, List.foldl_nil, Except_pure]
    rw [List.getElem?_eq_some_iff] at hc
    obtain ⟨h1, h2⟩ := hc
    rw [← h2, List.set_getElem_self]
  | cons t ts ih =>
    intro hts clist c hc hor
    obtain ⟨hw, hta, htb⟩ := hts t (by simp)
    have hts' : ∀ t ∈ ts, t.w ≠ -1 ∧ t.di ≤ r.a ∧ t.dj ≤ r.b := fun t ht => hts t (by simp [ht])
    have hk : k < clist.length := by
      rw [List.getElem?_eq_some_iff] at hc; exact hc.1
    have hstep : relax A m lm cm (j : Int) (i : Int) clist (Step.mk ((k : Int) + 1) t.di t.dj t.w).toC =
        .ok (clist.set k (A.mac c (A.rnd t.w) (L (i - t.di) (j - t.dj)))) := by
      unfold relax
      simp only
      rw [i32_ok (by omega) (by omega)]
      simp only [Except_bind_ok]
      rw [i32_ok (by omega) (by omega)]
      simp only [Except_bind_ok]
      by_cases hin : t.di ≤ i ∧ t.dj ≤ j
      · rw [if_pos (by omega), if_neg hw]
        have e1 : ((j : Int) - (t.dj : Int)) = ((j - t.dj : Nat) : Int) := by omega
        have e2 : ((i : Int) - (t.di : Int)) = ((i - t.di : Nat) : Int) := by omega
        have e3 : ((k : Int) + 1 - 1) = (k : Int) := by omega
        rw [e3, rd_ok hc]
        simp only [Except_bind_ok]
        rw [e1, e2, em_ok (n := n) (m := m) (by omega) (by omega) hnm, Except_bind_ok,
          rd_ok (hlm _ (by omega) _ (by omega)), Except_bind_ok, wr_ok hk]
      · rw [if_neg (by omega)]
        have hcn : c = nan := by
          rcases hor with h | h
          · omega
          · exact h
        subst hcn
        simp only [Arith.mac_nan]
        congr 1
        rw [List.getElem?_eq_some_iff] at hc
        obtain ⟨h1, h2⟩ := hc
        rw [← h2, List.set_getElem_self]
    rw [List.map_cons, List.foldlM_cons, hstep, Except_bind_ok,
      ih hts' _ (A.mac c (A.rnd t.w) (L (i - t.di) (j - t.dj)))
        (by simp [hk]) (by rcases hor with h | h
                           · exact .inl h
                           · right; rw [h]; simp)]
    simp

theorem charge_nan (A : Arith) (L : Nat → Nat → F64) (r : Rule) (i j : Nat) :
    charge A L r i j nan = nan := by
  unfold charge
  induction r.terms with
  | nil => rfl
  | cons t ts ih => simpa using ih

theorem foldlM_relax_rule (A : Arith) (n m : Nat) (L G : Nat → Nat → F64) (lm cm : List F64)
    (hlm : ∀ i < n, ∀ j < m, lm[i * m + j]? = some (L i j))
    (hcm : ∀ i < n, ∀ j < m, cm[i * m + j]? = some (G i j))
    (hnm : n * m < 2147483648) (i j k : Nat) (hi : i < n) (hj : j < m)
    (r : Rule) (hv : r.Valid) (hra : r.a < 2147483648) (hrb : r.b < 2147483648)
    (clist : List F64) (hc : clist[k]? = some nan) :
    ((r.rows k).map Step.toC).foldlM (relax A m lm cm (j : Int) (i : Int)) clist =
    .ok (clist.set k (cand A L G i j r)) := by
  have hmn : n < 2147483648 ∧ m < 2147483648 := by
    constructor
    · calc n ≤ n * m := Nat.le_mul_of_pos_right n (by omega)
        _ < _ := hnm
    · calc m ≤ n * m := Nat.le_mul_of_pos_left m (by omega)
        _ < _ := hnm
  have hk : k < clist.length := by
    rw [List.getElem?_eq_some_iff] at hc; exact hc.1
  unfold Rule.rows
  rw [List.map_cons, List.foldlM_cons, List.map_map]
  have key := foldlM_relax_terms A n m L lm cm hlm hnm i j k hi hj r hra hrb r.terms hv.2
  have e3 : ((k : Int) + 1 - 1) = (k : Int) := by omega
  by_cases hin : r.a ≤ i ∧ r.b ≤ j
  · have hstep : relax A m lm cm (j : Int) (i : Int) clist (Step.mk ((k : Int) + 1) r.a r.b (-1)).toC =
        .ok (clist.set k (G (i - r.a) (j - r.b))) := by
      unfold relax
      simp only
      rw [i32_ok (by omega) (by omega)]
      simp only [Except_bind_ok]
      rw [i32_ok (by omega) (by omega)]
      simp only [Except_bind_ok]
      rw [if_pos (by omega), if_pos trivial]
      have e1 : ((j : Int) - (r.b : Int)) = ((j - r.b : Nat) : Int) := by omega
      have e2 : ((i : Int) - (r.a : Int)) = ((i - r.a : Nat) : Int) := by omega
      rw [e1, e2, em_ok (n := n) (m := m) (by omega) (by omega) hnm, Except_bind_ok,
          rd_ok (hcm _ (by omega) _ (by omega)), Except_bind_ok, e3, wr_ok hk]
    rw [hstep, Except_bind_ok]
    have := key (clist.set k (G (i - r.a) (j - r.b))) (G (i - r.a) (j - r.b)) (by simp [hk]) (.inl hin)
    simp only [Function.comp_def]
    rw [this]
    simp [cand, hin, charge]
  · have hstep : relax A m lm cm (j : Int) (i : Int) clist (Step.mk ((k : Int) + 1) r.a r.b (-1)).toC =
        .ok clist := by
      unfold relax
      simp only
      rw [i32_ok (by omega) (by omega)]
      simp only [Except_bind_ok]
      rw [i32_ok (by omega) (by omega)]
      simp only [Except_bind_ok]
      rw [if_neg (by omega)]
    rw [hstep, Except_bind_ok]
    simp only [Function.comp_def]
    rw [key clist nan hc (.inr rfl)]
    have := charge_nan A L r i j
    simp only [charge] at this
    simp [cand, hin, this]

theorem foldlM_relax_rules (A : Arith) (n m : Nat) (L G : Nat → Nat → F64) (lm cm : List F64)
    (hlm : ∀ i < n, ∀ j < m, lm[i * m + j]? = some (L i j))
    (hcm : ∀ i < n, ∀ j < m, cm[i * m + j]? = some (G i j))
    (hnm : n * m < 2147483648) (i j : Nat) (hi : i < n) (hj : j < m) :
    ∀ (rs : List Rule) (pre : List F64), (∀ r ∈ rs, r.Valid) →
      (∀ r ∈ rs, r.a < 2147483648 ∧ r.b < 2147483648) →
    ((encodeFrom pre.length rs).map Step.toC).foldlM (relax A m lm cm (j : Int) (i : Int))
        (pre ++ List.replicate rs.length nan) =
    .ok (pre ++ rs.map (cand A L G i j)) := by
  intro rs
  induction rs with
  | nil => intro pre _ _; simp [encodeFrom]
  | cons r rs ih =>
    intro pre hv hb
    unfold encodeFrom
    rw [List.map_append, List.foldlM_append,
      foldlM_relax_rule A n m L G lm cm hlm hcm hnm i j pre.length hi hj r (hv r (by simp))
        (hb r (by simp)).1 (hb r (by simp)).2 _ (by simp [List.replicate_succ]), Except_bind_ok]
    have := ih (pre ++ [cand A L G i j r]) (fun r hr => hv r (by simp [hr]))
      (fun r hr => hb r (by simp [hr]))
    simp only [List.length_append, List.length_singleton, List.append_assoc, List.singleton_append] at this
    simpa [List.set_append, List.replicate_succ] using this

/-! ### One cell -/

/-- What a cell `(a,b)` of the grid must satisfy, in terms of the flat buffers' contents. -/
def CellOK (A : Arith) (rs : List Rule) (W : Nat → Nat → Bool) (L S G : Nat → Nat → F64)
    (D : Nat → Nat → Int) (i j : Nat) : Prop :=
  (S i j ≠ nan → G i j = S i j ∧ D i j = intMin) ∧
  (S i j = nan → W i j = false → G i j = nan ∧ D i j = intMin) ∧
  (S i j = nan → W i j = true → IsBest (rs.map (cand A L G i j)) (G i j) (D i j))

/-- The 2D reading of a flat function. -/
def un2 {α} (m : Nat) (g : Nat → α) : Nat → Nat → α := fun i j => g (i * m + j)

theorem cell_spec (A : Arith) (n m : Nat) (rs : List Rule) (W : Nat → Nat → Bool)
    (L S : Nat → Nat → F64) (wm : List Int) (lm : List F64)
    (hwm : ∀ i < n, ∀ j < m, wm[i * m + j]? = some (if W i j then 1 else 0))
    (hlm : ∀ i < n, ∀ j < m, lm[i * m + j]? = some (L i j))
    (hnm : n * m < 2147483648) (hv : ∀ r ∈ rs, r.Valid)
    (hb : ∀ r ∈ rs, r.a < 2147483648 ∧ r.b < 2147483648)
    (i j : Nat) (hi : i < n) (hj : j < m) (g : Nat → F64) (d : Nat → Int)
    (hg : g (i * m + j) = S i j) (hd : d (i * m + j) = intMin) :
    ∃ g' d', cell A m wm lm ((encode rs).map Step.toC) rs.length (tab (n * m) g, tab (n * m) d)
        (j : Int) (i : Int) = .ok (tab (n * m) g', tab (n * m) d') ∧
      (∀ x, x ≠ i * m + j → g' x = g x ∧ d' x = d x) ∧
      CellOK A rs W L S (un2 m g') (un2 m d') i j := by
  have hk := flat_lt hi hj
  -- the rules never look at the cell itself
  have hcand : ∀ v, ∀ r ∈ rs, cand A L (un2 m fun x => if x = i * m + j then v else g x) i j r =
      cand A L (un2 m g) i j r := by
    intro v r hr
    unfold cand
    split
    · rename_i hin
      congr 1
      unfold un2
      have hne : (i - r.a) * m + (j - r.b) ≠ i * m + j := by
        rcases (hv r hr).1 with h | h
        · have : (i - r.a) * m + (j - r.b) < i * m + j := by
            calc (i - r.a) * m + (j - r.b) < (i - r.a) * m + m := by omega
              _ = (i - r.a + 1) * m := by ring
              _ ≤ i * m := Nat.mul_le_mul_right m (by omega)
              _ ≤ i * m + j := by omega
          omega
        · have : (i - r.a) * m ≤ i * m := Nat.mul_le_mul_right m (by omega)
          omega
      simp [hne]
    · rfl
  unfold cell
  rw [em_ok (n := n) hi hj hnm, Except_bind_ok, rd_ok (hwm i hi j hj), Except_bind_ok]
  cases hW : W i j with
  | false =>
    refine ⟨g, d, by simp, by simp, ?_⟩
    refine ⟨fun _ => ?_, fun h1 _ => ?_, fun _ h2 => ?_⟩
    · exact ⟨hg, hd⟩
    · exact ⟨hg.trans h1, hd⟩
    · simp [hW] at h2
  | true =>
    simp only [if_true, one_ne_zero, if_false]
    rw [rd_tab hk, Except_bind_ok]
    by_cases hS : S i j = nan
    · rw [hg, hS]
      simp only [isNan, Bool.true_eq_false, if_false]
      have hfold := foldlM_relax_rules A n m L (un2 m g) lm (tab (n * m) g) hlm
        (fun a ha b hb => by rw [getElem?_tab, if_pos (flat_lt ha hb)]; rfl) hnm i j hi hj rs [] hv hb
      simp only [List.length_nil, List.nil_append] at hfold
      have hen : encode rs = encodeFrom 0 rs := rfl
      rw [hen, hfold, Except_bind_ok]
      rcases argmin_spec (rs.map (cand A L (un2 m g) i j)) with ⟨h1, h2⟩ | ⟨k, v, h1, h2, h3, h4, h5⟩
      · rw [h1]
        refine ⟨g, d, by simp, by simp, ?_⟩
        refine ⟨fun h => absurd hS h, fun _ h => by simp [hW] at h, fun _ _ => ?_⟩
        exact .inr ⟨h2, hg.trans hS, hd⟩
      · rw [h2]
        have : (k : Int) > -1 := by omega
        rw [if_pos this, rd_ok h1, Except_bind_ok]
        rw [wr_tab hk, Except_bind_ok, wr_tab hk, Except_bind_ok]
        refine ⟨_, _, rfl, ?_, ?_⟩
        · intro x hx; simp [hx]
        · refine ⟨fun h => absurd hS h, fun _ h => by simp [hW] at h, fun _ _ => ?_⟩
          have hmap : rs.map (cand A L (un2 m fun x => if x = i * m + j then v else g x) i j) =
              rs.map (cand A L (un2 m g) i j) := List.map_congr_left (hcand v)
          rw [hmap]
          left
          refine ⟨k, ?_, ?_, ?_, ?_, ?_⟩ <;> simp only [un2, if_true]
          · exact h1
          · exact h3
          · exact h4
          · exact h5
    · refine ⟨g, d, ?_, by simp, ?_⟩
      · rw [hg]; rw [if_pos ((isNan_false_iff _).2 hS)]
      · exact ⟨fun _ => ⟨hg, hd⟩, fun h => absurd h hS, fun h => absurd h hS⟩

/-! ### The sweep -/

/-- Loop invariant: cells before position `t` are final, the others untouched. -/
def SweepInv (A : Arith) (n m : Nat) (rs : List Rule) (W : Nat → Nat → Bool) (L S : Nat → Nat → F64)
    (t : Nat) (st : List F64 × List Int) : Prop :=
  ∃ g d, st = (tab (n * m) g, tab (n * m) d) ∧
    (∀ i < n, ∀ j < m, t ≤ i * m + j → g (i * m + j) = S i j ∧ d (i * m + j) = intMin) ∧
    (∀ i < n, ∀ j < m, i * m + j < t → CellOK A rs W L S (un2 m g) (un2 m d) i j)

theorem flat_inj {m i j i' j' : Nat} (hj : j < m) (hj' : j' < m) (h : i * m + j = i' * m + j') :
    i = i' ∧ j = j' := by
  have h1 : (i * m + j) / m = i := by
    rw [Nat.add_comm, Nat.add_mul_div_right _ _ (by omega), Nat.div_eq_of_lt hj]; omega
  have h2 : (i' * m + j') / m = i' := by
    rw [Nat.add_comm, Nat.add_mul_div_right _ _ (by omega), Nat.div_eq_of_lt hj']; omega
  have : i = i' := by rw [← h1, ← h2, h]
  subst this; omega

theorem cand_congr_of_lt (A : Arith) (L : Nat → Nat → F64) (m : Nat) (g g' : Nat → F64) (i j t : Nat)
    (r : Rule) (ht : i * m + j < t) (h : ∀ x, x < t → g' x = g x) :
    cand A L (un2 m g') i j r = cand A L (un2 m g) i j r := by
  unfold cand
  split
  · rename_i hin
    congr 1
    unfold un2
    apply h
    have : (i - r.a) * m ≤ i * m := Nat.mul_le_mul_right m (by omega)
    omega
  · rfl

theorem sweep_step (A : Arith) (n m : Nat) (rs : List Rule) (W : Nat → Nat → Bool)
    (L S : Nat → Nat → F64) (wm : List Int) (lm : List F64)
    (hwm : ∀ i < n, ∀ j < m, wm[i * m + j]? = some (if W i j then 1 else 0))
    (hlm : ∀ i < n, ∀ j < m, lm[i * m + j]? = some (L i j))
    (hnm : n * m < 2147483648) (hv : ∀ r ∈ rs, r.Valid)
    (hb : ∀ r ∈ rs, r.a < 2147483648 ∧ r.b < 2147483648)
    (i j : Nat) (hi : i < n) (hj : j < m) (st : List F64 × List Int)
    (h : SweepInv A n m rs W L S (i * m + j) st) :
    ∃ st', cell A m wm lm ((encode rs).map Step.toC) rs.length st (j : Int) (i : Int) = .ok st' ∧
      SweepInv A n m rs W L S (i * m + j + 1) st' := by
  obtain ⟨g, d, rfl, h1, h2⟩ := h
  obtain ⟨hg, hd⟩ := h1 i hi j hj (Nat.le_refl _)
  obtain ⟨g', d', e, hsame, hok⟩ := cell_spec A n m rs W L S wm lm hwm hlm hnm hv hb i j hi hj g d hg hd
  refine ⟨_, e, g', d', rfl, ?_, ?_⟩
  · intro a ha b hb' hle
    have hne : a * m + b ≠ i * m + j := by omega
    rw [(hsame _ hne).1, (hsame _ hne).2]
    exact h1 a ha b hb' (by omega)
  · intro a ha b hb' hlt
    by_cases heq : a * m + b = i * m + j
    · obtain ⟨rfl, rfl⟩ := flat_inj hb' hj heq
      exact hok
    · have hlt' : a * m + b < i * m + j := by omega
      obtain ⟨c1, c2, c3⟩ := h2 a ha b hb' hlt'
      have eg : un2 m g' a b = un2 m g a b := (hsame _ heq).1
      have ed : un2 m d' a b = un2 m d a b := (hsame _ heq).2
      refine ⟨?_, ?_, ?_⟩
      · rw [eg, ed]; exact c1
      · rw [eg, ed]; exact c2
      · intro hs hw
        rw [eg, ed]
        have hmap : rs.map (cand A L (un2 m g') a b) = rs.map (cand A L (un2 m g) a b) := by
          apply List.map_congr_left
          intro r _
          exact cand_congr_of_lt A L m g g' a b (i * m + j) r hlt'
            (fun x hx => (hsame x (by omega)).1)
        rw [hmap]
        exact c3 hs hw

/-! ### Encoded patterns decode -/

theorem mem_encodeFrom {rs : List Rule} : ∀ {k : Nat} {s : Step}, s ∈ encodeFrom k rs →
    ∃ (q : Nat) (r : Rule), rs[q]? = some r ∧ s ∈ r.rows (k + q) := by
  induction rs with
  | nil => intro k s h; simp [encodeFrom] at h
  | cons r rs ih =>
    intro k s h
    rcases List.mem_append.1 h with h | h
    · exact ⟨0, r, by simp, by simpa using h⟩
    · obtain ⟨q, r', h1, h2⟩ := ih h
      exact ⟨q + 1, r', by simpa using h1, by rw [← Nat.add_assoc, Nat.add_right_comm]; exact h2⟩

theorem length_encodeFrom (rs : List Rule) : ∀ k, rs.length ≤ (encodeFrom k rs).length := by
  induction rs with
  | nil => intro k; simp
  | cons r rs ih =>
    intro k
    have := ih (k + 1)
    simp only [encodeFrom, List.length_cons, List.length_append, Rule.rows]
    omega

theorem getLast?_encodeFrom (rs : List Rule) : ∀ k, rs ≠ [] →
    ∃ s, (encodeFrom k rs).getLast? = some s ∧ s.pid = (k : Int) + rs.length := by
  induction rs with
  | nil => intro k h; exact absurd rfl h
  | cons r rs ih =>
    intro k _
    by_cases hrs : rs = []
    · subst hrs
      simp only [encodeFrom, List.append_nil, Rule.rows]
      rcases List.eq_nil_or_concat r.terms with h | ⟨ts, t, h⟩
      · rw [h]; exact ⟨_, by simp; rfl, by simp⟩
      · rw [h]; refine ⟨⟨(k : Int) + 1, t.di, t.dj, t.w⟩, ?_, by simp⟩
        simp [List.getLast?_cons]
    · obtain ⟨s, h1, h2⟩ := ih (k + 1) hrs
      refine ⟨s, ?_, by rw [h2]; push_cast; simp; ring⟩
      simp only [encodeFrom]
      rw [List.getLast?_append, h1]; rfl

theorem mem_rows_pid {r : Rule} {k : Nat} {s : Step} (h : s ∈ r.rows k) : s.pid = (k : Int) + 1 := by
  rcases List.mem_cons.1 h with rfl | h
  · rfl
  · simp only [List.mem_map] at h
    obtain ⟨t, _, rfl⟩ := h; rfl

theorem encode_OK {rs : List Rule} (hv : ∀ r ∈ rs, r.Valid)
    (hb : ∀ r ∈ rs, r.a < 2147483648 ∧ r.b < 2147483648) :
    ∀ s ∈ encode rs, s.OK (encode rs).length := by
  intro s hs
  obtain ⟨q, r, h1, h2⟩ := mem_encodeFrom hs
  have hr := List.mem_of_getElem? h1
  have hq : q < rs.length := by
    rw [List.getElem?_eq_some_iff] at h1; exact h1.1
  have hlen : rs.length ≤ (encode rs).length := length_encodeFrom rs 0
  have hp := mem_rows_pid h2
  refine ⟨by omega, by omega, ?_⟩
  obtain ⟨b1, b2⟩ := hb r hr
  rcases List.mem_cons.1 h2 with rfl | h
  · simp; omega
  · simp only [List.mem_map] at h
    obtain ⟨t, ht, rfl⟩ := h
    have := (hv r hr).2 t ht
    simp; omega

/-! ### The whole kernel -/

theorem foldlM_wr_clear (N : Nat) (sm : List Int) (h : sm.length = N) :
    (List.range N).foldlM (fun (sm : List Int) (i : Nat) => wr sm i intMin) sm =
      .ok (tab N fun _ => intMin) := by
  obtain ⟨s', h1, h2⟩ := foldlM_range_inv (fun (sm : List Int) (i : Nat) => wr sm i intMin)
    (fun k sm => sm.length = N ∧ ∀ x < k, sm[x]? = some intMin) N sm ⟨h, by intro x hx; omega⟩ (by
      intro k hk s ⟨hs1, hs2⟩
      refine ⟨_, wr_ok (by omega), by simpa using hs1, ?_⟩
      intro x hx
      rw [List.getElem?_set]
      by_cases hxk : k = x
      · simp [hxk]; omega
      · simp only [hxk, if_false]; exact hs2 x (by omega))
  rw [h1]
  exact congrArg _ (eq_tab_of h2.1 h2.2)

theorem computeCM_spec (A : Arith) (p : StepPattern) (rs : List Rule) (hp : WF p rs)
    (n m : Nat) (hf : Fits n m rs) (W : Nat → Nat → Bool) (L S : Nat → Nat → F64) (sm0 : List Int)
    (hsm : sm0.length = n * m) :
    ∃ G D, computeCM A m n (Mat.ofFn n m fun i j => if W i j then (1 : Int) else 0).data
        (Mat.ofFn n m L).data p.getNRows p.getP (Mat.ofFn n m S).data sm0 =
        .ok ((Mat.ofFn n m G).data, (Mat.ofFn n m D).data) ∧
      Bellman A rs n m W L S G D := by
  obtain ⟨hrows, hne, hv⟩ := hp
  obtain ⟨hnm, hlen, hb⟩ := hf
  have hdec := decode_ok p (by rw [hrows]; exact hlen) (by rw [hrows]; exact encode_OK hv hb)
  have get2 : ∀ {α : Type} (f : Nat → Nat → α), ∀ i < n, ∀ j < m,
      (Mat.ofFn n m f).data[i * m + j]? = some (f i j) := by
    intro α f i hi j hj
    have := flat_lt hi hj
    simp only [Mat.ofFn, List.getElem?_map]
    rw [List.getElem?_range this]
    have h1 : (i * m + j) / m = i := by
      rw [Nat.add_comm, Nat.add_mul_div_right _ _ (by omega), Nat.div_eq_of_lt hj]; omega
    have h2 : (i * m + j) % m = j := by
      rw [Nat.add_comm, Nat.add_mul_mod_self_right, Nat.mod_eq_of_lt hj]
    simp [h1, h2]
  obtain ⟨last, hl1, hl2⟩ := getLast?_encodeFrom rs 0 hne
  unfold computeCM
  rw [hdec, Except_bind_ok, List.getLast?_map, hrows]
  have hl1' : (encode rs).getLast? = some last := hl1
  rw [hl1']
  simp only [Option.map_some]
  have hle : rs.length ≤ (encode rs).length := length_encodeFrom rs 0
  have hnp : last.toC.pn + 1 = (rs.length : Int) := by
    simp only; omega
  rw [hnp, i32_ok (by omega) (by omega), Except_bind_ok]
  have e1 : ((n : Int) * (m : Int)) = ((n * m : Nat) : Int) := by push_cast; ring
  rw [e1, i32_ok (by omega) (by omega), Except_bind_ok]
  simp only [Int.toNat_natCast]
  rw [foldlM_wr_clear (n * m) sm0 hsm, Except_bind_ok]
  -- the double loop
  have hinit : SweepInv A n m rs W L S 0 ((Mat.ofFn n m S).data, tab (n * m) fun _ => intMin) := by
    refine ⟨fun k => S (k / m) (k % m), fun _ => intMin, rfl, ?_, ?_⟩
    · intro i hi j hj _
      have h1 : (i * m + j) / m = i := by
        rw [Nat.add_comm, Nat.add_mul_div_right _ _ (by omega), Nat.div_eq_of_lt hj]; omega
      have h2 : (i * m + j) % m = j := by
        rw [Nat.add_comm, Nat.add_mul_mod_self_right, Nat.mod_eq_of_lt hj]
      simp [h1, h2]
    · intro i hi j hj h; omega
  obtain ⟨st, hst, hinv⟩ := foldlM_range_inv
    (fun (st : List F64 × List Int) (j : Nat) => (List.range m).foldlM (fun st (i : Nat) =>
        cell A m (Mat.ofFn n m fun i j => if W i j then (1 : Int) else 0).data (Mat.ofFn n m L).data
          ((encode rs).map Step.toC) rs.length st i j) st)
    (fun i st => SweepInv A n m rs W L S (i * m) st) n _ (by simpa using hinit) (by
      intro i hi s hs
      obtain ⟨s', h1, h2⟩ := foldlM_range_inv (fun st (j : Nat) =>
          cell A m (Mat.ofFn n m fun i j => if W i j then (1 : Int) else 0).data (Mat.ofFn n m L).data
            ((encode rs).map Step.toC) rs.length st j i)
        (fun j st => SweepInv A n m rs W L S (i * m + j) st) m s (by simpa using hs) (by
          intro j hj s hs
          exact sweep_step A n m rs W L S _ _ (get2 _) (get2 _) hnm hv hb i j hi hj s hs)
      refine ⟨s', h1, ?_⟩
      have : (i + 1) * m = i * m + m := by ring
      rw [this]; exact h2)
  obtain ⟨g, d, rfl, _, hok⟩ := hinv
  have htab : ∀ {α : Type} (g : Nat → α), tab (n * m) g = (Mat.ofFn n m (un2 m g)).data := by
    intro α g
    apply List.map_congr_left
    intro k hk
    have := Nat.div_add_mod k m
    simp only [un2]
    rw [Nat.mul_comm (k / m) m, this]
  refine ⟨un2 m g, un2 m d, ?_, ?_⟩
  · rw [hst, htab, htab]
  · refine ⟨?_, ?_, ?_⟩
    · intro i hi j hj; exact (hok i hi j hj (flat_lt hi hj)).1
    · intro i hi j hj; exact (hok i hi j hj (flat_lt hi hj)).2.1
    · intro i hi j hj; exact (hok i hi j hj (flat_lt hi hj)).2.2

end DTW
