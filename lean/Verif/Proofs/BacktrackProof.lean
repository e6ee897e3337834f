import Verif.Proofs.BellmanProof

/-!
# Backtracking replays the direction matrix
-/

namespace DTW
open F64

/-! ### The step cache of an encoded pattern -/

theorem pid_mem_encodeFrom {rs : List Rule} {k : Nat} {s : Step} (h : s ∈ encodeFrom k rs) :
    (k : Int) + 1 ≤ s.pid ∧ s.pid ≤ (k : Int) + rs.length := by
  obtain ⟨q, r, h1, h2⟩ := mem_encodeFrom h
  have hq : q < rs.length := by
    rw [List.getElem?_eq_some_iff] at h1; exact h1.1
  have := mem_rows_pid h2
  push_cast at this; omega

theorem filter_encodeFrom : ∀ (rs : List Rule) (k q : Nat) (r : Rule), rs[q]? = some r →
    (encodeFrom k rs).filter (fun s => s.pid = (k : Int) + q + 1) = r.rows (k + q) := by
  intro rs
  induction rs with
  | nil => intro k q r h; simp at h
  | cons r0 rs ih =>
    intro k q r h
    simp only [encodeFrom, List.filter_append]
    cases q with
    | zero =>
      simp only [List.getElem?_cons_zero, Option.some.injEq] at h
      subst h
      have h1 : (r0.rows k).filter (fun s => decide (s.pid = (k : Int) + (0 : Nat) + 1)) = r0.rows k := by
        rw [List.filter_eq_self]
        intro s hs; have := mem_rows_pid hs; simp; omega
      have h2 : (encodeFrom (k + 1) rs).filter (fun s => decide (s.pid = (k : Int) + (0 : Nat) + 1)) = [] := by
        rw [List.filter_eq_nil_iff]
        intro s hs; have := pid_mem_encodeFrom hs; push_cast at this; simp; omega
      rw [h1, h2]; simp
    | succ q =>
      simp only [List.getElem?_cons_succ] at h
      have h1 : (r0.rows k).filter (fun s => decide (s.pid = (k : Int) + ((q + 1 : Nat) : Int) + 1)) = [] := by
        rw [List.filter_eq_nil_iff]
        intro s hs; have := mem_rows_pid hs; simp; omega
      rw [h1, List.nil_append]
      have := ih (k + 1) q r h
      have e : (((k + 1 : Nat) : Int) + q + 1) = (k : Int) + ((q + 1 : Nat) : Int) + 1 := by push_cast; ring
      have e' : k + 1 + q = k + (q + 1) := by omega
      rw [e, e'] at this
      exact this

theorem filter_encode {rs : List Rule} {q : Nat} {r : Rule} (h : rs[q]? = some r) :
    (encode rs).filter (fun s => s.pid = (q : Int) + 1) = r.rows q := by
  have := filter_encodeFrom rs 0 q r h
  simpa [encode] using this

/-- Intermediate points of a rule relative to its arrival cell. -/
def Rule.mids (r : Rule) : List (Int × Int) :=
  (r.terms.filter fun t => t.di ≠ 0 ∨ t.dj ≠ 0).map fun t => ((t.di : Int), (t.dj : Int))

theorem stepsCache_encode {p : StepPattern} {rs : List Rule} (hp : WF p rs) {q : Nat} {r : Rule}
    (h : rs[q]? = some r) :
    stepsCache p ((q : Int) + 1) = r.mids.reverse ++ [((r.a : Int), (r.b : Int))] := by
  unfold stepsCache
  rw [hp.rows, List.filter_filter]
  have hcomm : (encode rs).filter (fun s => decide (s.pid = (q : Int) + 1) && decide (s.di ≠ 0 ∨ s.dj ≠ 0)) =
      ((encode rs).filter (fun s => s.pid = (q : Int) + 1)).filter (fun s => decide (s.di ≠ 0 ∨ s.dj ≠ 0)) := by
    rw [List.filter_filter]
    congr 1
    funext s
    exact Bool.and_comm _ _
  rw [hcomm, filter_encode h]
  have hprog := (hp.valid r (List.mem_of_getElem? h)).1
  unfold Rule.rows
  rw [List.filter_cons_of_pos (by simp; omega)]
  rw [List.map_cons, List.reverse_cons]
  congr 2
  rw [List.filter_map, List.map_map]
  unfold Rule.mids
  congr 2
  funext t
  simp

theorem foldl_max_pid (ss : List Step) : ∀ (x : Int),
    x ≤ ss.foldl (fun a t => max a t.pid) x ∧ (∀ s ∈ ss, s.pid ≤ ss.foldl (fun a t => max a t.pid) x) ∧
    (ss.foldl (fun a t => max a t.pid) x = x ∨ ∃ s ∈ ss, s.pid = ss.foldl (fun a t => max a t.pid) x) := by
  induction ss with
  | nil => intro x; simp
  | cons s ss ih =>
    intro x
    obtain ⟨h1, h2, h3⟩ := ih (max x s.pid)
    simp only [List.foldl_cons]
    refine ⟨by omega, ?_, ?_⟩
    · intro t ht; rcases List.mem_cons.1 ht with rfl | ht
      · omega
      · exact h2 t ht
    · rcases h3 with h3 | ⟨t, ht, h3⟩
      · rcases le_total x s.pid with h | h
        · right; exact ⟨s, by simp, by rw [h3]; omega⟩
        · left; rw [h3]; omega
      · right; exact ⟨t, by simp [ht], h3⟩

theorem getNPatterns_WF {p : StepPattern} {rs : List Rule} (hp : WF p rs) :
    p.getNPatterns = .ok (rs.length : Int) := by
  obtain ⟨last, hl, hpid⟩ := getLast?_encodeFrom rs 0 hp.ne
  have hmem : last ∈ encode rs := List.mem_of_getLast? hl
  unfold StepPattern.getNPatterns
  rw [hp.rows]
  cases he : encode rs with
  | nil => rw [he] at hmem; simp at hmem
  | cons s ss =>
    simp only
    congr 1
    obtain ⟨h1, h2, h3⟩ := foldl_max_pid ss s.pid
    have hle : ∀ t ∈ encode rs, t.pid ≤ rs.length := by
      intro t ht; have := pid_mem_encodeFrom (k := 0) ht; push_cast at this; omega
    apply _root_.le_antisymm
    · rcases h3 with h3 | ⟨t, ht, h3⟩
      · rw [h3]; exact hle s (by rw [he]; simp)
      · rw [← h3]; exact hle t (by rw [he]; simp [ht])
    · have : last.pid ≤ ss.foldl (fun a t => max a t.pid) s.pid := by
        rw [he] at hmem
        rcases List.mem_cons.1 hmem with rfl | h
        · exact h1
        · exact h2 _ h
      simp at hpid; omega

/-! ### Curves -/

theorem coarse_snoc (rs : List Rule) : ∀ (ks : List Int) (i0 j0 : Int) (pts : List (Int × Int)) (i j : Int)
    (k : Nat) (r : Rule), rs[k]? = some r → coarse rs i0 j0 ks = pts ++ [(i, j)] →
    pts.length = ks.length →
    coarse rs i0 j0 (ks ++ [(k : Int) + 1]) = pts ++ [(i, j), (i + r.a, j + r.b)] := by
  intro ks
  induction ks with
  | nil =>
    intro i0 j0 pts i j k r hr h hl
    have : pts = [] := by simpa using hl
    subst this
    simp [coarse] at h
    obtain ⟨rfl, rfl⟩ := h
    simp [coarse, hr]
  | cons k0 ks ih =>
    intro i0 j0 pts i j k r hr h hl
    cases pts with
    | nil => simp at hl
    | cons q pts =>
      simp only [List.cons_append, coarse] at h ⊢
      split at h
      · rename_i r0 hr0
        simp only [List.cons.injEq] at h
        rw [ih _ _ pts i j k r hr h.2 (by simpa using hl), h.1]
      · simp at h

theorem fineTail_snoc (rs : List Rule) : ∀ (ks : List Int) (i0 j0 : Int) (pts : List (Int × Int)) (i j : Int)
    (k : Nat) (r : Rule), rs[k]? = some r → coarse rs i0 j0 ks = pts ++ [(i, j)] →
    pts.length = ks.length →
    fineTail rs i0 j0 (ks ++ [(k : Int) + 1]) = fineTail rs i0 j0 ks ++ r.fine i j := by
  intro ks
  induction ks with
  | nil =>
    intro i0 j0 pts i j k r hr h hl
    have : pts = [] := by simpa using hl
    subst this
    simp [coarse] at h
    obtain ⟨rfl, rfl⟩ := h
    simp [fineTail, hr]
  | cons k0 ks ih =>
    intro i0 j0 pts i j k r hr h hl
    cases pts with
    | nil => simp at hl
    | cons q pts =>
      simp only [List.cons_append, coarse, fineTail] at h ⊢
      split at h
      · rename_i r0 hr0
        simp only [List.cons.injEq] at h
        rw [ih _ _ pts i j k r hr h.2 (by simpa using hl)]
        simp
      · simp at h

variable {rs : List Rule} {D : Nat → Nat → Int} {S : Nat → Nat → F64}

theorem Trace.coarse_end {i0 j0 ks i j} (h : Trace rs D S i0 j0 ks i j) :
    ∃ pts, coarse rs i0 j0 ks = pts ++ [((i : Int), (j : Int))] ∧ pts.length = ks.length := by
  induction h with
  | start => exact ⟨[], by simp [coarse], rfl⟩
  | @step ks i j k r ht hr _ _ ih =>
    obtain ⟨pts, h1, h2⟩ := ih
    refine ⟨pts ++ [((i : Int), (j : Int))], ?_, by simp [h2]⟩
    rw [coarse_snoc rs ks _ _ pts i j k r hr h1 h2]
    simp

theorem Trace.fine_snoc {i0 j0 ks i j} (h : Trace rs D S i0 j0 ks i j) {k : Nat} {r : Rule}
    (hr : rs[k]? = some r) :
    fine rs i0 j0 (ks ++ [(k : Int) + 1]) = fine rs i0 j0 ks ++ r.fine i j := by
  obtain ⟨pts, h1, h2⟩ := h.coarse_end
  unfold fine
  rw [fineTail_snoc rs ks _ _ pts i j k r hr h1 h2, List.cons_append]

theorem Trace.coarse_snoc {i0 j0 ks i j} (h : Trace rs D S i0 j0 ks i j) {k : Nat} {r : Rule}
    (hr : rs[k]? = some r) :
    coarse rs i0 j0 (ks ++ [(k : Int) + 1]) = coarse rs i0 j0 ks ++ [((i : Int) + r.a, (j : Int) + r.b)] := by
  obtain ⟨pts, h1, h2⟩ := h.coarse_end
  rw [DTW.coarse_snoc rs ks _ _ pts i j k r hr h1 h2, h1]
  simp

/-! ### The loop -/

theorem foldl_cons_map {α} (f : α → Int) (steps : List α) : ∀ (acc : List Int),
    steps.foldl (fun acc st => f st :: acc) acc = (steps.map f).reverse ++ acc := by
  induction steps with
  | nil => intro acc; rfl
  | cons s ss ih => intro acc; simp [ih]

theorem ofFn_getElem? {α} {n m i j : Nat} (f : Nat → Nat → α) (hi : i < n) (hj : j < m) :
    (Mat.ofFn n m f).data[i * m + j]? = some (f i j) := by
  have := flat_lt hi hj
  simp only [Mat.ofFn, List.getElem?_map]
  rw [List.getElem?_range this]
  have h1 : (i * m + j) / m = i := by
    rw [Nat.add_comm, Nat.add_mul_div_right _ _ (by omega), Nat.div_eq_of_lt hj]; omega
  have h2 : (i * m + j) % m = j := by
    rw [Nat.add_comm, Nat.add_mul_mod_self_right, Nat.mod_eq_of_lt hj]
  simp [h1, h2]

theorem pyGet_ofFn {α} {n m i j : Nat} (f : Nat → Nat → α) (hi : i < n) (hj : j < m) :
    (Mat.ofFn n m f).pyGet (i : Int) (j : Int) = .ok (f i j) := by
  unfold Mat.pyGet
  have h1 : ¬ ((i : Int) < 0) := by omega
  have h2 : ¬ ((j : Int) < 0) := by omega
  simp only [h1, h2, if_false, Int.toNat_natCast]
  rw [if_pos (by simp [Mat.ofFn]; omega)]
  have := ofFn_getElem? f hi hj
  have hc : (Mat.ofFn n m f).cols = m := rfl
  rw [hc, this]

theorem btLoop_trace {p : StepPattern} (hp : WF p rs) {n m : Nat} {i0 j0 ks i j}
    (ht : Trace rs D S i0 j0 ks i j) : i < n → j < m →
    ∀ (fuel : Nat), ks.length < fuel → ∀ (ri rj ris rjs ss : List Int),
    btLoop p rs.length (Mat.ofFn n m D) fuel
        ⟨i, j, (i : Int) :: ri, (j : Int) :: rj, (i : Int) :: ris, (j : Int) :: rjs, ss⟩ =
      .ok ⟨i0, j0, (fine rs i0 j0 ks).map Prod.fst ++ ri, (fine rs i0 j0 ks).map Prod.snd ++ rj,
        (coarse rs i0 j0 ks).map Prod.fst ++ ris, (coarse rs i0 j0 ks).map Prod.snd ++ rjs, ks ++ ss⟩ := by
  induction ht with
  | start hS hD =>
    intro hi hj fuel hfuel ri rj ris rjs ss
    cases fuel with
    | zero => simp at hfuel
    | succ fuel =>
      have hstep : btStep p rs.length (Mat.ofFn n m D)
          ⟨i0, j0, (i0 : Int) :: ri, (j0 : Int) :: rj, (i0 : Int) :: ris, (j0 : Int) :: rjs, ss⟩ =
          .ok none := by
        unfold btStep
        simp only
        split
        · rfl
        · rw [pyGet_ofFn D hi hj, Except_bind_ok, hD, if_pos rfl]
      simp only [btLoop]
      rw [hstep]
      simp [fine, fineTail, coarse]
  | @step ks i j k r ht hr hS hD ih =>
    intro hi hj fuel hfuel ri rj ris rjs ss
    cases fuel with
    | zero => simp at hfuel
    | succ fuel =>
      have hprog := (hp.valid r (List.mem_of_getElem? hr)).1
      have hk : k < rs.length := by
        rw [List.getElem?_eq_some_iff] at hr; exact hr.1
      simp only [btLoop]
      unfold btStep
      simp only
      rw [if_neg (by push_cast; omega), pyGet_ofFn D hi hj, Except_bind_ok, hD]
      rw [if_neg (by simp [intMin]; omega), if_neg (by omega), stepsCache_encode hp hr]
      rw [List.getLast?_append]
      simp only [List.getLast?_singleton, Option.some_or, Except_bind_ok]
      rw [foldl_cons_map, foldl_cons_map]
      have e1 : (((i + r.a : Nat) : Int) - (r.a : Int)) = (i : Int) := by push_cast; ring
      have e2 : (((j + r.b : Nat) : Int) - (r.b : Int)) = (j : Int) := by push_cast; ring
      have hlen : ks.length < fuel := by simp at hfuel; omega
      simp only [List.map_append, List.map_cons, List.map_nil, List.reverse_append, List.reverse_cons,
        List.reverse_nil, List.nil_append, List.cons_append, List.map_reverse, List.reverse_reverse, e1, e2]
      rw [ih (by omega) (by omega) fuel hlen]
      congr 1
      rw [ht.fine_snoc hr, ht.coarse_snoc hr]
      have hm1 : (r.fine i j).map Prod.fst =
          r.mids.map (fun st => ((i + r.a : Nat) : Int) - st.1) ++ [((i + r.a : Nat) : Int)] := by
        simp [Rule.fine, Rule.mids, Function.comp_def]
      have hm2 : (r.fine i j).map Prod.snd =
          r.mids.map (fun st => ((j + r.b : Nat) : Int) - st.2) ++ [((j + r.b : Nat) : Int)] := by
        simp [Rule.fine, Rule.mids, Function.comp_def]
      simp only [List.map_append, hm1, hm2]
      simp

theorem backtrack_trace {p : StepPattern} (hp : WF p rs) {n m : Nat} {i0 j0 ks i j}
    (ht : Trace rs D S i0 j0 ks i j) (hi : n = i + 1) (hj : j < m) :
    backtrack p (Mat.ofFn n m D) j = .ok
      ⟨(fine rs i0 j0 ks).map Prod.fst, (fine rs i0 j0 ks).map Prod.snd,
       (coarse rs i0 j0 ks).map Prod.fst, (coarse rs i0 j0 ks).map Prod.snd, ks⟩ := by
  unfold backtrack
  rw [getNPatterns_WF hp, Except_bind_ok]
  have hrows : (Mat.ofFn n m D).rows = n := rfl
  have hcols : (Mat.ofFn n m D).cols = m := rfl
  have e : ((n : Int) - 1) = (i : Int) := by omega
  have hlen := ht.length_le hp.valid
  have hfuel : ks.length < 4 * n * m + 2 := by
    have h1 : n ≤ n * m := Nat.le_mul_of_pos_right n (by omega)
    have h2 : m ≤ n * m := Nat.le_mul_of_pos_left m (by omega)
    have : 4 * n * m = 4 * (n * m) := by ring
    omega
  simp only [hrows, hcols, e]
  rw [btLoop_trace hp ht (by omega) hj _ hfuel [] [] [] [] []]
  simp

end DTW
