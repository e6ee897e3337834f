import Verif.Props.Substructure
import Verif.Props.Concat
import Verif.Props.Canonical

/-!
# C68, continued: every end of an alignment is an alignment

Without rounding, the part of an alignment after any of its corner points is the alignment `dtw` returns for the two
endings, and the distances add up (the corner being paid twice).
-/

namespace DTW
open F64

variable {a a1 a2 : Args} {n m : Nat} {ℓ ℓ2 : Nat → Nat → ℚ} {S G G2 : Nat → Nat → F64} {W W2 : Nat → Nat → Bool}
  {D D2 : Nat → Nat → Int} {p : StepPattern} {rs : List Rule} {r r1 r2 : Result} {mp : Mapping}

/-- A path of the endings continues any path that arrives at the corner. -/
theorem WarpPath.extend {i1 j1 n2 m2 : Nat} (hv : ∀ r ∈ rs, r.Valid)
    (hb : ∀ u < n2, ∀ v < m2, ℓ (i1 + u) (j1 + v) = ℓ2 u v)
    (hW : ∀ u < n2, ∀ v < m2, W2 u v = true → W (i1 + u) (j1 + v) = true) {ks1 : List Int} {c1 : ℚ}
    (hp : WarpPath Arith.exact rs W (fun i j => fin (ℓ i j)) ks1 i1 j1 (fin c1)) {ks u v c}
    (h2 : WarpPath Arith.exact rs W2 (fun i j => fin (ℓ2 i j)) ks u v c) : u < n2 → v < m2 →
    ∃ c', c = fin c' ∧ WarpPath Arith.exact rs W (fun i j => fin (ℓ i j)) (ks1 ++ ks) (i1 + u) (j1 + v)
      (fin ((c1 - ℓ2 0 0) + c')) := by
  induction h2 with
  | start =>
    intro _ _
    refine ⟨_, rfl, ?_⟩
    simpa using hp
  | step q rl hp2 hq hw ih =>
    rename_i ks u v c
    intro hu hv'
    obtain ⟨c', rfl, hp'⟩ := ih (by omega) (by omega)
    obtain ⟨c2, e1, e2⟩ := charge_add ℓ2 rl (u + rl.a) (v + rl.b) c' (c1 - ℓ2 0 0)
    refine ⟨c2, e1, ?_⟩
    have hs := WarpPath.step q rl hp' hq (by rw [add_assoc, add_assoc]; exact hW _ hu _ hv' hw)
    have e3 := charge_block (A := Arith.exact) (L := fun i j => fin (ℓ i j)) (L2 := fun i j => fin (ℓ2 i j))
      (n1 := i1) (m1 := j1) (r := rl) (i := u) (j := v) (hv rl (List.mem_of_getElem? hq))
      (by
        intro i' hi' j' hj'
        simp only [hb i' (by omega) j' (by omega)])
      (fin (c1 - ℓ2 0 0 + c'))
    rw [e3, e2] at hs
    simpa [add_assoc, List.append_assoc] using hs

/-- The costs of the endings dominate those of the whole. -/
theorem Bellman.ending {i1 j1 n2 m2 : Nat} (hv : ∀ r ∈ rs, r.Valid) (hn : i1 + n2 ≤ n) (hm : j1 + m2 ≤ m)
    (hb : ∀ u < n2, ∀ v < m2, ℓ (i1 + u) (j1 + v) = ℓ2 u v)
    (hW : ∀ u < n2, ∀ v < m2, W2 u v = true → W (i1 + u) (j1 + v) = true)
    (hB : Bellman Arith.exact rs n m W (fun i j => fin (ℓ i j)) (closedSeed fun i j => fin (ℓ i j)) G D)
    (hB2 : Bellman Arith.exact rs n2 m2 W2 (fun i j => fin (ℓ2 i j)) (closedSeed fun i j => fin (ℓ2 i j)) G2 D2)
    {ks1 : List Int} {c1 : ℚ} (hp : WarpPath Arith.exact rs W (fun i j => fin (ℓ i j)) ks1 i1 j1 (fin c1)) {u v : Nat}
    (hu : u < n2) (hv' : v < m2) (hG : G2 u v ≠ nan) :
    ∃ g2, G2 u v = fin g2 ∧ F64.le (G (i1 + u) (j1 + v)) (fin (c1 - ℓ2 0 0 + g2)) := by
  obtain ⟨i0, j0, ks, hp2, _⟩ := hB2.sound hv _ u v rfl hu hv' hG
  have hw2 := hp2.toWarpPath.2.2
  obtain ⟨c', e, hp'⟩ := WarpPath.extend hv hb hW hp hw2 hu hv'
  exact ⟨c', e, hB.optimal (hp'.toPath hv (by simp)) (by omega) (by omega) (by simp [usable, F64.lt])⟩

/-- Along the rest of the trace the two systems agree up to the cost of the beginning. -/
theorem Bellman.ending_trace {i1 j1 n2 m2 : Nat} (hv : ∀ r ∈ rs, r.Valid) (hn : i1 + n2 ≤ n) (hm : j1 + m2 ≤ m)
    (hn2 : 0 < n2) (hm2 : 0 < m2)
    (hb : ∀ u < n2, ∀ v < m2, ℓ (i1 + u) (j1 + v) = ℓ2 u v)
    (hW : ∀ u < n2, ∀ v < m2, W2 u v = W (i1 + u) (j1 + v))
    (hB : Bellman Arith.exact rs n m W (fun i j => fin (ℓ i j)) (closedSeed fun i j => fin (ℓ i j)) G D)
    (hB2 : Bellman Arith.exact rs n2 m2 W2 (fun i j => fin (ℓ2 i j)) (closedSeed fun i j => fin (ℓ2 i j)) G2 D2)
    {ks1 : List Int} {c1 : ℚ} (hp : WarpPath Arith.exact rs W (fun i j => fin (ℓ i j)) ks1 i1 j1 (fin c1))
    (ht1 : Trace rs D (closedSeed fun i j => fin (ℓ i j)) 0 0 ks1 i1 j1) (hc1 : G i1 j1 = fin c1) (ks2 : List Int) :
    ∀ i j, i < i1 + n2 → j < j1 + m2 → Trace rs D (closedSeed fun i j => fin (ℓ i j)) 0 0 (ks1 ++ ks2) i j →
      ∃ u v g2, i = i1 + u ∧ j = j1 + v ∧ G2 u v = fin g2 ∧ G i j = fin (c1 - ℓ2 0 0 + g2) ∧
        Trace rs D2 (closedSeed fun i j => fin (ℓ2 i j)) 0 0 ks2 u v := by
  induction ks2 using List.reverseRecOn with
  | nil =>
    intro i j hi hj ht
    rw [List.append_nil] at ht
    obtain ⟨pts, h1, h2⟩ := ht.coarse_end
    obtain ⟨pts', h1', h2'⟩ := ht1.coarse_end
    rw [h1] at h1'
    have := (List.append_inj h1' (by omega)).2
    simp only [List.cons.injEq, Prod.mk.injEq, Nat.cast_inj, and_true] at this
    obtain ⟨rfl, rfl⟩ := this
    have hs : closedSeed (fun i j => fin (ℓ2 i j)) 0 0 = fin (ℓ2 0 0) := by simp [closedSeed]
    have h00 := hB2.seeded 0 hn2 0 hm2 (by rw [hs]; simp)
    refine ⟨0, 0, ℓ2 0 0, rfl, rfl, by rw [h00.1, hs], by rw [hc1]; congr 1; ring, .start _ _ (by rw [hs]; simp) h00.2⟩
  | append_singleton ks2 x ih =>
    intro i j hi hj ht
    have hpos : closedSeed (fun i j => fin (ℓ i j)) i j = nan := by
      by_contra hc
      obtain ⟨rfl, rfl, _⟩ := closedSeed_ne_nan hc
      have := ht.length_le hv
      simp at this
    obtain ⟨i2, j2, k, q, ks', eks, ht', hq, rfl, rfl, hD⟩ := ht.inv hpos
    rw [← List.append_assoc] at eks
    obtain ⟨rfl, e2⟩ := List.append_inj' eks rfl
    simp only [List.cons.injEq, and_true] at e2
    subst e2
    obtain ⟨u, v, g2, rfl, rfl, hg2, hg, htr⟩ := ih i2 j2 (by omega) (by omega) ht'
    have hvq := hv q (List.mem_of_getElem? hq)
    have hne := hB.trace_ne_nan ht (by omega) (by omega)
    have hWt : W (i1 + u + q.a) (j1 + v + q.b) = true := by
      cases hWc : W (i1 + u + q.a) (j1 + v + q.b) with
      | true => rfl
      | false => exact absurd (hB.outside _ (by omega) _ (by omega) hpos hWc).1 hne
    have hW2t : W2 (u + q.a) (v + q.b) = true := by
      rw [hW _ (by omega) _ (by omega), ← add_assoc, ← add_assoc]; exact hWt
    have hS2 : closedSeed (fun i j => fin (ℓ2 i j)) (u + q.a) (v + q.b) = nan :=
      closedSeed_eq_nan (by have := hvq.1; omega)
    have hbest := hB.inside _ (by omega) _ (by omega) hpos hWt
    have hbest2 := hB2.inside _ (by omega) _ (by omega) hS2 hW2t
    set e := c1 - ℓ2 0 0 with he
    -- the two candidates of a rule
    have hblock : ∀ x ∈ rs, x.a ≤ u + q.a → x.b ≤ v + q.b → ∀ c,
        charge Arith.exact (fun i j => fin (ℓ i j)) x (i1 + u + q.a) (j1 + v + q.b) c =
          charge Arith.exact (fun i j => fin (ℓ2 i j)) x (u + q.a) (v + q.b) c := by
      intro x hx h1 h2 c
      have := charge_block (A := Arith.exact) (L := fun i j => fin (ℓ i j)) (L2 := fun i j => fin (ℓ2 i j))
        (n1 := i1) (m1 := j1) (r := x) (i := u + q.a - x.a) (j := v + q.b - x.b) (hv x hx)
        (by
          intro i' hi' j' hj'
          simp only [hb i' (by omega) j' (by omega)]) c
      rw [show i1 + (u + q.a - x.a) + x.a = i1 + u + q.a by omega, show j1 + (v + q.b - x.b) + x.b = j1 + v + q.b by omega,
        show u + q.a - x.a + x.a = u + q.a by omega, show v + q.b - x.b + x.b = v + q.b by omega] at this
      exact this
    have hcand : ∀ x ∈ rs, usable (cand Arith.exact (fun i j => fin (ℓ2 i j)) G2 (u + q.a) (v + q.b) x) →
        ∃ g, cand Arith.exact (fun i j => fin (ℓ2 i j)) G2 (u + q.a) (v + q.b) x = fin g ∧
          F64.le (cand Arith.exact (fun i j => fin (ℓ i j)) G (i1 + u + q.a) (j1 + v + q.b) x) (fin (e + g)) := by
      intro x hx hu
      unfold cand at hu ⊢
      split at hu
      · rename_i hle
        rw [if_pos hle, if_pos (by omega)]
        have hu1 := charge_usable hu
        obtain ⟨g, hg, hle2⟩ := hB.ending hv hn hm hb (fun u hu v hv h => by rw [← hW u hu v hv]; exact h) hB2 hp
          (u := u + q.a - x.a) (v := v + q.b - x.b) (by omega) (by omega) (usable_ne_nan hu1)
        obtain ⟨g', e1, e2⟩ := charge_add ℓ2 x (u + q.a) (v + q.b) g e
        refine ⟨g', by rw [hg, e1], ?_⟩
        rw [← e2, ← hblock x hx hle.1 hle.2]
        rw [show i1 + u + q.a - x.a = i1 + (u + q.a - x.a) by omega, show j1 + v + q.b - x.b = j1 + (v + q.b - x.b) by omega]
        refine charge_mono hle2 ?_
        rw [hblock x hx hle.1 hle.2, e2]
        simp [usable, F64.lt]
      · simp [usable, F64.lt] at hu
    obtain ⟨g', e1, e2⟩ := charge_add ℓ2 q (u + q.a) (v + q.b) g2 e
    have hmine : cand Arith.exact (fun i j => fin (ℓ2 i j)) G2 (u + q.a) (v + q.b) q = fin g' := by
      unfold cand
      simp only [Nat.le_add_left, and_self, if_true, Nat.add_sub_cancel]
      rw [hg2, e1]
    have hwhole : cand Arith.exact (fun i j => fin (ℓ i j)) G (i1 + u + q.a) (j1 + v + q.b) q = fin (e + g') := by
      unfold cand
      simp only [Nat.le_add_left, and_self, if_true, Nat.add_sub_cancel]
      rw [hg, hblock q (List.mem_of_getElem? hq) (by omega) (by omega), e2]
    have hGv : G (i1 + u + q.a) (j1 + v + q.b) = fin (e + g') := by
      obtain ⟨k', h1, h2, _⟩ := hbest.mem hne
      have : k' = k := by omega
      subst this
      rw [List.getElem?_map, hq, Option.map_some, Option.some.injEq] at h1
      rw [← h1, hwhole]
    have hb2 : IsBest (rs.map (cand Arith.exact (fun i j => fin (ℓ2 i j)) G2 (u + q.a) (v + q.b))) (fin g') ((k : Int) + 1) := by
      rcases hbest with ⟨k1, h1, h2, h3, h4, h5⟩ | ⟨_, h2, _⟩
      · have : k1 = k := by omega
        subst this
        left
        refine ⟨k1, by rw [List.getElem?_map, hq, Option.map_some, hmine], rfl, by simp [usable, F64.lt], ?_, ?_⟩
        · intro y hy
          obtain ⟨x, hx, rfl⟩ := List.mem_map.1 hy
          by_contra hlt
          rw [Bool.not_eq_false] at hlt
          obtain ⟨g, hg', hle⟩ := hcand x hx (usable_of_le (F64.le_of_lt hlt) (by simp [usable, F64.lt]))
          rw [hg'] at hlt
          have h6 : F64.lt (fin (e + g)) (fin (e + g')) = true := by simpa [F64.lt] using hlt
          have := F64.lt_of_le_of_lt hle h6
          rw [hGv] at h4
          rw [h4 _ (List.mem_map_of_mem hx)] at this
          cases this
        · intro k' hk' y hy hc
          subst hc
          rw [List.getElem?_map] at hy
          cases hx : rs[k']? with
          | none => rw [hx] at hy; simp at hy
          | some x =>
            rw [hx, Option.map_some, Option.some.injEq] at hy
            have hxm := List.mem_of_getElem? hx
            obtain ⟨g, hg', hle⟩ := hcand x hxm (by rw [hy]; simp [usable, F64.lt])
            have : g = g' := by rw [hg'] at hy; exact F64.fin.inj hy
            subst this
            rw [hGv] at h4
            have : cand Arith.exact (fun i j => fin (ℓ i j)) G (i1 + u + q.a) (j1 + v + q.b) x = fin (e + g) :=
              F64.le_antisymm hle ⟨hle.2.1, hle.1, h4 _ (List.mem_map_of_mem hxm)⟩
            exact h5 k' hk' _ (by rw [List.getElem?_map, hx]; rfl) (by rw [this, hGv])
      · exact absurd h2 hne
    obtain ⟨f1, f2⟩ := hbest2.unique hb2
    exact ⟨u + q.a, v + q.b, g', by omega, by omega, f1, hGv, .step k q htr hq hS2 f2⟩

/-! ### Cutting the curve -/

theorem coarse_move (rs : List Rule) (i j : Int) : ∀ (ks : List Int) (u v : Int),
    coarse rs (u + i) (v + j) ks = (coarse rs u v ks).map fun x => (x.1 + i, x.2 + j) := by
  intro ks
  induction ks with
  | nil => intro u v; rfl
  | cons k ks ih =>
    intro u v
    unfold coarse
    split
    · rw [List.map_cons, ← ih]
      congr 2 <;> ring
    · rfl

theorem fineTail_move (rs : List Rule) (i j : Int) : ∀ (ks : List Int) (u v : Int),
    fineTail rs (u + i) (v + j) ks = (fineTail rs u v ks).map fun x => (x.1 + i, x.2 + j) := by
  intro ks
  induction ks with
  | nil => intro u v; rfl
  | cons k ks ih =>
    intro u v
    unfold fineTail
    split
    · rename_i r _
      rw [List.map_append, ← ih]
      congr 1
      · unfold Rule.fine
        simp only [List.map_append, List.map_map, List.map_cons, List.map_nil]
        congr 1
        · apply List.map_congr_left
          intro t _
          simp only [Function.comp_apply, Prod.mk.injEq]
          constructor <;> ring
        · simp only [List.cons.injEq, Prod.mk.injEq, and_true]
          constructor <;> ring
      · congr 1 <;> ring
    · rfl

theorem coarse_drop (rs : List Rule) : ∀ (ks : List Int) (k : Nat) (i j : Int) (x : Int × Int),
    (coarse rs i j ks)[k]? = some x → (coarse rs i j ks).drop k = coarse rs x.1 x.2 (ks.drop k) := by
  intro ks
  induction ks with
  | nil =>
    intro k i j x h
    cases k with
    | zero => simp [coarse] at h; subst h; simp [coarse]
    | succ k => simp [coarse] at h
  | cons q ks ih =>
    intro k i j x h
    cases k with
    | zero =>
      have := coarse_head rs i j (q :: ks)
      rw [List.head?_eq_getElem?, h] at this
      cases this
      simp
    | succ k =>
      rw [coarse] at h ⊢
      split at h
      · rename_i r hr
        rw [List.getElem?_cons_succ] at h
        simp only [List.drop_succ_cons]
        exact ih k _ _ x h
      · simp at h

theorem fine_drop (rs : List Rule) : ∀ (ks : List Int) (k : Nat) (i j : Int) (x : Int × Int),
    (coarse rs i j ks)[k]? = some x → fine rs x.1 x.2 (ks.drop k) <:+ fine rs i j ks := by
  intro ks
  induction ks with
  | nil =>
    intro k i j x h
    cases k with
    | zero => simp [coarse] at h; subst h; simp
    | succ k => simp [coarse] at h
  | cons q ks ih =>
    intro k i j x h
    cases k with
    | zero =>
      have := coarse_head rs i j (q :: ks)
      rw [List.head?_eq_getElem?, h] at this
      cases this
      simp
    | succ k =>
      rw [coarse] at h
      split at h
      · rename_i r hr
        rw [List.getElem?_cons_succ] at h
        refine (ih k _ _ x h).trans ?_
        unfold fine
        rw [fineTail, hr]
        simp only [Rule.fine, List.append_assoc, List.singleton_append]
        exact ((List.suffix_append _ _).trans (List.suffix_cons _ _))
      · simp at h

/-- C68, endings (no rounding, closed begin).  Cut the alignment at its `k`-th corner point `(i,j)`: the closed call about
`query[i:]` and `reference[j:jmin+1]`, in the same window, succeeds and returns exactly the remaining steps, corner points and
points, counted from there; and the distances of the two parts add up to the distance of the whole plus the local cost of the
corner, which both of them pay. -/
theorem C68_suffix (h : Problem a n m (fun i j => fin (ℓ i j)) W p rs) (hob : a.openBegin = false)
    (hr : dtw Arith.exact a = .ok r) (hmp : r.mapping = some mp) {jm : Nat} (hjm : r.jmin = jm) {k i j : Nat}
    (hi : mp.index1s[k]? = some (i : Int)) (hj : mp.index2s[k]? = some (j : Int))
    (h2 : Problem a2 (n - i) (jm + 1 - j) (fun u v => fin (ℓ (i + u) (j + v))) (fun u v => W (i + u) (j + v)) p rs)
    (hob2 : a2.openBegin = false) (hoe2 : a2.openEnd = false) (hdo2 : a2.distanceOnly = false)
    (h1 : Problem a1 (i + 1) (j + 1) (fun i j => fin (ℓ i j)) W p rs) (hob1 : a1.openBegin = false)
    (hoe1 : a1.openEnd = false) (hdo1 : a1.distanceOnly = false) :
    ∃ r1 r2 mp2 d d1 d2, dtw Arith.exact a1 = .ok r1 ∧ dtw Arith.exact a2 = .ok r2 ∧ r2.mapping = some mp2 ∧
      mp2.stepsTaken = mp.stepsTaken.drop k ∧
      mp2.index1s.map (· + (i : Int)) = mp.index1s.drop k ∧ mp2.index2s.map (· + (j : Int)) = mp.index2s.drop k ∧
      mp2.index1.map (· + (i : Int)) <:+ mp.index1 ∧ mp2.index2.map (· + (j : Int)) <:+ mp.index2 ∧
      r.distance = fin d ∧ r1.distance = fin d1 ∧ r2.distance = fin d2 ∧ d + ℓ i j = d1 + d2 := by
  obtain ⟨r1, _, hr1, _⟩ := C68_prefix h hob hr hmp hi hj h1 hob1 hoe1 hdo1
  obtain ⟨G, D, qr, hB, _, hd⟩ := dtw_closed Arith.exact h hob
  obtain ⟨j1, ks, hrun⟩ := closed_ok h hob hB hd hr
  have hmp' : mp = curve rs 0 0 ks := by
    have : r.mapping = if a.distanceOnly then none else some (curve rs 0 0 ks) := by rw [hrun.result]; rfl
    rw [hmp] at this
    split at this
    · cases this
    · exact Option.some.inj this
  subst hmp'
  have hn := h.n_pos
  have hlt := hrun.endAt.lt
  obtain rfl : j1 = jm := by
    have : r.jmin = (j1 : Int) := by rw [hrun.result]; rfl
    omega
  obtain ⟨pts, hp1, hp2⟩ := hrun.trace.coarse_end
  have hlen : (coarse rs 0 0 ks).length = ks.length + 1 := by
    have := congrArg List.length hp1
    simpa [hp2] using this
  have hk : k ≤ ks.length := by
    have := (List.getElem?_eq_some_iff.1 hi).1
    simp only [curve, List.length_map, hlen] at this
    omega
  obtain ⟨i', j', t, l1, l2, e1, e2, e3⟩ := hrun.trace.cut k hk
  simp only [Nat.cast_zero] at e1 e2 e3
  obtain ⟨rfl, rfl⟩ : i = i' ∧ j = j' := by
    simp only [curve, List.getElem?_map, e1, Option.map_some, Option.some.injEq] at hi hj
    omega
  obtain ⟨G1, D1, hB1, hs1, _, hf1⟩ := closed_facts Arith.exact h1 hob1 hoe1
  have hu := hB.unique h.wf.valid hB1 (by omega : i + 1 ≤ n) le_rfl (by omega : j + 1 ≤ m) le_rfl (fun _ _ _ _ => rfl)
    (fun _ _ _ _ => rfl) (fun _ _ _ _ => rfl)
  have hc := (hu i (by omega) j (by omega)).1
  have hd1 : r1.distance = G i j := by
    have := (hf1 r1 hr1).1
    simp only [Nat.add_sub_cancel] at this
    rw [this, hc]
  have hne := hB.trace_ne_nan t (by omega) (by omega)
  obtain ⟨i0, j0, ks1, hp, ht1⟩ := hB.sound h.wf.valid _ i j rfl (by omega) (by omega) hne
  obtain ⟨rfl, rfl, hw1⟩ := hp.toWarpPath
  obtain ⟨_, _, rfl⟩ := ht1.det h.wf.valid t
  have hfin : ∃ c1, G i j = fin c1 := by
    have := WarpPath.extend (W := W) (ℓ := ℓ) (ℓ2 := ℓ) (W2 := W) (i1 := 0) (j1 := 0) (n2 := i + 1) (m2 := j + 1)
      h.wf.valid (by simp) (by simp) (ks1 := []) (c1 := ℓ 0 0) .start hw1 (by omega) (by omega)
    obtain ⟨c, e, _⟩ := this
    exact ⟨c, e⟩
  obtain ⟨c1, hc1⟩ := hfin
  rw [hc1] at hw1
  obtain ⟨G2, D2, hB2, hs2, _, hf2⟩ := closed_facts Arith.exact h2 hob2 hoe2
  have htt := hrun.trace
  rw [← List.take_append_drop k ks] at htt
  obtain ⟨u, v, g2, eu, ev, hg2, hg, htr⟩ := hB.ending_trace h.wf.valid (i1 := i) (j1 := j) (n2 := n - i) (m2 := j1 + 1 - j)
    (by omega) (by omega) (by omega) (by omega) (fun _ _ _ _ => rfl) (fun _ _ _ _ => rfl) hB2 hw1 t hc1 (ks.drop k)
    (n - 1) j1 (by omega) (by omega) htt
  obtain rfl : u = n - i - 1 := by omega
  obtain rfl : v = j1 + 1 - j - 1 := by omega
  obtain ⟨r2, hr2⟩ := hs2.2 (by rw [hg2]; simp)
  obtain ⟨d2, _, _, _, ks', t2, _, m2⟩ := hf2 r2 hr2
  obtain ⟨_, _, rfl⟩ := t2.det h.wf.valid htr
  rw [hdo2] at m2
  have hco := coarse_drop rs ks k 0 0 _ e1
  have hfi := fine_drop rs ks k 0 0 _ e1
  have em := coarse_move rs i j (ks.drop k) 0 0
  have fm := fineTail_move rs i j (ks.drop k) 0 0
  simp only [zero_add] at em fm
  simp only at hco hfi
  rw [em] at hco
  unfold fine at hfi
  rw [fm] at hfi
  refine ⟨r1, r2, _, c1 - ℓ i j + g2, c1, g2, hr1, hr2, m2, rfl, ?_, ?_, ?_, ?_, ?_, ?_, ?_, ?_⟩
  · have := congrArg (List.map Prod.fst) hco
    simp only [List.map_drop, List.map_map] at this
    simp only [curve, List.map_map, Function.comp_def]
    rw [this]; rfl
  · have := congrArg (List.map Prod.snd) hco
    simp only [List.map_drop, List.map_map] at this
    simp only [curve, List.map_map, Function.comp_def]
    rw [this]; rfl
  · have := hfi.map Prod.fst
    simpa [curve, fine, Function.comp_def] using this
  · have := hfi.map Prod.snd
    simpa [curve, fine, Function.comp_def] using this
  · rw [hrun.result]
    show G (n - 1) j1 = _
    simpa using hg
  · rw [hd1, hc1]
  · rw [d2, hg2]
  · ring

namespace Ex

/-- The waves from sample 1 (query) and sample 2 (reference) on. -/
def waveEnd : Args :=
  { x := .d2 (Mat.ofFn 4 3 fun u v => fin (waveCosts (1 + u) (2 + v))), stepPattern := .name "symmetric2", keepInternals := true }

theorem waveEnd_problem :
    Problem waveEnd 4 3 (fun u v => fin (waveCosts (1 + u) (2 + v))) (fun _ _ => true) Pat.symmetric2 (rulesOf Pat.symmetric2) where
  n_pos := by decide
  m_pos := by decide
  cost := .matrix rfl rfl rfl rfl
  pattern := Ex.plain_problem.pattern
  wf := Ex.plain_problem.wf
  fits := fits_of_check (by decide +kernel)
  window := .inl ⟨rfl, fun _ _ _ _ => rfl⟩

end Ex

/-- C68 for endings is met: the two waves cut at their third corner point (1,2). -/
example : ∃ r r1 r2 d d1 d2, dtw Arith.exact (Ex.wave 5 5) = .ok r ∧ dtw Arith.exact (Ex.wave 2 3) = .ok r1 ∧
    dtw Arith.exact Ex.waveEnd = .ok r2 ∧ r.distance = fin d ∧ r1.distance = fin d1 ∧ r2.distance = fin d2 ∧
    d + Ex.waveCosts 1 2 = d1 + d2 := by
  obtain ⟨r, hr⟩ := Ex.get_ok (x := dtw Arith.exact (Ex.wave 5 5)) (by decide +kernel)
  have hm : (dtw Arith.exact (Ex.wave 5 5)).toOption.map
      (fun r => (r.jmin, r.mapping.map fun q => (q.index1s[2]?, q.index2s[2]?))) = some (4, some (some 1, some 2)) := by
    decide +kernel
  rw [hr] at hm
  cases hmp : r.mapping with
  | none => simp [Except.toOption, hmp] at hm
  | some mp =>
    simp only [Except.toOption, Option.map_some, hmp, Option.some.injEq, Prod.mk.injEq] at hm
    obtain ⟨e0, e1, e2⟩ := hm
    obtain ⟨r1, r2, mp2, d, d1, d2, f1, f2, _, _, _, _, _, _, f3, f4, f5, f6⟩ :=
      C68_suffix (Ex.wave_problem (n := 5) (m := 5) (by decide) (by decide) (by decide) (by decide)) rfl hr hmp (jm := 4) e0
        (k := 2) (i := 1) (j := 2) e1 e2 Ex.waveEnd_problem rfl rfl rfl
        (Ex.wave_problem (n := 2) (m := 3) (by decide) (by decide) (by decide) (by decide)) rfl rfl rfl
    exact ⟨r, r1, r2, d, d1, d2, hr, f1, f2, f3, f4, f5, f6⟩

end DTW
