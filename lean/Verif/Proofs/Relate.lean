import Verif.Proofs.OnePer

/-!
# Relating two runs: rule sets, transposition, scaling, monotonicity
-/

namespace DTW
open F64

variable {A : Arith} {rs rs' : List Rule} {n m : Nat} {W W' : Nat → Nat → Bool}
  {L L' S S' G G' : Nat → Nat → F64} {D D' : Nat → Nat → Int}

/-! ### Rules as a set -/

theorem charge_congr {r : Rule} {i j : Nat} {c : F64}
    (h : ∀ t ∈ r.terms, L (i - t.di) (j - t.dj) = L' (i - t.di) (j - t.dj)) :
    charge A L r i j c = charge A L' r i j c := by
  unfold charge
  generalize hts : r.terms = ts at h
  clear hts
  induction ts generalizing c with
  | nil => rfl
  | cons t ts ih =>
    simp only [List.foldl_cons]
    rw [h t (List.mem_cons_self ..)]
    exact ih fun t' ht' => h t' (List.mem_cons_of_mem _ ht')

/-- Two recursions whose usable candidates agree as sets, cell by cell, have the same cumulative costs. -/
theorem Bellman.values {n' m' n'' m'' : Nat} (hv' : ∀ r ∈ rs', r.Valid)
    (hB : Bellman A rs n m W L S G D) (hB' : Bellman A rs' n' m' W' L' S' G' D')
    (hn : n'' ≤ n) (hn' : n'' ≤ n') (hm : m'' ≤ m) (hm' : m'' ≤ m')
    (hW : ∀ i < n'', ∀ j < m'', W i j = W' i j)
    (hS : ∀ i < n'', ∀ j < m'', S i j = S' i j)
    (hc : ∀ i < n'', ∀ j < m'', ∀ x, usable x →
      ((∃ r ∈ rs, r.a ≤ i ∧ r.b ≤ j ∧ x = charge A L r i j (G (i - r.a) (j - r.b))) ↔
       (∃ r ∈ rs', r.a ≤ i ∧ r.b ≤ j ∧ x = charge A L' r i j (G (i - r.a) (j - r.b))))) :
    ∀ i < n'', ∀ j < m'', G i j = G' i j := by
  have key : ∀ N i j, i + j = N → i < n'' → j < m'' → G i j = G' i j := by
    intro N
    induction N using Nat.strong_induction_on with
    | _ N ih =>
      intro i j hN hi hj
      by_cases hSn : S i j = nan
      · have hSn' : S' i j = nan := by rw [← hS i hi j hj]; exact hSn
        cases hWb : W i j with
        | false =>
          have h1 := hB.outside i (by omega) j (by omega) hSn hWb
          have h2 := hB'.outside i (by omega) j (by omega) hSn' (by rw [← hW i hi j hj]; exact hWb)
          exact h1.1.trans h2.1.symm
        | true =>
          have h1 := hB.inside i (by omega) j (by omega) hSn hWb
          have h2 := hB'.inside i (by omega) j (by omega) hSn' (by rw [← hW i hi j hj]; exact hWb)
          refine h1.value_unique h2 ?_
          intro x hx
          have e : ∀ {q : List Rule} {Λ Γ : Nat → Nat → F64}, x ∈ q.map (cand A Λ Γ i j) ↔
              ∃ r ∈ q, r.a ≤ i ∧ r.b ≤ j ∧ x = charge A Λ r i j (Γ (i - r.a) (j - r.b)) := by
            intro q Λ Γ
            rw [List.mem_map]
            constructor
            · rintro ⟨r, hr, hx'⟩
              unfold cand at hx'
              split at hx'
              · rename_i hin; exact ⟨r, hr, hin.1, hin.2, hx'.symm⟩
              · subst hx'; simp at hx
            · rintro ⟨r, hr, h1, h2, h3⟩
              exact ⟨r, hr, by unfold cand; rw [if_pos ⟨h1, h2⟩, h3]⟩
          rw [e, e, hc i hi j hj x hx]
          constructor
          · rintro ⟨r, hr, ha, hb, hx'⟩
            have := (hv' r hr).1
            exact ⟨r, hr, ha, hb, by rw [← ih _ (by omega) _ _ rfl (by omega) (by omega)]; exact hx'⟩
          · rintro ⟨r, hr, ha, hb, hx'⟩
            have := (hv' r hr).1
            exact ⟨r, hr, ha, hb, by rw [ih _ (by omega) _ _ rfl (by omega) (by omega)]; exact hx'⟩
      · have hSn' : S' i j ≠ nan := by rw [← hS i hi j hj]; exact hSn
        rw [(hB.seeded i (by omega) j (by omega) hSn).1, (hB'.seeded i (by omega) j (by omega) hSn').1]
        exact hS i hi j hj
  intro i hi j hj
  exact key _ i j rfl hi hj

theorem Bellman.same_rules (hv : ∀ r ∈ rs, r.Valid) (hset : ∀ r, r ∈ rs ↔ r ∈ rs')
    (hB : Bellman A rs n m W L S G D) (hB' : Bellman A rs' n m W L S G' D') :
    ∀ i < n, ∀ j < m, G i j = G' i j := by
  refine hB.values (fun r hr => hv r ((hset r).2 hr)) hB' le_rfl le_rfl le_rfl le_rfl
    (fun _ _ _ _ => rfl) (fun _ _ _ _ => rfl) ?_
  intro i _ j _ x _
  constructor
  · rintro ⟨r, hr, h⟩; exact ⟨r, (hset r).1 hr, h⟩
  · rintro ⟨r, hr, h⟩; exact ⟨r, (hset r).2 hr, h⟩

/-! ### Traces are deterministic -/

theorem Trace.det (hv : ∀ r ∈ rs, r.Valid) {i0 j0 ks i j} (h : Trace rs D S i0 j0 ks i j) :
    ∀ {i0' j0' ks'}, Trace rs D S i0' j0' ks' i j → i0 = i0' ∧ j0 = j0' ∧ ks = ks' := by
  have key : ∀ N i j, i + j = N → ∀ {i0 j0 ks i0' j0' ks'}, Trace rs D S i0 j0 ks i j →
      Trace rs D S i0' j0' ks' i j → i0 = i0' ∧ j0 = j0' ∧ ks = ks' := by
    intro N
    induction N using Nat.strong_induction_on with
    | _ N ih =>
      intro i j hN i0 j0 ks i0' j0' ks' h h'
      cases h with
      | start hS hD =>
        cases h' with
        | start => exact ⟨rfl, rfl, rfl⟩
        | step k r _ _ _ hD' => simp [intMin] at hD; omega
      | @step ks1 i1 j1 k r ht hr hS hD =>
        generalize hI : i1 + r.a = I at h' hD
        generalize hJ : j1 + r.b = J at h' hD
        cases h' with
        | start hS' hD' => simp [intMin] at hD'; omega
        | @step ks2 i2 j2 k' r' ht' hr' hS' hD' =>
          have hk : k = k' := by omega
          subst hk
          rw [hr] at hr'
          simp only [Option.some.injEq] at hr'
          subst hr'
          obtain rfl : i1 = i2 := by omega
          obtain rfl : j1 = j2 := by omega
          have := (hv r (List.mem_of_getElem? hr)).1
          obtain ⟨e1, e2, e3⟩ := ih (i1 + j1) (by omega) i1 j1 rfl ht ht'
          exact ⟨e1, e2, by rw [e3]⟩
  intro i0' j0' ks' h'
  exact key _ i j rfl h h'

/-! ### Transposition -/

/-- Exchanging the roles of query and reference. -/
def Term.swap (t : Term) : Term := ⟨t.dj, t.di, t.w⟩
/-- Exchanging the roles of query and reference. -/
def Rule.swap (r : Rule) : Rule := ⟨r.b, r.a, r.terms.map Term.swap⟩

theorem encodeFrom_swap (rs : List Rule) : ∀ k, encodeFrom k (rs.map Rule.swap) =
    (encodeFrom k rs).map fun s => ⟨s.pid, s.dj, s.di, s.w⟩ := by
  induction rs with
  | nil => intro k; rfl
  | cons r rs ih =>
    intro k
    simp only [List.map_cons, encodeFrom, ih, List.map_append]
    congr 1
    simp [Rule.rows, Rule.swap, Term.swap, Function.comp_def]

theorem Rule.Valid.swap {r : Rule} (h : r.Valid) : r.swap.Valid := by
  refine ⟨h.1.symm, ?_⟩
  intro t ht
  simp only [Rule.swap, List.mem_map] at ht
  obtain ⟨t', ht', rfl⟩ := ht
  have := h.2 t' ht'
  exact ⟨this.1, this.2.2, this.2.1⟩

theorem WF.T {p : StepPattern} (h : WF p rs) : WF p.T (rs.map Rule.swap) where
  rows := by
    unfold StepPattern.T encode
    rw [encodeFrom_swap, h.rows]
    rfl
  ne := by simpa using h.ne
  valid := by
    intro r hr
    obtain ⟨r', hr', rfl⟩ := List.mem_map.1 hr
    exact (h.valid r' hr').swap

theorem Fits.swap (h : Fits n m rs) : Fits m n (rs.map Rule.swap) where
  cells := by rw [Nat.mul_comm]; exact h.cells
  rows := by
    unfold encode; rw [encodeFrom_swap, List.length_map]; exact h.rows
  deltas := by
    intro r hr
    obtain ⟨r', hr', rfl⟩ := List.mem_map.1 hr
    exact (h.deltas r' hr').symm

/-- Transposed matrix-valued functions. -/
def flipF {α} (f : Nat → Nat → α) : Nat → Nat → α := fun i j => f j i

theorem charge_swap (r : Rule) (i j : Nat) (c : F64) :
    charge A (flipF L) r.swap j i c = charge A L r i j c := by
  unfold charge Rule.swap
  simp only [List.foldl_map]
  rfl

theorem cand_swap (r : Rule) (i j : Nat) :
    cand A (flipF L) (flipF G) j i r.swap = cand A L G i j r := by
  unfold cand
  rw [charge_swap]
  simp only [Rule.swap, flipF]
  congr 1
  simp [and_comm]

theorem Bellman.transpose (h : Bellman A rs n m W L S G D) :
    Bellman A (rs.map Rule.swap) m n (flipF W) (flipF L) (flipF S) (flipF G) (flipF D) where
  seeded := fun i hi j hj hs => h.seeded j hj i hi hs
  outside := fun i hi j hj hs hw => h.outside j hj i hi hs hw
  inside := by
    intro i hi j hj hs hw
    have := h.inside j hj i hi hs hw
    rw [List.map_map]
    have e : (cand A (flipF L) (flipF G) i j ∘ Rule.swap) = cand A L G j i := by
      funext r; exact cand_swap r j i
    rw [e]
    exact this

theorem Trace.transpose {i0 j0 ks i j} (h : Trace rs D S i0 j0 ks i j) :
    Trace (rs.map Rule.swap) (flipF D) (flipF S) j0 i0 ks j i := by
  induction h with
  | start hS hD => exact .start _ _ hS hD
  | step k r _ hr hS hD ih =>
    exact Trace.step k r.swap ih (by rw [List.getElem?_map, hr]; rfl) hS hD

theorem Rule.fine_swap (r : Rule) (i j : Int) : r.swap.fine j i = (r.fine i j).map Prod.swap := by
  unfold Rule.fine Rule.swap
  simp [List.filter_map, Function.comp_def, Term.swap]
  congr 2
  funext t
  exact Bool.or_comm ..

theorem coarse_swap (rs : List Rule) : ∀ (ks : List Int) (i j : Int),
    coarse (rs.map Rule.swap) j i ks = (coarse rs i j ks).map Prod.swap := by
  intro ks
  induction ks with
  | nil => intro i j; rfl
  | cons k ks ih =>
    intro i j
    rw [coarse, coarse, List.getElem?_map]
    cases rs[(k - 1).toNat]? with
    | none => rfl
    | some r =>
      simp only [Option.map_some, List.map_cons, Prod.swap]
      rw [← ih]; rfl

theorem fineTail_swap (rs : List Rule) : ∀ (ks : List Int) (i j : Int),
    fineTail (rs.map Rule.swap) j i ks = (fineTail rs i j ks).map Prod.swap := by
  intro ks
  induction ks with
  | nil => intro i j; rfl
  | cons k ks ih =>
    intro i j
    rw [fineTail, fineTail, List.getElem?_map]
    cases rs[(k - 1).toNat]? with
    | none => rfl
    | some r =>
      simp only [Option.map_some, List.map_append]
      rw [← ih, ← Rule.fine_swap]; rfl

/-- The transposed mapping. -/
def Mapping.swap (mp : Mapping) : Mapping :=
  ⟨mp.index2, mp.index1, mp.index2s, mp.index1s, mp.stepsTaken⟩

theorem curve_swap (rs : List Rule) (i j : Int) (ks : List Int) :
    curve (rs.map Rule.swap) j i ks = (curve rs i j ks).swap := by
  unfold curve Mapping.swap fine
  rw [fineTail_swap, coarse_swap]
  simp [List.map_map, Function.comp_def]

theorem flip_closedSeed : flipF (closedSeed L) = closedSeed (flipF L) := by
  funext i j
  unfold flipF closedSeed
  simp [and_comm]

/-! ### Images under strictly increasing maps -/

theorem IsBest.map {f : F64 → F64} (hf : ∀ x y, lt (f x) (f y) = lt x y) (hinj : ∀ x y, f x = f y → x = y)
    (hp : f pinf = pinf) (hn : f nan = nan) {l : List F64} {v : F64} {d : Int} (h : IsBest l v d) :
    IsBest (l.map f) (f v) d := by
  have hu : ∀ x, usable (f x) ↔ usable x := by
    intro x; unfold usable; rw [← hf x pinf, hp]
  rcases h with ⟨k, h1, h2, h3, h4, h5⟩ | ⟨h1, h2, h3⟩
  · left
    refine ⟨k, by simp [h1], h2, (hu v).2 h3, ?_, ?_⟩
    · intro x hx
      obtain ⟨y, hy, rfl⟩ := List.mem_map.1 hx
      rw [hf]; exact h4 y hy
    · intro k' hk' x hx
      rw [List.getElem?_map] at hx
      cases hy : l[k']? with
      | none => rw [hy] at hx; simp at hx
      | some y =>
        rw [hy] at hx
        simp only [Option.map_some, Option.some.injEq] at hx
        subst hx
        intro hc
        exact h5 k' hk' y hy (hinj _ _ hc)
  · right
    refine ⟨?_, by rw [h2, hn], h3⟩
    intro x hx
    obtain ⟨y, hy, rfl⟩ := List.mem_map.1 hx
    rw [hu]; exact h1 y hy

/-- If `f` commutes with the candidates, it maps a solution of the recursion to a solution. -/
theorem Bellman.map {f : F64 → F64} (hf : ∀ x y, lt (f x) (f y) = lt x y)
    (hinj : ∀ x y, f x = f y → x = y) (hp : f pinf = pinf) (hn : f nan = nan)
    (hch : ∀ r ∈ rs, ∀ i j c, f (charge A L r i j c) = charge A L' r i j (f c))
    (h : Bellman A rs n m W L S G D) :
    Bellman A rs n m W L' (fun i j => f (S i j)) (fun i j => f (G i j)) D where
  seeded := by
    intro i hi j hj hs
    have hs' : S i j ≠ nan := by intro hc; rw [hc, hn] at hs; exact hs rfl
    have := h.seeded i hi j hj hs'
    exact ⟨by rw [this.1], this.2⟩
  outside := by
    intro i hi j hj hs hw
    have hs' : S i j = nan := hinj _ _ (by rw [hs, hn])
    have := h.outside i hi j hj hs' hw
    exact ⟨by rw [this.1, hn], this.2⟩
  inside := by
    intro i hi j hj hs hw
    have hs' : S i j = nan := hinj _ _ (by rw [hs, hn])
    have := (h.inside i hi j hj hs' hw).map hf hinj hp hn
    rw [List.map_map] at this
    have e : rs.map (f ∘ cand A L G i j) = rs.map (cand A L' (fun i j => f (G i j)) i j) := by
      apply List.map_congr_left
      intro r hr
      simp only [Function.comp_apply, cand]
      split
      · exact hch r hr _ _ _
      · exact hn
    rw [e] at this
    exact this

/-- Multiplication of a double by a positive rational, exactly. -/
def scaleF (c : ℚ) : F64 → F64
  | fin q => fin (c * q)
  | x => x

theorem scale_lt {c : ℚ} (hc : 0 < c) (x y : F64) : lt (scaleF c x) (scaleF c y) = lt x y := by
  cases x <;> cases y <;> simp [scaleF, lt, hc]

theorem scale_inj {c : ℚ} (hc : 0 < c) (x y : F64) (h : scaleF c x = scaleF c y) : x = y := by
  cases x <;> cases y <;> simp_all [scaleF]
  exact h.resolve_right (ne_of_gt hc)

theorem scale_mac {c : ℚ} (acc l : F64) (w : ℚ) :
    scaleF c (Arith.exact.mac acc (fin w) l) = Arith.exact.mac (scaleF c acc) (fin w) (scaleF c l) := by
  cases l with
  | fin q =>
    cases acc <;>
      simp [Arith.mac, Arith.exact, Arith.mul, Arith.mulWith, Arith.add, scaleF]
    ring
  | nan => simp [Arith.mac, Arith.exact, Arith.mul, Arith.mulWith, scaleF]
  | pinf =>
    cases acc <;>
      simp only [Arith.mac, Arith.exact, Arith.mul, Arith.mulWith, infTimes, scaleF] <;>
      split_ifs <;> simp [Arith.add]
  | ninf =>
    cases acc <;>
      simp only [Arith.mac, Arith.exact, Arith.mul, Arith.mulWith, infTimes, scaleF] <;>
      split_ifs <;> simp [Arith.add]

theorem scale_charge {c : ℚ} (L : Nat → Nat → F64) (r : Rule) (i j : Nat) (v : F64) :
    scaleF c (charge Arith.exact L r i j v) =
      charge Arith.exact (fun i j => scaleF c (L i j)) r i j (scaleF c v) := by
  unfold charge
  generalize r.terms = ts
  induction ts generalizing v with
  | nil => rfl
  | cons t ts ih =>
    simp only [List.foldl_cons]
    rw [ih, Arith.exact_rnd, scale_mac]

/-! ### Monotonicity in the costs -/

theorem Arith.add_mono_right (A : Arith) {a v v' : F64} (h : F64.le v v') (hu : usable (A.add a v')) :
    F64.le (A.add a v) (A.add a v') := by
  cases a <;> cases v <;> cases v' <;>
    simp_all [Arith.add, usable, F64.le, F64.lt] <;>
    first
      | exact ⟨A.rnd_ne_nan _, A.rnd_ne_nan _, A.rnd_mono _ _ (by linarith)⟩
      | (cases hq : A.rnd _ <;> simp_all)

/-- `acc + w*l` is monotone in `acc` and in `l`, for a finite non-negative weight. -/
theorem Arith.mac_mono2 (A : Arith) {c c' l' : F64} {w q : ℚ} (hw : 0 ≤ w) (hc : F64.le c c')
    (hl : F64.le (fin q) l') (hu : usable (A.mac c' (fin w) l')) :
    F64.le (A.mac c (fin w) (fin q)) (A.mac c' (fin w) l') := by
  cases l' with
  | nan => simp [F64.le] at hl
  | ninf => simp [F64.le, F64.lt] at hl
  | pinf =>
    exfalso
    unfold Arith.mac at hu
    have e : (if A.fused then Arith.mulWith fin (fin w) pinf else A.mul (fin w) pinf) = infTimes w := by
      split <;> rfl
    rw [e] at hu
    unfold infTimes at hu
    split_ifs at hu
    · simp at hu
    · cases c' <;> simp [Arith.add, usable, F64.lt] at hu
    · exfalso; linarith [lt_of_le_of_ne hw (Ne.symm ‹_›)]
  | fin q' =>
    rw [F64.le_fin] at hl
    have hmul : w * q ≤ w * q' := mul_le_mul_of_nonneg_left hl hw
    have hv : F64.le (if A.fused then Arith.mulWith fin (fin w) (fin q) else A.mul (fin w) (fin q))
        (if A.fused then Arith.mulWith fin (fin w) (fin q') else A.mul (fin w) (fin q')) := by
      split
      · simpa [Arith.mulWith] using hmul
      · exact A.rnd_le hmul
    unfold Arith.mac at hu ⊢
    have h1 := A.add_mono_left hc hu
    exact F64.le_trans (A.add_mono_right hv (usable_of_le h1 hu)) h1

/-- The weights of the rules are non-negative and round to finite doubles. -/
def NonnegWeights (A : Arith) (rs : List Rule) : Prop :=
  ∀ r ∈ rs, ∀ t ∈ r.terms, 0 ≤ t.w ∧ A.rnd t.w ≠ pinf

theorem rnd_weight {w : ℚ} (h : 0 ≤ w ∧ A.rnd w ≠ pinf) : ∃ w', A.rnd w = fin w' ∧ 0 ≤ w' := by
  have h0 := A.rnd_mono 0 w h.1
  rw [A.rnd_zero] at h0
  cases hw : A.rnd w with
  | nan => exact absurd hw (A.rnd_ne_nan w)
  | pinf => exact absurd hw h.2
  | ninf => rw [hw] at h0; simp [F64.lt] at h0
  | fin w' => rw [hw] at h0; simp at h0; exact ⟨w', rfl, h0⟩

theorem charge_mono2 {ℓ : Nat → Nat → ℚ} {r : Rule} (hw : ∀ t ∈ r.terms, 0 ≤ t.w ∧ A.rnd t.w ≠ pinf)
    {i j : Nat} (hl : ∀ t ∈ r.terms, F64.le (fin (ℓ (i - t.di) (j - t.dj))) (L' (i - t.di) (j - t.dj)))
    {c c' : F64} (hc : F64.le c c') (hu : usable (charge A L' r i j c')) :
    F64.le (charge A (fun i j => fin (ℓ i j)) r i j c) (charge A L' r i j c') := by
  unfold charge at hu ⊢
  generalize r.terms = ts at hw hl hu
  induction ts generalizing c c' with
  | nil => exact hc
  | cons t ts ih =>
    simp only [List.foldl_cons] at hu ⊢
    obtain ⟨w', hw', hw0⟩ := rnd_weight (hw t (List.mem_cons_self ..))
    have hu1 := foldl_mac_usable A L' i j ts _ hu
    rw [hw'] at hu hu1 ⊢
    exact ih (A.mac_mono2 hw0 hc (hl t (List.mem_cons_self ..)) hu1)
      (fun t' ht' => hw t' (List.mem_cons_of_mem _ ht')) (fun t' ht' => hl t' (List.mem_cons_of_mem _ ht')) hu

/-- Lowering the local costs of the cells of the grid lowers the cost of every path. -/
theorem WarpPath.mono {ℓ : Nat → Nat → ℚ} (hw : NonnegWeights A rs) {ks i j c'}
    (h : WarpPath A rs W L' ks i j c') (hl : ∀ i' ≤ i, ∀ j' ≤ j, F64.le (fin (ℓ i' j')) (L' i' j'))
    (hu : c' ≠ nan) (huu : ks ≠ [] → usable c') :
    ∃ c, WarpPath A rs W (fun i j => fin (ℓ i j)) ks i j c ∧ F64.le c c' := by
  induction h with
  | start => exact ⟨_, .start, hl 0 le_rfl 0 le_rfl⟩
  | @step ks i j c' k r hp hr hW ih =>
    have huc : usable (charge A L' r (i + r.a) (j + r.b) c') := huu (by simp)
    have hu1 := charge_usable huc
    obtain ⟨c, hc, hle⟩ := ih (fun i' hi' j' hj' => hl i' (by omega) j' (by omega))
      (usable_ne_nan hu1) (fun _ => hu1)
    refine ⟨_, .step k r hc hr hW, ?_⟩
    exact charge_mono2 (hw r (List.mem_of_getElem? hr))
      (fun t _ => hl _ (by omega) _ (by omega)) hle huc

/-! ### Non-negative costs -/

theorem Arith.mac_nonneg (A : Arith) {c : F64} {w q : ℚ} (hw : 0 ≤ w) (hq : 0 ≤ q) (hc : F64.le (fin 0) c) :
    F64.le (fin 0) (A.mac c (fin w) (fin q)) := by
  have hwq : 0 ≤ w * q := mul_nonneg hw hq
  have h0 : ∀ x : ℚ, 0 ≤ x → F64.le (fin 0) (A.rnd x) := by
    intro x hx; have := A.rnd_le hx; rwa [A.rnd_zero] at this
  have hv : F64.le (fin 0) (if A.fused then Arith.mulWith fin (fin w) (fin q) else A.mul (fin w) (fin q)) := by
    split
    · simpa [Arith.mulWith] using hwq
    · exact h0 _ hwq
  unfold Arith.mac
  generalize (if A.fused then Arith.mulWith fin (fin w) (fin q) else A.mul (fin w) (fin q)) = v at hv
  cases c <;> cases v <;> simp_all [F64.le, F64.lt, Arith.add]
  exact h0 _ (by linarith)

theorem charge_nonneg {ℓ : Nat → Nat → ℚ} {r : Rule} (hw : ∀ t ∈ r.terms, 0 ≤ t.w ∧ A.rnd t.w ≠ pinf)
    {i j : Nat} (hl : ∀ t ∈ r.terms, 0 ≤ ℓ (i - t.di) (j - t.dj)) {c : F64} (hc : F64.le (fin 0) c) :
    F64.le (fin 0) (charge A (fun i j => fin (ℓ i j)) r i j c) := by
  unfold charge
  generalize r.terms = ts at hw hl
  induction ts generalizing c with
  | nil => exact hc
  | cons t ts ih =>
    simp only [List.foldl_cons]
    obtain ⟨w', hw', hw0⟩ := rnd_weight (hw t (List.mem_cons_self ..))
    rw [hw']
    exact ih (A.mac_nonneg hw0 (hl t (List.mem_cons_self ..)) hc)
      (fun t' ht' => hw t' (List.mem_cons_of_mem _ ht')) (fun t' ht' => hl t' (List.mem_cons_of_mem _ ht'))

theorem WarpPath.nonneg {ℓ : Nat → Nat → ℚ} (hw : NonnegWeights A rs) {ks i j c}
    (h : WarpPath A rs W (fun i j => fin (ℓ i j)) ks i j c) (hl : ∀ i' ≤ i, ∀ j' ≤ j, 0 ≤ ℓ i' j') :
    F64.le (fin 0) c := by
  induction h with
  | start => simpa using hl 0 le_rfl 0 le_rfl
  | @step ks i j c k r hp hr hW ih =>
    exact charge_nonneg (hw r (List.mem_of_getElem? hr)) (fun t _ => hl _ (by omega) _ (by omega))
      (ih fun i' hi' j' hj' => hl i' (by omega) j' (by omega))

end DTW
