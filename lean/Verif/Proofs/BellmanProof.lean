import Verif.Proofs.KernelProof

/-!
# Consequences of the Bellman system: soundness, optimality, uniqueness
-/

namespace DTW
open F64

variable {A : Arith} {rs : List Rule} {n m : Nat} {W : Nat → Nat → Bool} {L S G : Nat → Nat → F64}
  {D : Nat → Nat → Int}

/-! ### charge -/

theorem foldl_mac_usable (A : Arith) (L : Nat → Nat → F64) (i j : Nat) (ts : List Term) : ∀ (c : F64),
    usable (ts.foldl (fun c t => A.mac c (A.rnd t.w) (L (i - t.di) (j - t.dj))) c) → usable c := by
  induction ts with
  | nil => intro c h; exact h
  | cons t ts ih => intro c h; exact A.mac_usable (ih _ h)

theorem charge_usable {r : Rule} {i j : Nat} {c : F64} (h : usable (charge A L r i j c)) : usable c :=
  foldl_mac_usable A L i j r.terms c h

theorem foldl_mac_ne_nan (A : Arith) (L : Nat → Nat → F64) (i j : Nat) (ts : List Term) : ∀ (c : F64),
    (ts.foldl (fun c t => A.mac c (A.rnd t.w) (L (i - t.di) (j - t.dj))) c) ≠ nan → c ≠ nan := by
  induction ts with
  | nil => intro c h; exact h
  | cons t ts ih => intro c h; have := ih _ h; rintro rfl; simp at this

theorem charge_ne_nan {r : Rule} {i j : Nat} {c : F64} (h : charge A L r i j c ≠ nan) : c ≠ nan :=
  foldl_mac_ne_nan A L i j r.terms c h

theorem foldl_mac_mono (A : Arith) (L : Nat → Nat → F64) (i j : Nat) (ts : List Term) : ∀ (a b : F64),
    F64.le a b →
    usable (ts.foldl (fun c t => A.mac c (A.rnd t.w) (L (i - t.di) (j - t.dj))) b) →
    F64.le (ts.foldl (fun c t => A.mac c (A.rnd t.w) (L (i - t.di) (j - t.dj))) a)
      (ts.foldl (fun c t => A.mac c (A.rnd t.w) (L (i - t.di) (j - t.dj))) b) := by
  induction ts with
  | nil => intro a b h _; exact h
  | cons t ts ih =>
    intro a b h hu
    exact ih _ _ (A.mac_mono h (foldl_mac_usable A L i j ts _ hu)) hu

theorem charge_mono {r : Rule} {i j : Nat} {a b : F64} (h : F64.le a b)
    (hu : usable (charge A L r i j b)) : F64.le (charge A L r i j a) (charge A L r i j b) :=
  foldl_mac_mono A L i j r.terms a b h hu

/-! ### IsBest -/

theorem IsBest.le {l : List F64} {v x : F64} {d : Int} (h : IsBest l v d) (hx : x ∈ l) (hu : usable x) :
    F64.le v x := by
  rcases h with ⟨k, _, _, hv, hmin, _⟩ | ⟨h, _⟩
  · exact ⟨usable_ne_nan hv, usable_ne_nan hu, hmin x hx⟩
  · exact absurd hu (h x hx)

theorem IsBest.mem {l : List F64} {v : F64} {d : Int} (h : IsBest l v d) (hv : v ≠ nan) :
    ∃ k : Nat, l[k]? = some v ∧ d = (k : Int) + 1 ∧ usable v := by
  rcases h with ⟨k, h1, h2, h3, _⟩ | ⟨_, h, _⟩
  · exact ⟨k, h1, h2, h3⟩
  · exact absurd h hv

theorem IsBest.unique {l : List F64} {v v' : F64} {d d' : Int} (h : IsBest l v d) (h' : IsBest l v' d') :
    v = v' ∧ d = d' := by
  rcases h with ⟨k, h1, h2, h3, h4, h5⟩ | ⟨h1, h2, h3⟩ <;>
    rcases h' with ⟨k', h1', h2', h3', h4', h5'⟩ | ⟨h1', h2', h3'⟩
  · have hm := List.mem_of_getElem? h1
    have hm' := List.mem_of_getElem? h1'
    have hv : v = v' := lt_tri (usable_ne_nan h3) (usable_ne_nan h3') (h4' v hm) (h4 v' hm')
    subst hv
    refine ⟨rfl, ?_⟩
    have hk : k = k' := by
      rcases Nat.lt_trichotomy k k' with h | h | h
      · exact absurd rfl (h5' k h v h1)
      · exact h
      · exact absurd rfl (h5 k' h v h1')
    omega
  · exact absurd h3 (h1' v (List.mem_of_getElem? h1))
  · exact absurd h3' (h1 v' (List.mem_of_getElem? h1'))
  · exact ⟨h2.trans h2'.symm, h3.trans h3'.symm⟩

/-- The value of `IsBest` depends only on the set of entries. -/
theorem IsBest.value_unique {l l' : List F64} {v v' : F64} {d d' : Int} (h : IsBest l v d)
    (h' : IsBest l' v' d') (hl : ∀ x, usable x → (x ∈ l ↔ x ∈ l')) : v = v' := by
  by_cases hv : v = nan
  · by_cases hv' : v' = nan
    · rw [hv, hv']
    · obtain ⟨k, h1, _, h3⟩ := h'.mem hv'
      have := h.le ((hl _ h3).2 (List.mem_of_getElem? h1)) h3
      exact absurd hv this.1
  · obtain ⟨k, h1, _, h3⟩ := h.mem hv
    have a := h'.le ((hl _ h3).1 (List.mem_of_getElem? h1)) h3
    obtain ⟨k', h1', _, h3'⟩ := h'.mem a.1
    have b := h.le ((hl _ h3').2 (List.mem_of_getElem? h1')) h3'
    exact le_antisymm b a

/-! ### Soundness -/

/-- `ks` is the sequence of rules found by following the direction matrix from the seeded cell `(i0,j0)` to
`(i,j)`. -/
inductive Trace (rs : List Rule) (D : Nat → Nat → Int) (S : Nat → Nat → F64) :
    Nat → Nat → List Int → Nat → Nat → Prop
  | start (i j : Nat) : S i j ≠ nan → D i j = intMin → Trace rs D S i j [] i j
  | step {i0 j0 ks i j} (k : Nat) (r : Rule) :
      Trace rs D S i0 j0 ks i j → rs[k]? = some r →
      S (i + r.a) (j + r.b) = nan →
      D (i + r.a) (j + r.b) = (k : Int) + 1 →
      Trace rs D S i0 j0 (ks ++ [(k : Int) + 1]) (i + r.a) (j + r.b)

theorem Bellman.sound (hv : ∀ r ∈ rs, r.Valid) (hB : Bellman A rs n m W L S G D) :
    ∀ N i j, i + j = N → i < n → j < m → G i j ≠ nan →
      ∃ i0 j0 ks, Path A rs W L S i0 j0 ks i j (G i j) ∧ Trace rs D S i0 j0 ks i j := by
  intro N
  induction N using Nat.strong_induction_on with
  | _ N ih =>
    intro i j hN hi hj hG
    by_cases hS : S i j = nan
    · cases hW : W i j with
      | false => exact absurd (hB.outside i hi j hj hS hW).1 hG
      | true =>
        obtain ⟨k, h1, h2, h3⟩ := (hB.inside i hi j hj hS hW).mem hG
        rw [List.getElem?_map, Option.map_eq_some_iff] at h1
        obtain ⟨r, hr, hc⟩ := h1
        unfold cand at hc
        split at hc
        · rename_i hin
          obtain ⟨ha, hb⟩ := hin
          obtain ⟨a, rfl⟩ : ∃ a, i = a + r.a := ⟨i - r.a, by omega⟩
          obtain ⟨b, rfl⟩ : ∃ b, j = b + r.b := ⟨j - r.b, by omega⟩
          simp only [Nat.add_sub_cancel] at hc
          have hprog := (hv r (List.mem_of_getElem? hr)).1
          have hne : G a b ≠ nan := by
            rw [← hc] at hG; exact charge_ne_nan hG
          obtain ⟨i0, j0, ks, hp, ht⟩ := ih (a + b) (by omega) a b rfl (by omega) (by omega) hne
          refine ⟨i0, j0, ks ++ [(k : Int) + 1], ?_, ?_⟩
          · rw [← hc]
            exact Path.step k r hp hr hW hS
          · exact Trace.step k r ht hr hS h2
        · exact absurd hc.symm hG
    · obtain ⟨h1, h2⟩ := hB.seeded i hi j hj hS
      exact ⟨i, j, [], by rw [h1]; exact Path.start i j hS, Trace.start i j hS h2⟩

/-! ### Optimality -/

theorem Bellman.optimal (hB : Bellman A rs n m W L S G D) {i0 j0 : Nat} {ks : List Int} {i j : Nat}
    {c : F64} (hp : Path A rs W L S i0 j0 ks i j c) : i < n → j < m → usable c → F64.le (G i j) c := by
  induction hp with
  | start hS =>
    intro hi hj hu
    rw [(hB.seeded _ hi _ hj hS).1]
    exact le_refl hS
  | @step ks i j c k r hp hr hW hS ih =>
    intro hi hj hu
    have hc := charge_usable hu
    have hle := ih (by omega) (by omega) hc
    have h1 : F64.le (charge A L r (i + r.a) (j + r.b) (G i j)) (charge A L r (i + r.a) (j + r.b) c) :=
      charge_mono hle hu
    have h2 : usable (charge A L r (i + r.a) (j + r.b) (G i j)) := usable_of_le h1 hu
    refine F64.le_trans ((hB.inside _ hi _ hj hS hW).le ?_ h2) h1
    refine List.mem_map.2 ⟨r, List.mem_of_getElem? hr, ?_⟩
    simp [cand]

/-- A cumulative cost is NaN iff no usable path leads to the cell; a seeded cell keeps its seed. -/
theorem Bellman.nan_iff (hv : ∀ r ∈ rs, r.Valid) (hB : Bellman A rs n m W L S G D) {i j : Nat}
    (hi : i < n) (hj : j < m) (hS : S i j = nan) :
    G i j = nan ↔ ¬ ∃ i0 j0 ks c, Path A rs W L S i0 j0 ks i j c ∧ usable c := by
  constructor
  · rintro h ⟨i0, j0, ks, c, hp, hu⟩
    exact (hB.optimal hp hi hj hu).1 h
  · intro h
    by_contra hG
    obtain ⟨i0, j0, ks, hp, _⟩ := hB.sound hv _ i j rfl hi hj hG
    refine h ⟨i0, j0, ks, _, hp, ?_⟩
    cases hW : W i j with
    | false => exact absurd (hB.outside i hi j hj hS hW).1 hG
    | true => exact ((hB.inside i hi j hj hS hW).mem hG).choose_spec.2.2

/-- A non-seeded cumulative cost that is a number is usable. -/
theorem Bellman.usable_of_ne_nan (hB : Bellman A rs n m W L S G D) {i j : Nat}
    (hi : i < n) (hj : j < m) (hS : S i j = nan) (hG : G i j ≠ nan) : usable (G i j) := by
  cases hW : W i j with
  | false => exact absurd (hB.outside i hi j hj hS hW).1 hG
  | true => exact ((hB.inside i hi j hj hS hW).mem hG).choose_spec.2.2

/-! ### Uniqueness -/

theorem Bellman.unique {n' m' n'' m'' : Nat} {W' : Nat → Nat → Bool} {L' S' G' : Nat → Nat → F64}
    {D' : Nat → Nat → Int} (hv : ∀ r ∈ rs, r.Valid)
    (hB : Bellman A rs n m W L S G D) (hB' : Bellman A rs n' m' W' L' S' G' D')
    (hn : n'' ≤ n) (hn' : n'' ≤ n') (hm : m'' ≤ m) (hm' : m'' ≤ m')
    (hW : ∀ i < n'', ∀ j < m'', W i j = W' i j) (hL : ∀ i < n'', ∀ j < m'', L i j = L' i j)
    (hS : ∀ i < n'', ∀ j < m'', S i j = S' i j) :
    ∀ i < n'', ∀ j < m'', G i j = G' i j ∧ D i j = D' i j := by
  have key : ∀ N i j, i + j = N → i < n'' → j < m'' → G i j = G' i j ∧ D i j = D' i j := by
    intro N
    induction N using Nat.strong_induction_on with
    | _ N ih =>
      intro i j hN hi hj
      by_cases hSn : S i j = nan
      · have hSn' : S' i j = nan := by rw [← hS i hi j hj]; exact hSn
        cases hWb : W i j with
        | false =>
          have h1 := hB.outside i (by omega) j (by omega) hSn hWb
          have h2 := hB'.outside i (by omega) j (by omega) hSn' (by rw [← hW i hi j hj]; exact hWb)
          exact ⟨h1.1.trans h2.1.symm, h1.2.trans h2.2.symm⟩
        | true =>
          have h1 := hB.inside i (by omega) j (by omega) hSn hWb
          have h2 := hB'.inside i (by omega) j (by omega) hSn' (by rw [← hW i hi j hj]; exact hWb)
          have hmap : rs.map (cand A L G i j) = rs.map (cand A L' G' i j) := by
            apply List.map_congr_left
            intro r hr
            unfold cand
            split
            · rename_i hin
              have hprog := (hv r hr).1
              rw [(ih (i - r.a + (j - r.b)) (by omega) _ _ rfl (by omega) (by omega)).1]
              unfold charge
              congr 1
              funext c t
              rw [hL _ (by omega) _ (by omega)]
            · rfl
          rw [hmap] at h1
          exact h1.unique h2
      · have hSn' : S' i j ≠ nan := by rw [← hS i hi j hj]; exact hSn
        have h1 := hB.seeded i (by omega) j (by omega) hSn
        have h2 := hB'.seeded i (by omega) j (by omega) hSn'
        exact ⟨h1.1.trans ((hS i hi j hj).trans h2.1.symm), h1.2.trans h2.2.symm⟩
  intro i hi j hj
  exact key _ i j rfl hi hj

/-! ### Facts about paths and traces -/

theorem Path.seed_ne_nan {i0 j0 ks i j c} (h : Path A rs W L S i0 j0 ks i j c) : S i0 j0 ≠ nan := by
  induction h with
  | start h => exact h
  | step _ _ _ _ _ _ ih => exact ih

theorem Path.le_coords {i0 j0 ks i j c} (h : Path A rs W L S i0 j0 ks i j c) : i0 ≤ i ∧ j0 ≤ j := by
  induction h with
  | start => simp
  | step k r _ _ _ _ ih => omega

theorem Trace.le_coords {i0 j0 ks i j} (h : Trace rs D S i0 j0 ks i j) : i0 ≤ i ∧ j0 ≤ j := by
  induction h with
  | start => simp
  | step k r _ _ _ _ ih => omega

theorem Trace.length_le {i0 j0 ks i j} (hv : ∀ r ∈ rs, r.Valid) (h : Trace rs D S i0 j0 ks i j) :
    ks.length + i0 + j0 ≤ i + j := by
  induction h with
  | start => simp
  | step k r _ hr _ _ ih =>
    have := (hv r (List.mem_of_getElem? hr)).1
    simp; omega

theorem Trace.seed_ne_nan {i0 j0 ks i j} (h : Trace rs D S i0 j0 ks i j) : S i0 j0 ≠ nan := by
  induction h with
  | start h _ => exact h
  | step _ _ _ _ _ _ ih => exact ih

end DTW
