import Verif.Proofs.CurveProof

/-!
# Windows along a path, covering curves, one-element-per-query patterns, feasibility in exact arithmetic
-/

namespace DTW
open F64

variable {A : Arith} {rs : List Rule} {W : Nat → Nat → Bool} {L S : Nat → Nat → F64}

theorem Walk.coarse_snoc {i0 j0 ks i j} (h : Walk rs i0 j0 ks i j) {k : Nat} {r : Rule}
    (hr : rs[k]? = some r) :
    coarse rs i0 j0 (ks ++ [(k : Int) + 1]) = coarse rs i0 j0 ks ++ [((i : Int) + r.a, (j : Int) + r.b)] := by
  obtain ⟨pts, h1, h2⟩ := h.coarse_end
  rw [DTW.coarse_snoc rs ks i0 j0 pts i j k r hr h1 h2, h1]
  simp

theorem Walk.length_le (hv : ∀ r ∈ rs, r.Valid) {i0 j0 ks i j} (h : Walk rs i0 j0 ks i j) :
    ks.length + i0 + j0 ≤ i + j := by
  induction h with
  | start => simp
  | step k r _ hr ih =>
    have := (hv r (List.mem_of_getElem? hr)).1
    simp; omega

/-- All corner points of a warping path but the first are inside the window. -/
theorem RulePath.window {ks i j} (h : RulePath rs W ks i j) :
    ∀ u ∈ (coarse rs 0 0 ks).tail, ∃ i' j' : Nat, u = ((i' : Int), (j' : Int)) ∧ W i' j' = true := by
  induction h with
  | start => intro u hu; simp [coarse] at hu
  | @step ks i j k r hp hr hW ih =>
    intro u hu
    have hc := hp.toWalk.coarse_snoc hr
    rw [show ((0 : Nat) : Int) = 0 from rfl] at hc
    obtain ⟨t, ht⟩ := coarse_cons rs 0 0 ks
    rw [hc, ht, List.cons_append, List.tail_cons, List.mem_append, List.mem_singleton] at hu
    rcases hu with hu | rfl
    · exact ih u (by rw [ht]; exact hu)
    · exact ⟨i + r.a, j + r.b, by push_cast; rfl, hW⟩

/-- A list of integers starting at `a` and increasing by 0 or 1 meets every value up to its last. -/
theorem covers_of_chain : ∀ (l : List Int) (a b : Int), l.head? = some a → l.getLast? = some b →
    (l.IsChain fun u v => v - u = 0 ∨ v - u = 1) → ∀ x, a ≤ x → x ≤ b → x ∈ l := by
  intro l
  induction l with
  | nil => intro a b h; simp at h
  | cons y ys ih =>
    intro a b ha hb hc x hx hx'
    simp only [List.head?_cons, Option.some.injEq] at ha
    subst ha
    cases ys with
    | nil =>
      simp at hb; subst hb
      have : x = y := by omega
      simp [this]
    | cons z zs =>
      rw [List.isChain_cons_cons] at hc
      by_cases hxy : x = y
      · simp [hxy]
      · right
        refine ih z b rfl ?_ hc.2 x (by omega) hx'
        rw [← hb]; simp

/-! ### Rules that consume exactly one query element and charge the arrival cell once -/

/-- The rule `g[i-1, j-b] + d[i,j]`. -/
def Rule.OnePer (r : Rule) : Prop := r.a = 1 ∧ r.terms = [⟨0, 0, 1⟩]

theorem onePer_fine {r : Rule} (h : r.OnePer) (i j : Int) : r.fine i j = [(i + 1, j + (r.b : Int))] := by
  unfold Rule.fine
  rw [h.2, h.1]; simp

theorem Walk.onePer_index (h1 : ∀ r ∈ rs, r.OnePer) {i0 j0 ks i j} (h : Walk rs i0 j0 ks i j) (h0 : i0 = 0) :
    (fine rs i0 j0 ks).map Prod.fst = (List.range (i + 1)).map fun (x : Nat) => (x : Int) := by
  subst h0
  induction h with
  | start => simp [fine, fineTail, List.range_succ]
  | @step ks i j k r hw hr ih =>
    have hr1 := h1 r (List.mem_of_getElem? hr)
    rw [hw.fine_snoc hr, List.map_append, ih, onePer_fine hr1, hr1.1,
      List.range_succ (n := i + 1), List.map_append]
    simp

theorem Walk.onePer_chain (P : Int → Prop) (h1 : ∀ r ∈ rs, r.OnePer) (hP : ∀ r ∈ rs, P r.b)
    (ks : List Int) (i j : Int) :
    ((fine rs i j ks).map Prod.snd).IsChain fun u v => P (v - u) := by
  rw [List.isChain_map]
  refine (fine_chain (fun _ dj => P dj) ?_ ks i j).imp fun _ _ h => h
  intro r hr
  unfold Rule.Advances Rule.offsets
  rw [(h1 r hr).2]
  simpa using hP r hr

theorem charge_onePer {r : Rule} (h : r.OnePer) (ℓ : Nat → Nat → ℚ) (i j : Nat) (c : ℚ) :
    charge Arith.exact (fun i j => fin (ℓ i j)) r i j (fin c) = fin (c + ℓ i j) := by
  unfold charge; rw [h.2]; simp

/-- The cost of such a path is the plain sum of the local costs it visits. -/
theorem WarpPath.onePer_cost (h1 : ∀ r ∈ rs, r.OnePer) {ℓ : Nat → Nat → ℚ} {ks i j c}
    (h : WarpPath Arith.exact rs W (fun i j => fin (ℓ i j)) ks i j c) :
    c = fin (((fine rs 0 0 ks).map fun u => ℓ u.1.toNat u.2.toNat).sum) := by
  induction h with
  | start => simp [fine, fineTail]
  | @step ks i j c k r hp hr hW ih =>
    have hr1 := h1 r (List.mem_of_getElem? hr)
    have hf := hp.toWalk.fine_snoc hr
    rw [show ((0 : Nat) : Int) = 0 from rfl] at hf
    rw [hf, ih, charge_onePer hr1, onePer_fine hr1, hr1.1]
    congr 1
    simp only [List.map_append, List.map_cons, List.map_nil, List.sum_append, List.sum_cons, List.sum_nil]
    have e1 : ((i : Int) + 1).toNat = i + 1 := by omega
    have e2 : ((j : Int) + r.b).toNat = j + r.b := by omega
    rw [e1, e2]; ring

/-! ### Feasibility with finite costs in exact arithmetic -/

theorem charge_exact (ℓ : Nat → Nat → ℚ) (r : Rule) (i j : Nat) (c : ℚ) :
    ∃ c', charge Arith.exact (fun i j => fin (ℓ i j)) r i j (fin c) = fin c' := by
  unfold charge
  generalize r.terms = ts
  induction ts generalizing c with
  | nil => exact ⟨c, rfl⟩
  | cons t ts ih => simp only [List.foldl_cons]; exact ih _

theorem WarpPath.finite {ℓ : Nat → Nat → ℚ} {ks i j c}
    (h : WarpPath Arith.exact rs W (fun i j => fin (ℓ i j)) ks i j c) : ∃ q, c = fin q := by
  induction h with
  | start => exact ⟨_, rfl⟩
  | step k r _ _ _ ih => obtain ⟨q, rfl⟩ := ih; exact charge_exact ℓ r _ _ q

/-- Closed begin and end, finite costs, exact arithmetic: the call succeeds iff there is an admissible
rule sequence. -/
theorem exact_success_iff {a : Args} {n m p} {ℓ : Nat → Nat → ℚ}
    (h : Problem a n m (fun i j => fin (ℓ i j)) W p rs) (hob : a.openBegin = false) (hoe : a.openEnd = false) :
    (∃ r, dtw Arith.exact a = .ok r) ↔ ∃ ks, RulePath rs W ks (n - 1) (m - 1) := by
  obtain ⟨G, D, qr, hB, _, hd⟩ := dtw_closed Arith.exact h hob
  have hn := h.n_pos
  have hm := h.m_pos
  constructor
  · rintro ⟨r, hr⟩
    obtain ⟨j, ks, hrun⟩ := closed_ok h hob hB hd hr
    obtain rfl := hrun.endAt.closed hoe
    exact ⟨ks, hrun.path.toRulePath⟩
  · rintro ⟨ks, hp⟩
    obtain ⟨c, hc⟩ := hp.toWarpPath (A := Arith.exact) (L := fun i j => fin (ℓ i j))
    obtain ⟨q, rfl⟩ := hc.finite
    have hG := (hB.optimal (hc.toPath h.wf.valid (by simp)) (by omega) (by omega) (usable_fin q)).1
    rcases closed_closed h hob hoe hB hd with ⟨h1, _⟩ | ⟨_, h2⟩
    · exact absurd h1 hG
    · exact h2

/-! ### mvm -/

/-- The rules of `mvmStepPattern(e)`: `g[i-1, j-k] + d[i,j]` for `k = 1..e`. -/
def mvmRules (e : Nat) : List Rule := (List.range e).map fun k => ⟨1, k + 1, [⟨0, 0, 1⟩]⟩

theorem encodeFrom_append : ∀ (r1 r2 : List Rule) (k : Nat),
    encodeFrom k (r1 ++ r2) = encodeFrom k r1 ++ encodeFrom (k + r1.length) r2 := by
  intro r1
  induction r1 with
  | nil => intro r2 k; rfl
  | cons r r1 ih =>
    intro r2 k
    simp only [List.cons_append, encodeFrom, ih, List.length_cons, List.append_assoc]
    congr 3
    omega

theorem mvm_encode (e : Nat) : (mvmStepPattern e).mx = encode (mvmRules e) := by
  unfold mvmStepPattern mvmRules encode
  simp only
  induction e with
  | zero => rfl
  | succ e ih =>
    rw [List.range_succ, List.flatMap_append, List.map_append, encodeFrom_append, ih]
    congr 1
    simp [encodeFrom, Rule.rows]

theorem mvm_wf {e : Nat} (he : 0 < e) : WF (mvmStepPattern e) (mvmRules e) where
  rows := mvm_encode e
  ne := by
    intro h
    have := congrArg List.length h
    simp [mvmRules] at this
    omega
  valid := by
    intro r hr
    simp only [mvmRules, List.mem_map, List.mem_range] at hr
    obtain ⟨k, _, rfl⟩ := hr
    refine ⟨.inl (by simp), ?_⟩
    intro t ht
    simp at ht
    subst ht
    norm_num

end DTW
