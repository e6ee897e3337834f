import Verif.SpecTextbook
import Verif.Proofs.PatternProof
import Verif.Props.Optimal
import Verif.Proofs.OnePer

/-!
# Rule sequences and textbook warping curves
-/

namespace DTW
open F64

variable {rs : List Rule} {W : Nat → Nat → Bool} {ℓ : Nat → Nat → ℚ} {wt : Move → ℚ}

theorem endOf_append (u : Nat × Nat) (w v : List Move) : endOf u (w ++ v) = endOf (endOf u w) v := by
  induction w generalizing u with
  | nil => rfl
  | cons x w ih => exact ih _

theorem moveCost_append (u : Nat × Nat) (w v : List Move) :
    moveCost wt ℓ u (w ++ v) = moveCost wt ℓ u w + moveCost wt ℓ (endOf u w) v := by
  induction w generalizing u with
  | nil => simp [moveCost, endOf]
  | cons x w ih => simp only [List.cons_append, moveCost, endOf, ih]; ring

theorem visited_append (u : Nat × Nat) (w v : List Move) :
    visited u (w ++ v) = visited u w ++ (visited (endOf u w) v).tail := by
  induction w generalizing u with
  | nil => cases v <;> rfl
  | cons x w ih => simp only [List.cons_append, visited, endOf, ih]

theorem visited_head (u : Nat × Nat) (w : List Move) : ∃ t, visited u w = u :: t := by
  cases w <;> exact ⟨_, rfl⟩

theorem visited_tail_cost (u : Nat × Nat) (w : List Move) :
    ((visited u w).map fun v => ℓ v.1 v.2).sum = ℓ u.1 u.2 + moveCost (fun _ => 1) ℓ u w := by
  induction w generalizing u with
  | nil => simp [visited, moveCost]
  | cons x w ih => simp only [visited, List.map_cons, List.sum_cons, ih, moveCost]; ring

theorem plainCost_eq (w : List Move) : plainCost ℓ w = ℓ 0 0 + moveCost (fun _ => 1) ℓ (0, 0) w :=
  visited_tail_cost (0, 0) w

/-- How the rules translate to move sequences, and which move sequences arise. -/
structure Reads (rs : List Rule) (W : Nat → Nat → Bool) (wt : Move → ℚ) (Lang : List Move → Prop) : Prop where
  block : ∀ r ∈ rs, ∃ b : List Move, (∀ i j, endOf (i, j) b = (i + r.a, j + r.b)) ∧
    (∀ (ℓ : Nat → Nat → ℚ) i j c, charge Arith.exact (fun i j => fin (ℓ i j)) r (i + r.a) (j + r.b) (fin c) =
      fin (c + moveCost wt ℓ (i, j) b)) ∧
    ∀ w, Lang w → W (endOf (0, 0) (w ++ b)).1 (endOf (0, 0) (w ++ b)).2 = true → Lang (w ++ b)
  nil : Lang []
  split : ∀ w, Lang w → w = [] ∨ ∃ r ∈ rs, ∃ w' b, w = w' ++ b ∧ b ≠ [] ∧ Lang w' ∧
    W (endOf (0, 0) w).1 (endOf (0, 0) w).2 = true ∧ (∀ i j, endOf (i, j) b = (i + r.a, j + r.b)) ∧
    (∀ (ℓ : Nat → Nat → ℚ) i j c, charge Arith.exact (fun i j => fin (ℓ i j)) r (i + r.a) (j + r.b) (fin c) =
      fin (c + moveCost wt ℓ (i, j) b))

theorem Reads.toCurve {Lang : List Move → Prop} (hR : Reads rs W wt Lang) {ks i j c}
    (h : WarpPath Arith.exact rs W (fun i j => fin (ℓ i j)) ks i j c) :
    ∃ w, endOf (0, 0) w = (i, j) ∧ Lang w ∧ c = fin (ℓ 0 0 + moveCost wt ℓ (0, 0) w) := by
  induction h with
  | start => exact ⟨[], rfl, hR.nil, by simp [moveCost]⟩
  | @step ks i j c k r _ hr hW ih =>
    obtain ⟨w, he, hl, rfl⟩ := ih
    obtain ⟨b, hb, hc, hL⟩ := hR.block r (List.mem_of_getElem? hr)
    have hend : endOf (0, 0) (w ++ b) = (i + r.a, j + r.b) := by rw [endOf_append, he, hb]
    refine ⟨w ++ b, hend, hL w hl (by rw [hend]; exact hW), ?_⟩
    rw [hc, moveCost_append, he]
    congr 1; ring

theorem Reads.toPath {Lang : List Move → Prop} (hR : Reads rs W wt Lang) :
    ∀ (s : Nat) (w : List Move), w.length ≤ s → Lang w → ∃ ks,
      WarpPath Arith.exact rs W (fun i j => fin (ℓ i j)) ks (endOf (0, 0) w).1 (endOf (0, 0) w).2
        (fin (ℓ 0 0 + moveCost wt ℓ (0, 0) w)) := by
  intro s
  induction s with
  | zero =>
    intro w hw _
    obtain rfl := List.eq_nil_of_length_eq_zero (Nat.le_zero.1 hw)
    exact ⟨[], by simpa [endOf, moveCost] using WarpPath.start⟩
  | succ s ih =>
    intro w hw hl
    rcases hR.split w hl with rfl | ⟨r, hr, w', b, rfl, hb0, hl', hW, hb, hc⟩
    · exact ⟨[], by simpa [endOf, moveCost] using WarpPath.start⟩
    · have hlen : w'.length ≤ s := by
        have := List.length_pos_iff.2 hb0
        rw [List.length_append] at hw; omega
      obtain ⟨ks, hp⟩ := ih w' hlen hl'
      obtain ⟨k, hk⟩ := List.mem_iff_getElem?.1 hr
      have hend : endOf (0, 0) (w' ++ b) = ((endOf (0, 0) w').1 + r.a, (endOf (0, 0) w').2 + r.b) := by
        rw [endOf_append]; exact hb _ _
      have := WarpPath.step k r hp hk (by rw [hend] at hW; exact hW)
      refine ⟨ks ++ [(k : Int) + 1], ?_⟩
      rw [hend]
      rw [hc] at this
      rw [moveCost_append]
      rw [show ℓ 0 0 + moveCost wt ℓ (0, 0) w' + moveCost wt ℓ ((endOf (0, 0) w').1, (endOf (0, 0) w').2) b =
        ℓ 0 0 + (moveCost wt ℓ (0, 0) w' + moveCost wt ℓ (endOf (0, 0) w') b) by ring] at this
      exact this

theorem Reads.least {Lang : List Move → Prop} (hR : Reads rs W wt Lang) {a : Args} {n m : Nat} {p : StepPattern}
    (h : Problem a n m (fun i j => fin (ℓ i j)) W p rs) (hob : a.openBegin = false) (hoe : a.openEnd = false) :
    ((∃ r, dtw Arith.exact a = .ok r) ↔ ∃ w, Lang w ∧ endOf (0, 0) w = (n - 1, m - 1)) ∧
    ∀ r, dtw Arith.exact a = .ok r → ∃ d, r.distance = fin d ∧
      IsLeast {c | ∃ w, (Lang w ∧ endOf (0, 0) w = (n - 1, m - 1)) ∧ c = ℓ 0 0 + moveCost wt ℓ (0, 0) w} d := by
  constructor
  · rw [exact_success_iff h hob hoe]
    constructor
    · rintro ⟨ks, hp⟩
      obtain ⟨c, hc⟩ := hp.toWarpPath (A := Arith.exact) (L := fun i j => fin (ℓ i j))
      obtain ⟨w, he, hl, _⟩ := hR.toCurve hc
      exact ⟨w, hl, he⟩
    · rintro ⟨w, hl, he⟩
      obtain ⟨ks, hp⟩ := hR.toPath (ℓ := ℓ) w.length w le_rfl hl
      rw [he] at hp
      exact ⟨ks, hp.toRulePath⟩
  · intro r hr
    obtain ⟨⟨ks, hp⟩, hmin⟩ := C01_distance_optimal h hob hoe hr
    obtain ⟨w, he, hl, hd⟩ := hR.toCurve hp
    refine ⟨_, hd, ⟨w, ⟨hl, he⟩, rfl⟩, ?_⟩
    rintro c ⟨w', ⟨hl', he'⟩, rfl⟩
    obtain ⟨ks', hp'⟩ := hR.toPath (ℓ := ℓ) w'.length w' le_rfl hl'
    rw [he'] at hp'
    have := (hmin ks' _ hp' (by simp)).2.2
    rw [hd] at this
    simpa [F64.lt] using this

/-! ### Patterns made of elementary moves -/

theorem charge_one (ℓ : Nat → Nat → ℚ) {r : Rule} {w : ℚ} (hr : r.terms = [⟨0, 0, w⟩]) (i j : Nat) (c : ℚ) :
    charge Arith.exact (fun i j => fin (ℓ i j)) r i j (fin c) = fin (c + w * ℓ i j) := by
  simp [charge, hr, Arith.mac, Arith.exact, Arith.add, Arith.mul, Arith.mulWith]

/-- The patterns with exactly the three elementary moves, each charging the point reached. -/
structure Elementary (rs : List Rule) (wt : Move → ℚ) : Prop where
  rule : ∀ r ∈ rs, ∃ x : Move, r = ⟨x.delta.1, x.delta.2, [⟨0, 0, wt x⟩]⟩
  has : ∀ x : Move, (⟨x.delta.1, x.delta.2, [⟨0, 0, wt x⟩]⟩ : Rule) ∈ rs

theorem visited_snoc_tail (w : List Move) (x : Move) :
    (visited (0, 0) (w ++ [x])).tail = (visited (0, 0) w).tail ++ [endOf (0, 0) (w ++ [x])] := by
  obtain ⟨t, ht⟩ := visited_head (0, 0) w
  rw [visited_append, endOf_append, ht]
  rfl

theorem Elementary.reads (hE : Elementary rs wt) :
    Reads rs W wt (fun w => ∀ u ∈ (visited (0, 0) w).tail, W u.1 u.2 = true) where
  block := by
    intro r hr
    obtain ⟨x, rfl⟩ := hE.rule r hr
    refine ⟨[x], fun i j => rfl, ?_, ?_⟩
    · intro ℓ i j c
      rw [charge_one ℓ rfl]
      simp [moveCost, Move.go]
    · intro w hw hW u hu
      rw [visited_snoc_tail, List.mem_append, List.mem_singleton] at hu
      rcases hu with hu | rfl
      · exact hw u hu
      · exact hW
  nil := by intro u hu; simp [visited] at hu
  split := by
    intro w hw
    rcases List.eq_nil_or_concat w with rfl | ⟨w', x, rfl⟩
    · exact .inl rfl
    · right
      rw [List.concat_eq_append] at hw ⊢
      rw [visited_snoc_tail] at hw
      refine ⟨_, hE.has x, w', [x], rfl, by simp, fun u hu => hw u (List.mem_append_left _ hu), ?_, fun i j => rfl, ?_⟩
      · exact hw _ (List.mem_append_right _ (List.mem_singleton.2 rfl))
      · intro ℓ i j c
        rw [charge_one ℓ rfl]
        simp [moveCost, Move.go]

/-! ### Sakoe-Chiba patterns -/

/-- Weight of a move in the symmetric form. -/
def symWt : Move → ℚ := fun x => ((x.delta.1 + x.delta.2 : Nat) : ℚ)

/-- A rule reads as the block of moves `b`, in the symmetric form. -/
def ReadsAs (r : Rule) (b : List Move) : Prop :=
  (∀ i j, endOf (i, j) b = (i + r.a, j + r.b)) ∧
  (∀ (ℓ : Nat → Nat → ℚ) i j c, charge Arith.exact (fun i j => fin (ℓ i j)) r (i + r.a) (j + r.b) (fin c) =
      fin (c + moveCost symWt ℓ (i, j) b))

macro "reads_as" : tactic => `(tactic| (
  refine ⟨fun i j => ?_, fun ℓ i j c => ?_⟩
  · simp only [endOf, Move.go, Move.delta]
  · simp [charge, Arith.mac, Arith.exact, Arith.add, Arith.mul, Arith.mulWith, moveCost, Move.go, Move.delta, symWt,
      add_assoc] <;> norm_num))

theorem readsAs_D : ReadsAs ⟨1, 1, [⟨0, 0, 2⟩]⟩ [.both] := by reads_as
theorem readsAs_DR : ReadsAs ⟨1, 2, [⟨0, 1, 2⟩, ⟨0, 0, 1⟩]⟩ [.both, .ref] := by reads_as
theorem readsAs_DQ : ReadsAs ⟨2, 1, [⟨1, 0, 2⟩, ⟨0, 0, 1⟩]⟩ [.both, .query] := by reads_as
theorem readsAs_DRR : ReadsAs ⟨1, 3, [⟨0, 2, 2⟩, ⟨0, 1, 1⟩, ⟨0, 0, 1⟩]⟩ [.both, .ref, .ref] := by reads_as
theorem readsAs_DQQ : ReadsAs ⟨3, 1, [⟨2, 0, 2⟩, ⟨1, 0, 1⟩, ⟨0, 0, 1⟩]⟩ [.both, .query, .query] := by reads_as
theorem readsAs_DDR : ReadsAs ⟨2, 3, [⟨1, 2, 2⟩, ⟨0, 1, 2⟩, ⟨0, 0, 1⟩]⟩ [.both, .both, .ref] := by reads_as
theorem readsAs_DDQ : ReadsAs ⟨3, 2, [⟨2, 1, 2⟩, ⟨1, 0, 2⟩, ⟨0, 0, 1⟩]⟩ [.both, .both, .query] := by reads_as

/-! ### The languages of the slope constraints -/

theorem getElem?_lt {α} {l : List α} {k : Nat} {x : α} (h : l[k]? = some x) : k < l.length :=
  (List.getElem?_eq_some_iff.1 h).1

theorem getElem?_app_left {α} {w v : List α} {k : Nat} {x : α} (h : w[k]? = some x) : (w ++ v)[k]? = some x := by
  rw [List.getElem?_append_left (getElem?_lt h)]; exact h

theorem getElem?_app_right {α} {w v : List α} {k : Nat} {x : α} (h : v[k]? = some x) :
    (w ++ v)[w.length + k]? = some x := by
  rw [List.getElem?_append_right (by omega), Nat.add_sub_cancel_left]; exact h

/-- Element `k` of a concatenation comes from either part. -/
theorem getElem?_app_cases {α} {w v : List α} {k : Nat} {x : α} (h : (w ++ v)[k]? = some x) :
    w[k]? = some x ∨ ∃ k', k = w.length + k' ∧ v[k']? = some x := by
  by_cases hk : k < w.length
  · rw [List.getElem?_append_left hk] at h; exact .inl h
  · rw [List.getElem?_append_right (by omega)] at h
    exact .inr ⟨k - w.length, by omega, h⟩

/-- An earlier element of a concatenation, below an index that belongs to the first part. -/
theorem getElem?_app_back {α} {w v : List α} {k k' : Nat} {x : α} (h : (w ++ v)[k']? = some x) (hk : k' ≤ k)
    (hw : k < w.length) : w[k']? = some x := by
  rwa [List.getElem?_append_left (by omega)] at h

theorem last_split {w : List Move} {k : Nat} {x : Move} (h : w[k]? = some x) (hk : w.length = k + 1) :
    ∃ w', w = w' ++ [x] ∧ w'.length = k := by
  rcases List.eq_nil_or_concat w with rfl | ⟨w', y, rfl⟩
  · simp at hk
  · rw [List.concat_eq_append] at *
    have hl : w'.length = k := by simpa using hk
    have : (w' ++ [y])[w'.length + 0]? = some y := getElem?_app_right (by simp)
    rw [Nat.add_zero, hl, h] at this
    exact ⟨w', by rw [Option.some.inj this], hl⟩

theorem SlopeP1.append {w v : List Move} (hw : SlopeP1 w) (hv : SlopeP1 v) : SlopeP1 (w ++ v) := by
  intro k x h hx
  rcases getElem?_app_cases h with h | ⟨k1, rfl, h2⟩
  · obtain ⟨k', e, h'⟩ := hw k x h hx
    exact ⟨k', e, getElem?_app_left h'⟩
  · obtain ⟨k', rfl, h'⟩ := hv k1 x h2 hx
    exact ⟨w.length + k', by omega, getElem?_app_right h'⟩

theorem SlopeP1.left {w v : List Move} (h : SlopeP1 (w ++ v)) : SlopeP1 w := by
  intro k x hk hx
  obtain ⟨k', rfl, h'⟩ := h k x (getElem?_app_left hk) hx
  exact ⟨k', rfl, getElem?_app_back h' (by omega) (getElem?_lt hk)⟩

theorem SlopeP2.append {w v : List Move} (hw : SlopeP2 w) (hv : SlopeP2 v) : SlopeP2 (w ++ v) := by
  intro k x h hx
  rcases getElem?_app_cases h with h | ⟨k1, rfl, h2⟩
  · obtain ⟨k', e, h', h''⟩ := hw k x h hx
    exact ⟨k', e, getElem?_app_left h', getElem?_app_left h''⟩
  · obtain ⟨k', rfl, h', h''⟩ := hv k1 x h2 hx
    exact ⟨w.length + k', by omega, getElem?_app_right h', getElem?_app_right h''⟩

theorem SlopeP2.left {w v : List Move} (h : SlopeP2 (w ++ v)) : SlopeP2 w := by
  intro k x hk hx
  obtain ⟨k', rfl, h', h''⟩ := h k x (getElem?_app_left hk) hx
  exact ⟨k', rfl, getElem?_app_back h' (by omega) (getElem?_lt hk),
    getElem?_app_back h'' (by omega) (getElem?_lt hk)⟩

theorem SlopeP05.append {w v : List Move} (hw : SlopeP05 w) (hv : SlopeP05 v) : SlopeP05 (w ++ v) := by
  intro k x h hx
  rcases getElem?_app_cases h with h | ⟨k1, rfl, h2⟩
  · rcases hw k x h hx with ⟨k', e, h'⟩ | ⟨k', e, h', h''⟩
    · exact .inl ⟨k', e, getElem?_app_left h'⟩
    · exact .inr ⟨k', e, getElem?_app_left h', getElem?_app_left h''⟩
  · rcases hv k1 x h2 hx with ⟨k', rfl, h'⟩ | ⟨k', rfl, h', h''⟩
    · exact .inl ⟨w.length + k', by omega, getElem?_app_right h'⟩
    · exact .inr ⟨w.length + k', by omega, getElem?_app_right h', getElem?_app_right h''⟩

theorem SlopeP05.left {w v : List Move} (h : SlopeP05 (w ++ v)) : SlopeP05 w := by
  intro k x hk hx
  rcases h k x (getElem?_app_left hk) hx with ⟨k', rfl, h'⟩ | ⟨k', rfl, h', h''⟩
  · exact .inl ⟨k', rfl, getElem?_app_back h' (by omega) (getElem?_lt hk)⟩
  · exact .inr ⟨k', rfl, getElem?_app_back h' (by omega) (getElem?_lt hk),
      getElem?_app_back h'' (by omega) (getElem?_lt hk)⟩

theorem slopeP1_blocks : ∀ b ∈ [[Move.both], [.both, .ref], [.both, .query]], SlopeP1 b := by
  intro b hb k x hk hx
  have := getElem?_lt hk
  simp only [List.mem_cons, List.not_mem_nil, or_false] at hb
  rcases hb with rfl | rfl | rfl <;> simp only [List.length_cons, List.length_nil] at this <;>
    rcases k with _ | _ | k <;> first | omega | simp_all

theorem slopeP2_blocks : ∀ b ∈ [[Move.both], [.both, .both, .ref], [.both, .both, .query]], SlopeP2 b := by
  intro b hb k x hk hx
  have := getElem?_lt hk
  simp only [List.mem_cons, List.not_mem_nil, or_false] at hb
  rcases hb with rfl | rfl | rfl <;> simp only [List.length_cons, List.length_nil] at this <;>
    rcases k with _ | _ | _ | k <;> first | omega | simp_all

theorem slopeP05_blocks : ∀ b ∈ [[Move.both], [.both, .ref], [.both, .query], [.both, .ref, .ref],
    [.both, .query, .query]], SlopeP05 b := by
  intro b hb k x hk hx
  have := getElem?_lt hk
  simp only [List.mem_cons, List.not_mem_nil, or_false] at hb
  rcases hb with rfl | rfl | rfl | rfl | rfl <;> simp only [List.length_cons, List.length_nil] at this <;>
    rcases k with _ | _ | _ | k <;> first | omega | simp_all

theorem SlopeP1.split {w : List Move} (h : SlopeP1 w) : w = [] ∨
    ∃ w' b, b ∈ [[Move.both], [.both, .ref], [.both, .query]] ∧ w = w' ++ b ∧ SlopeP1 w' := by
  rcases List.eq_nil_or_concat w with rfl | ⟨w', x, rfl⟩
  · exact .inl rfl
  right
  rw [List.concat_eq_append] at *
  by_cases hx : x = .both
  · exact ⟨w', [x], by simp [hx], rfl, h.left⟩
  · obtain ⟨k', e, h'⟩ := h (w'.length + 0) x (getElem?_app_right (by simp)) hx
    have h' := getElem?_app_back (w := w') (k := k') h' le_rfl (by omega)
    obtain ⟨w2, rfl, _⟩ := last_split h' (by omega)
    refine ⟨w2, [.both, x], ?_, by simp, h.left.left⟩
    cases x <;> simp_all

theorem SlopeP2.split {w : List Move} (h : SlopeP2 w) : w = [] ∨
    ∃ w' b, b ∈ [[Move.both], [.both, .both, .ref], [.both, .both, .query]] ∧ w = w' ++ b ∧ SlopeP2 w' := by
  rcases List.eq_nil_or_concat w with rfl | ⟨w', x, rfl⟩
  · exact .inl rfl
  right
  rw [List.concat_eq_append] at *
  by_cases hx : x = .both
  · exact ⟨w', [x], by simp [hx], rfl, h.left⟩
  · obtain ⟨k', e, h', h''⟩ := h (w'.length + 0) x (getElem?_app_right (by simp)) hx
    have h1 := getElem?_app_back (w := w') (k := k' + 1) h' (by omega) (by omega)
    have h2 := getElem?_app_back (w := w') (k := k' + 1) h'' (by omega) (by omega)
    obtain ⟨w2, rfl, hl⟩ := last_split h2 (by omega)
    have h1 := getElem?_app_back (w := w2) (k := k') h1 (by omega) (by omega)
    obtain ⟨w3, rfl, _⟩ := last_split h1 (by omega)
    refine ⟨w3, [.both, .both, x], ?_, by simp, h.left.left.left⟩
    cases x <;> simp_all

theorem SlopeP05.split {w : List Move} (h : SlopeP05 w) : w = [] ∨
    ∃ w' b, b ∈ [[Move.both], [.both, .ref], [.both, .query], [.both, .ref, .ref], [.both, .query, .query]] ∧
      w = w' ++ b ∧ SlopeP05 w' := by
  rcases List.eq_nil_or_concat w with rfl | ⟨w', x, rfl⟩
  · exact .inl rfl
  right
  rw [List.concat_eq_append] at *
  by_cases hx : x = .both
  · exact ⟨w', [x], by simp [hx], rfl, h.left⟩
  · rcases h (w'.length + 0) x (getElem?_app_right (by simp)) hx with ⟨k', e, h'⟩ | ⟨k', e, h', h''⟩
    · have h' := getElem?_app_back (w := w') (k := k') h' le_rfl (by omega)
      obtain ⟨w2, rfl, _⟩ := last_split h' (by omega)
      refine ⟨w2, [.both, x], ?_, by simp, h.left.left⟩
      cases x <;> simp_all
    · have h1 := getElem?_app_back (w := w') (k := k' + 1) h' (by omega) (by omega)
      have h2 := getElem?_app_back (w := w') (k := k' + 1) h'' (by omega) (by omega)
      obtain ⟨w2, rfl, hl⟩ := last_split h2 (by omega)
      have h1 := getElem?_app_back (w := w2) (k := k') h1 (by omega) (by omega)
      obtain ⟨w3, rfl, _⟩ := last_split h1 (by omega)
      refine ⟨w3, [.both, x, x], ?_, by simp, h.left.left.left⟩
      cases x <;> simp_all

/-- Assembling the three patterns. -/
theorem reads_of_blocks {Lang : List Move → Prop} (bs : List (List Move))
    (hrule : ∀ r ∈ rs, ∃ b ∈ bs, ReadsAs r b) (hblock : ∀ b ∈ bs, b ≠ [] ∧ ∃ r ∈ rs, ReadsAs r b)
    (hL : ∀ b ∈ bs, Lang b) (happ : ∀ w v, Lang w → Lang v → Lang (w ++ v)) (hnil : Lang [])
    (hsplit : ∀ w, Lang w → w = [] ∨ ∃ w' b, b ∈ bs ∧ w = w' ++ b ∧ Lang w') :
    Reads rs (fun _ _ => true) symWt Lang where
  block := by
    intro r hr
    obtain ⟨b, hb, h1, h2⟩ := hrule r hr
    exact ⟨b, h1, h2, fun w hw _ => happ w b hw (hL b hb)⟩
  nil := hnil
  split := by
    intro w hw
    rcases hsplit w hw with rfl | ⟨w', b, hb, rfl, hw'⟩
    · exact .inl rfl
    · obtain ⟨hne, r, hr, h1, h2⟩ := hblock b hb
      exact .inr ⟨r, hr, w', b, rfl, hne, hw', rfl, h1, h2⟩

end DTW
