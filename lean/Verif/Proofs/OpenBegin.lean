import Verif.Proofs.Core
import Verif.Proofs.OnePer

/-!
# Open-begin runs; facts common to all runs
-/

namespace DTW
open F64

variable {A : Arith} {rs : List Rule} {W : Nat → Nat → Bool} {L : Nat → Nat → F64}
  {a : Args} {n m : Nat} {p : StepPattern} {r : Result}

theorem OpenPath.toPath {j0 : Nat} {ks : List Int} {i j : Nat} {c : F64}
    (h : OpenPath A rs W L j0 ks i j c) : Path A rs W (nullRow L) openSeed 0 j0 ks i j c := by
  induction h with
  | start =>
    have := Path.start (A := A) (rs := rs) (W := W) (L := nullRow L) (S := openSeed) 0 j0 (by simp [openSeed])
    simpa [openSeed] using this
  | step k r _ hr h0 hW ih =>
    exact Path.step k r ih hr hW (by unfold openSeed; rw [if_neg (by omega)])

theorem Path.toOpenPath {i0 j0 : Nat} {ks : List Int} {i j : Nat} {c : F64}
    (h : Path A rs W (nullRow L) openSeed i0 j0 ks i j c) : i0 = 0 ∧ OpenPath A rs W L j0 ks i j c := by
  induction h with
  | start hS =>
    obtain rfl := openSeed_ne_nan hS
    exact ⟨rfl, by simpa [openSeed] using OpenPath.start (A := A) (rs := rs) (W := W) (L := L)⟩
  | @step _ i j _ k r hp hr hW hS ih =>
    refine ⟨ih.1, OpenPath.step k r ih.2 hr ?_ hW⟩
    unfold openSeed at hS
    by_contra hc
    rw [if_pos (by omega)] at hS
    simp at hS

/-- Shape of every successful run. -/
theorem any_ok (h : Problem a n m L W p rs) (hr : dtw A a = .ok r) :
    ∃ q S L' G D qr lm' j mp, 0 < q ∧ Bellman A rs q m W L' S G D ∧
      EndAt A a p.hint n m q G j ∧ (a.openBegin = false → q = n) ∧ (a.openBegin = true → q = n + 1) ∧
      r = mkResult A a p n m q qr lm' G D j mp := by
  cases hob : a.openBegin with
  | false =>
    obtain ⟨G, D, qr, hB, _, hd⟩ := dtw_closed A h hob
    obtain ⟨j, ks, hrun⟩ := closed_ok h hob hB hd hr
    exact ⟨n, _, _, G, D, qr, _, j, _, h.n_pos, hB, hrun.endAt, fun _ => rfl, by simp, hrun.result⟩
  | true =>
    by_cases hh : p.hint = "N"
    · obtain ⟨G, D, qr, hB, _, hd⟩ := dtw_open A h hob hh
      obtain ⟨j, j0, ks, hrun⟩ := open_ok h hob hB hd hr
      exact ⟨n + 1, _, _, G, D, qr, _, j, _, Nat.succ_pos n, hB, hrun.endAt, by simp, fun _ => rfl,
        hrun.result⟩
    · rw [open_bad_hint h hob hh] at hr; simp at hr

/-! ### Translating curves -/

theorem coarse_shift (rs : List Rule) : ∀ (ks : List Int) (i j : Int),
    (coarse rs i j ks).map (fun u => (u.1 - 1, u.2)) = coarse rs (i - 1) j ks := by
  intro ks
  induction ks with
  | nil => intro i j; rfl
  | cons k ks ih =>
    intro i j
    unfold coarse
    cases rs[(k - 1).toNat]? with
    | none => rfl
    | some r =>
      simp only [List.map_cons]
      rw [ih, show i + (r.a : Int) - 1 = i - 1 + r.a by ring]

theorem Rule.fine_shift (r : Rule) (i j : Int) :
    (r.fine i j).map (fun u => (u.1 - 1, u.2)) = r.fine (i - 1) j := by
  unfold Rule.fine
  simp only [List.map_append, List.map_map, List.map_cons, List.map_nil]
  congr 1
  · apply List.map_congr_left
    intro t _
    simp only [Function.comp_apply, Prod.mk.injEq, and_true]
    ring
  · rw [show i + (r.a : Int) - 1 = i - 1 + r.a by ring]

theorem fineTail_shift (rs : List Rule) : ∀ (ks : List Int) (i j : Int),
    (fineTail rs i j ks).map (fun u => (u.1 - 1, u.2)) = fineTail rs (i - 1) j ks := by
  intro ks
  induction ks with
  | nil => intro i j; rfl
  | cons k ks ih =>
    intro i j
    unfold fineTail
    cases rs[(k - 1).toNat]? with
    | none => rfl
    | some r =>
      simp only [List.map_append]
      rw [ih, Rule.fine_shift, show i + (r.a : Int) - 1 = i - 1 + r.a by ring]

/-- The mapping of an open-begin run: the curve drawn from row `-1`, without its first point. -/
theorem dropNull_curve (rs : List Rule) (j0 : Int) (ks : List Int) :
    (curve rs 0 j0 ks).dropNull =
      { index1 := (fineTail rs (-1) j0 ks).map Prod.fst
        index2 := (fineTail rs (-1) j0 ks).map Prod.snd
        index1s := (coarse rs (-1) j0 ks).tail.map Prod.fst
        index2s := (coarse rs (-1) j0 ks).tail.map Prod.snd
        stepsTaken := ks } := by
  have e1 := fineTail_shift rs ks 0 j0
  have e2 := coarse_shift rs ks 0 j0
  simp only [zero_sub] at e1 e2
  rw [← e1, ← e2]
  simp only [Mapping.dropNull, curve, fine, List.map_cons, List.tail_cons, List.map_map,
    ← List.map_tail, Function.comp_def]

theorem OpenPath.fineTail_range {i0 : Int} {j0 : Nat} {ks : List Int} {i j : Nat} {c : F64} (hv : ∀ r ∈ rs, r.Valid)
    (hpos : ∀ r ∈ rs, ∀ t ∈ r.terms, 0 < r.a → t.di < r.a)
    (h : OpenPath A rs W L j0 ks i j c) (hi0 : i0 = (-1 : Int)) :
    ∀ u ∈ fineTail rs i0 j0 ks, (0 : Int) ≤ u.1 ∧ u.1 ≤ (i : Int) - 1 ∧ (j0 : Int) ≤ u.2 ∧ u.2 ≤ j := by
  subst hi0
  induction h with
  | start => intro u hu; simp [fineTail] at hu
  | @step ks i j c k r hp hr h0 hW ih =>
    have hw := hp.toPath.toWalk
    have hs : fineTail rs (-1) j0 (ks ++ [(k : Int) + 1]) =
        fineTail rs (-1) j0 ks ++ r.fine ((i : Int) - 1) j := by
      have := hw.fine_snoc hr
      unfold fine at this
      simp only [List.cons_append, List.cons.injEq, true_and] at this
      have h2 := congrArg (List.map fun u : Int × Int => (u.1 - 1, u.2)) this
      rw [List.map_append, fineTail_shift, fineTail_shift, Rule.fine_shift] at h2
      simpa using h2
    have hle := hw.le_coords
    have hrm := List.mem_of_getElem? hr
    intro u hu
    rw [hs, List.mem_append] at hu
    rcases hu with hu | hu
    · have := ih u hu; push_cast; omega
    · have hR := Rule.fine_range (hv r hrm) hu
      have hlow : (0 : Int) ≤ u.1 := by
        by_cases hi : i = 0
        · subst hi
          unfold Rule.fine at hu
          rw [List.mem_append, List.mem_singleton, List.mem_map] at hu
          rcases hu with ⟨t, ht, rfl⟩ | rfl
          · have := hpos r hrm t (List.mem_filter.1 ht).1 (by omega)
            simp only; omega
          · simp only; omega
        · omega
      push_cast; omega

end DTW
