import Verif.Props.Count
import Verif.Props.Doubles

/-!
# C35: path counting in binary64, and in closed form
-/

namespace DTW
open F64

variable {A : Arith} {rs : List Rule} {W : Nat → Nat → Bool} {n m : Nat} {p : StepPattern} {d : Result}

theorem sum_range_le (N : Nat) (g : Nat → Nat) (b : Nat) (h : ∀ k < N, g k ≤ b) :
    ((List.range N).map g).sum ≤ N * b := by
  induction N with
  | zero => simp
  | succ N ih =>
    rw [List.range_succ, List.map_append, List.sum_append, Nat.succ_mul]
    have := ih fun k hk => h k (by omega)
    have := h N (by omega)
    simp only [List.map_cons, List.map_nil, List.sum_cons, List.sum_nil]
    omega

/-- At most `|rules|^(i+j)` rule sequences reach `(i,j)`. -/
theorem count_le (hp : WF p rs) : ∀ (N i j : Nat), i + j = N → ∀ c, HasCount (fun ks => RulePath rs W ks i j) c →
    c ≤ rs.length ^ (i + j) := by
  obtain ⟨f, h0, h1, h2, h3⟩ := exists_table (W := W) (seed := countSeed false) hp.valid
  have hlen : 0 < rs.length := List.length_pos_iff.2 hp.ne
  have key : ∀ (N i j : Nat), i + j = N → f i j ≤ rs.length ^ (i + j) := by
    intro N
    induction N using Nat.strong_induction_on with
    | _ N ih =>
      intro i j hN
      by_cases hs : countSeed false i j = true
      · rw [h1 i j hs]; exact Nat.one_le_pow _ _ hlen
      · have hs : countSeed false i j = false := by simpa using hs
        by_cases hW : W i j = true
        · rw [h3 i j hs hW]
          have hpos : 0 < i + j := by
            rcases Nat.eq_zero_or_pos (i + j) with h | h
            · obtain ⟨rfl, rfl⟩ : i = 0 ∧ j = 0 := by omega
              simp [countSeed] at hs
            · exact h
          have e : rs.length ^ (i + j) = rs.length * rs.length ^ (i + j - 1) := by
            conv_lhs => rw [show i + j = (i + j - 1) + 1 by omega]
            rw [pow_succ, Nat.mul_comm]
          rw [e]
          apply sum_range_le
          intro k hk
          unfold contrib
          rw [List.getElem?_eq_getElem hk]
          simp only
          split
          · next hc =>
            have hv := (hp.valid _ (List.getElem_mem hk)).1
            refine (ih _ (by omega) (i - rs[k].a) (j - rs[k].b) rfl).trans ?_
            exact Nat.pow_le_pow_right hlen (by omega)
          · exact Nat.zero_le _
        · have hW : W i j = false := by simpa using hW
          rw [h2 i j hs hW]; exact Nat.zero_le _
  intro N i j hN c hc
  rw [hc.unique (count_rulePath hp.valid (h0 i j))]
  exact key N i j hN

/-- **C35**, IEEE doubles.  With the numbers the code actually uses, `countPaths` returns exactly the number of
alignments whenever `|rules|^(n+m-2)` (closed end) or `m` times that (open end) does not exceed `2^53`. -/
theorem C35_double (fma : Bool) (hp : WF p rs) (ht : MarkersSurvive rs) (hd : AboutProblem d n m p W)
    (hob : d.openBegin = false) (hn : 0 < n) (hm : 0 < m) (hsize : m * rs.length ^ (n + m - 2) ≤ 2 ^ 53) :
    ∃ k : Nat, countPaths (binary64 fma) d = .ok (k : Int) ∧
      HasCount (fun x : Nat × List Int => (if d.openEnd then x.1 < m else x.1 = m - 1) ∧
        RulePath rs W x.2 (n - 1) x.1) k := by
  have hlen : 0 < rs.length := List.length_pos_iff.2 hp.ne
  have hle : ∀ i < n, ∀ j < m, ∀ c, HasCount (fun ks => RulePath rs W ks i j) c → c ≤ rs.length ^ (n + m - 2) := by
    intro i hi j hj c hc
    exact (count_le hp _ i j rfl c hc).trans (Nat.pow_le_pow_right hlen (by omega))
  have hB : ∀ i < n, ∀ j < m, ∀ c, HasCount (fun ks => RulePath rs W ks i j) c → c ≤ 2 ^ 53 := by
    intro i hi j hj c hc
    exact ((hle i hi j hj c hc).trans (Nat.le_mul_of_pos_left _ hm)).trans hsize
  cases hoe : d.openEnd with
  | true =>
    obtain ⟨k, h1, h2⟩ := C35_open_end (C50_binary64_integers fma) hp ht hd hob hoe hn hm hB (by
      intro c hc
      obtain ⟨f, h0, _⟩ := exists_table (W := W) (seed := countSeed false) hp.valid
      have hsum : HasCount (fun x : Nat × List Int => x.1 < m ∧ RulePath rs W x.2 (n - 1) x.1)
          (((List.range m).map (f (n - 1))).sum) := hasCount_lastRow fun j _ => count_rulePath hp.valid (h0 (n - 1) j)
      rw [hc.unique hsum]
      refine le_trans (sum_range_le m _ (rs.length ^ (n + m - 2)) ?_) hsize
      intro j hj
      exact hle (n - 1) (by omega) j hj _ (count_rulePath hp.valid (h0 (n - 1) j)))
    exact ⟨k, h1, by simpa using h2⟩
  | false =>
    obtain ⟨k, h1, h2⟩ := C35_closed (C50_binary64_integers fma) hp ht hd hob hoe hn hm hB
    refine ⟨k, h1, ?_⟩
    refine (h2.image (fun ks => (m - 1, ks)) (by intro x y _ _ hxy; exact (Prod.mk.inj hxy).2)).congr ?_
    rintro ⟨j, ks⟩
    simp only [Bool.false_eq_true, if_false, Prod.mk.injEq]
    constructor
    · rintro ⟨ks', h1, rfl, rfl⟩; exact ⟨rfl, h1⟩
    · rintro ⟨rfl, h1⟩; exact ⟨ks, h1, rfl, rfl⟩

/-- The Delannoy numbers: lattice paths with unit steps east, north and north-east. -/
def delannoy : Nat → Nat → Nat
  | 0, _ => 1
  | _ + 1, 0 => 1
  | i + 1, j + 1 => delannoy i (j + 1) + delannoy (i + 1) j + delannoy i j

theorem delannoy_count (p : StepPattern) (hps : p = Pat.symmetric1 ∨ p = Pat.symmetric2) (i j : Nat) :
    HasCount (fun ks => RulePath (rulesOf p) (fun _ _ => true) ks i j) (delannoy i j) := by
  have hwf : WF p (rulesOf p) := by
    rcases hps with rfl | rfl <;> exact wf_of_check (by decide +kernel)
  obtain ⟨f, h0, h1, h2, h3⟩ := exists_table (W := fun _ _ => true) (seed := countSeed false) hwf.valid
  have hrec : ∀ i j, ¬ (i = 0 ∧ j = 0) → f i j = (if 1 ≤ i ∧ 1 ≤ j then f (i - 1) (j - 1) else 0) +
      (if 1 ≤ j then f i (j - 1) else 0) + (if 1 ≤ i then f (i - 1) j else 0) := by
    intro i j hij
    rw [h3 i j (by simpa [countSeed] using hij) rfl]
    rcases hps with rfl | rfl
    · have e : rulesOf Pat.symmetric1 = [⟨1, 1, [⟨0, 0, 1⟩]⟩, ⟨0, 1, [⟨0, 0, 1⟩]⟩, ⟨1, 0, [⟨0, 0, 1⟩]⟩] := by decide +kernel
      rw [e]
      simp [contrib, List.range_succ, Nat.add_assoc]
    · have e : rulesOf Pat.symmetric2 = [⟨1, 1, [⟨0, 0, 2⟩]⟩, ⟨0, 1, [⟨0, 0, 1⟩]⟩, ⟨1, 0, [⟨0, 0, 1⟩]⟩] := by decide +kernel
      rw [e]
      simp [contrib, List.range_succ, Nat.add_assoc]
  have h00 : f 0 0 = 1 := h1 0 0 (by simp [countSeed])
  have key : ∀ N i j, i + j = N → f i j = delannoy i j := by
    intro N
    induction N using Nat.strong_induction_on with
    | _ N ih =>
      intro i j hN
      match i, j with
      | 0, 0 => rw [h00]; simp [delannoy]
      | 0, j + 1 =>
        rw [hrec 0 (j + 1) (by omega)]
        simp only [Nat.add_sub_cancel]
        rw [ih j (by omega) 0 j (by omega)]
        simp [delannoy]
      | i + 1, 0 =>
        rw [hrec (i + 1) 0 (by omega)]
        simp only [Nat.add_sub_cancel]
        rw [ih i (by omega) i 0 (by omega)]
        cases i <;> simp [delannoy]
      | i + 1, j + 1 =>
        rw [hrec (i + 1) (j + 1) (by omega)]
        simp only [Nat.add_sub_cancel]
        rw [ih (i + j) (by omega) i j rfl, ih (i + 1 + j) (by omega) (i + 1) j rfl, ih (i + (j + 1)) (by omega) i (j + 1) rfl]
        simp [delannoy]
        omega
  rw [← key _ i j rfl]
  exact count_rulePath hwf.valid (h0 i j)

/-- **C35**, closed form.  With `symmetric1` or `symmetric2`, no window and closed ends there are Delannoy(n-1, m-1)
alignments, and that is what `countPaths` returns; in binary64 too as long as `m * 3^(n+m-2) ≤ 2^53`. -/
theorem C35_delannoy (hps : p = Pat.symmetric1 ∨ p = Pat.symmetric2) (hd : AboutProblem d n m p (fun _ _ => true))
    (hob : d.openBegin = false) (hoe : d.openEnd = false) (hn : 0 < n) (hm : 0 < m) :
    countPaths Arith.exact d = .ok (delannoy (n - 1) (m - 1) : Int) ∧
    (m * 3 ^ (n + m - 2) ≤ 2 ^ 53 → ∀ fma, countPaths (binary64 fma) d = .ok (delannoy (n - 1) (m - 1) : Int)) := by
  have hwf : WF p (rulesOf p) := by
    rcases hps with rfl | rfl <;> exact wf_of_check (by decide +kernel)
  have hms : MarkersSurvive (rulesOf p) := by
    rcases hps with rfl | rfl <;> decide +kernel
  have hlen : (rulesOf p).length = 3 := by
    rcases hps with rfl | rfl <;> decide +kernel
  have hdel : HasCount (fun x : Nat × List Int => (if d.openEnd then x.1 < m else x.1 = m - 1) ∧
      RulePath (rulesOf p) (fun _ _ => true) x.2 (n - 1) x.1) (delannoy (n - 1) (m - 1)) := by
    refine ((delannoy_count p hps (n - 1) (m - 1)).image (fun ks => (m - 1, ks))
      (by intro x y _ _ hxy; exact (Prod.mk.inj hxy).2)).congr ?_
    rintro ⟨j, ks⟩
    simp only [hoe, Bool.false_eq_true, if_false, Prod.mk.injEq]
    constructor
    · rintro ⟨ks', h1, rfl, rfl⟩; exact ⟨rfl, h1⟩
    · rintro ⟨rfl, h1⟩; exact ⟨ks, h1, rfl, rfl⟩
  constructor
  · obtain ⟨k, hk, hc⟩ := C35_exact hwf hms hd hob hn hm
    rw [hk, hc.unique hdel]
  · intro hsize fma
    obtain ⟨k, hk, hc⟩ := C35_double fma hwf hms hd hob hn hm (by rw [hlen]; exact hsize)
    rw [hk, hc.unique hdel]

end DTW
