import Verif.Proofs.FormatProof
import Verif.Props.Cli
import Verif.Props.Patterns
import Verif.Props.PathShape

/-!
# C44, C48: the texts the package prints, read back
-/

namespace DTW
open F64 Read

variable {A : Arith} {euclid : List F64 → List F64 → F64} {p p' : StepPattern} {rs rs' : List Rule}

/-- The line `g[i-a,j-b] + v1 * d[i-di1,j-dj1] + ...` describes a rule, its weights rounded to two digits. -/
def Describes (q : Rule) (line : List StepPattern.Printed) : Prop :=
  ∃ ts, line = .g q.a q.b :: ts ∧
    List.Forall₂ (fun (t : Term) x => ∃ v, x = StepPattern.Printed.d v t.di t.dj ∧ NearestDecimal 2 t.w v) q.terms ts

/-- The line that describes a rule exactly. -/
def exactLine (q : Rule) : List StepPattern.Printed := .g q.a q.b :: q.terms.map fun t => .d t.w t.di t.dj

/-- Every weight can be written with two digits. -/
def TwoDigitWeights (rs : List Rule) : Prop := ∀ q ∈ rs, ∀ t ∈ q.terms, Digits 2 t.w

theorem nearest_exact {P : Nat} {q v : ℚ} (h : NearestDecimal P q v) (hq : Digits P q) : v = q := by
  have := h.2 q hq
  rw [sub_self, abs_zero] at this
  have h0 := abs_eq_zero.1 (_root_.le_antisymm this (abs_nonneg _))
  linarith

theorem digits_one : Digits 2 1 := ⟨1, 0, by norm_num, by norm_num⟩

/-- What the line of a rule reads as. -/
theorem textTerm_rows (q : Rule) (k : Nat) (hq : q.Valid) : Describes q ((q.rows k).map textTerm) := by
  unfold Rule.rows
  rw [List.map_cons, List.map_map]
  refine ⟨q.terms.map (textTerm ∘ fun t => ⟨(k : Int) + 1, t.di, t.dj, t.w⟩), by simp [textTerm], ?_⟩
  rw [List.forall₂_map_right_iff, List.forall₂_same]
  intro t ht
  have hw := (hq.2 t ht).1
  simp only [Function.comp_apply, textTerm, if_neg hw]
  refine ⟨_, rfl, ?_⟩
  split
  · rename_i h1
    rw [h1]
    exact ⟨digits_one, fun u _ => by simp⟩
  · exact shownVal_nearest (by omega) _

/-- **C44** The text `print(pattern)` shows, read as a recursion equation, describes the rules of the pattern, in order:
the same starting points, the same charged cells, every weight rounded to the nearest two-digit decimal; and the hint. -/
theorem C44_text (h : WF p rs) :
    ∃ t eqn, p.text = .ok t ∧ Read.pattern t = some (eqn, p.hint.toList) ∧ List.Forall₂ Describes rs eqn := by
  have hne : p.mx ≠ [] := by
    obtain ⟨q, rs', hq⟩ := List.exists_cons_of_ne_nil h.ne
    rw [h.rows, hq]
    simp [encode, encodeFrom, Rule.rows]
  have hnn : ∀ s ∈ p.mx, 0 ≤ s.di ∧ 0 ≤ s.dj := by
    rw [h.rows]
    have : ∀ (rs : List Rule) (k : Nat), ∀ s ∈ encodeFrom k rs, 0 ≤ s.di ∧ 0 ≤ s.dj := by
      intro rs
      induction rs with
      | nil => intro k s hs; simp [encodeFrom] at hs
      | cons q rs ih =>
        intro k s hs
        rw [encodeFrom, List.mem_append] at hs
        rcases hs with hs | hs
        · simp only [Rule.rows, List.mem_cons, List.mem_map] at hs
          rcases hs with rfl | ⟨t, _, rfl⟩ <;> simp
        · exact ih _ s hs
    exact this rs 0
  obtain ⟨t, np, h1, h2, h3⟩ := read_pattern hne hnn
  rw [getNPatterns_WF h] at h1
  cases h1
  refine ⟨t, _, h2, h3, ?_⟩
  rw [Int.toNat_natCast, List.forall₂_iff_get]
  refine ⟨by simp, fun k hk hk' => ?_⟩
  simp only [List.get_eq_getElem, List.getElem_map, List.getElem_range, StepPattern.extractPattern]
  rw [h.rows, filter_encode (List.getElem?_eq_getElem hk), List.reverse_reverse]
  exact textTerm_rows _ k (h.valid _ (List.getElem_mem hk))

theorem describes_exact {q : Rule} {line : List StepPattern.Printed} (h : Describes q line)
    (hd : ∀ t ∈ q.terms, Digits 2 t.w) : line = exactLine q := by
  obtain ⟨ts, rfl, hts⟩ := h
  unfold exactLine
  congr 1
  generalize q.terms = terms at hts hd
  induction hts with
  | nil => rfl
  | cons h1 _ ih =>
    obtain ⟨v, rfl, hv⟩ := h1
    rw [List.map_cons, ih (fun t ht => hd t (by simp [ht])), nearest_exact hv (hd _ (by simp))]

/-- **C44** If the weights have at most two significant digits the text is exact: what is printed, read as a recurrence,
is the recurrence that is computed. -/
theorem C44_text_exact (h : WF p rs) (hd : TwoDigitWeights rs) :
    ∃ t, p.text = .ok t ∧ Read.pattern t = some (rs.map exactLine, p.hint.toList) ∧
      ∀ (A : Arith) (L G : Nat → Nat → F64) (i j : Nat),
        (rs.map exactLine).map (readLine A L G i j) = rs.map (cand A L G i j) := by
  obtain ⟨t, eqn, h1, h2, h3⟩ := C44_text h
  have he : eqn = rs.map exactLine := by
    clear h1 h2
    unfold TwoDigitWeights at hd
    clear h
    induction h3 with
    | nil => rfl
    | cons hx _ ih =>
      rw [List.map_cons, ← describes_exact hx (hd _ (by simp)), ih (fun q hq => hd q (by simp [hq]))]
  subst he
  refine ⟨t, h1, h2, ?_⟩
  intro A L G i j
  obtain ⟨body, b1, b2, b3⟩ := C44_printed_equation h
  rw [← b3 A L G i j]
  congr 1
  unfold StepPattern.str at b1
  rw [getNPatterns_WF h, Except_bind_ok] at b1
  simp only [Int.toNat_natCast, Except.ok.injEq, Prod.mk.injEq, and_true] at b1
  rw [← b1]
  apply List.ext_getElem (by simp)
  intro k hk hk'
  have hk2 : k < rs.length := by simpa using hk
  simp only [List.getElem_map, List.getElem_range, StepPattern.extractPattern]
  rw [h.rows, filter_encode (List.getElem?_eq_getElem hk2), List.reverse_reverse]
  have hv := h.valid _ (List.getElem_mem hk2)
  simp only [exactLine, Rule.rows, List.map_cons, if_true, List.map_map, List.cons.injEq, true_and]
  apply List.map_congr_left
  intro t ht
  simp [(hv.2 t ht).1]

theorem exactLine_injective {q q' : Rule} (h : exactLine q = exactLine q') : q = q' := by
  obtain ⟨a, b, ts⟩ := q
  obtain ⟨a', b', ts'⟩ := q'
  simp only [exactLine, List.cons.injEq, StepPattern.Printed.g.injEq, Nat.cast_inj] at h
  obtain ⟨⟨rfl, rfl⟩, h⟩ := h
  congr 1
  induction ts generalizing ts' with
  | nil => cases ts' with
    | nil => rfl
    | cons _ _ => simp at h
  | cons t ts ih =>
    cases ts' with
    | nil => simp at h
    | cons t' ts' =>
      simp only [List.map_cons, List.cons.injEq, StepPattern.Printed.d.injEq, Nat.cast_inj] at h
      obtain ⟨⟨h1, h2, h3⟩, h4⟩ := h
      obtain ⟨x, y, z⟩ := t
      obtain ⟨x', y', z'⟩ := t'
      simp only at h1 h2 h3
      rw [h1, h2, h3, ih ts' h4]

/-- **C44** Two such patterns that print the same text are the same pattern. -/
theorem C44_text_determines (h : WF p rs) (h' : WF p' rs') (hd : TwoDigitWeights rs) (hd' : TwoDigitWeights rs')
    (ht : p.text = p'.text) : p = p' := by
  obtain ⟨t, h1, h2, -⟩ := C44_text_exact h hd
  obtain ⟨t', h1', h2', -⟩ := C44_text_exact h' hd'
  rw [h1, h1'] at ht
  cases ht
  rw [h2] at h2'
  simp only [Option.some.injEq, Prod.mk.injEq, String.toList_inj] at h2'
  obtain ⟨e1, e2⟩ := h2'
  have hrs : rs = rs' := List.map_injective_iff.2 (fun _ _ => exactLine_injective) e1
  obtain ⟨mx, hint⟩ := p
  obtain ⟨mx', hint'⟩ := p'
  have r1 := h.rows
  have r2 := h'.rows
  simp only at r1 r2 e2
  rw [r1, r2, hrs, e2]

/-- The bundled patterns with other weights: thirds, and -1.001. -/
def roundedNames : List String := ["asymmetricP05", "asymmetricP2", "_symmetricVelichkoZagoruyko"]

theorem digits_small {w : ℚ} (h : w ∈ [0, 1, 2, 3, 4, 1 / 2, 3 / 2]) : Digits 2 w := by
  simp only [List.mem_cons, List.not_mem_nil, or_false] at h
  rcases h with rfl | rfl | rfl | rfl | rfl | rfl | rfl
  · exact ⟨0, 0, by norm_num, by norm_num⟩
  · exact ⟨1, 0, by norm_num, by norm_num⟩
  · exact ⟨2, 0, by norm_num, by norm_num⟩
  · exact ⟨3, 0, by norm_num, by norm_num⟩
  · exact ⟨4, 0, by norm_num, by norm_num⟩
  · exact ⟨5, -1, by norm_num, by norm_num⟩
  · exact ⟨15, -1, by norm_num, by norm_num⟩

/-- **C44** All bundled patterns but three, and mvmStepPattern(e) for every e, have two-digit weights, so that their
texts are exact. -/
theorem C44_text_bundled :
    (∀ q ∈ Pat.table, q.1 ∉ roundedNames → WF q.2 (rulesOf q.2) ∧ TwoDigitWeights (rulesOf q.2)) ∧
    (∀ e, 1 ≤ e → WF (mvmStepPattern e) (mvmRules e) ∧ TwoDigitWeights (mvmRules e)) := by
  constructor
  · intro q hq hn
    refine ⟨table_wf q hq, ?_⟩
    have h : ∀ q ∈ Pat.table, q.1 ∉ roundedNames → ∀ r ∈ rulesOf q.2, ∀ t ∈ r.terms,
        t.w ∈ ([0, 1, 2, 3, 4, 1 / 2, 3 / 2] : List ℚ) := by decide +kernel
    exact fun r hr t ht => digits_small (h q hq hn r hr t ht)
  · intro e he
    refine ⟨mvm_wf he, ?_⟩
    intro r hr t ht
    obtain ⟨k, _, rfl⟩ := List.mem_map.1 hr
    rw [List.mem_singleton.1 ht]
    exact digits_one

/-- The weights 1/3 of asymmetricP05 (and 2/3 of asymmetricP2) are not shown exactly: a pattern with 0.33 in their place
prints the same text. -/
def thirds (w : ℚ) : ℚ := if w = 1 / 3 then 33 / 100 else w

/-- **C44** For the three other patterns the text is not exact: a different pattern (0.33 instead of 1/3) prints the same
text as asymmetricP05. -/
theorem C44_text_ambiguous :
    ∃ p', Pat.asymmetricP05 ≠ p' ∧ Pat.asymmetricP05.text = p'.text := by
  refine ⟨⟨Pat.asymmetricP05.mx.map fun s => ⟨s.pid, s.di, s.dj, thirds s.w⟩, Pat.asymmetricP05.hint⟩, ?_, ?_⟩
  · decide +kernel
  · decide +kernel

/-! ### The console script -/

/-- How a number is shown with `P` digits: as the nearest `P`-digit decimal, which is off by at most half a unit of the
last digit; or as a word. -/
def ShowsNumber (P : Nat) (t : Txt) : F64 → Prop
  | fin q => ∃ v, Read.number t = some v ∧ NearestDecimal P q v ∧ |v - q| ≤ |q| / (2 * 10 ^ (P - 1))
  | nan => t = "nan".toList
  | pinf => t = "inf".toList
  | ninf => t = "-inf".toList

/-- How a row of a matrix is shown: all its numbers, or (`short`) the first three, dots, and the last three. -/
def rowWords (short : Prop) [Decidable short] (l : List Nat) : List Tok :=
  if short then (l.take 3).map Tok.num ++ [.dot, .dot, .dot] ++ (l.drop (l.length - 3)).map Tok.num
  else l.map Tok.num

/-- The text shows the two rows `a`, `b`, completely if there are at most 500 columns. -/
def ShowsPath (t : Txt) (a b : List Nat) : Prop :=
  Read.tokens [] t = some ([.opening, .opening] ++ rowWords (500 < a.length) a ++ [.closing, .opening] ++
    rowWords (500 < a.length) b ++ [.closing, .closing])

theorem shows_fmtG {P : Nat} (hP : 1 ≤ P) (x : F64) : ShowsNumber P (fmtG P x) x := by
  cases x with
  | fin q => exact ⟨_, number_fmtG hP q, shownVal_nearest hP q, shownVal_error hP q⟩
  | nan => rfl
  | pinf => rfl
  | ninf => rfl

theorem shows_showPath (a b : List Nat) (ha : a ≠ []) (hl : a.length = b.length) :
    ShowsPath (showPath (a.map fun n : Nat => (n : Int)) (b.map fun n : Nat => (n : Int))) a b := by
  have hb : b ≠ [] := by
    intro h
    rw [h] at hl
    exact ha (List.length_eq_zero_iff.1 hl)
  unfold ShowsPath
  rw [tokens_showPath a b ha hb]
  have e : ∀ l : List Nat, l.length = a.length →
      rowToks (decide (1000 < a.length + b.length)) l = rowWords (500 < a.length) l := by
    intro l hl'
    unfold rowToks rowWords
    by_cases h : 500 < a.length
    · rw [if_pos h, if_pos ⟨by simp; omega, by omega⟩]
    · rw [if_neg h, if_neg (by simp; omega)]
  rw [e a rfl, e b hl.symm]

theorem report_toList (T : Text) (al : Result) (mp : Mapping) :
    (report T al mp).toList = "Normalized distance: ".toList ++ (T.fmt4g al.normalizedDistance).toList ++
      "\n\nDistance: ".toList ++ (T.fmt4g al.distance).toList ++ "\n\nWarping path: ".toList ++
      (T.showPath mp.index1 mp.index2).toList ++ "\n\n".toList := by
  have e1 : "\n\nDistance: " = "\n\n" ++ "Distance: " := by decide +kernel
  have e2 : "\n\nWarping path: " = "\n\n" ++ "Warping path: " := by decide +kernel
  rw [e1, e2]
  unfold report
  simp only [String.toList_append, List.append_assoc]

/-- **C48** What the console script prints, read back: the normalized distance and the distance of the alignment, each
to four significant digits (off by at most 0.05%), and the two rows of the warping path, complete if it has at most 500
points and otherwise only its first three and last three points. -/
theorem C48_output {Q R : List (List F64)} {s : String} {q r : Nd} {n m : Nat} {L : Nat → Nat → F64}
    {out : String} (hq : genfromtxt Q = .ok q) (hr : genfromtxt R = .ok r)
    (hp : Problem (cliCall euclid q r s) n m L (fun _ _ => true) p rs)
    (ho : main2 A pyText euclid Q R s = .ok out) :
    ∃ (al : Result) (mp : Mapping) (i1 i2 : List Nat) (tn td tp : Txt),
      dtw A (cliCall euclid q r s) = .ok al ∧ al.mapping = some mp ∧
      mp.index1 = i1.map (fun k : Nat => (k : Int)) ∧ mp.index2 = i2.map (fun k : Nat => (k : Int)) ∧
      out.toList = "Normalized distance: ".toList ++ tn ++ "\n\nDistance: ".toList ++ td ++
        "\n\nWarping path: ".toList ++ tp ++ "\n\n".toList ∧
      ShowsNumber 4 tn al.normalizedDistance ∧ ShowsNumber 4 td al.distance ∧ ShowsPath tp i1 i2 := by
  obtain ⟨-, -, h3, h4⟩ := C48_reports (A := A) (T := pyText) (euclid := euclid) Q R s
  cases hd : dtw A (cliCall euclid q r s) with
  | error e => rw [h3 q r e hq hr hd] at ho; cases ho
  | ok al =>
    obtain ⟨mp, hmp, hm⟩ := h4 q r al hq hr hd
    rw [ho] at hm
    cases hm
    have h5 := C05_monotone_in_range hp rfl hd hmp
    have h6 := C04_end_points hp rfl hd hmp
    have cast : ∀ (l : List Int) (k : Nat), (∀ x ∈ l, 0 ≤ x ∧ x < k) → l = (l.map Int.toNat).map (fun k : Nat => (k : Int)) := by
      intro l k hl
      rw [List.map_map]
      conv_lhs => rw [← List.map_id l]
      apply List.map_congr_left
      intro x hx
      have := hl x hx
      simp only [id, Function.comp_apply]; omega
    have c1 := cast _ _ h5.2.2.1
    have c2 := cast _ _ h5.2.2.2.1
    have n1 := shows_fmtG (P := 4) (by omega) al.normalizedDistance
    have n2 := shows_fmtG (P := 4) (by omega) al.distance
    refine ⟨al, mp, mp.index1.map Int.toNat, mp.index2.map Int.toNat, fmtG 4 al.normalizedDistance, fmtG 4 al.distance,
      showPath mp.index1 mp.index2, rfl, hmp, c1, c2, ?_, n1, n2, ?_⟩
    · rw [report_toList]
      have f1 : ∀ x, (pyText.fmt4g x).toList = fmtG 4 x := fun x => String.toList_ofList
      have f2 : ∀ a b, (pyText.showPath a b).toList = showPath a b := fun a b => String.toList_ofList
      rw [f1, f1, f2]
    · conv => arg 1; rw [c1, c2]
      apply shows_showPath
      · intro h
        rw [List.map_eq_nil_iff] at h
        rw [h] at h6
        simp at h6
      · simp [h5.1]

/-- A run of the script on two concrete files, with the texts as they are printed. -/
example : main2 Arith.exact pyText CliEx.absd CliEx.Q CliEx.R "symmetric2" =
      .ok "Normalized distance: 0.6\n\nDistance: 3\n\nWarping path: [[0 1 2]\n [0 0 1]]\n\n" := by
  decide +kernel

/-- Numbers as Python shows them with four digits. -/
example : [fin (1 / 3), fin (-5 / 2), fin 12345, fin 0, fin (99999 / 100000), fin (1 / 81000000), pinf].map (fmtG 4) =
    ["0.3333".toList, "-2.5".toList, "1.234e+04".toList, "0".toList, "1".toList, "1.235e-08".toList, "inf".toList] := by
  decide +kernel

/-- The text of symmetric2, as in the documentation. -/
example : Pat.symmetric2.text.toOption.map String.ofList = some
    ("Step pattern recursion:\n g[i,j] = min(\n     g[i-1,j-1] + 2 * d[i  ,j  ] ,\n     g[i  ,j-1] +     d[i  ,j  ] ,\n" ++
      "     g[i-1,j  ] +     d[i  ,j  ] ,\n ) \n\nNormalization hint: N+M\n") := by decide +kernel

end DTW
