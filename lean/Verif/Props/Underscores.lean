import Verif.Props.TextFiles

/-!
# C64: underscores in numbers

Python's `float` allows an underscore between two digits and ignores it.
-/

namespace DTW
open F64 Read

variable {f : Bool}

/-- Every underscore of `w` stands between two digits. -/
def Spaced (w : Txt) : Prop :=
  ∀ a b, w = a ++ '_' :: b → (∃ d ∈ a.getLast?, d.isDigit = true) ∧ ∃ d ∈ b.head?, d.isDigit = true

/-- `w` without its underscores. -/
def plain (w : Txt) : Txt := w.filter fun c => c ≠ '_'

/-- `Spaced`, read from left to right; `p` tells whether the preceding character is a digit. -/
def spacedFrom : Bool → Txt → Bool
  | _, [] => true
  | _, [c] => c != '_'
  | p, c :: d :: t => if c = '_' then p && d.isDigit && spacedFrom true t else spacedFrom c.isDigit (d :: t)

theorem spacedFrom_cons {c : Char} (hc : c ≠ '_') (p : Bool) (t : Txt) : spacedFrom p (c :: t) = spacedFrom c.isDigit t := by
  cases t with
  | nil => simp [spacedFrom, hc]
  | cons d t => simp [spacedFrom, hc]

theorem spacedFrom_digit {d : Char} (hd : d.isDigit = true) (p : Bool) (t : Txt) : spacedFrom p (d :: t) = spacedFrom true t := by
  rw [spacedFrom_cons (by rintro rfl; revert hd; decide), hd]

theorem spacedFrom_iff : ∀ (t : Txt) (p : Bool), spacedFrom p t = true ↔
    ∀ a b, t = a ++ '_' :: b → (if a = [] then p = true else ∃ d ∈ a.getLast?, d.isDigit = true) ∧ ∃ d ∈ b.head?, d.isDigit = true := by
  intro t
  induction t with
  | nil => intro p; simp [spacedFrom]
  | cons c t ih =>
    intro p
    by_cases hc : c = '_'
    · subst hc
      cases t with
      | nil =>
        simp only [spacedFrom]
        constructor
        · intro h; cases h
        · intro h
          obtain ⟨_, d, hd, _⟩ := h [] [] rfl
          cases hd
      | cons d t =>
        have e : spacedFrom p ('_' :: d :: t) = (p && d.isDigit && spacedFrom false (d :: t)) := by
          by_cases hd : d.isDigit = true
          · simp [spacedFrom, spacedFrom_digit hd, hd]
          · simp [spacedFrom, hd]
        rw [e, Bool.and_eq_true, Bool.and_eq_true, ih false]
        constructor
        · rintro ⟨⟨h1, h2⟩, h3⟩ a b hab
          cases a with
          | nil =>
            cases hab
            exact ⟨by simpa using h1, d, rfl, h2⟩
          | cons x a =>
            obtain ⟨h4, h5⟩ := h3 a b (List.cons.inj hab).2
            refine ⟨?_, h5⟩
            by_cases ha : a = []
            · rw [if_pos ha] at h4; cases h4
            · rw [if_neg ha] at h4
              rw [if_neg (by simp), List.getLast?_cons_of_ne_nil ha]
              exact h4
        · intro h
          obtain ⟨h1, d', hd', h2⟩ := h [] (d :: t) rfl
          cases hd'
          refine ⟨⟨by simpa using h1, h2⟩, fun a b hab => ?_⟩
          obtain ⟨h3, h4⟩ := h ('_' :: a) b (by rw [hab]; rfl)
          refine ⟨?_, h4⟩
          by_cases ha : a = []
          · subst ha
            cases hab
            revert h2; decide
          · rw [if_neg (by simp), List.getLast?_cons_of_ne_nil ha] at h3
            rw [if_neg ha]
            exact h3
    · rw [spacedFrom_cons hc, ih]
      constructor
      · intro h a b hab
        cases a with
        | nil => exact absurd (List.cons.inj hab).1 hc
        | cons x a =>
          obtain ⟨rfl, hab'⟩ := List.cons.inj hab
          obtain ⟨h4, h5⟩ := h a b hab'
          refine ⟨?_, h5⟩
          rw [if_neg (by simp)]
          by_cases ha : a = []
          · subst ha
            exact ⟨c, rfl, by simpa using h4⟩
          · rw [if_neg ha] at h4
            rw [List.getLast?_cons_of_ne_nil ha]
            exact h4
      · intro h a b hab
        obtain ⟨h3, h4⟩ := h (c :: a) b (by rw [hab]; rfl)
        refine ⟨?_, h4⟩
        rw [if_neg (by simp)] at h3
        by_cases ha : a = []
        · subst ha
          rw [if_pos rfl]
          obtain ⟨d, hd, h5⟩ := h3
          cases hd
          exact h5
        · rw [List.getLast?_cons_of_ne_nil ha] at h3
          rw [if_neg ha]
          exact h3

theorem spaced_iff (w : Txt) : Spaced w ↔ spacedFrom false w = true := by
  rw [spacedFrom_iff]
  refine forall_congr' fun a => forall_congr' fun b => imp_congr_right fun _ => and_congr_left fun _ => ?_
  cases a <;> simp

theorem plain_cons {c : Char} (hc : c ≠ '_') (t : Txt) : plain (c :: t) = c :: plain t := by simp [plain, hc]

theorem plain_under (t : Txt) : plain ('_' :: t) = plain t := by simp [plain]

theorem not_under {c : Char} (h : c.isDigit = true) : c ≠ '_' := by rintro rfl; revert h; decide

/-- What the digits leave is spaced exactly when the text is. -/
theorem digitRun_spaced : ∀ (p : Bool) (t : Txt), spacedFrom p t = spacedFrom false (digitRun p t).2 ∧
    (spacedFrom p t = true → plain (digitRun p t).2 = afterDigits (plain t) ∧ (digitRun p t).1 = digits (plain t) ∧
      (digitRun p t).2.head? ≠ some '_')
  | _, [] => by simp [digitRun, spacedFrom, plain, digits, afterDigits]
  | p, [c] => by
    by_cases hc : c.isDigit = true
    · have := not_under hc
      simp [digitRun, spacedFrom, plain, digits, afterDigits, hc, this]
    · by_cases hu : c = '_' <;> simp [digitRun, spacedFrom, plain, digits, afterDigits, hc, hu]
  | p, c :: d :: t => by
    by_cases hc : c.isDigit = true
    · have hu := not_under hc
      obtain ⟨h1, h2⟩ := digitRun_spaced true (d :: t)
      have e : digitRun p (c :: d :: t) = (c :: (digitRun true (d :: t)).1, (digitRun true (d :: t)).2) := by
        simp [digitRun, hc]
      rw [spacedFrom_digit hc, e]
      refine ⟨h1, fun hs => ?_⟩
      obtain ⟨h3, h4, h5⟩ := h2 hs
      rw [plain_cons hu]
      refine ⟨?_, ?_, h5⟩
      · rw [h3]; simp [afterDigits, hc]
      · rw [h4]; simp [digits, hc]
    · by_cases hu : c = '_'
      · subst hu
        by_cases hp : p = true ∧ d.isDigit = true
        · obtain ⟨rfl, hd⟩ := hp
          obtain ⟨h1, h2⟩ := digitRun_spaced true t
          have e : digitRun true ('_' :: d :: t) = (d :: (digitRun true t).1, (digitRun true t).2) := by
            simp [digitRun, hd, hc]
          have e2 : spacedFrom true ('_' :: d :: t) = spacedFrom true t := by simp [spacedFrom, hd]
          rw [e, e2]
          refine ⟨h1, fun hs => ?_⟩
          obtain ⟨h3, h4, h5⟩ := h2 hs
          rw [plain_under, plain_cons (not_under hd)]
          refine ⟨?_, ?_, h5⟩
          · rw [h3]; simp [afterDigits, hd]
          · rw [h4]; simp [digits, hd]
        · have e : digitRun p ('_' :: d :: t) = ([], '_' :: d :: t) := by
            simp only [digitRun]
            rw [if_neg hc, if_neg (by tauto)]
          have e2 : ∀ p', (p' = false ∨ p' = p) → spacedFrom p' ('_' :: d :: t) = false := by
            rintro p' (rfl | rfl)
            · simp [spacedFrom]
            · have : (p' && d.isDigit) = false := by
                cases p' <;> cases hd : d.isDigit <;> simp_all
              simp [spacedFrom, this]
          rw [e, e2 p (.inr rfl), e2 false (.inl rfl)]
          exact ⟨rfl, fun h => by cases h⟩
      · have e : digitRun p (c :: d :: t) = ([], c :: d :: t) := by
          simp only [digitRun]
          rw [if_neg hc, if_neg (by tauto)]
        rw [e, spacedFrom_cons hu, spacedFrom_cons hu]
        refine ⟨rfl, fun _ => ?_⟩
        rw [plain_cons hu]
        refine ⟨?_, ?_, by simpa using hu⟩
        · simp [afterDigits, hc]
        · simp [digits, hc]
  termination_by _ t => t.length

theorem plain_no_under (t : Txt) : '_' ∉ plain t := by simp [plain]

theorem digitRun_plain' (b : Bool) (t : Txt) : digitRun b (plain t) = (digits (plain t), afterDigits (plain t)) :=
  digitRun_plain (plain_no_under t) b

theorem expDigits_plain {t : Txt} (h : spacedFrom false t = true) : expDigits (plain t) = expDigits t := by
  obtain ⟨_, h2⟩ := digitRun_spaced false t
  obtain ⟨h3, h4, h5⟩ := h2 h
  have hnil : afterDigits (plain t) = [] ↔ (digitRun false t).2 = [] := by
    rw [← h3]
    constructor
    · intro hp
      cases hr : (digitRun false t).2 with
      | nil => rfl
      | cons c u =>
        rw [hr] at hp h5
        rw [plain_cons (by simpa using h5)] at hp
        cases hp
    · intro hp; rw [hp]; rfl
  unfold expDigits
  rw [digitRun_plain', h4]
  simp only [ne_eq, hnil]

theorem expDigits_spaced {t : Txt} {n : Nat} (h : expDigits t = some n) : spacedFrom false t = true := by
  unfold expDigits at h
  split at h
  · cases h
  · rename_i hn
    simp only [not_or, not_not] at hn
    rw [(digitRun_spaced false t).1, hn.2]; rfl

theorem expRun_spaced {t : Txt} {e : Int} (h : expRun t = some e) : spacedFrom false t = true := by
  unfold expRun at h
  split at h
  · rfl
  · rename_i c t
    split at h
    · rename_i hc
      have hcu : c ≠ '_' := by rcases hc with rfl | rfl <;> decide
      have hcd : c.isDigit = false := by rcases hc with rfl | rfl <;> decide
      rw [spacedFrom_cons hcu, hcd]
      split at h
      · obtain ⟨n, hn, _⟩ := Option.map_eq_some_iff.1 h
        rw [spacedFrom_cons (by decide)]
        exact expDigits_spaced hn
      · obtain ⟨n, hn, _⟩ := Option.map_eq_some_iff.1 h
        rw [spacedFrom_cons (by decide)]
        exact expDigits_spaced hn
      · obtain ⟨n, hn, _⟩ := Option.map_eq_some_iff.1 h
        exact expDigits_spaced hn
    · cases h

theorem expRun_plain {t : Txt} (h : spacedFrom false t = true) (hh : t.head? ≠ some '_') : expRun (plain t) = expRun t := by
  cases t with
  | nil => rfl
  | cons c t =>
    have hu : c ≠ '_' := by simpa using hh
    rw [plain_cons hu]
    by_cases hc : c = 'e' ∨ c = 'E'
    · have hcd : c.isDigit = false := by rcases hc with rfl | rfl <;> decide
      rw [spacedFrom_cons hu, hcd] at h
      simp only [expRun, if_pos hc]
      match t, h with
      | [], _ => rfl
      | '_' :: [], h => cases h
      | '_' :: d :: t, h => simp [spacedFrom] at h
      | '+' :: t, h =>
        rw [spacedFrom_cons (by decide)] at h
        rw [plain_cons (by decide)]
        simp only
        rw [expDigits_plain h]
      | '-' :: t, h =>
        rw [spacedFrom_cons (by decide)] at h
        rw [plain_cons (by decide)]
        simp only
        rw [expDigits_plain h]
      | x :: t, h =>
        by_cases h1 : x = '+'
        · subst h1
          rw [spacedFrom_cons (by decide)] at h
          rw [plain_cons (by decide)]
          simp only
          rw [expDigits_plain h]
        by_cases h2 : x = '-'
        · subst h2
          rw [spacedFrom_cons (by decide)] at h
          rw [plain_cons (by decide)]
          simp only
          rw [expDigits_plain h]
        have hxu : x ≠ '_' := by
          rintro rfl
          cases t <;> simp [spacedFrom] at h
        have := expDigits_plain h
        rw [plain_cons hxu] at this ⊢
        split
        · rename_i hx; exact absurd (List.cons.inj hx).1 h1
        · rename_i hx; exact absurd (List.cons.inj hx).1 h2
        · rw [this]
          split
          · rename_i hx; exact absurd (List.cons.inj hx).1 h1
          · rename_i hx; exact absurd (List.cons.inj hx).1 h2
          · rfl
    · simp only [expRun, if_neg hc]

theorem fracRun_spaced (t : Txt) : spacedFrom false t = spacedFrom false (fracRun t).2 := by
  unfold fracRun
  split
  · rw [spacedFrom_cons (by decide)]
    exact (digitRun_spaced false _).1
  · rfl

theorem fracRun_plain {t : Txt} (h : spacedFrom false t = true) (hh : t.head? ≠ some '_') :
    (fracRun (plain t)).1 = (fracRun t).1 ∧ (fracRun (plain t)).2 = plain (fracRun t).2 ∧ (fracRun t).2.head? ≠ some '_' := by
  by_cases hd : ∃ u, t = '.' :: u
  · obtain ⟨u, rfl⟩ := hd
    rw [spacedFrom_cons (by decide)] at h
    rw [plain_cons (by decide)]
    obtain ⟨h3, h4, h5⟩ := (digitRun_spaced false u).2 h
    show (digitRun false (plain u)).1 = (digitRun false u).1 ∧ (digitRun false (plain u)).2 = plain (digitRun false u).2 ∧ _
    rw [digitRun_plain']
    exact ⟨h4.symm, h3.symm, h5⟩
  · have e : ∀ u : Txt, (¬ ∃ v, u = '.' :: v) → fracRun u = ([], u) := by
      intro u hu
      unfold fracRun
      split
      · exact absurd ⟨_, rfl⟩ hu
      · rfl
    rw [e t hd]
    cases t with
    | nil => exact ⟨rfl, rfl, by simp⟩
    | cons c t =>
      have hu : c ≠ '_' := by simpa using hh
      rw [plain_cons hu, e _ (by rintro ⟨v, hv⟩; exact hd ⟨t, by rw [(List.cons.inj hv).1]⟩)]
      exact ⟨rfl, rfl, hh⟩

theorem floatDigits_spaced {t : Txt} {q : ℚ} (h : floatDigits t = some q) : spacedFrom false t = true := by
  simp only [floatDigits] at h
  split at h
  · cases h
  · obtain ⟨e, he, _⟩ := Option.map_eq_some_iff.1 h
    rw [(digitRun_spaced false t).1, fracRun_spaced]
    exact expRun_spaced he

theorem floatDigits_plain {t : Txt} (h : spacedFrom false t = true) : floatDigits (plain t) = floatDigits t := by
  obtain ⟨h1, h2⟩ := digitRun_spaced false t
  obtain ⟨h3, h4, h5⟩ := h2 h
  rw [h1] at h
  obtain ⟨f1, f2, f3⟩ := fracRun_plain h h5
  rw [fracRun_spaced] at h
  have e := expRun_plain h f3
  simp only [floatDigits, digitRun_plain', ← h3, ← h4, f1, f2, e]

theorem plain_self {t : Txt} (h : '_' ∉ t) : plain t = t := by
  unfold plain
  rw [List.filter_eq_self]
  intro c hc
  have : c ≠ '_' := by rintro rfl; exact h hc
  simpa using this

theorem spacedFrom_none : ∀ {t : Txt}, '_' ∉ t → ∀ p, spacedFrom p t = true
  | [], _, _ => rfl
  | c :: t, h, p => by
    rw [spacedFrom_cons (by rintro rfl; exact h List.mem_cons_self)]
    exact spacedFrom_none (fun hc => h (List.mem_cons_of_mem _ hc)) _

/-- A character of the words inf, infinity and nan. -/
def inSpecial (c : Char) : Bool := c ∈ ['i', 'n', 'f', 't', 'y', 'a']

theorem special_chars {l : Txt} (h : l = ['i', 'n', 'f'] ∨ l = ['i', 'n', 'f', 'i', 'n', 'i', 't', 'y'] ∨ l = ['n', 'a', 'n']) :
    ∀ c ∈ l, inSpecial c = true := by
  rcases h with rfl | rfl | rfl <;> decide

theorem floatUnsigned_of_not {A : Arith} {t : Txt} {c : Char} (hc : c ∈ t) (hs : inSpecial c.toLower = false) :
    floatUnsigned A t = (floatDigits t).map A.rnd := by
  have key : ¬ (t.map Char.toLower = ['i', 'n', 'f'] ∨ t.map Char.toLower = ['i', 'n', 'f', 'i', 'n', 'i', 't', 'y'] ∨
      t.map Char.toLower = ['n', 'a', 'n']) := by
    intro h
    have := special_chars h c.toLower (List.mem_map_of_mem hc)
    rw [hs] at this
    cases this
  simp only [floatUnsigned]
  rw [if_neg (by tauto), if_neg (by tauto)]

theorem digit_lower {c : Char} (h : c.isDigit = true) : inSpecial c.toLower = false := by
  have hv : 48 ≤ c.toNat ∧ c.toNat ≤ 57 := by
    simp only [Char.isDigit, Bool.and_eq_true, decide_eq_true_eq] at h
    exact ⟨h.1, h.2⟩
  have e : Char.ofNat c.toNat = c := Char.ofNat_toNat c
  have key : ∀ n, 48 ≤ n → n ≤ 57 → inSpecial (Char.ofNat n).toLower = false := by decide
  rw [← e]
  exact key c.toNat hv.1 hv.2

theorem spaced_has_digit {t : Txt} (h : Spaced t) (hu : '_' ∈ t) : ∃ d ∈ plain t, d.isDigit = true := by
  obtain ⟨a, b, rfl⟩ := List.append_of_mem hu
  obtain ⟨⟨d, hd, hdd⟩, _⟩ := h a b rfl
  refine ⟨d, ?_, hdd⟩
  unfold plain
  rw [List.mem_filter]
  exact ⟨List.mem_append_left _ (List.mem_of_getLast? hd), by simpa using not_under hdd⟩

theorem floatUnsigned_plain {A : Arith} {t : Txt} (h : Spaced t) : floatUnsigned A (plain t) = floatUnsigned A t := by
  by_cases hu : '_' ∈ t
  · obtain ⟨d, hd, hdd⟩ := spaced_has_digit h hu
    rw [floatUnsigned_of_not hd (digit_lower hdd), floatUnsigned_of_not hu (by decide), floatDigits_plain ((spaced_iff t).1 h)]
  · rw [plain_self hu]

theorem floatUnsigned_spaced {A : Arith} {t : Txt} (h : ¬ Spaced t) : floatUnsigned A t = none := by
  rw [spaced_iff] at h
  have hu : '_' ∈ t := by
    by_contra hu
    exact h (spacedFrom_none hu _)
  rw [floatUnsigned_of_not hu (by decide)]
  cases hd : floatDigits t with
  | none => rfl
  | some q => exact absurd (floatDigits_spaced hd) h

theorem spaced_cons {c : Char} (hc : c = '-' ∨ c = '+') (t : Txt) : Spaced (c :: t) ↔ Spaced t := by
  rw [spaced_iff, spaced_iff]
  rcases hc with rfl | rfl <;> rw [spacedFrom_cons (by decide)] <;> exact Iff.rfl

theorem pyFloat_other {A : Arith} {t : Txt} (h : ∀ c ∈ t.head?, c ≠ '-' ∧ c ≠ '+') : pyFloat A t = floatUnsigned A t := by
  unfold pyFloat
  split
  · exact absurd rfl (h '-' rfl).1
  · exact absurd rfl (h '+' rfl).2
  · rfl

/-- **C64**, underscores.  A word in which every underscore stands between two digits is read as the word without its
underscores; a word with an underscore anywhere else is read as NaN.  (With C64_only_numerals this says how every word is
read.) -/
theorem C64_underscores (w : Txt) :
    (Spaced w → '_' ∉ plain w ∧ field (binary64 f) w = field (binary64 f) (plain w)) ∧
    (¬ Spaced w → field (binary64 f) w = nan) := by
  generalize binary64 f = A
  by_cases h1 : ∃ u, w = '-' :: u
  · obtain ⟨u, rfl⟩ := h1
    rw [spaced_cons (.inl rfl)]
    refine ⟨fun h => ⟨plain_no_under _, ?_⟩, fun h => ?_⟩
    · rw [plain_cons (by decide)]
      show ((floatUnsigned A u).map F64.neg).getD nan = ((floatUnsigned A (plain u)).map F64.neg).getD nan
      rw [floatUnsigned_plain h]
    · show ((floatUnsigned A u).map F64.neg).getD nan = nan
      rw [floatUnsigned_spaced h]; rfl
  by_cases h2 : ∃ u, w = '+' :: u
  · obtain ⟨u, rfl⟩ := h2
    rw [spaced_cons (.inr rfl)]
    refine ⟨fun h => ⟨plain_no_under _, ?_⟩, fun h => ?_⟩
    · rw [plain_cons (by decide)]
      show (floatUnsigned A u).getD nan = (floatUnsigned A (plain u)).getD nan
      rw [floatUnsigned_plain h]
    · show (floatUnsigned A u).getD nan = nan
      rw [floatUnsigned_spaced h]; rfl
  have hh : ∀ c ∈ w.head?, c ≠ '-' ∧ c ≠ '+' := by
    intro c hc
    cases w with
    | nil => cases hc
    | cons d u =>
      cases hc
      exact ⟨by rintro rfl; exact h1 ⟨u, rfl⟩, by rintro rfl; exact h2 ⟨u, rfl⟩⟩
  refine ⟨fun h => ⟨plain_no_under _, ?_⟩, fun h => ?_⟩
  · have hp : ∀ c ∈ (plain w).head?, c ≠ '-' ∧ c ≠ '+' := by
      cases w with
      | nil => intro c hc; cases hc
      | cons d u =>
        have hd : d ≠ '_' := by
          rintro rfl
          obtain ⟨⟨x, hx, _⟩, _⟩ := h [] u rfl
          cases hx
        rw [plain_cons hd]
        exact hh
    unfold field
    rw [pyFloat_other hh, pyFloat_other hp, floatUnsigned_plain h]
  · unfold field
    rw [pyFloat_other hh, floatUnsigned_spaced h]; rfl

/-- `1_000` is 1000, `1__0`, `_1`, `1_` and `1_.5` are not numbers. -/
example : Spaced "1_000".toList ∧ plain "1_000".toList = "1000".toList ∧ ¬ Spaced "1__0".toList ∧ ¬ Spaced "_1".toList ∧
    ¬ Spaced "1_".toList ∧ ¬ Spaced "1_.5".toList := by
  simp only [spaced_iff]
  decide +kernel

end DTW
