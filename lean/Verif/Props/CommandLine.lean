import Verif.Props.Cli

/-!
# C48: every command line
-/

namespace DTW
open F64

variable {A : Arith} {T : Text} {euclid : List F64 → List F64 → F64}

/-! ### A small specification of command lines -/

/-- A negative number, `-12`, `-.5` or `-0.5`. -/
def NegativeNumber (s : String) : Prop :=
  ∃ ds : List Char, (∀ c ∈ ds, isDigit10 c = true) ∧
    ((s.toList = '-' :: ds ∧ ds ≠ []) ∨
      ∃ fs : List Char, (∀ c ∈ fs, isDigit10 c = true) ∧ fs ≠ [] ∧ s.toList = '-' :: (ds ++ '.' :: fs))

/-- A word that cannot be taken for an option: it does not begin with a dash, or is a dash, or a negative number. -/
def PlainWord (s : String) : Prop := s.toList.head? ≠ some '-' ∨ s = "-" ∨ NegativeNumber s

/-- A piece of a command line. -/
inductive Item where
  /-- a file name -/
  | file (s : String)
  /-- the option `--step_pattern`, cut to `k` characters, and its value in the next word -/
  | two (k : Nat) (v : String)
  /-- the option and its value in one word -/
  | one (k : Nat) (v : String)

namespace Item

/-- The words. -/
def words : Item → List String
  | file s => [s]
  | two k v => [String.ofList (stepFlag k), v]
  | one k v => [String.ofList (stepFlag k) ++ "=" ++ v]

/-- File names and separate values are plain words; the option may be cut to any length from `--s` on. -/
def OK : Item → Prop
  | file s => PlainWord s
  | two k v => 3 ≤ k ∧ k ≤ 14 ∧ PlainWord v
  | one k _ => 3 ≤ k ∧ k ≤ 14

/-- The file names, in order. -/
def names : List Item → List String
  | [] => []
  | file s :: is => s :: names is
  | _ :: is => names is

/-- The step pattern asked for: the last one given. -/
def pattern (d : String) : List Item → String
  | [] => d
  | file _ :: is => pattern d is
  | two _ v :: is => pattern v is
  | one _ v :: is => pattern v is

/-- What the scanner sees. -/
def toks : Item → List ArgTok
  | file s => [.pos s]
  | two _ v => [.opt .stepPattern none, .pos v]
  | one _ v => [.opt .stepPattern (some v)]

end Item

/-! ### Scanning -/

theorem classify_plain {s : String} (h : PlainWord s) : classify s = some (.pos s) ∧ s ≠ "--" := by
  rcases h with h | rfl | ⟨ds, hd, h⟩
  · exact ⟨classify_word h, word_ne h⟩
  · exact ⟨by decide +kernel, by decide +kernel⟩
  · obtain ⟨d, t, hs, hdig, hnum⟩ : ∃ d t, s.toList = '-' :: d :: t ∧ (isDigit10 d = true ∨ d = '.') ∧
        unsignedNumber (d :: t) = true := by
      have hall : ∀ l : List Char, (∀ c ∈ l, isDigit10 c = true) → l ≠ [] → digits1 l = true := by
        intro l h1 h2
        unfold digits1
        simp only [Bool.and_eq_true, Bool.not_eq_eq_eq_not, Bool.not_true, List.isEmpty_eq_false_iff, List.all_eq_true]
        exact ⟨h2, h1⟩
      rcases h with ⟨h1, h2⟩ | ⟨fs, hf, hne, h1⟩
      · cases ds with
        | nil => exact absurd rfl h2
        | cons d t =>
          refine ⟨d, t, h1, .inl (hd d (List.mem_cons_self ..)), ?_⟩
          unfold unsignedNumber
          rw [hall _ hd (by simp)]
          rfl
      · have hu : unsignedNumber (ds ++ '.' :: fs) = true := by
          unfold unsignedNumber
          have h0 : isDigit10 '.' = false := by decide
          rw [List.dropWhile_append_of_pos hd]
          simp only [List.dropWhile_cons, h0, Bool.false_eq_true, if_false, hall _ hf hne, Bool.or_true]
        cases ds with
        | nil => exact ⟨'.', fs, h1, .inr rfl, hu⟩
        | cons d t => exact ⟨d, t ++ '.' :: fs, h1, .inl (hd d (List.mem_cons_self ..)), hu⟩
    have hne1 : d ≠ '-' := by
      rintro rfl
      revert hdig
      decide
    have hne2 : d ≠ 'h' := by
      rintro rfl
      revert hdig
      decide
    have hk : ∀ o ∈ optionStrings, ∃ c u, o.1 = '-' :: c :: u ∧ (c = '-' ∨ c = 'h') := by
      intro o ho
      simp only [optionStrings, longOptions, List.mem_cons, List.not_mem_nil, or_false] at ho
      rcases ho with rfl | rfl | rfl | rfl
      · exact ⟨'h', [], by decide +kernel, .inr rfl⟩
      · exact ⟨'-', "help".toList, by decide +kernel, .inl rfl⟩
      · exact ⟨'-', "version".toList, by decide +kernel, .inl rfl⟩
      · exact ⟨'-', "step_pattern".toList, by decide +kernel, .inl rfl⟩
    have hno : ∀ u, optionStrings.lookup ('-' :: d :: u) = none := by
      intro u
      rw [List.lookup_eq_none_iff]
      intro o ho
      simp only [ne_eq, bne_iff_ne]
      intro h
      obtain ⟨c, w, e, hc⟩ := hk o ho
      rw [e] at h
      simp only [List.cons.injEq] at h
      rcases hc with rfl | rfl
      · exact hne1 h.2.1
      · exact hne2 h.2.1
    have hne3 : d ≠ '=' := by
      rintro rfl
      revert hdig
      decide
    have hcut : ∃ u v, cutEq ('-' :: d :: t) = ('-' :: d :: u, v) := by
      unfold cutEq
      simp only [List.takeWhile_cons, hne3, ne_eq, not_false_eq_true, decide_true, if_true]
      exact ⟨_, _, rfl⟩
    obtain ⟨u, v, hcut⟩ := hcut
    constructor
    · unfold classify
      rw [hs]
      simp only [ne_eq, not_true_eq_false, if_false, hno, hcut, hne1, hne2, hnum, Bool.true_or, if_true]
    · rintro rfl
      have : ("--" : String).toList = ['-', '-'] := by decide +kernel
      rw [this] at hs
      simp only [List.cons.injEq, true_and] at hs
      exact hne1 hs.1.symm

theorem flag_ne {k : Nat} (h3 : 3 ≤ k) (h14 : k ≤ 14) : String.ofList (stepFlag k) ≠ "--" := by
  have : ∀ k ∈ List.range 15, 3 ≤ k → String.ofList (stepFlag k) ≠ "--" := by decide +kernel
  exact this k (by simp; omega) h3

theorem joined_ne (w v : String) : w ++ "=" ++ v ≠ "--" := by
  intro h
  have h1 := congrArg String.toList h
  have h2 : '=' ∈ (w ++ "=" ++ v).toList := by simp
  rw [h1] at h2
  revert h2
  decide +kernel

theorem argTokens_items : ∀ (is : List Item) (rest : List String), (∀ i ∈ is, i.OK) →
    argTokens (is.flatMap Item.words ++ rest) = (argTokens rest).map (is.flatMap Item.toks ++ ·) := by
  intro is
  induction is with
  | nil => intro rest _; simp
  | cons i is ih =>
    intro rest h
    have ih := ih rest fun k hk => h k (List.mem_cons_of_mem _ hk)
    have hi := h i (List.mem_cons_self ..)
    simp only [List.flatMap_cons, List.append_assoc]
    cases i with
    | file s =>
      obtain ⟨h1, h2⟩ := classify_plain hi
      simp only [Item.words, Item.toks, List.cons_append, List.nil_append, argTokens, h1, h2, if_false, ih, Option.map_map]
      rfl
    | two k v =>
      obtain ⟨h3, h14, hv⟩ := hi
      obtain ⟨h1, h2⟩ := classify_plain hv
      simp only [Item.words, Item.toks, List.cons_append, List.nil_append, argTokens, h1, h2, classify_flag h3 h14,
        flag_ne h3 h14, if_false, ih, Option.map_map]
      rfl
    | one k v =>
      obtain ⟨h3, h14⟩ := hi
      simp only [Item.words, Item.toks, List.cons_append, List.nil_append, argTokens, classify_joined h3 h14, joined_ne,
        if_false, ih, Option.map_map]
      rfl

theorem scan_items : ∀ (is : List Item) (ts : List ArgTok) (s : Scan), s.names.length ≤ 2 → ∃ b,
    scan (is.flatMap Item.toks ++ ts) s = scan ts
      { names := (s.names ++ Item.names is).take 2
        stepPattern := Item.pattern s.stepPattern is
        extra := s.extra || decide (2 < s.names.length + (Item.names is).length)
        last := b } := by
  intro is
  induction is with
  | nil =>
    intro ts s hs
    refine ⟨s.last, ?_⟩
    simp only [List.flatMap_nil, List.nil_append, Item.names, Item.pattern, List.append_nil, List.take_of_length_le hs,
      List.length_nil, Nat.add_zero, not_lt.2 hs, decide_false, Bool.or_false]
  | cons i is ih =>
    intro ts s hs
    cases i with
    | file w =>
      simp only [List.flatMap_cons, Item.toks, List.cons_append, List.nil_append, scan, Item.names, Item.pattern,
        List.length_cons]
      by_cases hl : s.names.length < 2
      · rw [if_pos hl]
        obtain ⟨b, hb⟩ := ih ts { s with names := s.names ++ [w], last := true } (by simp; omega)
        refine ⟨b, ?_⟩
        rw [hb]
        simp only [List.append_assoc, List.cons_append, List.nil_append, List.length_append, List.length_cons,
          List.length_nil, Nat.zero_add]
        congr 3
        congr 2
        omega
      · rw [if_neg hl]
        obtain ⟨b, hb⟩ := ih ts { s with extra := true, last := false } hs
        refine ⟨b, ?_⟩
        rw [hb]
        have h2 : s.names.length = 2 := by omega
        simp only [h2, Bool.true_or, List.take_append_of_le_length (le_of_eq h2.symm)]
        rw [show decide (2 < 2 + ((Item.names is).length + 1)) = true by simp, Bool.or_true]
    | two k v =>
      simp only [List.flatMap_cons, Item.toks, List.cons_append, List.nil_append, scan, Item.names, Item.pattern]
      exact ih ts { s with stepPattern := v, last := false } hs
    | one k v =>
      simp only [List.flatMap_cons, Item.toks, List.cons_append, List.nil_append, scan, Item.names, Item.pattern]
      exact ih ts { s with stepPattern := v, last := false } hs

/-! ### Theorems -/

/-- What the script does with the given file names and step pattern: it needs exactly two names. -/
def runNames (A : Arith) (T : Text) (euclid : List F64 → List F64 → F64) (files : String → Except Err (List (List F64)))
    (names : List String) (s : String) : Exit :=
  match names with
  | [q, r] => cliRun A T euclid files q r s
  | _ => .code 2

theorem scan_end (l : List String) (s : String) (e : Bool) (b : Bool) :
    scan [] { names := l.take 2, stepPattern := s, extra := e || decide (2 < l.length), last := b } =
      match l with
      | [q, r] => if e then .usage else .run ⟨q, r, s⟩
      | _ => .usage := by
  match l with
  | [] => rfl
  | [_] => rfl
  | [q, r] => simp [scan]
  | a :: b :: c :: t => simp [scan]

theorem main_parsed {files : String → Except Err (List (List F64))} {argv : List String} (hne : argv ≠ []) {l : List String}
    {s : String} (h : parseArgs argv = match l with
      | [q, r] => .run ⟨q, r, s⟩
      | _ => .usage) : main A T euclid files argv = runNames A T euclid files l s := by
  match l with
  | [q, r] => exact main_of_parse hne h
  | [] => simp [main, hne, h, runNames]
  | [_] => simp [main, hne, h, runNames]
  | _ :: _ :: _ :: _ => simp [main, hne, h, runNames]

/-- **C48, every command line made of file names and step-pattern options.**  In any order and number, the option abbreviated
or not, its value in the same or the next word: with exactly two file names the script does what it does with these two
and the last step pattern given (symmetric2 if none is); otherwise it ends with exit code 2 (code 1 without any word). -/
theorem C48_any_order (files : String → Except Err (List (List F64))) (is : List Item) (h : ∀ i ∈ is, i.OK) :
    main A T euclid files (is.flatMap Item.words) =
      if is = [] then .code 1 else runNames A T euclid files (Item.names is) (Item.pattern "symmetric2" is) := by
  by_cases hnil : is = []
  · rw [if_pos hnil, hnil]
    rfl
  · rw [if_neg hnil]
    apply main_parsed
    · cases is with
      | nil => exact absurd rfl hnil
      | cons i is => cases i <;> simp [Item.words]
    · unfold parseArgs
      have := argTokens_items is [] h
      rw [List.append_nil] at this
      rw [this]
      simp only [argTokens, Option.map_some, List.append_nil]
      obtain ⟨b, hb⟩ := scan_items is [] {} (by simp)
      rw [List.append_nil] at hb
      rw [hb]
      simp only [List.nil_append, Bool.false_or, List.length_nil, Nat.zero_add]
      have := scan_end (Item.names is) (Item.pattern "symmetric2" is) false b
      simp only [Bool.false_or, Bool.false_eq_true, if_false] at this
      exact this

/-- **C48, the separator.**  Words after `--` are file names whatever they look like. -/
theorem C48_separator (files : String → Except Err (List (List F64))) (is : List Item) (h : ∀ i ∈ is, i.OK)
    (ws : List String) (hws : ws ≠ []) :
    main A T euclid files (is.flatMap Item.words ++ "--" :: ws) =
      runNames A T euclid files (Item.names is ++ ws) (Item.pattern "symmetric2" is) := by
  apply main_parsed
  · simp
  · unfold parseArgs
    rw [argTokens_items is _ h]
    simp only [argTokens, if_true, Option.map_some]
    obtain ⟨b, hb⟩ := scan_items is (.dashes :: ws.map .pos) {} (by simp)
    rw [hb]
    simp only [List.nil_append, Bool.false_or, List.length_nil, Nat.zero_add, scan]
    have hn : ∀ l : List String, Item.names (l.map .file) = l := by
      intro l
      induction l with
      | nil => rfl
      | cons w l ih => simp [Item.names, ih]
    have hp : ∀ (d : String) (l : List String), Item.pattern d (l.map .file) = d := by
      intro d l
      induction l with
      | nil => rfl
      | cons w l ih => simp [Item.pattern, ih]
    have ht : ∀ l : List String, (l.map Item.file).flatMap Item.toks = l.map ArgTok.pos := by
      intro l
      induction l with
      | nil => rfl
      | cons w l ih => simp [Item.toks, ih]
    have hemp : (ws.map ArgTok.pos).isEmpty = false := by cases ws <;> simp_all
    simp only [hemp, Bool.not_false, Bool.and_true]
    generalize hx : (decide (2 < (Item.names is).length) || !(b || decide (((Item.names is).take 2).length < 2))) = x
    obtain ⟨b', hb'⟩ := scan_items (ws.map .file) [] (Scan.mk ((Item.names is).take 2) (Item.pattern "symmetric2" is) x false)
      (by simp)
    rw [List.append_nil, ht, hn, hp] at hb'
    rw [hb']
    generalize Item.names is = l at *
    obtain ⟨w, ws', rfl⟩ : ∃ w ws', ws = w :: ws' := by
      cases ws with
      | nil => exact absurd rfl hws
      | cons w ws' => exact ⟨w, ws', rfl⟩
    match l, ws' with
    | [], [] => simp [scan]
    | [], [v] =>
      simp only [List.take_nil, List.length_nil] at hx
      simp at hx
      subst hx
      simp [scan]
    | [], _ :: _ :: _ => simp [scan]
    | [q], [] =>
      simp at hx
      subst hx
      simp [scan]
    | [q], _ :: _ =>
      simp [scan]
      try (intros; omega)
    | [q, r], _ => simp [scan]
    | _ :: _ :: _ :: _, _ => simp [scan]

/-- No word that has to be classified is an abbreviation of all options at once. -/
def Unambiguous : List String → Prop
  | [] => True
  | w :: ws => w = "--" ∨ ((¬ ['-', '-', '='] <+: w.toList) ∧ Unambiguous ws)

theorem classify_some {p : String} (h1 : p ≠ "--") (h2 : ¬ ['-', '-', '='] <+: p.toList) : ∃ t, classify p = some t := by
  unfold classify
  cases hp : p.toList with
  | nil => exact ⟨_, rfl⟩
  | cons c t =>
    simp only
    by_cases hc : c = '-'
    swap
    · rw [if_pos hc]
      exact ⟨_, rfl⟩
    subst hc
    rw [if_neg (by simp)]
    cases optionStrings.lookup ('-' :: t) with
    | some act => exact ⟨_, rfl⟩
    | none =>
      simp only
      cases t with
      | nil => exact ⟨_, rfl⟩
      | cons d rest =>
        simp only
        by_cases hd : d = '-'
        swap
        · simp only [hd, if_false]
          split
          · exact ⟨_, rfl⟩
          · split
            · exact ⟨_, rfl⟩
            · exact ⟨_, rfl⟩
        subst hd
        split
        · exact ⟨_, rfl⟩
        · rw [if_pos rfl]
          obtain ⟨c', u, rfl, hne⟩ : ∃ c' u, rest = c' :: u ∧ c' ≠ '=' := by
            cases rest with
            | nil =>
              exfalso
              apply h1
              apply String.toList_inj.1
              rw [hp]
              decide +kernel
            | cons c' u =>
              refine ⟨c', u, rfl, ?_⟩
              rintro rfl
              exact h2 ⟨u, by rw [hp]; rfl⟩
          obtain ⟨w, hw⟩ : ∃ w, (cutEq ('-' :: '-' :: c' :: u)).1 = '-' :: '-' :: c' :: w := by
            unfold cutEq
            simp only [List.takeWhile_cons, hne, ne_eq, not_false_eq_true, decide_true, if_true]
            exact ⟨_, rfl⟩
          rw [hw]
          have hl1 : "--help".toList = '-' :: '-' :: 'h' :: "elp".toList := by decide +kernel
          have hl2 : "--version".toList = '-' :: '-' :: 'v' :: "ersion".toList := by decide +kernel
          have hl3 : "--step_pattern".toList = '-' :: '-' :: 's' :: "tep_pattern".toList := by decide +kernel
          have e1 : ∀ x l, ('-' :: '-' :: c' :: w).isPrefixOf ('-' :: '-' :: x :: l) = true → c' = x := by
            intro x l h
            simp only [List.isPrefixOf_cons_cons, Bool.and_eq_true, beq_iff_eq] at h
            exact h.2.2.1
          have k1 := e1 'h' "elp".toList
          have k2 := e1 'v' "ersion".toList
          have k3 := e1 's' "tep_pattern".toList
          simp only [longOptions, hl1, hl2, hl3, List.filter_cons, List.filter_nil]
          generalize ('-' :: '-' :: c' :: w).isPrefixOf ('-' :: '-' :: 'h' :: "elp".toList) = b1 at *
          generalize ('-' :: '-' :: c' :: w).isPrefixOf ('-' :: '-' :: 'v' :: "ersion".toList) = b2 at *
          generalize ('-' :: '-' :: c' :: w).isPrefixOf ('-' :: '-' :: 's' :: "tep_pattern".toList) = b3 at *
          cases b1 with
          | true =>
            obtain rfl := k1 rfl
            cases b2 with
            | true => exact absurd (k2 rfl) (by decide)
            | false =>
              cases b3 with
              | true => exact absurd (k3 rfl) (by decide)
              | false => exact ⟨_, rfl⟩
          | false =>
            cases b2 with
            | true =>
              obtain rfl := k2 rfl
              cases b3 with
              | true => exact absurd (k3 rfl) (by decide)
              | false => exact ⟨_, rfl⟩
            | false =>
              cases b3 with
              | true => exact ⟨_, rfl⟩
              | false => exact ⟨_, rfl⟩

theorem tokens_some : ∀ ws : List String, Unambiguous ws → ∃ ts, argTokens ws = some ts := by
  intro ws
  induction ws with
  | nil => intro _; exact ⟨[], rfl⟩
  | cons w ws ih =>
    intro h
    unfold argTokens
    by_cases hw : w = "--"
    · rw [if_pos hw]
      exact ⟨_, rfl⟩
    · rcases h with h | ⟨h1, h2⟩
      · exact absurd h hw
      · obtain ⟨t, ht⟩ := classify_some hw h1
        obtain ⟨ts, hts⟩ := ih h2
        rw [if_neg hw, ht, hts]
        exact ⟨_, rfl⟩

/-- The ways of asking for the version. -/
def VersionFlag (s : String) : Prop := ∃ k, 3 ≤ k ∧ k ≤ 9 ∧ s = String.ofList ("--version".toList.take k)

/-- The ways of asking for help. -/
def HelpFlag (s : String) : Prop := s = "-h" ∨ ∃ k, 3 ≤ k ∧ k ≤ 6 ∧ s = String.ofList ("--help".toList.take k)

theorem classify_version {s : String} (h : VersionFlag s) : classify s = some (.opt .version none) ∧ s ≠ "--" := by
  obtain ⟨k, h3, h9, rfl⟩ := h
  have : ∀ k ∈ List.range 10, 3 ≤ k → classify (String.ofList ("--version".toList.take k)) = some (.opt .version none) ∧
      String.ofList ("--version".toList.take k) ≠ "--" := by decide +kernel
  exact this k (by simp; omega) h3

theorem classify_help {s : String} (h : HelpFlag s) : classify s = some (.opt .help none) ∧ s ≠ "--" := by
  rcases h with rfl | ⟨k, h3, h9, rfl⟩
  · exact ⟨by decide +kernel, by decide +kernel⟩
  · have : ∀ k ∈ List.range 7, 3 ≤ k → classify (String.ofList ("--help".toList.take k)) = some (.opt .help none) ∧
      String.ofList ("--help".toList.take k) ≠ "--" := by decide +kernel
    exact this k (by simp; omega) h3

/-- **C48, version and help.**  When the first option that is not a step pattern asks for the version, the script prints
"DTW package version 1.7.4" and opens no file, whatever stands before or after it (wrong number of names, unknown options);
when it asks for help, the script ends with exit code 0.  (The later words must not contain the ambiguous `--=...`.) -/
theorem C48_version_help (files : String → Except Err (List (List F64))) (is : List Item) (h : ∀ i ∈ is, i.OK)
    (f : String) (rest : List String) (hu : Unambiguous rest) :
    (VersionFlag f → main A T euclid files (is.flatMap Item.words ++ f :: rest) =
      .printed "DTW package version 1.7.4\n") ∧
    (HelpFlag f → main A T euclid files (is.flatMap Item.words ++ f :: rest) = .code 0) := by
  obtain ⟨ts, hts⟩ := tokens_some rest hu
  constructor
  · intro hf
    obtain ⟨h1, h2⟩ := classify_version hf
    unfold main parseArgs
    rw [if_neg (by simp), argTokens_items is _ h]
    simp only [argTokens, h2, if_false, h1, hts, Option.map_some]
    obtain ⟨b, hb⟩ := scan_items is (.opt .version none :: ts) {} (by simp)
    rw [hb]
    simp only [scan]
    rfl
  · intro hf
    obtain ⟨h1, h2⟩ := classify_help hf
    unfold main parseArgs
    rw [if_neg (by simp), argTokens_items is _ h]
    simp only [argTokens, h2, if_false, h1, hts, Option.map_some]
    obtain ⟨b, hb⟩ := scan_items is (.opt .help none :: ts) {} (by simp)
    rw [hb]
    simp only [scan]

/-- A left-over word makes a usage error, unless help or version is asked for. -/
theorem scan_extra : ∀ (N : Nat) (ts : List ArgTok) (s : Scan), ts.length ≤ N → s.extra = true →
    (∀ t ∈ ts, (∀ v, t ≠ .opt .help v) ∧ (∀ v, t ≠ .opt .version v) ∧ ∀ l, t ≠ .cluster l) → scan ts s = .usage := by
  intro N
  induction N with
  | zero =>
    intro ts s hN hs _
    have : ts = [] := List.length_eq_zero_iff.1 (by omega)
    subst this
    unfold scan
    split
    · rw [if_pos hs]
    · rfl
  | succ N ih =>
    intro ts s hN hs ht
    cases ts with
    | nil =>
      unfold scan
      split
      · rw [if_pos hs]
      · rfl
    | cons t ts =>
      simp only [List.length_cons] at hN
      have ht' : ∀ u ∈ ts, (∀ v, u ≠ .opt .help v) ∧ (∀ v, u ≠ .opt .version v) ∧ ∀ l, u ≠ .cluster l :=
        fun u hu => ht u (List.mem_cons_of_mem _ hu)
      obtain ⟨n1, n2, n3⟩ := ht t (List.mem_cons_self ..)
      cases t with
      | pos w =>
        unfold scan
        split
        · exact ih ts _ (by omega) hs ht'
        · exact ih ts _ (by omega) rfl ht'
      | opt act v =>
        cases act with
        | help => exact absurd rfl (n1 v)
        | version => exact absurd rfl (n2 v)
        | stepPattern =>
          cases v with
          | some v =>
            unfold scan
            exact ih ts { s with stepPattern := v, last := false } (by omega) hs ht'
          | none =>
            cases ts with
            | nil => rfl
            | cons u ts =>
              cases u with
              | pos w =>
                unfold scan
                simp only [List.length_cons] at hN
                exact ih ts { s with stepPattern := w, last := false } (by omega) hs
                  fun u hu => ht' u (List.mem_cons_of_mem _ hu)
              | opt _ _ => rfl
              | cluster _ => rfl
              | unknown => rfl
              | dashes => rfl
      | cluster l => exact absurd rfl (n3 l)
      | unknown =>
        unfold scan
        exact ih ts _ (by omega) rfl ht'
      | dashes =>
        unfold scan
        refine ih ts _ (by omega) ?_ ht'
        simp only [hs, Bool.true_or]

/-- A word that looks like an option but is none: a dash and a character other than `h` (and no number), or two dashes and a
letter none of the options begins with, followed by anything without a space. -/
def UnknownOption (s : String) : Prop :=
  ∃ c t, ' ' ∉ t ∧
    ((s = String.ofList ('-' :: c :: t) ∧ c ∉ ['-', 'h', ' ', '.', '='] ∧ ¬ ('0' ≤ c ∧ c ≤ '9')) ∨
     (s = String.ofList ('-' :: '-' :: c :: t) ∧ c ∉ ['h', 'v', 's', '=', ' ']))

theorem unknown_option (c : Char) (t : List Char) (ht : ' ' ∉ t) :
    (c ≠ '-' → c ≠ 'h' → c ≠ ' ' → c ≠ '.' → c ≠ '=' → isDigit10 c = false →
      classify (String.ofList ('-' :: c :: t)) = some .unknown) ∧
    (c ≠ 'h' → c ≠ 'v' → c ≠ 's' → c ≠ '=' → c ≠ ' ' → classify (String.ofList ('-' :: '-' :: c :: t)) = some .unknown) := by
  have hcut : ∀ (d : Char) (u : List Char), d ≠ '=' → ∃ w v, cutEq ('-' :: d :: u) = ('-' :: d :: w, v) := by
    intro d u hd
    unfold cutEq
    simp only [List.takeWhile_cons, hd, ne_eq, not_false_eq_true, decide_true, if_true]
    exact ⟨_, _, rfl⟩
  have hcut2 : ∀ (d : Char) (u : List Char), d ≠ '=' → ∃ w v, cutEq ('-' :: '-' :: d :: u) = ('-' :: '-' :: d :: w, v) := by
    intro d u hd
    unfold cutEq
    simp only [List.takeWhile_cons, hd, ne_eq, not_false_eq_true, decide_true, if_true]
    exact ⟨_, _, rfl⟩
  have hl1 : "--help".toList = '-' :: '-' :: 'h' :: "elp".toList := by decide +kernel
  have hl2 : "--version".toList = '-' :: '-' :: 'v' :: "ersion".toList := by decide +kernel
  have hl3 : "--step_pattern".toList = '-' :: '-' :: 's' :: "tep_pattern".toList := by decide +kernel
  have hl0 : "-h".toList = ['-', 'h'] := by decide +kernel
  have lk : ∀ l : List Char, optionStrings.lookup l = none ↔ l ≠ ['-', 'h'] ∧ l ≠ '-' :: '-' :: 'h' :: "elp".toList ∧
      l ≠ '-' :: '-' :: 'v' :: "ersion".toList ∧ l ≠ '-' :: '-' :: 's' :: "tep_pattern".toList := by
    intro l
    rw [List.lookup_eq_none_iff]
    simp only [optionStrings, longOptions, hl0, hl1, hl2, hl3, List.mem_cons, List.not_mem_nil, or_false, ne_eq, bne_iff_ne,
      forall_eq_or_imp, forall_eq]
  constructor
  · intro h1 h2 h3 h4 h5 h6
    unfold classify
    rw [String.toList_ofList]
    obtain ⟨w, v, hc⟩ := hcut c t h5
    have n1 : ∀ u, optionStrings.lookup ('-' :: c :: u) = none := by
      intro u
      rw [lk]
      simp only [ne_eq, List.cons.injEq, h1, h2, false_and, and_false, not_false_eq_true, and_self]
    simp only [ne_eq, not_true_eq_false, if_false, n1, hc, h1, h2]
    have hn : unsignedNumber (c :: t) = false := by
      unfold unsignedNumber digits1
      simp only [List.isEmpty_cons, Bool.not_false, List.all_cons, h6, Bool.false_and, Bool.and_false, Bool.false_or,
        List.dropWhile_cons, Bool.false_eq_true, if_false]
      split
      · rename_i f hf
        simp only [List.cons.injEq] at hf
        exact absurd hf.1 h4
      · rfl
    have hsp : List.elem ' ' ('-' :: c :: t) = false := by
      rw [Bool.eq_false_iff, ne_eq, List.elem_iff]
      simp only [List.mem_cons, not_or]
      exact ⟨by decide, fun h => h3 h.symm, ht⟩
    simp only [hn, hsp, Bool.or_false, Bool.false_eq_true, if_false]
  · intro h1 h2 h3 h4 h5
    unfold classify
    rw [String.toList_ofList]
    obtain ⟨w, v, hc⟩ := hcut2 c t h4
    have n1 : ∀ u, optionStrings.lookup ('-' :: '-' :: c :: u) = none := by
      intro u
      rw [lk]
      simp only [ne_eq, List.cons.injEq, h1, h2, h3, false_and, and_false, not_false_eq_true, and_self, reduceCtorEq]
    have hf : longOptions.filter (fun o => ('-' :: '-' :: c :: w).isPrefixOf o.1) = [] := by
      have e1 : ∀ x l, c ≠ x → ('-' :: '-' :: c :: w).isPrefixOf ('-' :: '-' :: x :: l) = false := by
        intro x l h
        simp only [List.isPrefixOf_cons_cons, beq_self_eq_true, Bool.true_and, Bool.and_eq_false_iff, beq_eq_false_iff_ne, ne_eq]
        exact .inl h
      simp only [longOptions, hl1, hl2, hl3, List.filter_cons, List.filter_nil, e1 _ _ h1, e1 _ _ h2, e1 _ _ h3,
        Bool.false_eq_true, if_false]
    simp only [ne_eq, not_true_eq_false, if_false, if_true, n1, hc, hf]
    have hsp : List.elem ' ' ('-' :: '-' :: c :: t) = false := by
      rw [Bool.eq_false_iff, ne_eq, List.elem_iff]
      simp only [List.mem_cons, not_or]
      exact ⟨by decide, by decide, fun h => h5 h.symm, ht⟩
    simp only [hsp, Bool.false_eq_true, if_false]

theorem UnknownOption.classify {w : String} (hw : UnknownOption w) : classify w = some .unknown := by
  obtain ⟨c, t, ht, ⟨rfl, h, hd⟩ | ⟨rfl, h⟩⟩ := hw
  · simp only [List.mem_cons, List.not_mem_nil, or_false, not_or] at h
    refine (unknown_option c t ht).1 h.1 h.2.1 h.2.2.1 h.2.2.2.1 h.2.2.2.2 ?_
    unfold isDigit10
    exact decide_eq_false hd
  · simp only [List.mem_cons, List.not_mem_nil, or_false, not_or] at h
    exact (unknown_option c t ht).2 h.1 h.2.1 h.2.2.1 h.2.2.2.1 h.2.2.2.2

/-- **C48, unknown options.**  A word that looks like an option but is none makes the script end with exit code 2, wherever
it stands among file names and step-pattern options, and no file is opened. -/
theorem C48_unknown_option (files : String → Except Err (List (List F64))) (is is' : List Item) (h : ∀ i ∈ is, i.OK)
    (h' : ∀ i ∈ is', i.OK) {w : String} (hu : UnknownOption w) :
    main A T euclid files (is.flatMap Item.words ++ w :: is'.flatMap Item.words) = .code 2 := by
  have hw := hu.classify
  have hne : w ≠ "--" := by
    rintro rfl
    revert hw
    decide +kernel
  have ht := argTokens_items is' [] h'
  rw [List.append_nil] at ht
  unfold main parseArgs
  rw [if_neg (by simp), argTokens_items is _ h]
  simp only [argTokens, hne, if_false, hw, ht, Option.map_some, List.append_nil]
  obtain ⟨b, hb⟩ := scan_items is (.unknown :: is'.flatMap Item.toks) {} (by simp)
  rw [hb]
  simp only [scan]
  rw [scan_extra _ _ _ le_rfl rfl]
  intro t htm
  obtain ⟨i, _, hi⟩ := List.mem_flatMap.1 htm
  cases i <;> simp only [Item.toks, List.mem_cons, List.not_mem_nil, or_false] at hi
  · subst hi; simp
  · rcases hi with rfl | rfl <;> simp
  · subst hi; simp

/-- **C48, the ambiguous abbreviation** `--=...`: exit code 2 before anything else is looked at, even after `--version`. -/
theorem C48_ambiguous (files : String → Except Err (List (List F64))) (ws rest : List String) (hws : "--" ∉ ws) (v : String) :
    main A T euclid files (ws ++ ("--=" ++ v) :: rest) = .code 2 := by
  have hc : classify ("--=" ++ v) = none := by
    have e : ("--=" ++ v).toList = '-' :: '-' :: '=' :: v.toList := by simp
    have hl1 : "--help".toList = '-' :: '-' :: 'h' :: "elp".toList := by decide +kernel
    have hl2 : "--version".toList = '-' :: '-' :: 'v' :: "ersion".toList := by decide +kernel
    have hl3 : "--step_pattern".toList = '-' :: '-' :: 's' :: "tep_pattern".toList := by decide +kernel
    have hl0 : "-h".toList = ['-', 'h'] := by decide +kernel
    have hcut : cutEq ('-' :: '-' :: '=' :: v.toList) = (['-', '-'], some v.toList) :=
      cutEq_joined (l := ['-', '-']) (by decide)
    have lk : optionStrings.lookup ('-' :: '-' :: '=' :: v.toList) = none := by
      rw [List.lookup_eq_none_iff]
      simp only [optionStrings, longOptions, hl0, hl1, hl2, hl3, List.mem_cons, List.not_mem_nil, or_false, ne_eq, bne_iff_ne,
        forall_eq_or_imp, forall_eq]
      simp
    have lk2 : optionStrings.lookup ['-', '-'] = none := by decide +kernel
    have hf : longOptions.filter (fun o => ['-', '-'].isPrefixOf o.1) = longOptions := by decide +kernel
    unfold classify
    rw [e]
    simp only [ne_eq, not_true_eq_false, if_false, if_true, lk, hcut, lk2, hf]
    rfl
  have hn : "--=" ++ v ≠ "--" := by
    intro h
    have h1 := congrArg String.toList h
    simp at h1
  have ht : ∀ ws : List String, "--" ∉ ws → argTokens (ws ++ ("--=" ++ v) :: rest) = none := by
    intro ws
    induction ws with
    | nil => intro _; simp only [List.nil_append, argTokens, hn, if_false, hc]
    | cons w ws ih =>
      intro h
      simp only [List.mem_cons, not_or] at h
      simp only [List.cons_append, argTokens, Ne.symm h.1, if_false, ih h.2]
      cases classify w <;> rfl
  unfold main parseArgs
  rw [if_neg (by simp), ht ws hws]

/-- What may stand where the value of an option is expected without being taken for it. -/
def OptionWord (w : String) : Prop :=
  w = "--" ∨ VersionFlag w ∨ HelpFlag w ∨ UnknownOption w ∨ ∃ k, 3 ≤ k ∧ k ≤ 14 ∧ w = String.ofList (stepFlag k)

/-- **C48, missing values.**  A step-pattern option that is the last word, or is followed by another option or by `--`, ends
the script with exit code 2. -/
theorem C48_missing_value (files : String → Except Err (List (List F64))) (is : List Item) (h : ∀ i ∈ is, i.OK) {k : Nat}
    (h3 : 3 ≤ k) (h14 : k ≤ 14) (rest : List String) (hu : Unambiguous rest) (hr : ∀ w ∈ rest.head?, OptionWord w) :
    main A T euclid files (is.flatMap Item.words ++ String.ofList (stepFlag k) :: rest) = .code 2 := by
  obtain ⟨ts, hts⟩ := tokens_some rest hu
  have hc := classify_flag h3 h14
  have hne : String.ofList (stepFlag k) ≠ "--" := by
    intro e
    rw [e] at hc
    revert hc
    decide +kernel
  unfold main parseArgs
  rw [if_neg (by simp), argTokens_items is _ h]
  simp only [argTokens, hne, if_false, hc, hts, Option.map_some]
  obtain ⟨b, hb⟩ := scan_items is (.opt .stepPattern none :: ts) {} (by simp)
  rw [hb]
  have hh : ∀ v, ts.head? ≠ some (.pos v) := by
    intro v
    cases rest with
    | nil =>
      simp only [argTokens, Option.some.injEq] at hts
      subst hts
      simp
    | cons w ws =>
      have hw := hr w (by simp)
      by_cases hd : w = "--"
      · simp only [argTokens, hd, if_true, Option.some.injEq] at hts
        subst hts
        simp
      · have : ∃ t, classify w = some t ∧ ∀ v, t ≠ .pos v := by
          rcases hw with hw | hw | hw | hw | ⟨k, h3, h14, rfl⟩
          · exact absurd hw hd
          · exact ⟨_, (classify_version hw).1, by simp⟩
          · exact ⟨_, (classify_help hw).1, by simp⟩
          · exact ⟨_, hw.classify, by simp⟩
          · exact ⟨_, classify_flag h3 h14, by simp⟩
        obtain ⟨t, ht, hp⟩ := this
        simp only [argTokens, hd, if_false, ht] at hts
        cases hr' : argTokens ws with
        | none => simp [hr'] at hts
        | some us =>
          simp only [hr', Option.map_some, Option.some.injEq] at hts
          subst hts
          simp only [List.head?_cons, ne_eq, Option.some.injEq]
          exact hp v
  cases ts with
  | nil => rfl
  | cons t ts =>
    cases t with
    | pos v => exact absurd rfl (hh v)
    | opt _ _ => rfl
    | cluster _ => rfl
    | unknown => rfl
    | dashes => rfl

/-- **C48, values where none is taken**: `--version=x`, `--help=x`, `-h=x` end the script with exit code 2. -/
theorem C48_superfluous_value (files : String → Except Err (List (List F64))) (is : List Item) (h : ∀ i ∈ is, i.OK)
    {f : String} (hf : VersionFlag f ∨ HelpFlag f) (v : String) (rest : List String) :
    main A T euclid files (is.flatMap Item.words ++ (f ++ "=" ++ v) :: rest) = .code 2 := by
  have key : ∀ l : List Char, '=' ∉ l → l.head? = some '-' → 2 ≤ l.length →
      (∃ act, act ≠ .stepPattern ∧ (optionStrings.lookup l = some act ∨
        (optionStrings.lookup l = none ∧ (l.drop 1).head? = some '-' ∧
          ∃ o, o.2 = act ∧ longOptions.filter (fun o => l.isPrefixOf o.1) = [o]))) →
      ∃ act, act ≠ .stepPattern ∧ classify (String.ofList l ++ "=" ++ v) = some (.opt act (some v)) := by
    rintro l hl h1 h2 ⟨act, hact, hlk⟩
    refine ⟨act, hact, ?_⟩
    obtain ⟨d, t, rfl⟩ : ∃ d t, l = '-' :: d :: t := by
      match l, h1, h2 with
      | [_], _, h2 => simp at h2
      | c :: d :: t, h1, _ => simp at h1; subst h1; exact ⟨d, t, rfl⟩
    have e : (String.ofList ('-' :: d :: t) ++ "=" ++ v).toList = '-' :: d :: (t ++ '=' :: v.toList) := by simp
    have hcut : cutEq ('-' :: d :: (t ++ '=' :: v.toList)) = ('-' :: d :: t, some v.toList) :=
      cutEq_joined (l := '-' :: d :: t) hl
    have lk : optionStrings.lookup ('-' :: d :: (t ++ '=' :: v.toList)) = none := by
      rw [List.lookup_eq_none_iff]
      intro p hp
      simp only [bne_iff_ne, ne_eq]
      intro e
      have : ∀ p ∈ optionStrings, '=' ∉ p.1 := by decide +kernel
      apply this p hp
      rw [← e]
      simp
    unfold classify
    rw [e]
    simp only [ne_eq, not_true_eq_false, if_false, lk, hcut]
    rcases hlk with hlk | ⟨hlk, hd, o, ho, hfil⟩
    · simp only [hlk, String.ofList_toList]
    · simp only [List.drop_succ_cons, List.drop_zero, List.head?_cons, Option.some.injEq] at hd
      subst hd
      simp only [hlk, if_true, hfil, ho, Option.map_some, String.ofList_toList]
  obtain ⟨act, hact, hc⟩ : ∃ act, act ≠ .stepPattern ∧ classify (f ++ "=" ++ v) = some (.opt act (some v)) := by
    have step : ∀ k ∈ List.range 10, 3 ≤ k → '=' ∉ "--version".toList.take k ∧ ("--version".toList.take k).head? = some '-' ∧
        2 ≤ ("--version".toList.take k).length ∧ (optionStrings.lookup ("--version".toList.take k) = some .version ∨
        (optionStrings.lookup ("--version".toList.take k) = none ∧ (("--version".toList.take k).drop 1).head? = some '-' ∧
          longOptions.filter (fun o => ("--version".toList.take k).isPrefixOf o.1) = [("--version".toList, .version)])) := by
      decide +kernel
    have step' : ∀ k ∈ List.range 7, 3 ≤ k → '=' ∉ "--help".toList.take k ∧ ("--help".toList.take k).head? = some '-' ∧
        2 ≤ ("--help".toList.take k).length ∧ (optionStrings.lookup ("--help".toList.take k) = some .help ∨
        (optionStrings.lookup ("--help".toList.take k) = none ∧ (("--help".toList.take k).drop 1).head? = some '-' ∧
          longOptions.filter (fun o => ("--help".toList.take k).isPrefixOf o.1) = [("--help".toList, .help)])) := by
      decide +kernel
    rcases hf with ⟨k, h3, h9, rfl⟩ | rfl | ⟨k, h3, h6, rfl⟩
    · obtain ⟨a, b, c, d⟩ := step k (by simp; omega) h3
      refine key _ a b c ⟨.version, by simp, d.imp_right fun ⟨x, y, z⟩ => ⟨x, y, _, rfl, z⟩⟩
    · have := key ['-', 'h'] (by decide) rfl (by decide) ⟨.help, by simp, .inl (by decide +kernel)⟩
      exact this
    · obtain ⟨a, b, c, d⟩ := step' k (by simp; omega) h3
      refine key _ a b c ⟨.help, by simp, d.imp_right fun ⟨x, y, z⟩ => ⟨x, y, _, rfl, z⟩⟩
  have hne : f ++ "=" ++ v ≠ "--" := by
    intro e
    rw [e] at hc
    have : ∀ w, classify "--" ≠ some (.opt act (some w)) := by
      have : classify "--" = none := by decide +kernel
      rw [this]
      simp
    exact this v hc
  unfold main parseArgs
  rw [if_neg (by simp), argTokens_items is _ h]
  simp only [argTokens, hne, if_false, hc]
  cases argTokens rest with
  | none => rfl
  | some ts =>
    simp only [Option.map_some]
    obtain ⟨b, hb⟩ := scan_items is (.opt act (some v) :: ts) {} (by simp)
    rw [hb]
    cases act with
    | help => rfl
    | version => rfl
    | stepPattern => exact absurd rfl hact

/-- **C48, `-h` with letters attached** (`-hh`, `-hx`): help. -/
theorem C48_help_cluster (files : String → Except Err (List (List F64))) (is : List Item) (h : ∀ i ∈ is, i.OK) (n : Nat)
    (t : List Char) (ht : ∀ c ∈ t.head?, c ∉ ['-', '=', 'h']) (rest : List String) (hu : Unambiguous rest) :
    main A T euclid files (is.flatMap Item.words ++ String.ofList ('-' :: 'h' :: (List.replicate n 'h' ++ t)) :: rest) =
      .code 0 := by
  obtain ⟨ts, hts⟩ := tokens_some rest hu
  have hcl : ∀ n, cluster (List.replicate n 'h' ++ t) = .help := by
    intro n
    induction n with
    | zero =>
      cases t with
      | nil => rfl
      | cons c t =>
        have := ht c (by simp)
        simp only [List.mem_cons, List.not_mem_nil, or_false, not_or] at this
        rw [List.replicate_zero, List.nil_append]
        unfold cluster
        rw [if_neg this.1, if_neg this.2.2]
    | succ n ih =>
      rw [List.replicate_succ, List.cons_append]
      unfold cluster
      simp only [show 'h' ≠ '-' by decide, if_false, if_true]
      generalize hl : List.replicate n 'h' ++ t = l at ih ⊢
      cases l with
      | nil => rfl
      | cons c l =>
        have : c ≠ '=' := by
          rintro rfl
          cases n with
          | zero =>
            rw [List.replicate_zero, List.nil_append] at hl
            subst hl
            exact absurd (ht '=' (by simp)) (by decide)
          | succ n =>
            rw [List.replicate_succ, List.cons_append, List.cons.injEq] at hl
            exact absurd hl.1 (by decide)
        split
        · simp_all
        · rename_i heq
          simp only [List.cons.injEq] at heq
          exact absurd heq.1 this
        · exact ih
  have hc : ∃ tk, classify (String.ofList ('-' :: 'h' :: (List.replicate n 'h' ++ t))) = some tk ∧
      ∀ (ts : List ArgTok) (s : Scan), scan (tk :: ts) s = .help := by
    by_cases hnil : List.replicate n 'h' ++ t = []
    · rw [hnil]
      exact ⟨.opt .help none, by decide +kernel, fun _ _ => rfl⟩
    · refine ⟨.cluster (List.replicate n 'h' ++ t), ?_, fun _ _ => hcl n⟩
      obtain ⟨c, u, e, hce⟩ : ∃ c u, List.replicate n 'h' ++ t = c :: u ∧ c ≠ '=' := by
        cases n with
        | zero =>
          rw [List.replicate_zero, List.nil_append] at hnil ⊢
          cases t with
          | nil => exact absurd rfl hnil
          | cons c t =>
            have := ht c (by simp)
            simp only [List.mem_cons, List.not_mem_nil, or_false, not_or] at this
            exact ⟨c, t, rfl, this.2.1⟩
        | succ n => exact ⟨'h', _, rfl, by decide⟩
      rw [e]
      have lk : ∀ u, optionStrings.lookup ('-' :: 'h' :: c :: u) = none := by
        intro u
        rw [List.lookup_eq_none_iff]
        have hl1 : "--help".toList = '-' :: '-' :: 'h' :: "elp".toList := by decide +kernel
        have hl2 : "--version".toList = '-' :: '-' :: 'v' :: "ersion".toList := by decide +kernel
        have hl3 : "--step_pattern".toList = '-' :: '-' :: 's' :: "tep_pattern".toList := by decide +kernel
        have hl0 : "-h".toList = ['-', 'h'] := by decide +kernel
        simp only [optionStrings, longOptions, hl0, hl1, hl2, hl3, List.mem_cons, List.not_mem_nil, or_false, ne_eq, bne_iff_ne,
          forall_eq_or_imp, forall_eq]
        simp
      unfold classify
      rw [String.toList_ofList]
      have hcut : ∃ w v, cutEq ('-' :: 'h' :: c :: u) = ('-' :: 'h' :: c :: w, v) := by
        unfold cutEq
        simp only [List.takeWhile_cons, hce, ne_eq, not_false_eq_true, decide_true, if_true]
        exact ⟨_, _, rfl⟩
      obtain ⟨w, v, hcut⟩ := hcut
      simp only [ne_eq, not_true_eq_false, if_false, lk, hcut, show 'h' ≠ '-' by decide, if_true]
  obtain ⟨tk, hc, hs⟩ := hc
  have hne : String.ofList ('-' :: 'h' :: (List.replicate n 'h' ++ t)) ≠ "--" := by
    intro e
    have := congrArg String.toList e
    rw [String.toList_ofList] at this
    have h2 : "--".toList = ['-', '-'] := by decide +kernel
    rw [h2] at this
    simp at this
  unfold main parseArgs
  rw [if_neg (by simp), argTokens_items is _ h]
  simp only [argTokens, hne, if_false, hc, hts, Option.map_some]
  obtain ⟨b, hb⟩ := scan_items is (tk :: ts) {} (by simp)
  rw [hb, hs]

/-! ### The hypotheses are met -/

/-- `a.tsv --step asymmetric -1 --s=symmetric1`, `--v` after a stray name, `-x`. -/
example : (∀ i ∈ [Item.file "a.tsv", .two 6 "asymmetric", .file "-1", .one 3 "symmetric1"], i.OK) ∧
    [Item.file "a.tsv", .two 6 "asymmetric", .file "-1", .one 3 "symmetric1"].flatMap Item.words =
      ["a.tsv", "--step", "asymmetric", "-1", "--s=symmetric1"] ∧
    Item.names [Item.file "a.tsv", .two 6 "asymmetric", .file "-1", .one 3 "symmetric1"] = ["a.tsv", "-1"] ∧
    Item.pattern "symmetric2" [Item.file "a.tsv", .two 6 "asymmetric", .file "-1", .one 3 "symmetric1"] = "symmetric1" ∧
    VersionFlag "--v" ∧ HelpFlag "--he" ∧ UnknownOption "--window" ∧ UnknownOption "-x" ∧ Unambiguous ["b.tsv", "--", "--=x"] := by
  refine ⟨?_, by decide +kernel, by decide +kernel, by decide +kernel, ⟨3, by decide, by decide, by decide +kernel⟩,
    .inr ⟨4, by decide, by decide, by decide +kernel⟩, ⟨'w', "indow".toList, by decide +kernel, .inr ⟨by decide +kernel, by decide⟩⟩,
    ⟨'x', [], by decide, .inl ⟨by decide +kernel, by decide, by decide +kernel⟩⟩, .inr ⟨by decide +kernel, .inl rfl⟩⟩
  intro i hi
  simp only [List.mem_cons, List.not_mem_nil, or_false] at hi
  rcases hi with rfl | rfl | rfl | rfl
  · exact .inl (by decide +kernel)
  · exact ⟨by decide, by decide, .inl (by decide +kernel)⟩
  · exact .inr (.inr ⟨['1'], by decide, .inl ⟨by decide +kernel, by simp⟩⟩)
  · exact ⟨by decide, by decide⟩

end DTW
