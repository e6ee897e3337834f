/-!
# argparse, as far as the console script uses it

`dtw/__main__.py:31-45` builds an `argparse.ArgumentParser` with two positional arguments, `--version`, `--step_pattern` and
the automatic `-h`/`--help`, and parses `sys.argv[1:]`.  Transcribed from CPython 3.11's `argparse.py`
(`_parse_known_args`, `_parse_optional`, `_get_option_tuples`, `consume_optional`, `consume_positionals`) for this parser.

SIMPLIFICATIONS: digits are ASCII digits; a file that is itself called `--` and comes after the separator `--` is kept
(argparse 3.11 drops that word and then hands an empty list to numpy); what `--help` prints is not modelled.
-/

namespace DTW

/-- What the options do (__main__.py:36-38, and the help option argparse adds). -/
inductive Act where
  | help
  | version
  | stepPattern
  deriving DecidableEq, Repr

/-- A word of the command line, classified (`_parse_optional`). -/
inductive ArgTok where
  /-- an argument: a file name, or the value of an option -/
  | pos (s : String)
  /-- an option, with the value written after `=`, if any -/
  | opt (act : Act) (val : Option String)
  /-- `-h` with more characters attached -/
  | cluster (rest : List Char)
  /-- it looks like an option, but is none -/
  | unknown
  /-- the first `--` -/
  | dashes
  deriving DecidableEq, Repr

/-- The long options. -/
def longOptions : List (List Char × Act) :=
  [("--help".toList, .help), ("--version".toList, .version), ("--step_pattern".toList, .stepPattern)]

/-- `parser._option_string_actions`. -/
def optionStrings : List (List Char × Act) := ("-h".toList, .help) :: longOptions

/-- `str.partition('=')`: what precedes the first `=`, and what follows it, if there is one. -/
def cutEq (l : List Char) : List Char × Option (List Char) :=
  (l.takeWhile (fun c => c ≠ '='),
    match l.dropWhile (fun c => c ≠ '=') with
    | [] => none
    | _ :: t => some t)

/-- An ASCII digit. -/
def isDigit10 (c : Char) : Bool := decide ('0' ≤ c ∧ c ≤ '9')

/-- One or more digits. -/
def digits1 (l : List Char) : Bool := !l.isEmpty && l.all isDigit10

/-- What follows the `-` makes a negative number: `^-\d+$|^-\d*\.\d+$` (`_negative_number_matcher`). -/
def unsignedNumber (t : List Char) : Bool :=
  digits1 t ||
    match t.dropWhile isDigit10 with
    | '.' :: f => digits1 f
    | _ => false

/-- `_parse_optional` (with `_get_option_tuples`) for one word other than the separator; `none`: ambiguous abbreviation. -/
def classify (p : String) : Option ArgTok :=
  match p.toList with
  | [] => some (.pos p)
  | c :: t =>
    if c ≠ '-' then some (.pos p)
    else
      match optionStrings.lookup (c :: t) with
      | some act => some (.opt act none)
      | none =>
        match t with
        | [] => some (.pos p)
        | d :: rest =>
          let (name, val) := cutEq (c :: t)
          match optionStrings.lookup name, val with
          | some act, some v => some (.opt act (some (String.ofList v)))
          | _, _ =>
            if d = '-' then
              match longOptions.filter fun o => name.isPrefixOf o.1 with
              | [o] => some (.opt o.2 (val.map String.ofList))
              | _ :: _ :: _ => none
              | [] => some (if (c :: t).elem ' ' then .pos p else .unknown)
            else if d = 'h' then some (.cluster rest)
            else some (if unsignedNumber t || (c :: t).elem ' ' then .pos p else .unknown)

/-- The first loop of `_parse_known_args`: everything after the first `--` is an argument. -/
def argTokens : List String → Option (List ArgTok)
  | [] => some []
  | p :: ps =>
    if p = "--" then some (.dashes :: ps.map .pos)
    else
      match classify p with
      | none => none
      | some t => (argTokens ps).map (t :: ·)

/-- The options after parsing (__main__.py:45). -/
structure Opts where
  query : String
  reference : String
  stepPattern : String
  deriving DecidableEq, Repr

/-- How parsing ends: normally; by printing help or version (exit code 0); with a usage error (exit code 2). -/
inductive Parsed where
  | run (o : Opts)
  | help
  | version
  | usage
  deriving DecidableEq, Repr

/-- What has been consumed so far. -/
structure Scan where
  /-- the positional arguments, at most two -/
  names : List String := []
  stepPattern : String := "symmetric2"
  /-- something was left over -/
  extra : Bool := false
  /-- the word just read was taken as a positional argument -/
  last : Bool := false

/-- `consume_optional` on `-h` with characters attached: more short options, of which there is only `-h`. -/
def cluster : List Char → Parsed
  | [] => .help
  | c :: t =>
    if c = '-' then .usage
    else if c = 'h' then
      match t with
      | [] => .help
      | '=' :: _ => .usage
      | t' => cluster t'
    else .help

/-- The alternation of `consume_positionals` and `consume_optional`.  The separator is swallowed by a positional argument
next to it (pattern `-*A-*`), otherwise it is left over.  In the end both positional arguments are required and nothing may
be left over. -/
def scan : List ArgTok → Scan → Parsed
  | [], s =>
    match s.names with
    | [q, r] => if s.extra then .usage else .run ⟨q, r, s.stepPattern⟩
    | _ => .usage
  | .pos w :: ts, s =>
    if s.names.length < 2 then scan ts { s with names := s.names ++ [w], last := true }
    else scan ts { s with extra := true, last := false }
  | .opt .stepPattern none :: .pos v :: ts, s => scan ts { s with stepPattern := v, last := false }
  | .opt .stepPattern none :: _, _ => .usage
  | .opt .stepPattern (some v) :: ts, s => scan ts { s with stepPattern := v, last := false }
  | .opt .help none :: _, _ => .help
  | .opt .version none :: _, _ => .version
  | .opt _ (some _) :: _, _ => .usage
  | .cluster l :: _, _ => cluster l
  | .unknown :: ts, s => scan ts { s with extra := true, last := false }
  | .dashes :: ts, s =>
    scan ts { s with
      extra := s.extra || !(s.last || (decide (s.names.length < 2) && !ts.isEmpty))
      last := false }

/-- `parser.parse_args()` on the words after the program name. -/
def parseArgs (argv : List String) : Parsed :=
  match argTokens argv with
  | none => .usage
  | some ts => scan ts {}

end DTW
