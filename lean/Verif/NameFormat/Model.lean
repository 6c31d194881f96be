/-!
# Model of step names

Models `/repo/checkpoint/orbax/checkpoint/_src/path/step.py`.

Names are lists of characters.  Python's regular expressions are modelled on the fragment that
occurs: a prefix made of literal characters, `.`, and single-character repetitions `?`, `*`, `+`
(the code interpolates the prefix into the pattern *unescaped*), followed by the digit group and `$`.
Prefixes using other regular-expression syntax are outside the model (`parsePrefix` returns `none`).
Negative `step_format_fixed_length` (a `ValueError` in Python) is not modelled.  The Google Cloud
Storage listing branch of `_glob_step_paths` (step.py:394-417) is modelled in Verif/Path/Hns.lean.
-/

namespace Verif.NameFormat

abbrev Name := List Char

/-- The ASCII digit of a number below ten. -/
def digit (n : Nat) : Char := Char.ofNat (48 + n)

/-- Python's decimal rendering of a natural number. -/
def dec (n : Nat) : Name := if n < 10 then [digit n] else dec (n / 10) ++ [digit (n % 10)]
termination_by n

/-- `f'{step}'`, step.py:352. -/
def showInt (s : Int) : Name := if s < 0 then '-' :: dec s.natAbs else dec s.natAbs

/-- `f'{step:0{w}d}'`, step.py:350: zero padding to total width `w`, after the sign. -/
def padInt (w : Nat) (s : Int) : Name :=
  if s < 0 then '-' :: (List.replicate (w - 1 - (dec s.natAbs).length) '0' ++ dec s.natAbs)
  else List.replicate (w - (dec s.natAbs).length) '0' ++ dec s.natAbs

/-- `_StandardNameFormat`, step.py:312-343 (the fields that matter for naming). -/
structure Format where
  pfx : Option Name
  width : Option Nat
deriving DecidableEq, Repr

/-- `step_prefix_with_underscore`, step.py:222-224. -/
def prefixU (p : Option Name) : Name :=
  match p with
  | none => []
  | some p => p ++ ['_']

/-- `build_name`, step.py:347-355. -/
def buildName (f : Format) (s : Int) : Name :=
  prefixU f.pfx ++ (match f.width with | some w => padInt w s | none => showInt s)

/-! ### Digits, as `re` and `int` see them -/

/-- First code points of the decimal digit ranges (Unicode category Nd) other than ASCII, which `\d`
matches and `int()` accepts. -/
def ndZeros : List Nat :=
  [0x660, 0x6f0, 0x7c0, 0x966, 0x9e6, 0xa66, 0xae6, 0xb66, 0xbe6, 0xc66, 0xce6, 0xd66, 0xde6, 0xe50,
   0xed0, 0xf20, 0x1040, 0x1090, 0x17e0, 0x1810, 0x1946, 0x19d0, 0x1a80, 0x1a90, 0x1b50, 0x1bb0,
   0x1c40, 0x1c50, 0xa620, 0xa8d0, 0xa900, 0xa9d0, 0xa9f0, 0xaa50, 0xabf0, 0xff10, 0x104a0, 0x10d30,
   0x11066, 0x110f0, 0x11136, 0x111d0, 0x112f0, 0x11450, 0x114d0, 0x11650, 0x116c0, 0x11730, 0x118e0,
   0x11950, 0x11c50, 0x11d50, 0x11da0, 0x16a60, 0x16ac0, 0x16b50, 0x1d7ce, 0x1d7d8, 0x1d7e2, 0x1d7ec,
   0x1d7f6, 0x1e140, 0x1e2f0, 0x1e950, 0x1fbf0]

/-- Value of a character matched by `\d`. -/
def digitVal (c : Char) : Option Nat :=
  if 48 ≤ c.toNat ∧ c.toNat < 58 then some (c.toNat - 48)
  else ndZeros.findSome? fun z => if z ≤ c.toNat ∧ c.toNat < z + 10 then some (c.toNat - z) else none

/-- Does `\d` match? -/
def isDigit (c : Char) : Bool := (digitVal c).isSome

/-- `int(s)` for a string of digits. -/
def intOf (g : Name) : Nat := g.foldl (fun acc c => 10 * acc + (digitVal c).getD 0) 0

/-! ### The prefix as a regular expression -/

inductive Atom | lit (c : Char) | dot
deriving DecidableEq, Repr

inductive Quant | one | opt | star | plus
deriving DecidableEq, Repr

structure Item where
  atom : Atom
  quant : Quant
deriving DecidableEq, Repr

/-- Characters with a meaning in `re` patterns. -/
def metaChars : List Char := ['.', '^', '$', '*', '+', '?', '{', '}', '[', ']', '\\', '|', '(', ')']

/-- A regular-expression quantifier. -/
def quantOf (c : Char) : Option Quant :=
  if c = '?' then some .opt else if c = '*' then some .star else if c = '+' then some .plus else none

/-- The atom denoted by a single character of the pattern (`none`: outside the modelled fragment). -/
def atomOf (c : Char) : Option Atom :=
  if c = '.' then some .dot
  else if metaChars.contains c then none
  else some (.lit c)

/-- `re` parsing of the interpolated prefix, on the modelled fragment. -/
def parsePrefix : Name → Option (List Item)
  | [] => some []
  | [c] => (atomOf c).map fun a => [⟨a, .one⟩]
  | c :: d :: s =>
    match atomOf c with
    | none => none
    | some a =>
      match quantOf d with
      | some q => (parsePrefix s).map fun is => ⟨a, q⟩ :: is
      | none => (parsePrefix (d :: s)).map fun is => ⟨a, .one⟩ :: is

/-- Does the atom match the character (`.` does not match a newline)? -/
def atomMatches : Atom → Char → Bool
  | .lit c, x => c == x
  | .dot, x => x != '\n'

/-- Remainders after zero or more matches of an atom, longest match first (greedy). -/
def starRest (a : Atom) : Name → List Name
  | [] => [[]]
  | c :: s => if atomMatches a c then starRest a s ++ [c :: s] else [c :: s]

/-- Remainders after one match of an item, in the order in which `re` tries them. -/
def itemRest (i : Item) (s : Name) : List Name :=
  match i.quant, s with
  | .one, c :: s => if atomMatches i.atom c then [s] else []
  | .one, [] => []
  | .opt, c :: s => if atomMatches i.atom c then [s, c :: s] else [c :: s]
  | .opt, [] => [[]]
  | .star, s => starRest i.atom s
  | .plus, c :: s => if atomMatches i.atom c then starRest i.atom s else []
  | .plus, [] => []

/-- Remainders after the whole prefix. -/
def seqRest : List Item → Name → List Name
  | [], s => [s]
  | i :: is, s => (itemRest i s).flatMap (seqRest is)

/-- The digit group of the pattern, step.py:371-377. -/
def groupOk (width : Option Nat) (g : Name) : Bool :=
  match g with
  | [] => false
  | c :: ds =>
    let nonzero := decide (49 ≤ c.toNat ∧ c.toNat < 58)
    match width with
    | some (w+1) =>
      (c == '0' && ds.all isDigit && ds.length == w) ||
        (nonzero && ds.all isDigit && decide (w ≤ ds.length))
    | _ => (c == '0' && ds.isEmpty) || (nonzero && ds.all isDigit)

/-- `(group)$`: the group must reach the end, or a final newline. -/
def matchGroup (width : Option Nat) (r : Name) : Option Nat :=
  if groupOk width r then some (intOf r)
  else if r.getLast? = some '\n' && groupOk width r.dropLast then some (intOf r.dropLast)
  else none

/-- `re.search('^' + prefix + group + '$', name)`, step.py:378-385; the outer `none` means that the
prefix is outside the modelled fragment. -/
def parseName (f : Format) (name : Name) : Option (Option Nat) :=
  (parsePrefix (prefixU f.pfx)).map fun is => (seqRest is name).findSome? (matchGroup f.width)

/-! ### Discovery -/

/-- One entry of the checkpoint root directory: its name, and the verdict of `is_path_finalized`
(modelled in `Verif.Store`). -/
structure Entry where
  name : Name
  finalized : Bool
deriving DecidableEq, Repr

/-- `Metadata`, step.py:79-91. -/
structure Meta where
  step : Int
  name : Name
deriving DecidableEq, Repr

/-- `_build_metadata(step_path)`, step.py:357-388, without a known step. -/
def buildMetadata (f : Format) (e : Entry) : Option Meta :=
  if !e.finalized then none
  else match parseName f e.name with
    | some (some k) => some ⟨k, e.name⟩
    | _ => none

/-- `find_all`, step.py:544-557, with `_glob_step_paths` (390-420) and `build_step_metadatas`
(198-219; results come in completion order, so only the set of results is meaningful). -/
def findAll (f : Format) (dir : List Entry) : List Meta :=
  (dir.filter fun e => (prefixU f.pfx).isPrefixOf e.name).filterMap (buildMetadata f)

/-- `find_step`, step.py:559-575: `_build_metadata` with a known step only checks that the canonical
path is finalized (finalized directories exist). -/
def findStep (f : Format) (dir : List Entry) (s : Int) : Option Meta :=
  if dir.any fun e => e.name == buildName f s && e.finalized then some ⟨s, buildName f s⟩ else none

/-- `_glob_step_paths`, step.py:418-420. -/
def globStepPaths (f : Format) (dir : List Entry) : List Entry :=
  dir.filter fun e => (prefixU f.pfx).isPrefixOf e.name

/-- `_get_broadcasted_step_list`, step.py:445-473: on the primary host, the sorted step numbers in a
list padded with -1 to the number of listed paths; this list is broadcast. -/
def broadcastSteps (f : Format) (dir : List Entry) : List Int :=
  let steps := (((globStepPaths f dir).filterMap (buildMetadata f)).map fun m => m.step).mergeSort
    fun a b => decide (a ≤ b)
  steps ++ List.replicate ((globStepPaths f dir).length - steps.length) (-1)

/-- `_find_all_with_single_host_load_and_broadcast`, step.py:475-542: every host rebuilds the paths of
the non-negative broadcast steps; the dictionary keeps one entry per path. -/
def findAllBroadcast (f : Format) (dir : List Entry) : List Meta :=
  ((broadcastSteps f dir).filter fun s => decide (s ≥ 0)).foldl
    (fun acc s => if acc.any fun m => m.name == buildName f s then acc
      else acc ++ [⟨s, buildName f s⟩]) []

/-- `_CompositeNameFormat.find_all`, step.py:650-657. -/
def compositeFindAll (fs : List Format) (dir : List Entry) : List Meta :=
  (fs.flatMap fun f => findAll f dir).foldl
    (fun acc m => if acc.any fun m' => m'.name == m.name then acc else acc ++ [m]) []

/-- `_CompositeNameFormat.find_step`, step.py:659-677. -/
def compositeFindStep (fs : List Format) (dir : List Entry) (s : Int) : Option Meta :=
  fs.findSome? fun f => findStep f dir s

/-- `latest_step_metadata`, step.py:227-239: `max` by step of the metadatas sorted by decreasing name
(Python's `max` returns the first maximal element).  The name order is a parameter. -/
def latestMetadata (nameLe : Name → Name → Bool) (ms : List Meta) : Option Meta :=
  (ms.mergeSort fun a b => nameLe b.name a.name).foldl
    (fun acc m => match acc with
      | none => some m
      | some a => if m.step > a.step then some m else some a) none

/-! ### Legacy step recognition -/

/-- `.orbax-checkpoint-tmp`, atomicity_types.py:30. -/
def tmpSuffix : Name := ".orbax-checkpoint-tmp".toList

/-- `re.fullmatch(r'(.+)_(\d+)', name)`, step.py:769: the digits after the last underscore, if what
precedes it is non-empty and has no newline.  Greedy matching makes the split at the last underscore,
since digits contain none. -/
def matchAllowed (name : Name) : Option Nat :=
  let g := name.reverse.takeWhile fun c => c != '_'
  match name.reverse.dropWhile fun c => c != '_' with
  | '_' :: (c :: p) =>
    if !g.isEmpty && g.all isDigit && (c :: p).all fun c => c != '\n' then some (intOf g.reverse)
    else none
  | _ => none

/-- `re.match(r'.*?_*?(\d+)\.orbax-checkpoint-tmp', name)`, step.py:771: the first position from
which a run of digits is followed by the suffix (`.` does not cross a newline). -/
def matchTmp : Name → Option Nat
  | [] => none
  | c :: s =>
    let g := (c :: s).takeWhile isDigit
    if !g.isEmpty && tmpSuffix.isPrefixOf ((c :: s).dropWhile isDigit) then some (intOf g)
    else if c = '\n' then none
    else matchTmp s

/-- `step_from_checkpoint_name`, step.py:765-773 (`none`: `ValueError`).  Simplification:
`str.isdigit` also accepts the superscript digits, on which `int` then raises. -/
def stepFromName (name : Name) : Option Nat :=
  if !name.isEmpty && name.all isDigit then some (intOf name)
  else match matchAllowed name with
    | some k => some k
    | none => matchTmp name

end Verif.NameFormat
