import Verif.NameFormat.Lemmas
import Verif.Trees.Flat

/-!
# Python's `str` of a tuple of strings

Models `str(tuple([...]))`, used for the keys of the tree metadata,
`/repo/checkpoint/orbax/checkpoint/_src/metadata/tree.py:213`.  `printable` is `str.isprintable` of a single character outside ASCII.
-/

namespace Verif.TreeMetadata

open Verif Verif.Trees

/-- The quote `repr` chooses. -/
def reprQuote (s : Name) : Char := if s.contains '\'' && !s.contains '"' then '"' else '\''

def hexDigit (n : Nat) : Char := if n < 10 then Char.ofNat (48 + n) else Char.ofNat (87 + n)

/-- The last `w` hexadecimal digits. -/
def hex : Nat → Nat → Name
  | 0, _ => []
  | w + 1, n => hex w (n / 16) ++ [hexDigit (n % 16)]

/-- `repr` of one character. -/
def reprChar (printable : Char → Bool) (q c : Char) : Name :=
  if c = q ∨ c = '\\' then ['\\', c]
  else if c = '\t' then ['\\', 't']
  else if c = '\n' then ['\\', 'n']
  else if c = '\r' then ['\\', 'r']
  else if c.toNat < 32 ∨ c.toNat = 127 then '\\' :: 'x' :: hex 2 c.toNat
  else if c.toNat < 127 ∨ printable c = true then [c]
  else if c.toNat < 256 then '\\' :: 'x' :: hex 2 c.toNat
  else if c.toNat < 65536 then '\\' :: 'u' :: hex 4 c.toNat
  else '\\' :: 'U' :: hex 8 c.toNat

/-- `repr(s)`. -/
def pyRepr (printable : Char → Bool) (s : Name) : Name :=
  let q := reprQuote s
  q :: (s.flatMap (reprChar printable q) ++ [q])

/-- `str(t)` for a tuple of strings. -/
def tupleRepr (printable : Char → Bool) : List Name → Name
  | [] => ['(', ')']
  | [a] => '(' :: (pyRepr printable a ++ [',', ')'])
  | a :: b :: l => '(' :: (join [',', ' '] ((a :: b :: l).map (pyRepr printable)) ++ [')'])

/-! ### Different tuples have different strings -/

def unhexDigit (c : Char) : Nat := if c.toNat < 58 then c.toNat - 48 else c.toNat - 87

theorem unhex_hexDigit : ∀ n, n < 16 → unhexDigit (hexDigit n) = n := by decide

def unhex (l : Name) : Nat := l.foldl (fun a c => 16 * a + unhexDigit c) 0

theorem unhex_hex : ∀ (w n : Nat), n < 16 ^ w → unhex (hex w n) = n
  | 0, n, h => by simp at h; subst h; rfl
  | w + 1, n, h => by
    have h1 : n / 16 < 16 ^ w := by
      apply Nat.div_lt_of_lt_mul
      rw [Nat.pow_succ] at h
      omega
    have := unhex_hex w (n / 16) h1
    simp only [unhex] at this
    simp only [hex, unhex, List.foldl_append, this, List.foldl_cons, List.foldl_nil]
    rw [unhex_hexDigit _ (Nat.mod_lt _ (by decide))]
    omega

theorem hex_length : ∀ w n, (hex w n).length = w
  | 0, _ => rfl
  | w + 1, n => by simp [hex, hex_length w]

/-- Reading one character back. -/
def unChar (q : Char) : Name → Option (Char × Name)
  | [] => none
  | c :: r =>
    if c = '\\' then match r with
      | [] => none
      | d :: r =>
        if d = 't' then some ('\t', r)
        else if d = 'n' then some ('\n', r)
        else if d = 'r' then some ('\r', r)
        else if d = 'x' then some (Char.ofNat (unhex (r.take 2)), r.drop 2)
        else if d = 'u' then some (Char.ofNat (unhex (r.take 4)), r.drop 4)
        else if d = 'U' then some (Char.ofNat (unhex (r.take 8)), r.drop 8)
        else some (d, r)
    else if c = q then none else some (c, r)

theorem take_hex (w n : Nat) (x : Name) : (hex w n ++ x).take w = hex w n := by
  have := List.take_left (l₁ := hex w n) (l₂ := x)
  rwa [hex_length] at this

theorem drop_hex (w n : Nat) (x : Name) : (hex w n ++ x).drop w = x := by
  have := List.drop_left (l₁ := hex w n) (l₂ := x)
  rwa [hex_length] at this

theorem char_lt (c : Char) : c.toNat < 16 ^ 8 := by
  have := c.valid
  have h : c.toNat = c.val.toNat := rfl
  have : c.val.toNat < 2 ^ 32 := c.val.toNat_lt
  rw [h]
  exact Nat.lt_of_lt_of_le this (by decide)

theorem unChar_repr (pr : Char → Bool) (q : Char) (hq : q = '\'' ∨ q = '"') (c : Char) (x : Name) :
    unChar q (reprChar pr q c ++ x) = some (c, x) := by
  have h2 : c.toNat < 256 → unChar q ('\\' :: 'x' :: (hex 2 c.toNat ++ x)) = some (c, x) := by
    intro h
    simp [unChar, take_hex, drop_hex, unhex_hex 2 c.toNat h]
  simp only [reprChar]
  split
  · next h =>
    rcases h with rfl | rfl
    · rcases hq with rfl | rfl <;> simp [unChar]
    · simp [unChar]
  next h0 =>
  simp only [not_or] at h0
  split
  · next h => subst h; simp [unChar]
  split
  · next h => subst h; simp [unChar]
  split
  · next h => subst h; simp [unChar]
  split
  · next h => exact h2 (by omega)
  split
  · simp [unChar, h0.1, h0.2]
  split
  · next h => exact h2 h
  split
  · next h => simp [unChar, take_hex, drop_hex, unhex_hex 4 c.toNat h]
  · simp [unChar, take_hex, drop_hex, unhex_hex 8 c.toNat (char_lt c)]

theorem unChar_quote (q : Char) (hq : q = '\'' ∨ q = '"') (x : Name) : unChar q (q :: x) = none := by
  rcases hq with rfl | rfl <;> simp [unChar]

theorem body_inj (pr : Char → Bool) (q : Char) (hq : q = '\'' ∨ q = '"') : ∀ (s t x y : Name),
    s.flatMap (reprChar pr q) ++ q :: x = t.flatMap (reprChar pr q) ++ q :: y → s = t ∧ x = y
  | [], [], x, y, h => by simpa using h
  | [], d :: t, x, y, h => by
    have := congrArg (unChar q) h
    simp only [List.flatMap_nil, List.nil_append, List.flatMap_cons, List.append_assoc, unChar_repr pr q hq, unChar_quote q hq] at this
    cases this
  | c :: s, [], x, y, h => by
    have := congrArg (unChar q) h
    simp only [List.flatMap_nil, List.nil_append, List.flatMap_cons, List.append_assoc, unChar_repr pr q hq, unChar_quote q hq] at this
    cases this
  | c :: s, d :: t, x, y, h => by
    have := congrArg (unChar q) h
    simp only [List.flatMap_cons, List.append_assoc, unChar_repr pr q hq, Option.some.injEq, Prod.mk.injEq] at this
    obtain ⟨rfl, h'⟩ := this
    obtain ⟨rfl, rfl⟩ := body_inj pr q hq s t x y h'
    exact ⟨rfl, rfl⟩

theorem quote_cases (s : Name) : reprQuote s = '\'' ∨ reprQuote s = '"' := by
  simp only [reprQuote]
  split
  · exact .inr rfl
  · exact .inl rfl

theorem pyRepr_inj (pr : Char → Bool) {s t x y : Name} (h : pyRepr pr s ++ x = pyRepr pr t ++ y) : s = t ∧ x = y := by
  simp only [pyRepr, List.cons_append, List.cons.injEq, List.append_assoc, List.nil_append] at h
  rw [← h.1] at h
  exact body_inj pr _ (quote_cases s) s t x y h.2

theorem join_inj (pr : Char → Bool) : ∀ (a : Name) (l : List Name) (b : Name) (m : List Name),
    join [',', ' '] ((a :: l).map (pyRepr pr)) ++ [')'] = join [',', ' '] ((b :: m).map (pyRepr pr)) ++ [')'] → a :: l = b :: m
  | a, [], b, [], h => by
    simp only [List.map_cons, List.map_nil, join] at h
    rw [(pyRepr_inj pr h).1]
  | a, [], b, b' :: m, h => by
    simp only [List.map_cons, List.map_nil, join, List.append_assoc] at h
    have := (pyRepr_inj pr h).2
    simp at this
  | a, a' :: l, b, [], h => by
    simp only [List.map_cons, List.map_nil, join, List.append_assoc] at h
    have := (pyRepr_inj pr h).2
    simp at this
  | a, a' :: l, b, b' :: m, h => by
    simp only [List.map_cons, join, List.append_assoc] at h
    obtain ⟨rfl, h'⟩ := pyRepr_inj pr h
    simp only [List.cons_append, List.nil_append, List.cons.injEq, true_and] at h'
    have := join_inj pr a' l b' m (by simpa using h')
    rw [this]

/-- The string of a tuple of strings determines it. -/
theorem tupleRepr_inj (pr : Char → Bool) : ∀ (l m : List Name), tupleRepr pr l = tupleRepr pr m → l = m
  | [], [], _ => rfl
  | [], [b], h => by
    rcases quote_cases b with e | e <;> simp [tupleRepr, pyRepr, e] at h
  | [], b :: b' :: m, h => by
    rcases quote_cases b with e | e <;> simp [tupleRepr, join, pyRepr, e] at h
  | [a], [], h => by
    rcases quote_cases a with e | e <;> simp [tupleRepr, pyRepr, e] at h
  | a :: a' :: l, [], h => by
    rcases quote_cases a with e | e <;> simp [tupleRepr, join, pyRepr, e] at h
  | [a], [b], h => by
    simp only [tupleRepr, List.cons.injEq, true_and] at h
    rw [(pyRepr_inj pr h).1]
  | [a], b :: b' :: m, h => by
    simp only [tupleRepr, List.cons.injEq, true_and, List.map_cons, join, List.append_assoc] at h
    have := (pyRepr_inj pr h).2
    simp at this
  | a :: a' :: l, [b], h => by
    simp only [tupleRepr, List.cons.injEq, true_and, List.map_cons, join, List.append_assoc] at h
    have := (pyRepr_inj pr h).2
    simp at this
  | a :: a' :: l, b :: b' :: m, h => by
    simp only [tupleRepr, List.cons.injEq, true_and] at h
    exact join_inj pr a (a' :: l) b (b' :: m) h

/-- `str(('it\'s', 'a\\b'))` and `str(('x',))`. -/
example : tupleRepr (fun _ => true) [['i', 't', '\'', 's'], ['a', '\\', 'b']] =
    ['(', '"', 'i', 't', '\'', 's', '"', ',', ' ', '\'', 'a', '\\', '\\', 'b', '\'', ')'] := by decide
example : tupleRepr (fun _ => true) [['x']] = ['(', '\'', 'x', '\'', ',', ')'] := by decide

end Verif.TreeMetadata
