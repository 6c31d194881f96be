/-!
# Model of the options of the export package

Models `/repo/export/orbax/export/config.py`: options with a global value, and context managers that override an option in the thread that enters them.

Threads, `Config` objects and entered context managers are numbers; options are their lowercased names.  `_thread_local_state` is one object of the module,
not of a `Config` (line 55), and the property of an option belongs to the class `Config` (line 181).  Simplifications: every option has hooks, of
which the last call is kept; only a hook called on entering may raise; options are defined with `define_bool_state` (not with `define_bool` alone);
`meta` and help texts are left out.
-/

namespace Verif.ExportConfig

variable {V : Type}

/-- `bool_env`, config.py:58-82: `env` is the value of the variable, `none` is a `ValueError`; `str(default).lower()` is `'true'` or `'false'`. -/
def boolEnv (env : Option String) (default : Bool) : Option Bool :=
  let val := match env with
    | some e => e.toLower
    | none => if default then "true" else "false"
  if val ∈ ["y", "yes", "t", "true", "on", "1"] then some true
  else if val ∈ ["n", "no", "f", "false", "off", "0"] then some false
  else none

/-- `values` of each `Config` (line 90), the options with a property on the class, the attributes of `_thread_local_state` in each thread, `prev_val` of each
entered context manager, the last call of each global hook and of each thread-local hook in each thread. -/
structure State (V : Type) where
  values : Nat → String → Option V
  prop : String → Bool
  local_ : Nat → String → Option V
  prev : Nat → Option V
  globalHook : Nat → String → Option V
  localHook : Nat → String → Option (Option V)

def State.start : State V := ⟨fun _ _ => none, fun _ => false, fun _ _ => none, fun _ => none, fun _ _ => none, fun _ _ => none⟩

/-- `f` with the value at `(a, n)` replaced. -/
def set2 {α : Type} (f : Nat → String → α) (a : Nat) (n : String) (v : α) : Nat → String → α := fun b k => if b = a ∧ k = n then v else f b k

/-- What happens: an option is defined or undefined in a `Config`, updated, a context manager `k` for the option is entered by a thread or left. -/
inductive Event (V : Type) where
  | define (c : Nat) (n : String) (v : V)
  | undefine (c : Nat) (n : String)
  | update (c : Nat) (n : String) (v : V)
  | enter (t : Nat) (n : String) (k : Nat) (v : V) (raises : Bool)
  | exit (t : Nat) (n : String) (k : Nat)

/-- `_add_option` and `define_bool_state`, config.py:125-190: the flag is whether there was no exception. -/
def define (s : State V) (c : Nat) (n : String) (v : V) : State V × Bool :=
  if (s.values c n).isSome then (s, false)
  else ({ s with values := set2 s.values c n (some v), globalHook := set2 s.globalHook c n (some v), prop := fun k => if k = n then true else s.prop k }, true)

/-- `_undefine_state`, config.py:94-106. -/
def undefine (s : State V) (c : Nat) (n : String) : State V × Bool :=
  if (s.values c n).isNone then (s, false)
  else ({ s with values := set2 s.values c n none, globalHook := set2 s.globalHook c n none, prop := fun k => if k = n then false else s.prop k }, s.prop n)

/-- `update`, config.py:108-116. -/
def update (s : State V) (c : Nat) (n : String) (v : V) : State V × Bool :=
  if (s.values c n).isNone then (s, false)
  else ({ s with values := set2 s.values c n (some v), globalHook := set2 s.globalHook c n (some v) }, true)

/-- `read`, config.py:118-123: `none` is an `AttributeError`. -/
def read (s : State V) (c : Nat) (n : String) : Option V := s.values c n

/-- The attribute of a `Config`, config.py:176-181. -/
def attr (s : State V) (t c : Nat) (n : String) : Option V :=
  if s.prop n then
    match s.local_ t n with
    | some v => some v
    | none => read s c n
  else none

/-- Entering, config.py:212-217. -/
def enter (s : State V) (t : Nat) (n : String) (k : Nat) (v : V) (raises : Bool) : State V × Bool :=
  ({ s with local_ := set2 s.local_ t n (some v), prev := fun j => if j = k then s.local_ t n else s.prev j,
            localHook := set2 s.localHook t n (some (some v)) }, !raises)

/-- Leaving, config.py:218-226. -/
def exit (s : State V) (t : Nat) (n : String) (k : Nat) : State V × Bool :=
  match s.prev k with
  | none =>
    if (s.local_ t n).isNone then (s, false)
    else ({ s with local_ := set2 s.local_ t n none, localHook := set2 s.localHook t n (some none) }, true)
  | some v => ({ s with local_ := set2 s.local_ t n (some v), localHook := set2 s.localHook t n (some (some v)) }, true)

/-- An event. -/
def step (s : State V) : Event V → State V × Bool
  | .define c n v => define s c n v
  | .undefine c n => undefine s c n
  | .update c n v => update s c n v
  | .enter t n k v r => enter s t n k v r
  | .exit t n k => exit s t n k

/-- A history. -/
def run (s : State V) (es : List (Event V)) : State V := es.foldl (fun s e => (step s e).1) s

end Verif.ExportConfig
