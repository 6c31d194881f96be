import Verif.Export.Obm

/-!
# What a user means by the arguments of an Orbax Model export

Uses only the types of the arguments (Obm.lean), none of the functions.
-/

namespace Verif.Export.Obm.Spec

open Verif.Export.Obm

/-- Function `f` was given under the name `k`; a single function has the default name. -/
def GivenFn (fn : FnArg) (k : String) (f : Fn) : Prop :=
  match fn with
  | .one g => k = "jax_module_default_method" ∧ f = g
  | .many m => (k, f) ∈ m

/-- `k` is the name of a function. -/
def Named (fn : FnArg) (k : String) : Prop := ∃ f, GivenFn fn k f

/-- `v` was given for the function `k` by the argument `arg`. -/
def GivenArg (fn : FnArg) (arg : Obj) (k : String) (v : Obj) : Prop :=
  match fn, arg with
  | .one _, a => k = "jax_module_default_method" ∧ v = a
  | .many m, .none => (∃ f, (k, f) ∈ m) ∧ v = .none
  | .many _, .map s => (k, v) ∈ s
  | .many _, .leaf _ => False

/-- An argument beside the functions has the form it should have: for several functions
it is absent, or a mapping with exactly their names. -/
def ArgFits (fn : FnArg) (arg : Obj) : Prop :=
  match fn, arg with
  | .one _, _ => True
  | .many _, .none => True
  | .many _, .leaf _ => False
  | .many m, .map s => ∀ k, (∃ f, (k, f) ∈ m) ↔ ∃ v, (k, v) ∈ s

/-- The options of the function named `k`. -/
def OptionsOf (opts : OptArg) (k : String) (o : Options) : Prop :=
  match opts with
  | .one p => o = p
  | .perFn m => (k, o) ∈ m

/-- Some option object that was given. -/
def SomeOptions (opts : OptArg) (o : Options) : Prop := ∃ k, OptionsOf opts k o

/-- Two functions agree on the options that are common to all functions. -/
def Agree (a b : Options) : Prop :=
  a.bf16 = b.bf16 ∧ a.mesh = b.mesh ∧ a.constraints = b.constraints ∧ a.platforms = b.platforms ∧
  a.xlaFlags = b.xlaFlags ∧ a.persistXla = b.persistXla ∧ a.saveShlo = b.saveShlo ∧
  a.checkpointPath = b.checkpointPath ∧ (a.checkpointPath ≠ none → a.weightsName = b.weightsName)

/-- The constraints have the form they should have: a mapping has exactly the names of
the functions. -/
def ConstraintsFit (fn : FnArg) (c : Constraints) : Prop :=
  match c with
  | .none => True
  | .same _ => True
  | .wrong => False
  | .perFn m => ∀ k, Named fn k ↔ ∃ cs, (k, cs) ∈ m

/-- `cs` are the constraints given for the function `k`. -/
def GivenConstraints (fn : FnArg) (c : Constraints) (k : String) (cs : List String) : Prop :=
  match c with
  | .none => Named fn k ∧ cs = []
  | .same d => Named fn k ∧ cs = d
  | .wrong => False
  | .perFn m => (k, cs) ∈ m

/-- The platforms that were named. -/
def PlatformNames : Option Platforms → List String
  | none => []
  | some (.one p) => [p]
  | some (.many ps) => ps

/-- The arguments of an Orbax Model export are in order. -/
structure InOrder (allowed : List String) (fn : FnArg) (shape symbols : Obj) (opts : OptArg) : Prop where
  /-- there is a function -/
  fns : ∃ k, Named fn k
  /-- values for symbols need shapes with symbols -/
  needShape : shape = .none → symbols = .none
  shapeFits : ArgFits fn shape
  symbolsFit : ArgFits fn symbols
  /-- options for each function need several functions, and each has its options -/
  perFn : ∀ m, opts = .perFn m → (∃ fs, fn = .many fs) ∧ ∀ k, Named fn k → ∃ o, (k, o) ∈ m
  /-- all options agree -/
  agree : ∀ a b, SomeOptions opts a → SomeOptions opts b → Agree a b
  constraints : ∀ o, SomeOptions opts o → ConstraintsFit fn o.constraints
  platforms : ∀ o, SomeOptions opts o → ∀ p ∈ PlatformNames o.platforms, p.toLower ∈ allowed

/-- Python dictionaries have each key once. -/
def Dict {A : Type} (m : List (String × A)) : Prop := (m.map (·.1)).Nodup

/-- The mappings among the arguments are dictionaries. -/
structure Dicts (fn : FnArg) (opts : OptArg) : Prop where
  fns : ∀ m, fn = .many m → Dict m
  constraints : ∀ o m, SomeOptions opts o → o.constraints = .perFn m → Dict m

end Verif.Export.Obm.Spec
