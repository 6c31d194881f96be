import Verif.Export.Manager

/-!
# What an exported signature should compute

The end-to-end function of a serving configuration (serving_config.py:69-157):
pre-processing, the model function, post-processing.
-/

namespace Verif.Export.ManagerSpec
open Verif.Export.Manager

/-- What the model function is given: the output of the pre-processor, or the
only input. -/
inductive Into {V : Type} (c : Config V) : List (Val V) → Val V → Prop where
  | pre (f : List (Val V) → Val V) (inputs : List (Val V)) (h : c.pre = some f) :
      Into c inputs (f inputs)
  | direct (x : Val V) (h : c.pre = none) : Into c [x] x

/-- The configuration `c` with the model function `g` turns `inputs` into an
output. -/
inductive Serves {V : Type} (c : Config V) (g : Val V → Val V) :
    List (Val V) → Val V → Prop where
  | plain (inputs : List (Val V)) (x : Val V) (hp : c.passthrough = false)
      (hi : Into c inputs x) (ho : c.post = none) : Serves c g inputs (g x)
  | post (inputs : List (Val V)) (x : Val V) (p : List (Val V) → Val V)
      (hp : c.passthrough = false) (hi : Into c inputs x) (ho : c.post = some p) :
      Serves c g inputs (p [g x])
  /-- The second output of the pre-processor bypasses the model function. -/
  | through (inputs : List (Val V)) (f p : List (Val V) → Val V) (a b : Val V)
      (hp : c.passthrough = true) (hf : c.pre = some f) (ho : c.post = some p)
      (hab : f inputs = .tuple [a, b]) : Serves c g inputs (p [g a, b])
  | throughPre (inputs : List (Val V)) (f : List (Val V) → Val V) (a b : Val V)
      (hp : c.passthrough = true) (hf : c.pre = some f) (ho : c.post = none)
      (hab : f inputs = .tuple [a, b]) : Serves c g inputs (g a)
  | throughNone (x : Val V) (hp : c.passthrough = true) (hf : c.pre = none)
      (ho : c.post = none) : Serves c g [x] (g x)

/-- The function that a configuration names: the one with its key, or the only
one. -/
inductive Names {V X : Type} (c : Config V) (fns : List (String × X)) : X → Prop where
  | key (k : String) (f : X) (h : c.methodKey = some k) (hm : (k, f) ∈ fns) : Names c fns f
  | only (k : String) (f : X) (h : c.methodKey = none) (hm : fns = [(k, f)]) : Names c fns f

/-- The shapes and types of parameters. -/
def forms {F A : Type} (l : List (Arr F A)) : List F := l.map (·.form)

/-- A history of calls of `update_variables`. -/
def after {T F A V : Type} [DecidableEq T] [DecidableEq F] (m : Module T F A V) :
    List (Params T F A) → Module T F A V
  | [] => m
  | p :: ps => after (update m p).1 ps

end Verif.Export.ManagerSpec
