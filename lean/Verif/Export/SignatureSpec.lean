import Verif.Export.Signature

/-!
# What default values and auto-batching should do
-/

namespace Verif.Export.SignatureSpec
open Verif.Export.Signature

/-- The default value of a parameter: that of each of its tensors. -/
def DefaultOf {T X : Type} (s : Tree T (Spec X)) (d : Option (Tree T X)) : Prop :=
  match d with
  | none => ∀ l ∈ s.leaves, l = .tensor
  | some t => t.td = s.td ∧ s.leaves ≠ [] ∧ ∃ bs : List Bool, bs.length = t.leaves.length ∧
      s.leaves = (t.leaves.zip bs).map fun p => .withDefault p.1 p.2

/-- What a call gives to the parameter `n` in position `i`, with the default `d`:
the positional argument, else the keyword argument, else the default. -/
inductive Given {D : Type} (args : List D) (kwargs : List (String × D)) (i : Nat) (n : String)
    (d : Option D) : D → Prop where
  | positional (v : D) (h : args[i]? = some v) : Given args kwargs i n d v
  | keyword (v : D) (h : args.length ≤ i) (hk : (n, v) ∈ kwargs) : Given args kwargs i n d v
  | default (v : D) (h : args.length ≤ i) (hk : ∀ w, (n, w) ∉ kwargs) (hd : d = some v) :
      Given args kwargs i n d v

/-- A call is a proper one, and these are the values of the parameters. -/
structure Binds {D : Type} (ps : List (String × Option D)) (args : List D)
    (kwargs : List (String × D)) (vals : List D) : Prop where
  /-- There are not too many positional arguments. -/
  few : args.length ≤ ps.length
  /-- Keyword arguments are for parameters not given by position. -/
  named : ∀ n v, (n, v) ∈ kwargs → ∃ (i : Nat) (d : Option D), args.length ≤ i ∧ ps[i]? = some (n, d)
  count : vals.length = ps.length
  given : ∀ (i : Nat) n d v, ps[i]? = some (n, d) → vals[i]? = some v → Given args kwargs i n d v

/-- What becomes of a tensor in a batch of `b` rows: it has `b` rows, or, unless
it is primary, one row that is repeated. -/
inductive InBatch {R : Type} (b : Nat) : Bool → List R → List R → Prop where
  | same (p : Bool) (x : List R) (h : x.length = b) : InBatch b p x x
  | repeated (r : R) : InBatch b false [r] (List.replicate b r)

end Verif.Export.SignatureSpec
