import Verif.Export.Validate

/-!
# What a validation report should say

The status is Pass when every floating-point output of the exported model is
within the tolerances of the output of the same name of the JAX model, and the
part of the other outputs that differ is at most the given ratio
(`ValidationReportOption`, validation_report.py:36-45).
-/

namespace Verif.Export.ValidateSpec
open Verif.Export.Validate

/-- The magnitude of a number. -/
def mag (q : Rat) : Rat := if q < 0 then -q else q

/-- `y`, a number of the exported model, is within the tolerances of `x`: it is
finite and at distance at most `absTol + relTol * |x|`, or the same infinity. -/
inductive Close (absTol relTol : Rat) : (x y : Fl) → Prop where
  | fin (x y : Rat) (h : mag (y - x) ≤ absTol + relTol * mag x) :
      Close absTol relTol (.fin x) (.fin y)
  | inf (s : Bool) : Close absTol relTol (.inf s) (.inf s)

/-- Two tensors have the same type (as far as the report tells types apart),
the same shape, and hence the same number of elements. -/
inductive SameForm {V : Type} : Leaf V → Leaf V → Prop where
  | flt (s : List Nat) (d d' : List Fl) (h : d.length = d'.length) :
      SameForm (.flt s d) (.flt s d')
  | disc (s : List Nat) (d d' : List V) (h : d.length = d'.length) :
      SameForm (.disc s d) (.disc s d')

/-- The outputs of both models for one input have the same names, and outputs
of the same name have the same form. -/
structure Comparable {V : Type} (b c : Dict V) : Prop where
  nodup : (b.map (·.1)).Nodup
  nodup' : (c.map (·.1)).Nodup
  names : ∀ k, (∃ x, (k, x) ∈ b) ↔ (∃ y, (k, y) ∈ c)
  form : ∀ k x y, (k, x) ∈ b → (k, y) ∈ c → SameForm x y

/-- All floating-point outputs of `c` are within the tolerances of those of
`b`. -/
def FloatsClose {V : Type} (absTol relTol : Rat) (b c : Dict V) : Prop :=
  ∀ k s d s' d', (k, Leaf.flt s d) ∈ b → (k, Leaf.flt s' d') ∈ c →
    ∀ (n : Nat) x y, d[n]? = some x → d'[n]? = some y → Close absTol relTol x y

/-- The number of outputs of another type. -/
def others {V : Type} (b : Dict V) : Nat :=
  (b.filter fun p => match p.2 with | .disc _ _ => true | .flt _ _ => false).length

/-- The number of outputs of another type for which `bad` holds of the contents
of the two outputs of the same name. -/
def count {V : Type} (bad : List V → List V → Bool) (b c : Dict V) : Nat :=
  (b.filter fun p =>
    match p.2, c.lookup p.1 with
    | .disc _ d, some (.disc _ d') => bad d d'
    | _, _ => false).length

/-- The contents differ. -/
def differ {V : Type} [DecidableEq V] (d d' : List V) : Bool := decide (d ≠ d')

/-- The contents differ at every position. -/
def differEverywhere {V : Type} [DecidableEq V] (d d' : List V) : Bool :=
  (List.range d.length).all fun i => decide (d[i]? ≠ d'[i]?)

/-- The sum over the inputs. -/
def total {I : Type} (f : I → Nat) (inputs : List I) : Nat := (inputs.map f).sum

/-- The report should say Pass: every floating-point output is close, and the
part of the others that count as different is at most `maxRatio`. -/
def ShouldPass {V I : Type} (absTol relTol maxRatio : Rat)
    (bad : List V → List V → Bool) (b c : I → Dict V) (inputs : List I) : Prop :=
  (∀ i ∈ inputs, FloatsClose absTol relTol (b i) (c i)) ∧
    ((total (fun i => count bad (b i) (c i)) inputs : Nat) : Rat) ≤
      maxRatio * ((total (fun i => others (b i)) inputs : Nat) : Rat)

end Verif.Export.ValidateSpec
