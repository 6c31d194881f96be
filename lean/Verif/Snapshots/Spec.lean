import Verif.Snapshots.Model

/-! What the events of a run say. -/

namespace Verif.Snapshots.Spec

/-- The states handed over by calls of `save` that have returned and were not skipped, in order. -/
def saved : List Ev → List (Nat × List Leaf)
  | [] => []
  | .put n l :: es => (n, l) :: saved es
  | _ :: es => saved es

/-- The states the worker has finished with, whether kept or not, in order. -/
def finished : List Ev → List (Nat × List Leaf)
  | [] => []
  | .kept n l :: es => (n, l) :: finished es
  | .failed n l :: es => (n, l) :: finished es
  | .died n l :: es => (n, l) :: finished es
  | _ :: es => finished es

/-- Those that were kept, in order. -/
def kept : List Ev → List (Nat × List Leaf)
  | [] => []
  | .kept n l :: es => (n, l) :: kept es
  | _ :: es => kept es

/-- No call of `load` has reset the snapshot. -/
def NoReset (es : List Ev) : Prop := ∀ n l, Ev.loaded n l true ∉ es

/-- The step and the state `latest` and `load` go by. -/
def latest (s : St) : Option (Nat × List Leaf) := s.latest.map fun n => (n.step, n.leaves.map (·.leaf))

end Verif.Snapshots.Spec
