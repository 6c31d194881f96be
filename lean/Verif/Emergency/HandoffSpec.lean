import Verif.Emergency.Handoff

/-! What C104 says of a log: it mentions only effects, not the controller's state. -/

namespace Verif.Emergency.Handoff

/-- The workers answered, and if they saved, the dataset was handed over. -/
def Passed (i : Nat) (d : Bool) (L : List Eff) : Prop :=
  ∃ r, Eff.answer i (.ok r) ∈ L ∧ (r = true → d = true → ∃ st o, Eff.dataset i st (.returned o) ∈ L)

/-- And the workers were waited for. -/
def Settled (i : Nat) (d : Bool) (L : List Eff) : Prop :=
  ∃ r, Eff.answer i (.ok r) ∈ L ∧
    (r = true → (d = true → ∃ st o, Eff.dataset i st (.returned o) ∈ L) ∧ ∃ w, Eff.waited (some i) w ∈ L)

/-- The highest step, other than 0, that every worker has. -/
def LatestCommon (workers : List (List Int)) (x : Int) : Prop :=
  x ≠ 0 ∧ (∀ w ∈ workers, x ∈ w) ∧ ∀ y, y ≠ 0 → (∀ w ∈ workers, y ∈ w) → y ≤ x

end Verif.Emergency.Handoff
