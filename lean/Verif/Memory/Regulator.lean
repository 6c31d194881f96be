import Mathlib.Order.Defs.LinearOrder
import Mathlib.Data.Rat.Floor

/-!
# Model of the memory regulator

Models `MemoryRegulator` (`/repo/checkpoint/orbax/checkpoint/_src/serialization/memory_regulator.py:112-297`).
The numbers are of an arbitrary linearly ordered type with arbitrary operations `+ - * 0`: theorems stated for
such a type cover floating-point arithmetic with its rounding, as long as no NaN appears (NaN is not ordered).
`update_limit_bytes` is modelled over the rationals.  Logging is left out.
-/

namespace Verif.Memory.Regulator

/-- The fields of the dataclass, memory_regulator.py:139-149. -/
structure Reg (α : Type) where
  maxLimit : α
  ratio : α
  minLimit : α
  kp : α
  ki : α
  kd : α
  integral : α
  prevError : α
  prevSurge : α
  windup : α

/-- One measurement: the arguments of `get_next_memory_limit` besides the current limit. -/
structure Meas (α : Type) where
  peak : α
  surge : α
  total : α

section

variable {α : Type} [LinearOrder α] [Add α] [Sub α] [Mul α] [Neg α] [Zero α]

/-- `__post_init__`, memory_regulator.py:151-176; `none`: `ValueError`.  `windup` stands for the constant
50.0. -/
def mk (maxLimit ratio minLimit kp ki kd windup : α) : Option (Reg α) :=
  if maxLimit ≤ 0 then none
  else if minLimit ≤ 0 then none
  else if minLimit ≥ maxLimit * ratio then none
  else some { maxLimit, ratio, minLimit, kp, ki, kd, windup, integral := 0, prevError := 0, prevSurge := 0 }

/-- `max(self.min_memory_limit_gib, min(self.max_memory_limit_gib, x))`. -/
def clamp (r : Reg α) (x : α) : α := max r.minLimit (min r.maxLimit x)

/-- The adjustment, memory_regulator.py:218-259, from the history before the update. -/
def adjustment (r : Reg α) (m : Meas α) : α :=
  let error := m.total * r.ratio - m.peak
  let maxError := m.total - m.peak
  let base := r.kp * error + r.ki * r.integral + r.kd * (error - r.prevError)
  let adj := if maxError < 0 then min maxError base else base
  if m.surge > 0 then min 0 adj else adj

/-- The update of the history, memory_regulator.py:232-238. -/
def remember (r : Reg α) (m : Meas α) : Reg α :=
  let error := m.total * r.ratio - m.peak
  if m.surge = 0 then
    { r with integral := max (-r.windup) (min r.windup (r.integral + error)), prevError := error }
  else r

/-- `get_next_memory_limit`, memory_regulator.py:178-280. -/
def next (r : Reg α) (current : α) (m : Meas α) : α × Reg α :=
  let noSurge := current + r.prevSurge + adjustment r m
  let limit := clamp r (noSurge - m.surge)
  (limit, { remember r m with prevSurge := clamp r noSurge - limit })

/-- A history of calls in which each is given the limit the previous one returned, as the checkpoint handler
does (base_pytree_checkpoint_handler.py:656-664): the limits, most recent last, and the state. -/
def runFrom (r : Reg α) (current : α) : List (Meas α) → List α × α × Reg α
  | [] => ([], current, r)
  | m :: ms =>
    let p := next r current m
    let q := runFrom p.2 p.1 ms
    (p.1 :: q.1, q.2)

end

/-- `update_limit_bytes`, memory_regulator.py:282-305, over the rationals.  The measurement is what the
registered profiler reports, all zero if there is none (memory_regulator.py:79-107).  `int` truncates;
the limit is positive, so it is the floor. -/
def updateLimitBytes (r : Reg ℚ) (currentBytes : ℤ) (profiler : Option (Meas ℚ)) : ℤ × Reg ℚ :=
  let m := profiler.getD ⟨0, 0, 0⟩
  let p := next r (currentBytes / 1024 ^ 3) m
  (⌊p.1 * 1024 ^ 3⌋, p.2)

end Verif.Memory.Regulator
