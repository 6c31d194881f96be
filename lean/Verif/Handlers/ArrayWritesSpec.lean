import Verif.Handlers.ArrayWrites

/-!
# Specification of saving arrays (C120)
-/

namespace Verif.Handlers.ArrayWrites

/-- The caller wants the array transferred before `serialize` returns: there is no limit, or its priority
says so. -/
def wantsSync (c : Cfg) (p : Param) : Bool :=
  decide (c.maxBytes = none) || decide (c.priority p.name = .synchronous)

/-- The array is to be transferred in the background with priority. -/
def wantsPrio (c : Cfg) (p : Param) : Bool :=
  decide (c.maxBytes ≠ none) && decide (c.priority p.name = .asyncPrioritized)

/-- The array is to be transferred in the background without priority. -/
def wantsLate (c : Cfg) (p : Param) : Bool :=
  decide (c.maxBytes ≠ none) && decide (c.priority p.name = .asyncDeprioritized)

/-- What happened to an array, in order. -/
def track (p : Param) (log : List (Kind × Param)) : List Kind :=
  (log.filter fun e => decide (e.2 = p)).map Prod.fst

/-- The transfer of the array has been enqueued and it has not been written. -/
def inFlight (p : Param) (log : List (Kind × Param)) : Prop :=
  .enqueued ∈ track p log ∧ .written ∉ track p log

/-- The arrays in the order in which their transfers were enqueued. -/
def enqueuedOrder (log : List (Kind × Param)) : List Param :=
  (log.filter fun e => decide (e.1 = .enqueued)).map Prod.snd

end Verif.Handlers.ArrayWrites
