import Verif.Manager.InfosMoreProps

/-! Concrete cases for the theorems about the list of checkpoints, and findings. -/

namespace Verif.Manager.Infos

namespace Ex

/-- Two deletions and a query of three threads, interleaved, after an append. -/
def evs : List (Event Nat) :=
  [.call 2 (.append 4), .tick 2, .tick 2,
   .call 0 (.delete (· == 1)), .call 1 (.delete (· == 2)), .call 2 .latest, .tick 0, .tick 1, .tick 0, .tick 2, .tick 0, .tick 0, .tick 0, .tick 0,
   .tick 1, .tick 0, .tick 0, .tick 0, .tick 1, .tick 0, .tick 0, .tick 1, .tick 1, .tick 1, .tick 1, .tick 1, .tick 1, .tick 1, .tick 1, .tick 1,
   .tick 1, .tick 2, .tick 2, .tick 2]

/-- A deletion that has looked at the whole list, and an append. -/
def late : List (Event Nat) :=
  [.call 0 (.delete (· == 1)), .tick 0, .tick 0, .tick 0, .tick 0, .tick 0, .tick 0, .call 1 (.append 4), .tick 1, .tick 1, .tick 0, .tick 0, .tick 0, .tick 0]

/-- A loop of one thread, between whose steps another thread waits for the lock. -/
def looping : List (Event Nat) := [.call 0 .iter, .tick 0]

end Ex

open Ex in
/-- C91 (finding): `append` does not take the lock. An element appended while another thread's `delete_if` has looked at the
list and has not stored its result is lost, though both calls return normally and the element is not to be deleted. -/
theorem C91_append_fails :
    (run (init [1, 2, 3]) late).code 0 = [] ∧ (run (init [1, 2, 3]) late).code 1 = [] ∧
    called (init [1, 2, 3]) 1 late = [.append 4] ∧
    content (run (init [1, 2, 3]) late) = [2, 3] :=
  ⟨rfl, rfl, rfl, rfl⟩

open Ex in
/-- C91 (finding): also an `append` whose list object was replaced by `set` between its two steps is lost. -/
theorem C91_append_set_fails :
    content (run (init [1]) [.call 1 (.append 4), .tick 1, .call 0 (.set [2]), .tick 0, .tick 0, .tick 0, .tick 1]) = [2] := rfl

open Ex in
/-- C91: the hypothesis of `C91_linear` holds for an interleaved run in which all operations complete. -/
theorem C91_linear_nonvacuous :
    Quiet (init [1, 2, 3]) evs ∧ (effects (init [1, 2, 3]) evs).length = 4 ∧ content (run (init [1, 2, 3]) evs) = [3, 4] ∧
    (∀ t < 3, (run (init [1, 2, 3]) evs).code t = []) ∧ (effects (init [1, 2, 3]) evs).map (·.answer) = [none, none, none, some 4] := by
  refine ⟨?_, rfl, rfl, ?_, rfl⟩
  · simp only [evs, Quiet, QuietEvent, and_true, true_and]
    refine ⟨?_, ?_, ?_⟩
    · intro u hu o ho; exact nomatch ho
    · intro u hu o ho
      have : u = 2 ∨ u ≠ 2 := by omega
      rcases this with rfl | h2
      · exact nomatch ho
      · simp [step, tick, init, goto, ready, compile, h2, pending] at ho
    · intro u hu o ho
      have : u = 0 ∨ u = 2 ∨ (u ≠ 0 ∧ u ≠ 2) := by omega
      rcases this with rfl | rfl | ⟨h0, h2⟩
      · simp [step, tick, init, goto, ready, compile, pending] at ho; subst ho; exact id
      · exact nomatch ho
      · simp [step, tick, init, goto, ready, compile, h0, h2, pending] at ho
  · intro t ht
    have : t = 0 ∨ t = 1 ∨ t = 2 := by omega
    rcases this with rfl | rfl | rfl <;> rfl

open Ex in
/-- C91: the hypotheses of `C91_loop` hold; meanwhile another thread waits and the same thread deletes. -/
theorem C91_loop_nonvacuous :
    let evs' : List (Event Nat) := [.tick 0, .call 0 (.delete (· == 2)), .tick 0, .tick 0, .tick 0, .tick 0, .tick 0, .tick 0, .tick 0, .tick 0, .tick 0, .tick 0,
      .call 1 (.set []), .tick 1, .tick 0, .tick 0]
    (run (init [1, 2, 3]) looping).code 0 = .loop :: [.exit] ∧
    (run (run (init [1, 2, 3]) looping) (.tick 0 :: evs')).code 0 = .next (run (init [1, 2, 3]) looping).cur 3 [1, 2, 3] :: [.exit] ∧
    content (run (run (init [1, 2, 3]) looping) (.tick 0 :: evs')) = [1, 3] ∧
    (step (run (run (init [1, 2, 3]) looping) (.tick 0 :: evs')) (.tick 0)).1.code 0 = [.exit] :=
  ⟨rfl, rfl, rfl, rfl⟩

open Ex in
/-- C91: the hypotheses of `C91_timeout_fails` hold: one thread sets the list, another one waits for the lock to read the
latest element. -/
theorem C91_timeout_nonvacuous :
    (run (init [1]) [.call 0 (.set [1, 2]), .tick 0, .call 1 .latest, .tick 0]).code 0 = [.exit] ∧
    (run (init [1]) [.call 0 (.set [1, 2]), .tick 0, .call 1 .latest, .tick 0]).code 1 = .enter :: [.last, .exit] :=
  ⟨rfl, rfl⟩

open Ex in
/-- C91: the hypotheses of `C91_released` hold after an operation of another thread. -/
theorem C91_released_nonvacuous :
    let s := run (init [1]) [.call 0 (.set [1, 2]), .tick 0, .call 1 .latest, .tick 0, .tick 1, .tick 0]
    s.code 1 = .enter :: [.last, .exit] ∧ (∀ u, u ≠ 1 → opens (s.code u) = 0) ∧ (step s (.tick 1)).1.code 1 = [.last, .exit] := by
  refine ⟨rfl, ?_, rfl⟩
  intro u hu
  have : u = 0 ∨ u ≠ 0 := by omega
  rcases this with rfl | h0
  · rfl
  · simp [run, step, tick, init, goto, ready, compile, h0, hu, opens]

end Verif.Manager.Infos
