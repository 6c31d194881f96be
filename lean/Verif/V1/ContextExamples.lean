import Verif.V1.ContextMoreProps

/-!
# Contexts: concrete cases and findings for C90
-/

namespace Verif.V1.Context

open Verif (Assoc.get)

/-- C90 (finding): the options of a context that is active in a thread are not frozen for other threads: a new thread
can set any option of any context. -/
theorem C90_other_thread_fails (dflt : Defaults) (limit : Nat) (s : State) (e' : Nat) (he : s.exec e' = none) (i : Nat) (o : Obj)
    (ho : s.heap[i]? = some o) (hk : o.kind = .options) (name : String) (v : Val) :
    attr (run dflt limit s [.thread e', .setattr e' i name v]).heap i name = some v := by
  have hlt : i < s.heap.length := by
    rcases Nat.lt_or_ge i s.heap.length with hl | hl
    · exact hl
    · rw [List.getElem?_eq_none hl] at ho; cases ho
  have hr : refused (putExec s e' ⟨⟨none, []⟩, []⟩) e' i name = false := by simp [refused, putExec, ho, hk]
  simp only [run, List.foldl, step, he, hr]
  simp [putExec, assign, ho, attr, hlt]

/-- C90 (finding): lists, sets and dictionaries in the options of an active context can be changed in place, in the
same thread and in the block. -/
theorem C90_container_fails (dflt : Defaults) (limit : Nat) (s : State) (e : Nat) (he : (s.exec e).isSome) (i : Nat) (o : Obj)
    (ho : s.heap[i]? = some o) (hk : o.kind = .container) (name : String) (v : Val) :
    attr (step dflt limit s (.poke e i name v)).heap i name = some v := by
  have hlt : i < s.heap.length := by
    rcases Nat.lt_or_ge i s.heap.length with hl | hl
    · exact hl
    · rw [List.getElem?_eq_none hl] at ho; cases ho
  obtain ⟨x, hx⟩ := Option.isSome_iff_exists.mp he
  simp only [step, hx, ho, hk, assign]
  simp [attr, hlt]

namespace Ex

/-- The default options: an options object with a nested one. -/
def dflt : Defaults := fun n =>
  if n = "checkpoint_layout" then ([], .atom 0)
  else if n = "multiprocessing" then ([⟨.options, [("active", .ref 1)]⟩, ⟨.container, [("0", .atom 0)]⟩], .ref 0)
  else ([⟨.options, [("x", .atom 1), ("saving", .ref 1)]⟩, ⟨.options, [("zarr3", .atom 1)]⟩], .ref 0)

/-- Two contexts; 0 has options 1 with the nested 2 and a container 3. -/
def heap : List Obj :=
  [⟨.context, [("array", .ref 1), ("checkpoint_layout", .atom 0)]⟩, ⟨.options, [("x", .atom 1), ("saving", .ref 2), ("list", .ref 3)]⟩,
   ⟨.options, [("zarr3", .atom 1)]⟩, ⟨.container, [("0", .atom 5)]⟩, ⟨.context, [("array", .ref 5)]⟩, ⟨.options, [("x", .atom 9)]⟩]

def s : State := ⟨heap, fun e => if e = 0 then some ⟨⟨none, []⟩, []⟩ else none⟩

/-- In the block: refused assignments, a nested block, and a task that tries as well. -/
def evs : List Event := [.setattr 0 2 "zarr3" (.atom 0), .enter 0 4, .setattr 0 1 "x" (.atom 3), .task 0 7, .leave 0, .setattr 7 2 "zarr3" (.atom 0)]

theorem isOpen : Open dflt 20 (step dflt 20 s (.enter 0 0)) 0 (depth s 0) evs := by
  refine ⟨?_, ?_, ?_, ?_, ?_, ?_, ?_⟩
  all_goals (show (_ : Nat) < _; decide)

theorem family : Family dflt 20 (step dflt 20 s (.enter 0 0)) [0] evs := by
  refine ⟨by intro e h; simp [actor] at h; simp [← h], by rintro _ _ ⟨⟩, by rintro _ _ ⟨⟩, fun _ => ?_⟩
  refine ⟨by intro e h; simp [actor] at h; simp [← h], by rintro _ _ ⟨⟩, by rintro _ _ ⟨⟩, fun _ => ?_⟩
  refine ⟨by intro e h; simp [actor] at h; simp [← h], by rintro _ _ ⟨⟩, by rintro _ _ ⟨⟩, fun _ => ?_⟩
  refine ⟨by intro e h; simp [actor] at h; simp [← h], by rintro _ _ ⟨⟩; rfl, ?_, fun h => absurd rfl (h 0 7)⟩
  rintro _ _ ⟨⟩
  refine ⟨by intro e h; simp [actor] at h; simp [← h], by rintro _ _ ⟨⟩, by rintro _ _ ⟨⟩, fun _ => ?_⟩
  refine ⟨by intro e h; simp [actor] at h; simp [← h], by rintro _ _ ⟨⟩, by rintro _ _ ⟨⟩, fun _ => ?_⟩
  trivial

end Ex

open Ex in
/-- C90: the hypotheses of `C90_scope` hold for a block with a nested block. -/
theorem C90_scope_nonvacuous : getContext (run dflt 20 s (.enter 0 0 :: evs)) 0 none = some 0 ∧
    (run dflt 20 s (.enter 0 0 :: evs ++ [.leave 0])).exec 0 = s.exec 0 :=
  let h := C90_scope dflt 20 s 0 0 evs rfl isOpen (by decide)
  ⟨h.1 none, h.2⟩

open Ex in
/-- C90: the hypotheses of `C90_frozen` hold for it, with assignments in the block and in a task. -/
theorem C90_frozen_nonvacuous :
    follow (run dflt 20 s (.enter 0 0 :: evs)).heap (.ref 0) ["array", "saving", "zarr3"] = some (.atom 1) := by
  rw [C90_frozen dflt 20 s 0 0 evs rfl isOpen family (by simp [evs]) "array" (.ref 1) rfl ["saving", "zarr3"]
    ⟨_, rfl, .inl rfl, by rintro v ⟨⟩; exact ⟨_, rfl, .inl rfl, by rintro v ⟨⟩; trivial⟩⟩]
  rfl

open Ex in
/-- C90: without the block the same assignments succeed. -/
theorem C90_frozen_sharp : follow (run dflt 20 s evs).heap (.ref 0) ["array", "saving", "zarr3"] = some (.atom 0) := by decide

open Ex in
/-- C90: the hypotheses of `C90_thread` and `C90_task` hold. -/
theorem C90_thread_nonvacuous : getContext (run dflt 20 (step dflt 20 s (.enter 0 0)) [.thread 3, .enter 3 4, .leave 3]) 3 none = none ∧
    getContext (run dflt 20 (step dflt 20 s (.enter 0 0)) [.task 0 3, .leave 0]) 3 none = some 0 :=
  ⟨C90_thread dflt 20 _ 3 rfl [.enter 3 4, .leave 3] (by decide) none, C90_task dflt 20 _ 0 3 rfl rfl [.leave 0] (by decide) none⟩

open Ex in
theorem Ex.sound : Sound dflt heap (some 0) (fun n => if n = "file" then some (.ref 5) else none) := by
  refine ⟨?_, ?_, ?_, ?_⟩
  · intro n
    unfold dflt
    split
    · exact ⟨by simp [Closed], trivial⟩
    · split
      · refine ⟨?_, by simp [InRange]⟩
        intro o ho p hp
        simp only [List.mem_cons, List.not_mem_nil, or_false] at ho
        rcases ho with rfl | rfl <;> simp only [List.mem_cons, List.not_mem_nil, or_false] at hp <;> subst hp <;> simp [InRange]
      · refine ⟨?_, by simp [InRange]⟩
        intro o ho p hp
        simp only [List.mem_cons, List.not_mem_nil, or_false] at ho
        rcases ho with rfl | rfl <;> simp only [List.mem_cons, List.not_mem_nil, or_false] at hp
        · rcases hp with rfl | rfl <;> simp [InRange]
        · subst hp; simp [InRange]
  · intro o ho p hp
    simp only [heap, List.mem_cons, List.not_mem_nil, or_false] at ho
    rcases ho with rfl | rfl | rfl | rfl | rfl | rfl <;> simp only [List.mem_cons, List.not_mem_nil, or_false] at hp
    · rcases hp with rfl | rfl <;> simp [InRange, heap]
    · rcases hp with rfl | rfl | rfl <;> simp [InRange, heap]
    · subst hp; simp [InRange]
    · subst hp; simp [InRange]
    · subst hp; simp [InRange, heap]
    · subst hp; simp [InRange]
  · intro n v h
    split at h
    · cases h; simp [InRange, heap]
    · cases h
  · rintro i ⟨⟩; simp [heap]

open Ex in
/-- C90: a child takes `array` from its parent, `file` from the argument and `memory` from the defaults. -/
theorem C90_inherits_nonvacuous (g : String → Option Val) (hg : g = fun n => if n = "file" then some (.ref 5) else none) :
    atomAt (newContext dflt heap (some 0) g).1 (.ref (newContext dflt heap (some 0) g).2) ["array", "saving", "zarr3"] = some 1 ∧
    atomAt (newContext dflt heap (some 0) g).1 (.ref (newContext dflt heap (some 0) g).2) ["file", "x"] = some 9 ∧
    atomAt (newContext dflt heap (some 0) g).1 (.ref (newContext dflt heap (some 0) g).2) ["memory", "x"] = some 1 := by
  subst hg
  refine ⟨?_, ?_, ?_⟩
  · rw [C90_inherits dflt heap (some 0) _ sound "array" (by decide)]; rfl
  · rw [C90_inherits dflt heap (some 0) _ sound "file" (by decide)]; rfl
  · rw [C90_inherits dflt heap (some 0) _ sound "memory" (by decide)]; rfl

open Ex in
/-- C90: the hypotheses of the independence theorems hold: an option of the parent is changed, the child is not. -/
theorem C90_child_independent_nonvacuous (g : String → Option Val) (hg : g = fun n => if n = "file" then some (.ref 5) else none) :
    atomAt (run dflt 20 s [.new (some 0) g, .setattr 0 2 "zarr3" (.atom 0)]).heap (.ref (newContext dflt heap (some 0) g).2) ["array", "saving", "zarr3"] = some 1 := by
  have := C90_child_independent dflt 20 s (some 0) g (by subst hg; exact sound) [.setattr 0 2 "zarr3" (.atom 0)] (by
    intro e i n v h hi
    simp only [List.mem_singleton, Event.setattr.injEq, reduceCtorEq, or_false] at h
    obtain ⟨-, rfl, -, -⟩ := h
    have : s.heap.length = 6 := rfl
    omega) ["array", "saving", "zarr3"]
  have h2 := (C90_inherits_nonvacuous g hg).1
  unfold atomAt at h2 ⊢
  rw [show (newContext dflt heap (some 0) g) = (newContext dflt s.heap (some 0) g) from rfl, this]
  exact h2

open Ex in
/-- C90: the hypotheses of `C90_new_is_mutable` hold inside the block of another context. -/
theorem C90_new_is_mutable_nonvacuous :
    attr (run dflt 90 start ([.new none (fun _ => none), .enter 0 22] ++ [.new none (fun _ => none), .setattr 0 23 "x" (.atom 8)])).heap 23 "x" = some (.atom 8) ∧
    depth (run dflt 90 start [.new none (fun _ => none), .enter 0 22]) 0 = 1 :=
  ⟨C90_new_is_mutable dflt 90 [.new none (fun _ => none), .enter 0 22] none (fun _ => none) 0 23 "x" (.atom 8) ⟨.options, [("x", .atom 1), ("saving", .ref 24)]⟩
    rfl (by decide) rfl rfl, rfl⟩

end Verif.V1.Context
