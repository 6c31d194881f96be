/-
Background operations (C109): `AsyncRunner`, the event loop in a thread of its own,
and `BackgroundThreadRunner`, the response that waits for one operation in it.

The theorems are about the log of what can be seen from outside, for every
history: every number of coroutines and threads, every interleaving, every way in
which coroutines suspend, start further tasks, return, raise or are cancelled.
-/
import Verif.Async.RunnerProgress
import Verif.Async.ResponseLemmas

namespace Verif.Runner.Props

open Verif.Runner

/-! ## Specification -/

/-- `shutdown` was called exactly once, with `wait=True`. -/
def OnlyWaitingCall (l : List Obs) : Prop :=
  ∃ c, l.filter (fun | .asked _ _ => true | _ => false) = [.asked true c]

/-- `shutdown` was called. -/
def Called (l : List Obs) : Prop := ∃ w c, Obs.asked w c ∈ l

/-- A log that a history produces. -/
def Seen (s : State) (l : List Obs) : Prop :=
  ∃ es, exec State.new es = some s ∧ s.log = l

theorem asks_of {l : List Obs} (h : OnlyWaitingCall l) : asks l = [true] := by
  obtain ⟨c, h⟩ := h
  have : asks l = (l.filter (fun | .asked _ _ => true | _ => false)).filterMap
      (fun | .asked w _ => some w | _ => none) := by
    clear h
    induction l with
    | nil => rfl
    | cons x l ih =>
      cases x <;> simp_all [asks, List.filter_cons, List.filterMap_cons]
  rw [this, h]; rfl

theorem called_iff (l : List Obs) : Called l ↔ asks l ≠ [] := by
  unfold Called
  induction l with
  | nil => simp [asks]
  | cons x l ih =>
    cases x with
    | asked w c =>
      simp only [asks, List.filterMap_cons]
      constructor
      · intro _ h; cases h
      · intro _; exact ⟨w, c, by simp⟩
    | _ =>
      simp only [asks, List.filterMap_cons, List.mem_cons, reduceCtorEq, false_or] at ih ⊢
      exact ih

theorem seen_inv {s : State} {l : List Obs} (h : Seen s l) : Inv s := by
  obtain ⟨es, h, _⟩ := h
  exact exec_keeps inv_new h

theorem seen_ok {s : State} {pre : List Obs} {x : Obs} {post : List Obs}
    (h : Seen s (pre ++ x :: post)) : Ok pre x := by
  obtain ⟨es, he, hl⟩ := h
  exact (exec_keeps inv_new he).b.sound pre x post hl

/-! ## Theorems -/

/-- C109: when `shutdown(wait=True)` returns, every coroutine that was handed to
the runner has ended and its future has the outcome, whatever the coroutines do
(also if some raise or are cancelled). -/
theorem C109_waits {s : State} {pre post : List Obs}
    (h : Seen s (pre ++ .returned :: post)) (hw : OnlyWaitingCall pre) (k : Nat)
    (hk : Obs.accepted k ∈ pre) : ∃ o, Obs.ended k o ∈ pre ∧ Obs.resolved k o ∈ pre := by
  obtain ⟨o, ho⟩ := seen_ok h (asks_of hw) k hk
  refine ⟨o, ?_, ho⟩
  obtain ⟨p, q, rfl⟩ := List.append_of_mem ho
  have h' : Seen s (p ++ .resolved k o :: (q ++ .returned :: post)) := by simpa using h
  have := (seen_ok h').2.1
  exact List.mem_append_left _ this

/-- C109: after that nothing runs any more in the background. -/
theorem C109_quiet {s : State} {pre mid post : List Obs} {x : Obs}
    (h : Seen s (pre ++ .returned :: mid ++ x :: post)) (hw : OnlyWaitingCall pre)
    (k : Nat) (o : Outcome) : x ≠ .ran k ∧ x ≠ .ended k o ∧ x ≠ .resolved k o := by
  have hd : Down (pre ++ .returned :: mid) := ⟨pre, mid, rfl, asks_of hw⟩
  have hok := seen_ok h
  refine ⟨?_, ?_, ?_⟩
  · rintro rfl; exact hok.1 hd
  · rintro rfl; exact hok.1 hd
  · rintro rfl; exact hok.1 hd

/-- C109: a coroutine is taken exactly while `shutdown` has not been called;
afterwards RuntimeError is raised, and the coroutine never runs. -/
theorem C109_accepts {s : State} {pre post : List Obs} {k : Nat} :
    (Seen s (pre ++ .accepted k :: post) → ¬ Called pre) ∧
    (Seen s (pre ++ .refused k :: post) → Called pre) := by
  refine ⟨fun h => ?_, fun h => ?_⟩
  · rw [called_iff]
    have := (seen_ok h).1
    simp [this]
  · rw [called_iff]; exact seen_ok h

/-- C109: a future has the outcome of its coroutine, a coroutine ends once and
does not run afterwards, and its future is resolved once. -/
theorem C109_outcome {s : State} {pre post : List Obs} {k : Nat} {o : Outcome} :
    (Seen s (pre ++ .resolved k o :: post) →
      Obs.ended k o ∈ pre ∧ ∀ o', Obs.resolved k o' ∉ pre) ∧
    (Seen s (pre ++ .ended k o :: post) → ∀ o', Obs.ended k o' ∉ pre) ∧
    (Seen s (pre ++ .ran k :: post) → ∀ o', Obs.ended k o' ∉ pre) := by
  refine ⟨fun h => ?_, fun h => ?_, fun h => ?_⟩
  · exact ⟨(seen_ok h).2.1, (seen_ok h).2.2⟩
  · exact (seen_ok h).2.2
  · exact (seen_ok h).2

theorem back_down {s : State} (hi : Inv s) (h0 : pending s) {es : List Event} {s' : State}
    (h : exec s es = some s') (hb : s'.caller = .back) :
    ∃ mid, s'.log = s.log ++ mid ∧ Obs.returned ∈ mid := by
  clear hi
  induction es generalizing s with
  | nil =>
    cases h
    rcases h0 with h | h <;> (rw [hb] at h; cases h)
  | cons e es ih =>
    simp only [exec] at h
    cases hst : step s e with
    | none => rw [hst] at h; cases h
    | some s1 =>
      rw [hst] at h
      simp only at h
      -- the log only grows
      have grow : ∀ (e : Event) (s s1 : State), step s e = some s1 →
          ∃ m, s1.log = s.log ++ m ∧
            (s1.caller = .back → s.caller = .back ∨ Obs.returned ∈ m) ∧
            (pending s → pending s1 ∨ s1.caller = .back) := by
        intro e s s1 hst
        cases e with
        | submit k =>
          simp only [step] at hst
          split at hst
          · cases hst
          · cases hst
            unfold submit
            split
            · exact ⟨_, rfl, Or.inl, Or.inl⟩
            · exact ⟨_, rfl, Or.inl, Or.inl⟩
        | shutdown w c =>
          simp only [step, Option.some.injEq] at hst
          subst hst
          unfold shutdown
          split
          · exact ⟨_, rfl, Or.inl, Or.inl⟩
          · split
            · exact ⟨_, rfl, (fun h => by cases h), fun _ => Or.inl (Or.inl rfl)⟩
            · exact ⟨_, rfl, Or.inl, Or.inl⟩
        | goOn =>
          simp only [step, goOn] at hst
          split at hst
          · split at hst
            · cases hst
              exact ⟨[], by simp, (fun h => by cases h), fun _ => Or.inl (Or.inr rfl)⟩
            · cases hst
          · split at hst
            · cases hst
              exact ⟨_, rfl, fun _ => Or.inr (by simp), fun _ => Or.inr rfl⟩
            · cases hst
          · cases hst
        | wake k =>
          simp only [step, wake] at hst
          split at hst
          · cases hst
          · split at hst
            · cases hst; exact ⟨[], by simp, Or.inl, Or.inl⟩
            · cases hst
        | iterate =>
          simp only [step, iterate] at hst
          split at hst
          · cases hst
          · split at hst
            · cases hst
            · split at hst
              · cases hst; exact ⟨[], by simp, Or.inl, Or.inl⟩
              · cases hst; exact ⟨[], by simp, Or.inl, Or.inl⟩
        | run a =>
          simp only [step] at hst
          split at hst
          · cases hst
          · cases hb : s.batch with
            | nil => simp only [hb] at hst; cases hst
            | cons x r =>
              simp only [hb] at hst
              cases x with
              | create k => cases hst; exact ⟨[], by simp, Or.inl, Or.inl⟩
              | step k =>
                simp only [runHandle] at hst
                split at hst
                · cases hst
                  cases a with
                  | suspend cs => exact ⟨_, rfl, Or.inl, Or.inl⟩
                  | again cs => exact ⟨_, rfl, Or.inl, Or.inl⟩
                  | finish cs o =>
                    exact ⟨[.ran k, .ended k o], by simp [stepTask], Or.inl, Or.inl⟩
                · cases hst
              | notify k =>
                cases hst
                simp only [notify]
                split
                · split
                  · split
                    · exact ⟨_, rfl, Or.inl, Or.inl⟩
                    · exact ⟨_, rfl, Or.inl, Or.inl⟩
                  · exact ⟨_, rfl, Or.inl, Or.inl⟩
                · exact ⟨_, rfl, Or.inl, Or.inl⟩
              | createShutdown => cases hst; exact ⟨[], by simp, Or.inl, Or.inl⟩
              | stepShutdown =>
                cases hst
                simp only [stepShutdown]
                split
                · exact ⟨[], by simp, Or.inl, Or.inl⟩
                · split
                  · exact ⟨[], by simp, Or.inl, Or.inl⟩
                  · exact ⟨[], by simp, Or.inl, Or.inl⟩
              | resumeShutdown => cases hst; exact ⟨[], by simp, Or.inl, Or.inl⟩
              | notifyShutdown => cases hst; exact ⟨[], by simp, Or.inl, Or.inl⟩
              | stop => cases hst; exact ⟨[], by simp, Or.inl, Or.inl⟩
      have hgrow : ∀ (es : List Event) (s s' : State), exec s es = some s' →
          ∃ m, s'.log = s.log ++ m := by
        intro es
        induction es with
        | nil => intro s s' h; cases h; exact ⟨[], by simp⟩
        | cons e es ih =>
          intro s s' h
          simp only [exec] at h
          cases hst : step s e with
          | none => rw [hst] at h; cases h
          | some s1 =>
            rw [hst] at h
            obtain ⟨m, hm, _⟩ := grow e s s1 hst
            obtain ⟨m', hm'⟩ := ih s1 s' h
            exact ⟨m ++ m', by rw [hm', hm]; simp⟩
      obtain ⟨m, hm, h1, h2⟩ := grow e s s1 hst
      rcases h2 h0 with hp | hp
      · obtain ⟨mid, hl, hr⟩ := ih hp h
        exact ⟨m ++ mid, by rw [hl, hm]; simp, List.mem_append_right _ hr⟩
      · rcases h1 hp with hc | hc
        · rcases h0 with h | h <;> (rw [hc] at h; cases h)
        · obtain ⟨m', hm'⟩ := hgrow es s1 s' h
          exact ⟨m ++ m', by rw [hm', hm]; simp, List.mem_append_left _ hc⟩

/-- C109: a waiting `shutdown` cannot get stuck: wherever the history stands while
the call is open, it can go on (with every coroutine ending some time) until the
call returns. -/
theorem C109_returns {s : State} {l : List Obs} (h : Seen s l)
    (hp : s.caller = .waiting ∨ s.caller = .joining) :
    ∃ es s' mid, exec s es = some s' ∧ s'.log = l ++ mid ∧ Obs.returned ∈ mid := by
  have hi := seen_inv h
  obtain ⟨_, _, hl⟩ := h
  obtain ⟨es, s', he, hb⟩ := can_return _ (Nat.le_refl _) hi hp
  obtain ⟨mid, hm, hr⟩ := back_down hi hp he hb
  exact ⟨es, s', mid, he, hl ▸ hm, hr⟩

/-- C109: `shutdown(cancel=True)` wakes whatever is suspended: it can return
without any of the things happening that the coroutines wait for (if they do not
refuse to be cancelled). -/
theorem C109_cancels {s s1 : State} {l : List Obs} (h : Seen s l) (hc : ¬ Called l)
    (hs : step s (.shutdown true true) = some s1) :
    ∃ es s' mid, (∀ k, Event.wake k ∉ es) ∧ exec s1 es = some s' ∧
      s'.log = s1.log ++ mid ∧ Obs.returned ∈ mid := by
  have hi := seen_inv h
  obtain ⟨_, _, hl⟩ := h
  have hcl : s.closed = false := by
    cases hcl : s.closed with
    | false => rfl
    | true =>
      have := hi.b.closed.mp hcl
      rw [hl, ← called_iff] at this
      exact absurd this hc
  have hi1 := step_keeps hi hs
  simp only [step, shutdown, hcl, Option.some.injEq] at hs
  have hp : pending s1 := by subst hs; exact Or.inl rfl
  have hw : NoWait s1 := by subst hs; exact ⟨rfl, Or.inl rfl⟩
  obtain ⟨es, s', h1, h2, h3⟩ := can_return_nowait _ (Nat.le_refl _) hi1 hp hw
  obtain ⟨mid, hm, hr⟩ := back_down hi1 hp h2 h3
  exact ⟨es, s', mid, h1, h2, hm, hr⟩

theorem exited_stays {s s' : State} {e : Event} (hx : s.exited = true)
    (h : step s e = some s') : s'.exited = true ∧ s'.future = s.future ∧
    (∀ k o, Obs.ended k o ∈ s'.log → Obs.ended k o ∈ s.log) := by
  cases e with
  | submit k =>
    simp only [step] at h
    split at h
    · cases h
    · cases h
      unfold submit
      split
      · exact ⟨hx, rfl, by simp⟩
      · exact ⟨hx, rfl, by simp⟩
  | shutdown w c =>
    simp only [step, Option.some.injEq] at h
    subst h
    unfold shutdown
    split
    · exact ⟨hx, rfl, by simp⟩
    · split
      · exact ⟨hx, rfl, by simp⟩
      · exact ⟨hx, rfl, by simp⟩
  | goOn =>
    simp only [step, goOn] at h
    split at h
    · split at h
      · cases h; exact ⟨hx, rfl, fun _ _ h => h⟩
      · cases h
    · rw [if_pos hx] at h
      cases h; exact ⟨hx, rfl, by simp⟩
    · cases h
  | wake k => simp [step, wake, hx] at h
  | iterate => simp [step, iterate, hx] at h
  | run a => simp [step, hx] at h

theorem exited_forever {es : List Event} : ∀ {s s' : State}, s.exited = true →
    exec s es = some s' → s'.future = s.future ∧
    (∀ k o, Obs.ended k o ∈ s'.log → Obs.ended k o ∈ s.log) := by
  induction es with
  | nil => intro s s' _ h; cases h; exact ⟨rfl, fun _ _ h => h⟩
  | cons e es ih =>
    intro s s' hx h
    simp only [exec] at h
    cases hst : step s e with
    | none => rw [hst] at h; cases h
    | some s1 =>
      rw [hst] at h
      obtain ⟨h1, h2, h3⟩ := exited_stays hx hst
      obtain ⟨h4, h5⟩ := ih h1 h
      exact ⟨h4.trans h2, fun k o hk => h3 k o (h5 k o hk)⟩

/-- A history: coroutine 0 is suspended when `shutdown(wait=False)` is called. -/
def abandoned : List Event :=
  [.submit 0, .iterate, .run (.suspend []), .iterate, .run (.suspend []),
   .shutdown false false, .iterate, .run (.suspend []), .run (.suspend []), .iterate]

/-- C109 (finding): `shutdown(wait=False)` does not let the pending coroutines
finish without waiting for them: it abandons them.  The loop is told to stop right
after `_shutdown_tasks` was scheduled, so that a coroutine suspended at that time
never ends, and its future is never resolved: whoever waits for it waits forever.
A later `shutdown(wait=True)` returns at once and changes nothing. -/
theorem C109_nowait_fails :
    ∃ s l, Seen s l ∧ Obs.accepted 0 ∈ l ∧ Obs.returned ∈ l ∧
      ∀ es s', exec s (.shutdown true false :: es) = some s' →
        s'.future 0 = none ∧ ∀ o, Obs.ended 0 o ∉ s'.log ∧ Obs.resolved 0 o ∉ s'.log := by
  have hex : ∃ s, exec State.new abandoned = some s ∧ s.exited = true ∧ s.future 0 = none ∧
      s.log = [.accepted 0, .ran 0, .asked false false, .returned] :=
    ⟨_, rfl, rfl, rfl, rfl⟩
  obtain ⟨s, he, hx, hf, hl⟩ := hex
  refine ⟨s, s.log, ⟨abandoned, he, rfl⟩, by simp [hl], by simp [hl], ?_⟩
  intro es s' h
  obtain ⟨h1, h2⟩ := exited_forever hx h
  have hf' : s'.future 0 = none := by rw [h1]; exact hf
  refine ⟨hf', fun o => ⟨fun ho => ?_, fun ho => ?_⟩⟩
  · have := h2 0 o ho
    simp [hl] at this
  · have hi : Inv s' := exec_keeps (exec_keeps inv_new he) h
    rw [(hi.a.future 0 o).mpr ho] at hf'; cases hf'

/-- A history: coroutine 0 starts task 1 after `shutdown(wait=True)` has looked for
tasks. -/
def orphan : List Event :=
  [.submit 0, .iterate, .run (.suspend []), .iterate, .run (.suspend []),
   .shutdown true false, .iterate, .run (.suspend []), .iterate, .run (.suspend []),
   .wake 0, .iterate, .run (.finish [1] (.value 7)), .iterate, .run (.suspend []),
   .run (.suspend []), .iterate, .run (.suspend []), .iterate, .run (.suspend []),
   .goOn, .iterate, .run (.suspend []), .iterate, .goOn]

/-- C109 (finding): a task that a coroutine starts after `shutdown(wait=True)` has
looked for tasks is not waited for, although the documentation says that all tasks
are: it is abandoned, and never ends. -/
theorem C109_children_fails :
    ∃ s l, Seen s l ∧ OnlyWaitingCall l ∧ Obs.returned ∈ l ∧ Obs.ran 1 ∈ l ∧
      ∀ es s', exec s es = some s' → ∀ o, Obs.ended 1 o ∉ s'.log := by
  have hex : ∃ s, exec State.new orphan = some s ∧ s.exited = true ∧
      s.log = [.accepted 0, .ran 0, .asked true false, .ran 0, .ended 0 (.value 7),
        .ran 1, .resolved 0 (.value 7), .returned] := ⟨_, rfl, rfl, rfl⟩
  obtain ⟨s, he, hx, hl⟩ := hex
  refine ⟨s, s.log, ⟨orphan, he, rfl⟩, ⟨false, by simp [hl]⟩, by simp [hl],
    by simp [hl], ?_⟩
  intro es s' h o ho
  have := (exited_forever hx h).2 1 o ho
  simp [hl] at this

/-- A history with two coroutines, one of which raises, and a waiting shutdown. -/
theorem C109_nonvacuous : ∃ s pre post, Seen s (pre ++ .returned :: post) ∧
    OnlyWaitingCall pre ∧ Obs.accepted 0 ∈ pre ∧ Obs.accepted 1 ∈ pre ∧
    Obs.ended 0 (.error 5) ∈ pre ∧ Obs.ended 1 (.value 9) ∈ pre ∧
    post = [.refused 2] := by
  refine ⟨_, [.accepted 0, .accepted 1, .ran 0, .ran 1, .asked true true, .ran 1,
    .ran 1, .ended 1 (.value 9), .ran 0, .ended 0 (.error 5),
    .resolved 1 (.value 9), .resolved 0 (.error 5)], [.refused 2],
    ⟨[.submit 0, .submit 1, .iterate, .run (.suspend []), .run (.suspend []), .iterate,
      .run (.suspend []), .run (.again []), .shutdown true true, .iterate,
      .run (.suspend []), .run (.suspend []), .iterate, .run (.suspend []),
      .iterate, .run (.finish [] (.value 9)), .run (.finish [] (.error 5)), .iterate,
      .run (.suspend []), .run (.suspend []), .iterate, .run (.suspend []), .iterate,
      .run (.suspend []), .goOn, .iterate, .run (.suspend []), .iterate, .goOn,
      .submit 2], rfl, rfl⟩, ⟨true, by simp⟩, by simp, by simp, by simp, by simp, rfl⟩

end Verif.Runner.Props
