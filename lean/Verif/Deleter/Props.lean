import Verif.Deleter.Model

/-!
# Properties of the background deleter (C23)

All theorems quantify over every request sequence, every outcome of the single deletions and every
interleaving of the two threads.
-/

namespace Verif.Deleter

/-- A request that is carried out without incident. -/
def Good (raises : Int → Bool) (s : Int) : Prop := 0 ≤ s ∧ raises s = false

/-- The step being deleted. -/
def inFlight : Worker → List Int
  | .busy s => [s]
  | _ => []

/-- Inductive invariant. -/
structure Inv (raises : Int → Bool) (reqs : List Int) (st : State) : Prop where
  good : ∀ s ∈ st.done, Good raises s
  nonneg : ∀ s, st.worker = .busy s → 0 ≤ s
  todo : st.phase ≠ .issuing → st.todo = []
  closed : st.phase = .closed → st.worker = .exited
  live : st.worker ≠ .exited → st.exc = none ∧ ∃ q,
    reqs = st.done ++ inFlight st.worker ++ q ++ st.todo ∧
    st.queue = q ++ (if st.phase = .joining then [-1] else [])
  dead : st.worker = .exited → ∃ rest, reqs = st.done ++ rest ∧
    ((rest = [] ∧ st.exc = none) ∨ ∃ s r, rest = s :: r ∧
      ((s < 0 ∧ st.exc = none) ∨ (0 ≤ s ∧ raises s = true ∧ st.exc = some s)))

theorem inv_init (raises : Int → Bool) (reqs : List Int) : Inv raises reqs (init reqs) where
  good := by simp [init]
  nonneg := by simp [init]
  todo := by simp [init]
  closed := by simp [init]
  live := by intro _; exact ⟨rfl, [], by simp [init, inFlight]⟩
  dead := by simp [init]

theorem inv_step (raises : Int → Bool) (reqs : List Int) (st st' : State) (t : Thread)
    (hi : Inv raises reqs st) (h : step raises st t = some st') : Inv raises reqs st' := by
  obtain ⟨td, ph, q, w, e, d⟩ := st
  obtain ⟨hgood, hnn, htodo, hcl, hlive, hdead⟩ := hi
  simp only at *
  cases t with
  | user =>
    simp only [step, userStep] at h
    split at h
    · split at h
      · rename_i s rest
        simp only [Option.some.injEq] at h
        subst h
        refine ⟨hgood, hnn, by simp, by simp, ?_, hdead⟩
        intro hw
        obtain ⟨h1, q', h2, h3⟩ := hlive hw
        exact ⟨h1, q' ++ [s], by simp [h2], by simp at h3 ⊢; exact h3⟩
      · split at h
        · rename_i hw
          simp only [Option.some.injEq] at h
          subst h
          exact ⟨hgood, hnn, by simp, by simpa using hw, by simp [hw], hdead⟩
        · rename_i hw
          simp only [Option.some.injEq] at h
          subst h
          refine ⟨hgood, hnn, by simp, by simp, ?_, hdead⟩
          intro hw
          obtain ⟨h1, q', h2, h3⟩ := hlive hw
          exact ⟨h1, q', h2, by simpa using h3⟩
    · simp only [Option.some.injEq] at h
      subst h
      refine ⟨hgood, hnn, by simpa using htodo, by simp, ?_, hdead⟩
      intro hw
      obtain ⟨h1, q', h2, h3⟩ := hlive hw
      exact ⟨h1, q', h2, by simp at h3 ⊢; exact h3⟩
    · split at h
      · rename_i hw
        simp only [Option.some.injEq] at h
        subst h
        exact ⟨hgood, hnn, by simpa using htodo, by simpa using hw, by simp [hw], hdead⟩
      · cases h
    · cases h
  | worker =>
    simp only [step, workerStep] at h
    split at h
    · split at h
      · rename_i s q0
        obtain ⟨h1, q', h2, h3⟩ := hlive (by simp)
        simp only [inFlight, List.append_nil] at h2
        split at h
        · rename_i hs
          simp only [Option.some.injEq] at h
          subst h
          refine ⟨hgood, by simp, htodo, by simp, by simp, ?_⟩
          intro _
          refine ⟨q' ++ td, by simpa using h2, ?_⟩
          cases q' with
          | nil =>
            split at h3
            · rename_i hj
              left
              refine ⟨?_, h1⟩
              simp only [List.nil_append]
              exact htodo (by rw [hj]; simp)
            · simp at h3
          | cons x q' =>
            right
            simp only [List.cons_append, List.cons.injEq] at h3
            exact ⟨s, q' ++ td, by simp [h3.1], .inl ⟨hs, h1⟩⟩
        · rename_i hs
          simp only [Option.some.injEq] at h
          subst h
          have hs' : 0 ≤ s := by omega
          refine ⟨hgood, ?_, htodo, ?_, ?_, by simp⟩
          · intro s' hs''
            simp only [Worker.busy.injEq] at hs''
            omega
          · intro hc; have := hcl hc; simp at this
          · intro _
            refine ⟨h1, ?_⟩
            cases q' with
            | nil =>
              split at h3
              · simp only [List.nil_append, List.cons.injEq] at h3
                omega
              · simp at h3
            | cons x q' =>
              simp only [List.cons_append, List.cons.injEq] at h3
              exact ⟨q', by simp [h2, inFlight, h3.1], h3.2⟩
      · cases h
    · rename_i s
      obtain ⟨h1, q', h2, h3⟩ := hlive (by simp)
      simp only [inFlight] at h2
      split at h
      · rename_i hr
        simp only [Option.some.injEq] at h
        subst h
        refine ⟨hgood, by simp, htodo, by simp, by simp, ?_⟩
        intro _
        exact ⟨s :: (q' ++ td), by simp [h2], .inr ⟨s, q' ++ td, rfl, .inr ⟨hnn s rfl, hr, rfl⟩⟩⟩
      · rename_i hr
        simp only [Option.some.injEq] at h
        subst h
        refine ⟨?_, by simp, htodo, ?_, ?_, by simp⟩
        · intro s' hs'
          rcases List.mem_append.mp hs' with hs' | hs'
          · exact hgood s' hs'
          · simp only [List.mem_singleton] at hs'
            subst hs'
            exact ⟨hnn s' rfl, by simpa using hr⟩
        · intro hc; have := hcl hc; simp at this
        · intro _
          exact ⟨h1, q', by simp [h2, inFlight], h3⟩
    · cases h

theorem inv_reach (raises : Int → Bool) (reqs : List Int) (st : State) (h : Reach raises reqs st) :
    Inv raises reqs st := by
  induction h with
  | init => exact inv_init _ _
  | step st st' t _ hs ih => exact inv_step raises reqs st st' t ih hs

/-- **C23** at any time, under any schedule, the deletions carried out are an initial segment of the
requests, in request order. -/
theorem C23_in_order (raises : Int → Bool) (reqs : List Int) (st : State) (h : Reach raises reqs st) :
    st.done <+: reqs := by
  have hi := inv_reach raises reqs st h
  by_cases hw : st.worker = .exited
  · obtain ⟨rest, hr, _⟩ := hi.dead hw
    exact ⟨rest, hr.symm⟩
  · obtain ⟨_, q, hr, _⟩ := hi.live hw
    exact ⟨inFlight st.worker ++ q ++ st.todo, by rw [hr]; simp⟩

/-- **C23** if no deletion raises and all step numbers are non-negative, then once `close` has returned,
every requested deletion has been carried out, in order, and `close` does not raise. -/
theorem C23_close_means_all_done (raises : Int → Bool) (reqs : List Int) (hg : ∀ s ∈ reqs, 0 ≤ s ∧ raises s = false)
    (st : State) (h : Reach raises reqs st) (hc : st.phase = .closed) :
    st.done = reqs ∧ closeRaises st = none := by
  have hi := inv_reach raises reqs st h
  obtain ⟨rest, hr, hcase⟩ := hi.dead (hi.closed hc)
  rcases hcase with ⟨rfl, he⟩ | ⟨s, r, rfl, hs⟩
  · exact ⟨by simpa using hr.symm, he⟩
  · exfalso
    obtain ⟨h1, h2⟩ := hg s (by rw [hr]; simp)
    rcases hs with ⟨h3, _⟩ | ⟨_, h3, _⟩
    · omega
    · rw [h2] at h3; cases h3

/-- **C23** in general: once `close` has returned, exactly the requests before the first one that raised
or was negative have been carried out, and `close` raises the exception of that request if there is one. -/
theorem C23_close_outcome (raises : Int → Bool) (reqs : List Int) (st : State) (h : Reach raises reqs st)
    (hc : st.phase = .closed) :
    ∃ rest, reqs = st.done ++ rest ∧ (∀ s ∈ st.done, 0 ≤ s ∧ raises s = false) ∧
      ((rest = [] ∧ closeRaises st = none) ∨ ∃ s r, rest = s :: r ∧
        ((s < 0 ∧ closeRaises st = none) ∨ (0 ≤ s ∧ raises s = true ∧ closeRaises st = some s))) := by
  have hi := inv_reach raises reqs st h
  obtain ⟨rest, hr, hcase⟩ := hi.dead (hi.closed hc)
  exact ⟨rest, hr, hi.good, hcase⟩

/-- No deadlock: in every reachable state either `close` has returned or some thread can move. -/
theorem C23_no_deadlock (raises : Int → Bool) (reqs : List Int) (st : State) (h : Reach raises reqs st)
    (hc : st.phase ≠ .closed) : ∃ t st', step raises st t = some st' := by
  have hi := inv_reach raises reqs st h
  obtain ⟨td, ph, q, w, e, d⟩ := st
  cases ph with
  | issuing =>
    refine ⟨.user, ?_⟩
    simp only [step, userStep]
    cases td with
    | cons s rest => exact ⟨_, rfl⟩
    | nil => simp only; split <;> exact ⟨_, rfl⟩
  | aliveSeen => exact ⟨.user, _, rfl⟩
  | closed => exact absurd rfl hc
  | joining =>
    cases w with
    | exited => exact ⟨.user, by simp [step, userStep]⟩
    | busy s =>
      refine ⟨.worker, ?_⟩
      simp only [step, workerStep]
      split <;> exact ⟨_, rfl⟩
    | idle =>
      refine ⟨.worker, ?_⟩
      obtain ⟨_, q', _, h3⟩ := hi.live (by simp)
      simp only [if_true] at h3
      simp only [step, workerStep]
      cases q with
      | nil => cases q' <;> simp at h3
      | cons s q => simp only; split <;> exact ⟨_, rfl⟩

/-- Work that remains; each step of either thread uses some up. -/
def measure (st : State) : Nat :=
  4 * st.todo.length + 2 * st.queue.length +
    (match st.phase with | .issuing => 5 | .aliveSeen => 4 | .joining => 1 | .closed => 0) +
    (match st.worker with | .idle => 1 | .busy _ => 2 | .exited => 0)

/-- Every execution terminates: `close` always returns, after boundedly many steps of the two threads. -/
theorem C23_terminates (raises : Int → Bool) (st st' : State) (t : Thread) (h : step raises st t = some st') :
    measure st' < measure st := by
  obtain ⟨td, ph, q, w, e, d⟩ := st
  cases t with
  | user =>
    simp only [step, userStep] at h
    split at h
    · split at h
      · simp only [Option.some.injEq] at h; subst h
        simp [measure]; omega
      · split at h <;> simp only [Option.some.injEq] at h <;> subst h <;> simp [measure]
    · simp only [Option.some.injEq] at h; subst h
      simp [measure]; omega
    · split at h
      · simp only [Option.some.injEq] at h; subst h
        simp [measure]
      · cases h
    · cases h
  | worker =>
    simp only [step, workerStep] at h
    split at h
    · split at h
      · split at h <;> simp only [Option.some.injEq] at h <;> subst h <;> simp [measure] <;> omega
      · cases h
    · split at h <;> simp only [Option.some.injEq] at h <;> subst h <;> simp [measure]
    · cases h

/-! ### Findings -/

/-- Run a schedule. -/
def runSchedule (raises : Int → Bool) : State → List Thread → Option State
  | st, [] => some st
  | st, t :: ts => (step raises st t).bind fun st' => runSchedule raises st' ts

theorem reach_schedule (raises : Int → Bool) (reqs : List Int) (ts : List Thread) (st st' : State)
    (h : Reach raises reqs st) (hr : runSchedule raises st ts = some st') : Reach raises reqs st' := by
  induction ts generalizing st with
  | nil => simp only [runSchedule, Option.some.injEq] at hr; exact hr ▸ h
  | cons t ts ih =>
    simp only [runSchedule] at hr
    cases hs : step raises st t with
    | none => rw [hs] at hr; cases hr
    | some st1 => rw [hs] at hr; exact ih st1 (.step st st1 t h hs) hr

/-- Finding: a deletion that raises stops the worker, so later requests are never carried out, although
`close` reports only the first failure. -/
theorem C23_raise_drops_later_requests_fails :
    ∃ st, Reach (fun s => s == 1) [1, 2, 3] st ∧ st.phase = .closed ∧ st.done = [] ∧ closeRaises st = some 1 :=
  ⟨_, reach_schedule _ _ [.user, .user, .user, .worker, .worker, .user] (init [1, 2, 3]) _ .init rfl,
    by decide, by decide, by decide⟩

/-- Finding: a request to delete a negative step stops the worker without any error: later requests are
silently dropped. -/
theorem C23_negative_step_stops_worker_fails :
    ∃ st, Reach (fun _ => false) [-5, 2] st ∧ st.phase = .closed ∧ st.done = [] ∧ closeRaises st = none :=
  ⟨_, reach_schedule _ _ [.user, .user, .worker, .user] (init [-5, 2]) _ .init rfl,
    by decide, by decide, by decide⟩

/-- Non-vacuity: a complete run with two requests. -/
example : ∃ st, Reach (fun _ => false) [4, 7] st ∧ st.phase = .closed ∧ st.done = [4, 7] :=
  ⟨_, reach_schedule _ _ [.user, .worker, .user, .worker, .user, .worker, .user, .worker, .worker, .user]
    (init [4, 7]) _ .init rfl, by decide, by decide⟩

end Verif.Deleter
