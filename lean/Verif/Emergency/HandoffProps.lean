import Verif.Emergency.HandoffLemmas

/-!
# C104: saves done by worker sidecars

The theorems speak of the log of any execution that starts with a new controller: `run c init es = some s`, where `es` are
any calls with any answers of the environment, and any moves of the background thread.
-/

namespace Verif.Emergency.Handoff

theorem init_ok (c : Config) : Ok c init := by
  refine ⟨⟨?_, ?_, ?_, ?_, ?_, ?_, ?_⟩, ?_⟩ <;> simp [init, Always]

theorem firstError_error (e : Err) (l : List (Except Err Unit)) : firstError (.error e) l = .error e := by
  cases l <;> rfl

theorem firstError_ok {r : Answer} {l : List (Except Err Unit)} {b : Bool} (h : firstError r l = .ok b) :
    r = .ok b ∧ ∀ x ∈ l, x = .ok () := by
  cases r with
  | error e => rw [firstError_error] at h; cases h
  | ok a =>
    induction l with
    | nil =>
      simp only [firstError] at h
      exact ⟨h, by simp⟩
    | cons x l ih =>
      cases x with
      | error e => simp [firstError] at h
      | ok u =>
        simp only [firstError] at h
        obtain ⟨h1, h2⟩ := ih h
        exact ⟨h1, fun y hy => (List.mem_cons.1 hy).elim id (h2 y)⟩

theorem finish_error {c : Config} {f : FinEnv} {s s' : State} {r : Answer} (h : Ok c s) (hr : finish f s = some (r, s'))
    {i : Nat} {e : Err} (he : Eff.answer i (.error e) ∈ s'.log) : r = .error e := by
  obtain ⟨h1, h2, h3⟩ := finish_ok h hr
  cases r with
  | ok b => exact absurd he ((h1.j.all (h2 b rfl).1).2 i e)
  | error e' =>
    rcases h3 e' rfl with hn | ⟨p, hp, hph⟩
    · exact absurd he ((h1.j.all hn).2 i e)
    · obtain ⟨q, hq, _, hres⟩ := h1.j.err i e he
      rw [hp] at hq; cases hq
      rcases hph with hph | hph
      · rw [hph] at hres
        simp only [result, Option.some.injEq] at hres
        exact hres
      · rw [hph] at hres; simp [result] at hres

theorem save_ok {c : Config} {st : Nat} {force data : Bool} {v : Env} {s s' : State} {r : Answer} (h : Ok c s)
    (hr : save c st force data v s = some (r, s')) :
    Ok c s' ∧ (∀ i e, Eff.answer i (.error e) ∈ s'.log → r ≠ .ok true) ∧
    (c.async = false → r = .ok true → s'.pending = none) := by
  simp only [save] at hr
  by_cases h0 : st = 0
  · rw [if_pos h0] at hr
    cases hr
    exact ⟨h, fun _ _ _ hx => by (cases hx), fun _ hx => by cases hx⟩
  · rw [if_neg h0] at hr
    have hgo : ∀ {q : Option (Answer × State)},
        (q = if (data && !c.persistentDirectory) = true then some (.error .noPersistentDirectory, s)
          else
            match finish v.fin s with
            | none => none
            | some (.error e, s') => some (.error e, s')
            | some (.ok _, s') => launch c st data v s') →
        q = some (r, s') → Ok c s' ∧ (∀ i e, Eff.answer i (.error e) ∈ s'.log → r ≠ .ok true) ∧
          (c.async = false → r = .ok true → s'.pending = none) := by
      intro q hq hq'
      rw [hq] at hq'
      by_cases hd : (data && !c.persistentDirectory) = true
      · rw [if_pos hd] at hq'
        cases hq'
        exact ⟨h, fun _ _ _ hx => by (cases hx), fun _ hx => by cases hx⟩
      · rw [if_neg hd] at hq'
        cases hf : finish v.fin s with
        | none => simp [hf] at hq'
        | some x =>
          obtain ⟨a, s1⟩ := x
          obtain ⟨h1, h2, _⟩ := finish_ok h hf
          cases a with
          | error e =>
            simp only [hf] at hq'
            cases hq'
            exact ⟨h1, fun _ _ _ hx => by (cases hx), fun _ hx => by cases hx⟩
          | ok b =>
            simp only [hf] at hq'
            exact launch_ok h1 (h2 b rfl).1 hq'
    cases force with
    | true =>
      simp only [if_true] at hr
      exact hgo rfl hr
    | false =>
      simp only [Bool.false_eq_true, if_false] at hr
      cases hs : v.should with
      | error e =>
        simp only [hs] at hr
        cases hr
        exact ⟨h, fun _ _ _ hx => by (cases hx), fun _ hx => by cases hx⟩
      | ok b =>
        cases b with
        | true =>
          simp only [hs] at hr
          exact hgo rfl hr
        | false =>
          simp only [hs] at hr
          cases hf : drain false v.fin.persist s with
          | none => simp [hf] at hr
          | some x =>
            obtain ⟨a, s1⟩ := x
            obtain ⟨h1, _⟩ := drain_ok h hf
            cases a with
            | error e =>
              simp only [hf] at hr
              cases hr
              exact ⟨h1, fun _ _ _ hx => by (cases hx), fun _ hx => by cases hx⟩
            | ok b =>
              simp only [hf] at hr
              cases hr
              exact ⟨h1, fun _ _ _ hx => by (cases hx), fun _ hx => by cases hx⟩

theorem wait_ok {c : Config} {v : Env} {s s' : State} {r : Answer} (h : Ok c s)
    (hr : wait c v s = some (r, s')) : Ok c s' ∧ Good c s'.log (.ret .wait r) := by
  simp only [wait] at hr
  cases hf : finish v.fin s with
  | none => simp [hf] at hr
  | some x =>
    obtain ⟨a, s1⟩ := x
    obtain ⟨h1, h2, _⟩ := finish_ok h hf
    simp only [hf] at hr
    cases hp : s.pending with
    | none =>
      simp only [hp, Option.isSome_none, Bool.false_eq_true, if_false] at hr
      cases hr
      have h3 : Ok c (emit (.waited none v.workers) s1) := h1.ret (by simp [Plain]) trivial
      refine ⟨h3, ?_, ?_⟩
      · intro i e he
        rw [finish_error h hf (by simpa [emit] using he), firstError_error]
      · intro b hb
        obtain ⟨hb1, hb2⟩ := firstError_ok hb
        have hn := (h2 b hb1).1
        refine ⟨(h3.j.all hn).1, .inl ⟨none, ?_⟩⟩
        rw [hb2 v.workers (by simp)]
        simp [emit]
    | some p =>
      simp only [hp, Option.isSome_some, if_true] at hr
      cases hr
      refine ⟨h1, ?_, ?_⟩
      · intro i e he
        rw [finish_error h hf he, firstError_error]
      · intro b hb
        obtain ⟨hb1, _⟩ := firstError_ok hb
        obtain ⟨hn, hcase⟩ := h2 b hb1
        refine ⟨(h1.j.all hn).1, ?_⟩
        rcases hcase with ⟨hx, _⟩ | ⟨_, hx⟩ | ⟨_, hx⟩
        · rw [hp] at hx; cases hx
        · exact .inl hx
        · exact .inr hx

theorem close_ok {c : Config} {v : Env} {s s' : State} {r : Answer} (h : Ok c s)
    (hr : close c v s = some (r, s')) : Ok c s' ∧ Good c s'.log (.ret .close r) := by
  simp only [close] at hr
  cases hf : finish v.fin s with
  | none => simp [hf] at hr
  | some x =>
    obtain ⟨a, s1⟩ := x
    obtain ⟨h1, h2, _⟩ := finish_ok h hf
    simp only [hf] at hr
    cases hr
    refine ⟨h1, ?_, ?_⟩
    · intro i e he
      rw [finish_error h hf he, firstError_error]
    · intro b hb
      exact (h1.j.all (h2 b (firstError_ok hb).1).1).1

theorem check_ok {c : Config} {v : Env} {s s' : State} {r : Answer} (h : Ok c s)
    (hr : check c v s = some (r, s')) : Ok c s' ∧ Good c s'.log (.ret .check r) := by
  simp only [check] at hr
  cases hr
  refine ⟨h, ?_⟩
  intro i e he hh
  obtain ⟨p, hp, hi, hres⟩ := h.j.err i e he
  subst hi
  obtain ⟨r, hph⟩ := (h.j.pend p hp).handed.1 hh
  rw [hph] at hres
  simp only [result, Option.some.injEq] at hres
  simp only [handoffError, hp, hph, hres, firstError_error]

theorem poll_ok {c : Config} {v : Env} {s s' : State} {r : Answer} (h : Ok c s)
    (hr : poll c v s = some (r, s')) : Ok c s' ∧ Good c s'.log (.ret .poll r) := by
  simp only [poll] at hr
  cases hf : drain false v.fin.persist s with
  | none => simp [hf] at hr
  | some x =>
    obtain ⟨a, s1⟩ := x
    obtain ⟨h1, _⟩ := drain_ok h hf
    cases a with
    | error e =>
      simp only [hf] at hr
      cases hr
      exact ⟨h1, fun hx => by cases hx⟩
    | ok b =>
      simp only [hf] at hr
      have h2 := moves_ok v.during h1
      by_cases hu : undrained (moves v.during s1) = true
      · rw [if_pos hu] at hr
        cases hr
        exact ⟨h2, fun hx => by cases hx⟩
      · rw [if_neg hu] at hr
        have hall : ∀ i st d, Eff.dispatch i st d ∈ (moves v.during s1).log → Passed i d (moves v.during s1).log := by
          intro i st d hd
          rcases h2.j.acc i st d hd with h3 | ⟨p, hp, hi, hpd⟩
          · exact h3.passed
          · subst hi hpd
            have hk := h2.j.pend p hp
            cases hs : p.saved with
            | none => simp [undrained, hp, hs] at hu
            | some b' =>
              obtain ⟨hph, hdat⟩ := hk.saved b' hs
              exact ⟨b', (hk.ans _).2 (by rw [hph]; rfl), hdat⟩
        have : s' = moves v.during s1 := by
          cases hw : v.workersBusy with
          | error e => simp only [hw] at hr; cases hr; rfl
          | ok busy =>
            simp only [hw] at hr
            cases hc : c.persistentDirectory with
            | false => simp only [hc, Bool.false_eq_true, if_false] at hr; cases hr; rfl
            | true =>
              simp only [hc, if_true] at hr
              cases hb : v.persistentBusy with
              | error e => simp only [hb] at hr; cases hr; rfl
              | ok b => simp only [hb] at hr; cases hr; rfl
        subst this
        exact ⟨h2, fun _ => hall⟩

theorem exec_ok {c : Config} {e : Event} {s s' : State} (h : Ok c s) (hr : exec c s e = some s') : Ok c s' := by
  cases e with
  | move m =>
    simp only [exec] at hr
    cases hr
    exact move_ok m h
  | save st force data v =>
    simp only [exec] at hr
    cases hf : save c st force data v s with
    | none => simp [hf, returning] at hr
    | some x =>
      obtain ⟨r, s1⟩ := x
      simp only [hf, returning] at hr
      cases hr
      obtain ⟨h1, h2, h3⟩ := save_ok h hf
      exact h1.ret (by simp [Plain]) ⟨h2, fun hc hx => (h1.j.all (h3 hc hx)).1⟩
  | wait v =>
    simp only [exec] at hr
    cases hf : wait c v s with
    | none => simp [hf, returning] at hr
    | some x =>
      obtain ⟨r, s1⟩ := x
      simp only [hf, returning] at hr
      cases hr
      exact (wait_ok h hf).1.ret (by simp [Plain]) (wait_ok h hf).2
  | check v =>
    simp only [exec] at hr
    cases hf : check c v s with
    | none => simp [hf, returning] at hr
    | some x =>
      obtain ⟨r, s1⟩ := x
      simp only [hf, returning] at hr
      cases hr
      exact (check_ok h hf).1.ret (by simp [Plain]) (check_ok h hf).2
  | close v =>
    simp only [exec] at hr
    cases hf : close c v s with
    | none => simp [hf, returning] at hr
    | some x =>
      obtain ⟨r, s1⟩ := x
      simp only [hf, returning] at hr
      cases hr
      exact (close_ok h hf).1.ret (by simp [Plain]) (close_ok h hf).2
  | poll v =>
    simp only [exec] at hr
    cases hf : poll c v s with
    | none => simp [hf, returning] at hr
    | some x =>
      obtain ⟨r, s1⟩ := x
      simp only [hf, returning] at hr
      cases hr
      exact (poll_ok h hf).1.ret (by simp [Plain]) (poll_ok h hf).2

theorem run_ok {c : Config} {es : List Event} {s s' : State} (h : Ok c s) (hr : run c s es = some s') : Ok c s' := by
  induction es generalizing s with
  | nil => cases hr; exact h
  | cons e es ih =>
    simp only [run] at hr
    cases hx : exec c s e with
    | none => simp [hx] at hr
    | some s1 =>
      simp only [hx] at hr
      exact ih (exec_ok h hx) hr

theorem good_of_run {c : Config} {es : List Event} {s : State} (hr : run c init es = some s) {a b : List Eff} {e : Eff}
    (h : s.log = a ++ e :: b) : Good c a e := (run_ok (init_ok c) hr).good a e b h

/-! ## The property -/

/-- **C104** (one at a time): when a save is sent to the workers, every save sent before has been answered by all workers;
if they saved, its dataset state was handed to the persistent manager, without an exception, and the workers were asked to
finish. -/
theorem C104_one_at_a_time {c : Config} {es : List Event} {s : State} (hr : run c init es = some s) {a b : List Eff}
    {j st : Nat} {d : Bool} (h : s.log = a ++ .dispatch j st d :: b) :
    ∀ i st' d', Eff.dispatch i st' d' ∈ a → Settled i d' a := (good_of_run hr h).1

/-- **C104** (dataset): dataset state is handed to the persistent manager for the step and the save it was given with, only
after all workers said that they saved the state, and never again once the persistent manager took it. -/
theorem C104_dataset {c : Config} {es : List Event} {s : State} (hr : run c init es = some s) {a b : List Eff}
    {i st : Nat} {o : Outcome} (h : s.log = a ++ .dataset i st o :: b) :
    Eff.dispatch i st true ∈ a ∧ Eff.answer i (.ok true) ∈ a ∧ ∀ st' o', Eff.dataset i st' (.returned o') ∉ a :=
  good_of_run hr h

/-- **C104** (unanimous): the answer is that the workers saved exactly if each of them says so; if they differ it is an
error. -/
theorem C104_unanimous (b : Bool) (rest : List Bool) (x : Bool) :
    answerOf (.bools b rest) = .ok x ↔ ∀ y ∈ b :: rest, y = x := by
  simp only [answerOf]
  by_cases h : rest.all (· == b) = true
  · rw [if_pos h]
    simp only [List.all_eq_true, beq_iff_eq] at h
    constructor
    · intro hx; cases hx
      intro y hy
      rcases List.mem_cons.1 hy with hy | hy
      · exact hy
      · exact h y hy
    · intro hx
      rw [hx b (by simp)]
  · rw [if_neg h]
    constructor
    · intro hx; cases hx
    · intro hx
      refine absurd ?_ h
      simp only [List.all_eq_true, beq_iff_eq]
      intro y hy
      rw [hx y (by simp [hy]), hx b (by simp)]

/-- **C104** (payload): the controller holds the payload until the workers' answer is there, and has released it when the
background thread ends. -/
theorem C104_payload {c : Config} {es : List Event} {s : State} (hr : run c init es = some s) {a b : List Eff} {i : Nat} :
    (s.log = a ++ .unpin i :: b → ∃ r, Eff.answer i r ∈ a) ∧ (s.log = a ++ .handed i :: b → Eff.unpin i ∈ a) :=
  ⟨fun h => good_of_run hr h, fun h => good_of_run hr h⟩

/-- **C104** (waiting): if `wait_until_finished` returns, every save is settled, and the last thing that happened was that
the workers finished (unless they had answered, for some save, that they did not save). -/
theorem C104_wait {c : Config} {es : List Event} {s : State} (hr : run c init es = some s) {a b : List Eff} {x : Bool}
    (h : s.log = a ++ .ret .wait (.ok x) :: b) :
    (∀ i st d, Eff.dispatch i st d ∈ a → Settled i d a) ∧
    ((∃ i, a.getLast? = some (.waited i (.ok ()))) ∨ ∃ i, Eff.answer i (.ok false) ∈ a) :=
  (good_of_run hr h).2 x rfl

/-- **C104** (closing): if `close` returns, every save is settled. -/
theorem C104_close {c : Config} {es : List Event} {s : State} (hr : run c init es = some s) {a b : List Eff} {x : Bool}
    (h : s.log = a ++ .ret .close (.ok x) :: b) :
    ∀ i st d, Eff.dispatch i st d ∈ a → Settled i d a :=
  (good_of_run hr h).2 x rfl

/-- **C104** (polling): if `is_saving_in_progress` returns `False`, every save was answered, and the dataset state of those
that the workers saved was handed over. -/
theorem C104_poll {c : Config} {es : List Event} {s : State} (hr : run c init es = some s) {a b : List Eff}
    (h : s.log = a ++ .ret .poll (.ok false) :: b) :
    ∀ i st d, Eff.dispatch i st d ∈ a → Passed i d a :=
  good_of_run hr h rfl

/-- **C104** (synchronous saves): without asynchronous checkpointing, when `save` returns `True` every save is settled. -/
theorem C104_synchronous {c : Config} (hc : c.async = false) {es : List Event} {s : State}
    (hr : run c init es = some s) {a b : List Eff} {st : Nat} {force : Bool}
    (h : s.log = a ++ .ret (.save st force) (.ok true) :: b) :
    ∀ i st d, Eff.dispatch i st d ∈ a → Settled i d a :=
  (good_of_run hr h).2 hc rfl

/-- **C104** (errors are raised): if the workers' answer to a save is an error, `wait_until_finished` and `close` raise it,
and so does `check_for_errors` once the background thread has ended. -/
theorem C104_errors {c : Config} {es : List Event} {s : State} (hr : run c init es = some s) {a b : List Eff} {i : Nat}
    {e : Err} (he : Eff.answer i (.error e) ∈ a) (r : Answer) :
    (s.log = a ++ .ret .wait r :: b → r = .error e) ∧ (s.log = a ++ .ret .close r :: b → r = .error e) ∧
    (Eff.handed i ∈ a → s.log = a ++ .ret .check r :: b → r = .error e) :=
  ⟨fun h => (good_of_run hr h).1 i e he, fun h => (good_of_run hr h).1 i e he, fun hh h => good_of_run hr h i e he hh⟩

/-- **C104** (finding): the error is never forgotten. After one save whose answer is an error, whatever is done, no save is
sent to the workers any more and no `save` returns `True`; every `wait_until_finished` and every `close` raises. -/
theorem C104_error_is_final_fails {c : Config} {es : List Event} {s : State} (hr : run c init es = some s)
    {a b : List Eff} {i : Nat} {e : Err} (h : s.log = a ++ .answer i (.error e) :: b) :
    (∀ j st d, Eff.dispatch j st d ∉ b) ∧ (∀ st force, Eff.ret (.save st force) (.ok true) ∉ b) ∧
    (∀ r, Eff.ret .wait r ∈ b → r = .error e) ∧ ∀ r, Eff.ret .close r ∈ b → r = .error e := by
  have hsplit : ∀ x ∈ b, ∃ a' b', s.log = a' ++ x :: b' ∧ Eff.answer i (.error e) ∈ a' := by
    intro x hx
    obtain ⟨b1, b2, hb⟩ := List.append_of_mem hx
    exact ⟨a ++ .answer i (.error e) :: b1, b2, by rw [h, hb]; simp, by simp⟩
  refine ⟨?_, ?_, ?_, ?_⟩
  · intro j st d hx
    obtain ⟨a', b', h1, h2⟩ := hsplit _ hx
    exact (good_of_run hr h1).2 i e h2
  · intro st force hx
    obtain ⟨a', b', h1, h2⟩ := hsplit _ hx
    exact (good_of_run hr h1).1 i e h2 rfl
  · intro r hx
    obtain ⟨a', b', h1, h2⟩ := hsplit _ hx
    exact (good_of_run hr h1).1 i e h2
  · intro r hx
    obtain ⟨a', b', h1, h2⟩ := hsplit _ hx
    exact (good_of_run hr h1).1 i e h2

theorem move_no_dataset (m : Move) (s : State) {i st : Nat} {o : Outcome} :
    Eff.dataset i st o ∈ (move m s).log → Eff.dataset i st o ∈ s.log := by
  intro h
  cases hp : s.pending with
  | none => simpa only [move, hp] using h
  | some p =>
    cases m with
    | arrive res => cases hph : p.phase <;> simp only [move, hp, hph] at h <;> first | exact h | simpa [emit] using h
    | release => cases hph : p.phase <;> simp only [move, hp, hph] at h <;> first | exact h | simpa [emit] using h
    | publish =>
      cases hph : p.phase with
      | released r =>
        cases r <;> simp only [move, hp, hph] at h <;> simpa [emit] using h
      | _ => simpa only [move, hp, hph] using h

theorem moves_no_dataset (ms : List Move) (s : State) {i st : Nat} {o : Outcome} :
    Eff.dataset i st o ∈ (moves ms s).log → Eff.dataset i st o ∈ s.log := by
  induction ms generalizing s with
  | nil => exact id
  | cons m ms ih => exact fun h => move_no_dataset m s (ih (move m s) h)

/-- **C104** (finding): with asynchronous checkpointing the dataset state of a save that returned `True` is kept in memory
until the next call: after any save, and whatever the workers and the background thread do then, the persistent manager has
been handed no dataset state that it was not handed before. -/
theorem C104_dataset_waits_for_next_call_fails {c : Config} (hc : c.async = true) {st : Nat} {v : Env} {s s' : State}
    (hn : s.pending = none) (hr : save c st true true v s = some (.ok true, s')) (ms : List Move) :
    ∀ i st' o, Eff.dataset i st' o ∈ (moves ms s').log → Eff.dataset i st' o ∈ s.log := by
  intro i st' o h
  have h1 := moves_no_dataset ms s' h
  simp only [save, if_true, finish, hn] at hr
  by_cases h0 : st = 0
  · rw [if_pos h0] at hr; simp at hr
  · rw [if_neg h0] at hr
    cases hd : c.persistentDirectory with
    | false => simp [hd] at hr
    | true =>
      simp only [hd, Bool.not_true, Bool.and_false, Bool.false_eq_true, if_false, launch, hc, if_true] at hr
      cases hv : v.prepare with
      | error e => simp [hv] at hr
      | ok u =>
        simp only [hv] at hr
        cases hr
        simpa [emit] using h1

/-- **C104** (finding): a persistent manager that declines to save the dataset (its `save` returns `False`) is not noticed:
draining goes on as if it had saved. -/
theorem C104_declined_is_unnoticed_fails {w : Bool} {s : State} {p : Pending} (hp : s.pending = some p)
    (hs : p.saved = none) (hph : p.phase = .done (.ok true)) (hd : p.data = true) :
    drain w (.returned false) s = some (.ok true,
      emit (.dataset p.id p.step (.returned false)) { s with pending := some { p with saved := some true } }) := by
  simp [drain, hp, hs, hph, hd]

/-! ## The latest step -/

theorem mem_insertSorted {x y : Int} {l : List Int} : x ∈ insertSorted y l ↔ x = y ∨ x ∈ l := by
  induction l with
  | nil => simp [insertSorted]
  | cons z l ih =>
    simp only [insertSorted]
    by_cases h : y ≤ z
    · rw [if_pos h]; simp
    · rw [if_neg h]
      simp only [List.mem_cons, ih]
      constructor
      · rintro (h | h | h)
        · exact .inr (.inl h)
        · exact .inl h
        · exact .inr (.inr h)
      · rintro (h | h | h)
        · exact .inr (.inl h)
        · exact .inl h
        · exact .inr (.inr h)

theorem mem_sortInts {x : Int} {l : List Int} : x ∈ sortInts l ↔ x ∈ l := by
  induction l with
  | nil => simp [sortInts]
  | cons z l ih => simp only [sortInts, mem_insertSorted, ih, List.mem_cons]

theorem length_insertSorted (x : Int) (l : List Int) : (insertSorted x l).length = l.length + 1 := by
  induction l with
  | nil => rfl
  | cons z l ih =>
    simp only [insertSorted]
    by_cases h : x ≤ z
    · rw [if_pos h]; rfl
    · rw [if_neg h]; simp [ih]

theorem length_sortInts (l : List Int) : (sortInts l).length = l.length := by
  induction l with
  | nil => rfl
  | cons z l ih => simp only [sortInts, length_insertSorted, ih, List.length_cons]

theorem sorted_insertSorted {x : Int} {l : List Int} (h : l.Pairwise (· ≤ ·)) :
    (insertSorted x l).Pairwise (· ≤ ·) := by
  induction l with
  | nil => simp [insertSorted]
  | cons z l ih =>
    simp only [insertSorted]
    rw [List.pairwise_cons] at h
    by_cases hx : x ≤ z
    · rw [if_pos hx]
      refine List.pairwise_cons.2 ⟨?_, List.pairwise_cons.2 h⟩
      intro y hy
      rcases List.mem_cons.1 hy with hy | hy
      · rw [hy]; exact hx
      · exact Int.le_trans hx (h.1 y hy)
    · rw [if_neg hx]
      refine List.pairwise_cons.2 ⟨?_, ih h.2⟩
      intro y hy
      rcases mem_insertSorted.1 hy with hy | hy
      · rw [hy]; omega
      · exact h.1 y hy

theorem sorted_sortInts (l : List Int) : (sortInts l).Pairwise (· ≤ ·) := by
  induction l with
  | nil => simp [sortInts]
  | cons z l ih => exact sorted_insertSorted ih

theorem filter_insertSorted_length (f : Int → Bool) (x : Int) (l : List Int) :
    ((insertSorted x l).filter f).length = ((x :: l).filter f).length := by
  induction l with
  | nil => rfl
  | cons z l ih =>
    simp only [insertSorted]
    by_cases h : x ≤ z
    · rw [if_pos h]
    · rw [if_neg h]
      simp only [List.filter_cons] at ih ⊢
      cases hx : f x <;> cases hz : f z <;> simp [hx] at ih <;> simp [ih]

theorem filter_sortInts_length (f : Int → Bool) (l : List Int) :
    ((sortInts l).filter f).length = (l.filter f).length := by
  induction l with
  | nil => rfl
  | cons z l ih =>
    simp only [sortInts, filter_insertSorted_length]
    simp only [List.filter_cons]
    cases f z <;> simp [ih]

theorem mem_report {x : Int} {l : List Int} (h : x ∈ report l) (h0 : x ≠ 0) :
    x ∈ l ∧ (l.filter (x < ·)).length < 128 := by
  simp only [report, List.mem_append, List.mem_replicate] at h
  rcases h with h | ⟨_, h⟩
  · have hmem := mem_sortInts.1 (List.mem_of_mem_drop h)
    refine ⟨hmem, ?_⟩
    rw [← filter_sortInts_length]
    have hs := sorted_sortInts l
    generalize sortInts l = L at h hs
    have hL : L = L.take (L.length - 128) ++ L.drop (L.length - 128) := (List.take_append_drop _ _).symm
    have hlen : (L.drop (L.length - 128)).length ≤ 128 := by rw [List.length_drop]; omega
    generalize hA : L.take (L.length - 128) = A at hL
    generalize hB : L.drop (L.length - 128) = B at hL h hlen
    subst hL
    rw [List.filter_append, List.length_append]
    have h1 : A.filter (x < ·) = [] := by
      rw [List.filter_eq_nil_iff]
      intro y hy
      have := (List.pairwise_append.1 hs).2.2 y hy x h
      simp; omega
    rw [h1]
    have h2 : (B.filter (x < ·)).length < B.length := by
      apply List.length_filter_lt_length_iff_exists.2
      exact ⟨x, h, by simp⟩
    simp; omega
  · exact absurd h h0

theorem report_mem {x : Int} {l : List Int} (hl : l.length ≤ 128) (h : x ∈ l) : x ∈ report l := by
  simp only [report, List.mem_append]
  refine .inl ?_
  rw [length_sortInts, show l.length - 128 = 0 by omega, List.drop_zero]
  exact mem_sortInts.2 h

theorem mem_commonSteps {x : Int} : ∀ {ls : List (List Int)}, ls ≠ [] → (x ∈ commonSteps ls ↔ ∀ l ∈ ls, x ∈ l)
  | [], h => absurd rfl h
  | [l], _ => by simp [commonSteps]
  | l :: m :: ls, _ => by
    have ih := mem_commonSteps (x := x) (ls := m :: ls) (by simp)
    simp only [commonSteps, List.mem_filter, List.contains_iff_mem, ih]
    simp

theorem maxOf_none {l : List Int} : maxOf l = none ↔ l = [] := by
  cases l with
  | nil => simp [maxOf]
  | cons x l =>
    simp only [maxOf]
    cases maxOf l <;> simp

theorem maxOf_some {l : List Int} {x : Int} : maxOf l = some x ↔ x ∈ l ∧ ∀ y ∈ l, y ≤ x := by
  induction l generalizing x with
  | nil => simp [maxOf]
  | cons z l ih =>
    simp only [maxOf]
    cases h : maxOf l with
    | none =>
      rw [maxOf_none] at h
      subst h
      simp only [Option.some.injEq, List.mem_singleton]
      constructor
      · rintro rfl
        exact ⟨rfl, fun y hy => by rw [hy]; omega⟩
      · rintro ⟨h1, _⟩
        exact h1.symm
    | some m =>
      obtain ⟨h1, h2⟩ := ih.1 h
      simp only [Option.some.injEq, List.mem_cons]
      by_cases hz : z < m
      · rw [if_pos hz]
        constructor
        · rintro rfl
          exact ⟨.inr h1, fun y hy => hy.elim (fun hy => by omega) (h2 y)⟩
        · rintro ⟨h3, h4⟩
          have h5 := h4 m (.inr h1)
          rcases h3 with h3 | h3
          · omega
          · have := h2 x h3; omega
      · rw [if_neg hz]
        constructor
        · rintro rfl
          exact ⟨.inl rfl, fun y hy => hy.elim (fun hy => by omega) (fun hy => by have := h2 y hy; omega)⟩
        · rintro ⟨h3, h4⟩
          have h5 := h4 z (.inl rfl)
          rcases h3 with h3 | h3
          · exact h3.symm
          · have := h2 x h3; omega

theorem mem_latest {workers : List (List Int)} (hw : workers ≠ []) {x : Int} :
    x ∈ commonSteps ((workers.map report).map fun l => l.filter (· ≠ 0)) ↔ x ≠ 0 ∧ ∀ w ∈ workers, x ∈ report w := by
  rw [mem_commonSteps (by simpa using hw)]
  constructor
  · intro h
    obtain ⟨w, hw'⟩ := List.exists_mem_of_ne_nil _ hw
    refine ⟨?_, fun w' hw' => ?_⟩
    · have := h ((report w).filter (· ≠ 0)) (by simp only [List.mem_map]; exact ⟨report w, ⟨w, hw', rfl⟩, rfl⟩)
      simpa using (List.mem_filter.1 this).2
    · have := h ((report w').filter (· ≠ 0)) (by simp only [List.mem_map]; exact ⟨report w', ⟨w', hw', rfl⟩, rfl⟩)
      exact (List.mem_filter.1 this).1
  · rintro ⟨h0, h⟩ l hl
    simp only [List.mem_map] at hl
    obtain ⟨_, ⟨w, hw', rfl⟩, rfl⟩ := hl
    exact List.mem_filter.2 ⟨h w hw', by simpa using h0⟩

/-- **C104** (latest step, sound): the latest step is a step that every worker has, and not 0. -/
theorem C104_latest_is_common {workers : List (List Int)} (hw : workers ≠ []) {x : Int}
    (h : latestStep (workers.map report) = some x) : x ≠ 0 ∧ ∀ w ∈ workers, x ∈ w := by
  obtain ⟨h1, _⟩ := maxOf_some.1 h
  obtain ⟨h0, h2⟩ := (mem_latest hw).1 h1
  exact ⟨h0, fun w hw' => (mem_report (h2 w hw') h0).1⟩

/-- **C104** (latest step): if no worker has more than 128 steps, the latest step is the highest step other than 0 that
every worker has, and there is none only if there is no such step. Missing: workers with more steps, see
`C104_latest_of_many_fails`. -/
theorem C104_latest_partial {workers : List (List Int)} (hw : workers ≠ []) (hl : ∀ w ∈ workers, w.length ≤ 128) :
    (∀ x, latestStep (workers.map report) = some x ↔ LatestCommon workers x) ∧
    (latestStep (workers.map report) = none ↔ ∀ y, y ≠ 0 → ∃ w ∈ workers, y ∉ w) := by
  have key : ∀ x, x ∈ commonSteps ((workers.map report).map fun l => l.filter (· ≠ 0)) ↔
      x ≠ 0 ∧ ∀ w ∈ workers, x ∈ w := by
    intro x
    rw [mem_latest hw]
    constructor
    · rintro ⟨h0, h⟩
      exact ⟨h0, fun w hw' => (mem_report (h w hw') h0).1⟩
    · rintro ⟨h0, h⟩
      exact ⟨h0, fun w hw' => report_mem (hl w hw') (h w hw')⟩
  constructor
  · intro x
    rw [latestStep, maxOf_some, key]
    constructor
    · rintro ⟨⟨h0, h1⟩, h2⟩
      exact ⟨h0, h1, fun y hy0 hy => h2 y ((key y).2 ⟨hy0, hy⟩)⟩
    · rintro ⟨h0, h1, h2⟩
      exact ⟨⟨h0, h1⟩, fun y hy => h2 y ((key y).1 hy).1 ((key y).1 hy).2⟩
  · rw [latestStep, maxOf_none, List.eq_nil_iff_forall_not_mem]
    constructor
    · intro h y hy
      refine Classical.byContradiction fun hc => h y ((key y).2 ⟨hy, fun w hw' => ?_⟩)
      refine Classical.byContradiction fun hn => hc ⟨w, hw', hn⟩
    · intro h y hy
      obtain ⟨h0, h1⟩ := (key y).1 hy
      obtain ⟨w, hw', hn⟩ := h y h0
      exact hn (h1 w hw')

/-- **C104** (finding): a worker reports only its last 128 steps. If one worker has 128 later steps, a step that all workers
have, and that may be the only one, is not found: the latest step is `None`. -/
theorem C104_latest_of_many_fails (x : Int) (w : List Int) (h : 128 ≤ (w.filter (x < ·)).length) :
    latestStep ([w, [x]].map report) = none := by
  rw [latestStep, maxOf_none, List.eq_nil_iff_forall_not_mem]
  intro y hy
  obtain ⟨h0, h1⟩ := (mem_latest (by simp)).1 hy
  have h2 := (mem_report (h1 [x] (by simp)) h0).1
  simp only [List.mem_singleton] at h2
  subst h2
  have h3 := (mem_report (h1 w (by simp)) h0).2
  omega

/-- **C104** (finding): the latest step may have no dataset state: with `C104_dataset_waits_for_next_call_fails`, if the
program stops before the next call, restoring the latest step with dataset state raises, although an earlier step has both.
-/
theorem C104_latest_without_dataset_fails (n : Nat) :
    let steps : List Int := [(n : Int) + 1, (n : Int) + 2]
    LatestCommon [steps, steps] ((n : Int) + 2) ∧ restoreLatest [steps, steps] [(n : Int) + 1] = none := by
  intro steps
  have hlc : LatestCommon [steps, steps] ((n : Int) + 2) := by
    refine ⟨by omega, by intro w hw; simp at hw; subst hw; simp [steps], ?_⟩
    intro y _ hy
    have := hy steps (by simp)
    simp [steps] at this
    omega
  refine ⟨hlc, ?_⟩
  have h := ((C104_latest_partial (workers := [steps, steps]) (by simp)
    (by intro w hw; simp at hw; subst hw; simp [steps])).1 _).2 hlc
  simp only [restoreLatest, h]
  rw [if_neg]
  simp

/-! ## The hypotheses are met -/

def exEnv (during : List Move) : Env :=
  { should := .ok true, fin := ⟨.returned true, .ok ()⟩, prepare := .ok (), during := during,
    fin2 := ⟨.returned true, .ok ()⟩, persistent := .ok (), workers := .ok (), workersBusy := .ok [false, false],
    persistentBusy := .ok false }

def exAck : List Event :=
  [.move (.arrive (.bools true [true])), .move .release, .move .publish]

def exFail : List Event :=
  [.move (.arrive (.bools true [false])), .move .release, .move .publish]

/-- **C104** (errors of the storage): `wait_until_finished`, `check_for_errors` and `close` return only if the persistent storage, when
there is one, reported no error; `check_for_errors` and `close` return only if the workers reported none either. -/
theorem C104_storage_errors (c : Config) (v : Env) (s s' : State) (b : Bool) :
    (wait c v s = some (.ok b, s') → c.persistentDirectory = true → v.persistent = .ok ()) ∧
    (check c v s = some (.ok b, s') → (c.persistentDirectory = true → v.persistent = .ok ()) ∧ v.workers = .ok ()) ∧
    (close c v s = some (.ok b, s') → (c.persistentDirectory = true → v.persistent = .ok ()) ∧ v.workers = .ok ()) := by
  have key : ∀ (l : List (Except Err Unit)) (r : Answer), firstError r l = .ok b → ∀ x ∈ l, x = .ok () := by
    intro l
    induction l with
    | nil => intro r _ x hx; cases hx
    | cons y l ih =>
      intro r h x hx
      cases r with
      | error e => simp [firstError] at h
      | ok b' =>
        cases y with
        | error e => simp [firstError] at h
        | ok u =>
          simp only [firstError] at h
          rcases List.mem_cons.1 hx with rfl | hx
          · rfl
          · exact ih _ h x hx
  have both : ∀ r : Answer, firstError r (ifDirectory c v.persistent ++ [v.workers]) = .ok b →
      (c.persistentDirectory = true → v.persistent = .ok ()) ∧ v.workers = .ok () := by
    intro r h
    exact ⟨fun hd => key _ r h _ (by simp [ifDirectory, hd]), key _ r h _ (by simp)⟩
  refine ⟨?_, ?_, ?_⟩
  · intro h hd
    simp only [wait] at h
    cases hf : finish v.fin s with
    | none => rw [hf] at h; cases h
    | some p =>
      obtain ⟨r, s1⟩ := p
      rw [hf] at h
      simp only at h
      split at h
      · simp only [Option.some.injEq, Prod.mk.injEq] at h
        exact key _ r h.1 _ (by simp [ifDirectory, hd])
      · simp only [Option.some.injEq, Prod.mk.injEq] at h
        exact (both r h.1).1 hd
  · intro h
    simp only [check, Option.some.injEq, Prod.mk.injEq] at h
    exact both _ h.1
  · intro h
    simp only [close] at h
    cases hf : finish v.fin s with
    | none => rw [hf] at h; cases h
    | some p =>
      obtain ⟨r, s1⟩ := p
      rw [hf] at h
      simp only [Option.some.injEq, Prod.mk.injEq] at h
      exact both r h.1

/-- **C104** (errors of the storage): without a persistent directory they do not look at persistent storage. -/
theorem C104_no_storage (c : Config) (v : Env) (s : State) (x : Except Err Unit) (h : c.persistentDirectory = false) :
    wait c { v with persistent := x } s = wait c v s ∧ check c { v with persistent := x } s = check c v s ∧
    close c { v with persistent := x } s = close c v s := by
  simp [wait, check, close, ifDirectory, h]

/-- **C104**: executions with two saves and a poll, a save and a failure, and a synchronous save. -/
theorem C104_nonvacuous :
    (∃ s, run ⟨true, true⟩ init ([.save 1 false true (exEnv [])] ++ exAck ++
        [.save 2 true true (exEnv [])] ++ exAck ++ [.poll (exEnv []), .wait (exEnv []), .close (exEnv [])]) = some s ∧
      s.log.length = 17 ∧ Eff.dataset 1 2 (.returned true) ∈ s.log ∧ Eff.ret .wait (.ok true) ∈ s.log) ∧
    (∃ s, run ⟨true, true⟩ init ([.save 1 false true (exEnv [])] ++ exFail ++
        [.check (exEnv []), .save 2 true true (exEnv []), .wait (exEnv [])]) = some s ∧
      Eff.ret .check (.error .disagree) ∈ s.log ∧ Eff.ret (.save 2 true) (.error .disagree) ∈ s.log) ∧
    (∃ s, run ⟨false, true⟩ init [.save 1 false true
        (exEnv [.arrive (.bools true [true]), .release, .publish])] = some s ∧
      Eff.ret (.save 1 false) (.ok true) ∈ s.log) := by
  refine ⟨⟨_, rfl, rfl, ?_, ?_⟩, ⟨_, rfl, ?_, ?_⟩, ⟨_, rfl, ?_⟩⟩ <;> simp [exEnv, emit, moves, move, answerOf, init, ifDirectory, firstError, handoffError]

/-- **C104**: a worker with 128 later steps. -/
theorem C104_many_nonvacuous :
    ∃ w : List Int, 5 ∈ w ∧ 128 ≤ (w.filter ((5 : Int) < ·)).length :=
  ⟨5 :: List.replicate 128 6, by simp, by simp⟩

end Verif.Emergency.Handoff
