import Verif.Futures.Signals
import Verif.Futures.KVProps

/-!
# Properties of futures that wait for and send signals (C27)

The log lists the observable events, oldest first.
-/

namespace Verif.Futures.Signals

open KV (Sig)

/-- Specification: the contract of an operation after a history: all signals added to it since the signals of
the operation were last removed. -/
def contractOf (op : Nat) (log : List Event) : List Sig :=
  log.foldl (fun acc e => match e with
    | .contracted op' l => if op' = op then acc ++ l else acc
    | .removed op' => if op' = op then [] else acc
    | _ => acc) []

/-- The signal was set at some time in the history. -/
def WasSet (log : List Event) (op : Nat) (s : Sig) : Prop := ∃ b, .signalled op s b ∈ log

/-- The future was cancelled in the history: `cancel` was called, or its body raised `CancelledError`. -/
def Cancelled (log : List Event) (i : Nat) : Prop := .cancelRequested i ∈ log ∨ .cancelledError i ∈ log

theorem append_cases {α : Type} (l : List α) (e : α) (pre post : List α) (x : α) (h : l ++ [e] = pre ++ x :: post) :
    (∃ post', l = pre ++ x :: post') ∨ (l = pre ∧ e = x) := by
  rcases List.eq_nil_or_concat post with hp | ⟨post', y, hp⟩
  · subst hp
    right
    have := List.append_inj' (s₁ := l) (s₂ := pre) (t₁ := [e]) (t₂ := [x]) h (by simp)
    simpa using this
  · left
    subst hp
    have h2 : l ++ [e] = (pre ++ x :: post') ++ [y] := by rw [h]; simp
    exact ⟨post', (List.append_inj' h2 (by simp)).1⟩

/-- Invariant of one future. -/
structure FInv (log : List Event) (i : Nat) (f : Fut) : Prop where
  waiting : ∀ rest, f.pc = .waiting rest → ∃ done, f.recv = done ++ rest ∧ ∀ s ∈ done, WasSet log f.op s
  sending : ∀ rest, f.pc = .sending rest → .bodyOk i ∈ log ∧ ∃ done, f.send = done ++ rest ∧
    ∀ s ∈ done, .signalled f.op s (some i) ∈ log
  sendingC : ∀ rest, f.pc = .sendingCancelled rest → Cancelled log i ∧ f.exc = some .cancelled
  flag : f.cancelled = true → .cancelRequested i ∈ log
  excC : f.exc = some .cancelled → Cancelled log i
  fresh : f.pc = .begin ∨ (∃ r, f.pc = .waiting r) ∨ f.pc = .body ∨ (∃ r, f.pc = .sending r) → f.exc = none
  ended : f.pc = .finished → f.exc = none → f.cancelled = false → .bodyOk i ∈ log ∧
    ∀ s ∈ f.send, .signalled f.op s (some i) ∈ log
  start : ∀ pre post, log = pre ++ .bodyStart i :: post → ∀ s ∈ f.recv, WasSet pre f.op s
  created : ∀ pre post, log = pre ++ .created i :: post → f.recv = contractOf f.op pre

theorem FInv.mono {log : List Event} {i : Nat} {f : Fut} (h : FInv log i f) (evs : List Event)
    (hlen : evs = [] ∨ ∃ e, evs = [e] ∧ e ≠ .bodyStart i ∧ e ≠ .created i) : FInv (log ++ evs) i f := by
  rcases hlen with rfl | ⟨e, rfl, h1, h2⟩
  · rw [List.append_nil]; exact h
  have hm : ∀ x, x ∈ log → x ∈ log ++ [e] := fun x hx => List.mem_append_left _ hx
  have hws : ∀ op s, WasSet log op s → WasSet (log ++ [e]) op s := fun op s ⟨b, hb⟩ => ⟨b, hm _ hb⟩
  have hc : Cancelled log i → Cancelled (log ++ [e]) i := fun h => h.imp (hm _) (hm _)
  exact {
    waiting := fun r hr => let ⟨d, a, b⟩ := h.waiting r hr; ⟨d, a, fun s hs => hws _ _ (b s hs)⟩
    sending := fun r hr => let ⟨a, d, b, c⟩ := h.sending r hr; ⟨hm _ a, d, b, fun s hs => hm _ (c s hs)⟩
    sendingC := fun r hr => let ⟨a, b⟩ := h.sendingC r hr; ⟨hc a, b⟩
    flag := fun hf => hm _ (h.flag hf)
    excC := fun he => hc (h.excC he)
    fresh := h.fresh
    ended := fun a b c => let ⟨x, y⟩ := h.ended a b c; ⟨hm _ x, fun s hs => hm _ (y s hs)⟩
    start := fun pre post hp s hs => by
      rcases append_cases _ _ _ _ _ hp with ⟨post', hp'⟩ | ⟨_, he⟩
      · exact h.start pre post' hp' s hs
      · exact absurd he h1
    created := fun pre post hp => by
      rcases append_cases _ _ _ _ _ hp with ⟨post', hp'⟩ | ⟨_, he⟩
      · exact h.created pre post' hp'
      · exact absurd he h2 }

/-- Invariant of the whole system. -/
structure Inv (st : State) : Prop where
  set : ∀ op s, st.isSet op s = true → WasSet st.log op s
  contract : ∀ op, st.contract op = contractOf op st.log
  futs : ∀ i f, st.fut i = some f → FInv st.log i f
  none : ∀ i, st.fut i = none → .bodyStart i ∉ st.log ∧ .created i ∉ st.log
  order : ∀ pre post op s i, st.log = pre ++ .signalled op s (some i) :: post → .bodyOk i ∈ pre ∨ Cancelled pre i

theorem contractOf_append (op : Nat) (log : List Event) (e : Event)
    (h1 : ∀ op' l, e ≠ .contracted op' l) (h2 : ∀ op', e ≠ .removed op') :
    contractOf op (log ++ [e]) = contractOf op log := by
  unfold contractOf
  rw [List.foldl_append]
  cases e <;> simp_all

/-- A step that changes only future `i`, keeping its parameters, and logs at most one event that is not about
contracts; `hf'` is what is to be shown about the new state of the future. -/
theorem inv_put (st : State) (i : Nat) (f' : Fut) (evs : List Event) (isSet' : Nat → Sig → Bool) (hi : Inv st)
    (hevs : evs = [] ∨ ∃ e, evs = [e] ∧ (∀ op' l, e ≠ .contracted op' l) ∧ (∀ op', e ≠ .removed op') ∧
      (∀ j, j ≠ i → e ≠ .bodyStart j ∧ e ≠ .created j) ∧
      (∀ op s j, e = .signalled op s (some j) → .bodyOk j ∈ st.log ∨ Cancelled st.log j))
    (hset : ∀ op s, isSet' op s = true → st.isSet op s = true ∨ WasSet evs op s)
    (hf' : FInv (st.log ++ evs) i f') :
    Inv { st with fut := upd st.fut i (some f'), isSet := isSet', log := st.log ++ evs } := by
  have hm : ∀ x, x ∈ st.log → x ∈ st.log ++ evs := fun x hx => List.mem_append_left _ hx
  refine ⟨?_, ?_, ?_, ?_, ?_⟩
  · intro op s hs
    rcases hset op s hs with h | ⟨b, hb⟩
    · obtain ⟨b, hb⟩ := hi.set op s h
      exact ⟨b, hm _ hb⟩
    · exact ⟨b, List.mem_append_right _ hb⟩
  · intro op
    rcases hevs with rfl | ⟨e, rfl, h1, h2, _⟩
    · simp only [List.append_nil]; exact hi.contract op
    · simp only; rw [contractOf_append op st.log e h1 h2]; exact hi.contract op
  · intro j g hg
    by_cases he : j = i
    · subst he
      simp only [upd, if_true, Option.some.injEq] at hg
      subst hg; exact hf'
    · simp only [upd, he, if_false] at hg
      refine (hi.futs j g hg).mono evs ?_
      rcases hevs with rfl | ⟨e, rfl, _, _, h3, _⟩
      · exact .inl rfl
      · exact .inr ⟨e, rfl, (h3 j he).1, (h3 j he).2⟩
  · intro j hj
    by_cases he : j = i
    · subst he; simp [upd] at hj
    · simp only [upd, he, if_false] at hj
      have := hi.none j hj
      rcases hevs with rfl | ⟨e, rfl, _, _, h3, _⟩
      · simpa using this
      · simp only [List.mem_append, List.mem_singleton, not_or]
        exact ⟨⟨this.1, (h3 j he).1.symm⟩, this.2, (h3 j he).2.symm⟩
  · intro pre post op s j hlog
    rcases hevs with rfl | ⟨e, rfl, _, _, _, h4⟩
    · simp only [List.append_nil] at hlog
      exact hi.order pre post op s j hlog
    · rcases append_cases _ _ _ _ _ hlog with ⟨post', hp⟩ | ⟨hp, he⟩
      · exact hi.order pre post' op s j hp
      · rw [← hp]; exact h4 op s j he

/-- A step of the other code. -/
theorem inv_other (st : State) (e : Event) (isSet' : Nat → Sig → Bool) (contract' : Nat → List Sig) (hi : Inv st)
    (hset : ∀ op s, isSet' op s = true → WasSet (st.log ++ [e]) op s)
    (hcon : ∀ op, contract' op = contractOf op (st.log ++ [e]))
    (h1 : ∀ j, e ≠ .bodyStart j ∧ e ≠ .created j) (h2 : ∀ op s j, e ≠ .signalled op s (some j)) :
    Inv { st with isSet := isSet', contract := contract', log := st.log ++ [e] } := by
  refine ⟨hset, hcon, ?_, ?_, ?_⟩
  · intro i f hf
    exact (hi.futs i f hf).mono [e] (.inr ⟨e, rfl, (h1 i).1, (h1 i).2⟩)
  · intro j hj
    have := hi.none j hj
    simp only [List.mem_append, List.mem_singleton, not_or]
    exact ⟨⟨this.1, (h1 j).1.symm⟩, this.2, (h1 j).2.symm⟩
  · intro pre post op s j hlog
    rcases append_cases _ _ _ _ _ hlog with ⟨post', hp⟩ | ⟨_, he⟩
    · exact hi.order pre post' op s j hp
    · exact absurd he (h2 op s j)

theorem inv_new (st : State) (i : Nat) (f : Fut) (evs : List Event) (hi : Inv st) (hn : st.fut i = none)
    (hpc : f.pc = .begin) (hc : f.cancelled = false) (he : f.exc = none)
    (hevs : evs = [] ∨ evs = [.created i] ∧ f.recv = contractOf f.op st.log) : Inv (put st i f evs) := by
  obtain ⟨n1, n2⟩ := hi.none i hn
  refine inv_put st i f evs st.isSet hi ?_ (fun _ _ h => .inl h) ?_
  · rcases hevs with h | ⟨h, _⟩
    · exact .inl h
    · exact .inr ⟨_, h, by simp, by simp, fun j hj => ⟨by simp, by simp [Ne.symm hj]⟩, by simp⟩
  · exact {
      waiting := by simp [hpc], sending := by simp [hpc], sendingC := by simp [hpc], flag := by simp [hc]
      excC := by simp [he], fresh := fun _ => he, ended := by simp [hpc]
      start := by
        intro pre post hl
        exfalso
        have hm : Event.bodyStart i ∈ st.log ++ evs := by rw [hl]; simp
        rcases hevs with rfl | ⟨rfl, _⟩
        · simp at hm; exact n1 hm
        · simp at hm; exact n1 hm
      created := by
        intro pre post hl
        rcases hevs with rfl | ⟨rfl, hr⟩
        · exfalso; apply n2
          rw [List.append_nil] at hl; rw [hl]; simp
        · rcases append_cases _ _ _ _ _ hl with ⟨post', hp⟩ | ⟨hp, _⟩
          · exfalso; apply n2; rw [hp]; simp
          · rw [hr, hp] }

/-- Silent change of the program counter and exception of a future. -/
theorem inv_silent (st : State) (i : Nat) (f f' : Fut) (hi : Inv st) (hf : st.fut i = some f)
    (hf' : FInv st.log i f → FInv st.log i f') : Inv (put st i f' []) := by
  refine inv_put st i f' [] st.isSet hi (.inl rfl) (fun _ _ h => .inl h) ?_
  rw [List.append_nil]
  exact hf' (hi.futs i f hf)

theorem finv_finish {log : List Event} {i : Nat} {f : Fut} (h : FInv log i f)
    (hcase : f.cancelled = true ∨ f.exc ≠ none ∨ f.pc = .sending []) :
    FInv log i { f with pc := .finished } where
  waiting := by simp
  sending := by simp
  sendingC := by simp
  flag := h.flag
  excC := h.excC
  fresh := by simp
  ended := by
    intro _ he hc
    simp only at he hc
    rcases hcase with h' | h' | h'
    · rw [h'] at hc; cases hc
    · exact absurd he h'
    · obtain ⟨a, d, b, c⟩ := h.sending [] h'
      rw [List.append_nil] at b
      exact ⟨a, by rw [b]; exact c⟩
  start := h.start
  created := h.created

theorem finv_exception {log : List Event} {i : Nat} {f : Fut} (h : FInv log i f) (hc : Cancelled log i) :
    FInv log i { f with exc := some .cancelled, pc := .sendingCancelled f.send } where
  waiting := by simp
  sending := by simp
  sendingC := fun _ _ => ⟨hc, rfl⟩
  flag := h.flag
  excC := fun _ => hc
  fresh := by simp
  ended := by simp
  start := h.start
  created := h.created

theorem inv_onException (st : State) (i : Nat) (f : Fut) (b : Bool) (hi : Inv st) (hf : st.fut i = some f) :
    Inv (onException st i f b) := by
  have h := hi.futs i f hf
  unfold onException
  cases b with
  | false =>
    simp only [Bool.or_false, Bool.false_eq_true, if_false]
    split
    · rename_i hc
      refine inv_silent st i f _ hi hf (fun h => ?_)
      exact finv_exception h (.inl (h.flag hc))
    · refine inv_silent st i f _ hi hf (fun h => ?_)
      exact {
        waiting := by simp, sending := by simp, sendingC := by simp, flag := h.flag, excC := by simp, fresh := by simp
        ended := by simp, start := h.start, created := h.created }
  | true =>
    simp only [Bool.or_true, if_true]
    refine inv_put st i _ [.cancelledError i] st.isSet hi (.inr ⟨_, rfl, by simp, by simp, by simp, by simp⟩)
      (fun _ _ h => .inl h) ?_
    have h' := h.mono [.cancelledError i] (.inr ⟨_, rfl, by simp, by simp⟩)
    exact finv_exception h' (.inr (by simp))

theorem inv_sendSig (st : State) (i : Nat) (f f' : Fut) (s : Sig) (hi : Inv st)
    (hop : f'.op = f.op) (hdone : .bodyOk i ∈ st.log ∨ Cancelled st.log i)
    (hf' : FInv (st.log ++ [.signalled f.op s (some i)]) i f') : Inv (sendSig st i f' s) := by
  unfold sendSig
  refine inv_put st i f' _ _ hi (.inr ⟨_, rfl, by simp, by simp, by simp, ?_⟩) ?_ (by rw [hop]; exact hf')
  · intro op s' j he
    simp only [Event.signalled.injEq, Option.some.injEq] at he
    rw [← he.2.2]; exact hdone
  · intro op s' h
    unfold setSig at h
    split at h
    · rename_i heq
      right
      exact ⟨some i, by rw [heq.1, heq.2]; simp⟩
    · exact .inl h

theorem inv_run (st st' : State) (i : Nat) (f : Fut) (o : Outcome) (hi : Inv st) (hf : st.fut i = some f)
    (hs : runStep st i f o = some st') : Inv st' := by
  have h := hi.futs i f hf
  unfold runStep at hs
  split at hs
  · -- begin
    simp only [Option.some.injEq] at hs; subst hs
    rename_i hpc
    refine inv_silent st i f _ hi hf (fun h => ?_)
    have hexc := h.fresh (.inl hpc)
    split
    · rename_i hc; exact finv_finish h (.inl hc)
    · exact {
        waiting := by
          intro r hr
          simp only [Pc.waiting.injEq] at hr
          exact ⟨[], by simp [hr], by simp⟩
        sending := by simp, sendingC := by simp, flag := h.flag, excC := h.excC
        fresh := fun _ => hexc
        ended := by simp, start := h.start, created := h.created }
  · cases hs
  · -- a signal has arrived
    split at hs
    · rename_i s rest hpc hset
      simp only [Option.some.injEq] at hs; subst hs
      refine inv_silent st i f _ hi hf (fun h => ?_)
      have hexc := h.fresh (.inr (.inl ⟨_, hpc⟩))
      obtain ⟨d, hd1, hd2⟩ := h.waiting _ hpc
      exact {
        waiting := by
          intro r hr
          simp only [Pc.waiting.injEq] at hr
          subst hr
          refine ⟨d ++ [s], by simp [hd1], ?_⟩
          intro x hx
          simp only [List.mem_append, List.mem_singleton] at hx
          rcases hx with hx | rfl
          · exact hd2 x hx
          · exact hi.set _ _ hset
        sending := by simp, sendingC := by simp, flag := h.flag, excC := h.excC
        fresh := fun _ => hexc
        ended := by simp, start := h.start, created := h.created }
    · cases hs
  · -- all signals have arrived
    rename_i hpc
    have hexc := h.fresh (.inr (.inl ⟨_, hpc⟩))
    obtain ⟨d, hd1, hd2⟩ := h.waiting _ hpc
    rw [List.append_nil] at hd1
    split at hs
    · rename_i hc
      simp only [Option.some.injEq] at hs; subst hs
      exact inv_silent st i f _ hi hf (fun h => finv_finish h (.inl hc))
    · simp only [Option.some.injEq] at hs; subst hs
      refine inv_put st i _ [.bodyStart i] st.isSet hi (.inr ⟨_, rfl, by simp, by simp,
        fun j hj => ⟨by simp [Ne.symm hj], by simp⟩, by simp⟩) (fun _ _ h => .inl h) ?_
      exact {
        waiting := by simp, sending := by simp, sendingC := by simp
        flag := fun hc => List.mem_append_left _ (h.flag hc)
        excC := by simp [hexc]
        fresh := fun _ => hexc
        ended := by simp
        start := by
          intro pre post hl
          rcases append_cases _ _ _ _ _ hl with ⟨post', hp⟩ | ⟨hp, _⟩
          · exact h.start pre post' hp
          · rw [← hp, hd1]; exact hd2
        created := by
          intro pre post hl
          rcases append_cases _ _ _ _ _ hl with ⟨post', hp⟩ | ⟨_, he⟩
          · exact h.created pre post' hp
          · cases he }
  · -- the body succeeded
    rename_i hpc
    simp only [Option.some.injEq] at hs; subst hs
    have hexc := h.fresh (.inr (.inr (.inl hpc)))
    refine inv_put st i _ [.bodyOk i] st.isSet hi (.inr ⟨_, rfl, by simp, by simp, by simp, by simp⟩)
      (fun _ _ h => .inl h) ?_
    have h' := h.mono [.bodyOk i] (.inr ⟨_, rfl, by simp, by simp⟩)
    exact {
      waiting := by simp
      sending := by
        intro r hr
        simp only [Pc.sending.injEq] at hr
        exact ⟨by simp, [], by simp [hr], by simp⟩
      sendingC := by simp, flag := h'.flag, excC := h'.excC, fresh := fun _ => hexc
      ended := by simp, start := h'.start, created := h'.created }
  · -- sending a signal
    rename_i s rest hpc
    simp only [Option.some.injEq] at hs; subst hs
    have hexc := h.fresh (.inr (.inr (.inr ⟨_, hpc⟩)))
    obtain ⟨ha, d, hd1, hd2⟩ := h.sending _ hpc
    have h' := h.mono [.signalled f.op s (some i)] (.inr ⟨_, rfl, by simp, by simp⟩)
    refine inv_sendSig st i f _ s hi rfl (.inl ha) ?_
    exact {
      waiting := by simp
      sending := by
        intro r hr
        simp only [Pc.sending.injEq] at hr
        subst hr
        refine ⟨List.mem_append_left _ ha, d ++ [s], by simp [hd1], ?_⟩
        intro x hx
        simp only [List.mem_append, List.mem_singleton] at hx
        rcases hx with hx | rfl
        · exact List.mem_append_left _ (hd2 x hx)
        · simp
      sendingC := by simp, flag := h'.flag, excC := h'.excC, fresh := fun _ => hexc
      ended := by simp, start := h'.start, created := h'.created }
  · rename_i hpc
    simp only [Option.some.injEq] at hs; subst hs
    exact inv_silent st i f _ hi hf (fun h => finv_finish h (.inr (.inr hpc)))
  · -- sending a signal in the exception handler
    rename_i s rest hpc
    simp only [Option.some.injEq] at hs; subst hs
    obtain ⟨ha, hb⟩ := h.sendingC _ hpc
    have h' := h.mono [.signalled f.op s (some i)] (.inr ⟨_, rfl, by simp, by simp⟩)
    refine inv_sendSig st i f _ s hi rfl (.inr ha) ?_
    exact {
      waiting := by simp, sending := by simp
      sendingC := fun _ _ => ⟨ha.imp (List.mem_append_left _) (List.mem_append_left _), hb⟩
      flag := h'.flag, excC := h'.excC, fresh := by simp
      ended := by simp, start := h'.start, created := h'.created }
  · rename_i hpc
    simp only [Option.some.injEq] at hs; subst hs
    exact inv_silent st i f _ hi hf
      (fun h => finv_finish h (.inr (.inl (by rw [(h.sendingC _ hpc).2]; simp))))
  · rename_i hpc _ _
    simp only [Option.some.injEq] at hs; subst hs
    exact inv_silent st i f _ hi hf
      (fun h => finv_finish h (.inr (.inl (by rw [(h.sendingC _ hpc).2]; simp))))
  · cases hs
  · simp only [Option.some.injEq] at hs; subst hs
    exact inv_onException st i f false hi hf
  · simp only [Option.some.injEq] at hs; subst hs
    exact inv_onException st i f true hi hf

theorem inv_reach (st : State) (h : Reach st) : Inv st := by
  induction h with
  | init => exact ⟨by simp [init], by simp [init, contractOf], by simp [init], by simp [init], by simp [init]⟩
  | step st st' e _ hs hi =>
    cases e with
    | create i op recv send =>
      simp only [step] at hs
      split at hs
      · rename_i hn
        simp only [Option.some.injEq] at hs; subst hs
        exact inv_new st i _ [] hi hn rfl rfl rfl (.inl rfl)
      · cases hs
    | createAwaiting i op send =>
      simp only [step] at hs
      split at hs
      · rename_i hn
        simp only [Option.some.injEq] at hs; subst hs
        exact inv_new st i _ [.created i] hi hn rfl rfl rfl (.inr ⟨rfl, hi.contract op⟩)
      · cases hs
    | run i o =>
      simp only [step] at hs
      split at hs
      · cases hs
      · rename_i f hf
        exact inv_run st st' i f o hi hf hs
    | cancel i =>
      simp only [step] at hs
      split at hs
      · cases hs
      · rename_i f hf
        simp only [Option.some.injEq] at hs; subst hs
        refine inv_put st i _ [.cancelRequested i] st.isSet hi (.inr ⟨_, rfl, by simp, by simp, by simp, by simp⟩)
          (fun _ _ h => .inl h) ?_
        have h' := (hi.futs i f hf).mono [.cancelRequested i] (.inr ⟨_, rfl, by simp, by simp⟩)
        exact {
          waiting := h'.waiting, sending := h'.sending, sendingC := h'.sendingC, flag := fun _ => by simp
          excC := h'.excC, fresh := h'.fresh, ended := by simp, start := h'.start, created := h'.created }
    | signal op s =>
      simp only [step, Option.some.injEq] at hs; subst hs
      refine inv_other st _ _ st.contract hi ?_ ?_ (by simp) (by simp)
      · intro op' s' h
        unfold setSig at h
        split at h
        · rename_i heq; exact ⟨none, by rw [heq.1, heq.2]; simp⟩
        · obtain ⟨b, hb⟩ := hi.set op' s' h
          exact ⟨b, List.mem_append_left _ hb⟩
      · intro op'; rw [contractOf_append op' _ _ (by simp) (by simp)]; exact hi.contract op'
    | addContract op l =>
      simp only [step, Option.some.injEq] at hs; subst hs
      refine inv_other st _ st.isSet _ hi ?_ ?_ (by simp) (by simp)
      · intro op' s' h
        obtain ⟨b, hb⟩ := hi.set op' s' h
        exact ⟨b, List.mem_append_left _ hb⟩
      · intro op'
        unfold contractOf
        rw [List.foldl_append]
        have := hi.contract op'
        unfold contractOf at this
        by_cases he : op' = op
        · subst he; simp [upd, this]
        · simp [upd, he, Ne.symm he, this]
    | removeAll op =>
      simp only [step, Option.some.injEq] at hs; subst hs
      refine inv_other st _ _ _ hi ?_ ?_ (by simp) (by simp)
      · intro op' s' h
        split at h
        · cases h
        · obtain ⟨b, hb⟩ := hi.set op' s' h
          exact ⟨b, List.mem_append_left _ hb⟩
      · intro op'
        unfold contractOf
        rw [List.foldl_append]
        have := hi.contract op'
        unfold contractOf at this
        by_cases he : op' = op
        · subst he; simp [upd]
        · simp [upd, he, Ne.symm he, this]

/-- **C27** a future starts its body only after every signal it is to receive was set. -/
theorem C27_body_after_signals (st : State) (h : Reach st) (i : Nat) (f : Fut) (hf : st.fut i = some f)
    (pre post : List Event) (hl : st.log = pre ++ .bodyStart i :: post) : ∀ s ∈ f.recv, WasSet pre f.op s :=
  ((inv_reach st h).futs i f hf).start pre post hl

/-- **C27** a future that awaits the contracted signals starts its body only after every signal that was in
the contract of its operation when it was created was set. -/
theorem C27_body_after_contract (st : State) (h : Reach st) (i : Nat) (f : Fut) (hf : st.fut i = some f)
    (atCreation later : List Event) (hc : st.log = atCreation ++ .created i :: later)
    (pre post : List Event) (hl : st.log = pre ++ .bodyStart i :: post) :
    ∀ s ∈ contractOf f.op atCreation, WasSet pre f.op s := by
  have hi := (inv_reach st h).futs i f hf
  rw [← hi.created atCreation later hc]
  exact hi.start pre post hl

/-- **C27** a future sets a signal only after its body succeeded, unless it was cancelled before. -/
theorem C27_signal_after_body (st : State) (h : Reach st) (pre post : List Event) (op : Nat) (s : Sig) (i : Nat)
    (hl : st.log = pre ++ .signalled op s (some i) :: post) : .bodyOk i ∈ pre ∨ Cancelled pre i :=
  (inv_reach st h).order pre post op s i hl

/-- **C27** if `result()` returns normally, the body succeeded and all the future's signals have been set by
it. -/
theorem C27_result_ok (st : State) (h : Reach st) (i : Nat) (f : Fut) (hf : st.fut i = some f)
    (hr : result f = some .ok) : .bodyOk i ∈ st.log ∧ ∀ s ∈ f.send, .signalled f.op s (some i) ∈ st.log := by
  have hi := (inv_reach st h).futs i f hf
  unfold result at hr
  split at hr
  · rename_i hpc
    simp only [Option.some.injEq] at hr
    split at hr
    · cases hr
    · rename_i hc
      simp only [Bool.or_eq_true, not_or, Bool.not_eq_true, beq_eq_false_iff_ne] at hc
      split at hr
      · cases hr
      · rename_i he; exact hi.ended hpc he hc.1
  · cases hr

/-- **C27** combined: if no future has been cancelled and nobody but futures has set the signal, the body of
a future that receives it starts only after the body of a future that sends it succeeded. -/
theorem C27_bodies_in_order (st : State) (h : Reach st) (hnc : ∀ i, ¬ Cancelled st.log i)
    (i : Nat) (f : Fut) (hf : st.fut i = some f) (s : Sig) (hs : s ∈ f.recv)
    (hext : .signalled f.op s none ∉ st.log)
    (pre post : List Event) (hl : st.log = pre ++ .bodyStart i :: post) :
    ∃ j, .signalled f.op s (some j) ∈ pre ∧ .bodyOk j ∈ pre := by
  obtain ⟨b, hb⟩ := C27_body_after_signals st h i f hf pre post hl s hs
  cases b with
  | none => exact absurd (by rw [hl]; simp [hb]) hext
  | some j =>
    refine ⟨j, hb, ?_⟩
    obtain ⟨pre', post', hp⟩ := List.append_of_mem hb
    have hl' : st.log = pre' ++ .signalled f.op s (some j) :: (post' ++ .bodyStart i :: post) := by
      rw [hl, hp]; simp
    rcases C27_signal_after_body st h pre' _ f.op s j hl' with h1 | h1
    · rw [hp]; simp [h1]
    · exfalso
      apply hnc j
      unfold Cancelled at h1 ⊢
      rw [hl']
      rcases h1 with h1 | h1
      · left; simp [h1]
      · right; simp [h1]

/-! ### Findings and examples -/

def runEvs : State → List Ev → Option State
  | st, [] => some st
  | st, e :: es => (step st e).bind fun st' => runEvs st' es

theorem reach_run (es : List Ev) (st st' : State) (h : Reach st) (hr : runEvs st es = some st') : Reach st' := by
  induction es generalizing st with
  | nil => simp only [runEvs, Option.some.injEq] at hr; exact hr ▸ h
  | cons e es ih =>
    simp only [runEvs] at hr
    cases hs : step st e with
    | none => rw [hs] at hr; cases hr
    | some st1 => rw [hs] at hr; exact ih st1 (.step st st1 e h hs) hr

/-- Non-vacuity: directory creation (future 0) signals; a write (future 1) that awaits the contract runs
its body only then, and both succeed. -/
example : ∃ st, Reach st ∧ (st.fut 0).bind result = some .ok ∧ (st.fut 1).bind result = some .ok ∧
    st.log = [.contracted 7 [.stepDirectoryCreation], .created 1, .bodyStart 0, .bodyOk 0,
      .signalled 7 .stepDirectoryCreation (some 0), .bodyStart 1, .bodyOk 1] :=
  ⟨_, reach_run [.addContract 7 [.stepDirectoryCreation], .create 0 7 [] [.stepDirectoryCreation],
    .createAwaiting 1 7 [], .run 1 .ok, .run 0 .ok, .run 0 .ok, .run 0 .ok, .run 0 .ok, .run 1 .ok, .run 1 .ok,
    .run 0 .ok, .run 1 .ok, .run 1 .ok] _ _ .init rfl, by decide, by decide, by decide⟩

/-- Finding: a future that is cancelled while its body runs sets its signals although the body failed, and
the bodies that wait for them run: here future 1 writes although the directory was not created. -/
theorem C27_cancelled_future_still_signals_fails :
    ∃ st, Reach st ∧ .bodyOk 0 ∉ st.log ∧ .bodyStart 1 ∈ st.log ∧
      ∃ f, st.fut 1 = some f ∧ f.recv = [.stepDirectoryCreation] ∧ f.cancelled = false :=
  ⟨_, reach_run [.addContract 7 [.stepDirectoryCreation], .create 0 7 [] [.stepDirectoryCreation],
    .createAwaiting 1 7 [], .run 1 .ok, .run 0 .ok, .run 0 .ok, .cancel 0, .run 0 .raise, .run 0 .ok, .run 1 .ok,
    .run 1 .ok] _ _ .init rfl, by decide, by decide, _, rfl, by decide, by decide⟩

/-- Finding: a future that is cancelled before its body starts ends without setting its signals: futures that
wait for them are left waiting until they time out. -/
theorem C27_cancelled_early_never_signals_fails :
    ∃ st, Reach st ∧ (st.fut 0).map (·.pc) = some .finished ∧ (step st (.run 1 .ok)).isNone = true ∧
      (st.fut 1).map (·.pc) = some (.waiting [.stepDirectoryCreation]) :=
  ⟨_, reach_run [.create 0 7 [] [.stepDirectoryCreation], .create 1 7 [.stepDirectoryCreation] [],
    .cancel 0, .run 0 .ok, .run 1 .ok] _ _ .init rfl, by decide, by decide, by decide⟩

end Verif.Futures.Signals
