/-
A waiting `shutdown` is never stuck.
-/
import Verif.Async.RunnerSteps

namespace Verif.Runner

def weight : Handle → Nat
  | .create _ => 3
  | .step _ => 2
  | .notify _ => 1
  | .createShutdown => 5
  | .stepShutdown => 4
  | .resumeShutdown => 2
  | .notifyShutdown => 1
  | .stop => 1

def weights (l : List Handle) : Nat := (l.map weight).sum

theorem weights_append (l r : List Handle) : weights (l ++ r) = weights l + weights r := by
  simp [weights]

theorem weights_cons (x : Handle) (l : List Handle) :
    weights (x :: l) = weight x + weights l := by
  simp [weights]

theorem weights_nil : weights [] = 0 := rfl

theorem weights_steps (l : List Nat) : weights (l.map Handle.step) = 2 * l.length := by
  induction l with
  | nil => rfl
  | cons x l ih => simp only [List.map_cons, weights_cons, ih, weight, List.length_cons]; omega

def phaseWeight : Phase → Nat
  | .gathering _ => 3
  | _ => 0

def callerWeight : Caller → Nat
  | .waiting => 4
  | .joining => 2
  | _ => 0

def heavy (s : State) : Nat :=
  weights s.batch + weights s.ready + 3 * s.waiting.length + phaseWeight s.phase
    + callerWeight s.caller + (if s.exited then 0 else 1)

def measure (s : State) : Nat := 2 * heavy s + (if s.batch = [] then 1 else 0)

def pending (s : State) : Prop := s.caller = .waiting ∨ s.caller = .joining

theorem measure_lt {s s' : State} (h : heavy s' < heavy s) : measure s' < measure s := by
  unfold measure
  split <;> split <;> omega

theorem run_progress {s : State} {x : Handle} {r : List Handle} (hi : Inv s)
    (hb : s.batch = x :: r) (hx : s.exited = false) :
    ∃ s', step s (.run (.finish [] (.value 0))) = some s' ∧ measure s' < measure s ∧
      s'.caller = s.caller := by
  have hw : heavy s = weight x + weights r + weights s.ready + 3 * s.waiting.length
      + phaseWeight s.phase + callerWeight s.caller + 1 := by
    simp [heavy, hb, weights_cons, hx]
  cases x with
  | create k =>
    refine ⟨{ s with batch := r, live := s.live ++ [k], ready := s.ready ++ [.step k] },
      by simp [step, hx, hb, runHandle], measure_lt ?_, rfl⟩
    rw [hw]; simp [heavy, hx, weights_append, weights_cons, weight, weights_nil]; omega
  | step k =>
    refine ⟨stepTask { s with batch := r } k (.finish [] (.value 0)),
      by simp [step, hx, hb, runHandle, freshChildren, Act.children], measure_lt ?_, rfl⟩
    rw [hw]
    simp [heavy, stepTask, Act.children, hx, weights_append, weights_cons, weight,
      weights_nil]
    omega
  | notify k =>
    refine ⟨notify { s with batch := r } k, by simp [step, hx, hb, runHandle],
      measure_lt ?_, ?_⟩
    · rw [hw]
      unfold notify
      cases hp : s.phase with
      | gathering rest =>
        simp only
        split
        · split
          · simp [heavy, hx, weights_append, weights_cons, weight, phaseWeight, weights_nil]
            omega
          · simp [heavy, hx, weight, phaseWeight]
        · simp [heavy, hx, hp, weight, phaseWeight]
      | _ => simp [heavy, hx, hp, weight, phaseWeight]
    · unfold notify
      cases hp : s.phase <;> simp only
      split
      · split <;> rfl
      · rfl
  | createShutdown =>
    refine ⟨{ s with batch := r, phase := .created, ready := s.ready ++ [.stepShutdown] },
      by simp [step, hx, hb, runHandle], measure_lt ?_, rfl⟩
    rw [hw]; simp [heavy, hx, weights_append, weights_cons, weight, phaseWeight,
      weights_nil]; omega
  | stepShutdown =>
    refine ⟨stepShutdown { s with batch := r } s.cancel, by simp [step, hx, hb, runHandle],
      measure_lt ?_, ?_⟩
    · rw [hw]
      unfold stepShutdown
      simp only
      split
      · simp [heavy, hx, weights_append, weights_cons, weight, phaseWeight, weights_nil]
        omega
      · split
        · simp [heavy, hx, weights_append, weights_steps, weight, phaseWeight]
          omega
        · simp [heavy, hx, weight, phaseWeight]; omega
    · unfold stepShutdown
      simp only
      split
      · rfl
      · split <;> rfl
  | resumeShutdown =>
    refine ⟨{ s with batch := r, phase := .finishing, ready := s.ready ++ [.notifyShutdown] },
      by simp [step, hx, hb, runHandle], measure_lt ?_, rfl⟩
    rw [hw]; simp [heavy, hx, weights_append, weights_cons, weight, phaseWeight,
      weights_nil]; omega
  | notifyShutdown =>
    refine ⟨{ s with batch := r, phase := .finished },
      by simp [step, hx, hb, runHandle], measure_lt ?_, rfl⟩
    rw [hw]; simp [heavy, hx, weight, phaseWeight]; omega
  | stop =>
    refine ⟨{ s with batch := r, stopping := true },
      by simp [step, hx, hb, runHandle], measure_lt ?_, rfl⟩
    rw [hw]; simp [heavy, hx, weight]

theorem progress {s : State} (hi : Inv s) (hp : pending s) :
    ∃ e s', step s e = some s' ∧ measure s' < measure s ∧
      (pending s' ∨ s'.caller = .back) := by
  have b := hi.b
  cases hx : s.exited with
  | true =>
    have hj : s.caller = .joining := by
      rcases hp with h | h
      · have := b.callerWait h
        rw [hx] at this; simp at this
      · exact h
    refine ⟨.goOn, { s with caller := .back, log := s.log ++ [.returned] },
      by simp [step, goOn, hj, hx], measure_lt ?_, Or.inr rfl⟩
    simp [heavy, hj, callerWeight]
  | false =>
    cases hb : s.batch with
    | cons x r =>
      obtain ⟨s', h1, h2, h3⟩ := run_progress hi hb hx
      refine ⟨_, s', h1, h2, Or.inl ?_⟩
      unfold pending
      rw [h3]; exact hp
    | nil =>
      cases hst : s.stopping with
      | true =>
        refine ⟨.iterate, { s with exited := true },
          by simp [step, iterate, hx, hb, hst], measure_lt ?_, Or.inl hp⟩
        simp [heavy, hx]
      | false =>
        cases hr : s.ready with
        | cons x r =>
          refine ⟨.iterate, { s with batch := s.ready, ready := [] },
            by simp [step, iterate, hx, hb, hst], ?_, Or.inl hp⟩
          simp [measure, heavy, hx, hb, hr, weights]
        | nil =>
          have hq : s.q = [] := by simp [State.q, hb, hr]
          cases hw : s.waiting with
          | cons k w =>
            refine ⟨.wake k, { s with
                waiting := s.waiting.erase k
                ready := s.ready ++ [.step k] },
              by simp [step, wake, hx, hw], measure_lt ?_, Or.inl hp⟩
            simp [heavy, hx, hw, hr, weights, weight]
            omega
          | nil =>
            have hcall : s.caller = .waiting := by
              rcases hp with h | h
              · exact h
              · have := b.callerJoin h
                rw [hq, hst, hx] at this; simp at this
            have hph : s.phase = .finished := by
              have c1 := b.cCreate
              have c2 := b.cStep
              have c3 := b.cResume
              have c4 := b.cNotify
              rw [hq] at c1 c2 c3 c4
              cases hph : s.phase with
              | idle => exact absurd hph (b.callerWait hcall).1
              | queued => rw [hph] at c1; simp at c1
              | created => rw [hph] at c2; simp at c2
              | resumed => rw [hph] at c3; simp at c3
              | finishing => rw [hph] at c4; simp at c4
              | finished => rfl
              | gathering rest =>
                obtain ⟨g1, g2, _, _⟩ := b.gathering rest hph
                cases rest with
                | nil => exact absurd rfl g1
                | cons k rest =>
                  obtain ⟨f1, f2⟩ := g2 k (by simp)
                  have t := hi.a.tok k
                  simp [tok, hq, hw, f1, f2] at t
            refine ⟨.goOn, { s with ready := s.ready ++ [.stop], caller := .joining },
              by simp [step, goOn, hcall, hph], measure_lt ?_, Or.inl (Or.inr rfl)⟩
            simp [heavy, hx, hcall, callerWeight, hr, weights, weight]
            omega

theorem can_return (n : Nat) : ∀ {s : State}, measure s ≤ n → Inv s → pending s →
    ∃ es s', exec s es = some s' ∧ s'.caller = .back := by
  induction n with
  | zero =>
    intro s hn hi hp
    obtain ⟨e, s', _, h2, _⟩ := progress hi hp
    omega
  | succ n ih =>
    intro s hn hi hp
    obtain ⟨e, s1, h1, h2, h3⟩ := progress hi hp
    rcases h3 with h3 | h3
    · obtain ⟨es, s', h4, h5⟩ := ih (by omega) (step_keeps hi h1) h3
      exact ⟨e :: es, s', by simp [exec, h1, h4], h5⟩
    · exact ⟨[e], s1, by simp [exec, h1], h3⟩

/-- Nothing from outside is needed any more. -/
def NoWait (s : State) : Prop :=
  s.cancel = true ∧ (s.phase = .queued ∨ s.phase = .created ∨ s.waiting = [])

theorem run_nowait {s s' : State} {x : Handle} {r : List Handle} (hi : Inv s)
    (hb : s.batch = x :: r) (hx : s.exited = false) (hn : NoWait s)
    (hs : step s (.run (.finish [] (.value 0))) = some s') : NoWait s' := by
  have b := hi.b
  have hq := q_cons hb
  obtain ⟨hc, hn⟩ := hn
  simp only [step, hx, hb] at hs
  have old : ∀ ph, (s.phase ≠ .queued ∧ s.phase ≠ .created) →
      (ph = Phase.queued ∨ ph = .created ∨ s.waiting = []) := by
    intro ph ⟨h1, h2⟩
    rcases hn with h | h | h
    · exact absurd h h1
    · exact absurd h h2
    · exact Or.inr (Or.inr h)
  cases x with
  | create k => cases hs; exact ⟨hc, hn⟩
  | step k => cases hs; exact ⟨hc, hn⟩
  | notify k =>
    cases hs
    cases hp : s.phase with
    | gathering rest =>
      have := old (.gathering rest) (by rw [hp]; exact ⟨by nofun, by nofun⟩)
      have hw : s.waiting = [] := by
        rcases this with h | h | h
        · cases h
        · cases h
        · exact h
      simp only [notify]
      split
      · split <;> exact ⟨hc, Or.inr (Or.inr hw)⟩
      · exact ⟨hc, Or.inr (Or.inr hw)⟩
    | _ => simp only [notify]; exact ⟨hc, hp ▸ hn⟩
  | createShutdown => cases hs; exact ⟨hc, Or.inr (Or.inl rfl)⟩
  | stepShutdown =>
    cases hs
    simp only [stepShutdown, hc, if_true]
    split
    next hnil =>
      refine ⟨rfl, Or.inr (Or.inr ?_)⟩
      cases hw : s.waiting with
      | nil => rfl
      | cons k w =>
        have := hi.a.live k
        rw [hnil, hw] at this
        simp at this
    · exact ⟨rfl, Or.inr (Or.inr rfl)⟩
  | resumeShutdown =>
    cases hs
    have c3 := b.cResume
    have hph : s.phase = .resumed := by
      by_cases e : s.phase = .resumed
      · exact e
      · rw [if_neg e, hq] at c3; simp at c3
    exact ⟨hc, old _ (by rw [hph]; exact ⟨by nofun, by nofun⟩)⟩
  | notifyShutdown =>
    cases hs
    have c4 := b.cNotify
    have hph : s.phase = .finishing := by
      by_cases e : s.phase = .finishing
      · exact e
      · rw [if_neg e, hq] at c4; simp at c4
    exact ⟨hc, old _ (by rw [hph]; exact ⟨by nofun, by nofun⟩)⟩
  | stop => cases hs; exact ⟨hc, hn⟩

theorem progress_nowait {s : State} (hi : Inv s) (hp : pending s) (hn : NoWait s) :
    ∃ e s', (∀ k, e ≠ .wake k) ∧ step s e = some s' ∧ measure s' < measure s ∧
      ((pending s' ∧ NoWait s') ∨ s'.caller = .back) := by
  have b := hi.b
  cases hx : s.exited with
  | true =>
    have hj : s.caller = .joining := by
      rcases hp with h | h
      · have := b.callerWait h
        rw [hx] at this; simp at this
      · exact h
    refine ⟨.goOn, { s with caller := .back, log := s.log ++ [.returned] }, by nofun,
      by simp [step, goOn, hj, hx], measure_lt ?_, Or.inr rfl⟩
    simp [heavy, hj, callerWeight]
  | false =>
    cases hb : s.batch with
    | cons x r =>
      obtain ⟨s', h1, h2, h3⟩ := run_progress hi hb hx
      refine ⟨_, s', by nofun, h1, h2, Or.inl ⟨?_, run_nowait hi hb hx hn h1⟩⟩
      unfold pending
      rw [h3]; exact hp
    | nil =>
      cases hst : s.stopping with
      | true =>
        refine ⟨.iterate, { s with exited := true }, by nofun,
          by simp [step, iterate, hx, hb, hst], measure_lt ?_, Or.inl ⟨hp, hn⟩⟩
        simp [heavy, hx]
      | false =>
        cases hr : s.ready with
        | cons x r =>
          refine ⟨.iterate, { s with batch := s.ready, ready := [] }, by nofun,
            by simp [step, iterate, hx, hb, hst], ?_, Or.inl ⟨hp, hn⟩⟩
          simp [measure, heavy, hx, hb, hr, weights]
        | nil =>
          have hq : s.q = [] := by simp [State.q, hb, hr]
          have c1 := b.cCreate
          have c2 := b.cStep
          rw [hq] at c1 c2
          have hw : s.waiting = [] := by
            rcases hn.2 with h | h | h
            · rw [h] at c1; simp at c1
            · rw [h] at c2; simp at c2
            · exact h
          obtain ⟨e, s', h1, h2, h3⟩ := progress hi hp
          cases e with
          | wake k => simp [step, wake, hx, hw] at h1
          | goOn =>
            have hn' : pending s' → NoWait s' := by
              intro _
              simp only [step, goOn] at h1
              split at h1
              · split at h1
                · cases h1; exact hn
                · cases h1
              · split at h1
                · cases h1; exact hn
                · cases h1
              · cases h1
            refine ⟨.goOn, s', by nofun, h1, h2, ?_⟩
            rcases h3 with h3 | h3
            · exact Or.inl ⟨h3, hn' h3⟩
            · exact Or.inr h3
          | iterate =>
            simp only [step, iterate, hx, hb, hst, hr] at h1
            cases h1
            simp [measure, heavy, hb, hr, weights, hx] at h2
          | run a => simp [step, hx, hb] at h1
          | submit k =>
            exfalso
            have hcl : s.closed = true := by
              cases hcl : s.closed with
              | true => rfl
              | false =>
                have h0 := b.callerOut (b.idle.mpr hcl)
                rcases hp with h | h <;> (rw [h0.1] at h; cases h)
            simp only [step] at h1
            split at h1
            · cases h1
            · cases h1
              simp [submit, hcl, measure, heavy] at h2
          | shutdown w c =>
            exfalso
            have hcl : s.closed = true := by
              cases hcl : s.closed with
              | true => rfl
              | false =>
                have h0 := b.callerOut (b.idle.mpr hcl)
                rcases hp with h | h <;> (rw [h0.1] at h; cases h)
            simp only [step, Option.some.injEq] at h1
            subst h1
            simp [shutdown, hcl, measure, heavy] at h2

theorem can_return_nowait (n : Nat) : ∀ {s : State}, measure s ≤ n → Inv s → pending s →
    NoWait s → ∃ es s', (∀ k, Event.wake k ∉ es) ∧ exec s es = some s' ∧
      s'.caller = .back := by
  induction n with
  | zero =>
    intro s hn hi hp hw
    obtain ⟨e, s', _, _, h2, _⟩ := progress_nowait hi hp hw
    omega
  | succ n ih =>
    intro s hn hi hp hw
    obtain ⟨e, s1, h0, h1, h2, h3⟩ := progress_nowait hi hp hw
    rcases h3 with ⟨h3, h3'⟩ | h3
    · obtain ⟨es, s', h6, h4, h5⟩ := ih (by omega) (step_keeps hi h1) h3 h3'
      refine ⟨e :: es, s', ?_, by simp [exec, h1, h4], h5⟩
      intro k hk
      rcases List.mem_cons.mp hk with hk | hk
      · exact h0 k hk.symm
      · exact h6 k hk
    · refine ⟨[e], s1, ?_, by simp [exec, h1], h3⟩
      intro k hk
      rcases List.mem_cons.mp hk with hk | hk
      · exact h0 k hk.symm
      · cases hk

end Verif.Runner
