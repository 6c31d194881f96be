/-
Every step of the model of `AsyncRunner` keeps its invariants.
-/
import Verif.Async.RunnerLemmas

namespace Verif.Runner

/-- What the invariant about coroutines depends on. -/
theorem invA_of {s s' : State} (a : InvA s)
    (hc : ∀ k, s'.q.count (.create k) + s'.q.count (.step k) + s'.waiting.count k
      + s'.q.count (.notify k) = s.q.count (.create k) + s.q.count (.step k)
      + s.waiting.count k + s.q.count (.notify k))
    (hl : ∀ k, s'.live.count k + (s.q.count (.step k) + s.waiting.count k)
      = s.live.count k + (s'.q.count (.step k) + s'.waiting.count k))
    (hn : ∀ k, Handle.notify k ∈ s'.q ↔ Handle.notify k ∈ s.q)
    (h1 : s'.result = s.result) (h2 : s'.future = s.future) (h3 : s'.used = s.used)
    (h4 : ∀ k o, Obs.ended k o ∈ s'.log ↔ Obs.ended k o ∈ s.log)
    (h5 : ∀ k o, Obs.resolved k o ∈ s'.log ↔ Obs.resolved k o ∈ s.log)
    (h6 : ∀ k, Obs.accepted k ∈ s'.log ↔ Obs.accepted k ∈ s.log) : InvA s' := by
  constructor
  · intro k
    have := a.tok k
    have := hc k
    simp only [Runner.tok, h2, h3] at *
    omega
  · intro k
    have := a.live k
    have := hl k
    omega
  · intro k
    rw [hn, h2, a.ended k]
    simp only [h4]
  · intro k o h
    rw [h4] at h; rw [h1]; exact a.result k o h
  · intro k o
    rw [h2, h5]; exact a.future k o
  · intro k o
    rw [h1, h2]; exact a.futres k o
  · intro k h
    rw [h6] at h; rw [h3]; exact a.accepted k h

theorem goOn_inv {s s' : State} (h : Inv s) (hs : goOn s = some s') : Inv s' := by
  obtain ⟨a, b⟩ := h
  unfold goOn at hs
  split at hs
  next hw =>
    split at hs
    next hp =>
      cases hs
      have hcw := b.callerWait hw
      refine ⟨invA_of a ?_ ?_ ?_ rfl rfl rfl (fun _ _ => Iff.rfl) (fun _ _ => Iff.rfl)
        (fun _ => Iff.rfl), ?_⟩
      · intro k; simp [State.q, List.count_append]
      · intro k; simp [State.q, List.count_append]
      · intro k; simp [State.q]
      · have c1 := b.cCreate
        have c2 := b.cStep
        have c3 := b.cResume
        have c4 := b.cNotify
        constructor
        · exact b.closed
        · exact b.idle
        · simpa [State.q, List.count_append, hp] using c1
        · simpa [State.q, List.count_append, hp] using c2
        · simpa [State.q, List.count_append, hp] using c3
        · simpa [State.q, List.count_append, hp] using c4
        · simp [hp]
        · intro h1 h2 k
          have := b.nocreate h1 h2 k
          simpa [State.q] using this
        · simp [hp]
        · simp [hp]
        · simp [hp]
        · exact b.finished
        · simp [hp]
        · simp
        · simp [hp, State.q]
        · simp
        · exact b.exited
        · intro h
          have := b.down h
          rw [hw] at this; cases this
        · exact b.sound
    next => cases hs
  next hw =>
    split at hs
    next he =>
      cases hs
      have hj := b.callerJoin hw
      have hok : Ok s.log .returned := by
        intro _ k hk
        have := b.finished hj.1 k hk
        cases hf : s.future k with
        | none => exact absurd hf this
        | some o => exact ⟨o, (a.future k o).mp hf⟩
      refine ⟨invA_of a (fun _ => rfl) (fun _ => rfl) (fun _ => Iff.rfl) rfl rfl rfl
        (by simp) (by simp) (by simp), ?_⟩
      constructor
      · rw [asks_append]; simpa [asks] using b.closed
      · exact b.idle
      · exact b.cCreate
      · exact b.cStep
      · exact b.cResume
      · exact b.cNotify
      · exact b.queued
      · exact b.nocreate
      · simpa [State.q] using b.gathering
      · simpa [State.q] using b.resumed
      · simpa [State.q] using b.finishing
      · simpa using b.finished
      · simp [hj]
      · simp
      · simp
      · intro _; exact he
      · exact b.exited
      · simp
      · exact sound_snoc b.sound hok
    next => cases hs
  next => cases hs

theorem wake_inv {s s' : State} {k : Nat} (h : Inv s) (hs : wake s k = some s') :
    Inv s' := by
  obtain ⟨a, b⟩ := h
  unfold wake at hs
  split at hs
  · cases hs
  next hx =>
    split at hs
    next hk =>
      cases hs
      have hcw : ∀ j, (s.waiting.erase k).count j + (if j = k then 1 else 0)
          = s.waiting.count j := by
        intro j
        rw [List.count_erase]
        by_cases e : j = k
        · subst e
          have : 0 < s.waiting.count j := List.count_pos_iff.mpr hk
          simp
          omega
        · have e' : k ≠ j := fun h => e h.symm
          simp [e, e']
      refine ⟨invA_of a ?_ ?_ ?_ rfl rfl rfl (fun _ _ => Iff.rfl) (fun _ _ => Iff.rfl)
        (fun _ => Iff.rfl), ?_⟩
      · intro j
        have := hcw j
        by_cases e : j = k
        · subst e; simp [State.q, List.count_append] at *; omega
        · have e' : k ≠ j := fun h => e h.symm
          simp [State.q, List.count_append, e, e'] at *; try omega
      · intro j
        have := hcw j
        by_cases e : j = k
        · subst e; simp [State.q, List.count_append] at *; omega
        · have e' : k ≠ j := fun h => e h.symm
          simp [State.q, List.count_append, e, e'] at *; try omega
      · intro j; simp [State.q]
      · exact invB_mono (l := [.step k]) (obs := []) b rfl rfl rfl rfl rfl rfl
          (by simp [State.q]) (by simp [Handle.plain]) b.exited (fun _ h => h)
          (by simp) (by simp) rfl id b.sound
    next => cases hs

theorem iterate_inv {s s' : State} (h : Inv s) (hs : iterate s = some s') : Inv s' := by
  obtain ⟨a, b⟩ := h
  unfold iterate at hs
  split at hs
  · cases hs
  next hx =>
    split at hs
    · cases hs
    next hb =>
      have hb' : s.batch = [] := by
        cases e : s.batch with
        | nil => rfl
        | cons x l => exact absurd (by rw [e]; simp) hb
      have hxf : s.exited = false := by simpa using hx
      split at hs
      next hst =>
        cases hs
        refine ⟨invA_of a (fun _ => rfl) (fun _ => rfl) (fun _ => Iff.rfl) rfl rfl rfl
          (fun _ _ => Iff.rfl) (fun _ _ => Iff.rfl) (fun _ => Iff.rfl), ?_⟩
        constructor
        · exact b.closed
        · exact b.idle
        · exact b.cCreate
        · exact b.cStep
        · exact b.cResume
        · exact b.cNotify
        · exact b.queued
        · exact b.nocreate
        · exact b.gathering
        · exact b.resumed
        · exact b.finishing
        · exact b.finished
        · intro hp
          have := b.callerOut hp
          rw [hst] at this; simp at this
        · intro hp
          have := b.callerWait hp
          rw [hst] at this; simp at this
        · intro hp
          exact ⟨(b.callerJoin hp).1, Or.inr (Or.inr rfl)⟩
        · simp
        · intro _; exact hb'
        · exact b.down
        · exact b.sound
      next =>
        cases hs
        have hq : ({ s with batch := s.ready, ready := [] } : State).q = s.q := by
          simp [State.q, hb']
        refine ⟨invA_of a (by rw [hq]; intro; rfl) (by rw [hq]; intro; rfl)
          (by rw [hq]; intro; rfl) rfl rfl rfl
          (fun _ _ => Iff.rfl) (fun _ _ => Iff.rfl) (fun _ => Iff.rfl), ?_⟩
        exact invB_mono (l := []) (obs := []) b rfl rfl rfl rfl rfl rfl
          (by rw [hq]; simp) (by simp) (by rw [hxf]; simp) (fun _ h => h)
          (by simp) (by simp) rfl id b.sound

theorem q_cons {s : State} {h : Handle} {r : List Handle} (hb : s.batch = h :: r) :
    s.q = h :: (r ++ s.ready) := by
  simp [State.q, hb]

theorem create_inv {s : State} {k : Nat} {r : List Handle} (h : Inv s)
    (hb : s.batch = .create k :: r) :
    Inv { s with batch := r, live := s.live ++ [k], ready := s.ready ++ [.step k] } := by
  obtain ⟨a, b⟩ := h
  have hq := q_cons hb
  refine ⟨invA_of a ?_ ?_ ?_ rfl rfl rfl (fun _ _ => Iff.rfl) (fun _ _ => Iff.rfl)
    (fun _ => Iff.rfl), ?_⟩
  · intro j
    rw [hq]
    by_cases e : j = k
    · subst e; simp [State.q, List.count_append]; omega
    · have e' : k ≠ j := fun h => e h.symm
      simp [State.q, List.count_append, List.count_cons, e']
  · intro j
    rw [hq]
    by_cases e : j = k
    · subst e; simp [State.q, List.count_append]; omega
    · have e' : k ≠ j := fun h => e h.symm
      simp [State.q, List.count_append, List.count_cons, e']
  · intro j; rw [hq]; simp [State.q]
  · exact invB_mono (l := [.step k]) (obs := []) (invB_pop b hb ⟨k, Or.inl rfl⟩)
      rfl rfl rfl rfl rfl rfl (by simp [State.q]) (by simp [Handle.plain])
      (invB_pop b hb ⟨k, Or.inl rfl⟩).exited (fun _ h => h) (by simp) (by simp) rfl id
      b.sound

theorem fresh_spec {s : State} {cs : List Nat} (h : freshChildren s cs = true) :
    (∀ c, c ∈ cs → c ∉ s.used) ∧ ∀ c, cs.count c ≤ 1 := by
  induction cs with
  | nil => simp
  | cons c cs ih =>
    simp only [freshChildren, Bool.and_eq_true, Bool.not_eq_true', List.contains_eq_mem,
      decide_eq_false_iff_not] at h
    obtain ⟨⟨h1, h2⟩, h3⟩ := h
    obtain ⟨i1, i2⟩ := ih h3
    refine ⟨?_, ?_⟩
    · intro d hd
      rcases List.mem_cons.mp hd with e | e
      · rw [e]; exact h1
      · exact i1 d e
    · intro d
      rw [List.count_cons]
      by_cases e : c = d
      · subst e
        rw [List.count_eq_zero.mpr h2]; simp
      · simp [e, i2 d]

theorem count_map_step (cs : List Nat) (k : Nat) :
    (cs.map Handle.step).count (.step k) = cs.count k := by
  induction cs with
  | nil => rfl
  | cons c cs ih => simp [List.count_cons, ih]

theorem count_map_other (cs : List Nat) (h : Handle) (hh : ∀ k, h ≠ .step k) :
    (cs.map Handle.step).count h = 0 := by
  rw [List.count_eq_zero]
  intro hm
  obtain ⟨c, _, e⟩ := List.mem_map.mp hm
  exact hh c e.symm

theorem step_inv {s : State} {k : Nat} {r : List Handle} {a : Act} (h : Inv s)
    (hx : s.exited = false) (hb : s.batch = .step k :: r)
    (hf : freshChildren { s with batch := r } a.children = true) :
    Inv (stepTask { s with batch := r } k a) := by
  obtain ⟨ia, ib⟩ := h
  have hq := q_cons hb
  obtain ⟨f1, f2⟩ := fresh_spec hf
  simp only at f1
  -- the coroutine is here and nowhere else
  have hk := ia.tok k
  have hkc : (r ++ s.ready).count (.step k) + 1 = s.q.count (.step k) := by
    rw [hq]; simp
  have hku : k ∈ s.used := by
    simp only [Runner.tok] at hk
    by_cases e : k ∈ s.used
    · exact e
    · rw [if_neg e] at hk; omega
  simp only [Runner.tok, if_pos hku] at hk
  have hkn : s.q.count (.notify k) = 0 := by omega
  have hkf : s.future k = none := by
    cases hf : s.future k with
    | none => rfl
    | some o => rw [hf] at hk; simp at hk; omega
  have hkno : ∀ o, Obs.ended k o ∉ s.log := by
    intro o ho
    rcases (ia.ended k).mpr ⟨o, ho⟩ with h | h
    · rw [List.count_eq_zero] at hkn; exact hkn h
    · rw [hkf] at h; cases h
  have hkch : k ∉ a.children := fun h => f1 k h hku
  have hnd : ¬ Down s.log := by
    intro h
    have := ib.callerBack (ib.down h)
    rw [hx] at this; cases this
  have htok : ∀ j, j ∈ a.children → s.q.count (.create j) = 0 ∧ s.q.count (.step j) = 0
      ∧ s.waiting.count j = 0 ∧ s.q.count (.notify j) = 0 ∧ s.future j = none := by
    intro j hj
    have := ia.tok j
    simp only [Runner.tok, if_neg (f1 j hj)] at this
    refine ⟨by omega, by omega, by omega, by omega, ?_⟩
    cases hf : s.future j with
    | none => rfl
    | some o => rw [hf] at this; simp at this
  have hran : Sound (s.log ++ [.ran k]) := sound_snoc ib.sound ⟨hnd, hkno⟩
  have hb' := invB_pop ib hb ⟨k, Or.inr rfl⟩
  have hlive : 0 < s.live.count k := by
    have := ia.live k; omega
  -- counts in the new queue
  have hqc : ∀ (l : List Handle) x, ((r ++ (s.ready ++ a.children.map Handle.step ++ l)).count x)
      = (r ++ s.ready).count x + (a.children.map Handle.step).count x + l.count x := by
    intro l x; simp only [List.count_append]; omega
  have hqo : ∀ x, s.q.count x = (r ++ s.ready).count x + (if x = .step k then 1 else 0) := by
    intro x
    rw [hq, List.count_cons]
    by_cases e : x = .step k
    · subst e; simp
    · have e' : Handle.step k ≠ x := fun h => e h.symm
      simp [e, e']
  have hchild : ∀ j, a.children.count j = if j ∈ a.children then 1 else 0 := by
    intro j
    by_cases e : j ∈ a.children
    · have := f2 j
      have := List.count_pos_iff.mpr e
      rw [if_pos e]; omega
    · rw [if_neg e, List.count_eq_zero]; exact e
  cases a with
  | suspend cs =>
    simp only [stepTask, Act.children] at *
    refine ⟨⟨?_, ?_, ?_, ?_, ?_, ia.futres, ?_⟩, ?_⟩
    · intro j
      have t := ia.tok j
      have t' := htok j
      have u := hqc []
      have v := hqo
      have w := hchild j
      simp only [List.append_nil, List.count_nil, Nat.add_zero] at u
      simp only [Runner.tok, State.q, u, count_map_step,
        count_map_other _ _ (fun k (e : Handle.create j = .step k) => by cases e),
        count_map_other _ _ (fun k (e : Handle.notify j = .step k) => by cases e),
        List.mem_append, List.count_cons] at *
      have v1 := v (.create j)
      have v2 := v (.step j)
      have v3 := v (.notify j)
      grind
    · intro j
      have t := ia.live j
      have u := hqc []
      have v := hqo (.step j)
      simp only [List.append_nil, List.count_nil, Nat.add_zero] at u
      simp only [State.q, u, count_map_step, List.count_append, List.count_cons] at *
      grind
    · intro j
      have := ia.ended j
      have v := hq ▸ this
      simp [State.q] at v ⊢
      exact v
    · intro j o; simpa using ia.result j o
    · intro j o; simpa using ia.future j o
    · intro j; have := ia.accepted j; simp; grind
    · exact invB_mono (l := cs.map Handle.step) (obs := [.ran k]) hb' rfl rfl rfl rfl rfl
        rfl (by simp [State.q]) (by simp [Handle.plain]) hb'.exited
        (by intro j hj; simp; exact Or.inr hj) rfl (by simp) rfl
        (down_plain (by simp)) hran
  | again cs =>
    simp only [stepTask, Act.children] at *
    refine ⟨⟨?_, ?_, ?_, ?_, ?_, ia.futres, ?_⟩, ?_⟩
    · intro j
      have t := ia.tok j
      have t' := htok j
      have u := hqc [.step k]
      have w := hchild j
      have v1 := hqo (.create j)
      have v2 := hqo (.step j)
      have v3 := hqo (.notify j)
      simp only [Runner.tok, State.q, u, count_map_step,
        count_map_other _ _ (fun k (e : Handle.create j = .step k) => by cases e),
        count_map_other _ _ (fun k (e : Handle.notify j = .step k) => by cases e),
        List.mem_append, List.count_cons] at *
      grind
    · intro j
      have t := ia.live j
      have u := hqc [.step k]
      have v := hqo (.step j)
      simp only [State.q, u, count_map_step, List.count_append, List.count_cons] at *
      grind
    · intro j
      have := ia.ended j
      have v := hq ▸ this
      simp [State.q] at v ⊢
      exact v
    · intro j o; simpa using ia.result j o
    · intro j o; simpa using ia.future j o
    · intro j; have := ia.accepted j; simp; grind
    · exact invB_mono (l := cs.map Handle.step ++ [.step k]) (obs := [.ran k]) hb' rfl rfl
        rfl rfl rfl rfl (by simp [State.q])
        (by intro x hx; simp at hx; rcases hx with ⟨_, _, e⟩ | e <;> (subst e; rfl))
        hb'.exited
        (by intro j hj; simp; exact Or.inr hj) rfl (by simp) rfl
        (down_plain (by simp)) hran
  | finish cs o =>
    simp only [stepTask, Act.children] at *
    have hs2 : Sound (s.log ++ [.ran k] ++ [.ended k o]) := by
      refine sound_snoc hran ⟨fun h => hnd (down_plain (by simp) h), by simp, ?_⟩
      intro o' ho'
      simp at ho'
      exact hkno o' ho'
    refine ⟨⟨?_, ?_, ?_, ?_, ?_, ?_, ?_⟩, ?_⟩
    · intro j
      have t := ia.tok j
      have t' := htok j
      have u := hqc [.notify k]
      have w := hchild j
      have v1 := hqo (.create j)
      have v2 := hqo (.step j)
      have v3 := hqo (.notify j)
      simp only [Runner.tok, State.q, u, count_map_step,
        count_map_other _ _ (fun k (e : Handle.create j = .step k) => by cases e),
        count_map_other _ _ (fun k (e : Handle.notify j = .step k) => by cases e),
        List.mem_append, List.count_cons] at *
      grind
    · intro j
      have t := ia.live j
      have u := hqc [.notify k]
      have v := hqo (.step j)
      have hce : ((s.live ++ cs).erase k).count j
          = s.live.count j + cs.count j - (if j = k then 1 else 0) := by
        rw [List.count_erase, List.count_append]
        by_cases e : j = k
        · subst e; simp
        · have e' : k ≠ j := fun h => e h.symm
          simp [e, e']
      simp only [hce]
      simp only [State.q, u, count_map_step, List.count_append, List.count_cons] at *
      grind
    · intro j
      have := ia.ended j
      have v := hq ▸ this
      simp [State.q] at v ⊢
      by_cases e : j = k
      · subst e; simp
      · simp only [e, false_and, or_false]
        exact v
    · intro j o' ho'
      have := ia.result j o'
      simp at ho' ⊢
      by_cases e : j = k
      · subst e
        simp
        rcases ho' with h | h
        · exact absurd h (hkno o')
        · exact h.2.symm
      · simp only [e, false_and, or_false] at ho'
        rw [if_neg e]; exact this ho'
    · intro j o'; simpa using ia.future j o'
    · intro j o' hj
      simp only at hj ⊢
      by_cases e : j = k
      · subst e; rw [hkf] at hj; cases hj
      · rw [if_neg e]; exact ia.futres j o' hj
    · intro j; have := ia.accepted j; simp; grind
    · exact invB_mono (l := cs.map Handle.step ++ [.notify k])
        (obs := [.ran k, .ended k o]) hb' rfl rfl
        rfl rfl rfl rfl (by simp [State.q])
        (by intro x hx; simp at hx; rcases hx with ⟨_, _, e⟩ | e <;> (subst e; rfl))
        hb'.exited
        (by intro j hj; simp; exact Or.inr hj) (by simp) (by simp) rfl
        (by
          intro h
          have h' : Down (s.log ++ [.ran k, .ended k o]) := by simpa using h
          exact down_plain (by simp) h') hs2

theorem notify_inv {s : State} {k : Nat} {r : List Handle} (h : Inv s)
    (hx : s.exited = false) (hb : s.batch = .notify k :: r) :
    Inv (notify { s with batch := r } k) := by
  obtain ⟨a, b⟩ := h
  have hq := q_cons hb
  have hmem : Handle.notify k ∈ s.q := by rw [hq]; simp
  have hk := a.tok k
  have hkc : (r ++ s.ready).count (.notify k) + 1 = s.q.count (.notify k) := by
    rw [hq]; simp
  have hku : k ∈ s.used := by
    simp only [Runner.tok] at hk
    by_cases e : k ∈ s.used
    · exact e
    · rw [if_neg e] at hk; omega
  simp only [Runner.tok, if_pos hku] at hk
  have hkf : s.future k = none := by
    cases hf : s.future k with
    | none => rfl
    | some o => rw [hf] at hk; simp at hk; omega
  obtain ⟨o, ho⟩ := (a.ended k).mp (Or.inl hmem)
  have hres := a.result k o ho
  have hnr : ∀ o, Obs.resolved k o ∉ s.log := by
    intro o' h
    rw [(a.future k o').mpr h] at hkf; cases hkf
  have hnd : ¬ Down s.log := by
    intro h
    have := b.callerBack (b.down h)
    rw [hx] at this; cases this
  have hs : Sound (s.log ++ [.resolved k o]) := sound_snoc b.sound ⟨hnd, ho, hnr⟩
  -- the state before the waiting task is looked at
  have hA : ∀ (ph : Phase) (l : List Handle),
      (∀ x ∈ l, x = .resumeShutdown) →
      InvA { s with
        batch := r, ready := s.ready ++ l, phase := ph
        future := fun j => if j = k then some o else s.future j
        log := s.log ++ [.resolved k o] } := by
    intro ph l hl
    have hlc : ∀ x, x ≠ .resumeShutdown → l.count x = 0 := by
      intro x h
      rw [List.count_eq_zero]
      exact fun hm => h (hl x hm)
    constructor
    · intro j
      have t := a.tok j
      have l1 := hlc (.create j) (by nofun)
      have l2 := hlc (.step j) (by nofun)
      have l3 := hlc (.notify j) (by nofun)
      rw [Runner.tok, hq] at t
      by_cases e : j = k
      · subst e
        simp [Runner.tok, State.q, List.count_append, hkf, l1, l2, l3] at t ⊢
        omega
      · have e' : k ≠ j := fun h => e h.symm
        simp [Runner.tok, State.q, List.count_append, List.count_cons, e, e', l1, l2, l3]
          at t ⊢
        omega
    · intro j
      have t := a.live j
      have l2 := hlc (.step j) (by nofun)
      rw [hq] at t
      simp [State.q, List.count_append, l2] at t ⊢
      omega
    · intro j
      have t := a.ended j
      have l3 : Handle.notify j ∉ l := fun h => by cases hl _ h
      rw [hq] at t
      by_cases e : j = k
      · subst e
        simp
        exact ⟨o, ho⟩
      · simp [State.q, e, l3] at t ⊢
        exact t
    · intro j o'; simpa using a.result j o'
    · intro j o'
      have := a.future j o'
      by_cases e : j = k
      · subst e
        simp [hnr, eq_comm]
      · simp [e, this]
    · intro j o' hj
      simp only at hj ⊢
      by_cases e : j = k
      · subst e; simp at hj; rw [← hj]; exact hres
      · rw [if_neg e] at hj; exact a.futres j o' hj
    · intro j; simpa using a.accepted j
  -- the parts of the other invariant that do not depend on the phase
  have hne : ∀ x, (∀ k, x ≠ .notify k) → Handle.notify k ≠ x := fun x h e => h k e.symm
  have hc : ∀ x, (∀ k, x ≠ .notify k) → (r ++ s.ready).count x = s.q.count x := by
    intro x h
    rw [hq, List.count_cons]
    simp [hne x h]
  have hm : ∀ x, (∀ k, x ≠ .notify k) → (x ∈ r ++ s.ready ↔ x ∈ s.q) := by
    intro x h
    rw [← List.count_pos_iff, ← List.count_pos_iff, hc x h]
  have hmn : ∀ j, j ≠ k → Handle.notify j ∈ s.q → Handle.notify j ∈ r ++ s.ready := by
    intro j e h
    rw [hq] at h
    rcases List.mem_cons.mp h with h | h
    · cases h; exact absurd rfl e
    · exact h
  have hbef : ∀ x j, (∀ k, x ≠ .notify k) → j ≠ k → Handle.notify j ∈ before x s.q →
      Handle.notify j ∈ before x (r ++ s.ready) := by
    intro x j h e hj
    rw [hq] at hj
    simp only [before, hne x h, if_false, List.mem_cons] at hj
    rcases hj with hj | hj
    · cases hj; exact absurd rfl e
    · exact hj
  have hasks : asks (s.log ++ [.resolved k o]) = asks s.log := by simp [asks]
  have hB : (∀ rest, s.phase = .gathering rest → k ∉ rest) →
      InvB { s with
        batch := r
        future := fun j => if j = k then some o else s.future j
        log := s.log ++ [.resolved k o] } := by
    intro hg
    have hfn : ∀ j, (if j = k then some o else s.future j) = none → j ≠ k ∧ s.future j = none := by
      intro j h
      by_cases e : j = k
      · rw [if_pos e] at h; cases h
      · rw [if_neg e] at h; exact ⟨e, h⟩
    constructor
    · rw [hasks]; exact b.closed
    · exact b.idle
    · simp only [State.q]; rw [hc _ (by nofun)]; exact b.cCreate
    · simp only [State.q]; rw [hc _ (by nofun)]; exact b.cStep
    · simp only [State.q]; rw [hc _ (by nofun)]; exact b.cResume
    · simp only [State.q]; rw [hc _ (by nofun)]; exact b.cNotify
    · intro hp j hj
      have := b.queued hp j
      rw [hq] at this
      simp only [after, hne _ (fun k (e : Handle.createShutdown = .notify k) => by cases e),
        if_false] at this
      exact this hj
    · intro hp hp' j hj
      exact b.nocreate hp hp' j ((hm _ (by nofun)).mp hj)
    · intro rest hp
      obtain ⟨g1, g2, g3, g4⟩ := b.gathering rest hp
      refine ⟨g1, ?_, g3, ?_⟩
      · intro j hj
        have e : j ≠ k := fun e => hg rest hp (e ▸ hj)
        simp only [if_neg e]
        exact g2 j hj
      · intro j hj hf
        obtain ⟨e, hf⟩ := hfn j hf
        rcases g4 j (by simpa using hj) hf with h | h
        · exact Or.inl h
        · exact Or.inr (hmn j e h)
    · intro hp j hj hf
      obtain ⟨e, hf⟩ := hfn j hf
      exact hbef _ j (by nofun) e (b.resumed hp j (by simpa using hj) hf)
    · intro hp j hj hf
      obtain ⟨e, hf⟩ := hfn j hf
      exact hbef _ j (by nofun) e (b.finishing hp j (by simpa using hj) hf)
    · intro hp j hj hf
      obtain ⟨e, hf⟩ := hfn j hf
      exact b.finished hp j (by simpa using hj) hf
    · intro hp
      have := b.callerOut hp
      simp only [State.q]; rw [hm _ (by nofun)]; exact this
    · intro hp
      have := b.callerWait hp
      simp only [State.q]; rw [hm _ (by nofun)]; exact this
    · intro hp
      have := b.callerJoin hp
      simp only [State.q]; rw [hm _ (by nofun)]; exact this
    · exact b.callerBack
    · intro hp; simp only at hp; rw [hx] at hp; cases hp
    · intro h; exact absurd (down_plain (by simp) h) hnd
    · exact hs
  cases hph : s.phase with
  | gathering rest =>
    simp only [notify, hph, hres]
    split
    next hkr =>
      obtain ⟨g1, g2, g3, g4⟩ := b.gathering rest hph
      have hkn : k ∉ rest.erase k := by
        rw [← List.count_eq_zero, List.count_erase]
        have := g3 k
        simp
        omega
      have hin : ∀ j, j ≠ k → (j ∈ rest.erase k ↔ j ∈ rest) := fun j e =>
        List.mem_erase_of_ne e
      have c1 := b.cCreate
      have c2 := b.cStep
      have c3 := b.cResume
      have c4 := b.cNotify
      rw [← hc _ (by nofun), hph] at c1 c2 c3 c4
      have hfn : ∀ j, (if j = k then some o else s.future j) = none →
          j ≠ k ∧ s.future j = none := by
        intro j h
        by_cases e : j = k
        · rw [if_pos e] at h; cases h
        · rw [if_neg e] at h; exact ⟨e, h⟩
      have hncr : ∀ j, Handle.create j ∉ r ++ s.ready := by
        intro j hj
        exact b.nocreate (by rw [hph]; nofun) (by rw [hph]; nofun) j
          ((hm _ (by nofun)).mp hj)
      have hclosed : s.closed = true := by
        cases hcl : s.closed with
        | true => rfl
        | false =>
          have := b.idle.mpr hcl
          rw [hph] at this; cases this
      split
      next hnil =>
        refine ⟨hA .resumed [.resumeShutdown] (by simp), ?_⟩
        have hnr : Handle.resumeShutdown ∉ r ++ s.ready := by
          rw [← List.count_eq_zero, c3]; rfl
        constructor
        · rw [hasks]; exact b.closed
        · simp [hclosed]
        · simp [State.q, List.count_append] at c1 ⊢; exact c1
        · simp [State.q, List.count_append] at c2 ⊢; exact c2
        · simp [State.q, List.count_append] at c3 ⊢; omega
        · simp [State.q, List.count_append] at c4 ⊢; exact c4
        · simp
        · intro _ _ j
          have := hncr j
          simpa [State.q] using this
        · simp
        · intro _ j hj hf
          obtain ⟨e, hf⟩ := hfn j hf
          have hq' : ({ s with
              batch := r, ready := s.ready ++ [.resumeShutdown], phase := .resumed
              future := fun j => if j = k then some o else s.future j
              log := s.log ++ [.resolved k o] } : State).q
              = (r ++ s.ready) ++ [.resumeShutdown] := by simp [State.q]
          rw [hq', before_append_not hnr]
          apply List.mem_append_left
          rcases g4 j (by simpa using hj) hf with h | h
          · rw [← hin j e, hnil] at h; cases h
          · exact hmn j e h
        · simp
        · simp
        · simp
        · intro hp
          have := b.callerWait hp
          rw [← hm _ (by nofun)] at this
          simpa [State.q] using this.2
        · intro hp
          have := b.callerJoin hp
          rw [hph] at this; cases this.1
        · exact b.callerBack
        · intro hp; simp only at hp; rw [hx] at hp; cases hp
        · intro h; exact absurd (down_plain (by simp) h) hnd
        · exact hs
      next hnn =>
        have hA' := hA (.gathering (rest.erase k)) [] (by simp)
        simp only [List.append_nil] at hA'
        refine ⟨hA', ?_⟩
        constructor
        · rw [hasks]; exact b.closed
        · simp [hclosed]
        · simp [State.q, List.count_append] at c1 ⊢; exact c1
        · simp [State.q, List.count_append] at c2 ⊢; exact c2
        · simp [State.q, List.count_append] at c3 ⊢; exact c3
        · simp [State.q, List.count_append] at c4 ⊢; exact c4
        · simp
        · intro _ _ j; exact hncr j
        · intro rest' hr
          cases hr
          refine ⟨hnn, ?_, ?_, ?_⟩
          · intro j hj
            have e : j ≠ k := fun e => hkn (e ▸ hj)
            simp only [if_neg e]
            exact g2 j ((hin j e).mp hj)
          · intro j
            have := g3 j
            rw [List.count_erase]; omega
          · intro j hj hf
            obtain ⟨e, hf⟩ := hfn j hf
            rcases g4 j (by simpa using hj) hf with h | h
            · exact Or.inl ((hin j e).mpr h)
            · exact Or.inr (hmn j e h)
        · simp
        · simp
        · simp
        · simp
        · intro hp
          have := b.callerWait hp
          rw [← hm _ (by nofun)] at this
          simpa [State.q] using this.2
        · intro hp
          have := b.callerJoin hp
          rw [hph] at this; cases this.1
        · exact b.callerBack
        · intro hp; simp only at hp; rw [hx] at hp; cases hp
        · intro h; exact absurd (down_plain (by simp) h) hnd
        · exact hs
    next hkr =>
      have h1 := hA (.gathering rest) [] (by simp)
      have h2 := hB (by intro rest' h; rw [hph] at h; cases h; exact hkr)
      simp only [List.append_nil] at h1
      rw [hph] at h2
      exact ⟨h1, h2⟩
  | _ =>
    simp only [notify, hph, hres]
    have h1 := hA s.phase [] (by simp)
    have h2 := hB (by intro rest' h; rw [hph] at h; cases h)
    simp only [List.append_nil] at h1
    rw [hph] at h1 h2
    exact ⟨h1, h2⟩

theorem createShutdown_inv {s : State} {r : List Handle} (h : Inv s)
    (hx : s.exited = false) (hb : s.batch = .createShutdown :: r) :
    Inv { s with batch := r, phase := .created, ready := s.ready ++ [.stepShutdown] } := by
  obtain ⟨a, b⟩ := h
  have hq := q_cons hb
  have c1 := b.cCreate
  have c2 := b.cStep
  have c3 := b.cResume
  have c4 := b.cNotify
  have hph : s.phase = .queued := by
    by_cases e : s.phase = .queued
    · exact e
    · rw [if_neg e, hq] at c1; simp at c1
  have hcr := b.queued hph
  have hcl : s.closed = true := by
    cases hcl : s.closed with
    | true => rfl
    | false => have := b.idle.mpr hcl; rw [hph] at this; cases this
  rw [hph, hq] at c1 c2 c3 c4
  rw [hq] at hcr
  simp [after] at hcr
  refine ⟨invA_of a ?_ ?_ ?_ rfl rfl rfl (fun _ _ => Iff.rfl) (fun _ _ => Iff.rfl)
    (fun _ => Iff.rfl), ?_⟩
  · intro j; rw [hq]; simp [State.q, List.count_append, List.count_cons]
  · intro j; rw [hq]; simp [State.q, List.count_append, List.count_cons]
  · intro j; rw [hq]; simp [State.q]
  · constructor
    · exact b.closed
    · simp [hcl]
    · simpa [State.q, List.count_append, List.count_cons] using c1
    · simp [State.q, List.count_append, List.count_cons] at c2 ⊢; omega
    · simpa [State.q, List.count_append, List.count_cons] using c3
    · simpa [State.q, List.count_append, List.count_cons] using c4
    · simp
    · intro _ _ k; simpa [State.q] using hcr k
    · simp
    · simp
    · simp
    · simp
    · simp
    · intro hp
      have := b.callerWait hp
      rw [hq] at this
      simpa [State.q] using this.2
    · intro hp
      have := b.callerJoin hp
      rw [hph] at this; cases this.1
    · exact b.callerBack
    · intro hp; simp only at hp; rw [hx] at hp; cases hp
    · exact b.down
    · exact b.sound

theorem resumeShutdown_inv {s : State} {r : List Handle} (h : Inv s)
    (hx : s.exited = false) (hb : s.batch = .resumeShutdown :: r) :
    Inv { s with
      batch := r
      phase := .finishing
      ready := s.ready ++ [.notifyShutdown] } := by
  obtain ⟨a, b⟩ := h
  have hq := q_cons hb
  have c1 := b.cCreate
  have c2 := b.cStep
  have c3 := b.cResume
  have c4 := b.cNotify
  have hph : s.phase = .resumed := by
    by_cases e : s.phase = .resumed
    · exact e
    · rw [if_neg e, hq] at c3; simp at c3
  have hre := b.resumed hph
  have hcr := b.nocreate (by rw [hph]; nofun) (by rw [hph]; nofun)
  have hcl : s.closed = true := by
    cases hcl : s.closed with
    | true => rfl
    | false => have := b.idle.mpr hcl; rw [hph] at this; cases this
  rw [hph, hq] at c1 c2 c3 c4
  rw [hq] at hre hcr
  simp [before] at hre
  refine ⟨invA_of a ?_ ?_ ?_ rfl rfl rfl (fun _ _ => Iff.rfl) (fun _ _ => Iff.rfl)
    (fun _ => Iff.rfl), ?_⟩
  · intro j; rw [hq]; simp [State.q, List.count_append, List.count_cons]
  · intro j; rw [hq]; simp [State.q, List.count_append, List.count_cons]
  · intro j; rw [hq]; simp [State.q]
  · constructor
    · exact b.closed
    · simp [hcl]
    · simpa [State.q, List.count_append, List.count_cons] using c1
    · simpa [State.q, List.count_append, List.count_cons] using c2
    · simpa [State.q, List.count_append, List.count_cons] using c3
    · simp [State.q, List.count_append, List.count_cons] at c4 ⊢; omega
    · simp
    · intro _ _ k; simpa [State.q] using hcr k
    · simp
    · simp
    · intro _ k hk hf; exact absurd hf (hre k hk)
    · simp
    · simp
    · intro hp
      have := b.callerWait hp
      rw [hq] at this
      simpa [State.q] using this.2
    · intro hp
      have := b.callerJoin hp
      rw [hph] at this; cases this.1
    · exact b.callerBack
    · intro hp; simp only at hp; rw [hx] at hp; cases hp
    · exact b.down
    · exact b.sound

theorem notifyShutdown_inv {s : State} {r : List Handle} (h : Inv s)
    (hx : s.exited = false) (hb : s.batch = .notifyShutdown :: r) :
    Inv { s with batch := r, phase := .finished } := by
  obtain ⟨a, b⟩ := h
  have hq := q_cons hb
  have c1 := b.cCreate
  have c2 := b.cStep
  have c3 := b.cResume
  have c4 := b.cNotify
  have hph : s.phase = .finishing := by
    by_cases e : s.phase = .finishing
    · exact e
    · rw [if_neg e, hq] at c4; simp at c4
  have hre := b.finishing hph
  have hcr := b.nocreate (by rw [hph]; nofun) (by rw [hph]; nofun)
  have hcl : s.closed = true := by
    cases hcl : s.closed with
    | true => rfl
    | false => have := b.idle.mpr hcl; rw [hph] at this; cases this
  rw [hph, hq] at c1 c2 c3 c4
  rw [hq] at hre hcr
  simp [before] at hre
  refine ⟨invA_of a ?_ ?_ ?_ rfl rfl rfl (fun _ _ => Iff.rfl) (fun _ _ => Iff.rfl)
    (fun _ => Iff.rfl), ?_⟩
  · intro j; rw [hq]; simp [State.q, List.count_append, List.count_cons]
  · intro j; rw [hq]; simp [State.q, List.count_append, List.count_cons]
  · intro j; rw [hq]; simp [State.q]
  · constructor
    · exact b.closed
    · simp [hcl]
    · simpa [State.q, List.count_append, List.count_cons] using c1
    · simpa [State.q, List.count_append, List.count_cons] using c2
    · simpa [State.q, List.count_append, List.count_cons] using c3
    · simpa [State.q, List.count_append, List.count_cons] using c4
    · simp
    · intro _ _ k; simpa [State.q] using hcr k
    · simp
    · simp
    · simp
    · intro _ k hk; exact hre k hk
    · simp
    · intro hp
      have := b.callerWait hp
      rw [hq] at this
      simpa [State.q] using this.2
    · intro hp
      have := b.callerJoin hp
      rw [hph] at this; cases this.1
    · exact b.callerBack
    · intro hp; simp only at hp; rw [hx] at hp; cases hp
    · exact b.down
    · exact b.sound

theorem stepShutdown_inv {s : State} {r : List Handle} {c : Bool} (h : Inv s)
    (hx : s.exited = false) (hb : s.batch = .stepShutdown :: r) :
    Inv (stepShutdown { s with batch := r } c) := by
  obtain ⟨a, b⟩ := h
  have hq := q_cons hb
  have c1 := b.cCreate
  have c2 := b.cStep
  have c3 := b.cResume
  have c4 := b.cNotify
  have hph : s.phase = .created := by
    by_cases e : s.phase = .created
    · exact e
    · rw [if_neg e, hq] at c2; simp at c2
  have hcr := b.nocreate (by rw [hph]; nofun) (by rw [hph]; nofun)
  have hcl : s.closed = true := by
    cases hcl : s.closed with
    | true => rfl
    | false => have := b.idle.mpr hcl; rw [hph] at this; cases this
  rw [hph, hq] at c1 c2 c3 c4
  -- every accepted coroutine is live, or about to be resolved, or resolved
  have hall : ∀ k, Obs.accepted k ∈ s.log → s.future k = none →
      k ∈ s.live ∨ Handle.notify k ∈ r ++ s.ready := by
    intro k hk hf
    have t := a.tok k
    rw [if_pos (a.accepted k hk)] at t
    have hc0 : s.q.count (.create k) = 0 := List.count_eq_zero.mpr (hcr k)
    simp only [Runner.tok, hc0, hf] at t
    have l := a.live k
    by_cases e : Handle.notify k ∈ s.q
    · right
      rw [hq] at e
      simpa using e
    · left
      rw [← List.count_eq_zero] at e
      apply List.count_pos_iff.mp
      rw [e] at t
      simp at t
      omega
  have hlv : ∀ k, k ∈ s.live → s.future k = none ∧ k ∈ s.used := by
    intro k hk
    have l := a.live k
    have t := a.tok k
    have := List.count_pos_iff.mpr hk
    simp only [Runner.tok] at t
    constructor
    · cases hf : s.future k with
      | none => rfl
      | some o =>
        rw [hf] at t
        simp at t
        split at t <;> omega
    · by_cases e : k ∈ s.used
      · exact e
      · rw [if_neg e] at t; omega
  have hlc : ∀ k, s.live.count k ≤ 1 := by
    intro k
    have l := a.live k
    have t := a.tok k
    simp only [Runner.tok] at t
    split at t <;> split at t <;> omega
  rw [hq] at hcr
  unfold stepShutdown
  simp only
  split
  next hnil =>
    refine ⟨invA_of a ?_ ?_ ?_ rfl rfl rfl (fun _ _ => Iff.rfl) (fun _ _ => Iff.rfl)
      (fun _ => Iff.rfl), ?_⟩
    · intro j; rw [hq]; simp [State.q, List.count_append, List.count_cons]
    · intro j; rw [hq]; simp [State.q, List.count_append, List.count_cons]
    · intro j; rw [hq]; simp [State.q]
    · constructor
      · exact b.closed
      · simp [hcl]
      · simpa [State.q, List.count_append, List.count_cons] using c1
      · simpa [State.q, List.count_append, List.count_cons] using c2
      · simpa [State.q, List.count_append, List.count_cons] using c3
      · simp [State.q, List.count_append, List.count_cons] at c4 ⊢; omega
      · simp
      · intro _ _ k; simpa [State.q] using hcr k
      · simp
      · simp
      · intro _ k hk hf
        have hnn : Handle.notifyShutdown ∉ r ++ s.ready := by
          rw [← List.count_eq_zero]
          simpa [List.count_cons] using c4
        have hq' : ({ s with
            batch := r
            phase := .finishing
            ready := s.ready ++ [.notifyShutdown] } : State).q
            = (r ++ s.ready) ++ [.notifyShutdown] := by simp [State.q]
        rw [hq', before_append_not hnn]
        apply List.mem_append_left
        rcases hall k hk hf with h | h
        · rw [hnil] at h; cases h
        · exact h
      · simp
      · simp
      · intro hp
        have := b.callerWait hp
        rw [hq] at this
        simpa [State.q] using this.2
      · intro hp
        have := b.callerJoin hp
        rw [hph] at this; cases this.1
      · exact b.callerBack
      · intro hp; simp only at hp; rw [hx] at hp; cases hp
      · exact b.down
      · exact b.sound
  next hnn =>
    have hB : ∀ (w : List Nat) (l : List Handle), (∀ x ∈ l, ∃ k, x = .step k) →
        InvB { s with
          batch := r
          phase := .gathering s.live
          waiting := w
          ready := s.ready ++ l } := by
      intro w l hl
      have hl0 : ∀ x, (∀ k, x ≠ .step k) → l.count x = 0 := by
        intro x h
        rw [List.count_eq_zero]
        intro hm
        obtain ⟨k, e⟩ := hl x hm
        exact h k e
      have hlm : ∀ x, (∀ k, x ≠ .step k) → x ∉ l := fun x h =>
        List.count_eq_zero.mp (hl0 x h)
      constructor
      · exact b.closed
      · simp [hcl]
      · simpa [State.q, List.count_append, List.count_cons,
          hl0 .createShutdown (by nofun)] using c1
      · simpa [State.q, List.count_append, List.count_cons,
          hl0 .stepShutdown (by nofun)] using c2
      · simpa [State.q, List.count_append, List.count_cons,
          hl0 .resumeShutdown (by nofun)] using c3
      · simpa [State.q, List.count_append, List.count_cons,
          hl0 .notifyShutdown (by nofun)] using c4
      · simp
      · intro _ _ k
        have := hcr k
        have h2 := hlm (.create k) (by nofun)
        simpa [State.q, h2] using this
      · intro rest hr
        cases hr
        refine ⟨hnn, hlv, hlc, ?_⟩
        intro k hk hf
        rcases hall k hk hf with h | h
        · exact Or.inl h
        · right
          simp only [State.q, ← List.append_assoc]
          exact List.mem_append_left _ h
      · simp
      · simp
      · simp
      · simp
      · intro hp
        have := b.callerWait hp
        rw [hq] at this
        have h2 := hlm .stop (by nofun)
        simpa [State.q, h2] using this.2
      · intro hp
        have := b.callerJoin hp
        rw [hph] at this; cases this.1
      · exact b.callerBack
      · intro hp; simp only at hp; rw [hx] at hp; cases hp
      · exact b.down
      · exact b.sound
    split
    next hc =>
      refine ⟨invA_of a ?_ ?_ ?_ rfl rfl rfl (fun _ _ => Iff.rfl) (fun _ _ => Iff.rfl)
        (fun _ => Iff.rfl), ?_⟩
      · intro j
        have m1 := count_map_step s.waiting j
        have m2 := count_map_other s.waiting (.create j) (by nofun)
        have m3 := count_map_other s.waiting (.notify j) (by nofun)
        rw [hq]
        simp only [State.q, List.count_append, m1, m2, m3]
        simp [List.count_append, List.count_cons]
        omega
      · intro j
        have m1 := count_map_step s.waiting j
        rw [hq]
        simp only [State.q, List.count_append, m1]
        simp [List.count_append, List.count_cons]
        omega
      · intro j; rw [hq]; simp [State.q]
      · exact hB [] (s.waiting.map Handle.step) (by
          intro x hx
          obtain ⟨k, _, e⟩ := List.mem_map.mp hx
          exact ⟨k, e.symm⟩)
    next hc =>
      refine ⟨invA_of a ?_ ?_ ?_ rfl rfl rfl (fun _ _ => Iff.rfl) (fun _ _ => Iff.rfl)
        (fun _ => Iff.rfl), ?_⟩
      · intro j; rw [hq]; simp [State.q, List.count_append, List.count_cons]
      · intro j; rw [hq]; simp [State.q, List.count_append, List.count_cons]
      · intro j; rw [hq]; simp [State.q]
      · have := hB s.waiting [] (by simp)
        simpa using this

theorem stop_inv {s : State} {r : List Handle} (h : Inv s)
    (hx : s.exited = false) (hb : s.batch = .stop :: r) :
    Inv { s with batch := r, stopping := true } := by
  obtain ⟨a, b⟩ := h
  have hq := q_cons hb
  have hmem : Handle.stop ∈ s.q := by rw [hq]; simp
  have hne : ∀ x, x ≠ .stop → Handle.stop ≠ x := fun x h e => h e.symm
  have hc : ∀ x, x ≠ .stop → (r ++ s.ready).count x = s.q.count x := by
    intro x h
    rw [hq, List.count_cons]
    simp [hne x h]
  have hm : ∀ x, x ≠ .stop → (x ∈ r ++ s.ready ↔ x ∈ s.q) := by
    intro x h
    rw [← List.count_pos_iff, ← List.count_pos_iff, hc x h]
  have hbef : ∀ x y, x ≠ .stop → y ≠ .stop → y ∈ before x s.q →
      y ∈ before x (r ++ s.ready) := by
    intro x y h h' hy
    rw [hq] at hy
    simp only [before, hne x h, if_false, List.mem_cons] at hy
    rcases hy with hy | hy
    · exact absurd hy h'
    · exact hy
  refine ⟨invA_of a ?_ ?_ ?_ rfl rfl rfl (fun _ _ => Iff.rfl) (fun _ _ => Iff.rfl)
    (fun _ => Iff.rfl), ?_⟩
  · intro j; rw [hq]; simp [State.q, List.count_append, List.count_cons]
  · intro j; rw [hq]; simp [State.q, List.count_append, List.count_cons]
  · intro j; rw [hq]; simp [State.q]
  · constructor
    · exact b.closed
    · exact b.idle
    · simp only [State.q]; rw [hc _ (by nofun)]; exact b.cCreate
    · simp only [State.q]; rw [hc _ (by nofun)]; exact b.cStep
    · simp only [State.q]; rw [hc _ (by nofun)]; exact b.cResume
    · simp only [State.q]; rw [hc _ (by nofun)]; exact b.cNotify
    · intro hp j hj
      have := b.queued hp j
      rw [hq] at this
      simp only [after, hne .createShutdown (by nofun), if_false] at this
      exact this hj
    · intro hp hp' j hj
      exact b.nocreate hp hp' j ((hm _ (by nofun)).mp hj)
    · intro rest hp
      obtain ⟨g1, g2, g3, g4⟩ := b.gathering rest hp
      refine ⟨g1, g2, g3, ?_⟩
      intro k hk hf
      rcases g4 k hk hf with h | h
      · exact Or.inl h
      · exact Or.inr ((hm _ (by nofun)).mpr h)
    · intro hp k hk hf
      exact hbef _ _ (by nofun) (by nofun) (b.resumed hp k hk hf)
    · intro hp k hk hf
      exact hbef _ _ (by nofun) (by nofun) (b.finishing hp k hk hf)
    · exact b.finished
    · intro hp; exact absurd hmem (b.callerOut hp).2.2.1
    · intro hp; exact absurd hmem (b.callerWait hp).2.2.1
    · intro hp; exact ⟨(b.callerJoin hp).1, Or.inr (Or.inl rfl)⟩
    · exact b.callerBack
    · intro hp; simp only at hp; rw [hx] at hp; cases hp
    · exact b.down
    · exact b.sound

theorem step_keeps {s s' : State} {e : Event} (h : Inv s) (hs : step s e = some s') :
    Inv s' := by
  cases e with
  | submit k =>
    simp only [step] at hs
    split at hs
    · cases hs
    next hk => cases hs; exact submit_inv h hk
  | shutdown w c => cases hs; exact shutdown_inv h
  | goOn => exact goOn_inv h hs
  | wake k => exact wake_inv h hs
  | iterate => exact iterate_inv h hs
  | run a =>
    simp only [step] at hs
    split at hs
    · cases hs
    next hx =>
      have hx' : s.exited = false := by simpa using hx
      cases hb : s.batch with
      | nil => simp only [hb] at hs; cases hs
      | cons x r =>
        simp only [hb] at hs
        cases x with
        | create k => cases hs; exact create_inv (s := s) h hb
        | step k =>
          simp only [runHandle] at hs
          split at hs
          next hf => cases hs; exact step_inv (s := s) h hx' hb hf
          next => cases hs
        | notify k => cases hs; exact notify_inv (s := s) h hx' hb
        | createShutdown => cases hs; exact createShutdown_inv (s := s) h hx' hb
        | stepShutdown => cases hs; exact stepShutdown_inv (s := s) h hx' hb
        | resumeShutdown => cases hs; exact resumeShutdown_inv (s := s) h hx' hb
        | notifyShutdown => cases hs; exact notifyShutdown_inv (s := s) h hx' hb
        | stop => cases hs; exact stop_inv (s := s) h hx' hb

theorem exec_keeps {es : List Event} : ∀ {s s' : State}, Inv s → exec s es = some s' →
    Inv s' := by
  induction es with
  | nil => intro s s' h hs; cases hs; exact h
  | cons e es ih =>
    intro s s' h hs
    simp only [exec] at hs
    cases hst : step s e with
    | none => rw [hst] at hs; cases hs
    | some s1 => rw [hst] at hs; exact ih (step_keeps h hst) hs

end Verif.Runner
