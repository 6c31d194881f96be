/-
Background operations (C109), second part: the response that waits for one
operation (`AsyncResponse.result` and `on_complete` of the V1 API).

The theorems are about the log of what can be seen from outside, for every
history: any number of threads that call `result`, with or without a timeout, any
number of callbacks, every interleaving.
-/
import Verif.Async.ResponseLemmas

namespace Verif.Response.Props

open Verif.Response
open Verif.Runner (Outcome)

/-! ## Specification -/

/-- A log that a history produces. -/
def Seen (s : State) (l : List Obs) : Prop :=
  ∃ es, exec State.new es = some s ∧ s.log = l

/-- Calls of `result` that have begun. -/
def nBegan (l : List Obs) : Nat :=
  (l.filter fun | .began _ => true | _ => false).length

/-- Calls of `result` that are over. -/
def nOver (l : List Obs) : Nat :=
  (l.filter fun | .returned _ _ => true | .raised _ _ => true | _ => false).length

/-- At no time were two calls of `result` open. -/
def OneAtATime (l : List Obs) : Prop :=
  ∀ pre post, l = pre ++ post → nBegan pre ≤ nOver pre + 1

/-- How often a callback was registered, and called. -/
def registrations (c : Nat) (l : List Obs) : Nat := l.count (.registered c)

def invocations (c : Nat) (l : List Obs) : Nat :=
  (l.filter fun | .called d _ => d == c | _ => false).length

theorem seen_inv {s : State} {l : List Obs} (h : Seen s l) : Inv s := by
  obtain ⟨es, h, _⟩ := h
  exact exec_keeps inv_new h

theorem seen_ok {s : State} {pre : List Obs} {x : Obs} {post : List Obs}
    (h : Seen s (pre ++ x :: post)) : Ok pre x := by
  obtain ⟨es, he, hl⟩ := h
  exact (exec_keeps inv_new he).sound pre x post hl

/-! ## Theorems -/

/-- C109: what a call of `result` gives is what the operation gave: the value it
returned, the error it raised, or that it was cancelled; TimeoutError is raised
only while the operation has not ended; the operation ends once. -/
theorem C109_result {s : State} {pre post : List Obs} {i v e : Nat} {o : Outcome} :
    (Seen s (pre ++ .returned i v :: post) → Obs.finished (.value v) ∈ pre) ∧
    (Seen s (pre ++ .raised i (.operation e) :: post) → Obs.finished (.error e) ∈ pre) ∧
    (Seen s (pre ++ .raised i .cancelled :: post) → Obs.finished .cancelled ∈ pre) ∧
    (Seen s (pre ++ .raised i .timeout :: post) → ∀ o, Obs.finished o ∉ pre) ∧
    (Seen s (pre ++ .finished o :: post) → ∀ o, Obs.finished o ∉ pre) :=
  ⟨fun h => seen_ok h, fun h => seen_ok h, fun h => seen_ok h, fun h => seen_ok h,
    fun h => seen_ok h⟩

/-- C109: a callback is called with the value of the operation, after its end, and
not more often than it was registered. -/
theorem C109_callback {s : State} {pre post : List Obs} {c v : Nat}
    (h : Seen s (pre ++ .called c v :: post)) :
    Obs.finished (.value v) ∈ pre ∧ invocations c pre < registrations c pre :=
  seen_ok h

/-- C109: if the operation failed or was cancelled, no callback is ever called. -/
theorem C109_callback_failure {s : State} {l : List Obs} (h : Seen s l) {o : Outcome}
    (ho : Obs.finished o ∈ l) (hv : ∀ v, o ≠ .value v) (c v : Nat) :
    Obs.called c v ∉ l := by
  intro hc
  have hi := seen_inv h
  have hl : s.log = l := h.choose_spec.2
  have hf := (hi.fin o).mpr (hl ▸ ho)
  obtain ⟨p, q, rfl⟩ := List.append_of_mem hc
  have := (seen_ok h).1
  have hf' := (hi.fin (.value v)).mpr (by rw [hl]; exact List.mem_append_left _ this)
  rw [hf] at hf'
  cases hf'
  exact hv v rfl

/-- C109: once the thread of the loop has called the callbacks that waited, every
callback has been called exactly as often as it was registered, whether that was
before or after the end of the operation. -/
theorem C109_callbacks_all {s : State} {l : List Obs} (h : Seen s l) {v : Nat}
    (hv : Obs.finished (.value v) ∈ l) (hq : s.queue = []) (c : Nat) :
    invocations c l = registrations c l := by
  have hi := seen_inv h
  have hl : s.log = l := h.choose_spec.2
  have hf := (hi.fin (.value v)).mpr (hl ▸ hv)
  have he := hi.eq (Or.inr ⟨v, hf⟩) c
  rw [hq, hi.late (by rw [hf]; simp), hl] at he
  have he' : calls c l = regs c l := by simpa [cnt] using he
  exact he'

/-! ### One call at a time -/

theorem nBegan_append (l r : List Obs) : nBegan (l ++ r) = nBegan l + nBegan r := by
  simp [nBegan]

theorem nOver_append (l r : List Obs) : nOver (l ++ r) = nOver l + nOver r := by
  simp [nOver]

theorem one_mono {l r : List Obs} (h : OneAtATime (l ++ r)) : OneAtATime l := by
  intro pre post e
  exact h pre (post ++ r) (by rw [e]; simp)

/-- Where the threads are while calls do not overlap. -/
structure Seq (s : State) : Prop where
  who : (nBegan s.log = nOver s.log ∧ ∀ i, s.pc i = .out) ∨
    (nBegan s.log = nOver s.log + 1 ∧ ∃ i, s.pc i ≠ .out ∧ ∀ j, j ≠ i → s.pc j = .out)
  call : ∀ i v, s.pc i = .call v → s.runner = true
  open' : s.closed = true → s.runner = true → s.stuck = true ∨
    ∃ i v, s.pc i = .inside v ∨ s.pc i = .clear v
  fine : ∀ i, Obs.raised i .attribute ∉ s.log

theorem seq_new : Seq State.new := by
  constructor <;> simp [State.new, nBegan, nOver]

theorem only {s : State} (h : Seq s) {i : Nat} (hi : s.pc i ≠ .out) (j : Nat)
    (hj : s.pc j ≠ .out) : j = i := by
  rcases h.who with ⟨_, h⟩ | ⟨_, k, _, hk⟩
  · exact absurd (h i) hi
  · have h1 : i = k := by
      by_cases e : i = k
      · exact e
      · exact absurd (hk i e) hi
    have h2 : j = k := by
      by_cases e : j = k
      · exact e
      · exact absurd (hk j e) hj
    rw [h1, h2]

theorem open_one {s : State} (h : Seq s) {i : Nat} (hi : s.pc i ≠ .out) :
    nBegan s.log = nOver s.log + 1 := by
  rcases h.who with ⟨_, h⟩ | ⟨h, _⟩
  · exact absurd (h i) hi
  · exact h

/-- Thread `i` moves on inside its call. -/
theorem seq_move {s s' : State} {i : Nat} {p : Pc} (h : Seq s) (hi : s.pc i ≠ .out)
    (hpc : s'.pc = fun j => if j = i then p else s.pc j) (hp : p ≠ .out)
    (hl : s'.log = s.log) (hc : (∃ v, p = .call v) → s'.runner = true)
    (ho : s'.closed = true → s'.runner = true → s'.stuck = true ∨
      ∃ v, p = .inside v ∨ p = .clear v) : Seq s' := by
  constructor
  · right
    rw [hl]
    refine ⟨open_one h hi, i, by rw [hpc]; simpa using hp, ?_⟩
    intro j hj
    rw [hpc]
    simp only [if_neg hj]
    by_cases e : s.pc j = .out
    · exact e
    · exact absurd (only h hi j e) hj
  · intro j v hj
    rw [hpc] at hj
    simp only at hj
    split at hj
    · exact hc ⟨v, hj⟩
    next hne =>
      exact absurd (only h hi j (by rw [hj]; nofun)) hne
  · intro h1 h2
    rcases ho h1 h2 with h | ⟨v, h⟩
    · exact Or.inl h
    · exact Or.inr ⟨i, v, by rw [hpc]; simpa using h⟩
  · rw [hl]; exact h.fine

/-- The call of thread `i` ends. -/
theorem seq_leave {s s' : State} {i : Nat} {x : Obs} (h : Seq s) (hi : s.pc i ≠ .out)
    (hpc : s'.pc = fun j => if j = i then .out else s.pc j)
    (hl : s'.log = s.log ++ [x])
    (hx : (∃ v, x = .returned i v) ∨ ∃ e, x = .raised i e ∧ e ≠ .attribute)
    (ho : s'.closed = true → s'.runner = true → s'.stuck = true) : Seq s' := by
  have hb : nBegan [x] = 0 ∧ nOver [x] = 1 := by
    rcases hx with ⟨v, e⟩ | ⟨e, e', _⟩ <;> (subst_vars; simp [nBegan, nOver])
  have hall : ∀ j, s'.pc j = .out := by
    intro j
    rw [hpc]
    simp only
    split
    · rfl
    next hne =>
      by_cases e : s.pc j = .out
      · exact e
      · exact absurd (only h hi j e) hne
  constructor
  · left
    refine ⟨?_, hall⟩
    rw [hl, nBegan_append, nOver_append, open_one h hi, hb.1, hb.2]
  · intro j v hj; rw [hall j] at hj; cases hj
  · intro h1 h2; exact Or.inl (ho h1 h2)
  · intro j hj
    rw [hl, List.mem_append] at hj
    rcases hj with hj | hj
    · exact h.fine j hj
    · rcases hx with ⟨v, e⟩ | ⟨e, e', hne⟩
      · subst e; simp at hj
      · subst e'; simp at hj; exact hne hj.2.symm

/-- Nothing changes for the threads. -/
theorem seq_same {s s' : State} {x : List Obs} (h : Seq s) (hpc : s'.pc = s.pc)
    (hl : s'.log = s.log ++ x) (hb : nBegan x = 0) (ho : nOver x = 0)
    (hx : ∀ i, Obs.raised i .attribute ∉ x)
    (hr : (∃ i v, s.pc i = .call v) → s'.runner = s.runner)
    (hc : s'.closed = true → s'.runner = true → s'.stuck = true ∨
      (s.closed = true ∧ s.runner = true ∧ s.stuck = false) ∨ s'.stuck = s.stuck ∧
        s.closed = true ∧ s.runner = true) : Seq s' := by
  constructor
  · rw [hl, nBegan_append, nOver_append, hb, ho, hpc]; exact h.who
  · intro i v hi
    rw [hpc] at hi
    rw [hr ⟨i, v, hi⟩]
    exact h.call i v hi
  · intro h1 h2
    rw [hpc]
    rcases hc h1 h2 with h3 | ⟨h3, h4, h5⟩ | ⟨h3, h4, h5⟩
    · exact Or.inl h3
    · rcases h.open' h3 h4 with h6 | h6
      · rw [h5] at h6; cases h6
      · exact Or.inr h6
    · rcases h.open' h4 h5 with h6 | h6
      · exact Or.inl (h3.trans h6)
      · exact Or.inr h6
  · intro i hi
    rw [hl, List.mem_append] at hi
    rcases hi with hi | hi
    · exact h.fine i hi
    · exact hx i hi

theorem seq_step {s s' : State} {e : Event} (h : Seq s) (hs : step s e = some s')
    (h1 : OneAtATime s'.log) : Seq s' := by
  cases e with
  | finish o =>
    simp only [step, finish] at hs
    split at hs
    · cases hs
    · cases hs
      exact seq_same (x := [.finished o]) h rfl rfl rfl rfl (by simp) (fun _ => rfl)
        (fun a b => Or.inr (Or.inr ⟨rfl, a, b⟩))
  | callback =>
    simp only [step, callback] at hs
    split at hs
    · cases hs
    next hst =>
      have hst' : s.stuck = false := by simpa using hst
      split at hs
      · cases hs
      · split at hs
        · split at hs
          · cases hs
            exact seq_same (x := [_]) h rfl rfl rfl rfl (by simp) (fun _ => rfl)
              (fun a b => Or.inr (Or.inr ⟨rfl, a, b⟩))
          · split at hs
            · cases hs
              exact seq_same (x := [_]) h rfl rfl rfl rfl (by simp) (fun _ => rfl)
                (fun a b => Or.inr (Or.inr ⟨rfl, a, b⟩))
            next hrun =>
              have hrun' : s.runner = true := by simpa using hrun
              split at hs
              next hcl =>
                cases hs
                refine seq_same (x := [_]) h rfl rfl rfl rfl (by simp) ?_ ?_
                · rintro ⟨i, v, hi⟩
                  rcases h.open' hcl hrun' with h2 | ⟨j, w, h2⟩
                  · rw [hst'] at h2; cases h2
                  · have hj : s.pc j ≠ .out := by
                      rcases h2 with h2 | h2 <;> (rw [h2]; nofun)
                    have := only h (i := i) (by rw [hi]; nofun) j hj
                    subst this
                    rcases h2 with h2 | h2 <;> (rw [hi] at h2; cases h2)
                · intro a b; simp at b
              next hcl =>
                cases hs
                exact seq_same (x := [_]) h rfl rfl rfl rfl (by simp) (fun _ => rfl)
                  (fun a b => Or.inl rfl)
        · cases hs
          exact seq_same (x := []) h rfl (by simp) rfl rfl (by simp) (fun _ => rfl)
            (fun a b => Or.inr (Or.inr ⟨rfl, a, b⟩))
  | register c n =>
    simp only [step, Option.some.injEq] at hs
    subst hs
    unfold register
    simp only
    split
    · exact seq_same (x := [_]) h rfl rfl rfl rfl (by simp) (fun _ => rfl)
        (fun a b => Or.inr (Or.inr ⟨rfl, a, b⟩))
    next v _ =>
      exact seq_same (x := [.registered c, .called c v]) h rfl (by simp) rfl rfl (by simp)
        (fun _ => rfl) (fun a b => Or.inr (Or.inr ⟨rfl, a, b⟩))
    · exact seq_same (x := [_]) h rfl rfl rfl rfl (by simp) (fun _ => rfl)
        (fun a b => Or.inr (Or.inr ⟨rfl, a, b⟩))
  | begin i t =>
    simp only [step] at hs
    split at hs
    next hpi =>
      cases hs
      have hlen := h1 _ [] (by simp; rfl)
      simp only [nBegan_append, nOver_append] at hlen
      have hn : nBegan [Obs.began i] = 1 ∧ nOver [Obs.began i] = 0 := by
        simp [nBegan, nOver]
      rw [hn.1, hn.2] at hlen
      rcases h.who with ⟨h2, h3⟩ | ⟨h2, _⟩
      · constructor
        · right
          refine ⟨?_, i, by simp [State.at], ?_⟩
          · simp only [nBegan_append, nOver_append, hn.1, hn.2]; omega
          · intro j hj; simp [State.at, hj, h3 j]
        · intro j v hj
          simp only [State.at] at hj
          split at hj
          · cases hj
          · rw [h3 j] at hj; cases hj
        · intro a b
          rcases h.open' a b with h4 | ⟨j, v, h4⟩
          · exact Or.inl h4
          · rw [h3 j] at h4; rcases h4 with h4 | h4 <;> cases h4
        · intro j hj
          simp at hj
          exact h.fine j hj
      · omega
    · cases hs
  | advance i =>
    simp only [step, advance] at hs
    cases hp : s.pc i with
    | out => simp only [hp] at hs; cases hs
    | waiting t =>
      have hne : s.pc i ≠ .out := by rw [hp]; nofun
      have hcl : s.closed = true → s.runner = true → s.stuck = true := by
        intro a b
        rcases h.open' a b with h2 | ⟨j, v, h2⟩
        · exact h2
        · have hj : s.pc j ≠ .out := by
            rcases h2 with h2 | h2 <;> (rw [h2]; nofun)
          have := only h hne j hj
          subst this
          rcases h2 with h2 | h2 <;> (rw [hp] at h2; cases h2)
      simp only [hp] at hs
      split at hs
      · cases hs
      · cases hs
        exact seq_move (p := .test _) h hne rfl (by nofun) rfl
          (fun ⟨_, e⟩ => by cases e) (fun a b => Or.inl (hcl a b))
      · cases hs
        exact seq_leave h hne rfl rfl (Or.inr ⟨_, rfl, by nofun⟩) hcl
      · cases hs
        exact seq_leave h hne rfl rfl (Or.inr ⟨_, rfl, by nofun⟩) hcl
    | test v =>
      have hne : s.pc i ≠ .out := by rw [hp]; nofun
      have hcl : s.closed = true → s.runner = true → s.stuck = true := by
        intro a b
        rcases h.open' a b with h2 | ⟨j, v, h2⟩
        · exact h2
        · have hj : s.pc j ≠ .out := by
            rcases h2 with h2 | h2 <;> (rw [h2]; nofun)
          have := only h hne j hj
          subst this
          rcases h2 with h2 | h2 <;> (rw [hp] at h2; cases h2)
      simp only [hp] at hs
      split at hs
      next hr =>
        cases hs
        exact seq_move (p := .call v) h hne rfl (by nofun) rfl
          (fun _ => hr) (fun a b => Or.inl (hcl a b))
      · cases hs
        exact seq_leave h hne rfl rfl (Or.inl ⟨_, rfl⟩) hcl
    | call v =>
      have hne : s.pc i ≠ .out := by rw [hp]; nofun
      simp only [hp] at hs
      split at hs
      next hr =>
        have := h.call i v hp
        rw [hr] at this; cases this
      · split at hs
        · cases hs
          exact seq_move (p := .clear v) h hne rfl (by nofun) rfl
            (fun ⟨_, e⟩ => by cases e) (fun a b => Or.inr ⟨v, Or.inr rfl⟩)
        · cases hs
          exact seq_move (p := .inside v) h hne rfl (by nofun) rfl
            (fun ⟨_, e⟩ => by cases e) (fun a b => Or.inr ⟨v, Or.inl rfl⟩)
    | inside v =>
      have hne : s.pc i ≠ .out := by rw [hp]; nofun
      simp only [hp] at hs
      split at hs
      · cases hs
        exact seq_move (p := .clear v) h hne rfl (by nofun) rfl
          (fun ⟨_, e⟩ => by cases e) (fun a b => Or.inr ⟨v, Or.inr rfl⟩)
      · cases hs
    | clear v =>
      have hne : s.pc i ≠ .out := by rw [hp]; nofun
      simp only [hp, Option.some.injEq] at hs
      subst hs
      exact seq_leave h hne rfl rfl (Or.inl ⟨_, rfl⟩)
        (fun _ b => by simp [State.leave, State.at] at b)
  | expire i =>
    simp only [step, expire] at hs
    split at hs
    next hp =>
      have hne : s.pc i ≠ .out := by rw [hp]; nofun
      have hcl : s.closed = true → s.runner = true → s.stuck = true := by
        intro a b
        rcases h.open' a b with h2 | ⟨j, v, h2⟩
        · exact h2
        · have hj : s.pc j ≠ .out := by
            rcases h2 with h2 | h2 <;> (rw [h2]; nofun)
          have := only h hne j hj
          subst this
          rcases h2 with h2 | h2 <;> (rw [hp] at h2; cases h2)
      split at hs
      · cases hs
        exact seq_leave h hne rfl rfl (Or.inr ⟨_, rfl, by nofun⟩) hcl
      · cases hs
    · cases hs

theorem step_grows {s s' : State} {e : Event} (hs : step s e = some s') :
    ∃ x, s'.log = s.log ++ x := by
  cases e with
  | finish o =>
    simp only [step, finish] at hs
    split at hs
    · cases hs
    · cases hs; exact ⟨_, rfl⟩
  | callback =>
    simp only [step, callback] at hs
    split at hs
    · cases hs
    · split at hs
      · cases hs
      · split at hs
        · split at hs
          · cases hs; exact ⟨_, rfl⟩
          · split at hs
            · cases hs; exact ⟨_, rfl⟩
            · split at hs
              · cases hs; exact ⟨_, rfl⟩
              · cases hs; exact ⟨_, rfl⟩
        · cases hs; exact ⟨[], by simp⟩
  | register c n =>
    simp only [step, Option.some.injEq] at hs
    subst hs
    unfold register
    simp only
    split
    · exact ⟨_, rfl⟩
    next v _ => exact ⟨[.registered c, .called c v], by simp⟩
    · exact ⟨_, rfl⟩
  | begin i t =>
    simp only [step] at hs
    split at hs
    · cases hs; exact ⟨_, rfl⟩
    · cases hs
  | advance i =>
    simp only [step, advance] at hs
    cases hp : s.pc i with
    | out => simp only [hp] at hs; cases hs
    | waiting t =>
      simp only [hp] at hs
      split at hs
      · cases hs
      · cases hs; exact ⟨[], by simp [State.at]⟩
      · cases hs; exact ⟨_, rfl⟩
      · cases hs; exact ⟨_, rfl⟩
    | test v =>
      simp only [hp] at hs
      split at hs
      · cases hs; exact ⟨[], by simp [State.at]⟩
      · cases hs; exact ⟨_, rfl⟩
    | call v =>
      simp only [hp] at hs
      split at hs
      · cases hs; exact ⟨_, rfl⟩
      · split at hs
        · cases hs; exact ⟨[], by simp [State.at]⟩
        · cases hs; exact ⟨[], by simp [State.at]⟩
    | inside v =>
      simp only [hp] at hs
      split at hs
      · cases hs; exact ⟨[], by simp [State.at]⟩
      · cases hs
    | clear v =>
      simp only [hp, Option.some.injEq] at hs
      subst hs; exact ⟨_, rfl⟩
  | expire i =>
    simp only [step, expire] at hs
    split at hs
    · split at hs
      · cases hs; exact ⟨_, rfl⟩
      · cases hs
    · cases hs

theorem exec_grows {es : List Event} : ∀ {s s' : State}, exec s es = some s' →
    ∃ x, s'.log = s.log ++ x := by
  induction es with
  | nil => intro s s' h; cases h; exact ⟨[], by simp⟩
  | cons e es ih =>
    intro s s' h
    simp only [exec] at h
    cases hst : step s e with
    | none => rw [hst] at h; cases h
    | some s1 =>
      rw [hst] at h
      obtain ⟨x, hx⟩ := step_grows hst
      obtain ⟨y, hy⟩ := ih h
      exact ⟨x ++ y, by rw [hy, hx]; simp⟩

theorem seq_exec {es : List Event} : ∀ {s s' : State}, Seq s → exec s es = some s' →
    OneAtATime s'.log → Seq s' := by
  induction es with
  | nil => intro s s' h hs _; cases hs; exact h
  | cons e es ih =>
    intro s s' h hs h1
    simp only [exec] at hs
    cases hst : step s e with
    | none => rw [hst] at hs; cases hs
    | some s1 =>
      rw [hst] at hs
      obtain ⟨x, hx⟩ := exec_grows hs
      exact ih (seq_step h hst (one_mono (hx ▸ h1))) hs h1

/-- C109: while at most one call of `result` is open at a time (also if callbacks
call `result`), a call never fails with an error of its own: it returns the value,
or raises the operation's error, its cancellation, or TimeoutError. -/
theorem C109_sequential {s : State} {l : List Obs} (h : Seen s l) (h1 : OneAtATime l)
    (i : Nat) : Obs.raised i .attribute ∉ l := by
  obtain ⟨es, he, hl⟩ := h
  have := (seq_exec seq_new he (hl ▸ h1)).fine i
  rwa [hl] at this

/-! ### Calls end -/

/-- No callback that calls `result`. -/
def Plain (s : State) : Prop :=
  (∀ c ∈ s.callbacks, c.2 = false) ∧ (∀ c ∈ s.queue, c.2 = false) ∧ s.stuck = false

theorem plain_step {s s' : State} {e : Event} (h : Plain s) (hn : ∀ c, e ≠ .register c true)
    (hs : step s e = some s') : Plain s' := by
  obtain ⟨h1, h2, h3⟩ := h
  cases e with
  | finish o =>
    simp only [step, finish] at hs
    split at hs
    · cases hs
    · cases hs; exact ⟨by simp, h1, h3⟩
  | callback =>
    simp only [step, callback] at hs
    split at hs
    · cases hs
    · split at hs
      · cases hs
      next c n rest hq =>
        have hrest : ∀ c ∈ rest, c.2 = false := fun c hc =>
          h2 c (by rw [hq]; exact List.mem_cons_of_mem _ hc)
        have hn : n = false := h2 (c, n) (by rw [hq]; simp)
        split at hs
        · rw [if_pos hn] at hs
          cases hs; exact ⟨h1, hrest, h3⟩
        · cases hs; exact ⟨h1, hrest, h3⟩
  | register c n =>
    simp only [step, Option.some.injEq] at hs
    subst hs
    have hnf : n = false := by
      cases n with
      | false => rfl
      | true => exact absurd rfl (hn c)
    unfold register
    simp only
    split
    · refine ⟨?_, h2, h3⟩
      intro d hd
      rcases List.mem_append.mp hd with hd | hd
      · exact h1 d hd
      · simp at hd; rw [hd]; exact hnf
    · exact ⟨h1, h2, h3⟩
    · exact ⟨h1, h2, h3⟩
  | begin i t =>
    simp only [step] at hs
    split at hs
    · cases hs; exact ⟨h1, h2, h3⟩
    · cases hs
  | advance i =>
    simp only [step, advance] at hs
    cases hp : s.pc i with
    | out => simp only [hp] at hs; cases hs
    | waiting t =>
      simp only [hp] at hs
      split at hs
      · cases hs
      · cases hs; exact ⟨h1, h2, h3⟩
      · cases hs; exact ⟨h1, h2, h3⟩
      · cases hs; exact ⟨h1, h2, h3⟩
    | test v =>
      simp only [hp] at hs
      split at hs
      · cases hs; exact ⟨h1, h2, h3⟩
      · cases hs; exact ⟨h1, h2, h3⟩
    | call v =>
      simp only [hp] at hs
      split at hs
      · cases hs; exact ⟨h1, h2, h3⟩
      · split at hs
        · cases hs; exact ⟨h1, h2, h3⟩
        · cases hs; exact ⟨h1, h2, h3⟩
    | inside v =>
      simp only [hp] at hs
      split at hs
      · cases hs; exact ⟨h1, h2, h3⟩
      · cases hs
    | clear v =>
      simp only [hp, Option.some.injEq] at hs
      subst hs; exact ⟨h1, h2, h3⟩
  | expire i =>
    simp only [step, expire] at hs
    split at hs
    · split at hs
      · cases hs; exact ⟨h1, h2, h3⟩
      · cases hs
    · cases hs

theorem plain_exec {es : List Event} : ∀ {s s' : State}, Plain s →
    (∀ c, Event.register c true ∉ es) → exec s es = some s' → Plain s' := by
  induction es with
  | nil => intro s s' h _ hs; cases hs; exact h
  | cons e es ih =>
    intro s s' h hn hs
    simp only [exec] at hs
    cases hst : step s e with
    | none => rw [hst] at hs; cases hs
    | some s1 =>
      rw [hst] at hs
      refine ih (plain_step h ?_ hst) ?_ hs
      · intro c hc; exact hn c (by rw [hc]; simp)
      · intro c hc; exact hn c (List.mem_cons_of_mem _ hc)

theorem drain (n : Nat) : ∀ {s : State}, Plain s → s.queue.length ≤ n →
    ∃ es s', exec s es = some s' ∧ s'.queue = [] ∧ s'.stuck = false ∧ s'.pc = s.pc ∧
      s'.future = s.future ∧ s'.runner = s.runner ∧ s'.closed = s.closed := by
  induction n with
  | zero =>
    intro s h hn
    exact ⟨[], s, rfl, List.length_eq_zero_iff.mp (by omega), h.2.2, rfl, rfl, rfl, rfl⟩
  | succ n ih =>
    intro s h hn
    cases hq : s.queue with
    | nil => exact ⟨[], s, rfl, hq, h.2.2, rfl, rfl, rfl, rfl⟩
    | cons c rest =>
      obtain ⟨c, b⟩ := c
      have hb : b = false := h.2.1 (c, b) (by rw [hq]; simp)
      subst hb
      have hlen : rest.length ≤ n := by rw [hq] at hn; simp at hn; omega
      have : ∃ s1, step s .callback = some s1 ∧ s1.queue = rest ∧ s1.pc = s.pc ∧
          s1.future = s.future ∧ s1.runner = s.runner ∧ s1.closed = s.closed := by
        simp only [step, callback, h.2.2, hq]
        cases hf : s.future with
        | none => exact ⟨_, rfl, rfl, rfl, rfl, rfl, rfl⟩
        | some o =>
          cases o with
          | value v => exact ⟨_, rfl, rfl, rfl, rfl, rfl, rfl⟩
          | error e => exact ⟨_, rfl, rfl, rfl, rfl, rfl, rfl⟩
          | cancelled => exact ⟨_, rfl, rfl, rfl, rfl, rfl, rfl⟩
      obtain ⟨s1, h1, h2, h3, h4, h5, h6⟩ := this
      obtain ⟨es, s', e1, e2, e3, e4, e5, e6, e7⟩ :=
        ih (plain_step h (by nofun) h1) (by rw [h2]; exact hlen)
      exact ⟨.callback :: es, s', by simp [exec, h1, e1], e2, e3, e4.trans h3,
        e5.trans h4, e6.trans h5, e7.trans h6⟩

/-- How far a thread is from the end of its call. -/
def _root_.Verif.Response.Pc.rank : Pc → Nat
  | .out => 0
  | .clear _ => 1
  | .inside _ => 2
  | .call _ => 3
  | .test _ => 4
  | .waiting _ => 5

theorem advance_down {s : State} {i : Nat} (hf : s.future ≠ none) (hq : s.queue = [])
    (hst : s.stuck = false) (hp : s.pc i ≠ .out) :
    ∃ s', step s (.advance i) = some s' ∧ (s'.pc i).rank < (s.pc i).rank ∧
      s'.future = s.future ∧ s'.queue = [] ∧ s'.stuck = false := by
  simp only [step, advance]
  cases h : s.pc i with
  | out => exact absurd h hp
  | waiting t =>
    cases ho : s.future with
    | none => exact absurd ho hf
    | some o =>
      cases o <;> exact ⟨_, rfl, by simp [State.leave, State.at, Pc.rank], ho, hq, hst⟩
  | test v =>
    simp only
    split
    · exact ⟨_, rfl, by simp [State.at, Pc.rank], rfl, hq, hst⟩
    · exact ⟨_, rfl, by simp [State.leave, State.at, Pc.rank], rfl, hq, hst⟩
  | call v =>
    simp only
    split
    · exact ⟨_, rfl, by simp [State.leave, State.at, Pc.rank], rfl, hq, hst⟩
    · split
      · exact ⟨_, rfl, by simp [State.at, Pc.rank], rfl, hq, hst⟩
      · exact ⟨_, rfl, by simp [State.at, Pc.rank], rfl, hq, hst⟩
  | inside v =>
    simp only [hq, hst, and_self, if_true]
    exact ⟨_, rfl, by simp [State.at, Pc.rank], rfl, rfl, rfl⟩
  | clear v => exact ⟨_, rfl, by simp [State.leave, State.at, Pc.rank], rfl, hq, hst⟩

theorem rank_out {p : Pc} (h : p.rank = 0) : p = .out := by
  cases p <;> simp_all [Pc.rank]

theorem to_the_end (n : Nat) : ∀ {s : State} {i : Nat}, (s.pc i).rank ≤ n →
    s.future ≠ none → s.queue = [] → s.stuck = false →
    ∃ es s', exec s es = some s' ∧ s'.pc i = .out := by
  induction n with
  | zero => intro s i hn _ _ _; exact ⟨[], s, rfl, rank_out (by omega)⟩
  | succ n ih =>
    intro s i hn hf hq hst
    by_cases hp : s.pc i = .out
    · exact ⟨[], s, rfl, hp⟩
    · obtain ⟨s1, h1, h2, h3, h4, h5⟩ := advance_down hf hq hst hp
      obtain ⟨es, s', h6, h7⟩ := ih (s := s1) (i := i) (by omega) (h3 ▸ hf) h4 h5
      exact ⟨.advance i :: es, s', by simp [exec, h1, h6], h7⟩

/-- C109: once the operation has ended, no call of `result` can get stuck, as long
as callbacks do not call `result` themselves. -/
theorem C109_ends_partial {es : List Event} {s : State}
    (he : exec State.new es = some s) (hn : ∀ c, Event.register c true ∉ es)
    {o : Outcome} (ho : Obs.finished o ∈ s.log) (i : Nat) :
    ∃ es' s', exec s es' = some s' ∧ s'.pc i = .out := by
  have hi := exec_keeps inv_new he
  have hp : Plain s := plain_exec (by simp [Plain, State.new]) hn he
  have hf := (hi.fin o).mpr ho
  obtain ⟨es1, s1, h1, h2, h3, h4, h5, _, _⟩ := drain _ hp (Nat.le_refl _)
  obtain ⟨es2, s2, h6, h7⟩ := to_the_end _ (s := s1) (i := i) (Nat.le_refl _)
    (by rw [h5, hf]; simp) h2 h3
  refine ⟨es1 ++ es2, s2, ?_, h7⟩
  have exec_app : ∀ (a b : List Event) (s s1 : State), exec s a = some s1 →
      exec s (a ++ b) = exec s1 b := by
    intro a
    induction a with
    | nil => intro b s s1 h; cases h; rfl
    | cons e a ih =>
      intro b s s1 h
      simp only [exec] at h
      cases hst : step s e with
      | none => rw [hst] at h; cases h
      | some s' =>
        rw [hst] at h
        simp only [List.cons_append, exec, hst]
        exact ih b s' s1 h
  rw [exec_app _ _ _ _ h1]; exact h6

/-! ### The thread is stopped -/

structure Stop (s : State) : Prop where
  closed : s.closed = true → s.down = true ∨ ∃ i v, s.pc i = .inside v
  clear : ∀ i v, s.pc i = .clear v → s.down = true
  gone : s.runner = false → s.down = true
  back : ∀ i v, Obs.returned i v ∈ s.log → s.down = true

theorem stop_leave {s : State} {i : Nat} {x : Obs} (h : Stop s)
    (hp : ∀ v, s.pc i ≠ .inside v) (hx : ∀ j v, x = .returned j v → s.down = true) :
    Stop (s.leave i x) := by
  refine ⟨?_, ?_, h.gone, ?_⟩
  · intro hc
    rcases h.closed hc with hd | ⟨j, v, hj⟩
    · exact Or.inl hd
    · refine Or.inr ⟨j, v, ?_⟩
      have : j ≠ i := fun e => hp v (e ▸ hj)
      simp [State.leave, State.at, this, hj]
  · intro j v hj
    by_cases e : j = i
    · simp [State.leave, State.at, e] at hj
    · simp [State.leave, State.at, e] at hj
      exact h.clear j v hj
  · intro j v hj
    simp only [State.leave, List.mem_append, List.mem_singleton] at hj
    rcases hj with hj | hj
    · exact h.back j v hj
    · exact hx j v hj.symm

theorem stop_at {s : State} {i : Nat} {p : Pc} (h : Stop s)
    (hp : ∀ v, s.pc i ≠ .inside v) (hx : ∀ v, p = .clear v → s.down = true) :
    Stop (s.at i p) := by
  refine ⟨?_, ?_, h.gone, h.back⟩
  · intro hc
    rcases h.closed hc with hd | ⟨j, v, hj⟩
    · exact Or.inl hd
    · refine Or.inr ⟨j, v, ?_⟩
      have : j ≠ i := fun e => hp v (e ▸ hj)
      simp [State.at, this, hj]
  · intro j v hj
    by_cases e : j = i
    · simp [State.at, e] at hj
      exact hx v hj
    · simp [State.at, e] at hj
      exact h.clear j v hj

theorem stop_same {s s' : State} (h : Stop s) (h1 : s'.closed = s.closed)
    (h2 : s'.down = s.down) (h3 : s'.pc = s.pc) (h4 : s'.runner = s.runner)
    (h5 : ∀ i v, Obs.returned i v ∈ s'.log → Obs.returned i v ∈ s.log) : Stop s' :=
  ⟨by rw [h1, h2, h3]; exact h.closed, by rw [h2, h3]; exact h.clear,
    by rw [h2, h4]; exact h.gone, fun i v hv => h2 ▸ h.back i v (h5 i v hv)⟩

theorem stop_step {s s' : State} {e : Event} (h : Stop s) (hq : Seq s) (hpl : Plain s)
    (hs : step s e = some s') : Stop s' := by
  cases e with
  | finish o =>
    simp only [step, finish] at hs
    split at hs
    · cases hs
    · cases hs; exact stop_same h rfl rfl rfl rfl (by simp)
  | callback =>
    simp only [step, callback] at hs
    split at hs
    · cases hs
    · split at hs
      · cases hs
      next c n rest hqu =>
        have hn : n = false := hpl.2.1 (c, n) (by rw [hqu]; simp)
        split at hs
        · rw [if_pos hn] at hs
          cases hs; exact stop_same h rfl rfl rfl rfl (by simp)
        · cases hs; exact stop_same h rfl rfl rfl rfl (by simp)
  | register c n =>
    simp only [step, Option.some.injEq] at hs
    subst hs
    unfold register
    simp only
    split <;> exact stop_same h rfl rfl rfl rfl (by simp)
  | begin i t =>
    simp only [step] at hs
    split at hs
    next hp =>
      cases hs
      exact stop_same (stop_at h (i := i) (p := .waiting t) (by rw [hp]; nofun) (by nofun))
        rfl rfl rfl rfl (by simp [State.at])
    · cases hs
  | advance i =>
    simp only [step, advance] at hs
    cases hp : s.pc i with
    | out => simp only [hp] at hs; cases hs
    | waiting t =>
      have hni : ∀ v, s.pc i ≠ .inside v := by rw [hp]; nofun
      simp only [hp] at hs
      split at hs
      · cases hs
      · cases hs; exact stop_at h hni (by nofun)
      · cases hs; exact stop_leave h hni (by nofun)
      · cases hs; exact stop_leave h hni (by nofun)
    | test v =>
      have hni : ∀ v, s.pc i ≠ .inside v := by rw [hp]; nofun
      simp only [hp] at hs
      split at hs
      · cases hs; exact stop_at h hni (by nofun)
      next hr =>
        cases hs; exact stop_leave h hni (fun _ _ _ => h.gone (by simpa using hr))
    | call v =>
      have hni : ∀ v, s.pc i ≠ .inside v := by rw [hp]; nofun
      simp only [hp] at hs
      split at hs
      · cases hs; exact stop_leave h hni (by nofun)
      · split at hs
        next hc =>
          cases hs
          refine stop_at h hni (fun _ _ => ?_)
          rcases h.closed hc with hd | ⟨j, w, hj⟩
          · exact hd
          · have := only hq (i := i) (by rw [hp]; nofun) j (by rw [hj]; nofun)
            subst this
            exact absurd hj (hni w)
        · cases hs
          refine ⟨fun _ => Or.inr ⟨i, v, by simp [State.at]⟩, ?_, h.gone, h.back⟩
          intro j w hj
          by_cases e : j = i
          · simp [State.at, e] at hj
          · simp [State.at, e] at hj
            exact h.clear j w hj
    | inside v =>
      simp only [hp] at hs
      split at hs
      · cases hs
        exact ⟨fun _ => Or.inl rfl, fun _ _ _ => rfl, fun _ => rfl, fun _ _ _ => rfl⟩
      · cases hs
    | clear v =>
      simp only [hp, Option.some.injEq] at hs
      subst hs
      have hd := h.clear i v hp
      exact ⟨fun _ => Or.inl hd, fun _ _ _ => hd, fun _ => hd, fun _ _ _ => hd⟩
  | expire i =>
    simp only [step, expire] at hs
    split at hs
    next hp =>
      split at hs
      · cases hs; exact stop_leave h (by rw [hp]; nofun) (by nofun)
      · cases hs
    · cases hs

theorem stop_exec {es : List Event} : ∀ {s s' : State}, Stop s → Seq s → Plain s →
    (∀ c, Event.register c true ∉ es) → exec s es = some s' →
    OneAtATime s'.log → Stop s' := by
  induction es with
  | nil => intro s s' h _ _ _ hs _; cases hs; exact h
  | cons e es ih =>
    intro s s' h hq hp hn hs h1
    simp only [exec] at hs
    cases hst : step s e with
    | none => rw [hst] at hs; cases hs
    | some s1 =>
      rw [hst] at hs
      obtain ⟨x, hx⟩ := exec_grows hs
      exact ih (stop_step h hq hp hst) (seq_step hq hst (one_mono (hx ▸ h1)))
        (plain_step hp (fun c hc => hn c (by rw [hc]; simp)) hst)
        (fun c hc => hn c (List.mem_cons_of_mem _ hc)) hs h1

/-- C109: while at most one call of `result` is open at a time, and no callback
calls it, a call that returns the value leaves no thread behind: the loop and the
thread made for the operation have ended. -/
theorem C109_stopped_partial {es : List Event} {s : State}
    (he : exec State.new es = some s) (hn : ∀ c, Event.register c true ∉ es)
    (h1 : OneAtATime s.log) {i v : Nat} (hr : Obs.returned i v ∈ s.log) : s.down = true :=
  (stop_exec (by constructor <;> simp [State.new]) seq_new
    (by simp [Plain, State.new]) hn he h1).back i v hr

theorem quiet_step {s s' : State} {e : Event}
    (h : s.down = true → s.queue = [] ∧ s.future ≠ none) (hi : Inv s)
    (hs : step s e = some s') : s'.down = true → s'.queue = [] ∧ s'.future ≠ none := by
  cases e with
  | finish o =>
    simp only [step, finish] at hs
    split at hs
    · cases hs
    next hf => cases hs; intro hd; exact absurd hf (h hd).2
  | callback =>
    simp only [step, callback] at hs
    split at hs
    · cases hs
    · split at hs
      · cases hs
      next c n rest hqu =>
        have hnd : s.down ≠ true := by
          intro hd
          have := (h hd).1
          rw [hqu] at this
          cases this
        split at hs
        · split at hs
          · cases hs; intro hd; exact absurd hd hnd
          · split at hs
            · cases hs; intro hd; exact absurd hd hnd
            · split at hs
              · cases hs; intro hd; exact absurd hd hnd
              · cases hs; intro hd; exact absurd hd hnd
        · cases hs; intro hd; exact absurd hd hnd
  | register c n =>
    simp only [step, Option.some.injEq] at hs
    subst hs
    unfold register
    simp only
    split <;> exact h
  | begin i t =>
    simp only [step] at hs
    split at hs
    · cases hs; exact h
    · cases hs
  | advance i =>
    simp only [step, advance] at hs
    cases hp : s.pc i with
    | out => simp only [hp] at hs; cases hs
    | waiting t =>
      simp only [hp] at hs
      split at hs
      · cases hs
      · cases hs; exact h
      · cases hs; exact h
      · cases hs; exact h
    | test v =>
      simp only [hp] at hs
      split at hs <;> (cases hs; exact h)
    | call v =>
      simp only [hp] at hs
      split at hs
      · cases hs; exact h
      · split at hs <;> (cases hs; exact h)
    | inside v =>
      simp only [hp] at hs
      split at hs
      next hq =>
        cases hs
        intro _
        refine ⟨hq.1, ?_⟩
        have := hi.val i v (by simp [hp, Pc.val])
        simp only [State.at]
        rw [this]; simp
      · cases hs
    | clear v =>
      simp only [hp, Option.some.injEq] at hs
      subst hs; exact h
  | expire i =>
    simp only [step, expire] at hs
    split at hs
    · split at hs
      · cases hs; exact h
      · cases hs
    · cases hs

theorem quiet_exec {es : List Event} : ∀ {s s' : State}, Inv s →
    (s.down = true → s.queue = [] ∧ s.future ≠ none) → exec s es = some s' →
    s'.down = true → s'.queue = [] ∧ s'.future ≠ none := by
  induction es with
  | nil => intro s s' _ h hs; cases hs; exact h
  | cons e es ih =>
    intro s s' hi h hs
    simp only [exec] at hs
    cases hst : step s e with
    | none => rw [hst] at hs; cases hs
    | some s1 =>
      rw [hst] at hs
      exact ih (step_keeps hi hst) (quiet_step h hi hst) hs

/-- C109: under the same conditions all callbacks have been called by the time a
call of `result` returns. -/
theorem C109_settled_partial {es : List Event} {s : State}
    (he : exec State.new es = some s) (hn : ∀ c, Event.register c true ∉ es)
    (h1 : OneAtATime s.log) {i v : Nat} (hr : Obs.returned i v ∈ s.log) (c : Nat) :
    invocations c s.log = registrations c s.log := by
  have hd := C109_stopped_partial he hn h1 hr
  have hq := quiet_exec inv_new (by simp [State.new]) he hd
  obtain ⟨p, q, hl⟩ := List.append_of_mem hr
  have hv := (C109_result (s := s) (i := i) (v := v) (pre := p) (post := q) (e := 0)
    (o := .cancelled)).1 ⟨es, he, hl⟩
  exact C109_callbacks_all ⟨es, he, rfl⟩ (v := v)
    (by rw [hl]; exact List.mem_append_left _ hv) hq.1 c

/-! ## Findings -/

/-- C109 (finding): if the operation fails, nothing ever stops the thread and the
event loop that were made for it, however often `result` is called: the error is
raised before `shutdown` is reached. -/
theorem C109_failure_leak_fails {s : State} {l : List Obs} (h : Seen s l) {o : Outcome}
    (ho : Obs.finished o ∈ l) (hv : ∀ v, o ≠ .value v) : s.closed = false ∧ s.down = false := by
  have hi := seen_inv h
  have hl : s.log = l := h.choose_spec.2
  have hf := (hi.fin o).mpr (hl ▸ ho)
  have := hi.bad (by rw [hf]; intro v e; cases e; exact hv v rfl)
  exact ⟨this.1, this.2.2.2⟩

/-- C109 (finding): two threads that wait for the same operation, which succeeds:
one of them can get AttributeError instead of the value, because `_runner` is
looked at twice. -/
theorem C109_two_threads_fails : ∃ s l, Seen s l ∧
    l = [.began 0, .began 1, .finished (.value 7), .returned 0 7, .raised 1 .attribute] :=
  ⟨_, _, ⟨[.begin 0 false, .begin 1 false, .finish (.value 7), .advance 0, .advance 1,
    .advance 1, .advance 0, .advance 0, .advance 0, .advance 0, .advance 1], rfl, rfl⟩, rfl⟩

theorem stuck_step {s s' : State} {e : Event} (h : s.stuck = true) (hc : s.closed = true)
    (hd : s.down = false) (hn : ∀ i v, s.pc i ≠ .inside v) (hs : step s e = some s') :
    s'.stuck = true ∧ s'.closed = true ∧ s'.down = false ∧ (∀ i v, s'.pc i ≠ .inside v) ∧
      (s.future ≠ none → s'.queue = s.queue ∧ s'.future ≠ none) := by
  have hat : ∀ (s : State) (i : Nat) (p : Pc), (∀ i v, s.pc i ≠ .inside v) →
      (∀ v, p ≠ .inside v) → ∀ j v, (s.at i p).pc j ≠ .inside v := by
    intro s i p h1 h2 j v
    simp only [State.at]
    split
    · exact h2 v
    · exact h1 j v
  cases e with
  | finish o =>
    simp only [step, finish] at hs
    split at hs
    · cases hs
    next hf =>
      cases hs
      exact ⟨h, hc, hd, hn, fun hne => absurd hf hne⟩
  | callback => simp [step, callback, h] at hs
  | register c n =>
    simp only [step, Option.some.injEq] at hs
    subst hs
    unfold register
    simp only
    split
    next hf => exact ⟨h, hc, hd, hn, fun hne => absurd hf hne⟩
    next hf => exact ⟨h, hc, hd, hn, fun _ => ⟨rfl, by simp [hf]⟩⟩
    next hf => exact ⟨h, hc, hd, hn, fun _ => ⟨rfl, by simp [hf]⟩⟩
  | begin i t =>
    simp only [step] at hs
    split at hs
    · cases hs
      exact ⟨h, hc, hd, hat s i _ hn (by nofun), fun hne => ⟨rfl, hne⟩⟩
    · cases hs
  | advance i =>
    simp only [step, advance] at hs
    cases hp : s.pc i with
    | out => simp only [hp] at hs; cases hs
    | waiting t =>
      simp only [hp] at hs
      split at hs
      · cases hs
      · cases hs; exact ⟨h, hc, hd, hat s i _ hn (by nofun), fun hne => ⟨rfl, hne⟩⟩
      · cases hs; exact ⟨h, hc, hd, hat s i _ hn (by nofun), fun hne => ⟨rfl, hne⟩⟩
      · cases hs; exact ⟨h, hc, hd, hat s i _ hn (by nofun), fun hne => ⟨rfl, hne⟩⟩
    | test v =>
      simp only [hp] at hs
      split at hs
      · cases hs; exact ⟨h, hc, hd, hat s i _ hn (by nofun), fun hne => ⟨rfl, hne⟩⟩
      · cases hs; exact ⟨h, hc, hd, hat s i _ hn (by nofun), fun hne => ⟨rfl, hne⟩⟩
    | call v =>
      simp only [hp] at hs
      split at hs
      · cases hs; exact ⟨h, hc, hd, hat s i _ hn (by nofun), fun hne => ⟨rfl, hne⟩⟩
      · cases hs; exact ⟨h, hc, hd, hat s i _ hn (by nofun), fun hne => ⟨rfl, hne⟩⟩
    | inside v => exact absurd hp (hn i v)
    | clear v =>
      simp only [hp, Option.some.injEq] at hs
      subst hs
      exact ⟨h, hc, hd, hat s i _ hn (by nofun), fun hne => ⟨rfl, hne⟩⟩
  | expire i =>
    simp only [step, expire] at hs
    split at hs
    · split at hs
      · cases hs; exact ⟨h, hc, hd, hat s i _ hn (by nofun), fun hne => ⟨rfl, hne⟩⟩
      · cases hs
    · cases hs

theorem stuck_exec {es : List Event} : ∀ {s s' : State}, s.stuck = true → s.closed = true →
    s.down = false → (∀ i v, s.pc i ≠ .inside v) → s.future ≠ none →
    exec s es = some s' → s'.down = false ∧ s'.queue = s.queue := by
  induction es with
  | nil => intro s s' _ _ hd _ _ h; cases h; exact ⟨hd, rfl⟩
  | cons e es ih =>
    intro s s' h1 h2 h3 h4 h5 h
    simp only [exec] at h
    cases hst : step s e with
    | none => rw [hst] at h; cases h
    | some s1 =>
      rw [hst] at h
      obtain ⟨a1, a2, a3, a4, a5⟩ := stuck_step h1 h2 h3 h4 hst
      obtain ⟨b1, b2⟩ := ih a1 a2 a3 a4 (a5 h5).2 h
      exact ⟨b1, b2.trans (a5 h5).1⟩

/-- C109 (finding): a callback given to `on_complete` that asks the response for
its result waits for itself, although the operation has ended: callback 0 runs in
the thread of the loop, where `result` shuts the loop down and waits until that
thread is free.  Whatever happens then, the thread never ends and the callbacks
behind it (here callback 1) are never called. -/
theorem C109_callback_result_fails : ∃ s l, Seen s l ∧
    l = [.registered 0, .registered 1, .finished (.value 7), .called 0 7] ∧
    ∀ es s', exec s es = some s' → s'.down = false ∧ s'.queue = [(1, false)] := by
  have hex : ∃ s, exec State.new [.register 0 true, .register 1 false, .finish (.value 7),
      .callback] = some s ∧ s.stuck = true ∧ s.closed = true ∧ s.down = false ∧
      s.pc = (fun _ => .out) ∧ s.future = some (.value 7) ∧ s.queue = [(1, false)] ∧
      s.log = [.registered 0, .registered 1, .finished (.value 7), .called 0 7] :=
    ⟨_, rfl, rfl, rfl, rfl, rfl, rfl, rfl, rfl⟩
  obtain ⟨s, he, h1, h2, h3, h4, h5, h6, h7⟩ := hex
  refine ⟨s, _, ⟨_, he, rfl⟩, h7, ?_⟩
  intro es s' h
  obtain ⟨a, b⟩ := stuck_exec h1 h2 h3 (by rw [h4]; nofun) (by rw [h5]; nofun) h
  exact ⟨a, b.trans h6⟩

/-- A thread that waits twice (the first time in vain), another that asks after the
end, and two callbacks. -/
theorem C109_response_nonvacuous : ∃ s l, Seen s l ∧ OneAtATime l ∧ s.queue = [] ∧
    s.down = true ∧
    l = [.registered 4, .began 0, .raised 0 .timeout, .began 0, .finished (.value 7),
      .called 4 7, .returned 0 7, .registered 5, .called 5 7, .began 1, .returned 1 7] := by
  refine ⟨_, _, ⟨[.register 4 false, .begin 0 true, .expire 0, .begin 0 false,
    .finish (.value 7), .callback, .advance 0, .advance 0, .advance 0, .advance 0,
    .advance 0, .register 5 false, .begin 1 false, .advance 1, .advance 1], rfl, rfl⟩,
    ?_, rfl, rfl, rfl⟩
  intro pre post h
  have hle : pre.length ≤ 11 := by
    have := congrArg List.length h
    simp [State.new, State.at, State.leave, register] at this
    omega
  have hp : pre = (pre ++ post).take pre.length := by simp
  rw [← h] at hp
  have key : ∀ n, n ≤ 11 → nBegan (List.take n [Obs.registered 4, .began 0,
      .raised 0 .timeout, .began 0, .finished (.value 7), .called 4 7, .returned 0 7,
      .registered 5, .called 5 7, .began 1, .returned 1 7]) ≤ nOver (List.take n
      [Obs.registered 4, .began 0, .raised 0 .timeout, .began 0, .finished (.value 7),
      .called 4 7, .returned 0 7, .registered 5, .called 5 7, .began 1, .returned 1 7]) + 1 := by
    intro n hn
    have : n = 0 ∨ n = 1 ∨ n = 2 ∨ n = 3 ∨ n = 4 ∨ n = 5 ∨ n = 6 ∨ n = 7 ∨ n = 8 ∨ n = 9 ∨
        n = 10 ∨ n = 11 := by omega
    rcases this with h | h | h | h | h | h | h | h | h | h | h | h <;> (subst h; decide)
  rw [hp]
  exact key pre.length hle

end Verif.Response.Props
