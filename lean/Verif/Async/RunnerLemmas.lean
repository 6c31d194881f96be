/-
Invariants of the model of `AsyncRunner`.
-/
import Verif.Async.Runner

namespace Verif.Runner

/-- All callbacks in the queue, in the order in which they will run. -/
def State.q (s : State) : List Handle := s.batch ++ s.ready

/-- The callbacks in front of `h`. -/
def before (h : Handle) : List Handle → List Handle
  | [] => []
  | x :: l => if x = h then [] else x :: before h l

theorem before_append_mem {h : Handle} {l r : List Handle} (hm : h ∈ l) :
    before h (l ++ r) = before h l := by
  induction l with
  | nil => cases hm
  | cons x l ih =>
    by_cases e : x = h
    · simp [before, e]
    · have : h ∈ l := by
        rcases List.mem_cons.mp hm with h' | h'
        · exact absurd h'.symm e
        · exact h'
      simp [before, e, ih this]

theorem before_append_not {h : Handle} {l r : List Handle} (hm : h ∉ l) :
    before h (l ++ r) = l ++ before h r := by
  induction l with
  | nil => rfl
  | cons x l ih =>
    have e : x ≠ h := fun e => hm (e ▸ List.mem_cons_self)
    have e' : h ∉ l := fun e' => hm (List.mem_cons_of_mem _ e')
    simp [before, e, ih e']

/-- The callbacks behind `h`. -/
def after (h : Handle) : List Handle → List Handle
  | [] => []
  | x :: l => if x = h then l else after h l

theorem after_append_mem {h : Handle} {l r : List Handle} (hm : h ∈ l) :
    after h (l ++ r) = after h l ++ r := by
  induction l with
  | nil => cases hm
  | cons x l ih =>
    by_cases e : x = h
    · simp [after, e]
    · have : h ∈ l := by
        rcases List.mem_cons.mp hm with h' | h'
        · exact absurd h'.symm e
        · exact h'
      simp [after, e, ih this]

/-- The `wait` argument of the calls of `shutdown` in a log. -/
def asks (l : List Obs) : List Bool :=
  l.filterMap fun
    | .asked w _ => some w
    | _ => none

/-- The only call of `shutdown`, with `wait`, has returned. -/
def Down (l : List Obs) : Prop :=
  ∃ p q, l = p ++ .returned :: q ∧ asks p = [true]

/-- What an entry of the log says about the entries before it. -/
def Ok (pre : List Obs) : Obs → Prop
  | .accepted k => asks pre = [] ∧ .accepted k ∉ pre
  | .refused _ => asks pre ≠ []
  | .ran k => ¬ Down pre ∧ ∀ o, Obs.ended k o ∉ pre
  | .ended k _ => ¬ Down pre ∧ .ran k ∈ pre ∧ ∀ o, Obs.ended k o ∉ pre
  | .resolved k o => ¬ Down pre ∧ .ended k o ∈ pre ∧ ∀ o, Obs.resolved k o ∉ pre
  | .asked _ _ => True
  | .returned => asks pre = [true] →
      ∀ k, Obs.accepted k ∈ pre → ∃ o, Obs.resolved k o ∈ pre

/-- Every entry of the log is as it should be. -/
def Sound (l : List Obs) : Prop := ∀ pre x post, l = pre ++ x :: post → Ok pre x

theorem sound_nil : Sound [] := by
  intro pre x post h
  cases pre <;> cases h

theorem sound_snoc {l : List Obs} {x : Obs} (hl : Sound l) (hx : Ok l x) :
    Sound (l ++ [x]) := by
  intro pre y post h
  rcases List.eq_nil_or_concat post with hp | ⟨post', z, hp⟩
  · subst hp
    have := List.append_inj' h rfl
    cases this.1
    cases this.2
    exact hx
  · subst hp
    have h' : l ++ [x] = (pre ++ y :: post') ++ [z] := by
      rw [h]; simp
    have := List.append_inj' h' rfl
    exact hl pre y post' this.1

theorem asks_append (l r : List Obs) : asks (l ++ r) = asks l ++ asks r := by
  simp [asks]

theorem down_append {l r : List Obs} (h : Down l) : Down (l ++ r) := by
  obtain ⟨p, q, rfl, hp⟩ := h
  exact ⟨p, q ++ r, by simp, hp⟩

theorem down_snoc {l : List Obs} {x : Obs} (h : Down (l ++ [x])) :
    Down l ∨ (x = .returned ∧ asks l = [true]) := by
  obtain ⟨p, q, e, hp⟩ := h
  rcases List.eq_nil_or_concat q with hq | ⟨q', z, hq⟩
  · subst hq
    have := List.append_inj' e rfl
    cases this.1
    cases this.2
    exact Or.inr ⟨rfl, hp⟩
  · subst hq
    have h' : l ++ [x] = (p ++ .returned :: q') ++ [z] := by
      rw [e]; simp
    have := List.append_inj' h' rfl
    exact Or.inl ⟨p, q', this.1, hp⟩

/-- Where a coroutine is: in exactly one place. -/
def tok (s : State) (k : Nat) : Nat :=
  s.q.count (.create k) + s.q.count (.step k) + s.waiting.count k
    + s.q.count (.notify k) + (if (s.future k).isSome then 1 else 0)

/-- The invariant about coroutines. -/
structure InvA (s : State) : Prop where
  tok : ∀ k, tok s k = if k ∈ s.used then 1 else 0
  live : ∀ k, s.live.count k = s.q.count (.step k) + s.waiting.count k
  ended : ∀ k, Handle.notify k ∈ s.q ∨ (s.future k).isSome ↔
    ∃ o, Obs.ended k o ∈ s.log
  result : ∀ k o, Obs.ended k o ∈ s.log → s.result k = some o
  future : ∀ k o, s.future k = some o ↔ Obs.resolved k o ∈ s.log
  futres : ∀ k o, s.future k = some o → s.result k = some o
  accepted : ∀ k, Obs.accepted k ∈ s.log → k ∈ s.used

/-- The invariant about shutting down. -/
structure InvB (s : State) : Prop where
  closed : s.closed = true ↔ asks s.log ≠ []
  idle : s.phase = .idle ↔ s.closed = false
  cCreate : s.q.count .createShutdown = if s.phase = .queued then 1 else 0
  cStep : s.q.count .stepShutdown = if s.phase = .created then 1 else 0
  cResume : s.q.count .resumeShutdown = if s.phase = .resumed then 1 else 0
  cNotify : s.q.count .notifyShutdown = if s.phase = .finishing then 1 else 0
  queued : s.phase = .queued → ∀ k, Handle.create k ∉ after .createShutdown s.q
  nocreate : s.phase ≠ .idle → s.phase ≠ .queued → ∀ k, Handle.create k ∉ s.q
  gathering : ∀ rest, s.phase = .gathering rest → rest ≠ [] ∧
    (∀ k, k ∈ rest → s.future k = none ∧ k ∈ s.used) ∧ (∀ k, rest.count k ≤ 1) ∧
    ∀ k, Obs.accepted k ∈ s.log → s.future k = none →
      k ∈ rest ∨ Handle.notify k ∈ s.q
  resumed : s.phase = .resumed → ∀ k, Obs.accepted k ∈ s.log → s.future k = none →
    Handle.notify k ∈ before .resumeShutdown s.q
  finishing : s.phase = .finishing → ∀ k, Obs.accepted k ∈ s.log →
    s.future k = none → Handle.notify k ∈ before .notifyShutdown s.q
  finished : s.phase = .finished → ∀ k, Obs.accepted k ∈ s.log → s.future k ≠ none
  callerOut : s.phase = .idle → s.caller = .out ∧ s.stopping = false ∧
    Handle.stop ∉ s.q ∧ s.exited = false
  callerWait : s.caller = .waiting → s.phase ≠ .idle ∧ s.stopping = false ∧
    Handle.stop ∉ s.q ∧ s.exited = false
  callerJoin : s.caller = .joining → s.phase = .finished ∧
    (Handle.stop ∈ s.q ∨ s.stopping = true ∨ s.exited = true)
  callerBack : s.caller = .back → s.exited = true
  exited : s.exited = true → s.batch = []
  down : Down s.log → s.caller = .back
  sound : Sound s.log

structure Inv (s : State) : Prop where
  a : InvA s
  b : InvB s

theorem inv_new : Inv State.new := by
  constructor
  · constructor <;> simp [State.new, State.q, Runner.tok]
  · constructor <;> simp [State.new, State.q, asks, sound_nil, Down]

/-- A callback of a coroutine. -/
def Handle.plain : Handle → Bool
  | .step _ | .notify _ => true
  | _ => false

theorem count_plain {l : List Handle} (hl : ∀ x ∈ l, x.plain = true) (h : Handle)
    (hh : h.plain = false) : l.count h = 0 := by
  rw [List.count_eq_zero]
  intro hm
  rw [hl h hm] at hh
  cases hh

theorem before_plain {h : Handle} {q l : List Handle} (hm : h ∈ q) {x : Handle} :
    x ∈ before h q → x ∈ before h (q ++ l) := by
  rw [before_append_mem hm]; exact id

theorem mem_of_count {h : Handle} {q : List Handle} (hc : q.count h = 1) : h ∈ q := by
  apply List.count_pos_iff.mp
  omega

theorem invB_mono {s s' : State} {l : List Handle} {obs : List Obs} (b : InvB s)
    (h1 : s'.closed = s.closed) (h2 : s'.phase = s.phase) (h3 : s'.caller = s.caller)
    (h4 : s'.stopping = s.stopping) (h5 : s'.exited = s.exited)
    (h6 : s'.future = s.future)
    (hq : s'.q = s.q ++ l) (hl : ∀ x ∈ l, x.plain = true)
    (hb : s.exited = true → s'.batch = []) (hu : ∀ k, k ∈ s.used → k ∈ s'.used)
    (hlog : s'.log = s.log ++ obs) (hacc : ∀ k, Obs.accepted k ∉ obs)
    (hasks : asks obs = []) (hdown : Down s'.log → Down s.log)
    (hs : Sound s'.log) : InvB s' := by
  have hA : asks s'.log = asks s.log := by rw [hlog, asks_append, hasks]; simp
  have hac : ∀ k, Obs.accepted k ∈ s'.log ↔ Obs.accepted k ∈ s.log := by
    intro k; rw [hlog]; simp [hacc k]
  have hc : ∀ h : Handle, h.plain = false → s'.q.count h = s.q.count h := by
    intro h hh
    rw [hq, List.count_append, count_plain hl h hh]; rfl
  have hmem : ∀ h : Handle, h.plain = false → (h ∈ s'.q ↔ h ∈ s.q) := by
    intro h hh
    rw [← List.count_pos_iff, ← List.count_pos_iff, hc h hh]
  have hmem' : ∀ h, h ∈ s.q → h ∈ s'.q := by
    intro h hh; rw [hq]; exact List.mem_append_left _ hh
  constructor
  · rw [h1, hA]; exact b.closed
  · rw [h2, h1]; exact b.idle
  · rw [hc _ rfl, h2]; exact b.cCreate
  · rw [hc _ rfl, h2]; exact b.cStep
  · rw [hc _ rfl, h2]; exact b.cResume
  · rw [hc _ rfl, h2]; exact b.cNotify
  · intro hp k hk
    rw [h2] at hp
    have hcc := b.cCreate
    rw [if_pos hp] at hcc
    rw [hq, after_append_mem (mem_of_count hcc)] at hk
    rcases List.mem_append.mp hk with hk | hk
    · exact b.queued hp k hk
    · cases hl _ hk
  · intro hp hp' k
    rw [h2] at hp hp'
    rw [hmem _ rfl]
    exact b.nocreate hp hp' k
  · intro rest hp
    rw [h2] at hp
    obtain ⟨g1, g2, g3, g4⟩ := b.gathering rest hp
    refine ⟨g1, ?_, g3, ?_⟩
    · intro k hk; rw [h6]; exact ⟨(g2 k hk).1, hu k (g2 k hk).2⟩
    · intro k hk hf
      rw [hac] at hk; rw [h6] at hf
      rcases g4 k hk hf with h | h
      · exact Or.inl h
      · exact Or.inr (hmem' _ h)
  · intro hp k hk hf
    rw [h2] at hp; rw [hac] at hk; rw [h6] at hf
    have hcc := b.cResume
    rw [if_pos hp] at hcc
    rw [hq]
    exact before_plain (mem_of_count hcc) (b.resumed hp k hk hf)
  · intro hp k hk hf
    rw [h2] at hp; rw [hac] at hk; rw [h6] at hf
    have hcc := b.cNotify
    rw [if_pos hp] at hcc
    rw [hq]
    exact before_plain (mem_of_count hcc) (b.finishing hp k hk hf)
  · intro hp k hk
    rw [h2] at hp; rw [hac] at hk; rw [h6]
    exact b.finished hp k hk
  · intro hp
    rw [h2] at hp
    rw [h3, h4, h5, hmem _ rfl]; exact b.callerOut hp
  · intro hp
    rw [h3] at hp
    rw [h2, h4, h5, hmem _ rfl]; exact b.callerWait hp
  · intro hp
    rw [h3] at hp
    rw [h2, h4, h5, hmem _ rfl]; exact b.callerJoin hp
  · intro hp
    rw [h3] at hp
    rw [h5]; exact b.callerBack hp
  · intro hp; rw [h5] at hp; exact hb hp
  · intro hp; rw [h3]; exact b.down (hdown hp)
  · exact hs

/-- A callback of a coroutine other than its last leaves the queue. -/
theorem invB_pop {s : State} {h : Handle} {r : List Handle} (b : InvB s)
    (hb : s.batch = h :: r) (hh : ∃ k, h = .create k ∨ h = .step k) :
    InvB { s with batch := r } := by
  have hq : s.q = h :: (r ++ s.ready) := by simp [State.q, hb]
  have hne : ∀ x : Handle, (∀ k, x ≠ .create k) → (∀ k, x ≠ .step k) → h ≠ x := by
    intro x h1 h2 e
    obtain ⟨k, e' | e'⟩ := hh
    · exact h1 k (e ▸ e')
    · exact h2 k (e ▸ e')
  have hc : ∀ x : Handle, (∀ k, x ≠ .create k) → (∀ k, x ≠ .step k) →
      (r ++ s.ready).count x = s.q.count x := by
    intro x h1 h2
    rw [hq, List.count_cons]
    simp [hne x h1 h2]
  have hmem : ∀ x : Handle, (∀ k, x ≠ .create k) → (∀ k, x ≠ .step k) →
      (x ∈ r ++ s.ready ↔ x ∈ s.q) := by
    intro x h1 h2
    rw [← List.count_pos_iff, ← List.count_pos_iff, hc x h1 h2]
  have hsub : ∀ x, x ∈ r ++ s.ready → x ∈ s.q := by
    intro x hx; rw [hq]; exact List.mem_cons_of_mem _ hx
  have hbef : ∀ x y : Handle, (∀ k, x ≠ .create k) → (∀ k, x ≠ .step k) →
      y ∈ before x s.q → y = h ∨ y ∈ before x (r ++ s.ready) := by
    intro x y h1 h2 hy
    rw [hq] at hy
    simp only [before, hne x h1 h2, if_false, List.mem_cons] at hy
    exact hy
  have n1 : ∀ k j, Handle.notify k ≠ .create j := fun _ _ e => by cases e
  have n2 : ∀ k j, Handle.notify k ≠ .step j := fun _ _ e => by cases e
  have hnb : ∀ x k, (∀ k, x ≠ .create k) → (∀ k, x ≠ .step k) →
      Handle.notify k ∈ before x s.q → Handle.notify k ∈ before x (r ++ s.ready) := by
    intro x k h1 h2 hy
    rcases hbef x _ h1 h2 hy with e | e
    · exact absurd e.symm (hne _ (n1 k) (n2 k))
    · exact e
  constructor
  · exact b.closed
  · exact b.idle
  · simp only [State.q]; rw [hc _ (by nofun) (by nofun)]; exact b.cCreate
  · simp only [State.q]; rw [hc _ (by nofun) (by nofun)]; exact b.cStep
  · simp only [State.q]; rw [hc _ (by nofun) (by nofun)]; exact b.cResume
  · simp only [State.q]; rw [hc _ (by nofun) (by nofun)]; exact b.cNotify
  · intro hp k hk
    have := b.queued hp k
    rw [hq] at this
    simp only [after, hne _ (fun k (e : Handle.createShutdown = .create k) => by cases e)
      (fun k (e : Handle.createShutdown = .step k) => by cases e), if_false] at this
    exact this hk
  · intro hp hp' k hk
    exact b.nocreate hp hp' k (hsub _ hk)
  · intro rest hp
    obtain ⟨g1, g2, g3, g4⟩ := b.gathering rest hp
    refine ⟨g1, g2, g3, ?_⟩
    intro k hk hf
    rcases g4 k hk hf with h | h
    · exact Or.inl h
    · exact Or.inr ((hmem _ (n1 k) (n2 k)).mpr h)
  · intro hp k hk hf
    exact hnb _ k (by nofun) (by nofun) (b.resumed hp k hk hf)
  · intro hp k hk hf
    exact hnb _ k (by nofun) (by nofun) (b.finishing hp k hk hf)
  · exact b.finished
  · intro hp
    have := b.callerOut hp
    simp only [State.q]; rw [hmem _ (by nofun) (by nofun)]; exact this
  · intro hp
    have := b.callerWait hp
    simp only [State.q]; rw [hmem _ (by nofun) (by nofun)]; exact this
  · intro hp
    have := b.callerJoin hp
    simp only [State.q]; rw [hmem _ (by nofun) (by nofun)]; exact this
  · exact b.callerBack
  · intro hp
    have := b.exited hp
    rw [hb] at this; cases this
  · exact b.down
  · exact b.sound

theorem down_plain {l obs : List Obs} (h : Obs.returned ∉ obs) :
    Down (l ++ obs) → Down l := by
  rintro ⟨p, q, e, hp⟩
  rcases List.append_eq_append_iff.mp e with ⟨m, h1, h2⟩ | ⟨m, h1, h2⟩
  · have : Obs.returned ∈ obs := by rw [h2]; simp
    exact absurd this h
  · cases m with
    | nil =>
      have : Obs.returned ∈ obs := by
        have h2' : Obs.returned :: q = obs := by simpa using h2
        rw [← h2']; simp
      exact absurd this h
    | cons x m =>
      have : x = .returned := by
        have := congrArg List.head? h2
        simpa using this.symm
      subst this
      exact ⟨p, m, h1, hp⟩

theorem submit_inv {s : State} {k : Nat} (h : Inv s) (hk : k ∉ s.used) :
    Inv (submit s k) := by
  obtain ⟨a, b⟩ := h
  unfold submit
  split
  next hc =>
    refine ⟨⟨a.tok, a.live, ?_, ?_, ?_, a.futres, ?_⟩, ?_⟩
    · intro j; simpa [State.q] using a.ended j
    · intro j o; simpa using a.result j o
    · intro j o; simpa using a.future j o
    · intro j; simpa using a.accepted j
    · exact invB_mono (l := []) (obs := [.refused k]) b rfl rfl rfl rfl rfl rfl
        (by simp [State.q]) (by simp) b.exited (fun _ h => h) rfl (by simp)
        (by simp [asks]) (down_plain (by simp)) (sound_snoc b.sound (b.closed.mp hc))
  next hc =>
    have hcf : s.closed = false := by simpa using hc
    have hi := b.idle.mpr hcf
    have hasks : asks s.log = [] := by
      have := b.closed
      rw [hcf] at this
      simpa using this
    have hna : Obs.accepted k ∉ s.log := fun h => hk (a.accepted k h)
    refine ⟨⟨?_, ?_, ?_, ?_, ?_, a.futres, ?_⟩, ?_⟩
    · intro j
      have := a.tok j
      simp only [Runner.tok, State.q] at *
      by_cases e : j = k
      · subst e
        cases hf : s.future j <;> simp [List.count_append, hk, hf] at * <;> omega
      · have e' : k ≠ j := fun h => e h.symm
        simp [List.count_append, e, e'] at *
        omega
    · intro j; have := a.live j
      simp [State.q, List.count_append] at *
      omega
    · intro j; have := a.ended j; simpa [State.q] using this
    · intro j o; simpa using a.result j o
    · intro j o; simpa using a.future j o
    · intro j; have := a.accepted j
      simp
      grind
    · have ha : asks (s.log ++ [.accepted k]) = asks s.log := by simp [asks]
      have c1 := b.cCreate
      have c2 := b.cStep
      have c3 := b.cResume
      have c4 := b.cNotify
      have c5 := b.callerOut hi
      constructor
      · rw [ha]; exact b.closed
      · exact b.idle
      · simpa [State.q, List.count_append, List.count_cons, hi] using c1
      · simpa [State.q, List.count_append, List.count_cons, hi] using c2
      · simpa [State.q, List.count_append, List.count_cons, hi] using c3
      · simpa [State.q, List.count_append, List.count_cons, hi] using c4
      · simp [hi]
      · simp [hi]
      · simp [hi]
      · simp [hi]
      · simp [hi]
      · simp [hi]
      · intro _; simpa [State.q, and_assoc] using c5
      · simp [c5]
      · simp [c5]
      · simp [c5]
      · simp [c5]
      · exact fun h => b.down (down_plain (by simp) h)
      · exact sound_snoc b.sound ⟨hasks, hna⟩

theorem shutdown_inv {s : State} {w c : Bool} (h : Inv s) : Inv (shutdown s w c) := by
  obtain ⟨a, b⟩ := h
  have hA : ∀ {obs : List Obs} {l : List Handle} {s' : State}, s'.batch = s.batch →
      s'.ready = s.ready ++ l → s'.live = s.live → s'.waiting = s.waiting →
      s'.result = s.result → s'.future = s.future → s'.used = s.used →
      s'.log = s.log ++ obs →
      (∀ x ∈ l, x = .createShutdown ∨ x = .stop) →
      (∀ x ∈ obs, x = .returned ∨ ∃ w c, x = .asked w c) → InvA s' := by
    intro obs l s' e1 e2 e3 e4 e5 e6 e7 e8 hl ho
    have hq : s'.q = s.q ++ l := by simp [State.q, e1, e2]
    have hc : ∀ x : Handle, x ≠ .createShutdown → x ≠ .stop →
        s'.q.count x = s.q.count x := by
      intro x h1 h2
      rw [hq, List.count_append, (List.count_eq_zero (l := l) (a := x)).mpr]
      · rfl
      · intro hm; rcases hl x hm with h | h
        · exact h1 h
        · exact h2 h
    have ho' : ∀ x : Obs, x ≠ .returned → (∀ w c, x ≠ .asked w c) →
        (x ∈ s'.log ↔ x ∈ s.log) := by
      intro x h1 h2
      rw [e8, List.mem_append]
      refine ⟨fun h => ?_, Or.inl⟩
      rcases h with h | h
      · exact h
      · rcases ho x h with h | ⟨w, c, h⟩
        · exact absurd h h1
        · exact absurd h (h2 w c)
    constructor
    · intro k; have := a.tok k
      simp only [Runner.tok, e4, e6, e7] at *
      rw [hc _ (by nofun) (by nofun), hc _ (by nofun) (by nofun),
        hc _ (by nofun) (by nofun)]
      exact this
    · intro k; rw [e3, e4, hc _ (by nofun) (by nofun)]; exact a.live k
    · intro k
      rw [← List.count_pos_iff, hc _ (by nofun) (by nofun), List.count_pos_iff, e6]
      rw [a.ended k]
      constructor
      · rintro ⟨o, h⟩; exact ⟨o, (ho' _ (by nofun) (by nofun)).mpr h⟩
      · rintro ⟨o, h⟩; exact ⟨o, (ho' _ (by nofun) (by nofun)).mp h⟩
    · intro k o h; rw [e5]; exact a.result k o ((ho' _ (by nofun) (by nofun)).mp h)
    · intro k o; rw [e6, ho' _ (by nofun) (by nofun)]; exact a.future k o
    · intro k o; rw [e5, e6]; exact a.futres k o
    · intro k h; rw [e7]; exact a.accepted k ((ho' _ (by nofun) (by nofun)).mp h)
  unfold shutdown
  split
  next hc =>
    refine ⟨hA (l := []) rfl (by simp) rfl rfl rfl rfl rfl rfl (by simp)
      (by intro x hx; simp at hx; grind), ?_⟩
    have hne : asks s.log ≠ [] := b.closed.mp hc
    have hs : Sound (s.log ++ [.asked w c, .returned]) := by
      have h1 : Sound (s.log ++ [.asked w c]) := sound_snoc b.sound trivial
      have h2 := sound_snoc (x := .returned) h1 (by
        intro h
        rw [asks_append] at h
        cases ha : asks s.log with
        | nil => exact absurd ha hne
        | cons x l => rw [ha] at h; simp [asks] at h)
      simpa using h2
    have hd : Down (s.log ++ [.asked w c, .returned]) → Down s.log := by
      intro h
      have h' : Down ((s.log ++ [.asked w c]) ++ [.returned]) := by simpa using h
      rcases down_snoc h' with h | ⟨_, h⟩
      · exact down_plain (by simp) h
      · rw [asks_append] at h
        cases ha : asks s.log with
        | nil => exact absurd ha hne
        | cons x l => rw [ha] at h; simp [asks] at h
    constructor
    · simp [asks_append, hne, hc]
    · exact b.idle
    · exact b.cCreate
    · exact b.cStep
    · exact b.cResume
    · exact b.cNotify
    · exact b.queued
    · exact b.nocreate
    · simpa [State.q] using b.gathering
    · simpa [State.q] using b.resumed
    · simpa [State.q] using b.finishing
    · simpa using b.finished
    · exact b.callerOut
    · exact b.callerWait
    · exact b.callerJoin
    · exact b.callerBack
    · exact b.exited
    · exact fun h => b.down (hd h)
    · exact hs
  next hc =>
    have hcf : s.closed = false := by simpa using hc
    have hi := b.idle.mpr hcf
    have hasks : asks s.log = [] := by
      have := b.closed
      rw [hcf] at this
      simpa using this
    have c1 := b.cCreate
    have c2 := b.cStep
    have c3 := b.cResume
    have c4 := b.cNotify
    have c5 := b.callerOut hi
    have hnd : ¬ Down s.log := fun h => by
      have := b.down h
      rw [c5.1] at this; cases this
    have hncs : Handle.createShutdown ∉ s.q := by
      rw [← List.count_eq_zero, c1, hi]; rfl
    have haft : ∀ r, after .createShutdown (s.q ++ .createShutdown :: r) = r := by
      intro r
      generalize s.q = q at hncs
      induction q with
      | nil => simp [after]
      | cons x q ih =>
        have e : x ≠ .createShutdown := fun e => hncs (e ▸ List.mem_cons_self)
        have e' : .createShutdown ∉ q := fun e' => hncs (List.mem_cons_of_mem _ e')
        simp [after, e, ih e']
    split
    next hw =>
      subst hw
      refine ⟨hA (l := [.createShutdown]) rfl rfl rfl rfl rfl rfl rfl rfl (by simp)
        (by simp), ?_⟩
      constructor
      · simp [asks]
      · simp
      · simp [State.q, List.count_append, hi] at c1 ⊢; omega
      · simpa [State.q, List.count_append, List.count_cons, hi] using c2
      · simpa [State.q, List.count_append, List.count_cons, hi] using c3
      · simpa [State.q, List.count_append, List.count_cons, hi] using c4
      · intro _ k
        have := haft []
        simp only [State.q, List.append_assoc] at this ⊢
        rw [this]; simp
      · simp
      · simp
      · simp
      · simp
      · simp
      · simp
      · intro _
        have h1 := c5.2.2.1
        simp only [State.q] at h1 ⊢
        simp [c5] at h1 ⊢
        exact h1
      · simp
      · simp
      · simp [c5]
      · exact fun h => absurd (down_plain (by simp) h) hnd
      · exact sound_snoc b.sound trivial
    next hw =>
      have hw' : w = false := by simpa using hw
      subst hw'
      refine ⟨hA (l := [.createShutdown, .stop]) rfl rfl rfl rfl rfl rfl rfl rfl (by simp)
        (by simp), ?_⟩
      constructor
      · simp [asks]
      · simp
      · simp [State.q, List.count_append, hi] at c1 ⊢; omega
      · simpa [State.q, List.count_append, List.count_cons, hi] using c2
      · simpa [State.q, List.count_append, List.count_cons, hi] using c3
      · simpa [State.q, List.count_append, List.count_cons, hi] using c4
      · intro _ k
        have := haft [.stop]
        simp only [State.q, List.append_assoc] at this ⊢
        rw [this]; simp
      · simp
      · simp
      · simp
      · simp
      · simp
      · simp
      · simp [c5]
      · simp [c5]
      · simp [c5]
      · simp [c5]
      · intro h
        have h' : Down ((s.log ++ [.asked false c]) ++ [.returned]) := by simpa using h
        rcases down_snoc h' with h | ⟨_, h⟩
        · exact absurd (down_plain (by simp) h) hnd
        · rw [asks_append, hasks] at h; simp [asks] at h
      · have h1 : Sound (s.log ++ [.asked false c]) := sound_snoc b.sound trivial
        have h2 := sound_snoc (x := .returned) h1 (by
          intro h
          rw [asks_append, hasks] at h; simp [asks] at h)
        simpa using h2

end Verif.Runner
