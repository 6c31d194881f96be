import Verif.SavePolicy.Model

/-!
# Property C08: save decision policies
-/

namespace Verif.SavePolicy.Props

open Verif.SavePolicy
open Verif.Policies (Ckpt)

/-- **C08** `FixedIntervalPolicy(i)` saves exactly at the multiples of `i`; `i = 0` raises. -/
theorem C08_fixedInterval (i : Int) (c : Ckpt) (prev : List Ckpt) (ctx : Ctx) :
    (i ≠ 0 → (shouldSave c prev ctx (.fixedInterval i) = .ok true ↔ ∃ k, c.step = i * k) ∧
      (shouldSave c prev ctx (.fixedInterval i) = .ok false ↔ ¬ ∃ k, c.step = i * k)) ∧
    (i = 0 → shouldSave c prev ctx (.fixedInterval i) = .error .zeroDivision) := by
  refine ⟨fun h => ?_, fun h => by simp [shouldSave, h]⟩
  simp only [shouldSave, h, if_false, Except.ok.injEq, decide_eq_true_eq, decide_eq_false_iff_not]
  have key : c.step % i = 0 ↔ ∃ k, c.step = i * k :=
    ⟨fun h => Int.dvd_of_emod_eq_zero h, fun h => Int.emod_eq_zero_of_dvd h⟩
  exact ⟨key, not_congr key⟩

/-- **C08** `SpecificStepsPolicy` saves exactly at the listed steps. -/
theorem C08_specificSteps (s : List Int) (c : Ckpt) (prev : List Ckpt) (ctx : Ctx) :
    shouldSave c prev ctx (.specificSteps s) = .ok (decide (c.step ∈ s)) := by
  simp [shouldSave]

/-- **C08** `InitialSavePolicy` saves exactly when there is no previous checkpoint. -/
theorem C08_initialSave (c : Ckpt) (prev : List Ckpt) (ctx : Ctx) :
    shouldSave c prev ctx .initialSave = .ok (decide (prev = [])) := by
  cases prev <;> simp [shouldSave]

/-- **C08** `PreemptionCheckpointingPolicy` saves exactly when preemption is signalled. -/
theorem C08_preemption (c : Ckpt) (prev : List Ckpt) (ctx : Ctx) :
    shouldSave c prev ctx .preemption = .ok ctx.preempted := by
  simp [shouldSave]

/-- **C08** `AnySavePolicy` saves iff some child does (children that do not raise). -/
theorem C08_any (ps : List Policy) (c : Ckpt) (prev : List Ckpt) (ctx : Ctx)
    (hok : ∀ p ∈ ps, ∃ b, shouldSave c prev ctx p = .ok b) :
    (shouldSave c prev ctx (.any ps) = .ok true ↔ ∃ p ∈ ps, shouldSave c prev ctx p = .ok true) ∧
    (shouldSave c prev ctx (.any ps) = .ok false ↔ ∀ p ∈ ps, shouldSave c prev ctx p = .ok false) := by
  simp only [shouldSave]
  induction ps with
  | nil => simp [anyShouldSave]
  | cons p ps ih =>
    obtain ⟨b, hb⟩ := hok p (by simp)
    have ih := ih (fun q hq => hok q (by simp [hq]))
    cases b <;> simp [anyShouldSave, hb, ih]

/-- **C08** the complete behaviour of `AnySavePolicy` with raising children: it evaluates the
children in order; it answers `true` iff a child answers `true` and none before it raises or
answers `true`, and raises iff a child raises with all before it answering `false`. -/
theorem C08_any_order (ps : List Policy) (c : Ckpt) (prev : List Ckpt) (ctx : Ctx)
    (r : Except Err Bool) (hr : r ≠ .ok false) :
    shouldSave c prev ctx (.any ps) = r ↔
      ∃ pre p post, ps = pre ++ p :: post ∧ shouldSave c prev ctx p = r ∧
        ∀ q ∈ pre, shouldSave c prev ctx q = .ok false := by
  simp only [shouldSave]
  induction ps with
  | nil =>
    simp only [anyShouldSave]
    constructor
    · intro h; exact absurd h.symm hr
    · rintro ⟨pre, p, post, h, _⟩; simp at h
  | cons p ps ih =>
    simp only [anyShouldSave]
    constructor
    · intro h
      cases hp : shouldSave c prev ctx p with
      | error e => rw [hp] at h; simp at h; exact ⟨[], p, ps, rfl, by rw [hp, h], by simp⟩
      | ok b =>
        rw [hp] at h
        cases b with
        | true => simp at h; exact ⟨[], p, ps, rfl, by rw [hp, h], by simp⟩
        | false =>
          simp only at h
          obtain ⟨pre, q, post, he, hq, hpre⟩ := ih.mp h
          refine ⟨p :: pre, q, post, by simp [he], hq, ?_⟩
          intro x hx
          rcases List.mem_cons.mp hx with rfl | hx
          · exact hp
          · exact hpre x hx
    · rintro ⟨pre, q, post, he, hq, hpre⟩
      cases pre with
      | nil =>
        simp at he
        obtain ⟨rfl, rfl⟩ := he
        rw [hq]
        cases r with
        | error e => rfl
        | ok b => cases b with
          | true => rfl
          | false => exact absurd rfl hr
      | cons x pre =>
        simp at he
        obtain ⟨rfl, rfl⟩ := he
        rw [hpre p (by simp)]
        exact ih.mpr ⟨pre, q, post, rfl, hq, fun y hy => hpre y (by simp [hy])⟩

/-- **C08** `ContinuousCheckpointingPolicy` saves iff no save is in progress and either there is no
previous checkpoint, or no minimum interval, or the newest is at least the interval old. -/
theorem C08_continuous (m : Option Int) (c : Ckpt) (prev : List Ckpt) (ctx : Ctx) :
    shouldSave c prev ctx (.continuous m) = .ok true ↔
      ctx.inProgress = false ∧
      ∀ p k, prev.getLast? = some p → m = some k → c.time - p.time ≥ k := by
  simp only [shouldSave, continuousResult]
  cases ctx.inProgress
  · cases h1 : prev.getLast? <;> cases h2 : m <;> simp
  · simp

/-- Consecutive checkpoints are at least `k` apart. -/
def Spaced (k : Int) (cs : List Ckpt) : Prop :=
  ∀ i (a b : Ckpt), cs[i]? = some a → cs[i+1]? = some b → b.time - a.time ≥ k

/-- **C08** whole histories: for every sequence of attempts made under
`ContinuousCheckpointingPolicy(k)`, with every accepted attempt recorded, the checkpoints present at
the end extend the initial ones, and from the last initial one on any two consecutive ones are at
least `k` apart; no attempt made while a save was in progress is recorded. -/
theorem C08_continuous_spacing (k : Int) (prev : List Ckpt) (atts : List (Ckpt × Ctx))
    (hprev : Spaced k prev) :
    ∃ res, runAttempts (.continuous (some k)) prev atts = .ok (prev ++ res) ∧ Spaced k (prev ++ res) ∧
      res.Sublist ((atts.filter (fun a => !a.2.inProgress)).map (·.1)) := by
  induction atts generalizing prev with
  | nil => exact ⟨[], by simp [runAttempts], by simpa using hprev, by simp⟩
  | cons a rest ih =>
    obtain ⟨c, ctx⟩ := a
    simp only [runAttempts]
    cases h : continuousResult (some k) c prev ctx with
    | false =>
      simp only [shouldSave, h]
      obtain ⟨res, h1, h2, h3⟩ := ih prev hprev
      refine ⟨res, h1, h2, ?_⟩
      simp only [List.filter_cons]
      split
      · simp only [List.map_cons]; exact h3.cons _
      · exact h3
    | true =>
      simp only [shouldSave, h]
      have hc : ctx.inProgress = false ∧ ∀ p, prev.getLast? = some p → c.time - p.time ≥ k := by
        have := (C08_continuous (some k) c prev ctx).mp (by simp [shouldSave, h])
        exact ⟨this.1, fun p hp => this.2 p k hp rfl⟩
      have hsp : Spaced k (prev ++ [c]) := by
        intro i x y hx hy
        by_cases hi : i + 1 < prev.length
        · rw [List.getElem?_append_left (by omega)] at hx hy
          exact hprev i x y hx hy
        · by_cases hi2 : i + 1 = prev.length
          · rw [List.getElem?_append_left (by omega)] at hx
            rw [List.getElem?_append_right (by omega)] at hy
            have : i + 1 - prev.length = 0 := by omega
            rw [this] at hy
            simp at hy; subst hy
            refine hc.2 x ?_
            rw [List.getLast?_eq_getElem?]
            have : prev.length - 1 = i := by omega
            rw [this]; exact hx
          · rw [List.getElem?_eq_none (by simp; omega)] at hy; simp at hy
      obtain ⟨res, h1, h2, h3⟩ := ih (prev ++ [c]) hsp
      refine ⟨c :: res, by simpa using h1, by simpa using h2, ?_⟩
      simp only [List.filter_cons, hc.1, Bool.not_false, if_true, List.map_cons]
      exact h3.cons_cons _

/-- Non-vacuity: attempts every 4 ticks with minimum interval 10 and a save in progress at 24:
accepted at 0, 12, 28. -/
example : runAttempts (.continuous (some 10)) []
    [(⟨0,0,none⟩,⟨false,false⟩), (⟨1,4,none⟩,⟨false,false⟩), (⟨2,8,none⟩,⟨false,false⟩),
     (⟨3,12,none⟩,⟨false,false⟩), (⟨4,24,none⟩,⟨true,false⟩), (⟨5,28,none⟩,⟨false,false⟩)]
    = .ok [⟨0,0,none⟩, ⟨3,12,none⟩, ⟨5,28,none⟩] := by rfl

/-- **C08** the default policy built from `CheckpointManagerOptions` (no `should_save_fn`, positive
interval): save iff the step is a multiple of `save_interval_steps`, or listed in `save_on_steps`,
or preempted, or nothing has been saved yet. -/
theorem C08_default (i : Int) (hi : i ≠ 0) (s : List Int) (c : Ckpt) (prev : List Ckpt) (ctx : Ctx) :
    shouldSave c prev ctx (defaultPolicy ⟨none, some i, s⟩) =
      .ok (decide (i ∣ c.step ∨ c.step ∈ s ∨ ctx.preempted = true ∨ prev = [])) := by
  have key : c.step % i = 0 ↔ i ∣ c.step :=
    ⟨fun h => Int.dvd_of_emod_eq_zero h, fun h => Int.emod_eq_zero_of_dvd h⟩
  simp only [defaultPolicy, shouldSave, List.cons_append, List.nil_append, anyShouldSave, hi, if_false]
  by_cases h1 : c.step % i = 0
  · have := key.mp h1; simp [h1, this]
  · have hk := (not_congr key).mp h1
    simp only [h1, decide_false, List.contains_eq_mem]
    by_cases h2 : c.step ∈ s
    · simp [h2]
    · cases h3 : ctx.preempted <;> cases h4 : prev <;> simp [h2, hk]

/-- Finding (C08/C15): a read-only manager sets `save_interval_steps=0`
(checkpoint_manager.py:451-456); the default policy then raises `ZeroDivisionError` if it is ever
consulted (it is not, because `should_save` returns earlier for read-only managers). -/
theorem C08_default_zero_interval_raises (s : List Int) (c : Ckpt) (prev : List Ckpt) (ctx : Ctx) :
    shouldSave c prev ctx (defaultPolicy ⟨none, some 0, s⟩) = .error .zeroDivision := by
  simp [defaultPolicy, shouldSave, anyShouldSave]

/-- Invariant of the broadcast. -/
theorem bcast_inv (primary : Nat) (loc : Nat → Bool) (n : Nat) (sched : List Nat) :
    let s := sched.foldl (bcastStep primary loc) (bcastInit n)
    (∀ v, s.cell = some v → v = loc primary) ∧
    (∀ (h : Nat) (hs : HostSt), s.hosts[h]? = some hs → ∀ v, hs.result = some v → v = loc primary) := by
  suffices H : ∀ s : BcastSt, ((∀ v, s.cell = some v → v = loc primary) ∧
      (∀ (h : Nat) (hs : HostSt), s.hosts[h]? = some hs → ∀ v, hs.result = some v → v = loc primary)) →
      let s' := sched.foldl (bcastStep primary loc) s
      (∀ v, s'.cell = some v → v = loc primary) ∧
      (∀ (h : Nat) (hs : HostSt), s'.hosts[h]? = some hs → ∀ v, hs.result = some v → v = loc primary) by
    apply H
    constructor
    · simp [bcastInit]
    · intro h hs hh v hv
      simp [bcastInit, List.getElem?_replicate] at hh
      rw [← hh.2] at hv; simp at hv
  induction sched with
  | nil => intro s hs; simpa using hs
  | cons h sched ih =>
    intro s ⟨hc, hh⟩
    simp only [List.foldl_cons]
    apply ih
    unfold bcastStep
    split
    · exact ⟨hc, hh⟩
    · rename_i hs hhs
      split
      · split
        · rename_i heq; subst heq
          refine ⟨by simp, ?_⟩
          intro k ks hk v hv
          rw [List.getElem?_set] at hk
          split at hk
          · split at hk
            · simp at hk; subst hk; simp at hv
            · simp at hk
          · exact hh k ks hk v hv
        · refine ⟨hc, ?_⟩
          intro k ks hk v hv
          simp only at hk
          rw [List.getElem?_set] at hk
          split at hk
          · split at hk
            · simp at hk; subst hk; simp at hv
            · simp at hk
          · exact hh k ks hk v hv
      · split
        · exact ⟨hc, hh⟩
        · rename_i w hw
          refine ⟨hc, ?_⟩
          intro k ks hk v hv
          simp only at hk
          rw [List.getElem?_set] at hk
          split at hk
          · split at hk
            · simp at hk; subst hk; simp at hv; subst hv; exact hc _ hw
            · simp at hk
          · exact hh k ks hk v hv
      · exact ⟨hc, hh⟩

/-- **C08** multi-host agreement: under every schedule of the processes, every process that obtains
a decision from `ContinuousCheckpointingPolicy` obtains the one the primary host computed from its
own clock and state; hence no two processes disagree about saving. -/
theorem C08_continuous_hosts_agree (primary : Nat) (localDecision : Nat → Bool) (n : Nat)
    (sched : List Nat) (h : Nat) (hs : HostSt) (v : Bool)
    (hh : (sched.foldl (bcastStep primary localDecision) (bcastInit n)).hosts[h]? = some hs)
    (hv : hs.result = some v) : v = localDecision primary :=
  (bcast_inv primary localDecision n sched).2 h hs hh v hv

/-- Non-vacuity: host 1 tries to read first, the primary 0 writes, then both read; the local opinion
of host 1 differs and is overruled. -/
example : ([1, 1, 0, 1, 0].foldl (bcastStep 0 (fun h => h == 0)) (bcastInit 2)).hosts
    = [⟨2, some true⟩, ⟨2, some true⟩] := by decide

end Verif.SavePolicy.Props
