/-
Invariants of the model of `BackgroundThreadRunner`.
-/
import Verif.Async.Response

namespace Verif.Response

open Verif.Runner (Outcome)

/-- How often the callback `c` was called. -/
def calls (c : Nat) (l : List Obs) : Nat :=
  (l.filter fun | .called d _ => d == c | _ => false).length

/-- How often the callback `c` was registered. -/
def regs (c : Nat) (l : List Obs) : Nat := l.count (.registered c)

theorem calls_append (c : Nat) (l r : List Obs) :
    calls c (l ++ r) = calls c l + calls c r := by simp [calls]

theorem regs_append (c : Nat) (l r : List Obs) :
    regs c (l ++ r) = regs c l + regs c r := by simp [regs, List.count_append]

/-- What an entry of the log says about the entries before it. -/
def Ok (pre : List Obs) : Obs → Prop
  | .finished _ => ∀ o, Obs.finished o ∉ pre
  | .returned _ v => .finished (.value v) ∈ pre
  | .raised _ (.operation e) => .finished (.error e) ∈ pre
  | .raised _ .cancelled => .finished .cancelled ∈ pre
  | .raised _ .timeout => ∀ o, Obs.finished o ∉ pre
  | .raised _ .attribute => ∃ v, .finished (.value v) ∈ pre
  | .called c v => .finished (.value v) ∈ pre ∧ calls c pre < regs c pre
  | .began _ | .registered _ => True

def Sound (l : List Obs) : Prop := ∀ pre x post, l = pre ++ x :: post → Ok pre x

theorem sound_nil : Sound [] := by
  intro pre x post h
  cases pre <;> cases h

theorem sound_snoc {l : List Obs} {x : Obs} (hl : Sound l) (hx : Ok l x) :
    Sound (l ++ [x]) := by
  intro pre y post h
  rcases List.eq_nil_or_concat post with hp | ⟨post', z, hp⟩
  · subst hp
    have := List.append_inj' h rfl
    cases this.1
    cases this.2
    exact hx
  · subst hp
    have h' : l ++ [x] = (pre ++ y :: post') ++ [z] := by
      rw [h]; simp
    have := List.append_inj' h' rfl
    exact hl pre y post' this.1

/-- How many entries of a list of callbacks are for `c`. -/
def cnt (c : Nat) (l : List (Nat × Bool)) : Nat := (l.map (·.1)).count c

theorem cnt_append (c : Nat) (l r : List (Nat × Bool)) : cnt c (l ++ r) = cnt c l + cnt c r := by
  simp [cnt, List.count_append]

/-- The value a thread carries. -/
def Pc.val : Pc → Option Nat
  | .test v | .call v | .inside v | .clear v => some v
  | _ => none

structure Inv (s : State) : Prop where
  fin : ∀ o, s.future = some o ↔ Obs.finished o ∈ s.log
  val : ∀ i v, (s.pc i).val = some v → s.future = some (.value v)
  bad : (∀ v, s.future ≠ some (.value v)) →
    s.closed = false ∧ s.runner = true ∧ s.stuck = false ∧ s.down = false
  early : s.future = none → s.queue = []
  late : s.future ≠ none → s.callbacks = []
  le : ∀ c, calls c s.log + cnt c s.callbacks + cnt c s.queue ≤ regs c s.log
  eq : (s.future = none ∨ ∃ v, s.future = some (.value v)) → ∀ c,
    calls c s.log + cnt c s.callbacks + cnt c s.queue = regs c s.log
  sound : Sound s.log

theorem inv_new : Inv State.new := by
  constructor <;> simp [State.new, Pc.val, calls, regs, cnt, sound_nil]

/-- Only threads, flags and calls of `result` changed. -/
theorem inv_of {s s' : State} {x : List Obs} (h : Inv s)
    (h1 : s'.future = s.future) (h2 : s'.callbacks = s.callbacks)
    (h3 : s'.queue = s.queue) (h4 : s'.log = s.log ++ x)
    (hx : ∀ y ∈ x, (∃ i, y = .began i) ∨ (∃ i v, y = .returned i v) ∨
      ∃ i e, y = .raised i e)
    (hv : ∀ i v, (s'.pc i).val = some v → s.future = some (.value v))
    (hb : (∀ v, s.future ≠ some (.value v)) →
      s'.closed = false ∧ s'.runner = true ∧ s'.stuck = false ∧ s'.down = false)
    (hs : Sound s'.log) : Inv s' := by
  have hc : ∀ c, calls c s'.log = calls c s.log := by
    intro c
    rw [h4, calls_append]
    have : calls c x = 0 := by
      simp only [calls, List.length_eq_zero_iff, List.filter_eq_nil_iff]
      intro y hy
      rcases hx y hy with ⟨i, e⟩ | ⟨i, v, e⟩ | ⟨i, v, e⟩ <;> (subst e; simp)
    omega
  have hr : ∀ c, regs c s'.log = regs c s.log := by
    intro c
    rw [h4, regs_append]
    have : regs c x = 0 := by
      simp only [regs, List.count_eq_zero]
      intro hy
      rcases hx _ hy with ⟨i, e⟩ | ⟨i, v, e⟩ | ⟨i, v, e⟩ <;> cases e
    omega
  constructor
  · intro o
    rw [h1, h4, h.fin o, List.mem_append]
    refine ⟨Or.inl, fun h => ?_⟩
    rcases h with h | h
    · exact h
    · rcases hx _ h with ⟨i, e⟩ | ⟨i, v, e⟩ | ⟨i, v, e⟩ <;> cases e
  · intro i v hi; rw [h1]; exact hv i v hi
  · intro hn; rw [h1] at hn; exact hb hn
  · intro hn; rw [h1] at hn; rw [h3]; exact h.early hn
  · intro hn; rw [h1] at hn; rw [h2]; exact h.late hn
  · intro c; rw [hc, hr, h2, h3]; exact h.le c
  · intro hn c; rw [h1] at hn; rw [hc, hr, h2, h3]; exact h.eq hn c
  · exact hs

theorem at_val {s : State} {i : Nat} {p : Pc} (h : Inv s)
    (hp : ∀ v, p.val = some v → s.future = some (.value v)) (j v : Nat)
    (hj : ((s.at i p).pc j).val = some v) : s.future = some (.value v) := by
  simp only [State.at] at hj
  split at hj
  · exact hp v hj
  · exact h.val j v hj

theorem step_keeps {s s' : State} {e : Event} (h : Inv s) (hs : step s e = some s') :
    Inv s' := by
  cases e with
  | finish o =>
    simp only [step, finish] at hs
    cases hf : s.future with
    | some o' => simp only [hf] at hs; cases hs
    | none =>
      simp only [hf] at hs
      cases hs
      have hbad := h.bad (by rw [hf]; intro v; simp)
      have hq := h.early hf
      have hnf : ∀ o, Obs.finished o ∉ s.log := by
        intro o ho; rw [(h.fin o).mpr ho] at hf; cases hf
      constructor
      · intro o'
        have := hnf o'
        simp [this, eq_comm]
      · intro i v hv
        have := h.val i v hv
        rw [hf] at this; cases this
      · intro hn; exact hbad
      · intro hn; simp at hn
      · simp
      · intro c
        have := h.le c
        rw [hq] at this
        simp [calls, regs, cnt, List.count_append, List.filter_append] at this ⊢
        exact this
      · intro _ c
        have := h.eq (Or.inl hf) c
        rw [hq] at this
        simp [calls, regs, cnt, List.count_append, List.filter_append] at this ⊢
        exact this
      · exact sound_snoc h.sound hnf
  | callback =>
    simp only [step, callback] at hs
    split at hs
    · cases hs
    next hst =>
      cases hq : s.queue with
      | nil => simp only [hq] at hs; cases hs
      | cons cn rest =>
        obtain ⟨c, n⟩ := cn
        simp only [hq] at hs
        have hcnt : ∀ d, cnt d s.queue = (if c = d then 1 else 0) + cnt d rest := by
          intro d
          rw [hq]
          simp only [cnt, List.map_cons, List.count_cons]
          by_cases e : c = d
          · simp [e]; omega
          · simp [e]
        cases hf : s.future with
        | none => rw [h.early hf] at hq; cases hq
        | some o =>
          have hcb : s.callbacks = [] := h.late (by rw [hf]; simp)
          cases o with
          | value v =>
            simp only [hf] at hs
            have hok : Sound (s.log ++ [.called c v]) := by
              refine sound_snoc h.sound ⟨(h.fin _).mp hf, ?_⟩
              have := h.eq (Or.inr ⟨v, hf⟩) c
              have hh := hcnt c
              simp at hh
              omega
            have key : ∀ (r cl st dn : Bool), Inv { s with
                queue := rest
                log := s.log ++ [.called c v]
                runner := r
                closed := cl
                stuck := st
                down := dn } := by
              intro r cl st dn
              have hcl : ∀ d, calls d (s.log ++ [.called c v])
                  = calls d s.log + (if c = d then 1 else 0) := by
                intro d
                rw [calls_append]
                by_cases e : c = d <;> simp [calls, e]
              have hrg : ∀ d, regs d (s.log ++ [.called c v]) = regs d s.log := by
                intro d; rw [regs_append]; simp [regs]
              constructor
              · intro o'; simpa using h.fin o'
              · exact h.val
              · intro hn; exact absurd hf (hn v)
              · intro hn; simp only at hn; rw [hf] at hn; cases hn
              · intro _; exact hcb
              · intro d
                have := h.le d
                have := hcnt d
                simp only [hcl, hrg]
                omega
              · intro _ d
                have := h.eq (Or.inr ⟨v, hf⟩) d
                have := hcnt d
                simp only [hcl, hrg]
                omega
              · exact hok
            split at hs
            · cases hs; exact hf ▸ key s.runner s.closed s.stuck s.down
            · split at hs
              · cases hs; exact hf ▸ key s.runner s.closed s.stuck s.down
              · split at hs
                · cases hs; exact hf ▸ key false s.closed s.stuck s.down
                · cases hs; exact hf ▸ key s.runner true true s.down
          | error e =>
            simp only [hf] at hs
            cases hs
            constructor
            · intro o'; exact hf ▸ h.fin o'
            · intro i v hv; exact hf ▸ h.val i v hv
            · intro hn; exact h.bad (by rw [hf]; intro v; simp)
            · intro hn; simp only at hn; cases hn
            · intro _; exact hcb
            · intro d
              have := h.le d
              have := hcnt d
              simp only
              omega
            · intro hn
              rcases hn with hn | ⟨v, hn⟩ <;> cases hn
            · exact h.sound
          | cancelled =>
            simp only [hf] at hs
            cases hs
            constructor
            · intro o'; exact hf ▸ h.fin o'
            · intro i v hv; exact hf ▸ h.val i v hv
            · intro hn; exact h.bad (by rw [hf]; intro v; simp)
            · intro hn; simp only at hn; cases hn
            · intro _; exact hcb
            · intro d
              have := h.le d
              have := hcnt d
              simp only
              omega
            · intro hn
              rcases hn with hn | ⟨v, hn⟩ <;> cases hn
            · exact h.sound
  | register c n =>
    simp only [step, Option.some.injEq] at hs
    subst hs
    have hrg : ∀ d, regs d (s.log ++ [.registered c]) = regs d s.log
        + (if c = d then 1 else 0) := by
      intro d
      rw [regs_append]
      by_cases e : c = d <;> simp [regs, e]
    have hcl : ∀ d, calls d (s.log ++ [.registered c]) = calls d s.log := by
      intro d; rw [calls_append]; simp [calls]
    have hs1 : Sound (s.log ++ [.registered c]) := sound_snoc h.sound trivial
    simp only [register]
    cases hf : s.future with
    | none =>
      simp only
      constructor
      · intro o'; have := h.fin o'; simpa [hf] using this
      · intro i v hv; exact hf ▸ h.val i v hv
      · intro _; exact h.bad (by rw [hf]; intro v; simp)
      · intro _; exact h.early hf
      · intro hn; simp at hn
      · intro d
        have := h.le d
        have hc : cnt d [(c, n)] = if c = d then 1 else 0 := by
          by_cases e : c = d <;> simp [cnt, e]
        simp only [hrg, hcl, cnt_append, hc]
        omega
      · intro _ d
        have := h.eq (Or.inl hf) d
        have hc : cnt d [(c, n)] = if c = d then 1 else 0 := by
          by_cases e : c = d <;> simp [cnt, e]
        simp only [hrg, hcl, cnt_append, hc]
        omega
      · exact hs1
    | some o =>
      cases o with
      | value v =>
        simp only
        have hcl2 : ∀ d, calls d (s.log ++ [.registered c] ++ [.called c v])
            = calls d s.log + (if c = d then 1 else 0) := by
          intro d
          rw [calls_append, hcl]
          by_cases e : c = d <;> simp [calls, e]
        have hrg2 : ∀ d, regs d (s.log ++ [.registered c] ++ [.called c v])
            = regs d s.log + (if c = d then 1 else 0) := by
          intro d
          rw [regs_append, hrg]; simp [regs]
        constructor
        · intro o'; have := h.fin o'; simpa [hf] using this
        · intro i v' hv; exact hf ▸ h.val i v' hv
        · intro hn; exact absurd rfl (hn v)
        · intro hn; simp only at hn; cases hn
        · intro _; exact h.late (by rw [hf]; simp)
        · intro d
          have := h.le d
          simp only [hcl2, hrg2]
          omega
        · intro _ d
          have := h.eq (Or.inr ⟨v, hf⟩) d
          simp only [hcl2, hrg2]
          omega
        · refine sound_snoc hs1 ⟨?_, ?_⟩
          · simpa using (h.fin _).mp hf
          · have h1 := h.le c
            have h2 := hrg c
            have h3 := hcl c
            simp at h2
            omega
      | error e =>
        simp only
        constructor
        · intro o'; have := h.fin o'; simpa [hf] using this
        · intro i v' hv; exact hf ▸ h.val i v' hv
        · intro _; exact h.bad (by rw [hf]; intro v; simp)
        · intro hn; simp only at hn; cases hn
        · intro _; exact h.late (by rw [hf]; simp)
        · intro d
          have := h.le d
          simp only [hcl, hrg]
          omega
        · intro hn
          rcases hn with hn | ⟨v, hn⟩ <;> cases hn
        · exact hs1
      | cancelled =>
        simp only
        constructor
        · intro o'; have := h.fin o'; simpa [hf] using this
        · intro i v' hv; exact hf ▸ h.val i v' hv
        · intro _; exact h.bad (by rw [hf]; intro v; simp)
        · intro hn; simp only at hn; cases hn
        · intro _; exact h.late (by rw [hf]; simp)
        · intro d
          have := h.le d
          simp only [hcl, hrg]
          omega
        · intro hn
          rcases hn with hn | ⟨v, hn⟩ <;> cases hn
        · exact hs1
  | begin i t =>
    simp only [step] at hs
    split at hs
    · cases hs
      exact inv_of (x := [.began i]) h rfl rfl rfl rfl (by simp)
        (at_val h (by simp [Pc.val])) h.bad (sound_snoc h.sound trivial)
    · cases hs
  | advance i =>
    simp only [step, advance] at hs
    cases hp : s.pc i with
    | out => simp only [hp] at hs; cases hs
    | waiting t =>
      simp only [hp] at hs
      cases hf : s.future with
      | none => simp only [hf] at hs; cases hs
      | some o =>
        cases o with
        | value v =>
          simp only [hf, Option.some.injEq] at hs
          subst hs
          exact inv_of (x := []) h rfl rfl rfl (by simp [State.at]) (by simp)
            (at_val h (by simp [Pc.val, hf])) h.bad h.sound
        | error e =>
          simp only [hf, Option.some.injEq] at hs
          subst hs
          exact inv_of (x := [.raised i (.operation e)]) h rfl rfl rfl rfl (by simp)
            (at_val h (by simp [Pc.val])) h.bad
            (sound_snoc h.sound ((h.fin _).mp hf))
        | cancelled =>
          simp only [hf, Option.some.injEq] at hs
          subst hs
          exact inv_of (x := [.raised i .cancelled]) h rfl rfl rfl rfl (by simp)
            (at_val h (by simp [Pc.val])) h.bad
            (sound_snoc h.sound ((h.fin _).mp hf))
    | test v =>
      have hv := h.val i v (by rw [hp]; rfl)
      simp only [hp] at hs
      split at hs
      · cases hs
        exact inv_of (x := []) h rfl rfl rfl (by simp [State.at]) (by simp)
          (at_val h (by simp [Pc.val, hv])) h.bad h.sound
      · cases hs
        exact inv_of (x := [.returned i v]) h rfl rfl rfl rfl (by simp)
          (at_val h (by simp [Pc.val])) h.bad
          (sound_snoc h.sound ((h.fin _).mp hv))
    | call v =>
      have hv := h.val i v (by rw [hp]; rfl)
      simp only [hp] at hs
      split at hs
      · cases hs
        exact inv_of (x := [.raised i .attribute]) h rfl rfl rfl rfl (by simp)
          (at_val h (by simp [Pc.val])) h.bad
          (sound_snoc h.sound ⟨v, (h.fin _).mp hv⟩)
      · split at hs
        · cases hs
          exact inv_of (x := []) h rfl rfl rfl (by simp [State.at]) (by simp)
            (at_val h (by simp [Pc.val, hv])) h.bad h.sound
        · cases hs
          exact inv_of (x := []) h rfl rfl rfl (by simp [State.at]) (by simp)
            (at_val (s := s) h (by simp [Pc.val, hv])) (fun hn => absurd hv (hn v)) h.sound
    | inside v =>
      have hv := h.val i v (by rw [hp]; rfl)
      simp only [hp] at hs
      split at hs
      · cases hs
        exact inv_of (x := []) h rfl rfl rfl (by simp [State.at]) (by simp)
          (at_val (s := s) h (by simp [Pc.val, hv])) (fun hn => absurd hv (hn v)) h.sound
      · cases hs
    | clear v =>
      have hv := h.val i v (by rw [hp]; rfl)
      simp only [hp, Option.some.injEq] at hs
      subst hs
      exact inv_of (x := [.returned i v]) h rfl rfl rfl rfl (by simp)
        (at_val (s := s) h (by simp [Pc.val])) (fun hn => absurd hv (hn v))
        (sound_snoc h.sound ((h.fin _).mp hv))
  | expire i =>
    simp only [step, expire] at hs
    split at hs
    · split at hs
      next hf =>
        cases hs
        exact inv_of (x := [.raised i .timeout]) h rfl rfl rfl rfl (by simp)
          (at_val h (by simp [Pc.val])) h.bad
          (sound_snoc h.sound (fun o ho => by
            rw [(h.fin o).mpr ho] at hf; cases hf))
      · cases hs
    · cases hs

theorem exec_keeps {es : List Event} : ∀ {s s' : State}, Inv s → exec s es = some s' →
    Inv s' := by
  induction es with
  | nil => intro s s' h hs; cases hs; exact h
  | cons e es ih =>
    intro s s' h hs
    simp only [exec] at hs
    cases hst : step s e with
    | none => rw [hst] at hs; cases hs
    | some s1 => rw [hst] at hs; exact ih (step_keeps h hst) hs

end Verif.Response
