import Verif.Manager.Infos

/-!
C91: the list of checkpoints may be used from several threads.
-/

namespace Verif.Manager.Infos

variable {α : Type}

/-! ### Specification -/

/-- What an operation makes of the list when it is alone. -/
def after : Op α → List α → List α
  | .set xs, _ => xs
  | .append x, l => l ++ [x]
  | .delete p, l => l.filter fun x => !p x
  | .latest, l => l
  | .iter, l => l

/-- What an operation answers when it is alone. -/
def answer : Op α → List α → Option α
  | .latest, l => l.getLast?
  | _, _ => none

/-- Operations one after the other, each with the answer it has when it is alone. -/
def Legal : List α → List (Done α) → Prop
  | _, [] => True
  | l, d :: ds => d.answer = answer d.op l ∧ Legal (after d.op l) ds

/-- The list after operations one after the other. -/
def final (l : List α) (ds : List (Done α)) : List α := ds.foldl (fun l d => after d.op l) l

/-- The operation of a thread that has been called and has not taken effect. -/
def pending : List (Instr α) → List (Op α)
  | [] => []
  | .load p :: r => .delete p :: pending r
  | .scan p _ _ _ :: r => .delete p :: pending r
  | .store op _ :: r => op :: pending r
  | .fetch x :: r => .append x :: pending r
  | .push _ x :: r => .append x :: pending r
  | .last :: r => .latest :: pending r
  | .loop :: r => .iter :: pending r
  | .enter :: r => pending r
  | .exit :: r => pending r
  | .next _ _ _ :: r => pending r

def IsAppend : Op α → Prop
  | .append _ => True
  | _ => False

def IsWrite : Op α → Prop
  | .set _ => True
  | .delete _ => True
  | _ => False

/-- An event at which no `append` begins to overlap with a `set` or `delete_if` of another thread. -/
def QuietEvent (s : State α) : Event α → Prop
  | .call t (.append _) => ∀ u, u ≠ t → ∀ o ∈ pending (s.code u), ¬ IsWrite o
  | .call t (.set _) => ∀ u, u ≠ t → ∀ o ∈ pending (s.code u), ¬ IsAppend o
  | .call t (.delete _) => ∀ u, u ≠ t → ∀ o ∈ pending (s.code u), ¬ IsAppend o
  | _ => True

/-- No `append` overlaps with a `set` or `delete_if` of another thread. -/
def Quiet (s : State α) : List (Event α) → Prop
  | [] => True
  | e :: es => QuietEvent s e ∧ Quiet (step s e).1 es

/-! ### The lock -/

/-- How many `with` blocks are open. -/
def opens : List (Instr α) → Nat
  | [] => 0
  | .enter :: r => opens r - 1
  | .exit :: r => opens r + 1
  | _ :: r => opens r

/-- What a thread still has to do is well formed. -/
def Good : List (Instr α) → Prop
  | [] => True
  | .enter :: r => 1 ≤ opens r ∧ pending r ≠ [] ∧ Good r
  | .exit :: r => pending r = [] ∧ Good r
  | .fetch _ :: r => pending r = [] ∧ Good r
  | .push _ _ :: r => pending r = [] ∧ Good r
  | .load _ :: r => 1 ≤ opens r ∧ pending r = [] ∧ Good r
  | .scan _ _ _ _ :: r => 1 ≤ opens r ∧ pending r = [] ∧ Good r
  | .store _ _ :: r => 1 ≤ opens r ∧ pending r = [] ∧ Good r
  | .last :: r => 1 ≤ opens r ∧ pending r = [] ∧ Good r
  | .loop :: r => 1 ≤ opens r ∧ pending r = [] ∧ Good r
  | .next _ _ _ :: r => 1 ≤ opens r ∧ pending r = [] ∧ Good r

theorem goto_code (s : State α) (t : Nat) (c : List (Instr α)) (u : Nat) : (goto s t c).code u = if u = t then c else s.code u := rfl

theorem goto_self (s : State α) (t : Nat) (c : List (Instr α)) : (goto s t c).code t = c := by simp [goto]

theorem good_ready {c : List (Instr α)} (h : Good c) (hr : ready c = true) : pending c = [] := by
  cases c with
  | nil => rfl
  | cons i r => cases i <;> simp_all [ready, Good, pending]

theorem good_compile {c : List (Instr α)} (h : Good c) (hr : ready c = true) (op : Op α) :
    Good (compile op ++ c) ∧ opens (compile op ++ c) = opens c ∧ pending (compile op ++ c) = [op] := by
  have hp := good_ready h hr
  cases op <;> simp [compile, Good, opens, pending, hp, h]

/-- The locks of threads. -/
structure Inv (s : State α) : Prop where
  good : ∀ t, Good (s.code t)
  held : ∀ t, 0 < opens (s.code t) → s.owner = some t
  count : ∀ t, s.owner = some t → opens (s.code t) ≤ s.count ∧ 0 < s.count
  free : s.owner = none → s.count = 0

theorem inv_init (xs : List α) : Inv (init xs) :=
  ⟨fun _ => trivial, fun _ h => absurd h (Nat.lt_irrefl 0), (fun _ h => nomatch h), fun _ => rfl⟩

/-- A thread goes on within the `with` blocks it is in. -/
theorem inv_goto {s : State α} (h : Inv s) (s' : State α) (ho : s'.owner = s.owner) (hn : s'.count = s.count) (hc : s'.code = s.code) (t : Nat)
    (c : List (Instr α)) (hg : Good c) (hle : opens c = opens (s.code t)) : Inv (goto s' t c) := by
  constructor
  · intro u; rw [goto_code, hc]; split
    · exact hg
    · exact h.good u
  · intro u hu
    rw [goto_code, hc] at hu
    show s'.owner = _
    rw [ho]
    split at hu
    · next e => subst e; exact h.held u (by omega)
    · exact h.held u hu
  · intro u hu
    rw [goto_code, hc]
    have hu : s.owner = some u := ho ▸ hu
    show _ ≤ s'.count ∧ 0 < s'.count
    rw [hn]
    split
    · next e => rw [hle, ← e]; exact h.count u hu
    · exact h.count u hu
  · intro hu
    show s'.count = 0
    rw [hn]
    exact h.free (ho ▸ hu)

theorem inv_tick {s : State α} (h : Inv s) (t : Nat) : Inv (tick s t).1 := by
  have hg := h.good t
  unfold tick
  split
  · exact h
  · next r hc =>
    rw [hc] at hg
    simp only [Good] at hg
    split
    · next ho =>
      constructor
      · intro u; rw [goto_code]; split
        · exact hg.2.2
        · exact h.good u
      · intro u hu
        rw [goto_code] at hu
        show some t = some u
        split at hu
        · next e => rw [e]
        · next e =>
          have := h.held u hu
          rcases ho with ho | ho
          · rw [ho] at this; cases this
          · rw [← ho, this]
      · intro u hu
        have hu : t = u := Option.some.inj hu
        subst hu
        rw [goto_self]
        show opens r ≤ s.count + 1 ∧ 0 < s.count + 1
        refine ⟨?_, Nat.succ_pos _⟩
        rcases ho with ho | ho
        · have : ¬ 0 < opens (s.code t) := fun hp => by rw [h.held t hp] at ho; cases ho
          rw [hc] at this
          simp only [opens] at this
          omega
        · have := (h.count t ho).1
          rw [hc] at this
          simp only [opens] at this
          omega
      · intro hu; cases hu
    · exact h
  · next r hc =>
    rw [hc] at hg
    simp only [Good] at hg
    have hp : 0 < opens (s.code t) := by rw [hc]; simp [opens]
    have ho := h.held t hp
    have hcount := h.count t ho
    rw [hc] at hcount
    simp only [opens] at hcount
    have hother : ∀ u, u ≠ t → opens (s.code u) = 0 := by
      intro u hu
      rcases Nat.eq_zero_or_pos (opens (s.code u)) with h0 | h0
      · exact h0
      · have := h.held u h0; rw [ho] at this; exact absurd (Option.some.inj this).symm hu
    rw [if_pos ho]
    split
    · constructor
      · intro u; rw [goto_code]; split
        · exact hg.2
        · exact h.good u
      · intro u hu
        rw [goto_code] at hu
        split at hu
        · next e =>
          subst e
          show (if s.count = 1 then none else some u) = some u
          rw [if_neg (by omega)]
        · next e => have := hother u e; have : 0 < opens (s.code u) := hu; omega
      · intro u hu
        have hu : (if s.count = 1 then none else some t) = some u := hu
        split at hu
        · cases hu
        · have := Option.some.inj hu; subst this
          rw [goto_self]
          show opens r ≤ s.count - 1 ∧ 0 < s.count - 1
          omega
      · intro hu
        have hu : (if s.count = 1 then none else some t) = none := hu
        split at hu
        · show s.count - 1 = 0; omega
        · cases hu
    · constructor
      · intro u; rw [goto_code]; split
        · exact hg.2
        · exact h.good u
      · intro u hu
        rw [goto_code] at hu
        show s.owner = some u
        split at hu
        · next e => rw [e]; exact ho
        · exact h.held u hu
      · intro u hu
        have hu : s.owner = some u := hu
        rw [goto_code]
        show _ ≤ s.count ∧ 0 < s.count
        split
        · omega
        · exact h.count u hu
      · exact h.free
  all_goals (rename_i hc; rw [hc] at hg; simp only [Good] at hg)
  · exact inv_goto h s rfl rfl rfl t _ hg (by rw [hc]; rfl)
  · split
    · exact inv_goto h s rfl rfl rfl t _ hg (by rw [hc]; rfl)
    · refine inv_goto h s rfl rfl rfl t _ ?_ (by rw [hc]; simp [opens])
      simp only [Good, opens]
      exact ⟨by omega, by simp [pending], by omega, by simp [pending, hg], hg.2⟩
  · exact inv_goto h _ (by rfl) (by rfl) (by rfl) t _ hg.2.2 (by rw [hc]; rfl)
  · exact inv_goto h s rfl rfl rfl t _ hg (by rw [hc]; rfl)
  · exact inv_goto h _ (by rfl) (by rfl) (by rfl) t _ hg.2 (by rw [hc]; rfl)
  · exact inv_goto h s rfl rfl rfl t _ hg.2.2 (by rw [hc]; rfl)
  · exact inv_goto h s rfl rfl rfl t _ hg (by rw [hc]; rfl)
  · split
    · exact inv_goto h s rfl rfl rfl t _ hg (by rw [hc]; rfl)
    · exact inv_goto h s rfl rfl rfl t _ hg.2.2 (by rw [hc]; rfl)

theorem not_held {s : State α} (h : Inv s) {t : Nat} (ho : ¬ (s.owner = none ∨ s.owner = some t)) : opens (s.code t) = 0 := by
  rcases Nat.eq_zero_or_pos (opens (s.code t)) with h0 | h0
  · exact h0
  · exact absurd (.inr (h.held t h0)) ho

theorem inv_step {s : State α} (h : Inv s) (e : Event α) : Inv (step s e).1 := by
  cases e with
  | call t op =>
    simp only [step]
    split
    · next hr =>
      have := good_compile (h.good t) hr op
      exact inv_goto h s rfl rfl rfl t _ this.1 this.2.1
    · exact h
  | tick t => exact inv_tick h t
  | timeout t =>
    simp only [step]
    split
    · next hc =>
      split
      · exact h
      · next ho => exact inv_goto h { s with flag := false } rfl rfl rfl t [] trivial (not_held h ho).symm
    · exact h
  | leave t =>
    have hg := h.good t
    simp only [step]
    split
    · next hc => rw [hc] at hg; simp only [Good] at hg; exact inv_goto h s rfl rfl rfl t _ hg.2.2 (by rw [hc]; rfl)
    · next hc => rw [hc] at hg; simp only [Good] at hg; exact inv_goto h s rfl rfl rfl t _ hg.2.2 (by rw [hc]; rfl)
    · exact h

theorem inv_run : ∀ (evs : List (Event α)) {s : State α}, Inv s → Inv (run s evs)
  | [], _, h => h
  | e :: es, _, h => inv_run es (inv_step h e)

/-- C91: at any time, whatever the schedule and the timeouts, at most one thread is inside blocks guarded by the
lock. -/
theorem C91_exclusive (xs : List α) (evs : List (Event α)) (t u : Nat) (ht : 0 < opens ((run (init xs) evs).code t))
    (hu : 0 < opens ((run (init xs) evs).code u)) : t = u := by
  have h := inv_run evs (inv_init xs)
  have := h.held t ht
  rw [h.held u hu] at this
  exact (Option.some.inj this).symm

/-! ### Without timeouts the lock is released -/

/-- The lock is held exactly as often as blocks are open. -/
structure Exact (s : State α) : Prop where
  inv : Inv s
  flag : s.flag = true
  count : ∀ t, s.owner = some t → opens (s.code t) = s.count

theorem exact_goto {s : State α} (h : Exact s) (s' : State α) (ho : s'.owner = s.owner) (hn : s'.count = s.count) (hf : s'.flag = s.flag)
    (hc : s'.code = s.code) (t : Nat) (c : List (Instr α)) (hi : Inv (goto s' t c)) (hle : opens c = opens (s.code t)) : Exact (goto s' t c) := by
  refine ⟨hi, by show s'.flag = true; rw [hf, h.flag], ?_⟩
  intro u hu
  rw [goto_code, hc]
  have hu : s.owner = some u := ho ▸ hu
  show _ = s'.count
  rw [hn]
  split
  · next e => rw [hle, ← e]; exact h.count u hu
  · exact h.count u hu

theorem exact_tick {s : State α} (h : Exact s) (t : Nat) : Exact (tick s t).1 := by
  have hi := inv_tick h.inv t
  have hg := h.inv.good t
  revert hi
  unfold tick
  split
  · exact fun _ => h
  · next r hc =>
    rw [hc] at hg
    simp only [Good] at hg
    split
    · next ho =>
      refine fun hi => ⟨hi, rfl, ?_⟩
      intro u hu
      have hu : t = u := Option.some.inj hu
      subst hu
      rw [goto_self]
      show opens r = s.count + 1
      rcases ho with ho | ho
      · have h0 := h.inv.free ho
        have : ¬ 0 < opens (s.code t) := fun hp => by rw [h.inv.held t hp] at ho; cases ho
        rw [hc] at this
        simp only [opens] at this
        omega
      · have := h.count t ho
        rw [hc] at this
        simp only [opens] at this
        omega
    · exact fun _ => h
  · next r hc =>
    have hp : 0 < opens (s.code t) := by rw [hc]; simp [opens]
    have ho := h.inv.held t hp
    have hcount := h.count t ho
    rw [hc] at hcount
    simp only [opens] at hcount
    rw [if_pos h.flag, if_pos ho]
    refine fun hi => ⟨hi, h.flag, ?_⟩
    intro u hu
    have hu : (if s.count = 1 then none else some t) = some u := hu
    split at hu
    · cases hu
    · have := Option.some.inj hu; subst this
      rw [goto_self]
      show opens r = s.count - 1
      omega
  all_goals (rename_i hc; rw [hc] at hg; simp only [Good] at hg)
  · exact fun hi => exact_goto h s rfl rfl rfl rfl t _ hi (by rw [hc]; rfl)
  · split
    · exact fun hi => exact_goto h s rfl rfl rfl rfl t _ hi (by rw [hc]; rfl)
    · exact fun hi => exact_goto h s rfl rfl rfl rfl t _ hi (by rw [hc]; simp [opens])
  · exact fun hi => exact_goto h _ (by rfl) (by rfl) (by rfl) (by rfl) t _ hi (by rw [hc]; rfl)
  · exact fun hi => exact_goto h s rfl rfl rfl rfl t _ hi (by rw [hc]; rfl)
  · exact fun hi => exact_goto h _ (by rfl) (by rfl) (by rfl) (by rfl) t _ hi (by rw [hc]; rfl)
  · exact fun hi => exact_goto h s rfl rfl rfl rfl t _ hi (by rw [hc]; rfl)
  · exact fun hi => exact_goto h s rfl rfl rfl rfl t _ hi (by rw [hc]; rfl)
  · split
    · exact fun hi => exact_goto h s rfl rfl rfl rfl t _ hi (by rw [hc]; rfl)
    · exact fun hi => exact_goto h s rfl rfl rfl rfl t _ hi (by rw [hc]; rfl)

/-- A thread has not run into the timeout. -/
def IsTimeout : Event α → Prop
  | .timeout _ => True
  | _ => False

theorem exact_step {s : State α} (h : Exact s) (e : Event α) (he : ¬ IsTimeout e) : Exact (step s e).1 := by
  have hi := inv_step h.inv e
  cases e with
  | call t op =>
    revert hi
    simp only [step]
    split
    · next hr => exact fun hi => exact_goto h s rfl rfl rfl rfl t _ hi (good_compile (h.inv.good t) hr op).2.1
    · exact fun _ => h
  | tick t => exact exact_tick h t
  | timeout t => exact absurd trivial he
  | leave t =>
    revert hi
    simp only [step]
    split
    · next hc => exact fun hi => exact_goto h s rfl rfl rfl rfl t _ hi (by rw [hc]; rfl)
    · next hc => exact fun hi => exact_goto h s rfl rfl rfl rfl t _ hi (by rw [hc]; rfl)
    · exact fun _ => h

theorem exact_run : ∀ (evs : List (Event α)) {s : State α}, Exact s → (∀ e ∈ evs, ¬ IsTimeout e) → Exact (run s evs)
  | [], _, h, _ => h
  | e :: es, _, h, hn => exact_run es (exact_step h e (hn e (by simp))) (fun e' he' => hn e' (by simp [he']))

/-- C91: as long as no thread has run into the timeout, a thread outside guarded blocks does not keep the lock: when
all the other threads are outside, the next step of a thread that wants the lock gets it. -/
theorem C91_released (xs : List α) (evs : List (Event α)) (hn : ∀ e ∈ evs, ¬ IsTimeout e) (t : Nat) (r : List (Instr α))
    (hother : ∀ u, u ≠ t → opens ((run (init xs) evs).code u) = 0) (hc : (run (init xs) evs).code t = .enter :: r) :
    (step (run (init xs) evs) (.tick t)).1.code t = r := by
  have h := exact_run evs ⟨inv_init xs, rfl, fun t h => by cases h⟩ hn
  simp only [step, tick, hc]
  rw [if_pos]
  · exact goto_self _ _ _
  · cases ho : (run (init xs) evs).owner with
    | none => exact .inl rfl
    | some u =>
      refine .inr ?_
      rcases Nat.decEq u t with hu | hu
      · have h1 := h.count u ho
        have h2 := h.inv.count u ho
        have h3 := hother u hu
        omega
      · rw [hu]

/-! ### After a timeout the lock may be lost -/

/-- The lock is held more often than its owner will release it. -/
def Lost (s : State α) (t : Nat) : Prop := Inv s ∧ s.owner = some t ∧ opens (s.code t) < s.count

theorem lost_goto {s : State α} {o : Nat} (h : Lost s o) (s' : State α) (ho : s'.owner = s.owner) (hn : s'.count = s.count)
    (hc : s'.code = s.code) (t : Nat) (c : List (Instr α)) (hi : Inv (goto s' t c)) (hle : opens c = opens (s.code t)) : Lost (goto s' t c) o := by
  refine ⟨hi, ho.trans h.2.1, ?_⟩
  rw [goto_code, hc]
  show _ < s'.count
  rw [hn]
  split
  · next e => subst e; rw [hle]; exact h.2.2
  · exact h.2.2

theorem lost_tick {s : State α} {o : Nat} (h : Lost s o) (t : Nat) : Lost (tick s t).1 o := by
  have hi := inv_tick h.1 t
  have hg := h.1.good t
  have hown := h.2.1
  have hlt := h.2.2
  revert hi
  unfold tick
  split
  · exact fun _ => h
  · next r hc =>
    rw [hc] at hg
    simp only [Good] at hg
    split
    · next ho =>
      have ho : o = t := by
        rcases ho with ho | ho
        · rw [hown] at ho; cases ho
        · rw [hown] at ho; exact Option.some.inj ho
      subst ho
      refine fun hi => ⟨hi, rfl, ?_⟩
      rw [goto_self]
      show opens r < s.count + 1
      rw [hc] at hlt
      simp only [opens] at hlt
      omega
    · exact fun _ => h
  · next r hc =>
    have hp : 0 < opens (s.code t) := by rw [hc]; simp [opens]
    have ho := h.1.held t hp
    have : o = t := by rw [hown] at ho; exact Option.some.inj ho
    subst this
    rw [hc] at hlt
    simp only [opens] at hlt
    rw [if_pos ho]
    split
    · refine fun hi => ⟨hi, ?_, ?_⟩
      · show (if s.count = 1 then none else some o) = some o
        rw [if_neg (by omega)]
      · rw [goto_self]; show opens r < s.count - 1; omega
    · refine fun hi => ⟨hi, ho, ?_⟩
      rw [goto_self]; show opens r < s.count; omega
  all_goals (rename_i hc; rw [hc] at hg; simp only [Good] at hg)
  · exact fun hi => lost_goto h s rfl rfl rfl t _ hi (by rw [hc]; rfl)
  · split
    · exact fun hi => lost_goto h s rfl rfl rfl t _ hi (by rw [hc]; rfl)
    · exact fun hi => lost_goto h s rfl rfl rfl t _ hi (by rw [hc]; simp [opens])
  · exact fun hi => lost_goto h _ (by rfl) (by rfl) (by rfl) t _ hi (by rw [hc]; rfl)
  · exact fun hi => lost_goto h s rfl rfl rfl t _ hi (by rw [hc]; rfl)
  · exact fun hi => lost_goto h _ (by rfl) (by rfl) (by rfl) t _ hi (by rw [hc]; rfl)
  · exact fun hi => lost_goto h s rfl rfl rfl t _ hi (by rw [hc]; rfl)
  · exact fun hi => lost_goto h s rfl rfl rfl t _ hi (by rw [hc]; rfl)
  · split
    · exact fun hi => lost_goto h s rfl rfl rfl t _ hi (by rw [hc]; rfl)
    · exact fun hi => lost_goto h s rfl rfl rfl t _ hi (by rw [hc]; rfl)

theorem lost_step {s : State α} {o : Nat} (h : Lost s o) (e : Event α) : Lost (step s e).1 o := by
  have hi := inv_step h.1 e
  cases e with
  | call t op =>
    revert hi
    simp only [step]
    split
    · next hr => exact fun hi => lost_goto h s rfl rfl rfl t _ hi (good_compile (h.1.good t) hr op).2.1
    · exact fun _ => h
  | tick t => exact lost_tick h t
  | timeout t =>
    revert hi
    simp only [step]
    split
    · split
      · exact fun _ => h
      · next ho => exact fun hi => lost_goto h { s with flag := false } rfl rfl rfl t [] hi (not_held h.1 ho).symm
    · exact fun _ => h
  | leave t =>
    revert hi
    simp only [step]
    split
    · next hc => exact fun hi => lost_goto h s rfl rfl rfl t _ hi (by rw [hc]; rfl)
    · next hc => exact fun hi => lost_goto h s rfl rfl rfl t _ hi (by rw [hc]; rfl)
    · exact fun _ => h

/-- What takes effect in a step is done by the owner or needs no lock. -/
theorem step_owner {s : State α} (h : Inv s) (e : Event α) (d : Done α) (hd : d ∈ (step s e).2) :
    s.owner = some d.thread ∨ IsAppend d.op := by
  cases e with
  | call t op => simp only [step] at hd; split at hd <;> simp at hd
  | timeout t => simp only [step] at hd; split at hd <;> try split at hd
                 all_goals simp at hd
  | leave t => simp only [step] at hd; split at hd <;> simp at hd
  | tick t =>
    have hg := h.good t
    have hh := h.held t
    simp only [step, tick] at hd
    split at hd
    · simp at hd
    · split at hd <;> simp at hd
    · split at hd
      · split at hd <;> simp at hd
      · simp at hd
    all_goals (rename_i hc; rw [hc] at hg hh; simp only [Good, opens] at hg hh)
    · simp at hd
    · split at hd <;> simp at hd
    · simp only [List.mem_singleton] at hd; subst hd; exact .inl (hh (by omega))
    · simp at hd
    · simp only [List.mem_singleton] at hd; subst hd; exact .inr trivial
    · simp only [List.mem_singleton] at hd; subst hd; exact .inl (hh (by omega))
    · simp only [List.mem_singleton] at hd; subst hd; exact .inl (hh (by omega))
    · split at hd <;> simp at hd

theorem lost_effects : ∀ (evs : List (Event α)) {s : State α} {o : Nat}, Lost s o → ∀ d ∈ effects s evs, d.thread = o ∨ IsAppend d.op
  | [], _, _, _, d, hd => absurd hd List.not_mem_nil
  | e :: es, s, o, h, d, hd => by
    simp only [effects, List.mem_append] at hd
    rcases hd with hd | hd
    · rcases step_owner h.1 e d hd with h1 | h1
      · rw [h.2.1] at h1; exact .inl (Option.some.inj h1).symm
      · exact .inr h1
    · exact lost_effects es (lost_step h e) d hd

/-- C91 (finding): if a thread runs into the timeout just before the owner of the lock leaves its block, the owner
does not release the lock. From then on every `set`, `delete_if`, `latest` and loop of any other thread runs into the
timeout, for ever: in no continuation does one take effect. -/
theorem C91_timeout_fails (xs : List α) (evs : List (Event α)) (t u : Nat) (r : List (Instr α))
    (ht : (run (init xs) evs).code t = [.exit]) (hu : (run (init xs) evs).code u = .enter :: r) (evs' : List (Event α)) :
    ∀ d ∈ effects (run (run (init xs) evs) [.timeout u, .tick t]) evs', d.thread = t ∨ IsAppend d.op := by
  apply lost_effects evs'
  generalize hs : run (init xs) evs = s at *
  have h : Inv s := hs ▸ inv_run evs (inv_init xs)
  have hp : 0 < opens (s.code t) := by rw [ht]; simp [opens]
  have ho := h.held t hp
  have hne : u ≠ t := by intro e; rw [e, ht] at hu; cases hu
  have hcond : ¬ (s.owner = none ∨ s.owner = some u) := by
    rw [ho]; simp; exact fun e => hne e.symm
  have h1 : (step s (.timeout u)).1 = goto { s with flag := false } u [] := by
    simp only [step, hu]; rw [if_neg hcond]
  have hi1 := inv_step h (.timeout u)
  rw [h1] at hi1
  have hi2 := inv_step hi1 (.tick t)
  have hc1 : (goto { s with flag := false } u []).code t = [.exit] := by
    rw [goto_code, if_neg (fun e => hne e.symm)]; exact ht
  have h2 : (step (goto { s with flag := false } u []) (.tick t)).1 = goto (goto { s with flag := false } u []) t [] := by
    simp only [step, tick, hc1]
    rfl
  rw [h2] at hi2
  show Lost (step (step s (.timeout u)).1 (.tick t)).1 t
  rw [h1, h2]
  refine ⟨hi2, ho, ?_⟩
  rw [goto_self]
  exact (h.count t ho).2

end Verif.Manager.Infos
