import Verif.V1.Creation

/-!
# C100: nobody gets a directory before it is there, and it is made once
-/

namespace Verif.V1.CreationProps
open Verif.V1.Creation

/-- What holds of each process. -/
structure PInv (primary : Prop) (q : Proc) : Prop where
  held : ∀ t, (q.tasks t = .holding ∨ q.tasks t = .creating) → q.lock = some t
  holder : ∀ t, q.lock = some t → q.tasks t = .holding ∨ q.tasks t = .creating
  started : q.completed = false ↔ q.run = .notStarted
  worked : inProgress q.run = true → ∃ t, q.tasks t = .creating
  returned : ∀ t, q.tasks t = .returned → q.run = .passed ∨ q.run = .failed
  creating : ∀ t, q.tasks t = .creating → inProgress q.run = true ∨ q.run = .passed
  making : ∀ left, q.run = .making left → primary

/-- What holds of the directories. -/
structure GInv (c : Config) (s : State) : Prop where
  before : (s.procs c.primary).run = .notStarted → s.made = []
  during : ∀ left, (s.procs c.primary).run = .making left →
    (∀ d, d ∈ c.root :: c.subs → d ∈ s.made ∨ d ∈ left) ∧ (s.made ++ left).Nodup ∧
    (c.root ∈ left → s.made = []) ∧ (c.root ∉ left → s.made.getLast? = some c.root) ∧
    (∀ d ∈ left, d ∈ c.root :: c.subs)
  after : arrived (s.procs c.primary).run = true → ∀ d ∈ c.root :: c.subs, d ∈ s.made
  passed : ∀ p, (s.procs p).run = .passed → ∀ d ∈ c.root :: c.subs, d ∈ s.made
  once : s.made.Nodup
  first : s.made = [] ∨ s.made.getLast? = some c.root
  only : ∀ d ∈ s.made, d ∈ c.root :: c.subs

theorem pinv_set {P : Nat → Prop} {s : State} {p : Nat} {q : Proc} {m : List String}
    (h : ∀ i, PInv (P i) (s.procs i)) (hq : PInv (P p) q) :
    ∀ i, PInv (P i) (({ setProc s p q with made := m } : State).procs i) := by
  intro i
  simp only [setProc]
  by_cases hi : i = p
  · subst hi; rw [if_pos rfl]; exact hq
  · rw [if_neg hi]; exact h i

theorem ptask (q : Proc) (t : Nat) (x : Task) (i : Nat) :
    (setTask q t x).tasks i = if i = t then x else q.tasks i := rfl

theorem pinv_step {c : Config} {s s' : State} (h : ∀ i, PInv (i = c.primary) (s.procs i))
    (st : Step c s s') : ∀ i, PInv (i = c.primary) (s'.procs i) := by
  cases st with
  | acquire p t hp hl ht =>
    have hq := h p
    refine pinv_set (m := s.made) h ⟨?_, ?_, hq.started, ?_, ?_, ?_, hq.making⟩
    · intro i hi
      simp only [ptask] at hi
      by_cases he : i = t
      · rw [he]
      · simp only [he, if_false] at hi
        have := hq.held i hi
        rw [hl] at this; simp at this
    · intro i hi
      simp only [Option.some.injEq] at hi
      simp [ptask, hi.symm]
    · intro hr
      obtain ⟨j, hj⟩ := hq.worked hr
      have := hq.held j (.inr hj)
      rw [hl] at this; simp at this
    · intro i hi
      simp only [ptask] at hi
      by_cases he : i = t
      · simp [he] at hi
      · simp only [he, if_false] at hi; exact hq.returned i hi
    · intro i hi
      simp only [ptask] at hi
      by_cases he : i = t
      · simp [he] at hi
      · simp only [he, if_false] at hi; exact hq.creating i hi
  | skip p t hp ht hc =>
    have hq := h p
    have hlock := hq.held t (.inl ht)
    refine pinv_set (m := s.made) h ⟨?_, ?_, hq.started, ?_, ?_, ?_, hq.making⟩
    · intro i hi
      simp only [ptask] at hi
      by_cases he : i = t
      · simp [he] at hi
      · simp only [he, if_false] at hi
        have := hq.held i hi
        rw [hlock] at this
        simp at this
        exact absurd this.symm he
    · intro i hi; simp at hi
    · intro hr
      obtain ⟨j, hj⟩ := hq.worked hr
      have := hq.held j (.inr hj)
      rw [hlock] at this
      simp at this
      subst this
      rw [ht] at hj; simp at hj
    · intro i hi
      simp only [ptask] at hi
      by_cases he : i = t
      · have hns : (s.procs p).run ≠ .notStarted := by
          intro e
          rw [(hq.started).2 e] at hc
          simp at hc
        have hnp : inProgress (s.procs p).run = false := by
          rw [Bool.eq_false_iff]
          intro hr
          obtain ⟨j, hj⟩ := hq.worked hr
          have := hq.held j (.inr hj)
          rw [hlock] at this
          simp at this
          subst this
          rw [ht] at hj; simp at hj
        show (s.procs p).run = _ ∨ (s.procs p).run = _
        cases hr : (s.procs p).run <;> simp [hr, inProgress] at hns hnp ⊢
      · simp only [he, if_false] at hi; exact hq.returned i hi
    · intro i hi
      simp only [ptask] at hi
      by_cases he : i = t
      · simp [he] at hi
      · simp only [he, if_false] at hi; exact hq.creating i hi
  | start p t hp ht hc =>
    have hq := h p
    have hlock := hq.held t (.inl ht)
    have hns := (hq.started).1 hc
    refine pinv_set (m := s.made) h ⟨?_, ?_, ?_, ?_, ?_, ?_, ?_⟩
    · intro i hi
      simp only [ptask] at hi
      by_cases he : i = t
      · rw [he]; exact hlock
      · simp only [he, if_false] at hi
        exact hq.held i hi
    · intro i hi
      have hi : (s.procs p).lock = some i := hi
      rw [hlock] at hi
      simp at hi
      simp [ptask, hi.symm]
    · by_cases hpp : p = c.primary <;> simp [hpp]
    · intro _; exact ⟨t, by simp [ptask]⟩
    · intro i hi
      simp only [ptask] at hi
      by_cases he : i = t
      · simp [he] at hi
      · simp only [he, if_false] at hi
        have := hq.returned i hi
        rw [hns] at this; simp at this
    · intro i _
      by_cases hpp : p = c.primary <;> simp [hpp, inProgress]
    · intro left hl
      by_cases hpp : p = c.primary
      · exact hpp
      · simp [hpp] at hl
  | mkroot p hp left hr hroot =>
    have hq := h p
    refine pinv_set h ⟨hq.held, hq.holder, ?_, ?_, ?_, ?_, ?_⟩
    · simp only [reduceCtorEq, iff_false]
      intro e
      rw [(hq.started).1 e] at hr; simp at hr
    · intro _; exact hq.worked (by rw [hr]; rfl)
    · intro t ht
      have := hq.returned t ht
      rw [hr] at this; simp at this
    · intro t _; exact .inl rfl
    · intro l _; exact hq.making left hr
  | mksub p hp left d hr hroot hd =>
    have hq := h p
    refine pinv_set h ⟨hq.held, hq.holder, ?_, ?_, ?_, ?_, ?_⟩
    · simp only [reduceCtorEq, iff_false]
      intro e
      rw [(hq.started).1 e] at hr; simp at hr
    · intro _; exact hq.worked (by rw [hr]; rfl)
    · intro t ht
      have := hq.returned t ht
      rw [hr] at this; simp at this
    · intro t _; exact .inl rfl
    · intro l _; exact hq.making left hr
  | arrive p hp hr =>
    have hq := h p
    refine pinv_set (m := s.made) h ⟨hq.held, hq.holder, ?_, ?_, ?_, ?_, ?_⟩
    · simp only [reduceCtorEq, iff_false]
      intro e
      rw [(hq.started).1 e] at hr; simp at hr
    · intro _; exact hq.worked (by rw [hr]; rfl)
    · intro t ht
      have := hq.returned t ht
      rw [hr] at this; simp at this
    · intro t _; exact .inl rfl
    · intro l hl; simp at hl
  | pass p hp hr hall =>
    have hq := h p
    refine pinv_set (m := s.made) h ⟨hq.held, hq.holder, ?_, ?_, ?_, ?_, ?_⟩
    · simp only [reduceCtorEq, iff_false]
      intro e
      rw [(hq.started).1 e] at hr; simp at hr
    · intro hx; simp [inProgress] at hx
    · intro t _; exact .inl rfl
    · intro t _; exact .inr rfl
    · intro l hl; simp at hl
  | finish p t hp ht hr =>
    have hq := h p
    have hlock := hq.held t (.inr ht)
    refine pinv_set (m := s.made) h ⟨?_, ?_, hq.started, ?_, ?_, ?_, hq.making⟩
    · intro i hi
      simp only [ptask] at hi
      by_cases he : i = t
      · simp [he] at hi
      · simp only [he, if_false] at hi
        have := hq.held i hi
        rw [hlock] at this
        simp at this
        exact absurd this.symm he
    · intro i hi; simp at hi
    · intro hx
      have hx : inProgress (s.procs p).run = true := hx
      rw [hr] at hx; simp [inProgress] at hx
    · intro i _; exact .inl hr
    · intro i _; exact .inr hr
  | fail p t hp ht hr =>
    have hq := h p
    have hlock := hq.held t (.inr ht)
    refine pinv_set (m := s.made) h ⟨?_, ?_, ?_, ?_, ?_, ?_, ?_⟩
    · intro i hi
      simp only [ptask] at hi
      by_cases he : i = t
      · simp [he] at hi
      · simp only [he, if_false] at hi
        have := hq.held i hi
        rw [hlock] at this
        simp at this
        exact absurd this.symm he
    · intro i hi; simp at hi
    · simp only [reduceCtorEq, iff_false]
      intro e
      have e : (s.procs p).completed = false := e
      rw [(hq.started).1 e] at hr; simp [inProgress] at hr
    · intro hx; simp [inProgress] at hx
    · intro i _; exact .inr rfl
    · intro i hi
      simp only [ptask] at hi
      by_cases he : i = t
      · simp [he] at hi
      · simp only [he, if_false] at hi
        have := hq.held i (.inr hi)
        rw [hlock] at this
        simp at this
        exact absurd this.symm he
    · intro l hl; simp at hl

theorem pinv_reach {c : Config} {s : State} (h : Reach c s) :
    ∀ i, PInv (i = c.primary) (s.procs i) := by
  induction h with
  | init =>
    intro i
    exact ⟨by simp [initial], by simp [initial], by simp [initial], by simp [initial, inProgress],
      by simp [initial], by simp [initial], by simp [initial]⟩
  | step s s' _ hs ih => exact pinv_step ih hs

/-- A step of a process that makes nothing and does not touch the directories. -/
theorem ginv_quiet {c : Config} {s : State} (h : GInv c s) (p : Nat) (q : Proc)
    (hq : q.run = (s.procs p).run ∨ q.run = .failed) : GInv c (setProc s p q) := by
  have hrun : ∀ i, ((setProc s p q).procs i).run = (s.procs i).run ∨
      ((setProc s p q).procs i).run = .failed := by
    intro i
    simp only [setProc]
    by_cases hi : i = p
    · subst hi; simpa using hq
    · simp [hi]
  refine ⟨?_, ?_, ?_, ?_, h.once, h.first, h.only⟩
  · intro e
    rcases hrun c.primary with hr | hr
    · rw [hr] at e; exact h.before e
    · rw [hr] at e; simp at e
  · intro left e
    rcases hrun c.primary with hr | hr
    · rw [hr] at e; exact h.during left e
    · rw [hr] at e; simp at e
  · intro e
    rcases hrun c.primary with hr | hr
    · rw [hr] at e; exact h.after e
    · rw [hr] at e; simp [arrived] at e
  · intro i e
    rcases hrun i with hr | hr
    · rw [hr] at e; exact h.passed i e
    · rw [hr] at e; simp at e

theorem ginv_step {c : Config} (hn : (c.root :: c.subs).Nodup) (hp : c.primary < c.n)
    {s s' : State} (hP : ∀ i, PInv (i = c.primary) (s.procs i)) (h : GInv c s)
    (st : Step c s s') : GInv c s' := by
  cases st with
  | acquire p t _ hl ht => exact ginv_quiet h p _ (.inl rfl)
  | skip p t _ ht hc => exact ginv_quiet h p _ (.inl rfl)
  | finish p t _ ht hr => exact ginv_quiet h p _ (.inl rfl)
  | fail p t _ ht hr => exact ginv_quiet h p _ (.inr rfl)
  | start p t _ ht hc =>
    have hns := ((hP p).started).1 hc
    by_cases hpp : p = c.primary
    · subst hpp
      have hm := h.before hns
      refine ⟨?_, ?_, ?_, ?_, h.once, h.first, h.only⟩
      · intro e; simp [setProc] at e
      · intro left e
        simp only [setProc, if_true, Run.making.injEq] at e
        subst e
        show (∀ d, d ∈ c.root :: c.subs → d ∈ s.made ∨ _) ∧ (s.made ++ _).Nodup ∧
          (_ → s.made = []) ∧ (_ → s.made.getLast? = _) ∧ _
        refine ⟨fun d hd => .inr hd, by rw [hm]; exact hn, fun _ => hm,
          fun hx => absurd (List.mem_cons_self ..) hx, fun d hd => hd⟩
      · intro e; simp [setProc, arrived] at e
      · intro i e
        by_cases hi : i = c.primary
        · simp [setProc, hi] at e
        · simp only [setProc, hi, if_false] at e; exact h.passed i e
    · have hne : c.primary ≠ p := fun e => hpp e.symm
      refine ⟨?_, ?_, ?_, ?_, h.once, h.first, h.only⟩
      · intro e; simp only [setProc, hne, if_false] at e; exact h.before e
      · intro left e; simp only [setProc, hne, if_false] at e; exact h.during left e
      · intro e; simp only [setProc, hne, if_false] at e; exact h.after e
      · intro i e
        by_cases hi : i = p
        · simp [setProc, hi, hpp] at e
        · simp only [setProc, hi, if_false] at e; exact h.passed i e
  | mkroot p _ left hr hroot =>
    have hpp := (hP p).making left hr
    subst hpp
    obtain ⟨h1, h2, h3, h4, h5⟩ := h.during left hr
    have hm := h3 hroot
    have hnd : left.Nodup := (List.nodup_append.1 h2).2.1
    refine ⟨?_, ?_, ?_, ?_, ?_, ?_, ?_⟩
    · intro e; simp [setProc] at e
    · intro l e
      simp only [setProc, if_true, Run.making.injEq] at e
      subst e
      refine ⟨?_, ?_, ?_, ?_, ?_⟩
      · intro d hd
        by_cases he : d = c.root
        · exact .inl (by simp [he])
        · rcases h1 d hd with hx | hx
          · rw [hm] at hx; simp at hx
          · exact .inr ((List.mem_erase_of_ne he).2 hx)
      · simp only [hm, List.cons_append, List.nil_append, List.nodup_cons]
        exact ⟨fun hx => (hnd.mem_erase_iff.1 hx).1 rfl, hnd.sublist List.erase_sublist⟩
      · intro hx; exact absurd rfl (hnd.mem_erase_iff.1 hx).1
      · intro _; simp [hm]
      · intro d hd; exact h5 d (List.mem_of_mem_erase hd)
    · intro e; simp [setProc, arrived] at e
    · intro i e
      by_cases hi : i = c.primary
      · simp [setProc, hi] at e
      · simp only [setProc, hi, if_false] at e
        intro d hd; exact List.mem_cons_of_mem _ (h.passed i e d hd)
    · simp [hm]
    · right; simp [hm]
    · intro d hd; simp [hm] at hd; simp [hd]
  | mksub p _ left d hr hroot hd =>
    have hpp := (hP p).making left hr
    subst hpp
    obtain ⟨h1, h2, h3, h4, h5⟩ := h.during left hr
    have hlast := h4 hroot
    have hnd : left.Nodup := (List.nodup_append.1 h2).2.1
    have hdm : d ∉ s.made := fun hx => (List.nodup_append.1 h2).2.2 d hx d hd rfl
    have hlast' : (d :: s.made).getLast? = some c.root := by
      cases hm : s.made with
      | nil => rw [hm] at hlast; simp at hlast
      | cons a l => rw [hm] at hlast; rw [List.getLast?_cons_cons]; exact hlast
    refine ⟨?_, ?_, ?_, ?_, ?_, ?_, ?_⟩
    · intro e; simp [setProc] at e
    · intro l e
      simp only [setProc, if_true, Run.making.injEq] at e
      subst e
      refine ⟨?_, ?_, ?_, ?_, ?_⟩
      · intro x hx
        by_cases he : x = d
        · exact .inl (by simp [he])
        · rcases h1 x hx with hy | hy
          · exact .inl (List.mem_cons_of_mem _ hy)
          · exact .inr ((List.mem_erase_of_ne he).2 hy)
      · simp only [List.cons_append, List.nodup_cons, List.mem_append, not_or]
        refine ⟨⟨hdm, fun hx => (hnd.mem_erase_iff.1 hx).1 rfl⟩, ?_⟩
        exact h2.sublist (List.Sublist.append_left List.erase_sublist _)
      · intro hx; exact absurd (List.mem_of_mem_erase hx) hroot
      · intro _; exact hlast'
      · intro x hx; exact h5 x (List.mem_of_mem_erase hx)
    · intro e; simp [setProc, arrived] at e
    · intro i e
      by_cases hi : i = c.primary
      · simp [setProc, hi] at e
      · simp only [setProc, hi, if_false] at e
        intro x hx; exact List.mem_cons_of_mem _ (h.passed i e x hx)
    · exact List.nodup_cons.2 ⟨hdm, h.once⟩
    · exact .inr hlast'
    · intro x hx
      rcases List.mem_cons.1 hx with e | e
      · subst e; exact h5 x hd
      · exact h.only x e
  | arrive p _ hr =>
    have hpp := (hP p).making [] hr
    subst hpp
    obtain ⟨h1, _⟩ := h.during [] hr
    have hall : ∀ d ∈ c.root :: c.subs, d ∈ s.made := by
      intro d hd
      rcases h1 d hd with hx | hx
      · exact hx
      · simp at hx
    refine ⟨?_, ?_, ?_, ?_, h.once, h.first, h.only⟩
    · intro e; simp [setProc] at e
    · intro left e; simp [setProc] at e
    · intro _; exact hall
    · intro i e
      by_cases hi : i = c.primary
      · simp [setProc, hi] at e
      · simp only [setProc, hi, if_false] at e; exact h.passed i e
  | pass p _ hr hall =>
    have hmade := h.after (hall c.primary hp)
    refine ⟨?_, ?_, fun _ => hmade, fun _ _ => hmade, h.once, h.first, h.only⟩
    · intro e
      by_cases hpp : c.primary = p
      · simp [setProc, hpp] at e
      · simp only [setProc, hpp, if_false] at e; exact h.before e
    · intro left e
      by_cases hpp : c.primary = p
      · simp [setProc, hpp] at e
      · simp only [setProc, hpp, if_false] at e; exact h.during left e

theorem ginv_reach {c : Config} (hn : (c.root :: c.subs).Nodup) (hp : c.primary < c.n)
    {s : State} (h : Reach c s) : GInv c s := by
  induction h with
  | init =>
    exact ⟨by simp [initial], by simp [initial], by simp [initial, arrived], by simp [initial],
      by simp [initial], by simp [initial], by simp [initial]⟩
  | step s s' hr hs ih => exact ginv_step hn hp (pinv_reach hr) ih hs

/-- C100: on every schedule, when `await_creation` returns in a process where the
creation has not failed, the temporary directory and all subdirectories have been
made, whatever process it is and whichever coroutine made them. -/
theorem C100_created_partial (c : Config) (hn : (c.root :: c.subs).Nodup) (hp : c.primary < c.n)
    (s : State) (h : Reach c s) (p t : Nat) (hr : (s.procs p).tasks t = .returned)
    (hok : (s.procs p).run ≠ .failed) : ∀ d ∈ c.root :: c.subs, d ∈ s.made := by
  rcases (pinv_reach h p).returned t hr with e | e
  · exact (ginv_reach hn hp h).passed p e
  · exact absurd e hok

/-- C100: on every schedule, with failures or not, no directory is made twice, the
temporary directory is the first, and no other directories are made. -/
theorem C100_once (c : Config) (hn : (c.root :: c.subs).Nodup) (hp : c.primary < c.n)
    (s : State) (h : Reach c s) :
    s.made.Nodup ∧ (s.made = [] ∨ s.made.getLast? = some c.root) ∧
      ∀ d ∈ s.made, d ∈ c.root :: c.subs :=
  ⟨(ginv_reach hn hp h).once, (ginv_reach hn hp h).first, (ginv_reach hn hp h).only⟩

theorem ok_set {c : Config} {s : State} (hok : ∀ p < c.n, (s.procs p).run ≠ .failed) (p : Nat)
    (q : Proc) (m : List String) (hq : q.run ≠ .failed) :
    ∀ i < c.n, (({ setProc s p q with made := m } : State).procs i).run ≠ .failed := by
  intro i hi
  simp only [setProc]
  by_cases he : i = p
  · simp only [he, if_true]; exact hq
  · simp only [he, if_false]; exact hok i hi

/-- C100: coroutines that wait on each other never block for good: while no
creation has failed, some coroutine is unfinished, and every process has started
its creation or has a coroutine that will start it, something other than a failure
can happen. -/
theorem C100_progress (c : Config) (s : State) (h : Reach c s)
    (hok : ∀ p < c.n, (s.procs p).run ≠ .failed)
    (hall : ∀ p < c.n, (s.procs p).run ≠ .notStarted ∨ ∃ t, (s.procs p).tasks t = .waiting ∨
      (s.procs p).tasks t = .holding)
    (p t : Nat) (hpn : p < c.n)
    (ht : (s.procs p).tasks t = .waiting ∨ (s.procs p).tasks t = .holding ∨
      (s.procs p).tasks t = .creating) :
    ∃ s', Step c s s' ∧ ∀ q < c.n, (s'.procs q).run ≠ .failed := by
  have hP := pinv_reach h
  have make : ∀ p < c.n, ∀ left, (s.procs p).run = .making left →
      ∃ s', Step c s s' ∧ ∀ q < c.n, (s'.procs q).run ≠ .failed := by
    intro p hp left hr
    by_cases hroot : c.root ∈ left
    · exact ⟨_, .mkroot s p hp left hr hroot, ok_set hok p _ _ (by simp)⟩
    · cases left with
      | nil => exact ⟨_, .arrive s p hp hr, ok_set hok p _ s.made (by simp)⟩
      | cons d l =>
        exact ⟨_, .mksub s p hp _ d hr hroot (List.mem_cons_self ..), ok_set hok p _ _ (by simp)⟩
  have move : ∀ p < c.n, (∃ t, (s.procs p).tasks t = .waiting ∨ (s.procs p).tasks t = .holding ∨
      (s.procs p).tasks t = .creating) →
      (∃ s', Step c s s' ∧ ∀ q < c.n, (s'.procs q).run ≠ .failed) ∨
        (s.procs p).run = .atBarrier := by
    intro p hp ⟨t, ht⟩
    have hold : ∀ t, (s.procs p).tasks t = .holding →
        ∃ s', Step c s s' ∧ ∀ q < c.n, (s'.procs q).run ≠ .failed := by
      intro t ht
      cases hc : (s.procs p).completed with
      | true => exact ⟨_, .skip s p t hp ht hc, ok_set hok p _ s.made (hok p hp)⟩
      | false =>
        refine ⟨_, .start s p t hp ht hc, ok_set hok p _ s.made ?_⟩
        by_cases hpp : p = c.primary <;> simp [hpp]
    have create : ∀ t, (s.procs p).tasks t = .creating →
        (∃ s', Step c s s' ∧ ∀ q < c.n, (s'.procs q).run ≠ .failed) ∨
          (s.procs p).run = .atBarrier := by
      intro t ht
      rcases (hP p).creating t ht with hr | hr
      · cases hx : (s.procs p).run with
        | making left => exact .inl (make p hp left hx)
        | atBarrier => exact .inr rfl
        | notStarted => rw [hx] at hr; simp [inProgress] at hr
        | passed => rw [hx] at hr; simp [inProgress] at hr
        | failed => rw [hx] at hr; simp [inProgress] at hr
      · exact .inl ⟨_, .finish s p t hp ht hr, ok_set hok p _ s.made (hok p hp)⟩
    rcases ht with ht | ht | ht
    · cases hl : (s.procs p).lock with
      | none => exact .inl ⟨_, .acquire s p t hp hl ht, ok_set hok p _ s.made (hok p hp)⟩
      | some t' =>
        rcases (hP p).holder t' hl with hx | hx
        · exact .inl (hold t' hx)
        · exact create t' hx
    · exact .inl (hold t ht)
    · exact create t ht
  rcases move p hpn ⟨t, ht⟩ with hm | hm
  · exact hm
  · by_cases harr : ∀ q < c.n, arrived (s.procs q).run = true
    · exact ⟨_, .pass s p hpn hm harr, ok_set hok p _ s.made (by simp)⟩
    · have : ∃ q, q < c.n ∧ arrived (s.procs q).run ≠ true := by
        apply Classical.byContradiction
        intro hno
        apply harr
        intro q hq
        apply Classical.byContradiction
        intro hne
        exact hno ⟨q, hq, hne⟩
      obtain ⟨q, hq, hne⟩ := this
      cases hx : (s.procs q).run with
      | making left => exact make q hq left hx
      | atBarrier => rw [hx] at hne; simp [arrived] at hne
      | passed => rw [hx] at hne; simp [arrived] at hne
      | failed => exact absurd hx (hok q hq)
      | notStarted =>
        rcases hall q hq with hy | ⟨t', ht'⟩
        · exact absurd hx hy
        · have ht'' : (s.procs q).tasks t' = .waiting ∨ (s.procs q).tasks t' = .holding ∨
              (s.procs q).tasks t' = .creating := by
            rcases ht' with e | e
            · exact .inl e
            · exact .inr (.inl e)
          rcases move q hq ⟨t', ht''⟩ with hz | hz
          · exact hz
          · rw [hx] at hz; simp at hz

/-! ## Findings -/

/-- C100 (finding): when the creation has failed in a process, every other coroutine
of the process that waits for it gets the path as if nothing had happened: nothing
is made, and the creation is not attempted again. -/
theorem C100_failed_creation_fails (c : Config) (s : State) (h : Reach c s) (p t : Nat)
    (hp : p < c.n) (hf : (s.procs p).run = .failed) (hl : (s.procs p).lock = none)
    (ht : (s.procs p).tasks t = .waiting) :
    ∃ s₁ s₂, Step c s s₁ ∧ Step c s₁ s₂ ∧ (s₂.procs p).tasks t = .returned ∧
      s₂.made = s.made ∧ (s₂.procs p).run = .failed := by
  have hc : (s.procs p).completed = true := by
    cases hx : (s.procs p).completed with
    | true => rfl
    | false =>
      have := ((pinv_reach h p).started).1 hx
      rw [hf] at this; simp at this
  refine ⟨_, _, .acquire s p t hp hl ht, .skip _ p t hp ?_ ?_, ?_, ?_, ?_⟩
  · simp [setProc, setTask]
  · simp [setProc, setTask, hc]
  · simp [setProc, setTask]
  · simp [setProc]
  · simp [setProc, setTask, hf]

/-- One process, one subdirectory, two coroutines: the first fails before anything
is made. -/
theorem failed_reachable : ∃ s, Reach ⟨1, 0, "tmp", ["state"]⟩ s ∧ (s.procs 0).run = .failed ∧
    (s.procs 0).lock = none ∧ (s.procs 0).tasks 1 = .waiting ∧ s.made = [] := by
  have h1 := Reach.step _ _ (Reach.init (c := ⟨1, 0, "tmp", ["state"]⟩))
    (.acquire initial 0 0 (by decide) rfl rfl)
  have h2 := Reach.step _ _ h1 (.start _ 0 0 (by decide) rfl rfl)
  have h3 := Reach.step _ _ h2 (.fail _ 0 0 (by decide) rfl rfl)
  exact ⟨_, h3, rfl, rfl, rfl, rfl⟩

/-- C100 (finding): so a coroutine can be given a directory that does not exist. -/
theorem C100_missing_directory_fails : ∃ s, Reach ⟨1, 0, "tmp", ["state"]⟩ s ∧
    (s.procs 0).tasks 1 = .returned ∧ "state" ∉ s.made := by
  obtain ⟨s, h, hf, hl, ht, hm⟩ := failed_reachable
  obtain ⟨s₁, s₂, st1, st2, hr, hm', _⟩ :=
    C100_failed_creation_fails _ s h 0 1 (by decide) hf hl ht
  refine ⟨s₂, .step _ _ (.step _ _ h st1) st2, hr, ?_⟩
  rw [hm', hm]
  simp

/-! ## The hypotheses can be met -/

/-- Two processes, a subdirectory: the coroutine of the one that is not primary
returns, after the primary one has made both directories. -/
theorem C100_nonvacuous : ∃ s, Reach ⟨2, 0, "tmp", ["state"]⟩ s ∧
    (s.procs 1).tasks 5 = .returned ∧ (s.procs 1).run ≠ .failed ∧ s.made = ["state", "tmp"] := by
  have h1 := Reach.step _ _ (Reach.init (c := ⟨2, 0, "tmp", ["state"]⟩))
    (.acquire initial 1 5 (by decide) rfl rfl)
  have h2 := Reach.step _ _ h1 (.start _ 1 5 (by decide) rfl rfl)
  have h3 := Reach.step _ _ h2 (.acquire _ 0 3 (by decide) rfl rfl)
  have h4 := Reach.step _ _ h3 (.start _ 0 3 (by decide) rfl rfl)
  have h5 := Reach.step _ _ h4 (.mkroot _ 0 (by decide) ["tmp", "state"] rfl (by decide))
  have h6 := Reach.step _ _ h5 (.mksub _ 0 (by decide) ["state"] "state" rfl (by decide) (by decide))
  have h7 := Reach.step _ _ h6 (.arrive _ 0 (by decide) rfl)
  have h8 := Reach.step _ _ h7 (.pass _ 1 (by decide) rfl (by
    intro q hq
    match q, hq with
    | 0, _ => rfl
    | 1, _ => rfl))
  have h9 := Reach.step _ _ h8 (.finish _ 1 5 (by decide) rfl rfl)
  exact ⟨_, h9, rfl, nofun, rfl⟩

end Verif.V1.CreationProps
