import Verif.Async.Model

/-!
# Properties of asynchronous saving (C25)

`Reach P st` quantifies over every sequence of user calls and background steps whose events satisfy `P`.
-/

namespace Verif.Async

/-- Any event. -/
def Any : Ev → Prop := fun _ => True

/-- No cancellation: the user does not call `cancel`, and no commit operation raises `CancelledError`. -/
def Uncancelled : Ev → Prop
  | .cancel => False
  | .bg _ .cancelled => False
  | _ => True

/-! ### Serialization -/

/-- The only thread alive is the current one. -/
def Single (st : State) : Prop :=
  (st.threads = [] ∨ ∃ t, st.threads = [t] ∧ st.cur = some t.id) ∧
  (∀ t ∈ st.threads, t.id < st.next) ∧ (∀ i, st.cur = some i → i < st.next)

theorem doCheck_threads (st : State) :
    (doCheck st).1.threads = st.threads ∧ (doCheck st).1.cur = st.cur ∧ (doCheck st).1.next = st.next ∧
    (doCheck st).1.committed = st.committed := by
  unfold doCheck
  split
  · simp
  · split <;> simp

theorem doWait_threads (st st' : State) (r : Bool) (h : doWait st = some (st', r)) (hs : Single st) :
    st'.threads = [] ∧ st'.cur = none ∧ st'.next = st.next ∧ st'.committed = st.committed ∧ st.threads = [] := by
  unfold doWait at h
  obtain ⟨h1, h2, h3⟩ := hs
  split at h
  · rename_i i hi
    split at h
    · cases h
    · rename_i ha
      have ht : st.threads = [] := by
        rcases h1 with h1 | ⟨t, h1, h1'⟩
        · exact h1
        · exfalso; apply ha
          rw [hi] at h1'
          simp only [Option.some.injEq] at h1'
          simp [alive, h1, h1']
      simp only [Option.some.injEq] at h
      have := doCheck_threads { st with cur := none }
      rw [h] at this
      simp only at this
      exact ⟨this.1.trans ht, this.2.1, this.2.2.1, this.2.2.2, ht⟩
  · rename_i hc
    have ht : st.threads = [] := by
      rcases h1 with h1 | ⟨t, _, h1'⟩
      · exact h1
      · rw [hc] at h1'; cases h1'
    simp only [Option.some.injEq] at h
    have := doCheck_threads st
    rw [h] at this
    simp only at this
    exact ⟨this.1.trans ht, this.2.1.trans hc, this.2.2.1, this.2.2.2, ht⟩

theorem single_finish (st : State) (i : Nat) (hs : Single st) : Single (finish st i) := by
  obtain ⟨h1, h2, h3⟩ := hs
  refine ⟨?_, ?_, h3⟩
  · rcases h1 with h1 | ⟨t, h1, h1'⟩
    · left; simp [finish, h1]
    · by_cases ht : t.id = i
      · left; simp [finish, h1, ht]
      · right; exact ⟨t, by simp [finish, h1, ht], h1'⟩
  · intro t ht
    exact h2 t (List.mem_filter.mp ht).1

theorem single_setPc (st : State) (i : Nat) (pc : Pc) (hs : Single st) : Single (setPc st i pc) := by
  obtain ⟨h1, h2, h3⟩ := hs
  refine ⟨?_, ?_, h3⟩
  · rcases h1 with h1 | ⟨t, h1, h1'⟩
    · left; simp [setPc, h1]
    · right
      by_cases ht : t.id = i
      · exact ⟨⟨i, pc⟩, by simp [setPc, h1, ht], by simp [setPc, h1', ht]⟩
      · exact ⟨t, by simp [setPc, h1, ht], h1'⟩
  · intro t ht
    simp only [setPc, List.mem_map] at ht
    obtain ⟨u, hu, rfl⟩ := ht
    split
    · rename_i he
      have := h2 u hu
      simp only [beq_iff_eq] at he
      rw [he] at this; exact this
    · exact h2 u hu

theorem single_step (st st' : State) (e : Ev) (hs : Single st) (h : step st e = some st') : Single st' := by
  cases e with
  | save s =>
    simp only [step, doSave] at h
    split at h
    · cases h
    · rename_i st1 hw
      obtain ⟨a, b, c, _⟩ := doWait_threads st st1 true hw hs
      simp only [Option.some.injEq] at h; subst h
      exact ⟨.inl a, by simp [a], by simp [b]⟩
    · rename_i st1 hw
      obtain ⟨a, b, c, _⟩ := doWait_threads st st1 false hw hs
      split at h
      · simp only [Option.some.injEq] at h; subst h
        exact ⟨.inl a, by simp [a], by simp [b]⟩
      · simp only [Option.some.injEq] at h; subst h
        refine ⟨.inr ⟨⟨st1.next, _⟩, by simp only [start, a, List.nil_append]; rfl, rfl⟩, ?_, ?_⟩
        · intro t ht
          simp only [start, a, List.nil_append, List.mem_singleton] at ht
          subst ht; simp [start]
        · intro i hi
          simp only [start, Option.some.injEq] at hi
          simp [start, ← hi]
  | wait =>
    simp only [step, Option.map_eq_some_iff] at h
    obtain ⟨⟨st1, r⟩, hw, rfl⟩ := h
    obtain ⟨a, b, c, _⟩ := doWait_threads st st1 r hw hs
    exact ⟨.inl a, by simp [a], by simp [b]⟩
  | check =>
    simp only [step, Option.some.injEq] at h; subst h
    obtain ⟨a, b, c, _⟩ := doCheck_threads st
    obtain ⟨h1, h2, h3⟩ := hs
    exact ⟨by rw [a, b]; exact h1, by rw [a, c]; exact h2, by rw [b, c]; exact h3⟩
  | cancel =>
    simp only [step, doCancel, Option.some.injEq] at h
    split at h <;> (subst h; exact hs)
  | bg i o =>
    simp only [step, doBg] at h
    split at h
    · cases h
    · split at h
      · simp only [Option.some.injEq, onRaise] at h
        split at h <;> subst h
        · exact single_finish st i hs
        · exact single_finish st i hs
      · simp only [Option.some.injEq, onRaise] at h
        split at h <;> subst h
        · exact single_finish st i hs
        · exact single_finish st i hs
      · split at h <;> simp only [Option.some.injEq] at h <;> subst h
        · exact single_setPc st i _ hs
        · exact single_setPc st i _ hs
        · exact single_setPc st i _ hs
        · exact single_finish st i hs

theorem single_reach (P : Ev → Prop) (st : State) (h : Reach P st) : Single st := by
  induction h with
  | init => exact ⟨.inl rfl, by simp [init], by simp [init]⟩
  | step st st' e _ _ hs ih => exact single_step st st' e ih hs

/-- **C25** at most one background commit is running at any time, whatever is called when (cancellations
included). -/
theorem C25_serialized (st : State) (h : Reach Any st) : st.threads.length ≤ 1 := by
  rcases (single_reach _ st h).1 with h | ⟨t, h, _⟩ <;> simp [h]

/-! ### No lost errors -/

/-- Inductive invariant without cancellation. -/
structure Inv (st : State) : Prop where
  single : Single st
  noCancel : st.cancelReq = false
  /-- a pending exception belongs to the current save, whose thread has finished -/
  pending : ∀ i, st.exc = some i → st.cur = some i ∧ st.threads = []
  /-- every save that is not running has been committed, reported, or its error is pending -/
  accounted : ∀ i, i < st.next → alive st i = true ∨ i ∈ st.committed ∨ i ∈ st.reported ∨ st.exc = some i
  /-- errors are reported at most once, only for finished saves -/
  once : st.reported.Nodup
  repLt : ∀ i ∈ st.reported, i < st.next ∧ alive st i = false ∧ st.exc ≠ some i
  comOnce : st.committed.Nodup
  comLt : ∀ i ∈ st.committed, i < st.next
  /-- a running thread has committed iff it is at the final barrier -/
  running : ∀ t ∈ st.threads, t.id ∈ st.committed ↔ t.pc = .barrier

theorem inv_check (st : State) (hi : Inv st) : Inv (doCheck st).1 ∧
    ((doCheck st).1.exc = none) := by
  unfold doCheck
  split
  · rename_i h; exact ⟨hi, h⟩
  · rename_i i h
    rw [if_neg (by simp [hi.noCancel])]
    refine ⟨?_, rfl⟩
    obtain ⟨hc, ht⟩ := hi.pending i h
    have hlt := hi.single.2.2 i hc
    have hnr : i ∉ st.reported := fun hr => (hi.repLt i hr).2.2 h
    exact {
      single := hi.single
      noCancel := hi.noCancel
      pending := by simp
      accounted := by
        intro j hj
        rcases hi.accounted j hj with h' | h' | h' | h'
        · exact .inl h'
        · exact .inr (.inl h')
        · exact .inr (.inr (.inl (by simp [h'])))
        · rw [h] at h'; simp only [Option.some.injEq] at h'
          exact .inr (.inr (.inl (by simp [h'])))
      once := by
        simp only [List.nodup_append]
        refine ⟨hi.once, by simp, ?_⟩
        intro a ha b hb
        simp only [List.mem_singleton] at hb
        rintro rfl
        exact hnr (hb ▸ ha)
      repLt := by
        intro j hj
        simp only [List.mem_append, List.mem_singleton] at hj
        rcases hj with hj | rfl
        · exact ⟨(hi.repLt j hj).1, (hi.repLt j hj).2.1, by simp⟩
        · exact ⟨hlt, by simp [alive, ht], by simp⟩
      comOnce := hi.comOnce
      comLt := hi.comLt
      running := hi.running }

theorem inv_clearCur (st : State) (hi : Inv st) (ht : st.threads = []) (he : st.exc = none) :
    Inv { st with cur := none } where
  single := ⟨.inl ht, hi.single.2.1, by simp⟩
  noCancel := hi.noCancel
  pending := by simp [he]
  accounted := hi.accounted
  once := hi.once
  repLt := hi.repLt
  comOnce := hi.comOnce
  comLt := hi.comLt
  running := hi.running

theorem check_cur (st : State) (c : Option Nat) :
    (doCheck { st with cur := c }) = ({ (doCheck st).1 with cur := c }, (doCheck st).2) := by
  unfold doCheck
  cases h : st.exc with
  | none => simp [h]
  | some i => simp only; split <;> simp_all

theorem inv_wait (st st' : State) (r : Bool) (hi : Inv st) (h : doWait st = some (st', r)) :
    Inv st' ∧ st'.exc = none := by
  have hth := doWait_threads st st' r h hi.single
  unfold doWait at h
  split at h
  · split at h
    · cases h
    · simp only [Option.some.injEq] at h
      rw [check_cur] at h
      obtain ⟨h1, h2⟩ := inv_check st hi
      have h3 : st' = { (doCheck st).1 with cur := none } := by
        have := congrArg Prod.fst h; exact this.symm
      subst h3
      exact ⟨inv_clearCur _ h1 hth.1 h2, h2⟩
  · simp only [Option.some.injEq] at h
    have := inv_check st hi
    rw [h] at this
    exact this

theorem alive_filter (st : State) (i j : Nat) : alive (finish st i) j = (alive st j && j != i) := by
  unfold alive finish
  simp only [List.any_filter]
  by_cases h : j = i
  · subst h
    simp
  · rw [show (j != i) = true by simpa using h, Bool.and_true]
    congr 1
    funext t
    by_cases ht : t.id = j
    · simp [ht, h]
    · simp [ht]

theorem alive_setPc (st : State) (i j : Nat) (pc : Pc) : alive (setPc st i pc) j = alive st j := by
  unfold alive setPc
  simp only [List.any_map]
  congr 1
  funext t
  simp only [Function.comp]
  split
  · rename_i h; simp only [beq_iff_eq] at h; simp [h]
  · rfl

theorem inv_step (st st' : State) (e : Ev) (hu : Uncancelled e) (hi : Inv st) (h : step st e = some st') :
    Inv st' := by
  have hsingle := single_step st st' e hi.single h
  cases e with
  | cancel => exact absurd hu id
  | check =>
    simp only [step, Option.some.injEq] at h; subst h
    exact (inv_check st hi).1
  | wait =>
    simp only [step, Option.map_eq_some_iff] at h
    obtain ⟨⟨st1, r⟩, hw, rfl⟩ := h
    exact (inv_wait st st1 r hi hw).1
  | save s =>
    simp only [step, doSave] at h
    split at h
    · cases h
    · rename_i st1 hw
      simp only [Option.some.injEq] at h; subst h
      exact (inv_wait st _ _ hi hw).1
    · rename_i st1 hw
      obtain ⟨h1, h2⟩ := inv_wait st _ _ hi hw
      have hth := doWait_threads st st1 _ hw hi.single
      split at h
      · simp only [Option.some.injEq] at h; subst h; exact h1
      · rename_i k
        simp only [Option.some.injEq] at h; subst h
        exact {
          single := hsingle
          noCancel := rfl
          pending := by
            intro i he
            have : st1.exc = some i := he
            rw [h2] at this; cases this
          accounted := by
            intro i hlt
            simp only [start] at hlt
            by_cases he : i = st1.next
            · left; simp [alive, start, he]
            · rcases h1.accounted i (by omega) with h' | h' | h' | h'
              · simp [alive, hth.1] at h'
              · exact .inr (.inl h')
              · exact .inr (.inr (.inl h'))
              · rw [h2] at h'; cases h'
          once := h1.once
          repLt := by
            intro i hr
            obtain ⟨a, b, c⟩ := h1.repLt i hr
            refine ⟨?_, ?_, c⟩
            · simp only [start]; omega
            · simp only [alive, start, hth.1, List.nil_append, List.any_cons, List.any_nil, Bool.or_false,
                beq_eq_false_iff_ne]
              omega
          comOnce := h1.comOnce
          comLt := by
            intro i hr
            have := h1.comLt i hr
            simp only [start]; omega
          running := by
            intro t ht
            simp only [start, hth.1, List.nil_append, List.mem_singleton] at ht
            subst ht
            simp only [start, reduceCtorEq, iff_false]
            intro hc
            have := h1.comLt _ hc
            omega }
  | bg i o =>
    simp only [step, doBg] at h
    split at h
    · cases h
    · rename_i t hf
      have htm := List.mem_of_find?_eq_some hf
      have hti : t.id = i := by simpa using List.find?_some hf
      have hlist : st.threads = [t] ∧ st.cur = some i := by
        rcases hi.single.1 with h0 | ⟨u, h0, h0'⟩
        · rw [h0] at htm; cases htm
        · rw [h0, List.mem_singleton] at htm
          subst htm
          exact ⟨h0, by rw [h0', hti]⟩
      have hlive : alive st i = true := by simp [alive, hlist.1, hti]
      have hexc : st.exc = none := by
        cases he : st.exc with
        | none => rfl
        | some j => have := (hi.pending j he).2; rw [hlist.1] at this; cases this
      have hlt : i < st.next := by rw [← hti]; exact hi.single.2.1 t htm
      have hnr : i ∉ st.reported := by
        intro hr
        have := (hi.repLt i hr).2.1
        rw [hlive] at this; cases this
      cases o with
      | cancelled => exact absurd hu id
      | raise =>
        simp only [Option.some.injEq, onRaise, Bool.false_or, hi.noCancel, Bool.false_eq_true, if_false] at h
        subst h
        exact {
          single := hsingle
          noCancel := hi.noCancel
          pending := by
            intro j hj
            simp only [Option.some.injEq] at hj
            subst hj
            exact ⟨hlist.2, by simp [finish, hlist.1, hti]⟩
          accounted := by
            intro j hj
            by_cases hji : j = i
            · subst hji; exact .inr (.inr (.inr rfl))
            · rcases hi.accounted j hj with h' | h' | h' | h'
              · simp [alive, hlist.1, hti] at h'
                exact absurd h'.symm hji
              · exact .inr (.inl h')
              · exact .inr (.inr (.inl h'))
              · rw [hexc] at h'; cases h'
          once := hi.once
          repLt := by
            intro j hj
            obtain ⟨a, b, _⟩ := hi.repLt j hj
            refine ⟨a, ?_, ?_⟩
            · simp [alive, finish, hlist.1, hti]
            · simp only [ne_eq, Option.some.injEq]
              rintro rfl
              exact hnr hj
          comOnce := hi.comOnce
          comLt := hi.comLt
          running := by
            intro u hu'
            simp [finish, hlist.1, hti] at hu' }
      | ok =>
        simp only at h
        have hset : ∀ pc : Pc, pc ≠ .barrier → t.pc ≠ .barrier → Inv (setPc st i pc) := by
          intro pc hpc htpc
          exact {
            single := single_setPc st i pc hi.single
            noCancel := hi.noCancel
            pending := by
              intro j hj
              have : st.exc = some j := hj
              rw [hexc] at this; cases this
            accounted := by
              intro j hj
              rw [alive_setPc]
              exact hi.accounted j hj
            once := hi.once
            repLt := by
              intro j hj
              rw [alive_setPc]
              exact hi.repLt j hj
            comOnce := hi.comOnce
            comLt := hi.comLt
            running := by
              intro u hu'
              simp only [setPc, hlist.1, List.map_cons, List.map_nil, hti, beq_self_eq_true, if_true,
                List.mem_singleton] at hu'
              subst hu'
              simp only [hpc, iff_false]
              intro hc
              have := (hi.running t htm).mp (by rw [hti]; exact hc)
              exact htpc this }
        split at h <;> simp only [Option.some.injEq] at h
        · rename_i n hpc; subst h; exact hset _ (by simp) (by simp [hpc])
        · rename_i hpc; subst h; exact hset _ (by simp) (by simp [hpc])
        · rename_i hpc
          subst h
          have hnc : i ∉ st.committed := by
            intro hc
            have := (hi.running t htm).mp (by rw [hti]; exact hc)
            rw [hpc] at this; cases this
          exact {
            single := single_setPc st i _ hi.single
            noCancel := hi.noCancel
            pending := by
              intro j hj
              have : st.exc = some j := hj
              rw [hexc] at this; cases this
            accounted := by
              intro j hj
              have := hi.accounted j hj
              rw [← alive_setPc st i j .barrier] at this
              rcases this with h' | h' | h' | h'
              · exact .inl h'
              · exact .inr (.inl (by simp [h']))
              · exact .inr (.inr (.inl h'))
              · exact .inr (.inr (.inr h'))
            once := hi.once
            repLt := by
              intro j hj
              have := hi.repLt j hj
              rw [← alive_setPc st i j .barrier] at this
              exact this
            comOnce := by
              simp only [List.nodup_append]
              refine ⟨hi.comOnce, by simp, ?_⟩
              intro a ha b hb
              simp only [List.mem_singleton] at hb
              rintro rfl
              exact hnc (hb ▸ ha)
            comLt := by
              intro j hj
              simp only [List.mem_append, List.mem_singleton] at hj
              rcases hj with hj | rfl
              · exact hi.comLt j hj
              · exact hlt
            running := by
              intro u hu'
              simp only [setPc, hlist.1, List.map_cons, List.map_nil, hti, beq_self_eq_true, if_true,
                List.mem_singleton] at hu'
              subst hu'
              simp }
        · rename_i hpc
          subst h
          have hc : i ∈ st.committed := by
            have := (hi.running t htm).mpr hpc
            rwa [hti] at this
          exact {
            single := hsingle
            noCancel := hi.noCancel
            pending := by
              intro j hj
              have : st.exc = some j := hj
              rw [hexc] at this; cases this
            accounted := by
              intro j hj
              by_cases hji : j = i
              · subst hji; exact .inr (.inl hc)
              · rw [alive_filter]
                rw [show (j != i) = true by simpa using hji, Bool.and_true]
                exact hi.accounted j hj
            once := hi.once
            repLt := by
              intro j hj
              obtain ⟨a, b, c⟩ := hi.repLt j hj
              exact ⟨a, by rw [alive_filter, b]; rfl, c⟩
            comOnce := hi.comOnce
            comLt := hi.comLt
            running := by
              intro u hu'
              simp [finish, hlist.1, hti] at hu' }

theorem inv_reach (st : State) (h : Reach Uncancelled st) : Inv st := by
  induction h with
  | init =>
    exact {
      single := ⟨.inl rfl, by simp [init], by simp [init]⟩
      noCancel := rfl, pending := by simp [init], accounted := by simp [init], once := by simp [init]
      repLt := by simp [init], comOnce := by simp [init], comLt := by simp [init], running := by simp [init] }
  | step st st' e _ hp hs ih => exact inv_step st st' e hp ih hs

/-- **C25** without cancellation, whenever `wait_until_finished` returns or raises, every save started so
far has been committed or has had its background error raised to the user; and no error is raised twice. -/
theorem C25_wait_accounts_for_every_save (st st' : State) (r : Bool) (h : Reach Uncancelled st)
    (hw : doWait st = some (st', r)) :
    (∀ i, i < st'.next → i ∈ st'.committed ∨ i ∈ st'.reported) ∧ st'.reported.Nodup := by
  have hi := inv_reach st h
  obtain ⟨h1, h2⟩ := inv_wait st st' r hi hw
  have hth := doWait_threads st st' r hw hi.single
  refine ⟨fun i hlt => ?_, h1.once⟩
  rcases h1.accounted i hlt with h' | h' | h' | h'
  · simp [alive, hth.1] at h'
  · exact .inl h'
  · exact .inr h'
  · rw [h2] at h'; cases h'

/-- **C25** without cancellation, `wait_until_finished` returning normally implies that the save it waited
for was committed, unless its error was raised to the user before (by `check_for_errors`). -/
theorem C25_wait_ok_means_committed (st st' : State) (h : Reach Uncancelled st) (i : Nat)
    (hc : st.cur = some i) (hr : i ∉ st.reported) (hw : doWait st = some (st', false)) :
    i ∈ st'.committed := by
  have hi := inv_reach st h
  have hth := doWait_threads st st' false hw hi.single
  have hlt : i < st'.next := by rw [hth.2.2.1]; exact hi.single.2.2 i hc
  rcases (C25_wait_accounts_for_every_save st st' false h hw).1 i hlt with h' | h'
  · exact h'
  · exfalso
    unfold doWait at hw
    rw [hc] at hw
    simp only at hw
    split at hw
    · cases hw
    · simp only [Option.some.injEq] at hw
      have hrep : st'.reported = st.reported := by
        unfold doCheck at hw
        simp only at hw
        split at hw
        · simp only [Prod.mk.injEq, and_true] at hw
          rw [← hw]
        · split at hw
          · simp only [Prod.mk.injEq, and_true] at hw
            rw [← hw]
          · simp at hw
      rw [hrep] at h'
      exact hr h'

/-- **C25** without cancellation, at any time: errors are never raised twice, and a save is committed at
most once. -/
theorem C25_errors_once (st : State) (h : Reach Uncancelled st) : st.reported.Nodup ∧ st.committed.Nodup :=
  ⟨(inv_reach st h).once, (inv_reach st h).comOnce⟩

/-! ### Findings -/

/-- Run a sequence of events. -/
def runEvs : State → List Ev → Option State
  | st, [] => some st
  | st, e :: es => (step st e).bind fun st' => runEvs st' es

theorem reach_run (P : Ev → Prop) (es : List Ev) (hP : ∀ e ∈ es, P e) (st st' : State) (h : Reach P st)
    (hr : runEvs st es = some st') : Reach P st' := by
  induction es generalizing st with
  | nil => simp only [runEvs, Option.some.injEq] at hr; exact hr ▸ h
  | cons e es ih =>
    simp only [runEvs] at hr
    cases hs : step st e with
    | none => rw [hs] at hr; cases hr
    | some st1 =>
      rw [hs] at hr
      exact ih (fun e' he' => hP e' (List.mem_cons_of_mem _ he')) st1
        (.step st st1 e h (hP e List.mem_cons_self) hs) hr

/-- Finding: a save that has already failed when `cancel` is called loses its error: the next wait returns
normally, although the save was neither committed nor reported. -/
theorem C25_cancel_swallows_error_fails :
    ∃ st, Reach Any st ∧ st.cur = none ∧ st.next = 1 ∧ st.committed = [] ∧ st.reported = [] :=
  ⟨_, reach_run Any [.save (some 1), .bg 0 .raise, .cancel, .wait] (fun _ _ => trivial) init _ .init rfl,
    by decide, by decide, by decide, by decide⟩

/-- Finding: a `CancelledError` raised by a commit operation although nobody called `cancel` is dropped:
the wait returns normally, but the save was neither committed nor reported. -/
theorem C25_cancelled_error_dropped_fails :
    ∃ st, Reach (fun e => e ≠ .cancel) st ∧ st.cur = none ∧ st.next = 1 ∧ st.committed = [] ∧ st.reported = [] :=
  ⟨_, reach_run _ [.save (some 1), .bg 0 .cancelled, .wait] (by decide) init _ .init rfl,
    by decide, by decide, by decide, by decide⟩

/-- Finding: an error raised by the next save's implicit wait means that this next save is not started. -/
theorem C25_save_after_failure_not_started :
    ∃ st, Reach Uncancelled st ∧ st.next = 1 ∧ st.reported = [0] ∧
      runEvs init [.save (some 1), .bg 0 .raise, .save (some 1)] = some st :=
  ⟨_, reach_run Uncancelled [.save (some 1), .bg 0 .raise, .save (some 1)]
    (by intro e he; simp at he; rcases he with rfl | rfl | rfl <;> trivial) init _ .init rfl,
    by decide, by decide, rfl⟩

/-- Non-vacuity: two saves, the first committed, the second failing at its commit callback. -/
example : ∃ st, Reach Uncancelled st ∧ st.committed = [0] ∧ st.reported = [1] ∧ st.next = 2 :=
  ⟨_, reach_run Uncancelled [.save (some 1), .bg 0 .ok, .bg 0 .ok, .bg 0 .ok, .bg 0 .ok, .save (some 0),
      .bg 1 .ok, .bg 1 .raise, .wait]
    (by intro e he; simp at he; rcases he with rfl | rfl | rfl | rfl | rfl | rfl <;> trivial) init _ .init rfl,
    by decide, by decide, by decide⟩

end Verif.Async
