import Verif.Async.Commit

/-!
# Properties of the background commit (C26)

Specification: `FuturesOk c h evs` says that in the events `evs` all commit futures of host `h` completed
successfully.  The events are the observable history of the save, oldest first.
-/

namespace Verif.Async.Commit

/-- All of `h`'s commit futures completed successfully and none raised. -/
def FuturesOk (c : Config) (h : Nat) (evs : List Event) : Prop :=
  evs.count (.futureOk h) = c.futures h ∧ .futureRaised h ∉ evs

/-- The parts of the callback that ran on host `h`. -/
def ranOn (h : Nat) (evs : List Event) : List Part :=
  evs.filterMap fun | .ran h' p => if h' = h then some p else none | _ => none

@[simp] theorem upd_self {α : Type} (f : Nat → α) (h : Nat) (v : α) : upd f h v h = v := by simp [upd]

theorem upd_ne {α : Type} (f : Nat → α) {h h' : Nat} (v : α) (hne : h' ≠ h) : upd f h v h' = f h' := by
  simp [upd, hne]

/-- `h` has finished with its futures. -/
def Wrote (c : Config) (st : State) (h : Nat) : Prop :=
  FuturesOk c h st.log ∧ ∀ k, st.pc h ≠ .futures k

/-- Past the first barrier. -/
def Past : Pc → Prop
  | .callback _ => True
  | .commitBarrier => True
  | .done => True
  | _ => False

/-! ### Futures complete before the callback -/

structure InvA (c : Config) (st : State) : Prop where
  futures : ∀ h k, st.pc h = .futures k →
    st.log.count (.futureOk h) + k = c.futures h ∧ .futureRaised h ∉ st.log
  arrived : ∀ h, st.arrivedWrite h = true → Wrote c st h
  past : ∀ h, h < c.n → Past (st.pc h) → ∀ h', h' < c.n → Wrote c st h'
  order : ∀ pre post h p, st.log = pre ++ .ran h p :: post → ∀ h', h' < c.n → FuturesOk c h' pre
  stay : ∀ h p, .ran h p ∈ st.log → ∀ h', h' < c.n → Wrote c st h'
  raisedLt : ∀ h, .futureRaised h ∈ st.log → h < c.n

theorem count_append_other (evs : List Event) (e e' : Event) (h : e ≠ e') :
    (evs ++ [e]).count e' = evs.count e' := by
  rw [List.count_append, List.count_singleton]
  simp [h]

theorem order_append (evs : List Event) (e : Event) (pre post : List Event) (h : Nat) (p : Part)
    (heq : evs ++ [e] = pre ++ .ran h p :: post) :
    (∃ post', evs = pre ++ .ran h p :: post') ∨ (evs = pre ∧ e = .ran h p) := by
  rcases List.eq_nil_or_concat post with hp | ⟨post', x, hp⟩
  · subst hp
    right
    have := List.append_inj' (s₁ := evs) (s₂ := pre) (t₁ := [e]) (t₂ := [.ran h p]) heq (by simp)
    simpa using this
  · left
    subst hp
    refine ⟨post', ?_⟩
    have : evs ++ [e] = (pre ++ .ran h p :: post') ++ [x] := by rw [heq]; simp
    exact (List.append_inj' this (by simp)).1

/-- A move of host `h` away from the futures that logs nothing about futures. -/
theorem invA_move (c : Config) (st : State) (h : Nat) (hn : h < c.n) (pc : Pc) (aw ac : Nat → Bool) (evs : List Event)
    (hi : InvA c st)
    (hpc : ∀ k, pc ≠ .futures k)
    (hevs : evs = [] ∨ ∃ p, evs = [.ran h p])
    (hpast : evs ≠ [] → Past (st.pc h))
    (haw : aw = st.arrivedWrite ∨ (aw = upd st.arrivedWrite h true ∧ FuturesOk c h st.log))
    (hp : Past pc → Past (st.pc h) ∨ (∀ h', h' < c.n → h' ≠ h → Wrote c st h') ∧ FuturesOk c h st.log) :
    InvA c ⟨upd st.pc h pc, aw, ac, st.log ++ evs⟩ := by
  have hcount : ∀ h', (st.log ++ evs).count (.futureOk h') = st.log.count (.futureOk h') := by
    intro h'
    rcases hevs with rfl | ⟨p, rfl⟩
    · simp
    · exact count_append_other _ _ _ (by simp)
  have hmem : ∀ h', Event.futureRaised h' ∈ st.log ++ evs ↔ Event.futureRaised h' ∈ st.log := by
    intro h'
    rcases hevs with rfl | ⟨p, rfl⟩ <;> simp
  have hfo : ∀ h', FuturesOk c h' (st.log ++ evs) ↔ FuturesOk c h' st.log := by
    intro h'; unfold FuturesOk; rw [hcount, hmem]
  have hw : ∀ h', Wrote c st h' → Wrote c ⟨upd st.pc h pc, aw, ac, st.log ++ evs⟩ h' := by
    intro h' ⟨h1, h2⟩
    refine ⟨(hfo h').mpr h1, ?_⟩
    intro k
    by_cases he : h' = h
    · subst he; simp [hpc]
    · simp only [upd_ne _ _ he]; exact h2 k
  have hself : FuturesOk c h st.log → Wrote c ⟨upd st.pc h pc, aw, ac, st.log ++ evs⟩ h := by
    intro h1
    exact ⟨(hfo h).mpr h1, by simp [hpc]⟩
  refine ⟨?_, ?_, ?_, ?_, ?_, fun h' hm => hi.raisedLt h' ((hmem h').mp hm)⟩
  · intro h' k hk
    by_cases he : h' = h
    · subst he; simp [hpc] at hk
    · simp only [upd_ne _ _ he] at hk
      have := hi.futures h' k hk
      simp only [hcount, hmem]
      exact this
  · intro h' ha
    simp only at ha
    rcases haw with haw | ⟨haw, hf⟩
    · exact hw h' (hi.arrived h' (by rw [← haw]; exact ha))
    · by_cases he : h' = h
      · subst he; exact hself hf
      · rw [haw, upd_ne _ _ he] at ha
        exact hw h' (hi.arrived h' ha)
  · intro h1 hn1 hp1 h' hn'
    by_cases he : h1 = h
    · subst he
      simp only [upd_self] at hp1
      rcases hp hp1 with hp2 | ⟨hp2, hf⟩
      · exact hw h' (hi.past h1 hn1 hp2 h' hn')
      · by_cases he' : h' = h1
        · subst he'; exact hself hf
        · exact hw h' (hp2 h' hn' he')
    · simp only [upd_ne _ _ he] at hp1
      exact hw h' (hi.past h1 hn1 hp1 h' hn')
  · intro pre post h1 p hlog h' hn'
    simp only at hlog
    rcases hevs with rfl | ⟨q, rfl⟩
    · rw [List.append_nil] at hlog
      exact hi.order pre post h1 p hlog h' hn'
    · rcases order_append _ _ _ _ _ _ hlog with ⟨post', h2⟩ | ⟨h2, _⟩
      · exact hi.order pre post' h1 p h2 h' hn'
      · rw [← h2]
        exact (hi.past h hn (hpast (by simp)) h' hn').1
  · intro h1 p hm h' hn'
    rcases hevs with rfl | ⟨q, rfl⟩
    · exact hw h' (hi.stay h1 p (by simpa using hm) h' hn')
    · exact hw h' (hi.past h hn (hpast (by simp)) h' hn')

/-- A step of host `h` while waiting for its futures. -/
theorem invA_future (c : Config) (st : State) (h k : Nat) (hn : h < c.n) (hi : InvA c st)
    (hpc : st.pc h = .futures k) (pc : Pc) (e : Event)
    (hcase : (e = .futureOk h ∧ ∃ k', k = k' + 1 ∧ pc = .futures k') ∨ (e = .futureRaised h ∧ pc = .failed)) :
    InvA c ⟨upd st.pc h pc, st.arrivedWrite, st.arrivedCommit, st.log ++ [e]⟩ := by
  have hnw : ¬ Wrote c st h := fun hw => hw.2 k hpc
  have hfo : ∀ h', h' ≠ h → (FuturesOk c h' (st.log ++ [e]) ↔ FuturesOk c h' st.log) := by
    intro h' he
    unfold FuturesOk
    rcases hcase with ⟨rfl, _⟩ | ⟨rfl, _⟩
    · rw [count_append_other _ _ _ (by simp [Ne.symm he])]; simp
    · rw [count_append_other _ _ _ (by simp)]; simp [he]
  have hw : ∀ h', Wrote c st h' → Wrote c ⟨upd st.pc h pc, st.arrivedWrite, st.arrivedCommit, st.log ++ [e]⟩ h' := by
    intro h' hw
    have he : h' ≠ h := by rintro rfl; exact hnw hw
    refine ⟨(hfo h' he).mpr hw.1, ?_⟩
    intro k'
    simp only [upd_ne _ _ he]
    exact hw.2 k'
  have hnpast : ¬ Past pc := by
    rcases hcase with ⟨_, k', _, rfl⟩ | ⟨_, rfl⟩ <;> exact id
  refine ⟨?_, fun h' ha => hw h' (hi.arrived h' ha), ?_, ?_, ?_, ?_⟩
  · intro h' k2 hk
    by_cases he : h' = h
    · subst he
      simp only [upd_self] at hk
      rcases hcase with ⟨rfl, k', rfl, rfl⟩ | ⟨_, rfl⟩
      · simp only [Pc.futures.injEq] at hk
        subst hk
        obtain ⟨h1, h2⟩ := hi.futures h' _ hpc
        refine ⟨?_, by simpa using h2⟩
        rw [List.count_append, List.count_singleton]
        simp only [beq_self_eq_true, if_true]
        omega
      · cases hk
    · simp only [upd_ne _ _ he] at hk
      obtain ⟨h1, h2⟩ := hi.futures h' k2 hk
      rcases hcase with ⟨rfl, _⟩ | ⟨rfl, _⟩
      · simp only
        rw [count_append_other _ _ _ (by simp [Ne.symm he])]
        exact ⟨h1, by simpa using h2⟩
      · simp only
        rw [count_append_other _ _ _ (by simp)]
        exact ⟨h1, by simpa [he] using h2⟩
  · intro h1 hn1 hp1 h' hn'
    by_cases he : h1 = h
    · subst he; simp only [upd_self] at hp1; exact absurd hp1 hnpast
    · simp only [upd_ne _ _ he] at hp1
      exact hw h' (hi.past h1 hn1 hp1 h' hn')
  · intro pre post h1 p hlog h' hn'
    rcases order_append _ _ _ _ _ _ hlog with ⟨post', h2⟩ | ⟨_, h2⟩
    · exact hi.order pre post' h1 p h2 h' hn'
    · rcases hcase with ⟨rfl, _⟩ | ⟨rfl, _⟩ <;> cases h2
  · intro h1 p hm h' hn'
    have : Event.ran h1 p ∈ st.log := by
      rcases hcase with ⟨rfl, _⟩ | ⟨rfl, _⟩ <;> simpa using hm
    exact hw h' (hi.stay h1 p this h' hn')
  · intro h' hm
    rcases hcase with ⟨rfl, _⟩ | ⟨rfl, _⟩
    · exact hi.raisedLt h' (by simpa using hm)
    · simp only [List.mem_append, List.mem_singleton, Event.futureRaised.injEq] at hm
      rcases hm with hm | rfl
      · exact hi.raisedLt h' hm
      · exact hn

theorem past_enter (c : Config) (h : Nat) : Past (enterCallback c h) := trivial

theorem invA_reach (c : Config) (st : State) (h : Reach c st) : InvA c st := by
  induction h with
  | init =>
    refine ⟨?_, by simp [init], ?_, by simp [init], by simp [init], by simp [init]⟩
    · intro h k hk
      simp only [init, Pc.futures.injEq] at hk
      simp [init, hk]
    · intro h _ hp; exact absurd hp id
  | ok st st' h _ hn hs ih =>
    have hmove := fun pc aw ac evs => invA_move c st h hn pc aw ac evs ih
    simp only [stepOk] at hs
    split at hs
    · rename_i k hpc
      simp only [Option.some.injEq] at hs; subst hs
      exact invA_future c st h _ hn ih hpc _ _ (.inl ⟨rfl, k, rfl, rfl⟩)
    · rename_i hpc
      have hf : FuturesOk c h st.log := by
        have := ih.futures h 0 hpc
        exact ⟨by simpa using this.1, this.2⟩
      split at hs <;> simp only [Option.some.injEq] at hs <;> subst hs
      · have := hmove .writeBarrier (upd st.arrivedWrite h true) st.arrivedCommit [] (by simp) (.inl rfl) (by simp)
          (.inr ⟨rfl, hf⟩) (fun h => absurd h id)
        rw [List.append_nil] at this; exact this
      · rename_i hn1
        have := hmove (enterCallback c h) st.arrivedWrite st.arrivedCommit [] (by simp [enterCallback]) (.inl rfl)
          (by simp) (.inl rfl) (fun _ => .inr ⟨fun h' h1 h2 => by omega, hf⟩)
        rw [List.append_nil] at this; exact this
    · split at hs
      · rename_i hpc hall
        simp only [Option.some.injEq] at hs; subst hs
        have hall' : ∀ h', h' < c.n → st.arrivedWrite h' = true := by
          intro h' hh'
          simp only [all, List.all_eq_true, List.mem_range] at hall
          exact hall h' hh'
        have := hmove (enterCallback c h) st.arrivedWrite st.arrivedCommit [] (by simp [enterCallback]) (.inl rfl)
          (by simp) (.inl rfl) (fun _ => .inr ⟨fun h' h1 _ => ih.arrived h' (hall' h' h1),
            (ih.arrived h (hall' h hn)).1⟩)
        rw [List.append_nil] at this; exact this
      · cases hs
    · rename_i p ps hpc
      simp only [Option.some.injEq] at hs; subst hs
      exact hmove (.callback ps) st.arrivedWrite st.arrivedCommit [.ran h p] (by simp) (.inr ⟨p, rfl⟩)
        (fun _ => by rw [hpc]; trivial) (.inl rfl) (fun _ => .inl (by rw [hpc]; trivial))
    · rename_i hpc
      split at hs <;> simp only [Option.some.injEq] at hs <;> subst hs
      · have := hmove .commitBarrier st.arrivedWrite (upd st.arrivedCommit h true) [] (by simp) (.inl rfl) (by simp)
          (.inl rfl) (fun _ => .inl (by rw [hpc]; trivial))
        rw [List.append_nil] at this; exact this
      · have := hmove .done st.arrivedWrite st.arrivedCommit [] (by simp) (.inl rfl) (by simp)
          (.inl rfl) (fun _ => .inl (by rw [hpc]; trivial))
        rw [List.append_nil] at this; exact this
    · rename_i hpc
      split at hs
      · simp only [Option.some.injEq] at hs; subst hs
        have := hmove .done st.arrivedWrite st.arrivedCommit [] (by simp) (.inl rfl) (by simp)
          (.inl rfl) (fun _ => .inl (by rw [hpc]; trivial))
        rw [List.append_nil] at this; exact this
      · cases hs
    · cases hs
    · cases hs
  | raise st st' h _ hn hs ih =>
    simp only [stepRaise] at hs
    split at hs
    · rename_i k hpc
      simp only [Option.some.injEq] at hs; subst hs
      exact invA_future c st h _ hn ih hpc _ _ (.inr ⟨rfl, rfl⟩)
    · cases hs
    · cases hs
    · simp only [Option.some.injEq] at hs; subst hs
      have := invA_move c st h hn .failed st.arrivedWrite st.arrivedCommit [] ih (by simp) (.inl rfl) (by simp)
          (.inl rfl) (fun h => absurd h id)
      rw [List.append_nil] at this; exact this

/-- **C26** whenever any part of the commit callback runs on any host, all commit futures of all hosts have
already completed successfully.  In particular the checkpoint is made visible only after that. -/
theorem C26_commit_after_all_futures (c : Config) (st : State) (hr : Reach c st) (pre post : List Event) (h : Nat)
    (p : Part) (hlog : st.log = pre ++ .ran h p :: post) : ∀ h', h' < c.n → FuturesOk c h' pre :=
  (invA_reach c st hr).order pre post h p hlog

/-- **C26** if a commit future failed on any host, no part of the commit callback ever runs, on any host: the
checkpoint is never made visible. -/
theorem C26_failed_future_never_commits (c : Config) (st : State) (hr : Reach c st) (h' : Nat)
    (hf : .futureRaised h' ∈ st.log) (h : Nat) (p : Part) : .ran h p ∉ st.log := by
  intro hm
  have hA := invA_reach c st hr
  exact (hA.stay h p hm h' (hA.raisedLt h' hf)).1.2 hf

/-! ### The callback -/

/-- What host `h` should run in total. -/
def allParts (c : Config) (h : Nat) : List Part := if isPrimary c h then parts else []

structure InvB (c : Config) (st : State) : Prop where
  pre : ∀ h, ranOn h st.log <+: allParts c h
  before : ∀ h, (∃ k, st.pc h = .futures k) ∨ st.pc h = .writeBarrier → ranOn h st.log = []
  within : ∀ h l, st.pc h = .callback l → ranOn h st.log ++ l = allParts c h
  after : ∀ h, st.arrivedCommit h = true ∨ st.pc h = .done → ranOn h st.log = allParts c h ∧ ∀ l, st.pc h ≠ .callback l
  waiting : ∀ h, st.pc h = .commitBarrier → st.arrivedCommit h = true
  done : ∀ h, h < c.n → st.pc h = .done → ∀ h', h' < c.n → ranOn h' st.log = allParts c h'
  noDouble : ∀ h, st.arrivedCommit h = true → (∀ k, st.pc h ≠ .futures k) ∧ st.pc h ≠ .writeBarrier

theorem ranOn_append (h : Nat) (a b : List Event) : ranOn h (a ++ b) = ranOn h a ++ ranOn h b := by
  simp [ranOn, List.filterMap_append]

/-- A move of host `h` that runs no part of the callback. -/
theorem invB_move (c : Config) (st : State) (h : Nat) (pc : Pc) (aw ac : Nat → Bool) (evs : List Event)
    (hi : InvB c st) (hevs : ∀ h', ranOn h' evs = [])
    (h1 : (∃ k, pc = .futures k) ∨ pc = .writeBarrier → ∃ k, st.pc h = .futures k)
    (h2 : ∀ l, pc = .callback l → ((∃ k, st.pc h = .futures k) ∨ st.pc h = .writeBarrier) ∧ l = allParts c h)
    (h3 : ac = st.arrivedCommit ∧ pc ≠ .commitBarrier ∨
      ac = upd st.arrivedCommit h true ∧ st.pc h = .callback [] ∧ pc = .commitBarrier)
    (h4 : pc = .done → (st.pc h = .callback [] ∧ c.n ≤ 1) ∨ (all c st.arrivedCommit = true ∧ st.arrivedCommit h = true))
    (hn : h < c.n) :
    InvB c ⟨upd st.pc h pc, aw, ac, st.log ++ evs⟩ := by
  have hr : ∀ h', ranOn h' (st.log ++ evs) = ranOn h' st.log := by
    intro h'; rw [ranOn_append, hevs, List.append_nil]
  refine ⟨?_, ?_, ?_, ?_, ?_, ?_, ?_⟩
  · intro h'; simp only [hr]; exact hi.pre h'
  · intro h' hh
    simp only [hr]
    by_cases he : h' = h
    · subst he
      simp only [upd_self] at hh
      exact hi.before h' (.inl (h1 hh))
    · simp only [upd_ne _ _ he] at hh
      exact hi.before h' hh
  · intro h' l hh
    simp only [hr]
    by_cases he : h' = h
    · subst he
      simp only [upd_self] at hh
      obtain ⟨h5, h6⟩ := h2 l hh
      rw [hi.before h' h5, h6, List.nil_append]
    · simp only [upd_ne _ _ he] at hh
      exact hi.within h' l hh
  · intro h' hh
    simp only [hr]
    by_cases he : h' = h
    · subst he
      simp only [upd_self] at hh ⊢
      rcases h3 with ⟨h3, h3'⟩ | ⟨h3, h3', h3''⟩
      · rcases hh with hh | hh
        · rw [h3] at hh
          refine ⟨(hi.after h' (.inl hh)).1, ?_⟩
          intro l hl
          obtain ⟨h5, _⟩ := h2 l hl
          have := hi.noDouble h' hh
          rcases h5 with ⟨k, h5⟩ | h5
          · exact this.1 k h5
          · exact this.2 h5
        · refine ⟨?_, by simp [hh]⟩
          rcases h4 hh with ⟨h5, _⟩ | ⟨_, h5⟩
          · have := hi.within h' _ h5
            rwa [List.append_nil] at this
          · exact (hi.after h' (.inl h5)).1
      · refine ⟨?_, by simp [h3'']⟩
        have := hi.within h' _ h3'
        rwa [List.append_nil] at this
    · simp only [upd_ne _ _ he] at hh ⊢
      rcases h3 with ⟨h3, _⟩ | ⟨h3, _, _⟩
      · rw [h3] at hh; exact hi.after h' hh
      · rw [h3, upd_ne _ _ he] at hh; exact hi.after h' hh
  · intro h' hh
    by_cases he : h' = h
    · subst he
      simp only [upd_self] at hh
      rcases h3 with ⟨_, h3⟩ | ⟨h3, _, _⟩
      · exact absurd hh h3
      · simp [h3]
    · simp only [upd_ne _ _ he] at hh
      rcases h3 with ⟨h3, _⟩ | ⟨h3, _, _⟩
      · rw [h3]; exact hi.waiting h' hh
      · rw [h3]; simp only [upd_ne _ _ he]; exact hi.waiting h' hh
  · intro h' hn' hh h5 hn5
    simp only [hr]
    by_cases he : h' = h
    · subst he
      simp only [upd_self] at hh
      rcases h4 hh with ⟨h6, h7⟩ | ⟨h6, _⟩
      · have : h5 = h' := by omega
        subst this
        have := hi.within h5 _ h6
        rwa [List.append_nil] at this
      · simp only [all, List.all_eq_true, List.mem_range] at h6
        exact (hi.after h5 (.inl (h6 h5 hn5))).1
    · simp only [upd_ne _ _ he] at hh
      exact hi.done h' hn' hh h5 hn5
  · intro h' hh
    by_cases he : h' = h
    · subst he
      simp only [upd_self]
      have key : (∃ k, pc = .futures k) ∨ pc = .writeBarrier → False := by
        intro h6
        obtain ⟨k, h7⟩ := h1 h6
        rcases h3 with ⟨h3, _⟩ | ⟨_, h3, _⟩
        · rw [h3] at hh; exact (hi.noDouble h' hh).1 k h7
        · rw [h3] at h7; cases h7
      exact ⟨fun k hk => key (.inl ⟨k, hk⟩), fun hk => key (.inr hk)⟩
    · simp only [upd_ne _ _ he]
      rcases h3 with ⟨h3, _⟩ | ⟨h3, _, _⟩
      · rw [h3] at hh; exact hi.noDouble h' hh
      · rw [h3] at hh; simp only [upd_ne _ _ he] at hh; exact hi.noDouble h' hh

theorem invB_ran (c : Config) (st : State) (h : Nat) (p : Part) (ps : List Part) (hi : InvB c st)
    (hpc : st.pc h = .callback (p :: ps)) :
    InvB c ⟨upd st.pc h (.callback ps), st.arrivedWrite, st.arrivedCommit, st.log ++ [.ran h p]⟩ := by
  have hself : ranOn h (st.log ++ [.ran h p]) = ranOn h st.log ++ [p] := by
    rw [ranOn_append]; simp [ranOn]
  have hother : ∀ h', h' ≠ h → ranOn h' (st.log ++ [.ran h p]) = ranOn h' st.log := by
    intro h' he; rw [ranOn_append]; simp [ranOn, Ne.symm he]
  have hw := hi.within h _ hpc
  have hnotdone : st.arrivedCommit h = false := by
    cases ha : st.arrivedCommit h with
    | false => rfl
    | true => exact absurd hpc ((hi.after h (.inl ha)).2 _)
  refine ⟨?_, ?_, ?_, ?_, ?_, ?_, ?_⟩
  · intro h'
    by_cases he : h' = h
    · subst he
      simp only [hself]
      exact ⟨ps, by rw [List.append_assoc]; exact hw⟩
    · simp only [hother h' he]; exact hi.pre h'
  · intro h' hh
    by_cases he : h' = h
    · subst he; simp at hh
    · simp only [upd_ne _ _ he] at hh
      simp only [hother h' he]; exact hi.before h' hh
  · intro h' l hh
    by_cases he : h' = h
    · subst he
      simp only [upd_self, Pc.callback.injEq] at hh
      subst hh
      simp only [hself, List.append_assoc]
      exact hw
    · simp only [upd_ne _ _ he] at hh
      simp only [hother h' he]; exact hi.within h' l hh
  · intro h' hh
    by_cases he : h' = h
    · subst he; simp [hnotdone] at hh
    · simp only [upd_ne _ _ he] at hh ⊢
      simp only [hother h' he]; exact hi.after h' hh
  · intro h' hh
    by_cases he : h' = h
    · subst he; simp at hh
    · simp only [upd_ne _ _ he] at hh
      exact hi.waiting h' hh
  · intro h' hn' hh h5 hn5
    by_cases he : h' = h
    · subst he; simp at hh
    · simp only [upd_ne _ _ he] at hh
      by_cases he5 : h5 = h
      · subst he5
        have := hi.done h' hn' hh h5 hn5
        rw [this] at hw
        simp at hw
      · simp only [hother h5 he5]
        exact hi.done h' hn' hh h5 hn5
  · intro h' hh
    by_cases he : h' = h
    · subst he; simp
    · simp only [upd_ne _ _ he]; exact hi.noDouble h' hh

theorem invB_reach (c : Config) (st : State) (h : Reach c st) : InvB c st := by
  induction h with
  | init =>
    refine ⟨?_, ?_, ?_, ?_, ?_, ?_, ?_⟩ <;> simp [init, ranOn]
  | ok st st' h _ hn hs ih =>
    have hmove := fun pc aw ac evs hevs h1 h2 h3 h4 => invB_move c st h pc aw ac evs ih hevs h1 h2 h3 h4 hn
    simp only [stepOk] at hs
    split at hs
    · rename_i k hpc
      simp only [Option.some.injEq] at hs; subst hs
      exact hmove _ _ _ [.futureOk h] (by simp [ranOn]) (fun _ => ⟨_, hpc⟩) (by simp) (.inl ⟨rfl, by simp⟩) (by simp)
    · rename_i hpc
      split at hs <;> simp only [Option.some.injEq] at hs <;> subst hs
      · have := hmove .writeBarrier (upd st.arrivedWrite h true) st.arrivedCommit [] (by simp [ranOn])
          (fun _ => ⟨_, hpc⟩) (by simp) (.inl ⟨rfl, by simp⟩) (by simp)
        rw [List.append_nil] at this; exact this
      · have := hmove (enterCallback c h) st.arrivedWrite st.arrivedCommit [] (by simp [ranOn])
          (by simp [enterCallback]) (fun l hl => ⟨.inl ⟨_, hpc⟩, by simp only [enterCallback, Pc.callback.injEq] at hl; exact hl.symm⟩)
          (.inl ⟨rfl, by simp [enterCallback]⟩) (by simp [enterCallback])
        rw [List.append_nil] at this; exact this
    · rename_i hpc
      split at hs
      · simp only [Option.some.injEq] at hs; subst hs
        have := hmove (enterCallback c h) st.arrivedWrite st.arrivedCommit [] (by simp [ranOn])
          (by simp [enterCallback]) (fun l hl => ⟨.inr hpc, by simp only [enterCallback, Pc.callback.injEq] at hl; exact hl.symm⟩)
          (.inl ⟨rfl, by simp [enterCallback]⟩) (by simp [enterCallback])
        rw [List.append_nil] at this; exact this
      · cases hs
    · rename_i p ps hpc
      simp only [Option.some.injEq] at hs; subst hs
      exact invB_ran c st h p ps ih hpc
    · rename_i hpc
      split at hs <;> simp only [Option.some.injEq] at hs <;> subst hs
      · have := hmove .commitBarrier st.arrivedWrite (upd st.arrivedCommit h true) [] (by simp [ranOn]) (by simp)
          (by simp) (.inr ⟨rfl, hpc, rfl⟩) (by simp)
        rw [List.append_nil] at this; exact this
      · rename_i hn1
        have := hmove .done st.arrivedWrite st.arrivedCommit [] (by simp [ranOn]) (by simp)
          (by simp) (.inl ⟨rfl, by simp⟩) (fun _ => .inl ⟨hpc, by omega⟩)
        rw [List.append_nil] at this; exact this
    · rename_i hpc
      split at hs
      · rename_i hall
        simp only [Option.some.injEq] at hs; subst hs
        have := hmove .done st.arrivedWrite st.arrivedCommit [] (by simp [ranOn]) (by simp)
          (by simp) (.inl ⟨rfl, by simp⟩) (fun _ => .inr ⟨hall, ih.waiting h hpc⟩)
        rw [List.append_nil] at this; exact this
      · cases hs
    · cases hs
    · cases hs
  | raise st st' h _ hn hs ih =>
    have hmove := fun evs hevs => invB_move c st h .failed st.arrivedWrite st.arrivedCommit evs ih hevs
      (by simp) (by simp) (.inl ⟨rfl, by simp⟩) (by simp) hn
    simp only [stepRaise] at hs
    split at hs
    · simp only [Option.some.injEq] at hs; subst hs
      exact hmove [.futureRaised h] (by simp [ranOn])
    · cases hs
    · cases hs
    · simp only [Option.some.injEq] at hs; subst hs
      have := hmove [] (by simp [ranOn])
      rw [List.append_nil] at this; exact this

/-- **C26** when the background thread of any host ends without an error, the checkpoint has been made
visible by every primary host (and the rest of the callback has run there too). -/
theorem C26_done_means_committed (c : Config) (st : State) (hr : Reach c st) (h : Nat) (hn : h < c.n)
    (hd : st.pc h = .done) (p : Nat) (hp : p < c.n) (hprim : c.primary = none ∨ c.primary = some p) :
    ranOn p st.log = [.metadata, .finalize, .postFinalization, .publish, .cleanup] := by
  have := (invB_reach c st hr).done h hn hd p hp
  have h1 : isPrimary c p = true := by
    unfold isPrimary
    rcases hprim with h | h <;> simp [h]
  simpa [allParts, h1, parts] using this

/-- **C26** the checkpoint is made visible at most once per primary host, by primary hosts only, and only
after the step metadata was written and the handler was finalized there without an error. -/
theorem C26_publish_after_finalize (c : Config) (st : State) (hr : Reach c st) (h : Nat)
    (hm : .publish ∈ ranOn h st.log) :
    (c.primary = none ∨ c.primary = some h) ∧ (ranOn h st.log).count .publish = 1 ∧
    [.metadata, .finalize] <+: ranOn h st.log := by
  obtain ⟨t, ht⟩ := (invB_reach c st hr).pre h
  have hprim : isPrimary c h = true := by
    cases hc : isPrimary c h with
    | true => rfl
    | false =>
      simp only [allParts, hc, Bool.false_eq_true, if_false, List.append_eq_nil_iff] at ht
      rw [ht.1] at hm; cases hm
  simp only [allParts, hprim, if_true] at ht
  refine ⟨?_, ?_⟩
  · unfold isPrimary at hprim
    cases hc : c.primary with
    | none => exact .inl rfl
    | some p => rw [hc] at hprim; right; simpa using hprim
  · generalize ranOn h st.log = r at ht hm ⊢
    match r, ht, hm with
    | [], _, hm => cases hm
    | [a], ht, hm => simp [parts] at ht hm; rw [← hm] at ht; cases ht.1
    | [a, b], ht, hm =>
      simp [parts] at ht hm
      obtain ⟨rfl, rfl, _⟩ := ht
      simp at hm
    | [a, b, c'], ht, hm =>
      simp [parts] at ht hm
      obtain ⟨rfl, rfl, rfl, _⟩ := ht
      simp at hm
    | [a, b, c', d], ht, hm =>
      simp [parts] at ht
      obtain ⟨rfl, rfl, rfl, rfl, _⟩ := ht
      exact ⟨by decide, by decide⟩
    | [a, b, c', d, e], ht, hm =>
      simp [parts] at ht
      obtain ⟨rfl, rfl, rfl, rfl, rfl, _⟩ := ht
      exact ⟨by decide, by decide⟩
    | a :: b :: c' :: d :: e :: f :: r, ht, hm => simp [parts] at ht

/-! ### Progress -/

/-- **C26** as long as no host has failed, the save makes progress: unless all hosts are done, some host
can take a step (the barriers cannot deadlock). -/
theorem C26_no_deadlock (c : Config) (st : State) (hr : Reach c st) (hok : ∀ h, h < c.n → st.pc h ≠ .failed)
    (hnd : ∃ h, h < c.n ∧ st.pc h ≠ .done) : ∃ h, h < c.n ∧ stepOk c st h ≠ none := by
  -- hosts past the write barrier have arrived
  have hw : ∀ st, Reach c st → 1 < c.n → ∀ h, h < c.n → st.pc h ≠ .failed →
      (∃ k, st.pc h = .futures k) ∨ st.arrivedWrite h = true := by
    intro st hr hn1 h hn
    induction hr with
    | init => intro _; exact .inl ⟨_, rfl⟩
    | ok st st' h2 _ hn2 hs ih =>
      intro hnf
      by_cases he : h = h2
      · subst he
        simp only [stepOk] at hs
        split at hs
        all_goals rename_i hpc
        all_goals try split at hs
        all_goals first
          | (cases hs; done)
          | (simp only [Option.some.injEq] at hs; subst hs
             first
             | exact .inl ⟨_, by simp only [upd_self]; rfl⟩
             | (right; simp; done)
             | (right; have := ih (by simp [hpc]); simpa [hpc] using this)
             | (exfalso; omega))
      · have hsame : st'.pc h = st.pc h ∧ st'.arrivedWrite h = st.arrivedWrite h := by
          simp only [stepOk] at hs
          split at hs
          all_goals try split at hs
          all_goals first
            | (cases hs; done)
            | (simp only [Option.some.injEq] at hs; subst hs
               simp [upd_ne _ _ he])
        rw [hsame.1] at hnf
        rw [hsame.1, hsame.2]
        exact ih hnf
    | raise st st' h2 _ hn2 hs ih =>
      intro hnf
      simp only [stepRaise] at hs
      by_cases he : h = h2
      · subst he
        exfalso; apply hnf
        split at hs
        all_goals first
          | (cases hs; done)
          | (simp only [Option.some.injEq] at hs; subst hs; simp)
      · have hsame : st'.pc h = st.pc h ∧ st'.arrivedWrite h = st.arrivedWrite h := by
          split at hs
          all_goals first
            | (cases hs; done)
            | (simp only [Option.some.injEq] at hs; subst hs
               simp [upd_ne _ _ he])
        rw [hsame.1] at hnf
        rw [hsame.1, hsame.2]
        exact ih hnf
  have hc : ∀ st, Reach c st → 1 < c.n → ∀ h, h < c.n → (st.pc h = .commitBarrier ∨ st.pc h = .done) →
      st.arrivedCommit h = true := by
    intro st hr hn1 h hn
    induction hr with
    | init => simp [init]
    | ok st st' h2 hr' hn2 hs ih =>
      intro hh
      by_cases he : h = h2
      · subst he
        simp only [stepOk] at hs
        split at hs
        all_goals rename_i hpc
        all_goals try split at hs
        all_goals first
          | (cases hs; done)
          | (simp only [Option.some.injEq] at hs; subst hs
             first
             | (simp [enterCallback] at hh; done)
             | (simp; done)
             | (have := ih (by simp [hpc]); simpa using this)
             | (exfalso; omega))
      · have hsame : st'.pc h = st.pc h ∧ st'.arrivedCommit h = st.arrivedCommit h := by
          simp only [stepOk] at hs
          split at hs
          all_goals try split at hs
          all_goals first
            | (cases hs; done)
            | (simp only [Option.some.injEq] at hs; subst hs
               simp [upd_ne _ _ he])
        rw [hsame.1] at hh
        rw [hsame.2]
        exact ih hh
    | raise st st' h2 _ hn2 hs ih =>
      intro hh
      simp only [stepRaise] at hs
      by_cases he : h = h2
      · subst he
        exfalso
        split at hs
        all_goals first
          | (cases hs; done)
          | (simp only [Option.some.injEq] at hs; subst hs; simp at hh)
      · have hsame : st'.pc h = st.pc h ∧ st'.arrivedCommit h = st.arrivedCommit h := by
          split at hs
          all_goals first
            | (cases hs; done)
            | (simp only [Option.some.injEq] at hs; subst hs
               simp [upd_ne _ _ he])
        rw [hsame.1] at hh
        rw [hsame.2]
        exact ih hh
  by_cases hex : ∃ h, h < c.n ∧ stepOk c st h ≠ none
  · exact hex
  exfalso
  have hstuck : ∀ h, h < c.n → stepOk c st h = none := by
    intro h hn
    by_cases hs : stepOk c st h = none
    · exact hs
    · exact absurd ⟨h, hn, hs⟩ hex
  -- every host is stuck at a barrier or done
  have hform : ∀ h, h < c.n → st.pc h = .writeBarrier ∨ st.pc h = .commitBarrier ∨ st.pc h = .done := by
    intro h hn
    have h1 := hstuck h hn
    have h2 := hok h hn
    simp only [stepOk] at h1
    split at h1
    all_goals rename_i hpc
    all_goals first
      | (exact .inl hpc)
      | (exact .inr (.inl hpc))
      | (exact .inr (.inr hpc))
      | (exact absurd hpc h2)
      | (cases h1; done)
      | (split at h1 <;> cases h1)
  obtain ⟨h0, hn0, hnd0⟩ := hnd
  by_cases hn1 : 1 < c.n
  · have hall : all c st.arrivedWrite = true := by
      simp only [all, List.all_eq_true, List.mem_range]
      intro h hn
      rcases hw st hr hn1 h hn (hok h hn) with ⟨k, hk⟩ | h1
      · rcases hform h hn with h2 | h2 | h2 <;> rw [h2] at hk <;> cases hk
      · exact h1
    have hno : ∀ h, h < c.n → st.pc h = .commitBarrier ∨ st.pc h = .done := by
      intro h hn
      rcases hform h hn with h1 | h1 | h1
      · have := hstuck h hn
        simp [stepOk, h1, hall] at this
      · exact .inl h1
      · exact .inr h1
    have hall2 : all c st.arrivedCommit = true := by
      simp only [all, List.all_eq_true, List.mem_range]
      intro h hn
      exact hc st hr hn1 h hn (hno h hn)
    rcases hno h0 hn0 with h1 | h1
    · have := hstuck h0 hn0
      simp [stepOk, h1, hall2] at this
    · exact hnd0 h1
  · -- a single host never waits at a barrier
    have hsolo : ∀ st, Reach c st → ∀ h, st.pc h ≠ .writeBarrier ∧ st.pc h ≠ .commitBarrier := by
      intro st hr
      induction hr with
      | init => intro h; simp [init]
      | ok st st' h2 _ hn2 hs ih =>
        intro h
        by_cases he : h = h2
        · subst he
          simp only [stepOk] at hs
          split at hs
          all_goals rename_i hpc
          all_goals try split at hs
          all_goals first
            | (cases hs; done)
            | (simp only [Option.some.injEq] at hs; subst hs
               first
               | (simp [enterCallback]; done)
               | (exfalso; omega))
        · have hsame : st'.pc h = st.pc h := by
            simp only [stepOk] at hs
            split at hs
            all_goals try split at hs
            all_goals first
              | (cases hs; done)
              | (simp only [Option.some.injEq] at hs; subst hs
                 simp [upd_ne _ _ he])
          rw [hsame]; exact ih h
      | raise st st' h2 _ hn2 hs ih =>
        intro h
        simp only [stepRaise] at hs
        by_cases he : h = h2
        · subst he
          split at hs
          all_goals first
            | (cases hs; done)
            | (simp only [Option.some.injEq] at hs; subst hs; simp)
        · have hsame : st'.pc h = st.pc h := by
            split at hs
            all_goals first
              | (cases hs; done)
              | (simp only [Option.some.injEq] at hs; subst hs
                 simp [upd_ne _ _ he])
          rw [hsame]; exact ih h
    rcases hform h0 hn0 with h1 | h1 | h1
    · exact (hsolo st hr h0).1 h1
    · exact (hsolo st hr h0).2 h1
    · exact hnd0 h1

/-! ### Findings and examples -/

/-- Host `h` takes `k` steps without raising. -/
def run (c : Config) : State → List Nat → Option State
  | st, [] => some st
  | st, h :: hs => if h < c.n then (stepOk c st h).bind fun st' => run c st' hs else none

theorem reach_run (c : Config) (hs : List Nat) (st st' : State) (hr : Reach c st) (h : run c st hs = some st') :
    Reach c st' := by
  induction hs generalizing st with
  | nil => simp only [run, Option.some.injEq] at h; exact h ▸ hr
  | cons x xs ih =>
    simp only [run] at h
    split at h
    · rename_i hx
      cases hs : stepOk c st x with
      | none => rw [hs] at h; cases h
      | some st1 => rw [hs] at h; exact ih st1 (.ok st st1 x hr hx hs) h
    · cases h

/-- Two hosts with two and one commit futures; host 0 is primary. -/
def exampleConfig : Config := ⟨2, fun h => if h = 0 then 2 else 1, some 0⟩

/-- Non-vacuity: the save completes on both hosts, with the checkpoint published by host 0. -/
example : ∃ st, Reach exampleConfig st ∧ st.pc 0 = .done ∧ st.pc 1 = .done ∧ .ran 0 .publish ∈ st.log ∧
    FuturesOk exampleConfig 1 st.log :=
  ⟨_, reach_run exampleConfig [0, 0, 0, 1, 1, 1, 0, 0, 0, 0, 0, 0, 0, 1, 0, 1] _ _ .init rfl,
    by decide, by decide, by decide, by unfold FuturesOk; decide⟩

/-- Finding: the user's post finalization callback, documented as being called after the save is complete
(experimental/v1/_src/context/options.py:105), runs before the checkpoint is made visible.  Here it has
run, then making the checkpoint visible raised: the save failed and is not visible. -/
theorem C26_post_finalization_runs_before_commit_fails :
    ∃ c st, Reach c st ∧ .ran 0 .postFinalization ∈ st.log ∧ .ran 0 .publish ∉ st.log ∧ st.pc 0 = .failed := by
  let c : Config := ⟨1, fun _ => 1, some 0⟩
  have h1 : Reach c _ := reach_run c [0, 0, 0, 0, 0] _ _ .init rfl
  exact ⟨c, _, .raise _ _ 0 h1 (by decide) rfl, by decide, by decide, by decide⟩

/-- Finding: an error in the background does not mean that the checkpoint is not there: here it has been
made visible, and then the completion barrier fails on the other host. -/
theorem C26_error_after_commit_fails :
    ∃ st, Reach exampleConfig st ∧ .ran 0 .publish ∈ st.log ∧ st.pc 1 = .failed := by
  have h1 : Reach exampleConfig _ :=
    reach_run exampleConfig [0, 0, 0, 1, 1, 1, 0, 0, 0, 0, 0, 0, 1] _ _ .init rfl
  exact ⟨_, .raise _ _ 1 h1 (by decide) rfl, by decide, by decide⟩

end Verif.Async.Commit
