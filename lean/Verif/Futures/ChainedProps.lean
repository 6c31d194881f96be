import Verif.Futures.Chained

/-!
# Properties of waiting for several futures (C28)

`fs` lists the futures, each with the time that passes before it is waited for.
-/

namespace Verif.Futures.Chained

/-- The future succeeds, at time `t` or before. -/
def SucceedsBy (f : Fut) (t : Nat) : Prop := f.outcome = .ok ∧ ∃ c, f.doneAt = some c ∧ c ≤ t

/-- One iteration that goes on. -/
theorem loop_cons_some (start T now k d : Nat) (f : Fut) (fs : List (Nat × Fut)) :
    loop start (some T) now k ((d, f) :: fs) =
      if now + d - start ≥ T then (.timeout k, now + d, [])
      else match f.doneAt with
        | none => (.timeout k, now + d + (T - (now + d - start)), [])
        | some c => if c ≤ now + d + (T - (now + d - start)) then
            match f.outcome with
            | .ok => let r := loop start (some T) (max (now + d) c) (k+1) fs; (r.1, r.2.1, .succeeded k :: r.2.2)
            | .error => (.error k, max (now + d) c, [])
            | .timeoutError => (.timeout k, max (now + d) c, [])
          else (.timeout k, now + d + (T - (now + d - start)), []) := by
  rw [loop]
  simp only [remaining]
  split
  · rename_i h; split at h
    · simp_all
    · cases h
  · rename_i r h
    split at h
    · cases h
    · rename_i hlt
      simp only [Option.some.injEq] at h
      subst h
      simp only [hlt, if_false, Fut.result]
      cases hd : f.doneAt with
      | none => simp
      | some c =>
        simp only
        by_cases hc : c ≤ now + d + (T - (now + d - start))
        · simp only [hc, if_true]
          cases ho : f.outcome <;> rfl
        · simp only [hc, if_false]

theorem loop_ok_events (start : Nat) (timeout : Option Nat) (now k : Nat) (fs : List (Nat × Fut)) :
    ∃ m, m ≤ fs.length ∧
      (((loop start timeout now k fs).1 = .ok ∧ m = fs.length ∧
        (loop start timeout now k fs).2.2 = (List.range' k m).map .succeeded ++ [.callback]) ∨
       ((loop start timeout now k fs).1 ≠ .ok ∧
        (loop start timeout now k fs).2.2 = (List.range' k m).map .succeeded)) := by
  induction fs generalizing now k with
  | nil => exact ⟨0, by simp, .inl ⟨rfl, rfl, rfl⟩⟩
  | cons p fs ih =>
    obtain ⟨d, f⟩ := p
    have hrec : ∀ t, ∃ m, m ≤ ((d, f) :: fs).length ∧
      (((loop start timeout t (k+1) fs).1 = .ok ∧ m = ((d, f) :: fs).length ∧
        .succeeded k :: (loop start timeout t (k+1) fs).2.2 = (List.range' k m).map .succeeded ++ [.callback]) ∨
       ((loop start timeout t (k+1) fs).1 ≠ .ok ∧
        .succeeded k :: (loop start timeout t (k+1) fs).2.2 = (List.range' k m).map .succeeded)) := by
      intro t
      obtain ⟨m, hm, h⟩ := ih t (k+1)
      refine ⟨m+1, by simp only [List.length_cons]; omega, ?_⟩
      rcases h with ⟨h1, h2, h3⟩ | ⟨h1, h2⟩
      · left; exact ⟨h1, by simp only [List.length_cons]; omega, by rw [h3]; simp [List.range'_succ]⟩
      · right; exact ⟨h1, by rw [h2]; simp [List.range'_succ]⟩
    cases timeout with
    | none =>
      rw [loop]
      split
      · exact ⟨0, by simp, .inr ⟨by simp, by simp⟩⟩
      · exact hrec _
      · exact ⟨0, by simp, .inr ⟨by simp, by simp⟩⟩
      · exact ⟨0, by simp, .inr ⟨by simp, by simp⟩⟩
    | some T =>
      rw [loop]
      split
      · exact ⟨0, by simp, .inr ⟨by simp, by simp⟩⟩
      · split
        · exact ⟨0, by simp, .inr ⟨by simp, by simp⟩⟩
        · exact hrec _
        · exact ⟨0, by simp, .inr ⟨by simp, by simp⟩⟩
        · exact ⟨0, by simp, .inr ⟨by simp, by simp⟩⟩

/-- **C28** the callback is called exactly once and after all the futures were seen to succeed if `result`
returns normally; otherwise it is not called. -/
theorem C28_callback (start : Nat) (timeout : Option Nat) (fs : List (Nat × Fut)) :
    ((result start timeout fs).1 = .ok →
      (result start timeout fs).2.2 = (List.range fs.length).map .succeeded ++ [.callback]) ∧
    ((result start timeout fs).1 ≠ .ok → .callback ∉ (result start timeout fs).2.2) := by
  obtain ⟨m, hm, h⟩ := loop_ok_events start timeout start 0 fs
  rw [result]
  rcases h with ⟨h1, rfl, h3⟩ | ⟨h1, h2⟩
  · exact ⟨fun _ => by rw [h3, List.range_eq_range'], fun h => absurd h1 h⟩
  · exact ⟨fun h => absurd h h1, fun _ => by rw [h2]; simp⟩

theorem loop_ok_sound (start T now k : Nat) (fs : List (Nat × Fut)) (hs : start ≤ now)
    (h : (loop start (some T) now k fs).1 = .ok) : ∀ p ∈ fs, SucceedsBy p.2 (start + T) := by
  induction fs generalizing now k with
  | nil => simp
  | cons p fs ih =>
    obtain ⟨d, f⟩ := p
    rw [loop_cons_some] at h
    split at h
    · cases h
    · rename_i hlt
      cases hd : f.doneAt with
      | none => simp [hd] at h
      | some c =>
        simp only [hd] at h
        split at h
        · rename_i hc
          cases ho : f.outcome with
          | ok =>
            simp only [ho] at h
            intro p hp
            rcases List.mem_cons.mp hp with rfl | hp
            · exact ⟨ho, c, hd, by omega⟩
            · exact ih _ _ (by omega) h p hp
          | error => simp [ho] at h
          | timeoutError => simp [ho] at h
        · cases h

/-- **C28** if `result(timeout)` returns normally, every future succeeded before the deadline, whatever time
was lost between the waits. -/
theorem C28_success_sound (start T : Nat) (fs : List (Nat × Fut))
    (h : (result start (some T) fs).1 = .ok) : ∀ p ∈ fs, SucceedsBy p.2 (start + T) :=
  loop_ok_sound start T start 0 fs (Nat.le_refl _) h

/-- Total time lost between the waits. -/
def lost (fs : List (Nat × Fut)) : Nat := (fs.map Prod.fst).sum

theorem loop_ok_complete (start T now k B : Nat) (fs : List (Nat × Fut)) (hs : start ≤ now)
    (hf : ∀ p ∈ fs, SucceedsBy p.2 B) (hb : max now B + lost fs < start + T) :
    (loop start (some T) now k fs).1 = .ok := by
  induction fs generalizing now k with
  | nil => rfl
  | cons p fs ih =>
    obtain ⟨d, f⟩ := p
    obtain ⟨ho, c, hd, hc⟩ := hf (d, f) List.mem_cons_self
    simp only at ho hd
    simp only [lost, List.map_cons, List.sum_cons] at hb
    rw [loop_cons_some, if_neg (by omega)]
    simp only [hd, ho]
    rw [if_pos (by omega)]
    exact ih _ _ (by omega) (fun p hp => hf p (List.mem_cons_of_mem _ hp)) (by unfold lost; omega)

/-- **C28** conversely, if every future succeeds at time `B` or before, and there is time left after
that and after the time lost between the waits, `result(timeout)` returns normally. -/
theorem C28_success_complete (start T B : Nat) (fs : List (Nat × Fut))
    (hf : ∀ p ∈ fs, SucceedsBy p.2 B) (hb : max start B + lost fs < start + T) :
    (result start (some T) fs).1 = .ok :=
  loop_ok_complete start T start 0 B fs (Nat.le_refl _) hf hb

theorem loop_none_ok (start now k : Nat) (fs : List (Nat × Fut)) :
    (loop start none now k fs).1 = .ok ↔ ∀ p ∈ fs, ∃ t, SucceedsBy p.2 t := by
  induction fs generalizing now k with
  | nil => simp [loop]
  | cons p fs ih =>
    obtain ⟨d, f⟩ := p
    rw [loop]
    simp only [Fut.result, List.forall_mem_cons]
    cases hd : f.doneAt with
    | none => simp [SucceedsBy, hd]
    | some c =>
      cases ho : f.outcome with
      | ok =>
        simp only [ih]
        constructor
        · intro h; exact ⟨⟨c, ho, c, hd, Nat.le_refl _⟩, h⟩
        · intro h; exact h.2
      | error => simp [SucceedsBy, ho]
      | timeoutError => simp [SucceedsBy, ho]

/-- **C28** without a timeout, `result` returns normally iff all the futures succeed eventually. -/
theorem C28_no_timeout (start : Nat) (fs : List (Nat × Fut)) :
    (result start none fs).1 = .ok ↔ ∀ p ∈ fs, ∃ t, SucceedsBy p.2 t :=
  loop_none_ok start start 0 fs

/-- **C28** exactly: with no time lost between the waits, `result(timeout)` returns normally iff there is
nothing to wait for, or the timeout is positive, every future but the last succeeds before the deadline, and
the last one succeeds at the deadline or before. -/
theorem C28_success_exact (start T : Nat) (fs : List Fut) (last : Fut) :
    (result start (some T) ((fs ++ [last]).map fun f => (0, f))).1 = .ok ↔
      0 < T ∧ (∀ f ∈ fs, ∃ t, SucceedsBy f t ∧ t < start + T) ∧ SucceedsBy last (start + T) := by
  have gen : ∀ now k, start ≤ now → ((loop start (some T) now k ((fs ++ [last]).map fun f => (0, f))).1 = .ok ↔
      now < start + T ∧ (∀ f ∈ fs, ∃ t, SucceedsBy f t ∧ t < start + T) ∧ SucceedsBy last (start + T)) := by
    induction fs with
    | nil =>
      intro now k hs
      simp only [List.nil_append, List.map_cons, List.map_nil, loop_cons_some, Nat.add_zero]
      by_cases h1 : now - start ≥ T
      · rw [if_pos h1]
        simp only [reduceCtorEq, false_iff]
        intro h; omega
      · rw [if_neg h1]
        have h2 : now + (T - (now - start)) = start + T := by omega
        rw [h2]
        cases hd : last.doneAt with
        | none => simp [SucceedsBy, hd]
        | some c =>
          simp only
          by_cases hc : c ≤ start + T
          · rw [if_pos hc]
            cases ho : last.outcome with
            | ok =>
              simp only [loop, true_iff]
              exact ⟨by omega, by simp, ho, c, hd, hc⟩
            | error => simp [SucceedsBy, ho]
            | timeoutError => simp [SucceedsBy, ho]
          · rw [if_neg hc]
            simp only [reduceCtorEq, false_iff]
            rintro ⟨_, _, _, c', hc', hle⟩
            rw [hd] at hc'
            simp only [Option.some.injEq] at hc'
            omega
    | cons f fs ih =>
      intro now k hs
      simp only [List.cons_append, List.map_cons, loop_cons_some, Nat.add_zero]
      by_cases h1 : now - start ≥ T
      · rw [if_pos h1]
        simp only [reduceCtorEq, false_iff]
        intro h; omega
      · rw [if_neg h1]
        have h2 : now + (T - (now - start)) = start + T := by omega
        rw [h2]
        cases hd : f.doneAt with
        | none => simp [SucceedsBy, hd]
        | some c =>
          simp only
          by_cases hc : c ≤ start + T
          · rw [if_pos hc]
            cases ho : f.outcome with
            | ok =>
              simp only
              rw [ih _ _ (by omega)]
              constructor
              · rintro ⟨h3, h4, h5⟩
                refine ⟨by omega, ?_, h5⟩
                intro g hg
                rcases List.mem_cons.mp hg with rfl | hg
                · exact ⟨c, ⟨ho, c, hd, Nat.le_refl _⟩, by omega⟩
                · exact h4 g hg
              · rintro ⟨h3, h4, h5⟩
                refine ⟨?_, fun g hg => h4 g (List.mem_cons_of_mem _ hg), h5⟩
                obtain ⟨t, ⟨_, c', hc', hle⟩, hlt⟩ := h4 f List.mem_cons_self
                rw [hd] at hc'
                simp only [Option.some.injEq] at hc'
                omega
            | error => simp [SucceedsBy, ho]
            | timeoutError => simp [SucceedsBy, ho]
          · rw [if_neg hc]
            simp only [reduceCtorEq, false_iff]
            rintro ⟨_, h4, _⟩
            obtain ⟨t, ⟨_, c', hc', hle⟩, hlt⟩ := h4 f List.mem_cons_self
            rw [hd] at hc'
            simp only [Option.some.injEq] at hc'
            omega
  rw [result, gen start 0 (Nat.le_refl _)]
  constructor
  · rintro ⟨h, h'⟩; exact ⟨by omega, h'⟩
  · rintro ⟨h, h'⟩; exact ⟨by omega, h'⟩

theorem loop_time (start T now k : Nat) (fs : List (Nat × Fut)) (hs : start ≤ now) (hn : now ≤ start + T) :
    (loop start (some T) now k fs).2.1 ≤ start + T + lost fs ∧ (loop start (some T) now k fs).1 ≠ .blocked := by
  induction fs generalizing now k with
  | nil => exact ⟨by simp only [loop]; omega, by simp [loop]⟩
  | cons p fs ih =>
    obtain ⟨d, f⟩ := p
    simp only [lost, List.map_cons, List.sum_cons]
    rw [loop_cons_some]
    split
    · exact ⟨by simp only; omega, by simp⟩
    · split
      · exact ⟨by simp only; omega, by simp⟩
      · rename_i c hd
        split
        · split
          · obtain ⟨h1, h2⟩ := ih (max (now + d) c) (k+1) (by omega) (by omega)
            unfold lost at h1
            exact ⟨by simp only; omega, h2⟩
          · exact ⟨by simp only; omega, by simp⟩
          · exact ⟨by simp only; omega, by simp⟩
        · exact ⟨by simp only; omega, by simp⟩

/-- **C28** with a timeout, `result` always comes back, no later than the deadline plus the time lost
between the waits. -/
theorem C28_bounded_wait (start T : Nat) (fs : List (Nat × Fut)) :
    (result start (some T) fs).1 ≠ .blocked ∧ (result start (some T) fs).2.1 ≤ start + T + lost fs :=
  ⟨(loop_time start T start 0 fs (Nat.le_refl _) (by omega)).2,
   (loop_time start T start 0 fs (Nat.le_refl _) (by omega)).1⟩

theorem loop_error (start : Nat) (timeout : Option Nat) (now k j : Nat) (fs : List (Nat × Fut))
    (h : (loop start timeout now k fs).1 = .error j) :
    ∃ i, j = k + i ∧ ∃ p, fs[i]? = some p ∧ p.2.outcome = .error ∧ ∀ i' < i, ∃ q, fs[i']? = some q ∧ q.2.outcome = .ok := by
  induction fs generalizing now k with
  | nil => simp [loop] at h
  | cons p fs ih =>
    obtain ⟨d, f⟩ := p
    have hrec : ∀ t, f.outcome = .ok → (loop start timeout t (k+1) fs).1 = .error j → ∃ i, j = k + i ∧
        ∃ p, ((d, f) :: fs)[i]? = some p ∧ p.2.outcome = .error ∧
          ∀ i' < i, ∃ q, ((d, f) :: fs)[i']? = some q ∧ q.2.outcome = .ok := by
      intro t ho h
      obtain ⟨i, rfl, p, hp, hpo, hall⟩ := ih t (k+1) h
      refine ⟨i+1, by omega, p, by simpa using hp, hpo, ?_⟩
      intro i' hi'
      cases i' with
      | zero => exact ⟨(d, f), by simp, ho⟩
      | succ i' =>
        obtain ⟨q, hq, hqo⟩ := hall i' (by omega)
        exact ⟨q, by simpa using hq, hqo⟩
    cases timeout with
    | none =>
      rw [loop] at h
      simp only [Fut.result] at h
      cases hd : f.doneAt with
      | none => simp [hd] at h
      | some c =>
        cases ho : f.outcome with
        | ok => simp only [hd, ho] at h; exact hrec _ ho h
        | error =>
          simp only [hd, ho, Result.error.injEq] at h
          exact ⟨0, by omega, (d, f), by simp, ho, by omega⟩
        | timeoutError => simp [hd, ho] at h
    | some T =>
      rw [loop_cons_some] at h
      split at h
      · cases h
      · cases hd : f.doneAt with
        | none => simp [hd] at h
        | some c =>
          simp only [hd] at h
          split at h
          · cases ho : f.outcome with
            | ok => simp only [ho] at h; exact hrec _ ho h
            | error =>
              simp only [ho, Result.error.injEq] at h
              exact ⟨0, by omega, (d, f), by simp, ho, by omega⟩
            | timeoutError => simp [ho] at h
          · cases h

/-- **C28** an error raised by `result` is the error of one of the futures, and all the futures before it
succeeded. -/
theorem C28_error (start : Nat) (timeout : Option Nat) (k : Nat) (fs : List (Nat × Fut))
    (h : (result start timeout fs).1 = .error k) :
    ∃ p, fs[k]? = some p ∧ p.2.outcome = .error ∧ ∀ i < k, ∃ q, fs[i]? = some q ∧ q.2.outcome = .ok := by
  obtain ⟨i, hi, h⟩ := loop_error start timeout start 0 k fs h
  rw [Nat.zero_add] at hi
  subst hi
  exact h

/-- Finding: once the time is up (in particular with `timeout=0`), `result` raises `TimeoutError` even if all
futures have long completed successfully. -/
theorem C28_zero_timeout_ignores_completed_fails (start : Nat) (p : Nat × Fut) (fs : List (Nat × Fut)) :
    (result start (some 0) (p :: fs)).1 = .timeout 0 := by
  obtain ⟨d, f⟩ := p
  rw [result, loop_cons_some, if_pos (by omega)]

/-- Non-vacuity: three futures, the last one slow; a timeout of 10 suffices and one of 4 does not. -/
example : (result 100 (some 10) [(0, ⟨some 50, .ok⟩), (1, ⟨some 103, .ok⟩), (1, ⟨some 107, .ok⟩)]).1 = .ok ∧
    (result 100 (some 4) [(0, ⟨some 50, .ok⟩), (1, ⟨some 103, .ok⟩), (0, ⟨some 107, .ok⟩)]).1 = .timeout 2 ∧
    (result 100 (some 10) [(0, ⟨some 50, .ok⟩), (0, ⟨some 103, .error⟩), (0, ⟨none, .ok⟩)]).1 = .error 1 := by
  decide

end Verif.Futures.Chained
