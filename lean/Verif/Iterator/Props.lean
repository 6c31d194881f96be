import Verif.Iterator.Model
import Mathlib.Data.List.Induction

/-!
# Property C48: `checkpoints_iterator`
-/

namespace Verif.Iterator

/-- `s` is the newest step the poll shows. -/
def Newest (p : Poll) (s : Nat) : Prop := ∃ l, p.dir = some l ∧ s ∈ l ∧ ∀ x ∈ l, x ≤ s

theorem foldl_max (l : List Nat) : ∀ s, s ≤ l.foldl max s ∧ (∀ x ∈ l, x ≤ l.foldl max s) ∧ (l.foldl max s = s ∨ l.foldl max s ∈ l) := by
  induction l with
  | nil => intro s; simp
  | cons a l ih =>
    intro s
    obtain ⟨h1, h2, h3⟩ := ih (max s a)
    simp only [List.foldl_cons, List.mem_cons]
    refine ⟨by omega, ?_, ?_⟩
    · intro x hx
      rcases hx with rfl | hx
      · omega
      · exact h2 x hx
    · rcases h3 with h3 | h3
      · rcases Nat.le_total s a with h | h
        · right; left; omega
        · left; omega
      · exact .inr (.inr h3)

theorem maxStep_iff {l : List Nat} {s : Nat} : maxStep l = some s ↔ s ∈ l ∧ ∀ x ∈ l, x ≤ s := by
  cases l with
  | nil => simp [maxStep]
  | cons a l =>
    obtain ⟨h1, h2, h3⟩ := foldl_max l a
    simp only [maxStep, Option.some.injEq]
    have hm : l.foldl max a ∈ a :: l := by
      rcases h3 with h3 | h3
      · rw [h3]; exact List.mem_cons_self
      · exact List.mem_cons_of_mem _ h3
    have hb : ∀ x ∈ a :: l, x ≤ l.foldl max a := by
      intro x hx
      rcases List.mem_cons.mp hx with rfl | hx
      · exact h1
      · exact h2 x hx
    constructor
    · rintro rfl
      exact ⟨hm, hb⟩
    · rintro ⟨h4, h5⟩
      exact Nat.le_antisymm (h5 _ hm) (hb _ h4)

/-- The three things a round can do. -/
theorem round_cases (c : Config) (st : State) (p : Poll) :
    (round c st p = st) ∨
    (st.status = .running ∧ maybeExit c st p = true ∧ (∀ s, Newest p s → ∃ l, st.last = some l ∧ s ≤ l) ∧ round c st p = timedOut c st p) ∨
    (∃ s, st.status = .running ∧ Newest p s ∧ (∀ l, st.last = some l → l < s) ∧ round c st p = found c st p s) := by
  simp only [round]
  split
  · exact .inl rfl
  · next hr =>
    have hr' : st.status = .running := by simpa using hr
    cases hd : p.dir with
    | none =>
      simp only
      split
      · next he => exact .inr (.inl ⟨hr', he, by rintro s ⟨l, h, _⟩; simp [hd] at h, rfl⟩)
      · exact .inl rfl
    | some steps =>
      cases hm : maxStep steps with
      | none =>
        simp only [hm]
        have hs : steps = [] := by
          cases steps with
          | nil => rfl
          | cons a l => simp [maxStep] at hm
        split
        · next he => exact .inr (.inl ⟨hr', he, by rintro s ⟨l, h, h1, _⟩; rw [hd] at h; cases h; simp [hs] at h1, rfl⟩)
        · exact .inl rfl
      | some s =>
        simp only [hm]
        have hn := maxStep_iff.mp hm
        split
        · next hre =>
          refine .inr (.inr ⟨s, hr', ⟨steps, hd, hn⟩, ?_, rfl⟩)
          intro l hl
          simp [reached, hl] at hre
          omega
        · next hre =>
          have hle : ∃ l, st.last = some l ∧ s ≤ l := by
            cases hl : st.last with
            | none => simp [reached, hl] at hre
            | some l => simp [reached, hl] at hre; exact ⟨l, rfl, by omega⟩
          split
          · next he =>
            refine .inr (.inl ⟨hr', he, ?_, rfl⟩)
            rintro s' ⟨l, h, h1, h2⟩
            rw [hd] at h
            cases h
            obtain ⟨l, h3, h4⟩ := hle
            exact ⟨l, h3, Nat.le_trans (hn.2 s' h1) h4⟩
          · exact .inl rfl

theorem timedOut_same (c : Config) (st : State) (p : Poll) : (timedOut c st p).yields = st.yields ∧ (timedOut c st p).last = st.last := by
  simp only [timedOut]
  repeat' split
  all_goals exact ⟨rfl, rfl⟩

/-- The last step yielded. -/
theorem run_inv (c : Config) (start : Int) (polls : List Poll) :
    (run c start polls).last = (run c start polls).yields.getLast?.map (·.step) ∧
    ((run c start polls).yields.map (·.step)).Pairwise (· < ·) := by
  suffices h : ∀ (polls : List Poll) (st : State), (st.last = st.yields.getLast?.map (·.step) ∧ (st.yields.map (·.step)).Pairwise (· < ·)) →
      ((polls.foldl (round c) st).last = (polls.foldl (round c) st).yields.getLast?.map (·.step) ∧
        ((polls.foldl (round c) st).yields.map (·.step)).Pairwise (· < ·)) from h polls _ ⟨rfl, by simp⟩
  intro polls
  induction polls with
  | nil => intro st h; exact h
  | cons p ps ih =>
    intro st h
    refine ih _ ?_
    rcases round_cases c st p with e | ⟨_, _, _, e⟩ | ⟨s, _, _, hl, e⟩
    · rw [e]; exact h
    · rw [e, (timedOut_same c st p).1, (timedOut_same c st p).2]; exact h
    · rw [e]
      simp only [found]
      split
      · exact h
      · split
        · exact h
        · refine ⟨by simp, ?_⟩
          simp only [List.map_append, List.map_cons, List.map_nil]
          rw [List.pairwise_append]
          refine ⟨h.2, by simp, ?_⟩
          intro a ha b hb
          simp only [List.mem_singleton] at hb
          subst hb
          obtain ⟨ys, y, hy⟩ : ∃ ys y, st.yields = ys ++ [y] := by
            rcases List.eq_nil_or_concat st.yields with h0 | ⟨ys, y, h0⟩
            · simp [h0] at ha
            · exact ⟨ys, y, by simpa using h0⟩
          have h1 := h.1
          have h2 := h.2
          rw [hy] at h1 h2 ha
          simp at h1
          have h3 := hl _ h1
          simp only [List.map_append, List.map_cons, List.map_nil, List.pairwise_append] at h2
          simp only [List.map_append, List.map_cons, List.map_nil, List.mem_append, List.mem_singleton] at ha
          rcases ha with ha | rfl
          · have := h2.2.2 a ha y.step (by simp)
            omega
          · exact h3

theorem run_snoc (c : Config) (start : Int) (polls : List Poll) (p : Poll) : run c start (polls ++ [p]) = round c (run c start polls) p := by
  simp [run]

/-- The steps yielded are strictly increasing. -/
theorem C48_increasing (c : Config) (start : Int) (polls : List Poll) : ((run c start polls).yields.map (·.step)).Pairwise (· < ·) :=
  (run_inv c start polls).2

/-- A round yields nothing, or the newest step present; yields are never taken back. -/
theorem C48_newest (c : Config) (start : Int) (polls : List Poll) (p : Poll) :
    (run c start (polls ++ [p])).yields = (run c start polls).yields ∨
    ∃ y, Newest p y.step ∧ (run c start (polls ++ [p])).yields = (run c start polls).yields ++ [y] := by
  rw [run_snoc]
  rcases round_cases c (run c start polls) p with e | ⟨_, _, _, e⟩ | ⟨s, _, hn, _, e⟩
  · rw [e]; exact .inl rfl
  · rw [e, (timedOut_same c _ p).1]; exact .inl rfl
  · rw [e]
    simp only [found]
    split
    · exact .inl rfl
    · split
      · exact .inl rfl
      · exact .inr ⟨_, hn, rfl⟩

/-- While the iterator runs, a poll that shows a step newer than all yielded ones yields it, if it can be snapshotted and
its number fits. -/
theorem C48_prompt (c : Config) (start : Int) (polls : List Poll) (p : Poll) (s : Nat) (hr : (run c start polls).status = .running)
    (hn : Newest p s) (hlt : ∀ y ∈ (run c start polls).yields, y.step < s) (hs : p.snap = .ok) (hb : s < 2147483648) :
    (run c start (polls ++ [p])).status = .running ∧ (run c start (polls ++ [p])).yields = (run c start polls).yields ++ [⟨s, true⟩] := by
  obtain ⟨l, h1, h2⟩ := hn
  have hl : ∀ l, (run c start polls).last = some l → l < s := by
    intro l hl
    rw [(run_inv c start polls).1] at hl
    obtain ⟨y, hy, rfl⟩ := Option.map_eq_some_iff.mp hl
    exact hlt y (List.mem_of_getLast? hy)
  rw [run_snoc]
  simp only [round, hr, ne_eq, not_true_eq_false, if_false, h1, maxStep_iff.mpr h2]
  have : reached (run c start polls).last (some s) = true := by
    cases hl' : (run c start polls).last with
    | none => rfl
    | some l => have := hl l hl'; simp [reached]; omega
  simp only [this, if_true, found, hs, reduceCtorEq, false_and, or_self, if_false]
  rw [if_neg (by omega)]
  exact ⟨hr, by simp⟩

theorem yields_mono (c : Config) (start : Int) (polls more : List Poll) : ∃ ys, (run c start (polls ++ more)).yields = (run c start polls).yields ++ ys := by
  induction more using List.reverseRecOn with
  | nil => exact ⟨[], by simp⟩
  | append_singleton more p ih =>
    obtain ⟨ys, hys⟩ := ih
    rw [← List.append_assoc]
    rcases C48_newest c start (polls ++ more) p with h | ⟨y, _, h⟩
    · exact ⟨ys, by rw [h, hys]⟩
    · exact ⟨ys ++ [y], by rw [h, hys, List.append_assoc]⟩

/-- A checkpoint that is and stays the newest is yielded at the first poll at which the iterator still runs, and remains
the last one. -/
theorem C48_final_yielded (c : Config) (start : Int) (polls more : List Poll) (p : Poll) (s : Nat) (hr : (run c start polls).status = .running)
    (hmax : ∀ q ∈ polls ++ p :: more, ∀ l, q.dir = some l → ∀ x ∈ l, x ≤ s) (hn : Newest p s) (hs : p.snap = .ok) (hb : s < 2147483648) :
    (run c start (polls ++ p :: more)).yields.getLast?.map (·.step) = some s := by
  have le : ∀ (ps : List Poll), (∀ q ∈ ps, ∀ l, q.dir = some l → ∀ x ∈ l, x ≤ s) → ∀ y ∈ (run c start ps).yields, y.step ≤ s := by
    intro ps
    induction ps using List.reverseRecOn with
    | nil => intro _ y hy; simp [run] at hy
    | append_singleton ps q ih =>
      intro h y hy
      have ih' := ih (fun q' hq' => h q' (by simp [hq']))
      rcases C48_newest c start ps q with e | ⟨z, ⟨l, h1, h2, _⟩, e⟩
      · rw [e] at hy; exact ih' y hy
      · rw [e] at hy
        rcases List.mem_append.mp hy with hy | hy
        · exact ih' y hy
        · rw [List.mem_singleton.mp hy]
          exact h q (by simp) l h1 _ h2
  have hall := le (polls ++ p :: more) hmax
  have hmem : ∃ y ∈ (run c start (polls ++ [p])).yields, y.step = s := by
    by_cases hx : ∀ y ∈ (run c start polls).yields, y.step < s
    · exact ⟨⟨s, true⟩, by rw [(C48_prompt c start polls p s hr hn hx hs hb).2]; simp, rfl⟩
    · obtain ⟨y, hy, hlt⟩ : ∃ y ∈ (run c start polls).yields, ¬ y.step < s := by
        apply Classical.byContradiction
        intro hc
        exact hx fun y hy => Classical.byContradiction fun h => hc ⟨y, hy, h⟩
      have := le polls (fun q hq => hmax q (by simp [hq])) y hy
      obtain ⟨ys, hys⟩ := yields_mono c start polls [p]
      exact ⟨y, by rw [hys]; simp [hy], by omega⟩
  obtain ⟨y, hy, rfl⟩ := hmem
  obtain ⟨ys, hys⟩ := yields_mono c start (polls ++ [p]) more
  have e : polls ++ [p] ++ more = polls ++ p :: more := by simp
  rw [e] at hys
  have hy' : y ∈ (run c start (polls ++ p :: more)).yields := by rw [hys]; simp [hy]
  have hpw := C48_increasing c start (polls ++ p :: more)
  generalize (run c start (polls ++ p :: more)).yields = Y at *
  rcases List.eq_nil_or_concat Y with h0 | ⟨zs, z, h0⟩
  · subst h0; simp at hy'
  · subst h0
    simp only [List.concat_eq_append, List.getLast?_append, List.getLast?_singleton, Option.some_or, Option.map_some, Option.some.injEq]
    have h1 := hall z (by simp)
    simp only [List.concat_eq_append, List.mem_append, List.mem_singleton] at hy'
    rcases hy' with hy' | rfl
    · simp only [List.concat_eq_append, List.map_append, List.map_cons, List.map_nil, List.pairwise_append] at hpw
      have := hpw.2.2 y.step (List.mem_map_of_mem hy') z.step (by simp)
      omega
    · rfl

/-- Without a timeout the iterator never ends. -/
theorem C48_never_ends (c : Config) (hc : c.timeout = none) (start : Int) (polls : List Poll) : (run c start polls).status ≠ .ended := by
  suffices h : ∀ (polls : List Poll) (st : State), st.stop = none ∧ st.status ≠ .ended →
      (polls.foldl (round c) st).stop = none ∧ (polls.foldl (round c) st).status ≠ .ended from
    (h polls _ ⟨by simp [stopAt, hc], by simp⟩).2
  intro polls
  induction polls with
  | nil => intro st h; exact h
  | cons p ps ih =>
    intro st h
    refine ih _ ?_
    rcases round_cases c st p with e | ⟨_, he, _, _⟩ | ⟨s, hr, _, _, e⟩
    · rw [e]; exact h
    · simp [maybeExit, h.1] at he
    · rw [e]
      simp only [found]
      repeat' split
      · exact ⟨h.1, by simp⟩
      · exact ⟨h.1, by simp⟩
      · exact ⟨by simp [stopAt, hc], h.2⟩

/-- The iterator ends only at a poll that shows nothing new, so late that the next one would be after the timeout of the
current wait, and with the consent of `timeout_fn` if there is one. -/
theorem C48_ends_only_on_timeout (c : Config) (start : Int) (polls : List Poll) (p : Poll) (h0 : (run c start polls).status = .running)
    (h : (run c start (polls ++ [p])).status = .ended) :
    (∀ s, Newest p s → ∃ y ∈ (run c start polls).yields, s ≤ y.step) ∧
    (∃ t, (run c start polls).stop = some t ∧ p.now + c.sleep > t) ∧ (c.hasTimeoutFn = true → p.answer = true ∧ p.answer' = true) := by
  rw [run_snoc] at h
  rcases round_cases c (run c start polls) p with e | ⟨_, he, hn, e⟩ | ⟨s, _, _, _, e⟩
  · rw [e, h0] at h; cases h
  · refine ⟨?_, ?_, ?_⟩
    · intro s hs
      obtain ⟨l, h1, h2⟩ := hn s hs
      rw [(run_inv c start polls).1] at h1
      obtain ⟨y, hy, rfl⟩ := Option.map_eq_some_iff.mp h1
      exact ⟨y, List.mem_of_getLast? hy, h2⟩
    · simp only [maybeExit] at he
      split at he
      · cases he
      · next t ht =>
        simp at he
        exact ⟨t, ht, he.1⟩
    · intro hf
      simp only [maybeExit] at he
      split at he
      · cases he
      · simp [hf] at he
        rw [e] at h
        simp only [timedOut, hf] at h
        refine ⟨he.2, ?_⟩
        cases ha : p.answer' with
        | true => rfl
        | false => simp [ha, h0] at h
  · rw [e] at h
    simp only [found] at h
    repeat' split at h
    all_goals simp [h0] at h

/-- Without `timeout_fn` it does end there. -/
theorem C48_times_out (c : Config) (hc : c.hasTimeoutFn = false) (start : Int) (polls : List Poll) (p : Poll) (t : Int)
    (h0 : (run c start polls).status = .running) (ht : (run c start polls).stop = some t) (hp : p.now + c.sleep > t)
    (hn : ∀ s, Newest p s → ∃ y ∈ (run c start polls).yields, s ≤ y.step) : (run c start (polls ++ [p])).status = .ended := by
  have he : maybeExit c (run c start polls) p = true := by simp [maybeExit, ht, hc, hp]
  have hto : timedOut c (run c start polls) p = { run c start polls with status := .ended } := by simp [timedOut, hc]
  rw [run_snoc]
  simp only [round, h0, ne_eq, not_true_eq_false, if_false, he, if_true, hto]
  cases hd : p.dir with
  | none => rfl
  | some l =>
    cases hm : maxStep l with
    | none => simp [hm]
    | some s =>
      simp only [hm]
      obtain ⟨y, hy, hle⟩ := hn s ⟨l, hd, maxStep_iff.mp hm⟩
      have hre : reached (run c start polls).last (some s) = false := by
        obtain ⟨h1, h2⟩ := run_inv c start polls
        generalize (run c start polls).yields = Y at *
        rcases List.eq_nil_or_concat Y with h3 | ⟨zs, z, h3⟩
        · subst h3; simp at hy
        · subst h3
          simp at h1
          rw [h1]
          simp only [reached]
          simp only [List.concat_eq_append, List.mem_append, List.mem_singleton] at hy
          rcases hy with hy | rfl
          · simp only [List.concat_eq_append, List.map_append, List.map_cons, List.map_nil, List.pairwise_append] at h2
            have := h2.2.2 y.step (List.mem_map_of_mem hy) z.step (by simp)
            simp; omega
          · simp; omega
      simp [hre]

/-- An iterator that has ended or raised does nothing more. -/
theorem C48_over (c : Config) (start : Int) (polls more : List Poll) (h : (run c start polls).status ≠ .running) :
    run c start (polls ++ more) = run c start polls := by
  induction more using List.reverseRecOn with
  | nil => simp
  | append_singleton more p ih => rw [← List.append_assoc, run_snoc, ih]; simp only [round]; rw [if_pos h]

/-- The timeout of a wait is counted from its start: the first wait. -/
theorem C48_first_wait (c : Config) (start : Int) : (run c start []).stop = c.timeout.map (start + ·) := rfl

/-- The timeout of a wait is counted from its start: later waits, after a yield. -/
theorem C48_next_wait (c : Config) (start : Int) (polls : List Poll) (p : Poll)
    (h : (run c start (polls ++ [p])).yields ≠ (run c start polls).yields) : (run c start (polls ++ [p])).stop = c.timeout.map (p.next + ·) := by
  rw [run_snoc] at h ⊢
  rcases round_cases c (run c start polls) p with e | ⟨_, _, _, e⟩ | ⟨s, _, _, _, e⟩
  · rw [e] at h; exact absurd rfl h
  · rw [e, (timedOut_same c _ p).1] at h; exact absurd rfl h
  · rw [e] at h ⊢
    simp only [found] at h ⊢
    split
    · next h1 => rw [if_pos h1] at h; exact absurd rfl h
    · next h1 =>
      rw [if_neg h1] at h
      split
      · next h2 => rw [if_pos h2] at h; exact absurd rfl h
      · rfl

/-- What is yielded has a snapshot, if snapshot errors are not ignored. -/
theorem C48_snapshotted (c : Config) (hc : c.ignoreErrors = false) (start : Int) (polls : List Poll) :
    ∀ y ∈ (run c start polls).yields, y.snapshot = true := by
  induction polls using List.reverseRecOn with
  | nil => simp [run]
  | append_singleton ps p ih =>
    intro y hy
    rw [run_snoc] at hy
    rcases round_cases c (run c start ps) p with e | ⟨_, _, _, e⟩ | ⟨s, _, _, _, e⟩
    · rw [e] at hy; exact ih y hy
    · rw [e, (timedOut_same c _ p).1] at hy; exact ih y hy
    · rw [e] at hy
      simp only [found] at hy
      split at hy
      · exact ih y hy
      · next h1 =>
        split at hy
        · exact ih y hy
        · rcases List.mem_append.mp hy with hy | hy
          · exact ih y hy
          · rw [List.mem_singleton.mp hy]
            cases hs : p.snap <;> simp [hs, hc] at h1 ⊢

/-- By default a checkpoint can be yielded without a snapshot, although the documentation says that all are snapshotted. -/
theorem C48_default_snapshot_fails : ∃ (p : Poll), (run {} 0 [p]).yields = [⟨7, false⟩] :=
  ⟨{ dir := some [7], snap := .notFound }, rfl⟩

/-- A step that does not fit into 32 bits raises. -/
theorem C48_large_step_fails (c : Config) (start : Int) (polls : List Poll) (p : Poll) (s : Nat) (hr : (run c start polls).status = .running)
    (hn : Newest p s) (hlt : ∀ y ∈ (run c start polls).yields, y.step < s) (hb : 2147483648 ≤ s) : (run c start (polls ++ [p])).status = .raised := by
  obtain ⟨l, h1, h2⟩ := hn
  rw [run_snoc]
  simp only [round, hr, ne_eq, not_true_eq_false, if_false, h1, maxStep_iff.mpr h2]
  have : reached (run c start polls).last (some s) = true := by
    cases hl' : (run c start polls).last with
    | none => rfl
    | some l =>
      rw [(run_inv c start polls).1] at hl'
      obtain ⟨y, hy, rfl⟩ := Option.map_eq_some_iff.mp hl'
      have := hlt y (List.mem_of_getLast? hy)
      simp [reached]; omega
  simp only [this, if_true, found]
  split
  · rfl
  · simp

/-- After `timeout_fn` refused, the timeout does not start again, although the documentation says so: the next poll, one
second later, asks it again and can end the iteration. -/
theorem C48_timeout_not_restarted_fails : ∃ (c : Config) (p q : Poll), c.timeout = some 100 ∧ c.hasTimeoutFn = true ∧ p.answer = false ∧ q.now ≤ p.now + 1 ∧
    (run c 0 [p]).status = .running ∧ (run c 0 [p, q]).status = .ended :=
  ⟨{ timeout := some 100, hasTimeoutFn := true }, { dir := none, now := 100 }, { dir := none, now := 101, answer := true, answer' := true },
    rfl, rfl, rfl, by decide, rfl, rfl⟩

/-- A run: a missing directory, steps 3 and 5, a poll without news, step 9. -/
example : (run { timeout := some 10 } 0 [{ dir := none, now := 1 }, { dir := some [3, 5], now := 2, next := 3 }, { dir := some [5, 3], now := 4 },
    { dir := some [9, 5], now := 5, next := 6 }, { dir := some [9], now := 20 }]) =
    { last := some 9, stop := some 16, status := .ended, yields := [⟨5, true⟩, ⟨9, true⟩] } := by decide

end Verif.Iterator
