import Verif.Partial.MultiLive

/-!
# C116: `finalize` of a partial save called in several processes

`exec c (initial f d) acts` is the state after the schedule `acts`, any
interleaving in which processes may also stop for good at any point, when
`finalize` is called with `f` at the path and `d` the state of the directory of
the partial saves. `c.n` is the number of processes of the job, `c.active` says
which take part.
-/

namespace Verif.PartialFin

/-- C116. No two processes disagree: when one has returned, no process that takes
part has raised, and none ever will. -/
theorem C116_agreement (c : Cfg) (hprim : c.primary < c.n) (hpa : c.active c.primary = true)
    (f : Final) (d : Part) (acts : List Act) (p q : Nat)
    (hq : q < c.n) (hqa : c.active q = true) (e : Err)
    (hdone : (exec c (initial f d) acts).pc p = .done) :
    (exec c (initial f d) acts).pc q ≠ .raised e := by
  have h := inv_exec hprim hpa acts (inv_initial c f d)
  intro hr
  have h1 := h.g4 p q (by rw [hdone]; simp [pos]) hq hqa
  have h2 := h.got p (by rw [hdone]; simp [pos])
  rw [h.dn p hdone] at h2
  have h3 := h.got q h1
  rw [← h2] at h3
  have : e = .own ∨ e = .told := by
    rw [hr] at h1
    revert h1; cases e <;> simp [pos]
  rcases this with rfl | rfl
  · rw [h.rs q (Or.inl hr)] at h3; cases h3
  · rw [h.rs q (Or.inr hr)] at h3; cases h3

/-- C116. When `finalize` has returned in any process, the checkpoint is at the
path: nothing was there before, and the partial saves were merged and renamed
without error. -/
theorem C116_returned_is_published (c : Cfg) (hprim : c.primary < c.n)
    (hpa : c.active c.primary = true) (f : Final) (d : Part) (acts : List Act) (p : Nat)
    (hdone : (exec c (initial f d) acts).pc p = .done) :
    (exec c (initial f d) acts).final = .published ∧
    (exec c (initial f d) acts).part = .none ∧
    f = .absent ∧ d ≠ .none ∧ c.outcome = .ok := by
  have h := inv_exec hprim hpa acts (inv_initial c f d)
  have h1 := h.g3 p c.primary (by rw [hdone]; simp [pos]) hprim
  have h2 := h.got p (by rw [hdone]; simp [pos])
  rw [h.dn p hdone] at h2
  have hl := h.look p (by rw [hdone]; simp [pos])
  rcases h.w9 h1 with h3 | h3 | h3
  · exact ⟨h3.2.1, h3.2.2.1, hl.1, hl.2, h3.1⟩
  · rw [h3.2.2.2] at h2; cases h2
  · rw [h3.2.2.2] at h2; cases h2

/-- C116. When `finalize` has raised in any process, it has published nothing and
will not: what is at the path is what was there before. -/
theorem C116_raised_publishes_nothing (c : Cfg) (hprim : c.primary < c.n)
    (hpa : c.active c.primary = true) (f : Final) (d : Part) (acts : List Act) (p : Nat)
    (hp : p < c.n) (ha : c.active p = true) (e : Err)
    (hr : (exec c (initial f d) acts).pc p = .raised e) :
    (exec c (initial f d) acts).final = f := by
  have h := inv_exec hprim hpa acts (inv_initial c f d)
  have early : pos ((exec c (initial f d) acts).pc p) = 3 →
      (exec c (initial f d) acts).final = f := by
    intro h3
    rcases Nat.lt_or_ge 5 (pos ((exec c (initial f d) acts).pc c.primary)) with hlt | hge
    · have := h.g2 c.primary p (by omega) hp ha
      omega
    · exact (h.w0 hge).1
  have late : pos ((exec c (initial f d) acts).pc p) = 11 →
      (exec c (initial f d) acts).got p = true →
      (exec c (initial f d) acts).final = f := by
    intro h11 hg
    have h1 := h.g3 p c.primary (by omega) hprim
    have h2 := h.got p (by omega)
    have hl := h.look p (by omega)
    rw [hg] at h2
    rcases h.w9 h1 with h3 | h3 | h3
    · rw [h3.2.2.2] at h2; cases h2
    · rw [h3.2.1, hl.1]
    · rw [h3.2.1, hl.1]
  cases e with
  | fileExists => exact early (by rw [hr]; rfl)
  | notFound => exact early (by rw [hr]; rfl)
  | own => exact late (by rw [hr]; rfl) (h.rs p (Or.inl hr))
  | told => exact late (by rw [hr]; rfl) (h.rs p (Or.inr hr))
  | escaped =>
    by_cases hpp : p = c.primary
    · subst hpp
      rw [(h.w7 (by rw [hr]; rfl)).1, (h.look c.primary (by rw [hr]; simp [pos])).1]
    · exact absurd hr (h.prim p hpp).2.2.2.1

/-- C116. Whoever stops and whenever: an earlier checkpoint at the path is never
touched, what appears there is only a completely merged one, and the data of the
partial saves goes nowhere else. -/
theorem C116_all_or_nothing (c : Cfg) (hprim : c.primary < c.n)
    (hpa : c.active c.primary = true) (f : Final) (d : Part) (acts : List Act) :
    ((exec c (initial f d) acts).final = f ∧
      ((exec c (initial f d) acts).part = .none → d = .none)) ∨
    ((exec c (initial f d) acts).final = .published ∧ f = .absent ∧ d ≠ .none ∧
      c.outcome = .ok) := by
  have h := inv_exec hprim hpa acts (inv_initial c f d)
  rcases Nat.lt_or_ge 5 (pos ((exec c (initial f d) acts).pc c.primary)) with hlt | hge
  · have hl := h.look c.primary (by omega)
    have hle := pos_le ((exec c (initial f d) acts).pc c.primary)
    rcases Nat.lt_or_ge (pos ((exec c (initial f d) acts).pc c.primary)) 9 with h9 | h9
    · left
      have : pos ((exec c (initial f d) acts).pc c.primary) = 6 ∨
          pos ((exec c (initial f d) acts).pc c.primary) = 7 ∨
          pos ((exec c (initial f d) acts).pc c.primary) = 8 := by omega
      rcases this with h6 | h6 | h6
      · have := h.w6 h6
        exact ⟨by rw [this.1, hl.1], by rw [this.2.1]; simp⟩
      · have := h.w7 h6
        exact ⟨by rw [this.1, hl.1], by rw [this.2.1]; simp⟩
      · have := h.w8 h6
        exact ⟨by rw [this.1, hl.1], by rw [this.2.1]; simp⟩
    · rcases h.w9 h9 with h3 | h3 | h3
      · exact Or.inr ⟨h3.2.1, hl.1, hl.2, h3.1⟩
      · exact Or.inl ⟨by rw [h3.2.1, hl.1], by rw [h3.2.2.1]; simp⟩
      · exact Or.inl ⟨by rw [h3.2.1, hl.1], by rw [h3.2.2.1]; simp⟩
  · have := h.w0 hge
    exact Or.inl ⟨this.1, by rw [this.2.1]; exact id⟩

theorem C116_all_or_nothing_nonvacuous :
    (exec ⟨2, fun _ => true, 0, .ok⟩ (initial .absent .pending)
      [.run 0, .run 1, .run 0, .run 1, .run 0, .run 1, .run 0, .run 0, .stop 0]).part = .half ∧
    (exec ⟨2, fun _ => true, 0, .ok⟩ (initial .absent .pending)
      [.run 0, .run 1, .run 0, .run 1, .run 0, .run 1, .run 0, .run 0, .run 0, .run 0]).final
      = .published := by
  decide

/-- C116. When all processes of the job call `finalize`, all go on being given
turns, none stops, and no error escapes from the merge, the call ends in every
process as it should: all find an earlier checkpoint at the path, or all miss the
partial saves, or all return, or all raise. -/
theorem C116_ends_everywhere_partial (c : Cfg) (hprim : c.primary < c.n)
    (hall : ∀ p, p < c.n → c.active p = true) (f : Final) (d : Part)
    (hesc : c.outcome ≠ .mergeEscapes) (turns : List (List Nat))
    (hfair : ∀ l, l ∈ turns → ∀ p, p < c.n → p ∈ l) (hlen : 11 * c.n < turns.length) :
    (f ≠ .absent → ∀ p, p < c.n →
      (exec c (initial f d) (turns.flatten.map .run)).pc p = .raised .fileExists) ∧
    (f = .absent → d = .none → ∀ p, p < c.n →
      (exec c (initial f d) (turns.flatten.map .run)).pc p = .raised .notFound) ∧
    (f = .absent → d ≠ .none → c.outcome = .ok → ∀ p, p < c.n →
      (exec c (initial f d) (turns.flatten.map .run)).pc p = .done) ∧
    (f = .absent → d ≠ .none → c.outcome ≠ .ok → ∀ p, p < c.n →
      (exec c (initial f d) (turns.flatten.map .run)).pc p =
        .raised (if p = c.primary then .own else .told)) := by
  have hpa := hall c.primary hprim
  have h := inv_exec hprim hpa (turns.flatten.map .run) (inv_initial c f d)
  have hst := rounds_stuck (s := initial f d) hfair hlen
  have hd := runs_alive (c := c) turns.flatten (s := initial f d) (fun _ => rfl)
  rcases stuck_all h hall hd hst hprim hesc with h3 | h11
  · have hex : ∀ p, p < c.n →
        (exec c (initial f d) (turns.flatten.map .run)).pc p = .raised .fileExists ∨
        (exec c (initial f d) (turns.flatten.map .run)).pc p = .raised .notFound :=
      fun p hp => pc_of_pos3 (h3 p hp)
    refine ⟨fun hf p hp => ?_, fun hf hdn p hp => ?_, fun hf hdn ho p hp => ?_,
      fun hf hdn ho p hp => ?_⟩
    · rcases hex p hp with h1 | h1
      · exact h1
      · exact absurd (h.nf p h1).1 hf
    · rcases hex p hp with h1 | h1
      · exact absurd hf (h.ex p h1)
      · exact h1
    · rcases hex p hp with h1 | h1
      · exact absurd hf (h.ex p h1)
      · exact absurd (h.nf p h1).2 hdn
    · rcases hex p hp with h1 | h1
      · exact absurd hf (h.ex p h1)
      · exact absurd (h.nf p h1).2 hdn
  · have hl := h.look c.primary (by rw [h11 c.primary hprim]; omega)
    have h9 := h.w9 (by rw [h11 c.primary hprim]; omega)
    refine ⟨fun hf => absurd hl.1 hf, fun _ hdn => absurd hdn hl.2, fun hf hdn ho p hp => ?_,
      fun hf hdn ho p hp => ?_⟩
    · have hg := h.got p (by rw [h11 p hp]; omega)
      have hfl : (exec c (initial f d) (turns.flatten.map .run)).failed = false := by
        rcases h9 with h9 | h9 | h9
        · exact h9.2.2.2
        · rw [ho] at h9; cases h9.1
        · rw [ho] at h9; cases h9.1
      rcases pc_of_pos11 (h11 p hp) with h1 | h1 | h1
      · exact h1
      · rw [h.rs p (Or.inl h1), hfl] at hg; cases hg
      · rw [h.rs p (Or.inr h1), hfl] at hg; cases hg
    · have hg := h.got p (by rw [h11 p hp]; omega)
      have hfl : (exec c (initial f d) (turns.flatten.map .run)).failed = true := by
        rcases h9 with h9 | h9 | h9
        · exact absurd h9.1 ho
        · exact h9.2.2.2
        · exact h9.2.2.2
      rcases pc_of_pos11 (h11 p hp) with h1 | h1 | h1
      · rw [h.dn p h1, hfl] at hg; cases hg
      · by_cases hpp : p = c.primary
        · rw [if_pos hpp]; exact h1
        · exact absurd h1 (h.prim p hpp).2.2.2.2
      · by_cases hpp : p = c.primary
        · rw [hpp] at h1; exact absurd h1 h.told
        · rw [if_neg hpp]; exact h1

theorem C116_ends_everywhere_nonvacuous :
    (exec ⟨2, fun _ => true, 1, .renameFails⟩ (initial .absent .half)
      ((List.replicate 23 [0, 1]).flatten.map .run)).pc 1 = .raised .own ∧
    (exec ⟨2, fun _ => true, 1, .renameFails⟩ (initial .absent .half)
      ((List.replicate 23 [0, 1]).flatten.map .run)).pc 0 = .raised .told := by
  decide +kernel

/-- C116 (finding). When only some processes of the job take part
(`active_processes`), `finalize` never returns and never reports a failed merge in
any of them: the outcome is sent in a broadcast of all processes of the job. -/
theorem C116_subset_never_returns_fails (c : Cfg) (hprim : c.primary < c.n)
    (hpa : c.active c.primary = true) (f : Final) (d : Part) (acts : List Act)
    (out : Nat) (hout : out < c.n) (hna : c.active out = false) (p : Nat) :
    (exec c (initial f d) acts).pc p ≠ .done ∧
    (exec c (initial f d) acts).pc p ≠ .raised .own ∧
    (exec c (initial f d) acts).pc p ≠ .raised .told := by
  have h := inv_exec hprim hpa acts (inv_initial c f d)
  have key : ¬ 10 ≤ pos ((exec c (initial f d) acts).pc p) := by
    intro h10
    have := h.g3 p out h10 hout
    rw [h.idle out hna] at this
    simp [pos] at this
  refine ⟨fun h1 => ?_, fun h1 => ?_, fun h1 => ?_⟩ <;> (rw [h1] at key; simp [pos] at key)

/-- C116 (finding). … although the checkpoint has been published: here by the one
process of two that takes part. -/
theorem C116_subset_published_fails :
    (exec ⟨2, fun p => p == 0, 0, .ok⟩ (initial .absent .pending)
      ((List.replicate 23 [0, 1]).flatten.map .run)).final = .published ∧
    (exec ⟨2, fun p => p == 0, 0, .ok⟩ (initial .absent .pending)
      ((List.replicate 23 [0, 1]).flatten.map .run)).pc 0 = .wait .broadcast := by
  decide +kernel

/-- C116 (finding). When the merge raises an error that is neither a `ValueError`
nor an `OSError`, the primary raises it and no other process ever returns or
raises. -/
theorem C116_escaped_error_fails (c : Cfg) (hprim : c.primary < c.n)
    (hpa : c.active c.primary = true) (d : Part) (hd : d ≠ .none)
    (hesc : c.outcome = .mergeEscapes) (acts : List Act) (p : Nat)
    (hpp : p ≠ c.primary) :
    (exec c (initial .absent d) acts).pc p ≠ .done ∧
    ∀ e, (exec c (initial .absent d) acts).pc p ≠ .raised e := by
  have h := inv_exec hprim hpa acts (inv_initial c .absent d)
  have key : ¬ 10 ≤ pos ((exec c (initial .absent d) acts).pc p) := by
    intro h10
    rcases h.w9 (h.g3 p c.primary h10 hprim) with h1 | h1 | h1 <;>
      (rw [hesc] at h1; cases h1.1)
  refine ⟨fun h1 => by rw [h1] at key; simp [pos] at key, fun e h1 => ?_⟩
  cases e with
  | fileExists => exact h.ex p h1 rfl
  | notFound => exact hd (h.nf p h1).2
  | own => rw [h1] at key; simp [pos] at key
  | told => rw [h1] at key; simp [pos] at key
  | escaped => exact (h.prim p hpp).2.2.2.1 h1

theorem C116_escaped_error_nonvacuous :
    (exec ⟨2, fun _ => true, 0, .mergeEscapes⟩ (initial .absent .pending)
      ((List.replicate 23 [0, 1]).flatten.map .run)).pc 0 = .raised .escaped ∧
    (exec ⟨2, fun _ => true, 0, .mergeEscapes⟩ (initial .absent .pending)
      ((List.replicate 23 [0, 1]).flatten.map .run)).pc 1 = .wait .broadcast := by
  decide +kernel

end Verif.PartialFin
