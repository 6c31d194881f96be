import Verif.V1.MultiSaveLive

/-!
# C113, C114: a V1 save carried out by several processes

`exec c (initial existed) acts` is the state after the schedule `acts`: any
interleaving of the processes' moves, in which processes may also stop for good
at any point. `c.n` processes take part and `c.primary` is one of them.
-/

namespace Verif.V1Save

/-! ## C113: agreeing about what is at the destination -/

/-- C113. Without `overwrite` a checkpoint that is there stays there, whatever
the interleaving and whoever stops: it is not touched, nothing is created, and no
process gets past looking at the destination. -/
theorem C113_existing_kept (c : Cfg) (hprim : c.primary < c.n) (hov : c.overwrite = false)
    (acts : List Act) :
    (exec c (initial true) acts).final = .old ∧ (exec c (initial true) acts).tmp = none ∧
      ∀ p, p < c.n → (exec c (initial true) acts).pc p = .start ∨
        (exec c (initial true) acts).pc p = .wait .pre ∨
        (exec c (initial true) acts).pc p = .check ∨
        (exec c (initial true) acts).pc p = .refused := by
  have h := inv_exec hprim acts (inv_initial c true)
  have hk := h.kept rfl hov
  have hkp := hk c.primary hprim
  refine ⟨?_, h.tmp1 (by omega), fun p hp => ?_⟩
  · rw [h.fin (by omega)]
    simp only [expected, if_true]; rw [if_pos (by omega)]
  · have h1 := hk p hp
    revert h1
    cases (exec c (initial true) acts).pc p with
    | wait k => cases k <;> simp [pos]
    | _ => simp [pos]

theorem C113_existing_kept_nonvacuous :
    (exec ⟨2, 0, false, true⟩ (initial true)
      [.run 0, .run 1, .run 1, .run 1, .run 0, .run 0]).pc 0 = .refused := by
  decide

/-- C113. Without `overwrite` and with a checkpoint at the destination every
process refuses: in every schedule that keeps giving every process its turn, all
of them raise. -/
theorem C113_all_refuse (c : Cfg) (hprim : c.primary < c.n) (hov : c.overwrite = false)
    (hsy : c.syncs = true) (turns : List (List Nat))
    (hfair : ∀ l, l ∈ turns → ∀ p, p < c.n → p ∈ l) (hlen : 16 * c.n < turns.length) :
    ∀ p, p < c.n →
      (exec c (initial true) (turns.flatten.map .run)).pc p = .refused := by
  have h0 := inv_initial c true
  have h := inv_exec hprim (turns.flatten.map .run) h0
  have hst := rounds_stuck hprim hsy h0 hfair hlen
  have hd := runs_alive hprim hsy turns.flatten h0 (fun _ => rfl)
  rcases stuck_cases h hprim hsy hd hst with h1 | h1 | h1
  · intro p hp
    have := h.kept rfl hov p hp
    rw [h1 p hp] at this
    simp [pos] at this
  · exact h1.2.2
  · rw [hov] at h1; cases h1.2.1

theorem C113_all_refuse_nonvacuous :
    (∀ l, l ∈ List.replicate 33 [0, 1] → ∀ p, p < 2 → p ∈ l) ∧
      16 * 2 < (List.replicate 33 [0, 1]).length := by
  refine ⟨fun l hl p hp => ?_, by simp⟩
  rw [List.eq_of_mem_replicate hl]
  have : p = 0 ∨ p = 1 := by omega
  rcases this with h | h <;> simp [h]

/-- C113. When nothing is at the destination no process ever refuses or removes
anything, although others may already be creating the new checkpoint. -/
theorem C113_fresh_none_refused (c : Cfg) (hprim : c.primary < c.n) (acts : List Act)
    (p : Nat) (hp : p < c.n) :
    (exec c (initial false) acts).pc p ≠ .refused ∧
      (exec c (initial false) acts).pc p ≠ .remove ∧
      (exec c (initial false) acts).pc p ≠ .removing := by
  have h := inv_exec hprim acts (inv_initial c false)
  have h1 := h.fresh rfl p hp
  refine ⟨?_, ?_, ?_⟩ <;> intro he <;> rw [he] at h1 <;> simp [pos] at h1

theorem C113_fresh_none_refused_nonvacuous :
    (exec ⟨2, 0, false, true⟩ (initial false)
      [.run 0, .run 1, .run 0, .run 1, .run 0, .run 1, .run 0, .run 0]).tmp = some ⟨[], false⟩ := by
  decide

/-- C113. Nothing of the new checkpoint is created before every process has
looked at the destination and said so, and by then nothing of an old one is left. -/
theorem C113_created_after_all_looked (c : Cfg) (hprim : c.primary < c.n) (existed : Bool)
    (acts : List Act) (d : Dir) (ht : (exec c (initial existed) acts).tmp = some d) :
    (exec c (initial existed) acts).final = .absent ∧
      ∀ p, p < c.n → (exec c (initial existed) acts).arrived .post p = true := by
  have h := inv_exec hprim acts (inv_initial c existed)
  have h9 : 9 ≤ pos ((exec c (initial existed) acts).pc c.primary) := by
    rcases Nat.lt_or_ge 8 (pos ((exec c (initial existed) acts).pc c.primary)) with hlt | hge
    · exact hlt
    · rw [h.tmp1 hge] at ht; cases ht
  have h14 : pos ((exec c (initial existed) acts).pc c.primary) ≤ 14 := by
    rcases Nat.lt_or_ge 14 (pos ((exec c (initial existed) acts).pc c.primary)) with hlt | hge
    · rw [h.tmp3 hlt] at ht; cases ht
    · exact hge
  refine ⟨?_, fun p hp => ?_⟩
  · rw [h.fin h14]
    unfold expected
    split
    · rw [if_neg (by omega), if_neg (by omega)]
    · rfl
  · rw [h.arr p hp .post rfl]
    exact h.gap c.primary p hprim hp .post rfl (by rw [kv_post]; omega)

theorem C113_created_after_all_looked_nonvacuous :
    (exec ⟨1, 0, true, true⟩ (initial true)
      [.run 0, .run 0, .run 0, .run 0, .run 0, .run 0, .run 0, .run 0]).tmp
      = some ⟨[], false⟩ := by decide

/-- C113. A checkpoint that was at the destination is touched only by a save with
`overwrite`. -/
theorem C113_removed_only_when_overwriting (c : Cfg) (hprim : c.primary < c.n)
    (acts : List Act) (h : (exec c (initial true) acts).final ≠ .old) :
    c.overwrite = true := by
  cases hov : c.overwrite with
  | true => rfl
  | false => exact absurd (C113_existing_kept c hprim hov acts).1 h

theorem C113_removed_only_when_overwriting_nonvacuous :
    (exec ⟨2, 0, true, true⟩ (initial true)
      [.run 0, .run 1, .run 0, .run 0, .run 0]).final ≠ .old := by decide

/-- C113. A save to a destination where nothing is finishes in every process, in
every schedule without failures that keeps giving every process its turn. -/
theorem C113_fresh_finishes (c : Cfg) (hprim : c.primary < c.n)
    (hsy : c.syncs = true) (turns : List (List Nat))
    (hfair : ∀ l, l ∈ turns → ∀ p, p < c.n → p ∈ l) (hlen : 16 * c.n < turns.length) :
    ∀ p, p < c.n →
      (exec c (initial false) (turns.flatten.map .run)).pc p = .done := by
  have h0 := inv_initial c false
  have h := inv_exec hprim (turns.flatten.map .run) h0
  have hst := rounds_stuck hprim hsy h0 hfair hlen
  have hd := runs_alive hprim hsy turns.flatten h0 (fun _ => rfl)
  rcases stuck_cases h hprim hsy hd hst with h1 | h1 | h1
  · exact h1
  · cases h1.1
  · cases h1.1

/-- C113. What becomes of a save with `overwrite`, in every schedule without
failures that keeps giving every process its turn: it finishes in every process;
or the old checkpoint is gone, the primary waits for ever at one barrier and
another process at a different one. -/
theorem C113_overwrite_outcomes_partial (c : Cfg) (hprim : c.primary < c.n)
    (hov : c.overwrite = true) (hsy : c.syncs = true) (turns : List (List Nat))
    (hfair : ∀ l, l ∈ turns → ∀ p, p < c.n → p ∈ l) (hlen : 16 * c.n < turns.length) :
    (∀ p, p < c.n → (exec c (initial true) (turns.flatten.map .run)).pc p = .done) ∨
    ((exec c (initial true) (turns.flatten.map .run)).final = .absent ∧
      (exec c (initial true) (turns.flatten.map .run)).pc c.primary = .wait .rmtree ∧
      ∃ q, q < c.n ∧ q ≠ c.primary ∧
        (exec c (initial true) (turns.flatten.map .run)).pc q = .wait .post) := by
  have h0 := inv_initial c true
  have h := inv_exec hprim (turns.flatten.map .run) h0
  have hst := rounds_stuck hprim hsy h0 hfair hlen
  have hd := runs_alive hprim hsy turns.flatten h0 (fun _ => rfl)
  rcases stuck_cases h hprim hsy hd hst with h1 | h1 | h1
  · exact Or.inl h1
  · rw [hov] at h1; cases h1.2.1
  · obtain ⟨_, _, e1, e2, q, e3, e4, e5, _⟩ := h1
    exact Or.inr ⟨e1, e2, q, e3, e4, e5⟩

/-- C113. A save with `overwrite` finishes in every process if every process has
looked at the destination before the removal of the old checkpoint is complete:
in every schedule without failures that goes on giving every process its turn. -/
theorem C113_overwrite_finishes_partial (c : Cfg) (hprim : c.primary < c.n)
    (hov : c.overwrite = true) (hsy : c.syncs = true) (first : List Nat)
    (hthere : (exec c (initial true) (first.map .run)).final = .old ∨
      (exec c (initial true) (first.map .run)).final = .damaged)
    (hlooked : ∀ p, p < c.n → (exec c (initial true) (first.map .run)).pc p ≠ .start ∧
      (exec c (initial true) (first.map .run)).pc p ≠ .wait .pre ∧
      (exec c (initial true) (first.map .run)).pc p ≠ .check)
    (turns : List (List Nat))
    (hfair : ∀ l, l ∈ turns → ∀ p, p < c.n → p ∈ l) (hlen : 16 * c.n < turns.length) :
    ∀ p, p < c.n →
      (exec c (initial true) (first.map .run ++ turns.flatten.map .run)).pc p = .done := by
  have h0 := inv_exec hprim (first.map .run) (inv_initial c true)
  have hd0 := runs_alive hprim hsy first (inv_initial c true) (fun _ => rfl)
  have h := inv_exec hprim (turns.flatten.map .run) h0
  have hst := rounds_stuck hprim hsy h0 hfair hlen
  have hd := runs_alive hprim hsy turns.flatten h0 hd0
  have hp5 : pos ((exec c (initial true) (first.map .run)).pc c.primary) ≤ 5 := by
    rcases Nat.lt_or_ge 5 (pos ((exec c (initial true) (first.map .run)).pc c.primary)) with
      hlt | hge
    · exfalso
      rcases Nat.lt_or_ge 14 (pos ((exec c (initial true) (first.map .run)).pc c.primary)) with
        h14 | h14
      · obtain ⟨d, hf⟩ := h0.fin2 h14
        rw [hf] at hthere; rcases hthere with h | h <;> cases h
      · have hf := h0.fin h14
        simp only [expected, if_true] at hf
        rw [if_neg (by omega), if_neg (by omega)] at hf
        rw [hf] at hthere; rcases hthere with h | h <;> cases h
    · exact hge
  rw [exec_append]
  rcases stuck_cases h hprim hsy hd hst with h1 | h1 | h1
  · exact h1
  · rw [hov] at h1; cases h1.2.1
  · obtain ⟨_, _, _, _, q, hq, hqp, _, hna⟩ := h1
    have hq3 : 3 ≤ pos ((exec c (initial true) (first.map .run)).pc q) := by
      have := hlooked q hq
      revert this
      cases (exec c (initial true) (first.map .run)).pc q with
      | wait k => cases k <;> simp [pos]
      | _ => simp [pos]
    have := exec_arrived (c := c) (turns.flatten.map .run) (h0.seen rfl hov hp5 q hq hqp hq3)
    rw [this] at hna; cases hna

theorem C113_overwrite_finishes_nonvacuous :
    (exec ⟨2, 0, true, true⟩ (initial true)
      ([0, 1, 0, 0, 0, 1, 1].map .run)).final = .damaged ∧
    (exec ⟨2, 0, true, true⟩ (initial true)
      ([0, 1, 0, 0, 0, 1, 1].map .run)).pc 1 = .wait .rmtree := by
  decide

/-- C113. With a single process a save with `overwrite` always finishes. -/
theorem C113_one_process_overwrites (c : Cfg) (hn : c.n = 1) (hprim : c.primary < c.n)
    (hov : c.overwrite = true) (hsy : c.syncs = true) (turns : List (List Nat))
    (hfair : ∀ l, l ∈ turns → ∀ p, p < c.n → p ∈ l) (hlen : 16 * c.n < turns.length) :
    (exec c (initial true) (turns.flatten.map .run)).pc c.primary = .done := by
  rcases C113_overwrite_outcomes_partial c hprim hov hsy turns hfair hlen with h | ⟨_, _, q, hq, hne, _⟩
  · exact h _ hprim
  · omega

theorem C113_one_process_overwrites_nonvacuous :
    (exec ⟨1, 0, true, true⟩ (initial true)
      ((List.replicate 17 [0]).flatten.map .run)).final = .committed ⟨[0], true⟩ := by
  decide

/-- With two processes an overwriting save can also finish: both look before the
primary removes. -/
theorem C113_overwrite_outcomes_nonvacuous :
    (exec ⟨2, 0, true, true⟩ (initial true)
      ((List.replicate 20 [0, 1]).flatten.map .run)).final = .committed ⟨[0, 1], true⟩ := by
  decide +kernel

/-- C113 (finding): if the primary has removed the old checkpoint before some
other process has looked, the save never finishes in any process, whatever
happens next, and nothing is left at the destination. -/
theorem C113_overtaken_never_finishes_fails (c : Cfg) (hprim : c.primary < c.n)
    (acts : List Act) (q : Nat) (hq : q < c.n) (hqp : q ≠ c.primary)
    (hgone : (exec c (initial true) acts).final = .absent)
    (hwait : (exec c (initial true) acts).pc c.primary = .wait .rmtree)
    (hlook : (exec c (initial true) acts).pc q = .start ∨
      (exec c (initial true) acts).pc q = .wait .pre ∨
      (exec c (initial true) acts).pc q = .check)
    (more : List Act) :
    (exec c (initial true) (acts ++ more)).final = .absent ∧
      (exec c (initial true) (acts ++ more)).tmp = none ∧
      ∀ p, p < c.n → (exec c (initial true) (acts ++ more)).pc p ≠ .done := by
  have h1 := inv_exec hprim acts (inv_initial c true)
  have hdm : Doomed c q (exec c (initial true) acts) := by
    refine ⟨hgone, hwait, hq, hqp, ?_, ?_⟩
    · cases ha : (exec c (initial true) acts).arrived .rmtree q with
      | false => rfl
      | true =>
        have := h1.rm1 q hq ha
        rcases hlook with h | h | h <;> rw [h] at this <;> simp [pos] at this
    · rcases hlook with h | h | h
      · exact Or.inl h
      · exact Or.inr (Or.inl h)
      · exact Or.inr (Or.inr (Or.inl h))
  have h2 := inv_exec hprim more h1
  have hdm2 := doomed_exec hprim more h1 hdm
  rw [exec_append]
  refine ⟨hdm2.fin, h2.tmp1 (by rw [hdm2.prim]; simp [pos]), fun p hp he => ?_⟩
  have := h2.gap p c.primary hp hprim .post rfl (by rw [he]; simp [kpos, pos])
  rw [hdm2.prim] at this
  simp [kpos, pos] at this

/-- C113 (finding): for every number of processes from two on, there is a
schedule without failures after which an overwriting save can never finish, with
the old checkpoint deleted and nothing in its place. -/
theorem C113_overwrite_hangs_fails (c : Cfg) (hn : 2 ≤ c.n) (hprim : c.primary < c.n)
    (hov : c.overwrite = true) :
    ∃ turns : List Nat, ∀ more : List Act,
      (exec c (initial true) (turns.map .run ++ more)).final = .absent ∧
      (exec c (initial true) (turns.map .run ++ more)).tmp = none ∧
      ∀ p, p < c.n → (exec c (initial true) (turns.map .run ++ more)).pc p ≠ .done := by
  have h0 := inv_initial c true
  obtain ⟨h1, hd1, hp1⟩ := pass_all hprim (a := .start) (b := .wait .pre)
    (fun s p _ _ hd hp ha => move_start (hd p) hp ha) h0 (fun _ _ => rfl) (fun _ => rfl)
  -- the primary then goes through the barrier, looks and removes
  have ho : isOpen c (exec c (initial true) ((List.range c.n).map .run)) .pre = true :=
    open_of_pos h1 rfl (fun q hq => by rw [hp1 q hq]; exact Nat.le_refl _)
  have hf1 : (exec c (initial true) ((List.range c.n).map .run)).final = .old := by
    rw [h1.fin (by rw [hp1 _ hprim]; simp [pos]), hp1 _ hprim]; rfl
  generalize hs1 : exec c (initial true) ((List.range c.n).map .run) = s1 at *
  let q := if c.primary = 0 then 1 else 0
  have hq : q < c.n := by simp only [q]; split <;> omega
  have hqp : q ≠ c.primary := by simp only [q]; split <;> omega
  have hrun : exec c s1 [.run c.primary, .run c.primary, .run c.primary, .run c.primary]
      = arrive { goto { goto (goto s1 c.primary .check) c.primary .remove with
          final := .damaged } c.primary .removing with final := .absent } c.primary .rmtree := by
    have e1 : act c s1 (.run c.primary) = goto s1 c.primary .check := by
      simp [act, step, hprim, hd1, hp1 _ hprim, ho, afterBarrier]
    have e2 : act c (goto s1 c.primary .check) (.run c.primary)
        = goto (goto s1 c.primary .check) c.primary .remove := by
      simp [act, step, hprim, hd1, goto, upd, lookAt, hf1, Final.present, hov]
    have e3 : act c (goto (goto s1 c.primary .check) c.primary .remove) (.run c.primary)
        = goto { goto (goto s1 c.primary .check) c.primary .remove with
          final := .damaged } c.primary .removing := by
      simp [act, step, hprim, hd1, goto, upd]
    have e4 : act c (goto { goto (goto s1 c.primary .check) c.primary .remove with
          final := .damaged } c.primary .removing) (.run c.primary)
        = arrive { goto { goto (goto s1 c.primary .check) c.primary .remove with
          final := .damaged } c.primary .removing with final := .absent } c.primary .rmtree := by
      simp [act, step, hprim, hd1, goto, upd]
    simp only [exec, e1, e2, e3, e4]
  refine ⟨List.range c.n ++ [c.primary, c.primary, c.primary, c.primary], fun more => ?_⟩
  have he : exec c (initial true)
      ((List.range c.n ++ [c.primary, c.primary, c.primary, c.primary]).map .run)
      = arrive { goto { goto (goto s1 c.primary .check) c.primary .remove with
          final := .damaged } c.primary .removing with final := .absent } c.primary .rmtree := by
    rw [List.map_append, exec_append, hs1]
    exact hrun
  refine C113_overtaken_never_finishes_fails c hprim _ q hq hqp ?_ ?_ ?_ more
  · rw [he]; rfl
  · rw [he]; simp [arrive, upd]
  · rw [he]; right; left
    simp [arrive, goto, upd, hqp, hp1 q hq]

/-- C113. Everyone raises or nobody does when the processes were given different
directories: the results of the comparison are the same in every process. -/
theorem C113_directory_check_agrees {α β : Type} [DecidableEq β] (hash : α → β)
    (paths : List α) (a b : Bool) (ha : a ∈ checkDirectories hash paths)
    (hb : b ∈ checkDirectories hash paths) : a = b := by
  match paths, ha, hb with
  | [], ha, _ => simp [checkDirectories] at ha
  | [_], ha, hb => simp [checkDirectories] at ha hb; rw [ha, hb]
  | p :: q :: r, ha, hb =>
    simp only [checkDirectories, List.mem_map] at ha hb
    obtain ⟨_, _, ha⟩ := ha
    obtain ⟨_, _, hb⟩ := hb
    rw [← ha, ← hb]

theorem sum_pos_iff : ∀ l : List Nat, l.sum > 0 ↔ ∃ x, x ∈ l ∧ x > 0
  | [] => by simp
  | a :: l => by
    have ih := sum_pos_iff l
    simp only [List.sum_cons, List.mem_cons]
    constructor
    · intro h
      by_cases ha : a > 0
      · exact ⟨a, Or.inl rfl, ha⟩
      · obtain ⟨x, hx, hp⟩ := ih.mp (by omega)
        exact ⟨x, Or.inr hx, hp⟩
    · rintro ⟨x, hx | hx, hp⟩
      · omega
      · have := ih.mpr ⟨x, hx, hp⟩; omega

/-- C113. With a hash that tells the given paths apart, the processes go on
exactly if all of them were given the same directory. -/
theorem C113_directory_check_exact {α β : Type} [DecidableEq β] (hash : α → β)
    (paths : List α)
    (hinj : ∀ a b, a ∈ paths → b ∈ paths → hash a = hash b → a = b) :
    (∀ r, r ∈ checkDirectories hash paths → r = false) ↔
      ∀ a b, a ∈ paths → b ∈ paths → a = b := by
  match paths, hinj with
  | [], _ => simp [checkDirectories]
  | [x], _ => simp [checkDirectories]
  | p :: q :: rest, hinj =>
    have key : (((p :: q :: rest).map (fun x => if hash x = hash p then 0 else 1)).sum > 0) ↔
        ∃ x, x ∈ p :: q :: rest ∧ hash x ≠ hash p := by
      rw [sum_pos_iff]
      constructor
      · rintro ⟨x, hx, hp⟩
        obtain ⟨y, hy, he⟩ := List.mem_map.mp hx
        refine ⟨y, hy, fun hh => ?_⟩
        rw [if_pos hh] at he; omega
      · rintro ⟨x, hx, hne⟩
        exact ⟨1, List.mem_map.mpr ⟨x, hx, by rw [if_neg hne]⟩, by omega⟩
    constructor
    · intro h
      have h1 := h _ (List.mem_map.mpr ⟨p, by simp, rfl⟩)
      have h2 : ¬ ∃ x, x ∈ p :: q :: rest ∧ hash x ≠ hash p := by
        rw [← key]; simpa using h1
      have h3 : ∀ x, x ∈ p :: q :: rest → x = p := by
        intro x hx
        apply hinj x p hx (by simp)
        apply Classical.byContradiction
        intro hne
        exact h2 ⟨x, hx, hne⟩
      intro a b ha hb
      rw [h3 a ha, h3 b hb]
    · intro h r hr
      simp only [checkDirectories, List.mem_map] at hr
      obtain ⟨_, _, hr⟩ := hr
      rw [← hr]
      apply decide_eq_false
      have : ¬ ∃ x, x ∈ p :: q :: rest ∧ hash x ≠ hash p := by
        rintro ⟨x, hx, hne⟩
        exact hne (by rw [h x p hx (by simp)])
      rw [← key] at this
      exact this

theorem C113_directory_check_nonvacuous :
    checkDirectories (fun s : String => s.length) ["/a", "/a", "/bc"] = [true, true, true] ∧
      checkDirectories (fun s : String => s.length) ["/a", "/a"] = [false, false] := by
  decide

/-! ## C114: the new checkpoint appears complete -/

/-- C114. With a handler that waits for the other processes, as for a PyTree, the
new checkpoint at the destination always holds the data of every process, merged:
whatever the interleaving and whoever stops. -/
theorem C114_committed_complete (c : Cfg) (hprim : c.primary < c.n) (hsy : c.syncs = true)
    (existed : Bool) (acts : List Act) (d : Dir)
    (h : (exec c (initial existed) acts).final = .committed d) :
    d.merged = true ∧ ∀ p, p < c.n → p ∈ d.data :=
  (inv_exec hprim acts (inv_initial c existed)).full hsy d h

theorem C114_committed_complete_nonvacuous :
    (exec ⟨3, 1, false, true⟩ (initial false)
      ((List.replicate 14 [2, 0, 1]).flatten.map .run)).final
      = .committed ⟨[1, 0, 2], true⟩ := by
  decide +kernel

/-- C114. When the save has returned in any process, the new checkpoint is at the
destination. -/
theorem C114_returned_is_committed (c : Cfg) (hprim : c.primary < c.n)
    (existed : Bool) (acts : List Act) (p : Nat) (hp : p < c.n)
    (h : (exec c (initial existed) acts).pc p = .done) :
    ∃ d, (exec c (initial existed) acts).final = .committed d := by
  have hi := inv_exec hprim acts (inv_initial c existed)
  have := hi.gap p c.primary hp hprim .finalize rfl (by rw [h]; simp [kpos, pos])
  exact hi.fin2 this

theorem C114_returned_is_committed_nonvacuous :
    (exec ⟨2, 0, false, true⟩ (initial false)
      ((List.replicate 14 [0, 1]).flatten.map .run)).pc 1 = .done := by
  decide +kernel

/-- C114. When the save has returned in one process, it has done its work in all
of them: every process has at least come to the last barrier. -/
theorem C114_returned_everywhere (c : Cfg) (hprim : c.primary < c.n)
    (existed : Bool) (acts : List Act) (p q : Nat) (hp : p < c.n) (hq : q < c.n)
    (h : (exec c (initial existed) acts).pc p = .done) :
    (exec c (initial existed) acts).pc q = .wait .finalize ∨
      (exec c (initial existed) acts).pc q = .done := by
  have hi := inv_exec hprim acts (inv_initial c existed)
  have := hi.gap p q hp hq .finalize rfl (by rw [h]; simp [kpos, pos])
  revert this
  cases (exec c (initial existed) acts).pc q with
  | wait k => cases k <;> simp [pos, kpos]
  | _ => simp [pos, kpos]

/-- C114. What a reader can find at the destination during a save to an empty
destination: nothing, or the complete new checkpoint. -/
theorem C114_reader_sees_complete (c : Cfg) (hprim : c.primary < c.n) (hsy : c.syncs = true)
    (acts : List Act) :
    (exec c (initial false) acts).final = .absent ∨
      ∃ d, (exec c (initial false) acts).final = .committed d ∧ d.merged = true ∧
        ∀ p, p < c.n → p ∈ d.data := by
  have hi := inv_exec hprim acts (inv_initial c false)
  rcases Nat.lt_or_ge 14 (pos ((exec c (initial false) acts).pc c.primary)) with hlt | hge
  · obtain ⟨d, hd⟩ := hi.fin2 hlt
    exact Or.inr ⟨d, hd, hi.full hsy d hd⟩
  · left; rw [hi.fin hge]; rfl

theorem committed_step {c : Cfg} {existed : Bool} {s s' : State} (h : Inv c existed s)
    {p : Nat} {d : Dir} (hf : s.final = .committed d)
    (hs : step c p s = some s') : s'.final = .committed d := by
  have h15 : 15 ≤ pos (s.pc c.primary) := by
    rcases Nat.lt_or_ge 14 (pos (s.pc c.primary)) with hlt | hge
    · exact hlt
    · have := h.fin hge
      rw [hf] at this
      unfold expected at this
      split at this
      · split at this
        · cases this
        · split at this <;> cases this
      · cases this
  unfold step at hs
  split at hs
  · rename_i hpd
    have hnp : s.pc p ≠ .remove ∧ s.pc p ≠ .removing := by
      by_cases hpp : p = c.primary
      · constructor <;> intro he <;> rw [← hpp, he] at h15 <;> simp [pos] at h15
      · exact h.onlyprim p hpd.1 hpp
    cases hpc : s.pc p with
    | start => simp only [hpc, Option.some.injEq] at hs; subst hs; exact hf
    | wait k =>
      simp only [hpc] at hs
      split at hs
      · simp only [Option.some.injEq] at hs; subst hs; cases k <;> exact hf
      · cases hs
    | check =>
      simp only [hpc, Option.some.injEq] at hs; subst hs
      unfold lookAt
      split
      · split
        · split <;> exact hf
        · exact hf
      · exact hf
    | remove => exact absurd hpc hnp.1
    | removing => exact absurd hpc hnp.2
    | refused => simp only [hpc] at hs; cases hs
    | create =>
      simp only [hpc, Option.some.injEq] at hs; subst hs
      unfold createStep; split <;> exact hf
    | write =>
      simp only [hpc, Option.some.injEq] at hs; subst hs
      unfold writeStep
      split
      · exact hf
      · simp only; split <;> exact hf
    | merge =>
      simp only [hpc, Option.some.injEq] at hs; subst hs
      unfold mergeStep; split <;> exact hf
    | commit =>
      simp only [hpc, Option.some.injEq] at hs; subst hs
      unfold commitStep
      split
      · rename_i hpp
        rw [← hpp, hpc] at h15; simp [pos] at h15
      · exact hf
    | done => simp only [hpc] at hs; cases hs
  · cases hs

/-- C114. Once the new checkpoint is at the destination it is not changed any
more: later moves of any process leave exactly the same contents. -/
theorem C114_committed_stays (c : Cfg) (hprim : c.primary < c.n) (existed : Bool)
    (acts more : List Act) (d : Dir)
    (h : (exec c (initial existed) acts).final = .committed d) :
    (exec c (initial existed) (acts ++ more)).final = .committed d := by
  rw [exec_append]
  have hi := inv_exec hprim acts (inv_initial c existed)
  generalize exec c (initial existed) acts = s at *
  induction more generalizing s with
  | nil => exact h
  | cons a as ih =>
    refine ih _ ?_ (inv_act hi hprim a)
    cases a with
    | stop p => exact h
    | run p =>
      cases hs : step c p s with
      | none => simpa [act, hs] using h
      | some s' => simpa [act, hs] using committed_step hi h hs

theorem C114_committed_stays_nonvacuous :
    (exec ⟨1, 0, false, true⟩ (initial false) ((List.replicate 12 (.run 0)))).final
      = .committed ⟨[0], true⟩ := by decide

/-- C114. If some process stops before it has written its data, the new checkpoint
never appears. -/
theorem C114_failed_write_never_committed (c : Cfg) (hprim : c.primary < c.n)
    (hsy : c.syncs = true) (existed : Bool) (acts : List Act) (p : Nat) (hp : p < c.n)
    (hpc : (exec c (initial existed) acts).pc p = .write) (more : List Act) (d : Dir) :
    (exec c (initial existed) (acts ++ .stop p :: more)).final ≠ .committed d := by
  intro hf
  have hi := inv_exec hprim (acts ++ .stop p :: more) (inv_initial c existed)
  have hstay : ∀ (more : List Act) (s : State), s.pc p = .write → s.dead p = true →
      (exec c s more).pc p = .write := by
    intro more
    induction more with
    | nil => intro s h _; exact h
    | cons a as ih =>
      intro s h hd
      cases a with
      | stop q =>
        exact ih _ h (by simp only [act, upd]; split <;> simp_all)
      | run q =>
        cases hs : step c q s with
        | none => simp only [exec, act, hs, Option.getD_none]; exact ih s h hd
        | some s' =>
          simp only [exec, act, hs, Option.getD_some]
          have hqp : p ≠ q := by
            intro he; subst he; simp [step, hd] at hs
          unfold step at hs
          split at hs
          · have hmono : s'.pc p = s.pc p ∧ s'.dead p = true := by
              cases hpc : s.pc q with
              | wait k =>
                simp only [hpc] at hs
                split at hs
                · simp only [Option.some.injEq] at hs; subst hs
                  cases k <;> simp [afterBarrier, arrive, goto, upd, hqp, hd]
                · cases hs
              | refused => simp only [hpc] at hs; cases hs
              | done => simp only [hpc] at hs; cases hs
              | check =>
                simp only [hpc, Option.some.injEq] at hs; subst hs
                unfold lookAt
                split
                · split
                  · split <;> simp [arrive, goto, upd, hqp, hd]
                  · simp [goto, upd, hqp, hd]
                · simp [arrive, upd, hqp, hd]
              | create =>
                simp only [hpc, Option.some.injEq] at hs; subst hs
                unfold createStep; split <;> simp [arrive, upd, hqp, hd]
              | write =>
                simp only [hpc, Option.some.injEq] at hs; subst hs
                unfold writeStep
                split
                · simp [upd, hqp, hd]
                · simp only; split <;> simp [arrive, goto, upd, hqp, hd]
              | merge =>
                simp only [hpc, Option.some.injEq] at hs; subst hs
                unfold mergeStep; split <;> simp [arrive, upd, hqp, hd]
              | commit =>
                simp only [hpc, Option.some.injEq] at hs; subst hs
                unfold commitStep
                split
                · split <;> simp [arrive, upd, hqp, hd]
                · simp [arrive, upd, hqp, hd]
              | _ =>
                simp only [hpc, Option.some.injEq] at hs; subst hs
                simp [arrive, goto, upd, hqp, hd]
            exact ih s' (hmono.1.trans h) hmono.2
          · cases hs
  have hw : (exec c (initial existed) (acts ++ .stop p :: more)).pc p = .write := by
    rw [exec_append]
    exact hstay more _ hpc (by simp [act, upd])
  have h15 : 15 ≤ pos ((exec c (initial existed) (acts ++ .stop p :: more)).pc c.primary) := by
    rcases Nat.lt_or_ge 14 (pos ((exec c (initial existed) (acts ++ .stop p :: more)).pc c.primary))
      with hlt | hge
    · exact hlt
    · have := hi.fin hge
      rw [hf] at this
      unfold expected at this
      split at this
      · split at this
        · cases this
        · split at this <;> cases this
      · cases this
  have := hi.gap c.primary p hprim hp .commitComplete (by simp [onWay, hsy])
    (by rw [kv_commitComplete]; omega)
  rw [hw] at this
  simp [kpos, pos] at this

theorem C114_failed_write_never_committed_nonvacuous :
    (exec ⟨2, 0, false, true⟩ (initial false)
      [.run 0, .run 1, .run 0, .run 1, .run 0, .run 1, .run 0, .run 1, .run 0, .run 1,
        .run 0, .run 1]).pc 1 = .write := by decide

/-- C114 (finding): with a handler that does not wait for the other processes (a
`StatefulCheckpointable`, or a handler of the user's that writes in every
process), the checkpoint can be committed without the data of any chosen process
other than the primary: for every number of processes, in a schedule without
failures. -/
theorem C114_unsynchronized_handler_fails (c : Cfg) (hprim : c.primary < c.n)
    (hsy : c.syncs = false) (q : Nat) (hq : q < c.n) (hqp : q ≠ c.primary) :
    ∃ (turns : List Nat) (d : Dir),
      (exec c (initial false) (turns.map .run)).final = .committed d ∧ q ∉ d.data := by
  have h0 := inv_initial c false
  -- everyone arrives, looks, passes and waits for the directory
  obtain ⟨h1, d1, p1⟩ := pass_all hprim (a := .start) (b := .wait .pre)
    (fun s p _ _ hd hp ha => move_start (hd p) hp ha) h0 (fun _ _ => rfl) (fun _ => rfl)
  generalize hs1 : exec c (initial false) ((List.range c.n).map .run) = s1 at *
  obtain ⟨h2, d2, p2⟩ := pass_all hprim (a := .wait .pre) (b := .check)
    (fun s p h hab hd hp ha => by
      have ho : isOpen c s .pre = true := open_of_pos h rfl (fun r hr => by
        rcases hab r hr with e | e <;> rw [e] <;> simp [kpos, pos])
      exact ⟨goto s p .check, by simp [step, hp, hd p, ha, ho, afterBarrier],
        by simp [goto, upd], fun r hr => by simp [goto, upd, hr], rfl⟩) h1 p1 d1
  generalize hs2 : exec c s1 ((List.range c.n).map .run) = s2 at *
  obtain ⟨h3, d3, p3⟩ := pass_all hprim (a := .check) (b := .wait .post)
    (fun s p h hab hd hp ha => by
      have hf : s.final = .absent := by
        rw [h.fin (by rcases hab _ hprim with e | e <;> rw [e] <;> simp [pos])]; rfl
      exact ⟨arrive s p .post, by simp [step, hp, hd p, ha, lookAt, hf, Final.present],
        by simp [arrive, upd], fun r hr => by simp [arrive, upd, hr], rfl⟩) h2 p2 d2
  generalize hs3 : exec c s2 ((List.range c.n).map .run) = s3 at *
  obtain ⟨h4, d4, p4⟩ := pass_all hprim (a := .wait .post) (b := .create)
    (fun s p h hab hd hp ha => by
      have ho : isOpen c s .post = true := open_of_pos h rfl (fun r hr => by
        rcases hab r hr with e | e <;> rw [e] <;> simp [kpos, pos])
      exact ⟨goto s p .create, by simp [step, hp, hd p, ha, ho, afterBarrier],
        by simp [goto, upd], fun r hr => by simp [goto, upd, hr], rfl⟩) h3 p3 d3
  generalize hs4 : exec c s3 ((List.range c.n).map .run) = s4 at *
  obtain ⟨h5, d5, p5⟩ := pass_all hprim (a := .create) (b := .wait .create)
    (fun s p h hab hd hp ha => by
      refine ⟨createStep c p s, by simp [step, hp, hd p, ha], ?_, ?_, ?_⟩
      · unfold createStep; split <;> simp [arrive, upd]
      · intro r hr; unfold createStep; split <;> simp [arrive, upd, hr]
      · unfold createStep; split <;> rfl) h4 p4 d4
  generalize hs5 : exec c s4 ((List.range c.n).map .run) = s5 at *
  -- the primary goes on alone
  obtain ⟨d, hd⟩ := h5.tmp2 (by rw [p5 _ hprim]; simp [pos]) (by rw [p5 _ hprim]; simp [pos])
  have hnq : q ∉ d.data := by
    intro hin
    have := (h5.honest d hd q hin).2
    rw [p5 q hq] at this; simp [pos] at this
  have ho : isOpen c s5 .create = true := open_of_pos h5 rfl (fun r hr => by
    rw [p5 r hr]; exact Nat.le_refl _)
  have e1 : act c s5 (.run c.primary) = goto s5 c.primary .write := by
    simp [act, step, hprim, d5, p5 _ hprim, ho, afterBarrier]
  have e2 : act c (goto s5 c.primary .write) (.run c.primary)
      = goto { goto s5 c.primary .write with
          tmp := some { d with data := c.primary :: d.data } } c.primary .commit := by
    simp [act, step, hprim, d5, goto, upd, writeStep, hd, hsy]
  have e3 : act c (goto { goto s5 c.primary .write with
          tmp := some { d with data := c.primary :: d.data } } c.primary .commit)
        (.run c.primary)
      = arrive { goto { goto s5 c.primary .write with
          tmp := some { d with data := c.primary :: d.data } } c.primary .commit with
          final := .committed { d with data := c.primary :: d.data }, tmp := none }
          c.primary .finalize := by
    simp [act, step, hprim, d5, goto, upd, commitStep]
  refine ⟨List.range c.n ++ (List.range c.n ++ (List.range c.n ++ (List.range c.n ++
    (List.range c.n ++ [c.primary, c.primary, c.primary])))),
    { d with data := c.primary :: d.data }, ?_, ?_⟩
  · simp only [List.map_append, exec_append, hs1, hs2, hs3, hs4, hs5]
    simp only [List.map_cons, List.map_nil, exec, e1, e2, e3]
    rfl
  · simp [hqp, hnq]

theorem C114_unsynchronized_handler_nonvacuous :
    (exec ⟨2, 0, false, false⟩ (initial false)
      ([0, 1, 0, 1, 0, 1, 0, 1, 0, 1, 0, 0, 0].map .run)).final = .committed ⟨[0], false⟩ := by
  decide

end Verif.V1Save
