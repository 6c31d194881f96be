import Verif.V1.MultiSaveLemmas

/-! Progress of a save from several processes: lemmas. -/

namespace Verif.V1Save

theorem kv_pre : kpos .pre = 1 := rfl
theorem wv_pre : pos (.wait .pre) = 1 := rfl
theorem kv_rmtree : kpos .rmtree = 6 := rfl
theorem wv_rmtree : pos (.wait .rmtree) = 6 := rfl
theorem kv_post : kpos .post = 7 := rfl
theorem wv_post : pos (.wait .post) = 7 := rfl
theorem kv_create : kpos .create = 9 := rfl
theorem wv_create : pos (.wait .create) = 9 := rfl
theorem kv_commitComplete : kpos .commitComplete = 11 := rfl
theorem wv_commitComplete : pos (.wait .commitComplete) = 11 := rfl
theorem kv_finalizeComplete : kpos .finalizeComplete = 13 := rfl
theorem wv_finalizeComplete : pos (.wait .finalizeComplete) = 13 := rfl
theorem kv_finalize : kpos .finalize = 15 := rfl
theorem wv_finalize : pos (.wait .finalize) = 15 := rfl
theorem pv_start : pos .start = 0 := rfl
theorem pv_check : pos .check = 2 := rfl
theorem pv_refused : pos .refused = 3 := rfl
theorem pv_remove : pos .remove = 4 := rfl
theorem pv_removing : pos .removing = 5 := rfl
theorem pv_create : pos .create = 8 := rfl
theorem pv_write : pos .write = 10 := rfl
theorem pv_merge : pos .merge = 12 := rfl
theorem pv_commit : pos .commit = 14 := rfl
theorem pv_done : pos .done = 16 := rfl

/-- Replaces positions by numbers (proof device). -/
macro "posnum" : tactic => `(tactic| simp only [kv_pre, wv_pre, kv_rmtree, wv_rmtree, kv_post, wv_post, kv_create, wv_create, kv_commitComplete, wv_commitComplete, kv_finalizeComplete, wv_finalizeComplete, kv_finalize, wv_finalize, pv_start, pv_check, pv_refused, pv_remove, pv_removing, pv_create, pv_write, pv_merge, pv_commit, pv_done] at *)

theorem sum_lt {f g : Nat → Nat} {p : Nat} (hlt : f p < g p)
    (heq : ∀ q, q ≠ p → f q = g q) :
    ∀ n, p < n → ((List.range n).map f).sum < ((List.range n).map g).sum := by
  have hsame : ∀ n, n ≤ p → ((List.range n).map f).sum = ((List.range n).map g).sum := by
    intro n
    induction n with
    | zero => intro _; rfl
    | succ n ih =>
      intro h
      simp only [List.range_succ, List.map_append, List.map_cons, List.map_nil,
        List.sum_append, List.sum_cons, List.sum_nil]
      rw [ih (by omega), heq n (by omega)]
  intro n
  induction n with
  | zero => intro h; omega
  | succ n ih =>
    intro h
    simp only [List.range_succ, List.map_append, List.map_cons, List.map_nil,
      List.sum_append, List.sum_cons, List.sum_nil]
    by_cases hn : n = p
    · subst hn; have := hsame n (Nat.le_refl _); omega
    · have := ih (by omega); have := heq n hn; omega

theorem sum_le {f : Nat → Nat} {b : Nat} (h : ∀ p, f p ≤ b) :
    ∀ n, ((List.range n).map f).sum ≤ b * n := by
  intro n
  induction n with
  | zero => simp
  | succ n ih =>
    simp only [List.range_succ, List.map_append, List.map_cons, List.map_nil,
      List.sum_append, List.sum_cons, List.sum_nil]
    have := h n
    rw [Nat.mul_succ]; omega

theorem argmin (f : Nat → Nat) : ∀ n, 0 < n → ∃ p, p < n ∧ ∀ q, q < n → f p ≤ f q := by
  intro n
  induction n with
  | zero => intro h; omega
  | succ n ih =>
    intro _
    by_cases hn : n = 0
    · subst hn; exact ⟨0, by omega, fun q hq => by have : q = 0 := by omega
                                                   subst this; exact Nat.le_refl _⟩
    · obtain ⟨p, hp, hmin⟩ := ih (by omega)
      by_cases hc : f p ≤ f n
      · refine ⟨p, by omega, fun q hq => ?_⟩
        by_cases hqn : q = n
        · subst hqn; exact hc
        · exact hmin q (by omega)
      · refine ⟨n, by omega, fun q hq => ?_⟩
        by_cases hqn : q = n
        · subst hqn; exact Nat.le_refl _
        · have := hmin q (by omega); omega

theorem pos_le (b : Pc) : pos b ≤ 16 := by
  cases b with
  | wait k => cases k <;> simp [pos]
  | _ => simp [pos]

/-- How far all processes have come (proof device). -/
def total (c : Cfg) (s : State) : Nat := ((List.range c.n).map (fun p => pos (s.pc p))).sum

theorem total_le (c : Cfg) (s : State) : total c s ≤ 16 * c.n :=
  sum_le (fun p => pos_le (s.pc p)) c.n

theorem tmp_at_write {c : Cfg} {existed : Bool} {s : State} (h : Inv c existed s)
    (hprim : c.primary < c.n) (hsy : c.syncs = true) {p : Nat} (hp : p < c.n)
    (hpc : s.pc p = .write) : ∃ d, s.tmp = some d := by
  have h1 := h.gap p c.primary hp hprim .create rfl
  have h2 := h.gap c.primary p hprim hp .finalizeComplete (by simp [onWay, hsy])
  simp only [hpc] at h1 h2
  posnum
  exact h.tmp2 (h1 (by omega)) (by omega)

theorem step_moves {c : Cfg} {existed : Bool} {s s' : State} (h : Inv c existed s)
    (hprim : c.primary < c.n) (hsy : c.syncs = true) {p : Nat}
    (hs : step c p s = some s') :
    p < c.n ∧ pos (s.pc p) < pos (s'.pc p) ∧ (∀ q, q ≠ p → s'.pc q = s.pc q) ∧
      s'.dead = s.dead := by
  unfold step at hs
  split at hs
  · rename_i hpd
    refine ⟨hpd.1, ?_⟩
    cases hpc : s.pc p with
    | start => simp only [hpc, Option.some.injEq] at hs; subst hs; simp_all [arrive, upd, pos]
    | wait k =>
      simp only [hpc] at hs
      split at hs
      · simp only [Option.some.injEq] at hs; subst hs
        cases k <;> simp_all [afterBarrier, arrive, goto, upd, pos]
      · cases hs
    | check =>
      simp only [hpc, Option.some.injEq] at hs; subst hs
      unfold lookAt
      split
      · split
        · split <;> simp_all [arrive, goto, upd, pos]
        · simp_all [arrive, goto, upd, pos]
      · simp_all [arrive, goto, upd, pos]
    | remove => simp only [hpc, Option.some.injEq] at hs; subst hs; simp_all [goto, upd, pos]
    | removing => simp only [hpc, Option.some.injEq] at hs; subst hs; simp_all [arrive, upd, pos]
    | refused => simp only [hpc] at hs; cases hs
    | create =>
      simp only [hpc, Option.some.injEq] at hs; subst hs
      unfold createStep; split <;> simp_all [arrive, upd, pos]
    | write =>
      simp only [hpc, Option.some.injEq] at hs; subst hs
      obtain ⟨d, hd⟩ := tmp_at_write h hprim hsy hpd.1 hpc
      simp only [writeStep, hd, hsy, if_true]
      simp_all [arrive, upd, pos]
    | merge =>
      simp only [hpc, Option.some.injEq] at hs; subst hs
      unfold mergeStep; split <;> simp_all [arrive, upd, pos]
    | commit =>
      simp only [hpc, Option.some.injEq] at hs; subst hs
      unfold commitStep
      split
      · rename_i hpp
        obtain ⟨d, hd⟩ := h.tmp2 (by rw [← hpp, hpc]; simp [pos]) (by rw [← hpp, hpc]; simp [pos])
        simp only [hd]; simp_all [arrive, upd, pos]
      · simp_all [arrive, upd, pos]
    | done => simp only [hpc] at hs; cases hs
  · cases hs

theorem step_total {c : Cfg} {existed : Bool} {s s' : State} (h : Inv c existed s)
    (hprim : c.primary < c.n) (hsy : c.syncs = true) {p : Nat}
    (hs : step c p s = some s') : total c s < total c s' := by
  obtain ⟨hp, hlt, hsame, _⟩ := step_moves h hprim hsy hs
  exact sum_lt hlt (fun q hq => by rw [hsame q hq]) c.n hp

theorem runs_total {c : Cfg} {existed : Bool} (hprim : c.primary < c.n)
    (hsy : c.syncs = true) :
    ∀ (l : List Nat) {s : State}, Inv c existed s →
      total c s ≤ total c (exec c s (l.map .run)) ∧
      (total c (exec c s (l.map .run)) = total c s → ∀ p, p ∈ l → step c p s = none)
  | [], s, _ => ⟨Nat.le_refl _, fun _ p hp => by simp at hp⟩
  | p :: l, s, h => by
    cases hs : step c p s with
    | none =>
      have hact : act c s (.run p) = s := by simp only [act, hs, Option.getD_none]
      have ih := runs_total hprim hsy l h
      simp only [List.map_cons, exec, hact]
      refine ⟨ih.1, fun he q hq => ?_⟩
      rcases List.mem_cons.mp hq with hq | hq
      · rw [hq]; exact hs
      · exact ih.2 he q hq
    | some s' =>
      have hact : act c s (.run p) = s' := by simp only [act, hs, Option.getD_some]
      have ih := runs_total hprim hsy l (inv_step h hprim hs)
      have hlt := step_total h hprim hsy hs
      simp only [List.map_cons, exec, hact]
      exact ⟨by omega, fun he => by omega⟩

theorem act_arrived {c : Cfg} {s : State} {k : Key} {q : Nat} (a : Act)
    (h : s.arrived k q = true) : (act c s a).arrived k q = true := by
  cases a with
  | stop p => exact h
  | run p =>
    cases hs : step c p s with
    | none => simpa [act, hs] using h
    | some s' =>
      simp only [act, hs, Option.getD_some]
      unfold step at hs
      split at hs
      · cases hpc : s.pc p with
        | wait k' =>
          simp only [hpc] at hs
          split at hs
          · simp only [Option.some.injEq] at hs; subst hs
            cases k' <;> simp [afterBarrier, arrive, goto, h]
          · cases hs
        | refused => simp only [hpc] at hs; cases hs
        | done => simp only [hpc] at hs; cases hs
        | check =>
          simp only [hpc, Option.some.injEq] at hs; subst hs
          unfold lookAt
          split
          · split
            · split <;> simp [arrive, goto, h]
            · simp [goto, h]
          · simp [arrive, h]
        | create =>
          simp only [hpc, Option.some.injEq] at hs; subst hs
          unfold createStep; split <;> simp [arrive, h]
        | write =>
          simp only [hpc, Option.some.injEq] at hs; subst hs
          unfold writeStep
          split
          · exact h
          · simp only; split <;> simp [arrive, goto, h]
        | merge =>
          simp only [hpc, Option.some.injEq] at hs; subst hs
          unfold mergeStep; split <;> simp [arrive, h]
        | commit =>
          simp only [hpc, Option.some.injEq] at hs; subst hs
          unfold commitStep
          split
          · split
            · exact h
            · simp [arrive, h]
          · simp [arrive, h]
        | remove =>
          simp only [hpc, Option.some.injEq] at hs; subst hs; exact h
        | removing =>
          simp only [hpc, Option.some.injEq] at hs; subst hs; simp [arrive, h]
        | start =>
          simp only [hpc, Option.some.injEq] at hs; subst hs; simp [arrive, h]
      · cases hs

theorem exec_arrived {c : Cfg} {k : Key} {q : Nat} :
    ∀ (acts : List Act) {s : State}, s.arrived k q = true → (exec c s acts).arrived k q = true
  | [], _, h => h
  | a :: as, _, h => exec_arrived as (act_arrived a h)

theorem runs_alive {c : Cfg} {existed : Bool} (hprim : c.primary < c.n)
    (hsy : c.syncs = true) :
    ∀ (l : List Nat) {s : State}, Inv c existed s → (∀ p, s.dead p = false) →
      ∀ p, (exec c s (l.map .run)).dead p = false
  | [], s, _, hd => hd
  | p :: l, s, h, hd => by
    cases hs : step c p s with
    | none =>
      have hact : act c s (.run p) = s := by simp only [act, hs, Option.getD_none]
      simp only [List.map_cons, exec, hact]
      exact runs_alive hprim hsy l h hd
    | some s' =>
      have hact : act c s (.run p) = s' := by simp only [act, hs, Option.getD_some]
      simp only [List.map_cons, exec, hact]
      refine runs_alive hprim hsy l (inv_step h hprim hs) ?_
      rw [(step_moves h hprim hsy hs).2.2.2]; exact hd

theorem runs_stuck {c : Cfg} :
    ∀ (l : List Nat) {s : State}, (∀ p, step c p s = none) → exec c s (l.map .run) = s
  | [], _, _ => rfl
  | p :: l, s, h => by
    have hact : act c s (.run p) = s := by simp only [act, h p, Option.getD_none]
    simp only [List.map_cons, exec, hact]
    exact runs_stuck l h

theorem step_out {c : Cfg} {s : State} {p : Nat} (h : ¬ p < c.n) : step c p s = none := by
  simp [step, h]

theorem rounds {c : Cfg} {existed : Bool} (hprim : c.primary < c.n)
    (hsy : c.syncs = true) :
    ∀ (ls : List (List Nat)) {s : State}, Inv c existed s →
      (∀ l, l ∈ ls → ∀ p, p < c.n → p ∈ l) →
      (∀ p, step c p (exec c s (ls.flatten.map .run)) = none) ∨
        total c s + ls.length ≤ total c (exec c s (ls.flatten.map .run))
  | [], s, _, _ => Or.inr (by simp [exec])
  | l :: ls, s, h, hl => by
    by_cases hst : ∀ p, step c p s = none
    · left
      rw [runs_stuck _ hst]; exact hst
    · have hex : ∃ p, p < c.n ∧ step c p s ≠ none := by
        apply Classical.byContradiction
        intro hno
        apply hst
        intro p
        by_cases hp : p < c.n
        · apply Classical.byContradiction
          intro hne
          exact hno ⟨p, hp, hne⟩
        · exact step_out hp
      obtain ⟨p, hp, hne⟩ := hex
      have h1 := runs_total hprim hsy l h
      have hlt : total c s < total c (exec c s (l.map .run)) := by
        rcases Nat.lt_or_ge (total c s) (total c (exec c s (l.map .run))) with hlt | hge
        · exact hlt
        · exact absurd (h1.2 (by omega) p (hl l (by simp) p hp)) hne
      have ih := rounds hprim hsy ls (inv_exec hprim (l.map .run) h)
        (fun l' hl' => hl l' (by simp [hl']))
      simp only [List.flatten_cons, List.map_append, exec_append, List.length_cons]
      rcases ih with ih | ih
      · exact Or.inl ih
      · exact Or.inr (by omega)

theorem rounds_stuck {c : Cfg} {existed : Bool} (hprim : c.primary < c.n)
    (hsy : c.syncs = true) {ls : List (List Nat)} {s : State} (h : Inv c existed s)
    (hl : ∀ l, l ∈ ls → ∀ p, p < c.n → p ∈ l) (hlen : 16 * c.n < ls.length) :
    ∀ p, step c p (exec c s (ls.flatten.map .run)) = none := by
  rcases rounds hprim hsy ls h hl with h1 | h1
  · exact h1
  · have := total_le c (exec c s (ls.flatten.map .run)); omega

theorem pc_of_pos3 {b : Pc} (h : pos b = 3) : b = .refused := by
  revert h; cases b with
  | wait k => cases k <;> simp [pos]
  | _ => simp [pos]

theorem pc_of_pos6 {b : Pc} (h : pos b = 6) : b = .wait .rmtree := by
  revert h; cases b with
  | wait k => cases k <;> simp [pos]
  | _ => simp [pos]

theorem pc_of_pos7 {b : Pc} (h : pos b = 7) : b = .wait .post := by
  revert h; cases b with
  | wait k => cases k <;> simp [pos]
  | _ => simp [pos]

theorem pc_of_pos16 {b : Pc} (h : pos b = 16) : b = .done := by
  revert h; cases b with
  | wait k => cases k <;> simp [pos]
  | _ => simp [pos]

/-- What a state in which nobody can move looks like. -/
theorem stuck_cases {c : Cfg} {existed : Bool} {s : State} (h : Inv c existed s)
    (hprim : c.primary < c.n) (hsy : c.syncs = true) (hd : ∀ p, s.dead p = false)
    (hst : ∀ p, step c p s = none) :
    (∀ p, p < c.n → s.pc p = .done) ∨
    (existed = true ∧ c.overwrite = false ∧ ∀ p, p < c.n → s.pc p = .refused) ∨
    (existed = true ∧ c.overwrite = true ∧ s.final = .absent ∧
      s.pc c.primary = .wait .rmtree ∧ ∃ q, q < c.n ∧ q ≠ c.primary ∧ s.pc q = .wait .post ∧
        s.arrived .rmtree q = false) := by
  obtain ⟨p, hp, hmin⟩ := argmin (fun p => pos (s.pc p)) c.n (by omega)
  have hstep := hst p
  have hopen : ∀ k, s.pc p = .wait k → onWay c k = true → False := by
    intro k hpc hk
    have : isOpen c s k = true := by
      rw [isOpen_iff]
      intro q hq
      rw [h.arr q hq k hk]
      have := hmin q hq
      simp only [hpc] at this
      exact this
    simp [step, hp, hd p, hpc, this] at hstep
  cases hpc : s.pc p with
  | wait k =>
    cases k with
    | rmtree =>
      right; right
      have hex : existed = true := by
        cases hex : existed with
        | true => rfl
        | false => have := h.fresh hex p hp; simp [hpc, pos] at this
      have hov : c.overwrite = true := by
        cases hov : c.overwrite with
        | true => rfl
        | false => have := h.kept hex hov p hp; simp [hpc, pos] at this
      have hno : ¬ isOpen c s .rmtree = true := by
        intro ho; simp [step, hp, hd p, hpc, ho] at hstep
      have hq : ∃ q, q < c.n ∧ s.arrived .rmtree q = false := by
        apply Classical.byContradiction
        intro hne
        apply hno
        rw [isOpen_iff]
        intro q hq
        cases ha : s.arrived .rmtree q with
        | true => rfl
        | false => exact absurd ⟨q, hq, ha⟩ hne
      obtain ⟨q, hq, ha⟩ := hq
      have hmq := hmin q hq
      have hmp := hmin c.primary hprim
      simp only [hpc] at hmq hmp
      posnum
      have hprm := h.primrm hex hmp
      have hp6 : pos (s.pc c.primary) = 6 := by
        rcases Nat.lt_or_ge 6 (pos (s.pc c.primary)) with hlt | hge
        · have := h.rm3 c.primary q hprim hq hlt hprm
          rw [ha] at this; cases this
        · omega
      have hq7 : pos (s.pc q) = 7 := by
        have h1 : pos (s.pc q) ≠ 6 := by
          intro h6
          have := h.rm2 q hq (pc_of_pos6 h6)
          rw [ha] at this; cases this
        have h2 := h.gap q p hq hp .post rfl
        simp only [hpc] at h2
        posnum
        omega
      refine ⟨hex, hov, ?_, pc_of_pos6 hp6, q, hq, ?_, pc_of_pos7 hq7, ha⟩
      · have := h.fin (by omega)
        rw [this, hp6, hex]; rfl
      · intro he; rw [he, hprm] at ha; cases ha
    | pre => exact (hopen .pre hpc rfl).elim
    | post => exact (hopen .post hpc rfl).elim
    | create => exact (hopen .create hpc rfl).elim
    | commitComplete => exact (hopen .commitComplete hpc (by simp [onWay, hsy])).elim
    | finalizeComplete =>
      exact (hopen .finalizeComplete hpc (by simp [onWay, hsy])).elim
    | finalize => exact (hopen .finalize hpc rfl).elim
  | refused =>
    right; left
    have hex : existed = true := by
      cases hex : existed with
      | true => rfl
      | false => have := h.fresh hex p hp; simp [hpc, pos] at this
    have hov : c.overwrite = false := by
      cases hov : c.overwrite with
      | false => rfl
      | true => exact absurd hpc (h.noref hov p hp)
    refine ⟨hex, hov, fun q hq => ?_⟩
    have h1 := h.kept hex hov q hq
    have h2 := hmin q hq
    simp only [hpc] at h2
    posnum
    exact pc_of_pos3 (by omega)
  | done =>
    left
    intro q hq
    have h2 := hmin q hq
    simp only [hpc] at h2
    posnum
    have := pos_le (s.pc q)
    exact pc_of_pos16 (by omega)
  | start => simp [step, hp, hd p, hpc] at hstep
  | check => simp [step, hp, hd p, hpc] at hstep
  | remove => simp [step, hp, hd p, hpc] at hstep
  | removing => simp [step, hp, hd p, hpc] at hstep
  | create => simp [step, hp, hd p, hpc] at hstep
  | write => simp [step, hp, hd p, hpc] at hstep
  | merge => simp [step, hp, hd p, hpc] at hstep
  | commit => simp [step, hp, hd p, hpc] at hstep

/-- The situation from which an overwriting save never finishes. -/
structure Doomed (c : Cfg) (q : Nat) (s : State) : Prop where
  fin : s.final = .absent
  prim : s.pc c.primary = .wait .rmtree
  qlt : q < c.n
  qne : q ≠ c.primary
  qarr : s.arrived .rmtree q = false
  qpc : s.pc q = .start ∨ s.pc q = .wait .pre ∨ s.pc q = .check ∨ s.pc q = .wait .post

theorem doomed_act {c : Cfg} {s : State} {q : Nat} (h : Inv c true s)
    (hprim : c.primary < c.n) (hdm : Doomed c q s) (a : Act) : Doomed c q (act c s a) := by
  cases a with
  | stop p =>
    obtain ⟨h1, h2, h3, h4, h5, h6⟩ := hdm
    exact ⟨h1, h2, h3, h4, h5, h6⟩
  | run p =>
    cases hs : step c p s with
    | none => simpa [act, hs] using hdm
    | some s' =>
      simp only [act, hs, Option.getD_some]
      obtain ⟨h1, h2, h3, h4, h5, h6⟩ := hdm
      by_cases hpp : p = c.primary
      · subst hpp
        have hno : isOpen c s .rmtree = false := by
          cases ho : isOpen c s .rmtree with
          | false => rfl
          | true => rw [isOpen_iff] at ho; rw [ho q h3] at h5; cases h5
        simp [step, h2, hno] at hs
      · by_cases hpq : p = q
        · subst hpq
          have hopost : isOpen c s .post = false := by
            cases ho : isOpen c s .post with
            | false => rfl
            | true =>
              rw [isOpen_iff] at ho
              have := (h.arr c.primary hprim .post rfl).mp (ho _ hprim)
              rw [h2] at this; simp [kpos, pos] at this
          unfold step at hs
          split at hs
          · rcases h6 with h6 | h6 | h6 | h6
            · simp only [h6, Option.some.injEq] at hs; subst hs
              constructor <;> simp [arrive, upd, *] <;> grind
            · simp only [h6] at hs
              split at hs
              · simp only [Option.some.injEq] at hs; subst hs
                constructor <;> simp [afterBarrier, goto, upd, *] <;> grind
              · cases hs
            · simp only [h6, Option.some.injEq] at hs; subst hs
              simp only [lookAt, h1, Final.present, Bool.false_eq_true, if_false]
              constructor <;> simp [arrive, upd, *] <;> grind
            · simp [h6, hopost] at hs
          · cases hs
        · -- another process: it changes neither the destination nor these two
          have hoth := h.onlyprim p
          unfold step at hs
          split at hs
          · rename_i hpd
            have hoth := hoth hpd.1 hpp
            cases hpc : s.pc p with
            | start =>
              simp only [hpc, Option.some.injEq] at hs; subst hs
              constructor <;> simp [arrive, upd, *] <;> grind
            | wait k =>
              simp only [hpc] at hs
              split at hs
              · simp only [Option.some.injEq] at hs; subst hs
                cases k <;> constructor <;> simp [afterBarrier, arrive, goto, upd, *] <;> grind
              · cases hs
            | check =>
              simp only [hpc, Option.some.injEq] at hs; subst hs
              simp only [lookAt, h1, Final.present, Bool.false_eq_true, if_false]
              constructor <;> simp [arrive, upd, *] <;> grind
            | remove => exact absurd hpc hoth.1
            | removing => exact absurd hpc hoth.2
            | refused => simp only [hpc] at hs; cases hs
            | create =>
              simp only [hpc, Option.some.injEq] at hs; subst hs
              simp only [createStep, hpp, if_false]
              constructor <;> simp [arrive, upd, *] <;> grind
            | write =>
              simp only [hpc, Option.some.injEq] at hs; subst hs
              unfold writeStep
              split
              · exact ⟨h1, h2, h3, h4, h5, h6⟩
              · split
                · constructor <;> simp [arrive, upd, *] <;> grind
                · constructor <;> simp [goto, upd, *] <;> grind
            | merge =>
              simp only [hpc, Option.some.injEq] at hs; subst hs
              simp only [mergeStep, hpp, if_false]
              constructor <;> simp [arrive, upd, *] <;> grind
            | commit =>
              simp only [hpc, Option.some.injEq] at hs; subst hs
              simp only [commitStep, hpp, if_false]
              constructor <;> simp [arrive, upd, *] <;> grind
            | done => simp only [hpc] at hs; cases hs
          · cases hs

theorem doomed_exec {c : Cfg} {q : Nat} (hprim : c.primary < c.n) :
    ∀ (acts : List Act) {s : State}, Inv c true s → Doomed c q s →
      Doomed c q (exec c s acts)
  | [], _, _, hd => hd
  | a :: as, _, h, hd => doomed_exec hprim as (inv_act h hprim a) (doomed_act h hprim hd a)

/-- One pass over some processes that are all at `a` and move to `b`. -/
theorem pass {c : Cfg} {existed : Bool} (hprim : c.primary < c.n) {a b : Pc}
    (hmove : ∀ s p, Inv c existed s → (∀ q, q < c.n → s.pc q = a ∨ s.pc q = b) →
      (∀ q, s.dead q = false) → p < c.n → s.pc p = a →
      ∃ s', step c p s = some s' ∧ s'.pc p = b ∧ (∀ q, q ≠ p → s'.pc q = s.pc q) ∧
        s'.dead = s.dead) :
    ∀ (l : List Nat) {s : State}, Inv c existed s → l.Nodup →
      (∀ q, q < c.n → s.pc q = a ∨ s.pc q = b) →
      (∀ q, s.dead q = false) → (∀ p, p ∈ l → p < c.n ∧ s.pc p = a) →
      Inv c existed (exec c s (l.map .run)) ∧
      (∀ q, (exec c s (l.map .run)).dead q = false) ∧
      (∀ q, (exec c s (l.map .run)).pc q = if q ∈ l then b else s.pc q)
  | [], s, h, _, _, hd, _ => ⟨h, hd, fun q => by simp [exec]⟩
  | p :: l, s, h, hnd, hab, hd, hl => by
    obtain ⟨hp, hpa⟩ := hl p (by simp)
    obtain ⟨s', hs, hpb, hsame, hdead⟩ := hmove s p h hab hd hp hpa
    have hact : act c s (.run p) = s' := by simp only [act, hs, Option.getD_some]
    rw [List.nodup_cons] at hnd
    have ih := pass hprim hmove l (inv_step h hprim hs) hnd.2
      (fun q hq => by
        by_cases hqp : q = p
        · subst hqp; exact Or.inr hpb
        · rw [hsame q hqp]; exact hab q hq)
      (fun q => by rw [hdead]; exact hd q)
      (fun q hq => by
        have hqp : q ≠ p := fun he => hnd.1 (he ▸ hq)
        rw [hsame q hqp]; exact hl q (by simp [hq]))
    simp only [List.map_cons, exec, hact]
    refine ⟨ih.1, ih.2.1, fun q => ?_⟩
    rw [ih.2.2 q]
    by_cases hqp : q = p
    · subst hqp; simp [hnd.1, hpb]
    · simp [hqp, hsame q hqp]

/-- Everyone moves from `a` to `b`. -/
theorem pass_all {c : Cfg} {existed : Bool} (hprim : c.primary < c.n) {a b : Pc}
    (hmove : ∀ s p, Inv c existed s → (∀ q, q < c.n → s.pc q = a ∨ s.pc q = b) →
      (∀ q, s.dead q = false) → p < c.n → s.pc p = a →
      ∃ s', step c p s = some s' ∧ s'.pc p = b ∧ (∀ q, q ≠ p → s'.pc q = s.pc q) ∧
        s'.dead = s.dead)
    {s : State} (h : Inv c existed s) (ha : ∀ q, q < c.n → s.pc q = a)
    (hd : ∀ q, s.dead q = false) :
    Inv c existed (exec c s ((List.range c.n).map .run)) ∧
      (∀ q, (exec c s ((List.range c.n).map .run)).dead q = false) ∧
      (∀ q, q < c.n → (exec c s ((List.range c.n).map .run)).pc q = b) := by
  have := pass hprim hmove (List.range c.n) h List.nodup_range (fun q hq => Or.inl (ha q hq)) hd
    (fun p hp => by simp at hp; exact ⟨hp, ha p hp⟩)
  refine ⟨this.1, this.2.1, fun q hq => ?_⟩
  rw [this.2.2 q]; simp [hq]

theorem open_of_pos {c : Cfg} {existed : Bool} {s : State} (h : Inv c existed s) {k : Key}
    (hk : onWay c k = true) (hall : ∀ q, q < c.n → kpos k ≤ pos (s.pc q)) :
    isOpen c s k = true := by
  rw [isOpen_iff]
  intro q hq
  exact (h.arr q hq k hk).mpr (hall q hq)

theorem move_start {c : Cfg} {s : State} {p : Nat}
    (hd : s.dead p = false) (hp : p < c.n) (ha : s.pc p = .start) :
    ∃ s', step c p s = some s' ∧ s'.pc p = .wait .pre ∧ (∀ q, q ≠ p → s'.pc q = s.pc q) ∧
        s'.dead = s.dead :=
  ⟨arrive s p .pre, by simp [step, hp, hd, ha], by simp [arrive, upd],
    fun q hq => by simp [arrive, upd, hq], rfl⟩

end Verif.V1Save
