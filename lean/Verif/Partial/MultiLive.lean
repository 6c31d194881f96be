import Verif.Partial.MultiLemmas
import Verif.V1.MultiSaveLive

/-! Progress of finalizing from several processes: lemmas. -/

namespace Verif.PartialFin

theorem pos_le (b : Pc) : pos b ≤ 11 := by
  cases b with
  | wait k => cases k <;> simp [pos]
  | raised e => cases e <;> simp [pos]
  | _ => simp [pos]

/-- How far all processes have come (proof device). -/
def total (c : Cfg) (s : State) : Nat := ((List.range c.n).map (fun p => pos (s.pc p))).sum

theorem total_le (c : Cfg) (s : State) : total c s ≤ 11 * c.n :=
  V1Save.sum_le (fun p => pos_le (s.pc p)) c.n

theorem step_moves {c : Cfg} {s s' : State} {p : Nat} (hs : step c p s = some s') :
    p < c.n ∧ pos (s.pc p) < pos (s'.pc p) ∧ (∀ q, q ≠ p → s'.pc q = s.pc q) ∧
      s'.dead = s.dead := by
  unfold step at hs
  split at hs
  · rename_i hpd
    refine ⟨hpd.1, ?_⟩
    cases hpc : s.pc p with
    | start => simp only [hpc, Option.some.injEq] at hs; subst hs; simp_all [arrive, upd, pos]
    | wait k =>
      simp only [hpc] at hs
      split at hs
      · simp only [Option.some.injEq] at hs; subst hs
        cases k
        · simp_all [afterMeeting, goto, upd, pos]
        · simp only [afterMeeting]; split <;> simp_all [arrive, goto, upd, pos]
        · simp_all [afterMeeting, arrive, upd, pos]
        · simp only [afterMeeting]
          split
          · by_cases hpp : p = c.primary
            · simp [goto, upd, pos, hpp]; intro q h1 h2; exact absurd h2 h1
            · simp [goto, upd, pos, hpp]; intro q h1 h2; exact absurd h2 h1
          · simp_all [goto, upd, pos]
      · cases hs
    | check =>
      simp only [hpc, Option.some.injEq] at hs; subst hs
      unfold lookAt
      split
      · simp_all [goto, upd, pos]
      · split <;> simp_all [arrive, goto, upd, pos]
    | merge => simp only [hpc, Option.some.injEq] at hs; subst hs; simp_all [goto, upd, pos]
    | merging =>
      simp only [hpc, Option.some.injEq] at hs; subst hs
      unfold endMerge; split <;> simp_all [arrive, goto, upd, pos]
    | rename =>
      simp only [hpc, Option.some.injEq] at hs; subst hs
      unfold renameStep; split <;> simp_all [arrive, upd, pos]
    | done => simp only [hpc] at hs; cases hs
    | raised e => simp only [hpc] at hs; cases hs
  · cases hs

theorem step_total {c : Cfg} {s s' : State} {p : Nat}
    (hs : step c p s = some s') : total c s < total c s' := by
  obtain ⟨hp, hlt, hsame, _⟩ := step_moves hs
  exact V1Save.sum_lt hlt (fun q hq => by rw [hsame q hq]) c.n hp

theorem runs_total {c : Cfg} :
    ∀ (l : List Nat) {s : State},
      total c s ≤ total c (exec c s (l.map .run)) ∧
      (total c (exec c s (l.map .run)) = total c s → ∀ p, p ∈ l → step c p s = none)
  | [], s => ⟨Nat.le_refl _, fun _ p hp => by simp at hp⟩
  | p :: l, s => by
    cases hs : step c p s with
    | none =>
      have hact : act c s (.run p) = s := by simp only [act, hs, Option.getD_none]
      have ih := runs_total (c := c) l (s := s)
      simp only [List.map_cons, exec, hact]
      refine ⟨ih.1, fun he q hq => ?_⟩
      rcases List.mem_cons.mp hq with hq | hq
      · rw [hq]; exact hs
      · exact ih.2 he q hq
    | some s' =>
      have hact : act c s (.run p) = s' := by simp only [act, hs, Option.getD_some]
      have ih := runs_total (c := c) l (s := s')
      have hlt := step_total hs
      simp only [List.map_cons, exec, hact]
      exact ⟨by omega, fun he => by omega⟩

theorem runs_alive {c : Cfg} :
    ∀ (l : List Nat) {s : State}, (∀ p, s.dead p = false) →
      ∀ p, (exec c s (l.map .run)).dead p = false
  | [], s, hd => hd
  | p :: l, s, hd => by
    cases hs : step c p s with
    | none =>
      have hact : act c s (.run p) = s := by simp only [act, hs, Option.getD_none]
      simp only [List.map_cons, exec, hact]
      exact runs_alive l hd
    | some s' =>
      have hact : act c s (.run p) = s' := by simp only [act, hs, Option.getD_some]
      simp only [List.map_cons, exec, hact]
      refine runs_alive l ?_
      rw [(step_moves hs).2.2.2]; exact hd

theorem runs_stuck {c : Cfg} :
    ∀ (l : List Nat) {s : State}, (∀ p, step c p s = none) → exec c s (l.map .run) = s
  | [], _, _ => rfl
  | p :: l, s, h => by
    have hact : act c s (.run p) = s := by simp only [act, h p, Option.getD_none]
    simp only [List.map_cons, exec, hact]
    exact runs_stuck l h

theorem exec_append {c : Cfg} : ∀ (as bs : List Act) {s : State},
    exec c s (as ++ bs) = exec c (exec c s as) bs
  | [], _, _ => rfl
  | a :: as, bs, s => by simp only [List.cons_append, exec]; exact exec_append as bs

theorem step_out {c : Cfg} {s : State} {p : Nat} (h : ¬ p < c.n) : step c p s = none := by
  simp [step, h]

theorem rounds {c : Cfg} :
    ∀ (ls : List (List Nat)) {s : State},
      (∀ l, l ∈ ls → ∀ p, p < c.n → p ∈ l) →
      (∀ p, step c p (exec c s (ls.flatten.map .run)) = none) ∨
        total c s + ls.length ≤ total c (exec c s (ls.flatten.map .run))
  | [], s, _ => Or.inr (by simp [exec])
  | l :: ls, s, hl => by
    by_cases hst : ∀ p, step c p s = none
    · left
      rw [runs_stuck _ hst]; exact hst
    · have hex : ∃ p, p < c.n ∧ step c p s ≠ none := by
        apply Classical.byContradiction
        intro hno
        apply hst
        intro p
        by_cases hp : p < c.n
        · apply Classical.byContradiction
          intro hne
          exact hno ⟨p, hp, hne⟩
        · exact step_out hp
      obtain ⟨p, hp, hne⟩ := hex
      have h1 := runs_total (c := c) l (s := s)
      have hlt : total c s < total c (exec c s (l.map .run)) := by
        rcases Nat.lt_or_ge (total c s) (total c (exec c s (l.map .run))) with hlt | hge
        · exact hlt
        · exact absurd (h1.2 (by omega) p (hl l (by simp) p hp)) hne
      have ih := rounds ls (s := exec c s (l.map .run))
        (fun l' hl' => hl l' (by simp [hl']))
      simp only [List.flatten_cons, List.map_append, exec_append, List.length_cons]
      rcases ih with ih | ih
      · exact Or.inl ih
      · exact Or.inr (by omega)

theorem rounds_stuck {c : Cfg} {ls : List (List Nat)} {s : State}
    (hl : ∀ l, l ∈ ls → ∀ p, p < c.n → p ∈ l) (hlen : 11 * c.n < ls.length) :
    ∀ p, step c p (exec c s (ls.flatten.map .run)) = none := by
  rcases rounds ls (s := s) hl with h1 | h1
  · exact h1
  · have := total_le c (exec c s (ls.flatten.map .run)); omega

/-- A process that cannot move is waiting, or is done, or has raised. -/
theorem stuck_pc {c : Cfg} {s : State} {p : Nat} (hp : p < c.n) (ha : c.active p = true)
    (hd : s.dead p = false) (hst : step c p s = none) :
    (∃ k, s.pc p = .wait k ∧ isOpen c s k = false) ∨ s.pc p = .done ∨
      ∃ e, s.pc p = .raised e := by
  unfold step at hst
  rw [if_pos ⟨hp, ha, hd⟩] at hst
  cases hpc : s.pc p with
  | wait k =>
    left; refine ⟨k, rfl, ?_⟩
    simp only [hpc] at hst
    cases ho : isOpen c s k with
    | false => rfl
    | true => simp [ho] at hst
  | done => exact Or.inr (Or.inl rfl)
  | raised e => exact Or.inr (Or.inr ⟨e, rfl⟩)
  | _ => simp [hpc] at hst

/-- In a job all of whose processes take part, once nobody can move. -/
theorem stuck_all {c : Cfg} {f : Final} {d : Part} {s : State} (h : Inv c f d s)
    (hall : ∀ p, p < c.n → c.active p = true) (hd : ∀ p, s.dead p = false)
    (hst : ∀ p, step c p s = none) (hprim : c.primary < c.n)
    (hesc : c.outcome ≠ .mergeEscapes) :
    (∀ p, p < c.n → pos (s.pc p) = 3) ∨ (∀ p, p < c.n → pos (s.pc p) = 11) := by
  obtain ⟨p, hp, hmin⟩ := V1Save.argmin (fun p => pos (s.pc p)) c.n (by omega)
  have hopen : ∀ k, s.pc p = .wait k → isOpen c s k = true := by
    intro k hk
    rw [isOpen_iff]
    intro q hq _
    have := hmin q hq
    simp only [hk] at this
    cases k
    · exact (h.a1 q).mpr (by simpa [pos] using this)
    · exact (h.a2 q).mpr (by simpa [pos] using this)
    · exact (h.a3 q).mpr (by simpa [pos] using this)
    · exact (h.a4 q).mpr (by simpa [pos] using this)
  have three : pos (s.pc p) = 3 → ∀ q, q < c.n → pos (s.pc q) = 3 := by
    intro h3 q hq
    have hge := hmin q hq
    rcases Nat.lt_or_ge (pos (s.pc q)) 4 with h4 | h4
    · omega
    · exfalso
      have hl := h.look q h4
      have : s.pc p = .raised .fileExists ∨ s.pc p = .raised .notFound := by
        revert h3
        cases s.pc p with
        | wait k => cases k <;> simp [pos]
        | raised e => cases e <;> simp [pos]
        | _ => simp [pos]
      rcases this with h5 | h5
      · exact h.ex p h5 hl.1
      · exact hl.2 (h.nf p h5).2
  have eleven : pos (s.pc p) = 11 → ∀ q, q < c.n → pos (s.pc q) = 11 := by
    intro h3 q hq
    have hge := hmin q hq
    have := pos_le (s.pc q)
    omega
  rcases stuck_pc hp (hall p hp) (hd p) (hst p) with ⟨k, hk, ho⟩ | hdn | ⟨e, he⟩
  · rw [hopen k hk] at ho; cases ho
  · exact Or.inr (eleven (by rw [hdn]; rfl))
  · cases e with
    | fileExists => exact Or.inl (three (by rw [he]; rfl))
    | notFound => exact Or.inl (three (by rw [he]; rfl))
    | own => exact Or.inr (eleven (by rw [he]; rfl))
    | told => exact Or.inr (eleven (by rw [he]; rfl))
    | escaped =>
      exfalso
      by_cases hpp : p = c.primary
      · subst hpp
        exact hesc (h.w7 (by rw [he]; rfl)).2.2.2
      · exact (h.prim p hpp).2.2.2.1 he

theorem pc_of_pos11 {b : Pc} (h : pos b = 11) :
    b = .done ∨ b = .raised .own ∨ b = .raised .told := by
  revert h
  cases b with
  | wait k => cases k <;> simp [pos]
  | raised e => cases e <;> simp [pos]
  | _ => simp [pos]

theorem pc_of_pos3 {b : Pc} (h : pos b = 3) :
    b = .raised .fileExists ∨ b = .raised .notFound := by
  revert h
  cases b with
  | wait k => cases k <;> simp [pos]
  | raised e => cases e <;> simp [pos]
  | _ => simp [pos]

end Verif.PartialFin
