import Verif.Partial.Multi

/-! Invariants of finalizing from several processes. -/

namespace Verif.PartialFin

/-- Position of a process along the program (proof device). -/
def pos : Pc → Nat
  | .start => 0
  | .wait .existence => 1
  | .check => 2
  | .raised .fileExists => 3
  | .raised .notFound => 3
  | .wait .renameStart => 4
  | .merge => 5
  | .merging => 6
  | .raised .escaped => 7
  | .rename => 8
  | .wait .broadcast => 9
  | .wait .renameComplete => 10
  | .done => 11
  | .raised .own => 11
  | .raised .told => 11

theorem isOpen_iff {c : Cfg} {s : State} {k : Key} :
    isOpen c s k = true ↔ ∀ q, q < c.n → awaits c q k = true → s.arrived k q = true := by
  simp only [isOpen, List.all_eq_true, List.mem_range, Bool.or_eq_true, Bool.not_eq_true']
  constructor
  · intro h q hq ha
    rcases h q hq with h | h
    · rw [ha] at h; cases h
    · exact h
  · intro h q hq
    cases ha : awaits c q k with
    | false => exact Or.inl rfl
    | true => exact Or.inr (h q hq ha)

/-- The invariant: `f` and `d` are what was there before. -/
structure Inv (c : Cfg) (f : Final) (d : Part) (s : State) : Prop where
  a1 : ∀ p, s.arrived .existence p = true ↔ 1 ≤ pos (s.pc p)
  a2 : ∀ p, s.arrived .renameStart p = true ↔ 4 ≤ pos (s.pc p)
  a3 : ∀ p, s.arrived .broadcast p = true ↔ 9 ≤ pos (s.pc p)
  a4 : ∀ p, s.arrived .renameComplete p = true ↔ 10 ≤ pos (s.pc p)
  g1 : ∀ p q, 2 ≤ pos (s.pc p) → q < c.n → c.active q = true → 1 ≤ pos (s.pc q)
  g2 : ∀ p q, 5 ≤ pos (s.pc p) → q < c.n → c.active q = true → 4 ≤ pos (s.pc q)
  g3 : ∀ p q, 10 ≤ pos (s.pc p) → q < c.n → 9 ≤ pos (s.pc q)
  g4 : ∀ p q, 11 ≤ pos (s.pc p) → q < c.n → c.active q = true → 10 ≤ pos (s.pc q)
  idle : ∀ p, c.active p = false → s.pc p = .start
  prim : ∀ p, p ≠ c.primary → s.pc p ≠ .merge ∧ s.pc p ≠ .merging ∧ s.pc p ≠ .rename ∧
    s.pc p ≠ .raised .escaped ∧ s.pc p ≠ .raised .own
  told : s.pc c.primary ≠ .raised .told
  look : ∀ p, 4 ≤ pos (s.pc p) → f = .absent ∧ d ≠ .none
  ex : ∀ p, s.pc p = .raised .fileExists → f ≠ .absent
  nf : ∀ p, s.pc p = .raised .notFound → f = .absent ∧ d = .none
  w0 : pos (s.pc c.primary) ≤ 5 → s.final = f ∧ s.part = d ∧ s.failed = false
  w6 : pos (s.pc c.primary) = 6 → s.final = .absent ∧ s.part = .half ∧ s.failed = false
  w7 : pos (s.pc c.primary) = 7 → s.final = .absent ∧ s.part = .half ∧ s.failed = false ∧
    c.outcome = .mergeEscapes
  w8 : pos (s.pc c.primary) = 8 → s.final = .absent ∧ s.part = .merged ∧ s.failed = false ∧
    (c.outcome = .ok ∨ c.outcome = .renameFails)
  w9 : 9 ≤ pos (s.pc c.primary) →
    (c.outcome = .ok ∧ s.final = .published ∧ s.part = .none ∧ s.failed = false) ∨
    (c.outcome = .mergeFails ∧ s.final = .absent ∧ s.part = .half ∧ s.failed = true) ∨
    (c.outcome = .renameFails ∧ s.final = .absent ∧ s.part = .merged ∧ s.failed = true)
  got : ∀ p, 10 ≤ pos (s.pc p) → s.got p = s.failed
  dn : ∀ p, s.pc p = .done → s.got p = false
  rs : ∀ p, s.pc p = .raised .own ∨ s.pc p = .raised .told → s.got p = true

theorem inv_initial (c : Cfg) (f : Final) (d : Part) : Inv c f d (initial f d) := by
  constructor <;> simp [initial, pos]

theorem inv_stop {c : Cfg} {f : Final} {d : Part} {s : State} (h : Inv c f d s) (p : Nat) :
    Inv c f d { s with dead := upd s.dead p true } := by
  obtain ⟨h1, h2, h3, h4, h5, h6, h7, h8, h9, h10, h11, h12, h13, h14, h15, h16, h17, h18,
    h19, h20, h21, h22⟩ := h
  exact ⟨h1, h2, h3, h4, h5, h6, h7, h8, h9, h10, h11, h12, h13, h14, h15, h16, h17, h18,
    h19, h20, h21, h22⟩

set_option maxHeartbeats 4000000 in
theorem inv_step {c : Cfg} {f : Final} {d : Part} {s s' : State} (h : Inv c f d s)
    (hprim : c.primary < c.n) (hpa : c.active c.primary = true) {p : Nat}
    (hs : step c p s = some s') : Inv c f d s' := by
  unfold step at hs
  split at hs
  · rename_i hp
    obtain ⟨hpn, hact, hd⟩ := hp
    cases hpc : s.pc p with
    | start =>
      simp only [hpc, Option.some.injEq] at hs; subst hs
      obtain ⟨h1, h2, h3, h4, h5, h6, h7, h8, h9, h10, h11, h12, h13, h14, h15, h16, h17, h18,
        h19, h20, h21, h22⟩ := h
      constructor <;> simp only [arrive, upd] <;> grind [pos]
    | check =>
      simp only [hpc, Option.some.injEq] at hs; subst hs
      have hg := h.g1 p
      have hg2 := h.g2 c.primary
      have hw : s.final = f ∧ s.part = d := by
        rcases Nat.lt_or_ge 5 (pos (s.pc c.primary)) with hlt | hge
        · have := hg2 p (by omega) hpn hact
          rw [hpc] at this; simp [pos] at this
        · exact ⟨(h.w0 hge).1, (h.w0 hge).2.1⟩
      obtain ⟨h1, h2, h3, h4, h5, h6, h7, h8, h9, h10, h11, h12, h13, h14, h15, h16, h17, h18,
        h19, h20, h21, h22⟩ := h
      unfold lookAt
      split
      · constructor <;> simp only [goto, upd] <;> grind [pos]
      · split
        · constructor <;> simp only [goto, upd] <;> grind [pos]
        · constructor <;> simp only [arrive, upd] <;> grind [pos]
    | wait k =>
      simp only [hpc] at hs
      split at hs
      · rename_i ho
        rw [isOpen_iff] at ho
        simp only [Option.some.injEq] at hs; subst hs
        cases k with
        | existence =>
          simp only [awaits] at ho
          obtain ⟨h1, h2, h3, h4, h5, h6, h7, h8, h9, h10, h11, h12, h13, h14, h15, h16, h17,
            h18, h19, h20, h21, h22⟩ := h
          simp only [afterMeeting]
          constructor <;> simp only [goto, upd] <;> grind [pos]
        | renameStart =>
          simp only [awaits] at ho
          obtain ⟨h1, h2, h3, h4, h5, h6, h7, h8, h9, h10, h11, h12, h13, h14, h15, h16, h17,
            h18, h19, h20, h21, h22⟩ := h
          simp only [afterMeeting]
          split
          · constructor <;> simp only [goto, upd] <;> grind [pos]
          · constructor <;> simp only [arrive, upd] <;> grind [pos]
        | broadcast =>
          simp only [awaits] at ho
          obtain ⟨h1, h2, h3, h4, h5, h6, h7, h8, h9, h10, h11, h12, h13, h14, h15, h16, h17,
            h18, h19, h20, h21, h22⟩ := h
          simp only [afterMeeting]
          constructor <;> simp only [arrive, upd] <;> grind [pos]
        | renameComplete =>
          simp only [awaits] at ho
          obtain ⟨h1, h2, h3, h4, h5, h6, h7, h8, h9, h10, h11, h12, h13, h14, h15, h16, h17,
            h18, h19, h20, h21, h22⟩ := h
          simp only [afterMeeting]
          split
          · split
            · constructor <;> simp only [goto, upd] <;> grind [pos]
            · constructor <;> simp only [goto, upd] <;> grind [pos]
          · constructor <;> simp only [goto, upd] <;> grind [pos]
      · cases hs
    | merge =>
      simp only [hpc, Option.some.injEq] at hs; subst hs
      obtain ⟨h1, h2, h3, h4, h5, h6, h7, h8, h9, h10, h11, h12, h13, h14, h15, h16, h17, h18,
        h19, h20, h21, h22⟩ := h
      constructor <;> simp only [goto, upd] <;> grind [pos]
    | merging =>
      simp only [hpc, Option.some.injEq] at hs; subst hs
      obtain ⟨h1, h2, h3, h4, h5, h6, h7, h8, h9, h10, h11, h12, h13, h14, h15, h16, h17, h18,
        h19, h20, h21, h22⟩ := h
      unfold endMerge
      cases ho : c.outcome <;> simp only
      · constructor <;> simp only [goto, upd] <;> grind [pos]
      · constructor <;> simp only [arrive, upd] <;> grind [pos]
      · constructor <;> simp only [goto, upd] <;> grind [pos]
      · constructor <;> simp only [goto, upd] <;> grind [pos]
    | rename =>
      simp only [hpc, Option.some.injEq] at hs; subst hs
      obtain ⟨h1, h2, h3, h4, h5, h6, h7, h8, h9, h10, h11, h12, h13, h14, h15, h16, h17, h18,
        h19, h20, h21, h22⟩ := h
      unfold renameStep
      cases ho : c.outcome <;> simp only
      all_goals (constructor <;> simp only [arrive, upd] <;> grind [pos])
    | done => simp only [hpc] at hs; cases hs
    | raised e => simp only [hpc] at hs; cases hs
  · cases hs

theorem inv_exec {c : Cfg} {f : Final} {d : Part} (hprim : c.primary < c.n)
    (hpa : c.active c.primary = true) :
    ∀ (acts : List Act) {s : State}, Inv c f d s → Inv c f d (exec c s acts)
  | [], _, h => h
  | a :: as, s, h => by
    refine inv_exec hprim hpa as ?_
    cases a with
    | stop p => exact inv_stop h p
    | run p =>
      simp only [act]
      cases hs : step c p s with
      | none => exact h
      | some s' => exact inv_step h hprim hpa hs

end Verif.PartialFin
