import Verif.V1.MultiSave

/-! Invariants of a save from several processes. -/

namespace Verif.V1Save

/-- Position of a process along the program (proof device). -/
def pos : Pc → Nat
  | .start => 0
  | .wait .pre => 1
  | .check => 2
  | .refused => 3
  | .remove => 4
  | .removing => 5
  | .wait .rmtree => 6
  | .wait .post => 7
  | .create => 8
  | .wait .create => 9
  | .write => 10
  | .wait .commitComplete => 11
  | .merge => 12
  | .wait .finalizeComplete => 13
  | .commit => 14
  | .wait .finalize => 15
  | .done => 16

/-- Position of a barrier (proof device). -/
def kpos (k : Key) : Nat := pos (.wait k)

/-- Barriers every process of this save goes through (proof device). -/
def onWay (c : Cfg) : Key → Bool
  | .rmtree => false
  | .commitComplete => c.syncs
  | .finalizeComplete => c.syncs
  | _ => true

/-- What is at the destination before the commit, by the position of the primary
(proof device). -/
def expected (existed : Bool) (k : Nat) : Final :=
  if existed then (if k ≤ 4 then .old else if k = 5 then .damaged else .absent)
  else .absent

theorem isOpen_iff {c : Cfg} {s : State} {k : Key} :
    isOpen c s k = true ↔ ∀ q, q < c.n → s.arrived k q = true := by
  simp [isOpen]

/-- The invariant. -/
structure Inv (c : Cfg) (existed : Bool) (s : State) : Prop where
  arr : ∀ p, p < c.n → ∀ k, onWay c k = true →
    (s.arrived k p = true ↔ kpos k ≤ pos (s.pc p))
  rm1 : ∀ p, p < c.n → s.arrived .rmtree p = true → 6 ≤ pos (s.pc p)
  rm2 : ∀ p, p < c.n → s.pc p = .wait .rmtree → s.arrived .rmtree p = true
  gap : ∀ p q, p < c.n → q < c.n → ∀ k, onWay c k = true →
    kpos k < pos (s.pc p) → kpos k ≤ pos (s.pc q)
  nosync : c.syncs = false → ∀ p, p < c.n →
    s.pc p ≠ .wait .commitComplete ∧ s.pc p ≠ .merge ∧ s.pc p ≠ .wait .finalizeComplete
  fresh : existed = false → ∀ p, p < c.n → pos (s.pc p) ≤ 2 ∨ 7 ≤ pos (s.pc p)
  kept : existed = true → c.overwrite = false → ∀ p, p < c.n → pos (s.pc p) ≤ 3
  noref : c.overwrite = true → ∀ p, p < c.n → s.pc p ≠ .refused
  onlyprim : ∀ p, p < c.n → p ≠ c.primary → s.pc p ≠ .remove ∧ s.pc p ≠ .removing
  primrm : existed = true → 6 ≤ pos (s.pc c.primary) →
    s.arrived .rmtree c.primary = true
  fin : pos (s.pc c.primary) ≤ 14 → s.final = expected existed (pos (s.pc c.primary))
  fin2 : 15 ≤ pos (s.pc c.primary) → ∃ d, s.final = .committed d
  tmp1 : pos (s.pc c.primary) ≤ 8 → s.tmp = none
  tmp2 : 9 ≤ pos (s.pc c.primary) → pos (s.pc c.primary) ≤ 14 → ∃ d, s.tmp = some d
  tmp3 : 15 ≤ pos (s.pc c.primary) → s.tmp = none
  data : c.syncs = true → ∀ d, s.tmp = some d → ∀ p, p < c.n →
    11 ≤ pos (s.pc p) → p ∈ d.data
  merged : c.syncs = true → ∀ d, s.tmp = some d → 13 ≤ pos (s.pc c.primary) →
    d.merged = true
  full : c.syncs = true → ∀ d, s.final = .committed d →
    d.merged = true ∧ ∀ p, p < c.n → p ∈ d.data
  rm3 : ∀ p q, p < c.n → q < c.n → 7 ≤ pos (s.pc p) → s.arrived .rmtree p = true →
    s.arrived .rmtree q = true
  seen : existed = true → c.overwrite = true → pos (s.pc c.primary) ≤ 5 →
    ∀ q, q < c.n → q ≠ c.primary → 3 ≤ pos (s.pc q) → s.arrived .rmtree q = true
  honest : ∀ d, s.tmp = some d → ∀ p, p ∈ d.data → p < c.n ∧ 11 ≤ pos (s.pc p)

theorem inv_initial (c : Cfg) (existed : Bool) : Inv c existed (initial existed) := by
  constructor <;> intros <;> simp_all [initial, pos, kpos, expected] <;>
    (try (rename_i k _; cases k <;> simp_all [pos, onWay])) <;> grind [pos, kpos, onWay, initial]


theorem inv_stop {c : Cfg} {existed : Bool} {s : State} (h : Inv c existed s) (p : Nat) :
    Inv c existed { s with dead := upd s.dead p true } := by
  obtain ⟨h1, h2, h3, h4, h5, h6, h7, h8, h9, h10, h11, h12, h13, h14, h15, h16, h17, h18, h19, h20, h21⟩ := h
  exact ⟨h1, h2, h3, h4, h5, h6, h7, h8, h9, h10, h11, h12, h13, h14, h15, h16, h17, h18, h19, h20, h21⟩

/-- The part of the invariant about positions and barriers only. -/
theorem ctl_move {c : Cfg} {existed : Bool} {s : State} (h : Inv c existed s) {p : Nat}
    (hp : p < c.n) {b : Pc} {f : Final} {t : Option Dir}
    (hb : ∀ k, onWay c k = true → kpos k ≤ pos b → kpos k ≤ pos (s.pc p))
    (hle : pos (s.pc p) ≤ pos b)
    (hg : ∀ k, onWay c k = true → kpos k < pos b → ∀ q, q < c.n → kpos k ≤ pos (s.pc q)) :
    (∀ q, q < c.n → ∀ k, onWay c k = true →
      ((goto { s with final := f, tmp := t } p b).arrived k q = true ↔
        kpos k ≤ pos ((goto { s with final := f, tmp := t } p b).pc q))) ∧
    (∀ q r, q < c.n → r < c.n → ∀ k, onWay c k = true →
      kpos k < pos ((goto { s with final := f, tmp := t } p b).pc q) →
      kpos k ≤ pos ((goto { s with final := f, tmp := t } p b).pc r)) := by
  constructor
  · intro q hq k hk
    have := h.arr q hq k hk
    simp only [goto, upd]
    by_cases hqp : q = p
    · subst hqp; simp only [if_true]
      constructor
      · intro h1; exact Nat.le_trans (this.mp h1) hle
      · intro h1; exact this.mpr (hb k hk h1)
    · simp only [hqp, if_false]; exact this
  · intro q r hq hr k hk
    simp only [goto, upd]
    have hgap : kpos k < (if q = p then pos b else pos (s.pc q)) → kpos k ≤ pos (s.pc r) := by
      by_cases hqp : q = p
      · simp only [hqp, if_true]; intro h1; exact hg k hk h1 r hr
      · simp only [hqp, if_false]; intro h1; exact h.gap q r hq hr k hk h1
    intro h1
    have h2 := hgap (by by_cases hqp : q = p <;> simp_all)
    by_cases hrp : r = p
    · subst hrp; simp only [if_true]; omega
    · simp only [hrp, if_false]; exact h2

theorem ctl_arrive {c : Cfg} {existed : Bool} {s : State} (h : Inv c existed s) {p : Nat}
    (hp : p < c.n) {k0 : Key} {f : Final} {t : Option Dir}
    (hb : ∀ k, onWay c k = true → k ≠ k0 → kpos k ≤ kpos k0 → kpos k ≤ pos (s.pc p))
    (hle : pos (s.pc p) ≤ kpos k0)
    (hg : ∀ k, onWay c k = true → kpos k < kpos k0 → ∀ q, q < c.n → kpos k ≤ pos (s.pc q)) :
    (∀ q, q < c.n → ∀ k, onWay c k = true →
      ((arrive { s with final := f, tmp := t } p k0).arrived k q = true ↔
        kpos k ≤ pos ((arrive { s with final := f, tmp := t } p k0).pc q))) ∧
    (∀ q r, q < c.n → r < c.n → ∀ k, onWay c k = true →
      kpos k < pos ((arrive { s with final := f, tmp := t } p k0).pc q) →
      kpos k ≤ pos ((arrive { s with final := f, tmp := t } p k0).pc r)) := by
  constructor
  · intro q hq k hk
    have := h.arr q hq k hk
    simp only [arrive, upd]
    by_cases hqp : q = p
    · subst hqp
      by_cases hkk : k = k0
      · subst hkk; simp [kpos]
      · simp only [hkk, false_and, if_true, if_false]
        constructor
        · intro h1; exact Nat.le_trans (this.mp h1) hle
        · intro h1; exact this.mpr (hb k hk hkk h1)
    · simp only [hqp, and_false, if_false]; exact this
  · intro q r hq hr k hk
    simp only [arrive, upd]
    intro h1
    have h2 : kpos k ≤ pos (s.pc r) := by
      by_cases hqp : q = p
      · simp only [hqp, if_true] at h1; exact hg k hk h1 r hr
      · simp only [hqp, if_false] at h1; exact h.gap q r hq hr k hk h1
    by_cases hrp : r = p
    · subst hrp; simp only [if_true]
      exact Nat.le_trans h2 hle
    · simp only [hrp, if_false]; exact h2


theorem gap_at {c : Cfg} {existed : Bool} {s : State} (h : Inv c existed s) {p : Nat}
    (hp : p < c.n) {k : Key} (hk : onWay c k = true) (hlt : kpos k < pos (s.pc p)) :
    ∀ q, q < c.n → kpos k ≤ pos (s.pc q) :=
  fun q hq => h.gap p q hp hq k hk hlt

theorem inv_start {c : Cfg} {existed : Bool} {s : State} (h : Inv c existed s)
    (hprim : c.primary < c.n) {p : Nat} (hp : p < c.n) (hpc : s.pc p = .start) :
    Inv c existed (arrive s p .pre) := by
  have hc := ctl_arrive (k0 := .pre) (f := s.final) (t := s.tmp) h hp
    (by intro k; cases k <;> simp [kpos, pos])
    (by simp [hpc, pos]) (by intro k; cases k <;> simp [kpos, pos])
  obtain ⟨h1, h2, h3, h4, h5, h6, h7, h8, h9, h10, h11, h12, h13, h14, h15, h16, h17, h18, h19, h20, h21⟩ := h
  constructor
  · exact hc.1
  · intro q; have := h2 q; simp only [arrive, upd]; grind [pos]
  · intro q; have := h3 q; simp only [arrive, upd]; grind [pos]
  · exact hc.2
  all_goals (simp only [arrive, upd]; grind [pos, expected])

theorem inv_pre {c : Cfg} {existed : Bool} {s : State} (h : Inv c existed s)
    (hprim : c.primary < c.n) {p : Nat} (hp : p < c.n) (hpc : s.pc p = .wait .pre)
    (ho : isOpen c s .pre = true) :
    Inv c existed (goto s p .check) := by
  rw [isOpen_iff] at ho
  have hc := ctl_move (b := .check) (f := s.final) (t := s.tmp) h hp
    (by intro k; cases k <;> simp [kpos, pos, hpc])
    (by simp [hpc, pos])
    (by intro k hk hlt q hq
        have := (h.arr q hq .pre rfl).mp (ho q hq)
        revert hlt this; cases k <;> simp [kpos, pos])
  obtain ⟨h1, h2, h3, h4, h5, h6, h7, h8, h9, h10, h11, h12, h13, h14, h15, h16, h17, h18, h19, h20, h21⟩ := h
  constructor
  · exact hc.1
  · intro q; have := h2 q; simp only [goto, upd]; grind [pos]
  · intro q; have := h3 q; simp only [goto, upd]; grind [pos]
  · exact hc.2
  all_goals (simp only [goto, upd]; grind [pos, expected])

theorem inv_check_remove {c : Cfg} {existed : Bool} {s : State} (h : Inv c existed s)
    (hprim : c.primary < c.n) {p : Nat} (hp : p < c.n) (hpc : s.pc p = .check)
    (hpr : s.final.present = true) (hov : c.overwrite = true) (hpp : p = c.primary) :
    Inv c existed (goto s p .remove) := by
  have hc := ctl_move (b := .remove) (f := s.final) (t := s.tmp) h hp
    (by intro k; cases k <;> simp [kpos, pos, hpc, onWay] <;> grind)
    (by simp [hpc, pos])
    (by intro k hk hlt q hq
        have h0 := fun hl => gap_at h hp hk hl q hq
        revert hlt h0 hk; simp only [hpc]; cases k <;> simp [kpos, pos, onWay] <;> grind [kpos, pos])
  obtain ⟨h1, h2, h3, h4, h5, h6, h7, h8, h9, h10, h11, h12, h13, h14, h15, h16, h17, h18, h19, h20, h21⟩ := h
  constructor
  · exact hc.1
  · intro q; have := h2 q; simp only [goto, upd]; grind [pos]
  · intro q; have := h3 q; simp only [goto, upd]; grind [pos]
  · exact hc.2
  all_goals (simp only [goto, upd]; grind [pos, expected, Final.present])

theorem inv_check_rmtree {c : Cfg} {existed : Bool} {s : State} (h : Inv c existed s)
    (hprim : c.primary < c.n) {p : Nat} (hp : p < c.n) (hpc : s.pc p = .check)
    (hpr : s.final.present = true) (hov : c.overwrite = true) (hpp : p ≠ c.primary) :
    Inv c existed (arrive s p .rmtree) := by
  have hpost := h.gap c.primary p hprim hp .post rfl
  simp only [hpc, kpos, pos] at hpost
  have hc := ctl_arrive (k0 := .rmtree) (f := s.final) (t := s.tmp) h hp
    (by intro k; cases k <;> simp [kpos, pos, hpc, onWay])
    (by simp [hpc, pos, kpos])
    (by intro k hk hlt q hq
        have h0 := fun hl => gap_at h hp hk hl q hq
        revert hlt h0 hk; simp only [hpc]; cases k <;> simp [kpos, pos, onWay] <;> grind [kpos, pos])
  obtain ⟨h1, h2, h3, h4, h5, h6, h7, h8, h9, h10, h11, h12, h13, h14, h15, h16, h17, h18, h19, h20, h21⟩ := h
  constructor
  · exact hc.1
  · intro q; have := h2 q; simp only [arrive, upd]; grind [pos]
  · intro q; have := h3 q; simp only [arrive, upd]; grind [pos]
  · exact hc.2
  all_goals (simp only [arrive, upd]; grind [pos, expected, Final.present])

theorem inv_check_refused {c : Cfg} {existed : Bool} {s : State} (h : Inv c existed s)
    (hprim : c.primary < c.n) {p : Nat} (hp : p < c.n) (hpc : s.pc p = .check)
    (hpr : s.final.present = true) (hov : c.overwrite = false) :
    Inv c existed (goto s p .refused) := by
  have hpost := h.gap c.primary p hprim hp .post rfl
  simp only [hpc, kpos, pos] at hpost
  have hc := ctl_move (b := .refused) (f := s.final) (t := s.tmp) h hp
    (by intro k; cases k <;> simp [kpos, pos, hpc, onWay] <;> grind)
    (by simp [hpc, pos])
    (by intro k hk hlt q hq
        have h0 := fun hl => gap_at h hp hk hl q hq
        revert hlt h0 hk; simp only [hpc]; cases k <;> simp [kpos, pos, onWay] <;> grind [kpos, pos])
  obtain ⟨h1, h2, h3, h4, h5, h6, h7, h8, h9, h10, h11, h12, h13, h14, h15, h16, h17, h18, h19, h20, h21⟩ := h
  constructor
  · exact hc.1
  · intro q; have := h2 q; simp only [goto, upd]; grind [pos]
  · intro q; have := h3 q; simp only [goto, upd]; grind [pos]
  · exact hc.2
  all_goals (simp only [goto, upd]; grind [pos, expected, Final.present])

theorem inv_check_post {c : Cfg} {existed : Bool} {s : State} (h : Inv c existed s)
    (hprim : c.primary < c.n) {p : Nat} (hp : p < c.n) (hpc : s.pc p = .check)
    (hpr : s.final.present = false) :
    Inv c existed (arrive s p .post) := by
  have hpost := h.gap c.primary p hprim hp .post rfl
  simp only [hpc, kpos, pos] at hpost
  have hc := ctl_arrive (k0 := .post) (f := s.final) (t := s.tmp) h hp
    (by intro k; cases k <;> simp [kpos, pos, hpc, onWay])
    (by simp [hpc, pos, kpos])
    (by intro k hk hlt q hq
        have h0 := fun hl => gap_at h hp hk hl q hq
        revert hlt h0 hk; simp only [hpc]; cases k <;> simp [kpos, pos, onWay] <;> grind [kpos, pos])
  obtain ⟨h1, h2, h3, h4, h5, h6, h7, h8, h9, h10, h11, h12, h13, h14, h15, h16, h17, h18, h19, h20, h21⟩ := h
  constructor
  · exact hc.1
  · intro q; have := h2 q; simp only [arrive, upd]; grind [pos]
  · intro q; have := h3 q; simp only [arrive, upd]; grind [pos]
  · exact hc.2
  all_goals (simp only [arrive, upd]; grind [pos, expected, Final.present])

theorem inv_remove {c : Cfg} {existed : Bool} {s : State} (h : Inv c existed s)
    (hprim : c.primary < c.n) {p : Nat} (hp : p < c.n) (hpc : s.pc p = .remove)
    (hpp : p = c.primary) :
    Inv c existed (goto { s with final := .damaged } p .removing) := by
  have hc := ctl_move (b := .removing) (f := .damaged) (t := s.tmp) h hp
    (by intro k; cases k <;> simp [kpos, pos, hpc, onWay] <;> grind)
    (by simp [hpc, pos])
    (by intro k hk hlt q hq
        have h0 := fun hl => gap_at h hp hk hl q hq
        revert hlt h0 hk; simp only [hpc]; cases k <;> simp [kpos, pos, onWay] <;> grind [kpos, pos])
  obtain ⟨h1, h2, h3, h4, h5, h6, h7, h8, h9, h10, h11, h12, h13, h14, h15, h16, h17, h18, h19, h20, h21⟩ := h
  constructor
  · exact hc.1
  · intro q; have := h2 q; simp only [goto, upd]; grind [pos]
  · intro q; have := h3 q; simp only [goto, upd]; grind [pos]
  · exact hc.2
  all_goals (simp only [goto, upd]; grind [pos, expected, Final.present])

theorem inv_removing {c : Cfg} {existed : Bool} {s : State} (h : Inv c existed s)
    (hprim : c.primary < c.n) {p : Nat} (hp : p < c.n) (hpc : s.pc p = .removing)
    (hpp : p = c.primary) :
    Inv c existed (arrive { s with final := .absent } p .rmtree) := by
  have hc := ctl_arrive (k0 := .rmtree) (f := .absent) (t := s.tmp) h hp
    (by intro k; cases k <;> simp [kpos, pos, hpc, onWay])
    (by simp [hpc, pos, kpos])
    (by intro k hk hlt q hq
        have h0 := fun hl => gap_at h hp hk hl q hq
        revert hlt h0 hk; simp only [hpc]; cases k <;> simp [kpos, pos, onWay] <;> grind [kpos, pos])
  obtain ⟨h1, h2, h3, h4, h5, h6, h7, h8, h9, h10, h11, h12, h13, h14, h15, h16, h17, h18, h19, h20, h21⟩ := h
  constructor
  · exact hc.1
  · intro q; have := h2 q; simp only [arrive, upd]; grind [pos]
  · intro q; have := h3 q; simp only [arrive, upd]; grind [pos]
  · exact hc.2
  all_goals (simp only [arrive, upd]; grind [pos, expected, Final.present])

theorem inv_rmtree {c : Cfg} {existed : Bool} {s : State} (h : Inv c existed s)
    (hprim : c.primary < c.n) {p : Nat} (hp : p < c.n) (hpc : s.pc p = .wait .rmtree)
    (ho : ∀ q, q < c.n → s.arrived .rmtree q = true) :
    Inv c existed (arrive s p .post) := by
  have hc := ctl_arrive (k0 := .post) (f := s.final) (t := s.tmp) h hp
    (by intro k; cases k <;> simp [kpos, pos, hpc, onWay])
    (by simp [hpc, pos, kpos])
    (by intro k hk hlt q hq
        have h0 := fun hl => gap_at h hp hk hl q hq
        revert hlt h0 hk; simp only [hpc]; cases k <;> simp [kpos, pos, onWay] <;> grind [kpos, pos])
  obtain ⟨h1, h2, h3, h4, h5, h6, h7, h8, h9, h10, h11, h12, h13, h14, h15, h16, h17, h18, h19, h20, h21⟩ := h
  constructor
  · exact hc.1
  · intro q; have := h2 q; simp only [arrive, upd]; grind [pos]
  · intro q; have := h3 q; simp only [arrive, upd]; grind [pos]
  · exact hc.2
  all_goals (simp only [arrive, upd]; grind [pos, expected, Final.present])

theorem inv_post {c : Cfg} {existed : Bool} {s : State} (h : Inv c existed s)
    (hprim : c.primary < c.n) {p : Nat} (hp : p < c.n) (hpc : s.pc p = .wait .post)
    (ho : ∀ q, q < c.n → s.arrived .post q = true) :
    Inv c existed (goto s p .create) := by
  have hc := ctl_move (b := .create) (f := s.final) (t := s.tmp) h hp
    (by intro k; cases k <;> simp [kpos, pos, hpc, onWay] <;> grind)
    (by simp [hpc, pos])
    (by intro k hk hlt q hq
        have h0 := fun hl => gap_at h hp hk hl q hq
        have h9 := (h.arr q hq .post (by simp_all [onWay])).mp (ho q hq)
        revert h9
        revert hlt h0 hk; simp only [hpc]; cases k <;> simp [kpos, pos, onWay] <;> grind [kpos, pos])
  obtain ⟨h1, h2, h3, h4, h5, h6, h7, h8, h9, h10, h11, h12, h13, h14, h15, h16, h17, h18, h19, h20, h21⟩ := h
  constructor
  · exact hc.1
  · intro q; have := h2 q; simp only [goto, upd]; grind [pos]
  · intro q; have := h3 q; simp only [goto, upd]; grind [pos]
  · exact hc.2
  all_goals (simp only [goto, upd]; grind [pos, expected, Final.present])

theorem inv_create_prim {c : Cfg} {existed : Bool} {s : State} (h : Inv c existed s)
    (hprim : c.primary < c.n) {p : Nat} (hp : p < c.n) (hpc : s.pc p = .create)
    (hpp : p = c.primary) :
    Inv c existed (arrive { s with tmp := some ⟨[], false⟩ } p .create) := by
  have hgc := fun q hq => h.gap q p hq hp .create rfl
  simp only [hpc, kpos, pos] at hgc
  have hc := ctl_arrive (k0 := .create) (f := s.final) (t := some ⟨[], false⟩) h hp
    (by intro k; cases k <;> simp [kpos, pos, hpc, onWay])
    (by simp [hpc, pos, kpos])
    (by intro k hk hlt q hq
        have h0 := fun hl => gap_at h hp hk hl q hq
        revert hlt h0 hk; simp only [hpc]; cases k <;> simp [kpos, pos, onWay] <;> grind [kpos, pos])
  obtain ⟨h1, h2, h3, h4, h5, h6, h7, h8, h9, h10, h11, h12, h13, h14, h15, h16, h17, h18, h19, h20, h21⟩ := h
  constructor
  · exact hc.1
  · intro q; have := h2 q; simp only [arrive, upd]; grind [pos]
  · intro q; have := h3 q; simp only [arrive, upd]; grind [pos]
  · exact hc.2
  all_goals (simp only [arrive, upd]; grind [pos, expected, Final.present])

theorem inv_create {c : Cfg} {existed : Bool} {s : State} (h : Inv c existed s)
    (hprim : c.primary < c.n) {p : Nat} (hp : p < c.n) (hpc : s.pc p = .create)
    (hpp : p ≠ c.primary) :
    Inv c existed (arrive s p .create) := by
  have hc := ctl_arrive (k0 := .create) (f := s.final) (t := s.tmp) h hp
    (by intro k; cases k <;> simp [kpos, pos, hpc, onWay])
    (by simp [hpc, pos, kpos])
    (by intro k hk hlt q hq
        have h0 := fun hl => gap_at h hp hk hl q hq
        revert hlt h0 hk; simp only [hpc]; cases k <;> simp [kpos, pos, onWay] <;> grind [kpos, pos])
  obtain ⟨h1, h2, h3, h4, h5, h6, h7, h8, h9, h10, h11, h12, h13, h14, h15, h16, h17, h18, h19, h20, h21⟩ := h
  constructor
  · exact hc.1
  · intro q; have := h2 q; simp only [arrive, upd]; grind [pos]
  · intro q; have := h3 q; simp only [arrive, upd]; grind [pos]
  · exact hc.2
  all_goals (simp only [arrive, upd]; grind [pos, expected, Final.present])

theorem inv_created {c : Cfg} {existed : Bool} {s : State} (h : Inv c existed s)
    (hprim : c.primary < c.n) {p : Nat} (hp : p < c.n) (hpc : s.pc p = .wait .create)
    (ho : ∀ q, q < c.n → s.arrived .create q = true) :
    Inv c existed (goto s p .write) := by
  have hc := ctl_move (b := .write) (f := s.final) (t := s.tmp) h hp
    (by intro k; cases k <;> simp [kpos, pos, hpc, onWay] <;> grind)
    (by simp [hpc, pos])
    (by intro k hk hlt q hq
        have h0 := fun hl => gap_at h hp hk hl q hq
        have h9 := (h.arr q hq .create (by simp_all [onWay])).mp (ho q hq)
        revert h9
        revert hlt h0 hk; simp only [hpc]; cases k <;> simp [kpos, pos, onWay] <;> grind [kpos, pos])
  obtain ⟨h1, h2, h3, h4, h5, h6, h7, h8, h9, h10, h11, h12, h13, h14, h15, h16, h17, h18, h19, h20, h21⟩ := h
  constructor
  · exact hc.1
  · intro q; have := h2 q; simp only [goto, upd]; grind [pos]
  · intro q; have := h3 q; simp only [goto, upd]; grind [pos]
  · exact hc.2
  all_goals (simp only [goto, upd]; grind [pos, expected, Final.present])

theorem inv_write_sync {c : Cfg} {existed : Bool} {s : State} (h : Inv c existed s)
    (hprim : c.primary < c.n) {p : Nat} (hp : p < c.n) (hpc : s.pc p = .write)
    (hs : c.syncs = true) {d : Dir} (hd : s.tmp = some d) :
    Inv c existed (arrive { s with tmp := some { d with data := p :: d.data } } p .commitComplete) := by
  have hc := ctl_arrive (k0 := .commitComplete) (f := s.final) (t := some { d with data := p :: d.data }) h hp
    (by intro k; cases k <;> simp [kpos, pos, hpc, onWay])
    (by simp [hpc, pos, kpos])
    (by intro k hk hlt q hq
        have h0 := fun hl => gap_at h hp hk hl q hq
        revert hlt h0 hk; simp only [hpc]; cases k <;> simp [kpos, pos, onWay] <;> grind [kpos, pos])
  obtain ⟨h1, h2, h3, h4, h5, h6, h7, h8, h9, h10, h11, h12, h13, h14, h15, h16, h17, h18, h19, h20, h21⟩ := h
  constructor
  · exact hc.1
  · intro q; have := h2 q; simp only [arrive, upd]; grind [pos]
  · intro q; have := h3 q; simp only [arrive, upd]; grind [pos]
  · exact hc.2
  all_goals (simp only [arrive, upd]; grind [pos, expected, Final.present])

theorem inv_write_nosync {c : Cfg} {existed : Bool} {s : State} (h : Inv c existed s)
    (hprim : c.primary < c.n) {p : Nat} (hp : p < c.n) (hpc : s.pc p = .write)
    (hs : c.syncs = false) {d : Dir} (hd : s.tmp = some d) :
    Inv c existed (goto { s with tmp := some { d with data := p :: d.data } } p .commit) := by
  have hc := ctl_move (b := .commit) (f := s.final) (t := some { d with data := p :: d.data }) h hp
    (by intro k; cases k <;> simp [kpos, pos, hpc, onWay] <;> grind)
    (by simp [hpc, pos])
    (by intro k hk hlt q hq
        have h0 := fun hl => gap_at h hp hk hl q hq
        revert hlt h0 hk; simp only [hpc]; cases k <;> simp [kpos, pos, onWay] <;> grind [kpos, pos])
  obtain ⟨h1, h2, h3, h4, h5, h6, h7, h8, h9, h10, h11, h12, h13, h14, h15, h16, h17, h18, h19, h20, h21⟩ := h
  constructor
  · exact hc.1
  · intro q; have := h2 q; simp only [goto, upd]; grind [pos]
  · intro q; have := h3 q; simp only [goto, upd]; grind [pos]
  · exact hc.2
  all_goals (simp only [goto, upd]; grind [pos, expected, Final.present])

theorem inv_cc {c : Cfg} {existed : Bool} {s : State} (h : Inv c existed s)
    (hprim : c.primary < c.n) {p : Nat} (hp : p < c.n) (hpc : s.pc p = .wait .commitComplete)
    (ho : ∀ q, q < c.n → s.arrived .commitComplete q = true) :
    Inv c existed (goto s p .merge) := by
  have hs : c.syncs = true := by
    cases hs : c.syncs with
    | true => rfl
    | false => have := h.nosync hs p hp; simp_all
  have hc := ctl_move (b := .merge) (f := s.final) (t := s.tmp) h hp
    (by intro k; cases k <;> simp [kpos, pos, hpc, onWay] <;> grind)
    (by simp [hpc, pos])
    (by intro k hk hlt q hq
        have h0 := fun hl => gap_at h hp hk hl q hq
        have h9 := (h.arr q hq .commitComplete (by simp_all [onWay])).mp (ho q hq)
        revert h9
        revert hlt h0 hk; simp only [hpc]; cases k <;> simp [kpos, pos, onWay] <;> grind [kpos, pos])
  obtain ⟨h1, h2, h3, h4, h5, h6, h7, h8, h9, h10, h11, h12, h13, h14, h15, h16, h17, h18, h19, h20, h21⟩ := h
  constructor
  · exact hc.1
  · intro q; have := h2 q; simp only [goto, upd]; grind [pos]
  · intro q; have := h3 q; simp only [goto, upd]; grind [pos]
  · exact hc.2
  all_goals (simp only [goto, upd]; grind [pos, expected, Final.present])

theorem inv_merge_prim {c : Cfg} {existed : Bool} {s : State} (h : Inv c existed s)
    (hprim : c.primary < c.n) {p : Nat} (hp : p < c.n) (hpc : s.pc p = .merge)
    (hpp : p = c.primary) :
    Inv c existed (arrive { s with tmp := s.tmp.map (fun d => { d with merged := true }) } p .finalizeComplete) := by
  have hs : c.syncs = true := by
    cases hs : c.syncs with
    | true => rfl
    | false => have := h.nosync hs p hp; simp_all
  have hc := ctl_arrive (k0 := .finalizeComplete) (f := s.final) (t := s.tmp.map (fun d => { d with merged := true })) h hp
    (by intro k; cases k <;> simp [kpos, pos, hpc, onWay])
    (by simp [hpc, pos, kpos])
    (by intro k hk hlt q hq
        have h0 := fun hl => gap_at h hp hk hl q hq
        revert hlt h0 hk; simp only [hpc]; cases k <;> simp [kpos, pos, onWay] <;> grind [kpos, pos])
  obtain ⟨h1, h2, h3, h4, h5, h6, h7, h8, h9, h10, h11, h12, h13, h14, h15, h16, h17, h18, h19, h20, h21⟩ := h
  constructor
  · exact hc.1
  · intro q; have := h2 q; simp only [arrive, upd]; grind [pos]
  · intro q; have := h3 q; simp only [arrive, upd]; grind [pos]
  · exact hc.2
  all_goals (simp only [arrive, upd]; grind [pos, expected, Final.present])

theorem inv_merge {c : Cfg} {existed : Bool} {s : State} (h : Inv c existed s)
    (hprim : c.primary < c.n) {p : Nat} (hp : p < c.n) (hpc : s.pc p = .merge)
    (hpp : p ≠ c.primary) :
    Inv c existed (arrive s p .finalizeComplete) := by
  have hs : c.syncs = true := by
    cases hs : c.syncs with
    | true => rfl
    | false => have := h.nosync hs p hp; simp_all
  have hc := ctl_arrive (k0 := .finalizeComplete) (f := s.final) (t := s.tmp) h hp
    (by intro k; cases k <;> simp [kpos, pos, hpc, onWay])
    (by simp [hpc, pos, kpos])
    (by intro k hk hlt q hq
        have h0 := fun hl => gap_at h hp hk hl q hq
        revert hlt h0 hk; simp only [hpc]; cases k <;> simp [kpos, pos, onWay] <;> grind [kpos, pos])
  obtain ⟨h1, h2, h3, h4, h5, h6, h7, h8, h9, h10, h11, h12, h13, h14, h15, h16, h17, h18, h19, h20, h21⟩ := h
  constructor
  · exact hc.1
  · intro q; have := h2 q; simp only [arrive, upd]; grind [pos]
  · intro q; have := h3 q; simp only [arrive, upd]; grind [pos]
  · exact hc.2
  all_goals (simp only [arrive, upd]; grind [pos, expected, Final.present])

theorem inv_fc {c : Cfg} {existed : Bool} {s : State} (h : Inv c existed s)
    (hprim : c.primary < c.n) {p : Nat} (hp : p < c.n) (hpc : s.pc p = .wait .finalizeComplete)
    (ho : ∀ q, q < c.n → s.arrived .finalizeComplete q = true) :
    Inv c existed (goto s p .commit) := by
  have hs : c.syncs = true := by
    cases hs : c.syncs with
    | true => rfl
    | false => have := h.nosync hs p hp; simp_all
  have hc := ctl_move (b := .commit) (f := s.final) (t := s.tmp) h hp
    (by intro k; cases k <;> simp [kpos, pos, hpc, onWay] <;> grind)
    (by simp [hpc, pos])
    (by intro k hk hlt q hq
        have h0 := fun hl => gap_at h hp hk hl q hq
        have h9 := (h.arr q hq .finalizeComplete (by simp_all [onWay])).mp (ho q hq)
        revert h9
        revert hlt h0 hk; simp only [hpc]; cases k <;> simp [kpos, pos, onWay] <;> grind [kpos, pos])
  obtain ⟨h1, h2, h3, h4, h5, h6, h7, h8, h9, h10, h11, h12, h13, h14, h15, h16, h17, h18, h19, h20, h21⟩ := h
  constructor
  · exact hc.1
  · intro q; have := h2 q; simp only [goto, upd]; grind [pos]
  · intro q; have := h3 q; simp only [goto, upd]; grind [pos]
  · exact hc.2
  all_goals (simp only [goto, upd]; grind [pos, expected, Final.present])

theorem inv_commit_prim {c : Cfg} {existed : Bool} {s : State} (h : Inv c existed s)
    (hprim : c.primary < c.n) {p : Nat} (hp : p < c.n) (hpc : s.pc p = .commit)
    (hpp : p = c.primary) {d : Dir} (hd : s.tmp = some d) :
    Inv c existed (arrive { s with final := .committed d, tmp := none } p .finalize) := by
  have hgc : c.syncs = true → ∀ q, q < c.n → 13 ≤ pos (s.pc q) := by
    intro hs q hq
    have := h.gap p q hp hq .finalizeComplete (by simp [onWay, hs])
    simpa [hpc, kpos, pos] using this
  have hc := ctl_arrive (k0 := .finalize) (f := .committed d) (t := none) h hp
    (by intro k; cases k <;> simp [kpos, pos, hpc, onWay])
    (by simp [hpc, pos, kpos])
    (by intro k hk hlt q hq
        have h0 := fun hl => gap_at h hp hk hl q hq
        revert hlt h0 hk; simp only [hpc]; cases k <;> simp [kpos, pos, onWay] <;> grind [kpos, pos])
  obtain ⟨h1, h2, h3, h4, h5, h6, h7, h8, h9, h10, h11, h12, h13, h14, h15, h16, h17, h18, h19, h20, h21⟩ := h
  constructor
  · exact hc.1
  · intro q; have := h2 q; simp only [arrive, upd]; grind [pos]
  · intro q; have := h3 q; simp only [arrive, upd]; grind [pos]
  · exact hc.2
  all_goals (simp only [arrive, upd]; grind [pos, expected, Final.present])

theorem inv_commit {c : Cfg} {existed : Bool} {s : State} (h : Inv c existed s)
    (hprim : c.primary < c.n) {p : Nat} (hp : p < c.n) (hpc : s.pc p = .commit)
    (hpp : p ≠ c.primary) :
    Inv c existed (arrive s p .finalize) := by
  have hc := ctl_arrive (k0 := .finalize) (f := s.final) (t := s.tmp) h hp
    (by intro k; cases k <;> simp [kpos, pos, hpc, onWay])
    (by simp [hpc, pos, kpos])
    (by intro k hk hlt q hq
        have h0 := fun hl => gap_at h hp hk hl q hq
        revert hlt h0 hk; simp only [hpc]; cases k <;> simp [kpos, pos, onWay] <;> grind [kpos, pos])
  obtain ⟨h1, h2, h3, h4, h5, h6, h7, h8, h9, h10, h11, h12, h13, h14, h15, h16, h17, h18, h19, h20, h21⟩ := h
  constructor
  · exact hc.1
  · intro q; have := h2 q; simp only [arrive, upd]; grind [pos]
  · intro q; have := h3 q; simp only [arrive, upd]; grind [pos]
  · exact hc.2
  all_goals (simp only [arrive, upd]; grind [pos, expected, Final.present])

theorem inv_fin {c : Cfg} {existed : Bool} {s : State} (h : Inv c existed s)
    (hprim : c.primary < c.n) {p : Nat} (hp : p < c.n) (hpc : s.pc p = .wait .finalize)
    (ho : ∀ q, q < c.n → s.arrived .finalize q = true) :
    Inv c existed (goto s p .done) := by
  have hc := ctl_move (b := .done) (f := s.final) (t := s.tmp) h hp
    (by intro k; cases k <;> simp [kpos, pos, hpc, onWay] <;> grind)
    (by simp [hpc, pos])
    (by intro k hk hlt q hq
        have h0 := fun hl => gap_at h hp hk hl q hq
        have h9 := (h.arr q hq .finalize (by simp_all [onWay])).mp (ho q hq)
        revert h9
        revert hlt h0 hk; simp only [hpc]; cases k <;> simp [kpos, pos, onWay] <;> grind [kpos, pos])
  obtain ⟨h1, h2, h3, h4, h5, h6, h7, h8, h9, h10, h11, h12, h13, h14, h15, h16, h17, h18, h19, h20, h21⟩ := h
  constructor
  · exact hc.1
  · intro q; have := h2 q; simp only [goto, upd]; grind [pos]
  · intro q; have := h3 q; simp only [goto, upd]; grind [pos]
  · exact hc.2
  all_goals (simp only [goto, upd]; grind [pos, expected, Final.present])

theorem inv_step {c : Cfg} {existed : Bool} {s s' : State} (h : Inv c existed s)
    (hprim : c.primary < c.n) {p : Nat} (hs : step c p s = some s') : Inv c existed s' := by
  unfold step at hs
  split at hs
  · rename_i hpd
    have hp := hpd.1
    cases hpc : s.pc p with
    | start =>
      simp only [hpc, Option.some.injEq] at hs; subst hs
      exact inv_start h hprim hp hpc
    | wait k =>
      simp only [hpc] at hs
      split at hs
      · rename_i ho
        simp only [Option.some.injEq] at hs; subst hs
        have ho' := isOpen_iff.mp ho
        cases k with
        | pre => exact inv_pre h hprim hp hpc ho
        | rmtree => exact inv_rmtree h hprim hp hpc ho'
        | post => exact inv_post h hprim hp hpc ho'
        | create => exact inv_created h hprim hp hpc ho'
        | commitComplete => exact inv_cc h hprim hp hpc ho'
        | finalizeComplete => exact inv_fc h hprim hp hpc ho'
        | finalize => exact inv_fin h hprim hp hpc ho'
      · cases hs
    | check =>
      simp only [hpc, Option.some.injEq] at hs; subst hs
      unfold lookAt
      split
      · rename_i hpr
        split
        · rename_i hov
          split
          · rename_i hpp; exact inv_check_remove h hprim hp hpc hpr hov hpp
          · rename_i hpp; exact inv_check_rmtree h hprim hp hpc hpr hov hpp
        · rename_i hov; exact inv_check_refused h hprim hp hpc hpr (by simpa using hov)
      · rename_i hpr; exact inv_check_post h hprim hp hpc (by simpa using hpr)
    | remove =>
      simp only [hpc, Option.some.injEq] at hs; subst hs
      by_cases hpp : p = c.primary
      · exact inv_remove h hprim hp hpc hpp
      · exact absurd hpc (h.onlyprim p hp hpp).1
    | removing =>
      simp only [hpc, Option.some.injEq] at hs; subst hs
      by_cases hpp : p = c.primary
      · exact inv_removing h hprim hp hpc hpp
      · exact absurd hpc (h.onlyprim p hp hpp).2
    | refused => simp only [hpc] at hs; cases hs
    | create =>
      simp only [hpc, Option.some.injEq] at hs; subst hs
      unfold createStep
      split
      · rename_i hpp; exact inv_create_prim h hprim hp hpc hpp
      · rename_i hpp; exact inv_create h hprim hp hpc hpp
    | write =>
      simp only [hpc, Option.some.injEq] at hs; subst hs
      unfold writeStep
      split
      · exact inv_stop h p
      · rename_i d hd
        cases hsy : c.syncs with
        | true => simp only [if_true]; exact inv_write_sync h hprim hp hpc hsy hd
        | false => simp only [Bool.false_eq_true, if_false]; exact inv_write_nosync h hprim hp hpc hsy hd
    | merge =>
      simp only [hpc, Option.some.injEq] at hs; subst hs
      unfold mergeStep
      split
      · rename_i hpp; exact inv_merge_prim h hprim hp hpc hpp
      · rename_i hpp; exact inv_merge h hprim hp hpc hpp
    | commit =>
      simp only [hpc, Option.some.injEq] at hs; subst hs
      unfold commitStep
      split
      · rename_i hpp
        split
        · exact inv_stop h p
        · rename_i d hd; exact inv_commit_prim h hprim hp hpc hpp hd
      · rename_i hpp; exact inv_commit h hprim hp hpc hpp
    | done => simp only [hpc] at hs; cases hs
  · cases hs

theorem inv_act {c : Cfg} {existed : Bool} {s : State} (h : Inv c existed s)
    (hprim : c.primary < c.n) (a : Act) : Inv c existed (act c s a) := by
  cases a with
  | run p =>
    simp only [act]
    cases hs : step c p s with
    | none => simpa using h
    | some s' => simpa using inv_step h hprim hs
  | stop p => exact inv_stop h p

theorem inv_exec {c : Cfg} {existed : Bool} (hprim : c.primary < c.n) :
    ∀ (acts : List Act) {s : State}, Inv c existed s → Inv c existed (exec c s acts)
  | [], _, h => h
  | a :: as, _, h => inv_exec hprim as (inv_act h hprim a)

theorem exec_append (c : Cfg) (s : State) (a b : List Act) :
    exec c s (a ++ b) = exec c (exec c s a) b := by
  induction a generalizing s with
  | nil => rfl
  | cons x xs ih => exact ih _

end Verif.V1Save
