import Verif.Emergency.HandoffSpec

/-! Invariants of the controller's pending save, for C104. -/

namespace Verif.Emergency.Handoff

/-- Every effect of the log is fine with what came before it. -/
def Always (P : List Eff → Eff → Prop) (L : List Eff) : Prop := ∀ a e b, L = a ++ e :: b → P a e

theorem Always.snoc {P : List Eff → Eff → Prop} {L : List Eff} {x : Eff} (h : Always P L) (hx : P L x) :
    Always P (L ++ [x]) := by
  intro a e b hab
  rcases List.eq_nil_or_concat b with hb | ⟨b', y, hb⟩
  · subst hb
    have := List.append_inj' hab (by simp)
    obtain ⟨h1, h2⟩ := this
    subst h1
    simp only [List.cons.injEq, and_true] at h2
    subst h2
    exact hx
  · subst hb
    have h2 : L ++ [x] = (a ++ e :: b') ++ [y] := by rw [hab]; simp
    have := List.append_inj' h2 (by simp)
    exact h a e b' this.1

theorem Settled.passed {i d L} (h : Settled i d L) : Passed i d L := by
  obtain ⟨r, h1, h2⟩ := h
  exact ⟨r, h1, fun hr => (h2 hr).1⟩

theorem Settled.mono {i d L M} (h : Settled i d L) (hm : ∀ e ∈ L, e ∈ M) : Settled i d M := by
  obtain ⟨r, h1, h2⟩ := h
  refine ⟨r, hm _ h1, fun hr => ⟨fun hd => ?_, ?_⟩⟩
  · obtain ⟨st, o, h3⟩ := (h2 hr).1 hd
    exact ⟨st, o, hm _ h3⟩
  · obtain ⟨w, h3⟩ := (h2 hr).2
    exact ⟨w, hm _ h3⟩

def Good (c : Config) (past : List Eff) : Eff → Prop
  | .dispatch _ _ _ =>
    (∀ i st d, Eff.dispatch i st d ∈ past → Settled i d past) ∧ ∀ i e, Eff.answer i (.error e) ∉ past
  | .answer i _ => ∀ r, Eff.answer i r ∉ past
  | .dataset i st _ =>
    Eff.dispatch i st true ∈ past ∧ Eff.answer i (.ok true) ∈ past ∧ ∀ st' o', Eff.dataset i st' (.returned o') ∉ past
  | .unpin i => ∃ r, Eff.answer i r ∈ past
  | .handed i => Eff.unpin i ∈ past
  | .waited _ _ => True
  | .ret .wait r =>
    (∀ i e, Eff.answer i (.error e) ∈ past → r = .error e) ∧
    ∀ b, r = .ok b → (∀ i st d, Eff.dispatch i st d ∈ past → Settled i d past) ∧
      ((∃ x, past.getLast? = some (.waited x (.ok ()))) ∨ ∃ i, Eff.answer i (.ok false) ∈ past)
  | .ret .close r =>
    (∀ i e, Eff.answer i (.error e) ∈ past → r = .error e) ∧
    ∀ b, r = .ok b → ∀ i st d, Eff.dispatch i st d ∈ past → Settled i d past
  | .ret .check r => ∀ i e, Eff.answer i (.error e) ∈ past → Eff.handed i ∈ past → r = .error e
  | .ret .poll r => r = .ok false → ∀ i st d, Eff.dispatch i st d ∈ past → Passed i d past
  | .ret (.save _ _) r =>
    (∀ i e, Eff.answer i (.error e) ∈ past → r ≠ .ok true) ∧
    (c.async = false → r = .ok true → ∀ i st d, Eff.dispatch i st d ∈ past → Settled i d past)

def result : Phase → Option Answer
  | .waiting => none
  | .ready r => some r
  | .released r => some r
  | .done r => some r

/-- What the log says about the pending save. -/
structure PendOk (p : Pending) (L : List Eff) : Prop where
  disp : Eff.dispatch p.id p.step p.data ∈ L
  ans : ∀ r, Eff.answer p.id r ∈ L ↔ result p.phase = some r
  handed : Eff.handed p.id ∈ L ↔ ∃ r, p.phase = .done r
  unpin : ∀ r, p.phase = .released r → Eff.unpin p.id ∈ L
  saved : ∀ b, p.saved = some b →
    p.phase = .done (.ok b) ∧ (b = true → p.data = true → ∃ st o, Eff.dataset p.id st (.returned o) ∈ L)
  unsaved : p.saved = none → ∀ st o, Eff.dataset p.id st (.returned o) ∉ L

/-- What the log says about the state. -/
structure J (s : State) : Prop where
  freshD : ∀ i st d, Eff.dispatch i st d ∈ s.log → i < s.next
  freshA : ∀ i r, Eff.answer i r ∈ s.log → i < s.next
  freshH : ∀ i, Eff.handed i ∈ s.log → i < s.next
  freshS : ∀ i st o, Eff.dataset i st o ∈ s.log → i < s.next
  acc : ∀ i st d, Eff.dispatch i st d ∈ s.log →
    Settled i d s.log ∨ ∃ p, s.pending = some p ∧ p.id = i ∧ p.data = d
  err : ∀ i e, Eff.answer i (.error e) ∈ s.log →
    ∃ p, s.pending = some p ∧ p.id = i ∧ result p.phase = some (.error e)
  pend : ∀ p, s.pending = some p → PendOk p s.log

theorem J.all {s : State} (h : J s) (hn : s.pending = none) :
    (∀ i st d, Eff.dispatch i st d ∈ s.log → Settled i d s.log) ∧ ∀ i e, Eff.answer i (.error e) ∉ s.log := by
  constructor
  · intro i st d hd
    rcases h.acc i st d hd with h1 | ⟨p, hp, _⟩
    · exact h1
    · rw [hn] at hp; cases hp
  · intro i e he
    obtain ⟨p, hp, _⟩ := h.err i e he
    rw [hn] at hp; cases hp

structure Ok (c : Config) (s : State) : Prop where
  j : J s
  good : Always (Good c) s.log

/-- Effects that say nothing about a save. -/
def Plain : Eff → Prop
  | .waited _ _ => True
  | .ret _ _ => True
  | .unpin _ => True
  | _ => False

theorem mem_plain {x e : Eff} {L : List Eff} (hx : Plain x) (he : ¬ Plain e) : e ∈ L ++ [x] ↔ e ∈ L := by
  simp only [List.mem_append, List.mem_singleton]
  constructor
  · rintro (h | h)
    · exact h
    · subst h; exact absurd hx he
  · exact Or.inl

theorem J.emit {s : State} (h : J s) {x : Eff} (hx : Plain x) : J (emit x s) := by
  have hm : ∀ e ∈ s.log, e ∈ (Handoff.emit x s).log := fun e he => List.mem_append_left _ he
  constructor
  · intro i st d hd
    exact h.freshD i st d ((mem_plain hx (by simp [Plain])).1 hd)
  · intro i r hd
    exact h.freshA i r ((mem_plain hx (by simp [Plain])).1 hd)
  · intro i hd
    exact h.freshH i ((mem_plain hx (by simp [Plain])).1 hd)
  · intro i st o hd
    exact h.freshS i st o ((mem_plain hx (by simp [Plain])).1 hd)
  · intro i st d hd
    rcases h.acc i st d ((mem_plain hx (by simp [Plain])).1 hd) with h1 | h1
    · exact .inl (h1.mono hm)
    · exact .inr h1
  · intro i e he
    exact h.err i e ((mem_plain hx (by simp [Plain])).1 he)
  · intro p hp
    have hk := h.pend p hp
    constructor
    · exact hm _ hk.disp
    · intro r
      rw [← hk.ans r]
      exact mem_plain hx (by simp [Plain])
    · rw [← hk.handed]
      exact mem_plain hx (by simp [Plain])
    · intro r hr
      exact hm _ (hk.unpin r hr)
    · intro b hb
      refine ⟨(hk.saved b hb).1, fun h1 h2 => ?_⟩
      obtain ⟨st, o, h3⟩ := (hk.saved b hb).2 h1 h2
      exact ⟨st, o, hm _ h3⟩
    · intro hs st o hd
      exact hk.unsaved hs st o ((mem_plain hx (by simp [Plain])).1 hd)

theorem Ok.ret {c : Config} {s : State} (h : Ok c s) {x : Eff} (hx : Plain x) (hg : Good c s.log x) :
    Ok c (emit x s) := ⟨h.j.emit hx, h.good.snoc hg⟩

/-- Forgetting a pending save that is settled. -/
theorem J.clear {s : State} (h : J s) {p : Pending} (hp : s.pending = some p) {b : Bool} (hs : p.saved = some b)
    (hw : b = true → ∃ w, Eff.waited (some p.id) w ∈ s.log) : J { s with pending := none } := by
  have hk := h.pend p hp
  obtain ⟨hph, hdat⟩ := hk.saved b hs
  refine ⟨h.freshD, h.freshA, h.freshH, h.freshS, ?_, ?_, by intro q hq; cases hq⟩
  · intro i st d hd
    rcases h.acc i st d hd with h1 | ⟨q, hq, hi, hqd⟩
    · exact .inl h1
    · rw [hp] at hq; cases hq
      subst hi hqd
      exact .inl ⟨b, (hk.ans _).2 (by rw [hph]; rfl), fun hb => ⟨hdat hb, hw hb⟩⟩
  · intro i e he
    obtain ⟨q, hq, hi, hr⟩ := h.err i e he
    rw [hp] at hq; cases hq
    rw [hph] at hr
    simp [result] at hr

theorem move_ok {c : Config} {s : State} (m : Move) (h : Ok c s) : Ok c (move m s) := by
  cases hp : s.pending with
  | none => simp only [move, hp]; exact h
  | some p =>
    have hk := h.j.pend p hp
    have hlt := h.j.freshD _ _ _ hk.disp
    cases m with
    | arrive res =>
      cases hph : p.phase with
      | waiting =>
        simp only [move, hp, hph]
        have hnone : ∀ r, Eff.answer p.id r ∉ s.log := by
          intro r hr
          have := (hk.ans r).1 hr
          rw [hph] at this
          cases this
        have hsn : p.saved = none := by
          cases hs : p.saved with
          | none => rfl
          | some b => have := (hk.saved b hs).1; rw [hph] at this; cases this
        refine ⟨⟨?_, ?_, ?_, ?_, ?_, ?_, ?_⟩, h.good.snoc (by intro r; exact hnone r)⟩
        · intro i st d hd
          simp [emit] at hd
          exact h.j.freshD i st d hd
        · intro i r hd
          simp [emit] at hd
          rcases hd with hd | ⟨hd, _⟩
          · exact h.j.freshA i r hd
          · subst hd; exact hlt
        · intro i hd
          simp [emit] at hd
          exact h.j.freshH i hd
        · intro i st o hd
          simp [emit] at hd
          exact h.j.freshS i st o hd
        · intro i st d hd
          simp [emit] at hd
          rcases h.j.acc i st d hd with h1 | ⟨q, hq, hi, hqd⟩
          · exact .inl (h1.mono fun e he => List.mem_append_left _ he)
          · rw [hp] at hq; cases hq
            exact .inr ⟨_, rfl, hi, hqd⟩
        · intro i e hd
          simp [emit] at hd
          rcases hd with hd | ⟨hi, hd⟩
          · obtain ⟨q, hq, hi, hr⟩ := h.j.err i e hd
            rw [hp] at hq; cases hq
            rw [hph] at hr; cases hr
          · exact ⟨_, rfl, hi.symm, by simp [result, hd]⟩
        · intro q hq
          simp [emit] at hq
          subst hq
          refine ⟨?_, ?_, ?_, ?_, ?_, ?_⟩
          · simp [emit]; exact hk.disp
          · intro r
            simp [emit, result, hnone]
            constructor <;> exact Eq.symm
          · simp [emit]
            intro hh
            obtain ⟨r, hr⟩ := hk.handed.1 hh
            rw [hph] at hr; cases hr
          · intro r hr; cases hr
          · intro b hb
            simp [hsn] at hb
          · intro _ st o hd
            simp [emit] at hd
            exact hk.unsaved hsn st o hd
      | ready r => simp only [move, hp, hph]; exact h
      | released r => simp only [move, hp, hph]; exact h
      | done r => simp only [move, hp, hph]; exact h
    | release =>
      cases hph : p.phase with
      | ready r =>
        simp only [move, hp, hph]
        have h1 : Ok c (emit (.unpin p.id) s) :=
          h.ret (by simp [Plain]) ⟨r, (hk.ans r).2 (by rw [hph]; rfl)⟩
        have hk1 := h1.j.pend p hp
        refine ⟨⟨h1.j.freshD, h1.j.freshA, h1.j.freshH, h1.j.freshS, ?_, ?_, ?_⟩, h1.good⟩
        · intro i st d hd
          rcases h1.j.acc i st d hd with h2 | ⟨q, hq, hi, hqd⟩
          · exact .inl h2
          · simp [emit, hp] at hq; subst hq
            exact .inr ⟨_, rfl, hi, hqd⟩
        · intro i e hd
          obtain ⟨q, hq, hi, hr⟩ := h1.j.err i e hd
          simp [emit, hp] at hq; subst hq
          exact ⟨_, rfl, hi, by rw [hph] at hr; exact hr⟩
        · intro q hq
          simp [emit] at hq
          subst hq
          refine ⟨hk1.disp, ?_, ?_, ?_, ?_, hk1.unsaved⟩
          · intro r'
            have := hk1.ans r'
            rw [hph] at this
            exact this
          · constructor
            · intro hh
              obtain ⟨r', hr'⟩ := hk1.handed.1 hh
              rw [hph] at hr'; cases hr'
            · rintro ⟨r', hr'⟩; cases hr'
          · intro r' _
            simp [emit]
          · intro b hb
            have := (hk1.saved b hb).1
            rw [hph] at this; cases this
      | waiting => simp only [move, hp, hph]; exact h
      | released r => simp only [move, hp, hph]; exact h
      | done r => simp only [move, hp, hph]; exact h
    | publish =>
      cases hph : p.phase with
      | released r =>
        have hsn : p.saved = none := by
          cases hs : p.saved with
          | none => rfl
          | some b => have := (hk.saved b hs).1; rw [hph] at this; cases this
        have key : ∀ sv : Option Bool, (∀ b, sv = some b → r = .ok b ∧ (b = true → p.data = false)) →
            Ok c (emit (.handed p.id) { s with pending := some { p with phase := .done r, saved := sv } }) := by
          intro sv hsv
          refine ⟨⟨?_, ?_, ?_, ?_, ?_, ?_, ?_⟩, h.good.snoc (hk.unpin r hph)⟩
          · intro i st d hd
            simp [emit] at hd
            exact h.j.freshD i st d hd
          · intro i r hd
            simp [emit] at hd
            exact h.j.freshA i r hd
          · intro i hd
            simp [emit] at hd
            rcases hd with hd | hd
            · exact h.j.freshH i hd
            · subst hd; exact hlt
          · intro i st o hd
            simp [emit] at hd
            exact h.j.freshS i st o hd
          · intro i st d hd
            simp [emit] at hd
            rcases h.j.acc i st d hd with h1 | ⟨q, hq, hi, hqd⟩
            · exact .inl (h1.mono fun e he => List.mem_append_left _ he)
            · rw [hp] at hq; cases hq
              exact .inr ⟨_, rfl, hi, hqd⟩
          · intro i e hd
            simp [emit] at hd
            obtain ⟨q, hq, hi, hr⟩ := h.j.err i e hd
            rw [hp] at hq; cases hq
            exact ⟨_, rfl, hi, by rw [hph] at hr; exact hr⟩
          · intro q hq
            simp [emit] at hq
            subst hq
            refine ⟨?_, ?_, ?_, ?_, ?_, ?_⟩
            · simp [emit]; exact hk.disp
            · intro r'
              have := hk.ans r'
              rw [hph] at this
              simp only [emit, List.mem_append, List.mem_singleton, reduceCtorEq, or_false]
              exact this
            · simp [emit]
            · intro r' hr'; cases hr'
            · intro b hb
              obtain ⟨h1, h2⟩ := hsv b hb
              refine ⟨by rw [h1], fun hb' hd => ?_⟩
              rw [h2 hb'] at hd; cases hd
            · intro _ st o hd
              simp [emit] at hd
              exact hk.unsaved hsn st o hd
        cases r with
        | error e =>
          simp only [move, hp, hph]
          have := key p.saved (by rw [hsn]; intro b hb; cases hb)
          exact this
        | ok b =>
          simp only [move, hp, hph]
          apply key
          intro b' hb'
          by_cases hc : (!b || !p.data) = true
          · rw [if_pos hc] at hb'
            cases hb'
            refine ⟨rfl, fun hb => ?_⟩
            subst hb
            simpa using hc
          · rw [if_neg hc, hsn] at hb'; cases hb'
      | waiting => simp only [move, hp, hph]; exact h
      | ready r => simp only [move, hp, hph]; exact h
      | done r => simp only [move, hp, hph]; exact h

theorem moves_ok {c : Config} (ms : List Move) {s : State} (h : Ok c s) : Ok c (moves ms s) := by
  induction ms generalizing s with
  | nil => exact h
  | cons m ms ih => exact ih (move_ok m h)

/-- Setting `saved` of the pending save, when what it stands for has happened. -/
theorem setSaved_ok {c : Config} {s : State} (h : Ok c s) {p : Pending} (hp : s.pending = some p) {b : Bool}
    (hph : p.phase = .done (.ok b))
    (hd : b = true → p.data = true → ∃ st o, Eff.dataset p.id st (.returned o) ∈ s.log) :
    Ok c { s with pending := some { p with saved := some b } } := by
  have hk := h.j.pend p hp
  refine ⟨⟨h.j.freshD, h.j.freshA, h.j.freshH, h.j.freshS, ?_, ?_, ?_⟩, h.good⟩
  · intro i st d hd'
    rcases h.j.acc i st d hd' with h1 | ⟨q, hq, hi, hqd⟩
    · exact .inl h1
    · rw [hp] at hq; cases hq
      exact .inr ⟨_, rfl, hi, hqd⟩
  · intro i e he
    obtain ⟨q, hq, hi, hr⟩ := h.j.err i e he
    rw [hp] at hq; cases hq
    exact ⟨_, rfl, hi, hr⟩
  · intro q hq
    cases hq
    refine ⟨hk.disp, hk.ans, hk.handed, hk.unpin, ?_, ?_⟩
    · intro b' hb'
      cases hb'
      exact ⟨hph, hd⟩
    · intro hn; cases hn

/-- Recording an attempt to save the dataset. -/
theorem dataset_raised_ok {c : Config} {s : State} (h : Ok c s) {p : Pending} (hp : s.pending = some p)
    (hs : p.saved = none) (hph : p.phase = .done (.ok true)) (hd : p.data = true) (e : Nat) :
    Ok c (emit (.dataset p.id p.step (.raised e)) s) := by
  have hk := h.j.pend p hp
  have hg : Good c s.log (.dataset p.id p.step (.raised e)) :=
    ⟨hd ▸ hk.disp, (hk.ans _).2 (by rw [hph]; rfl), hk.unsaved hs⟩
  refine ⟨⟨?_, ?_, ?_, ?_, ?_, ?_, ?_⟩, h.good.snoc hg⟩
  · intro i st d hd
    simp [emit] at hd
    exact h.j.freshD i st d hd
  · intro i r hd
    simp [emit] at hd
    exact h.j.freshA i r hd
  · intro i hd
    simp [emit] at hd
    exact h.j.freshH i hd
  · intro i st o hd
    simp [emit] at hd
    rcases hd with hd | ⟨hd, _⟩
    · exact h.j.freshS i st o hd
    · subst hd; exact h.j.freshD _ _ _ hk.disp
  · intro i st d hd
    simp [emit] at hd
    rcases h.j.acc i st d hd with h1 | h1
    · exact .inl (h1.mono fun e he => List.mem_append_left _ he)
    · exact .inr h1
  · intro i e hd
    simp [emit] at hd
    exact h.j.err i e hd
  · intro q hq
    have hq' : s.pending = some q := hq
    rw [hp] at hq'; cases hq'
    refine ⟨?_, ?_, ?_, ?_, ?_, ?_⟩
    · simp [emit]; exact hk.disp
    · intro r
      simp only [emit, List.mem_append, List.mem_singleton, reduceCtorEq, or_false]
      exact hk.ans r
    · simp only [emit, List.mem_append, List.mem_singleton, reduceCtorEq, or_false]
      exact hk.handed
    · intro r hr
      exact List.mem_append_left _ (hk.unpin r hr)
    · intro b hb
      rw [hs] at hb; cases hb
    · intro _ st o hd
      simp [emit] at hd
      exact hk.unsaved hs st o hd

theorem dataset_returned_ok {c : Config} {s : State} (h : Ok c s) {p : Pending} (hp : s.pending = some p)
    (hs : p.saved = none) (hph : p.phase = .done (.ok true)) (hd : p.data = true) (b : Bool) :
    Ok c (emit (.dataset p.id p.step (.returned b)) { s with pending := some { p with saved := some true } }) := by
  have hk := h.j.pend p hp
  have hg : Good c s.log (.dataset p.id p.step (.returned b)) :=
    ⟨hd ▸ hk.disp, (hk.ans _).2 (by rw [hph]; rfl), hk.unsaved hs⟩
  refine ⟨⟨?_, ?_, ?_, ?_, ?_, ?_, ?_⟩, h.good.snoc hg⟩
  · intro i st d hd
    simp [emit] at hd
    exact h.j.freshD i st d hd
  · intro i r hd
    simp [emit] at hd
    exact h.j.freshA i r hd
  · intro i hd
    simp [emit] at hd
    exact h.j.freshH i hd
  · intro i st o hd
    simp [emit] at hd
    rcases hd with hd | ⟨hd, _⟩
    · exact h.j.freshS i st o hd
    · subst hd; exact h.j.freshD _ _ _ hk.disp
  · intro i st d hd
    simp [emit] at hd
    rcases h.j.acc i st d hd with h1 | ⟨q, hq, hi, hqd⟩
    · exact .inl (h1.mono fun e he => List.mem_append_left _ he)
    · rw [hp] at hq; cases hq
      exact .inr ⟨_, rfl, hi, hqd⟩
  · intro i e hd
    simp [emit] at hd
    obtain ⟨q, hq, hi, hr⟩ := h.j.err i e hd
    rw [hp] at hq; cases hq
    exact ⟨_, rfl, hi, hr⟩
  · intro q hq
    simp [emit] at hq
    subst hq
    refine ⟨?_, ?_, ?_, ?_, ?_, ?_⟩
    · simp [emit]; exact hk.disp
    · intro r
      simp only [emit, List.mem_append, List.mem_singleton, reduceCtorEq, or_false]
      exact hk.ans r
    · simp only [emit, List.mem_append, List.mem_singleton, reduceCtorEq, or_false]
      exact hk.handed
    · intro r hr
      exact List.mem_append_left _ (hk.unpin r hr)
    · intro b' hb'
      cases hb'
      exact ⟨hph, fun _ _ => ⟨p.step, b, by simp [emit]⟩⟩
    · intro hn; cases hn

/-- What a drain leaves. -/
theorem drain_ok {c : Config} {w : Bool} {o : Outcome} {s s' : State} {r : Answer} (h : Ok c s)
    (hr : drain w o s = some (r, s')) :
    Ok c s' ∧
    (∀ b, r = .ok b → (s.pending = none ∧ s' = s) ∨
      ∃ p p', s.pending = some p ∧ s'.pending = some p' ∧ p'.id = p.id ∧ (w = true → p'.saved = some b)) ∧
    (∀ e, r = .error e → ∃ p, s'.pending = some p ∧ (p.phase = .done (.error e) ∨ p.phase = .done (.ok true))) := by
  simp only [drain] at hr
  cases hp : s.pending with
  | none =>
    simp only [hp] at hr
    cases hr
    exact ⟨h, fun _ _ => .inl ⟨rfl, rfl⟩, fun e he => by cases he⟩
  | some p =>
    have hk := h.j.pend p hp
    simp only [hp] at hr
    cases hs : p.saved with
    | some b =>
      simp only [hs] at hr
      cases hr
      refine ⟨h, fun b' hb' => .inr ⟨p, p, rfl, hp, rfl, fun _ => ?_⟩, fun e he => by cases he⟩
      cases hb'; exact hs
    | none =>
      simp only [hs] at hr
      have hwait : ∀ {q : Option (Answer × State)}, (q = if w then none else some (.ok false, s)) →
          q = some (r, s') → Ok c s' ∧
          (∀ b, r = .ok b → (some p = none ∧ s' = s) ∨
            ∃ p0 p', some p = some p0 ∧ s'.pending = some p' ∧ p'.id = p0.id ∧ (w = true → p'.saved = some b)) ∧
          (∀ e, r = .error e →
            ∃ p, s'.pending = some p ∧ (p.phase = .done (.error e) ∨ p.phase = .done (.ok true))) := by
        intro q hq hq'
        rw [hq] at hq'
        cases w with
        | true => simp at hq'
        | false =>
          simp at hq'
          obtain ⟨h1, h2⟩ := hq'
          subst h1 h2
          exact ⟨h, fun b _ => .inr ⟨p, p, rfl, hp, rfl, fun hw => by cases hw⟩, fun e he => by cases he⟩
      cases hph : p.phase with
      | waiting => simp only [hph] at hr; exact hwait rfl hr
      | ready a => simp only [hph] at hr; exact hwait rfl hr
      | released a => simp only [hph] at hr; exact hwait rfl hr
      | done a =>
        cases a with
        | error e =>
          simp only [hph] at hr
          cases hr
          exact ⟨h, fun b hb => by (cases hb), fun e' he' => ⟨p, hp, .inl (by cases he'; exact hph)⟩⟩
        | ok b =>
          cases b with
          | false =>
            simp only [hph] at hr
            cases hr
            refine ⟨?_, fun b hb => .inr ⟨p, _, rfl, rfl, rfl, fun _ => ?_⟩, fun e he => by cases he⟩
            · have := setSaved_ok h hp hph (by intro hb; cases hb)
              simpa only [hph, hp] using this
            · cases hb; rfl
          | true =>
            simp only [hph] at hr
            cases hd : p.data with
            | false =>
              rw [hd] at hr
              simp only [Bool.false_eq_true, if_false] at hr
              cases hr
              refine ⟨?_, fun b hb => .inr ⟨p, _, rfl, rfl, rfl, fun _ => ?_⟩, fun e he => by cases he⟩
              · have := setSaved_ok h hp hph (by intro _ hx; rw [hd] at hx; cases hx)
                simpa only [hph, hp, hd] using this
              · cases hb; rfl
            | true =>
              rw [hd] at hr
              simp only [if_true] at hr
              cases o with
              | raised e =>
                cases hr
                refine ⟨?_, fun b hb => by (cases hb), fun e' he' => ⟨p, hp, .inr hph⟩⟩
                have := dataset_raised_ok h hp hs hph hd e
                simpa using this
              | returned b =>
                cases hr
                refine ⟨?_, fun b hb => .inr ⟨p, _, rfl, rfl, rfl, fun _ => ?_⟩, fun e he => by cases he⟩
                · have := dataset_returned_ok h hp hs hph hd b
                  simpa only [hph, hp, hd] using this
                · cases hb; rfl

/-- What finishing leaves. -/
theorem finish_ok {c : Config} {f : FinEnv} {s s' : State} {r : Answer} (h : Ok c s) (hr : finish f s = some (r, s')) :
    Ok c s' ∧
    (∀ b, r = .ok b → s'.pending = none ∧ ((s.pending = none ∧ s' = s) ∨
      (b = true ∧ ∃ x, s'.log.getLast? = some (.waited x (.ok ()))) ∨
      (b = false ∧ ∃ i, Eff.answer i (.ok false) ∈ s'.log))) ∧
    (∀ e, r = .error e → s'.pending = none ∨
      ∃ p, s'.pending = some p ∧ (p.phase = .done (.error e) ∨ p.phase = .done (.ok true))) := by
  simp only [finish] at hr
  cases hp : s.pending with
  | none =>
    simp only [hp] at hr
    cases hr
    exact ⟨h, fun b _ => ⟨hp, .inl ⟨rfl, rfl⟩⟩, fun e he => by cases he⟩
  | some p =>
    simp only [hp] at hr
    cases hd : drain true f.persist s with
    | none => simp [hd] at hr
    | some x =>
      obtain ⟨a, s1⟩ := x
      obtain ⟨h1, h2, h3⟩ := drain_ok h hd
      cases a with
      | error e =>
        simp only [hd] at hr
        cases hr
        exact ⟨h1, fun b hb => by (cases hb), fun e' he' => .inr (h3 e' he')⟩
      | ok b =>
        simp only [hd] at hr
        rcases h2 b rfl with ⟨hn, _⟩ | ⟨q, p', hq, hp', hid, hsv⟩
        · rw [hp] at hn; cases hn
        · rw [hp] at hq; cases hq
          have hsv := hsv rfl
          cases b with
          | false =>
            simp only [settle, Bool.false_eq_true, if_false] at hr
            cases hr
            refine ⟨⟨h1.j.clear hp' hsv (by intro hb; cases hb), h1.good⟩, fun b hb => ⟨rfl, ?_⟩, fun e he => by cases he⟩
            have hk := h1.j.pend p' hp'
            refine .inr (.inr ⟨by cases hb; rfl, p'.id, (hk.ans _).2 ?_⟩)
            rw [(hk.saved _ hsv).1]; rfl
          | true =>
            have h4 : ∀ wr, Ok c { emit (.waited (some p.id) wr) s1 with pending := none } := by
              intro wr
              have h5 := h1.ret (x := .waited (some p.id) wr) (by simp [Plain]) trivial
              exact ⟨h5.j.clear (p := p') hp' hsv (fun _ => ⟨wr, by rw [hid]; simp [emit]⟩), h5.good⟩
            cases hw : f.wait with
            | error e =>
              simp only [settle, if_true, hw] at hr
              cases hr
              exact ⟨h4 _, fun b hb => by (cases hb), fun _ _ => .inl rfl⟩
            | ok u =>
              simp only [settle, if_true, hw] at hr
              cases hr
              refine ⟨h4 _, fun b hb => ⟨rfl, .inr (.inl ⟨by cases hb; rfl, some p.id, ?_⟩)⟩, fun e he => by cases he⟩
              simp [emit]

theorem launch_ok {c : Config} {st : Nat} {d : Bool} {v : Env} {s s' : State} {r : Answer} (h : Ok c s)
    (hn : s.pending = none) (hr : launch c st d v s = some (r, s')) :
    Ok c s' ∧ (∀ i e, Eff.answer i (.error e) ∈ s'.log → r ≠ .ok true) ∧
    (c.async = false → r = .ok true → s'.pending = none) := by
  simp only [launch] at hr
  cases hv : v.prepare with
  | error e =>
    simp only [hv] at hr
    cases hr
    exact ⟨h, fun i e he => absurd he ((h.j.all hn).2 i e), fun _ hx => by cases hx⟩
  | ok u =>
    simp only [hv] at hr
    have h1 : Ok c (emit (.dispatch s.next st d)
        { s with pending := some ⟨s.next, st, d, .waiting, none⟩, next := s.next + 1 }) := by
      refine ⟨⟨?_, ?_, ?_, ?_, ?_, ?_, ?_⟩, h.good.snoc (h.j.all hn)⟩
      · intro i st' d' hd
        simp [emit] at hd ⊢
        rcases hd with hd | ⟨hd, _⟩
        · have := h.j.freshD i st' d' hd; omega
        · omega
      · intro i r hd
        simp [emit] at hd ⊢
        have := h.j.freshA i r hd; omega
      · intro i hd
        simp [emit] at hd ⊢
        have := h.j.freshH i hd; omega
      · intro i st' o hd
        simp [emit] at hd ⊢
        have := h.j.freshS i st' o hd; omega
      · intro i st' d' hd
        simp [emit] at hd
        rcases hd with hd | ⟨hi, _, hd⟩
        · exact .inl (((h.j.all hn).1 i st' d' hd).mono fun e he => List.mem_append_left _ he)
        · exact .inr ⟨_, rfl, hi.symm, hd.symm⟩
      · intro i e hd
        simp [emit] at hd
        exact absurd hd ((h.j.all hn).2 i e)
      · intro q hq
        simp [emit] at hq
        subst hq
        refine ⟨by simp [emit], ?_, ?_, ?_, ?_, ?_⟩
        · intro r
          simp [emit, result]
          intro hd
          have := h.j.freshA _ _ hd; omega
        · simp [emit]
          intro hd
          have := h.j.freshH _ hd; omega
        · intro r hr; cases hr
        · intro b hb; cases hb
        · intro _ st' o hd
          simp [emit] at hd
          have := h.j.freshS _ _ _ hd; omega
    cases hc : c.async with
    | true =>
      simp only [hc, if_true] at hr
      cases hr
      refine ⟨h1, fun i e he => ?_, fun hx => by cases hx⟩
      simp [emit] at he
      exact absurd he ((h.j.all hn).2 i e)
    | false =>
      simp only [hc, Bool.false_eq_true, if_false] at hr
      obtain ⟨h2, h3, _⟩ := finish_ok (moves_ok v.during h1) hr
      exact ⟨h2, fun i e he hx => (h2.j.all (h3 _ hx).1).2 i e he, fun _ hx => (h3 _ hx).1⟩

end Verif.Emergency.Handoff
