import Verif.Futures.SyncValue

/-!
# Properties of a value synchronised between processes (C124)
-/

namespace Verif.Futures.SyncValue

/-! ### The invariant -/

/-- What holds of process `p`. -/
structure Inv {V : Type} (n : Nat) (prog : Nat → List V) (v0 : V) (s : State V) (p : Nat) : Prop where
  le : (s p).begun ≤ (prog p).length
  count : match (s p).stage with
    | .idle => (s p).writes = (s p).begun
    | .atStart => (s p).writes + 1 = (s p).begun
    | .past => (s p).writes + 1 = (s p).begun
    | .atEnd => (s p).writes = (s p).begun
    | .failed => (s p).writes ≤ (s p).begun
  val : (v0 :: prog p)[(s p).writes]? = some (s p).val
  started : (s p).stage = .past ∨ (s p).stage = .atEnd → ∀ q, q < n → (s p).begun ≤ (s q).begun
  ended : (s p).stage ≠ .atEnd → (s p).stage ≠ .failed → ∀ q, q < n → (s p).writes ≤ (s q).writes
  begunAll : ∀ q, q < n → (s p).writes ≤ (s q).begun

theorem put_same {V : Type} (s : State V) (p : Nat) (x : Proc V) : put s p x p = x := by simp [put]

theorem put_other {V : Type} (s : State V) {p q : Nat} (x : Proc V) (h : q ≠ p) : put s p x q = s q := by
  simp [put, h]

/-- No step takes anything back. -/
theorem mono {V : Type} {n : Nat} {prog : Nat → List V} {s t : State V} (h : Step n prog s t) (q : Nat) :
    (s q).begun ≤ (t q).begun ∧ (s q).writes ≤ (t q).writes := by
  cases h <;> simp only [put] <;> split <;> (try subst_vars) <;> simp

theorem monoSteps {V : Type} {n : Nat} {prog : Nat → List V} {s t : State V} (h : Steps n prog s t) (q : Nat) :
    (s q).begun ≤ (t q).begun ∧ (s q).writes ≤ (t q).writes := by
  induction h with
  | refl => exact ⟨Nat.le_refl _, Nat.le_refl _⟩
  | tail _ h' ih =>
    have := mono h' q
    omega

/-- A process that does not move keeps what holds of it. -/
theorem inv_frame {V : Type} {n : Nat} {prog : Nat → List V} {v0 : V} {s t : State V} {p : Nat}
    (hi : Inv n prog v0 s p) (h : Step n prog s t) (he : t p = s p) : Inv n prog v0 t p := by
  obtain ⟨h1, h2, h3, h4, h5, h6⟩ := hi
  refine ⟨he ▸ h1, ?_, he ▸ h3, ?_, ?_, ?_⟩
  · rw [he]; exact h2
  · rw [he]; exact fun hs q hq => Nat.le_trans (h4 hs q hq) (mono h q).1
  · rw [he]; exact fun hs hs' q hq => Nat.le_trans (h5 hs hs' q hq) (mono h q).2
  · rw [he]; exact fun q hq => Nat.le_trans (h6 q hq) (mono h q).1

theorem inv_step {V : Type} {n : Nat} {prog : Nat → List V} {v0 : V} {s t : State V}
    (hi : ∀ p, p < n → Inv n prog v0 s p) (h : Step n prog s t) : ∀ p, p < n → Inv n prog v0 t p := by
  intro r hr
  have hm := mono h
  cases h with
  | @begin p hp hs hl =>
    by_cases e : r = p
    · subst e
      obtain ⟨h1, h2, h3, h4, h5, h6⟩ := hi r hr
      rw [hs] at h2
      refine ⟨?_, ?_, ?_, ?_, ?_, ?_⟩ <;> rw [put_same] <;> dsimp only
      · omega
      · have : (s r).writes = (s r).begun := h2
        omega
      · exact h3
      · rintro (h | h) <;> cases h
      · exact fun _ _ q hq => Nat.le_trans (h5 (by simp [hs]) (by simp [hs]) q hq) (hm q).2
      · exact fun q hq => Nat.le_trans (h6 q hq) (hm q).1
    · exact inv_frame (hi r hr) (.begin hp hs hl) (put_other _ _ e)
  | @passStart p hp hs hb =>
    by_cases e : r = p
    · subst e
      obtain ⟨h1, h2, h3, h4, h5, h6⟩ := hi r hr
      rw [hs] at h2
      refine ⟨?_, ?_, ?_, ?_, ?_, ?_⟩ <;> rw [put_same] <;> dsimp only
      · exact h1
      · exact h2
      · exact h3
      · exact fun _ q hq => Nat.le_trans (hb q hq) (hm q).1
      · exact fun _ _ q hq => Nat.le_trans (h5 (by simp [hs]) (by simp [hs]) q hq) (hm q).2
      · exact fun q hq => Nat.le_trans (h6 q hq) (hm q).1
    · exact inv_frame (hi r hr) (.passStart hp hs hb) (put_other _ _ e)
  | @write p v hp hs hv =>
    by_cases e : r = p
    · subst e
      obtain ⟨h1, h2, h3, h4, h5, h6⟩ := hi r hr
      rw [hs] at h2
      have h2' : (s r).writes + 1 = (s r).begun := h2
      refine ⟨?_, ?_, ?_, ?_, ?_, ?_⟩ <;> rw [put_same] <;> dsimp only
      · exact h1
      · exact h2'
      · rw [List.getElem?_cons_succ]
        rw [← h2'] at hv
        exact hv
      · exact fun _ q hq => Nat.le_trans (h4 (.inl hs) q hq) (hm q).1
      · exact fun h => absurd rfl h
      · intro q hq
        have h7 := h4 (.inl hs) q hq
        exact Nat.le_trans (Nat.le_trans (Nat.le_of_eq h2') h7) (hm q).1
    · exact inv_frame (hi r hr) (.write hp hs hv) (put_other _ _ e)
  | @passEnd p hp hs hb =>
    by_cases e : r = p
    · subst e
      obtain ⟨h1, h2, h3, h4, h5, h6⟩ := hi r hr
      rw [hs] at h2
      refine ⟨?_, ?_, ?_, ?_, ?_, ?_⟩ <;> rw [put_same] <;> dsimp only
      · exact h1
      · exact h2
      · exact h3
      · rintro (h | h) <;> cases h
      · exact fun _ _ q hq => Nat.le_trans (hb q hq) (hm q).2
      · exact fun q hq => Nat.le_trans (h6 q hq) (hm q).1
    · exact inv_frame (hi r hr) (.passEnd hp hs hb) (put_other _ _ e)
  | @lateStart p hp hs =>
    by_cases e : r = p
    · subst e
      obtain ⟨h1, h2, h3, h4, h5, h6⟩ := hi r hr
      rw [hs] at h2
      have h2' : (s r).writes + 1 = (s r).begun := h2
      refine ⟨?_, ?_, ?_, ?_, ?_, ?_⟩ <;> rw [put_same] <;> dsimp only
      · exact h1
      · omega
      · exact h3
      · rintro (h | h) <;> cases h
      · exact fun _ h => absurd rfl h
      · exact fun q hq => Nat.le_trans (h6 q hq) (hm q).1
    · exact inv_frame (hi r hr) (.lateStart hp hs) (put_other _ _ e)
  | @lateEnd p hp hs =>
    by_cases e : r = p
    · subst e
      obtain ⟨h1, h2, h3, h4, h5, h6⟩ := hi r hr
      rw [hs] at h2
      have h2' : (s r).writes = (s r).begun := h2
      refine ⟨?_, ?_, ?_, ?_, ?_, ?_⟩ <;> rw [put_same] <;> dsimp only
      · exact h1
      · omega
      · exact h3
      · rintro (h | h) <;> cases h
      · exact fun _ h => absurd rfl h
      · exact fun q hq => Nat.le_trans (h6 q hq) (hm q).1
    · exact inv_frame (hi r hr) (.lateEnd hp hs) (put_other _ _ e)

theorem inv_steps {V : Type} {n : Nat} {prog : Nat → List V} {v0 : V} {s : State V}
    (h : Steps n prog (init v0) s) : ∀ p, p < n → Inv n prog v0 s p := by
  induction h with
  | refl =>
    intro p _
    exact ⟨Nat.zero_le _, rfl, rfl, (by rintro (h | h) <;> cases h), fun _ _ _ _ => Nat.le_refl _,
      fun _ _ => Nat.le_refl _⟩
  | tail _ h' ih => exact inv_step ih h'

theorem Steps.trans {V : Type} {n : Nat} {prog : Nat → List V} {s t u : State V} (h : Steps n prog s t)
    (h' : Steps n prog t u) : Steps n prog s u := by
  induction h' with
  | refl => exact h
  | tail _ h2 ih => exact .tail ih h2

/-! ### One value for all processes -/

/-- C124: Reads never go back, across processes: if a `get` in process `p` returns the value of the i-th `set` (the
value of the constructor is that of the 0th), then no later `get` in any process returns the value of an earlier one.
It is enough that `p` has had no error. -/
theorem C124_order {V : Type} {n : Nat} {prog : Nat → List V} {vals : List V} {v0 : V} {s t : State V} {p q : Nat}
    {v w : V} (hsame : ∀ r, r < n → prog r = vals) (hp : p < n) (hq : q < n) (h : Steps n prog (init v0) s)
    (hf : (s p).stage ≠ .failed) (hg : Get s p v) (h' : Steps n prog s t) (hg' : Get t q w) :
    ∃ i j, i ≤ j ∧ (v0 :: vals)[i]? = some v ∧ (v0 :: vals)[j]? = some w ∧ i = (s p).writes ∧ j = (t q).writes := by
  have hi := inv_steps h p hp
  have hj := inv_steps (h.trans h') q hq
  cases hg with
  | free ha =>
    cases hg' with
    | free hb =>
      refine ⟨_, _, ?_, ?_, ?_, rfl, rfl⟩
      · exact Nat.le_trans (hi.ended ha hf q hq) (monoSteps h' q).2
      · rw [← hsame p hp]; exact hi.val
      · rw [← hsame q hq]; exact hj.val

/-- C124: When the k-th `set` has returned in some process, every `get` in every process returns the value of the k-th
or a later `set`. -/
theorem C124_returned {V : Type} {n : Nat} {prog : Nat → List V} {vals : List V} {v0 : V} {s t : State V}
    {p q k : Nat} {w : V} (hsame : ∀ r, r < n → prog r = vals) (hp : p < n) (hq : q < n)
    (h : Steps n prog (init v0) s) (hr : (s p).stage = .idle) (hk : (s p).begun = k) (h' : Steps n prog s t)
    (hg : Get t q w) :
    ∃ j, k ≤ j ∧ j ≤ (t q).begun ∧ (v0 :: vals)[j]? = some w := by
  have hi := inv_steps h p hp
  have hj := inv_steps (h.trans h') q hq
  cases hg with
  | free hb =>
    have hc := hi.count
    rw [hr] at hc
    have hc' : (s p).writes = (s p).begun := hc
    refine ⟨_, ?_, hj.begunAll q hq, ?_⟩
    · have := hi.ended (by simp [hr]) (by simp [hr]) q hq
      have := (monoSteps h' q).2
      omega
    · rw [← hsame q hq]; exact hj.val

/-- C124: When the k-th `set` has returned in some process and no process has called `set` again, all processes have
the same value, the k-th. -/
theorem C124_agree {V : Type} {n : Nat} {prog : Nat → List V} {vals : List V} {v0 : V} {s : State V}
    {p q k : Nat} {w : V} (hsame : ∀ r, r < n → prog r = vals) (hp : p < n) (hq : q < n)
    (h : Steps n prog (init v0) s) (hr : (s p).stage = .idle) (hk : (s p).begun = k) (hn : (s q).begun ≤ k)
    (hg : Get s q w) : (v0 :: vals)[k]? = some w := by
  obtain ⟨j, h1, h2, h3⟩ := C124_returned hsame hp hq h hr hk (.refl _) hg
  have : j = k := by omega
  rw [← this]; exact h3

/-- C124: A value is not seen before every process has called the `set` of it. -/
theorem C124_not_early {V : Type} {n : Nat} {prog : Nat → List V} {v0 : V} {s : State V} {p q : Nat} (hp : p < n)
    (hq : q < n) (h : Steps n prog (init v0) s) {w : V} (hg : Get s p w) :
    ∃ j, j ≤ (s q).begun ∧ (v0 :: prog p)[j]? = some w := by
  have hi := inv_steps h p hp
  cases hg with
  | free => exact ⟨_, hi.begunAll q hq, hi.val⟩

/-! ### All calls can return -/

/-- How far a process is. -/
def progress {V : Type} (x : Proc V) : Nat :=
  4 * x.begun + match x.stage with
    | .atStart => 0
    | .past => 1
    | .atEnd => 2
    | .idle => 3
    | .failed => 0

/-- The sum over the processes. -/
def total (f : Nat → Nat) : Nat → Nat
  | 0 => 0
  | n + 1 => total f n + f n

theorem total_le {f g : Nat → Nat} : ∀ {n : Nat}, (∀ q, q < n → g q ≤ f q) → total g n ≤ total f n
  | 0, _ => Nat.le_refl _
  | n + 1, h => by
    have := total_le (n := n) (fun q hq => h q (by omega))
    have := h n (by omega)
    simp only [total]; omega

theorem total_lt {f g : Nat → Nat} {p : Nat} : ∀ {n : Nat}, p < n → (∀ q, q < n → g q ≤ f q) → g p < f p →
    total g n < total f n
  | 0, h, _, _ => absurd h (by omega)
  | n + 1, hp, h, hl => by
    simp only [total]
    by_cases e : p = n
    · have := total_le (n := n) (fun q hq => h q (by omega))
      subst e; omega
    · have := total_lt (n := n) (by omega) (fun q hq => h q (by omega)) hl
      have := h n (by omega)
      omega

theorem exists_least (f : Nat → Nat) : ∀ {n : Nat}, 0 < n → ∃ p, p < n ∧ ∀ q, q < n → f p ≤ f q
  | 0, h => absurd h (by omega)
  | 1, _ => ⟨0, by omega, fun q hq => by have : q = 0 := by omega
                                         subst this; omega⟩
  | n + 2, _ => by
    obtain ⟨p, h1, h2⟩ := exists_least f (n := n + 1) (by omega)
    by_cases e : f p ≤ f (n + 1)
    · refine ⟨p, by omega, fun q hq => ?_⟩
      by_cases e' : q = n + 1
      · subst e'; exact e
      · exact h2 q (by omega)
    · refine ⟨n + 1, by omega, fun q hq => ?_⟩
      by_cases e' : q = n + 1
      · subst e'; omega
      · have := h2 q (by omega); omega

/-- The process that is least far can go on. -/
theorem least_moves {V : Type} {n : Nat} {prog : Nat → List V} {v0 : V} {s : State V} {p L : Nat}
    (hi : ∀ q, q < n → Inv n prog v0 s q) (hL : ∀ q, q < n → (prog q).length = L) (hp : p < n)
    (hnf : ∀ q, q < n → (s q).stage ≠ .failed) (hl : ∀ q, q < n → progress (s p) ≤ progress (s q))
    (hlt : progress (s p) < 4 * L + 3) :
    ∃ x, Step n prog s (put s p x) ∧ x.stage ≠ .failed ∧ progress x = progress (s p) + 1 := by
  have hmatch : ∀ q, progress (s q) ≤ 4 * (s q).begun + 3 := by
    intro q; unfold progress; cases (s q).stage <;> simp
  cases hs : (s p).stage with
  | idle =>
    have hpr : progress (s p) = 4 * (s p).begun + 3 := by unfold progress; rw [hs]
    refine ⟨_, .begin hp hs ?_, by simp, ?_⟩
    · rw [hL p hp]; omega
    · rw [hpr]; simp only [progress]; omega
  | atStart =>
    have hpr : progress (s p) = 4 * (s p).begun := by unfold progress; rw [hs]; rfl
    refine ⟨_, .passStart hp hs ?_, by simp, ?_⟩
    · intro q hq
      have h1 := hl q hq
      have h2 := hmatch q
      omega
    · rw [hpr]; simp only [progress]
  | past =>
    have hpr : progress (s p) = 4 * (s p).begun + 1 := by unfold progress; rw [hs]
    have hc := (hi p hp).count
    rw [hs] at hc
    have hc' : (s p).writes + 1 = (s p).begun := hc
    have hlen := (hi p hp).le
    refine ⟨_, .write (v := (prog p)[(s p).begun - 1]'(by omega)) hp hs (List.getElem?_eq_getElem _), by simp, ?_⟩
    rw [hpr]; simp only [progress]
  | atEnd =>
    have hpr : progress (s p) = 4 * (s p).begun + 2 := by unfold progress; rw [hs]
    have hc := (hi p hp).count
    rw [hs] at hc
    have hc' : (s p).writes = (s p).begun := hc
    refine ⟨_, .passEnd hp hs ?_, by simp, ?_⟩
    · intro q hq
      have h1 := hl q hq
      have hcq := (hi q hq).count
      have hnq := hnf q hq
      rw [hpr] at h1
      unfold progress at h1
      cases hsq : (s q).stage with
      | failed => exact absurd hsq hnq
      | idle =>
        rw [hsq] at hcq h1
        have : (s q).writes = (s q).begun := hcq
        dsimp only at h1; omega
      | atStart =>
        rw [hsq] at hcq h1
        have : (s q).writes + 1 = (s q).begun := hcq
        dsimp only at h1; omega
      | past =>
        rw [hsq] at hcq h1
        have : (s q).writes + 1 = (s q).begun := hcq
        dsimp only at h1; omega
      | atEnd =>
        rw [hsq] at hcq h1
        have : (s q).writes = (s q).begun := hcq
        dsimp only at h1; omega
    · rw [hpr]; simp only [progress]
  | failed => exact absurd hs (hnf p hp)

/-- C124: If all processes make the same number of `set` calls and no barrier has raised, all the calls can still
return in all processes, whatever the order of the steps so far. -/
theorem C124_can_finish {V : Type} {n L : Nat} {prog : Nat → List V} {v0 : V} {s : State V}
    (hL : ∀ q, q < n → (prog q).length = L) (h : Steps n prog (init v0) s)
    (hnf : ∀ q, q < n → (s q).stage ≠ .failed) :
    ∃ t, Steps n prog s t ∧ ∀ q, q < n → (t q).stage = .idle ∧ (t q).begun = L := by
  generalize hm : total (fun q => 4 * L + 3 - progress (s q)) n = m
  induction m using Nat.strongRecOn generalizing s with
  | _ m ih =>
    have hi := inv_steps h
    have hle : ∀ q, q < n → progress (s q) ≤ 4 * L + 3 := by
      intro q hq
      have h1 := (hi q hq).le
      rw [hL q hq] at h1
      unfold progress
      cases (s q).stage <;> simp <;> omega
    by_cases hdone : ∀ q, q < n → progress (s q) = 4 * L + 3
    · refine ⟨s, .refl _, fun q hq => ?_⟩
      have h1 := hdone q hq
      have h2 := (hi q hq).le
      rw [hL q hq] at h2
      unfold progress at h1
      cases hs : (s q).stage <;> rw [hs] at h1 <;> dsimp only at h1
      · exact ⟨rfl, by omega⟩
      · omega
      · omega
      · omega
      · omega
    · have hn : 0 < n := by
        cases n with
        | zero => exact absurd (fun q hq => absurd hq (Nat.not_lt_zero _)) hdone
        | succ n => exact Nat.succ_pos _
      obtain ⟨p, hp, hl⟩ := exists_least (fun q => progress (s q)) hn
      have hlt : progress (s p) < 4 * L + 3 := by
        apply Classical.byContradiction
        intro hc
        refine hdone (fun q hq => ?_)
        have h1 : progress (s p) ≤ progress (s q) := hl q hq
        have := hle q hq
        omega
      obtain ⟨x, hst, hx, hpx⟩ := least_moves hi hL hp hnf hl hlt
      have hlt' : total (fun q => 4 * L + 3 - progress (put s p x q)) n < m := by
        rw [← hm]
        refine total_lt hp (fun q hq => ?_) ?_
        · by_cases e : q = p
          · subst e; rw [put_same]; omega
          · rw [put_other _ _ e]; exact Nat.le_refl _
        · rw [put_same]; omega
      obtain ⟨t, h1, h2⟩ := ih _ hlt' (h.tail hst) (fun q hq => by
        by_cases e : q = p
        · subst e; rw [put_same]; exact hx
        · rw [put_other _ _ e]; exact hnf q hq) rfl
      exact ⟨t, Steps.trans (.tail (.refl _) hst) h1, h2⟩

/-! ### Findings -/

/-- C124 (finding): If the second barrier times out, one process has the new value and another keeps returning the old
one, for any two values: the processes disagree for good if the other does not go on. -/
theorem C124_timeout_fails {V : Type} (a b : V) : ∃ s : State V, Steps 2 (fun _ => [b]) (init a) s ∧
    Get s 0 b ∧ Get s 1 a ∧ (s 0).stage = .failed ∧ (s 1).stage = .past := by
  refine ⟨_, .tail (.tail (.tail (.tail (.tail (.tail (.refl _) (.begin (p := 0) (by decide) rfl (by simp [init])))
    (.begin (p := 1) (by decide) rfl (by simp [init, put]))) (.passStart (p := 0) (by decide) rfl ?_))
    (.passStart (p := 1) (by decide) rfl ?_)) (.write (v := b) (p := 0) (by decide) rfl rfl))
    (.lateEnd (p := 0) (by decide) rfl), ?_, ?_, rfl, rfl⟩
  · intro q hq
    match q, hq with
    | 0, _ => exact Nat.le_refl _
    | 1, _ => exact Nat.le_refl _
  · intro q hq
    match q, hq with
    | 0, _ => exact Nat.le_refl _
    | 1, _ => exact Nat.le_refl _
  · exact .free nofun
  · exact .free nofun

/-- C124 (finding): The barriers do not tell the calls apart.  If two processes set different values, both calls return
without error and the processes disagree from then on. -/
theorem C124_mismatch_fails {V : Type} (a b c : V) : ∃ s : State V,
    Steps 2 (fun p => if p = 0 then [b] else [c]) (init a) s ∧
    Get s 0 b ∧ Get s 1 c ∧ ∀ q, q < 2 → (s q).stage = .idle ∧ (s q).begun = 1 := by
  have two : ∀ (f : Nat → Prop), f 0 → f 1 → ∀ q, q < 2 → f q := by
    intro f h0 h1 q hq
    match q, hq with
    | 0, _ => exact h0
    | 1, _ => exact h1
  refine ⟨_, .tail (.tail (.tail (.tail (.tail (.tail (.tail (.tail (.refl _)
    (.begin (p := 0) (by decide) rfl (by simp [init])))
    (.begin (p := 1) (by decide) rfl (by simp [init, put])))
    (.passStart (p := 0) (by decide) rfl (two _ (Nat.le_refl _) (Nat.le_refl _))))
    (.passStart (p := 1) (by decide) rfl (two _ (Nat.le_refl _) (Nat.le_refl _))))
    (.write (v := b) (p := 0) (by decide) rfl rfl))
    (.write (v := c) (p := 1) (by decide) rfl rfl))
    (.passEnd (p := 0) (by decide) rfl (two _ (Nat.le_refl _) (Nat.le_refl _))))
    (.passEnd (p := 1) (by decide) rfl (two _ (Nat.le_refl _) (Nat.le_refl _))), ?_, ?_, ?_⟩
  · exact .free nofun
  · exact .free nofun
  · exact two _ ⟨rfl, rfl⟩ ⟨rfl, rfl⟩

/-- C124 (finding): A `get` waits for other processes.  Once process `p` has assigned its value it cannot be read until
every process has assigned its own: however the others go on, if `q` does not, no `get` in `p` returns (unless the
barrier raises). -/
theorem C124_get_waits_fails {V : Type} {n : Nat} {prog : Nat → List V} {s t : State V} {p q : Nat} (hq : q < n)
    (hs : (s p).stage = .atEnd) (hlt : (s q).writes < (s p).writes) (h : Steps n prog s t)
    (hst : (t q).writes = (s q).writes) (hnf : (t p).stage ≠ .failed) (v : V) : ¬ Get t p v := by
  suffices hs' : (t p).stage = .atEnd by
    intro hg
    cases hg with
    | free ha => exact ha hs'
  suffices hall : (t q).writes = (s q).writes →
      ((t p).stage = .atEnd ∧ (t p).writes = (s p).writes) ∨ (t p).stage = .failed by
    rcases hall hst with h1 | h1
    · exact h1.1
    · exact absurd h1 hnf
  clear hst hnf
  induction h with
  | refl => exact fun _ => .inl ⟨hs, rfl⟩
  | @tail u w h h' ih =>
    intro hw
    have h1 := (monoSteps h q).2
    have h2 := (mono h' q).2
    have hu := ih (by omega)
    cases h' with
    | @begin r hr hsr hl =>
      by_cases e : p = r
      · subst e; rw [hsr] at hu; rcases hu with ⟨h, _⟩ | h <;> cases h
      · rw [put_other _ _ e]; exact hu
    | @passStart r hr hsr hb =>
      by_cases e : p = r
      · subst e; rw [hsr] at hu; rcases hu with ⟨h, _⟩ | h <;> cases h
      · rw [put_other _ _ e]; exact hu
    | @write r v hr hsr hb =>
      by_cases e : p = r
      · subst e; rw [hsr] at hu; rcases hu with ⟨h, _⟩ | h <;> cases h
      · rw [put_other _ _ e]; exact hu
    | @passEnd r hr hsr hb =>
      by_cases e : p = r
      · subst e
        rcases hu with ⟨_, h3⟩ | h3
        · have := hb q hq
          have h4 : (u q).writes = (s q).writes := by omega
          omega
        · rw [hsr] at h3; cases h3
      · rw [put_other _ _ e]; exact hu
    | @lateStart r hr hsr =>
      by_cases e : p = r
      · subst e; rw [put_same]; exact .inr rfl
      · rw [put_other _ _ e]; exact hu
    | @lateEnd r hr hsr =>
      by_cases e : p = r
      · subst e; rw [put_same]; exact .inr rfl
      · rw [put_other _ _ e]; exact hu

/-! ### The hypotheses can be met -/

/-- C124: three processes can finish two calls, and then all have the second value; in `C124_timeout_fails` a process
waits as `C124_get_waits_fails` says. -/
theorem C124_nonvacuous :
    (∃ s : State Bool, Steps 3 (fun _ => [true, false]) (init false) s ∧ ∀ q, q < 3 → (s q).stage = .idle ∧
      (s q).begun = 2 ∧ ∀ w, Get s q w → w = false) ∧
    (∃ s : State Bool, Steps 2 (fun _ => [true]) (init false) s ∧ (s 0).stage = .atEnd ∧
      (s 1).writes < (s 0).writes) := by
  constructor
  · obtain ⟨s, h1, h2⟩ := C124_can_finish (n := 3) (L := 2) (prog := fun _ => [true, false]) (v0 := false)
      (fun _ _ => rfl) (.refl _) (fun _ _ => nofun)
    refine ⟨s, h1, fun q hq => ⟨(h2 q hq).1, (h2 q hq).2, fun w hw => ?_⟩⟩
    have := C124_agree (n := 3) (vals := [true, false]) (p := 0) (k := 2) (fun _ _ => rfl) (by decide) hq h1
      (h2 0 (by decide)).1 (h2 0 (by decide)).2 (Nat.le_of_eq (h2 q hq).2) hw
    simpa using this.symm
  · have two : ∀ (f : Nat → Prop), f 0 → f 1 → ∀ q, q < 2 → f q := by
      intro f h0 h1 q hq
      match q, hq with
      | 0, _ => exact h0
      | 1, _ => exact h1
    refine ⟨_, .tail (.tail (.tail (.tail (.refl _)
      (.begin (p := 0) (by decide) rfl (by simp [init])))
      (.begin (p := 1) (by decide) rfl (by simp [init, put])))
      (.passStart (p := 0) (by decide) rfl (two _ (Nat.le_refl _) (Nat.le_refl _))))
      (.write (v := true) (p := 0) (by decide) rfl rfl), rfl, ?_⟩
    decide

end Verif.Futures.SyncValue
