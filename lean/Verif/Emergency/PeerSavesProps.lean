import Verif.Emergency.PeerSaves

/-! C139: which steps the peer-to-peer manager saves, where, and how long they stay. -/

namespace Verif.Emergency.PeerSaves

/-- Specification: the documented schedule, `k * save_interval_steps + save_interval_offset_steps`. -/
def OnSchedule (o : Opts) (s : Nat) : Prop := ∃ k, s = k * o.interval + o.offset

/-- Specification: the number of steps of a list that are later than `t`. -/
def later (t : Nat) (l : List Nat) : Nat := (l.filter fun x => decide (t < x)).length

theorem due_iff (o : Opts) (s : Nat) (hi : o.interval ≠ 0) : ∃ b, due o s = .ok b ∧ (b = true ↔ OnSchedule o s) := by
  unfold due OnSchedule
  by_cases h : s < o.offset
  · rw [if_pos h]
    refine ⟨false, rfl, ?_⟩
    constructor
    · intro h; cases h
    · rintro ⟨k, rfl⟩; omega
  · rw [if_neg h, if_neg hi]
    refine ⟨_, rfl, ?_⟩
    rw [beq_iff_eq]
    constructor
    · intro hm
      refine ⟨(s - o.offset) / o.interval, ?_⟩
      have := Nat.div_add_mod (s - o.offset) o.interval
      rw [hm, Nat.mul_comm] at this
      omega
    · rintro ⟨k, rfl⟩
      rw [Nat.add_sub_cancel]
      exact Nat.mul_mod_left k o.interval

theorem should_later (o : Opts) (l : List Nat) (s : Nat) (hl : ∀ x ∈ l, x < s) : shouldSave1 o l s = due o s := by
  unfold shouldSave1
  split
  · rename_i x hx
    have := hl x (List.mem_of_getLast? hx)
    rw [if_neg (by omega)]
  · rfl

theorem mem_preserved_last (k : Option Nat) (l : List Nat) (s : Nat) (hs : s ∉ l) : s ∈ preserved k (l ++ [s]) ↔ k ≠ some 0 := by
  unfold preserved
  cases k with
  | none => simp
  | some n =>
    simp only
    by_cases h : (l ++ [s]).length ≤ n
    · rw [if_pos h]
      simp at h
      simp
      omega
    · rw [if_neg h]
      simp only [List.length_append, List.length_singleton] at h ⊢
      cases n with
      | zero => simp
      | succ n =>
        rw [List.drop_append_of_le_length (by omega)]
        simp

theorem preserved_sub (k : Option Nat) (l : List Nat) : (preserved k l).Sublist l := by
  unfold preserved
  split
  · exact List.Sublist.refl _
  · split
    · exact List.Sublist.refl _
    · exact List.drop_sublist _ _

theorem save1_later (o : Opts) (l : List Nat) (s : Nat) (hi : o.interval ≠ 0) (hl : ∀ x ∈ l, x < s) :
    ∃ b l', save1 o l s false = .ok (b, l') ∧ (b = true ↔ OnSchedule o s) ∧ (s ∈ l' ↔ OnSchedule o s ∧ o.keep ≠ some 0) := by
  have hn : s ∉ l := fun h => Nat.lt_irrefl _ (hl s h)
  obtain ⟨b, hb, hb'⟩ := due_iff o s hi
  unfold save1
  rw [should_later o l s hl, hb]
  cases b with
  | false =>
    refine ⟨false, l, rfl, hb', ?_⟩
    have : ¬ OnSchedule o s := fun h => by simpa using hb'.2 h
    exact ⟨fun h => absurd h hn, fun h => absurd h.1 this⟩
  | true =>
    refine ⟨true, preserved o.keep (l ++ [s]), by simp [hn], hb', ?_⟩
    rw [mem_preserved_last _ _ _ hn]
    exact ⟨fun h => ⟨hb'.1 rfl, h⟩, fun h => h.2⟩

/-- C139: a step later than all that are stored is saved in local storage exactly when it is on the local schedule, and in persistent storage
exactly when it is on the schedule of that; the answer says whether it was due in either.  (A manager that is told to keep none keeps none.) -/
theorem C139_cadence (m : Mgr) (s : Nat) (hl : m.lopts.interval ≠ 0) (hp : m.popts.interval ≠ 0)
    (h1 : ∀ x ∈ m.loc, x < s) (h2 : ∀ p, m.pers = some p → ∀ x ∈ p, x < s) :
    ∃ b, (save m s false).1 = .ok b ∧
      (b = true ↔ OnSchedule m.lopts s ∨ (m.pers.isSome = true ∧ OnSchedule m.popts s)) ∧
      (s ∈ (save m s false).2.loc ↔ OnSchedule m.lopts s ∧ m.lopts.keep ≠ some 0) ∧
      ((save m s false).2.pers.isSome = m.pers.isSome) ∧
      (∀ p', (save m s false).2.pers = some p' → (s ∈ p' ↔ OnSchedule m.popts s ∧ m.popts.keep ≠ some 0)) := by
  obtain ⟨b, l', e, hb, hm⟩ := save1_later m.lopts m.loc s hl h1
  unfold save
  rw [e]
  cases hpp : m.pers with
  | none =>
    refine ⟨b, rfl, by simpa using hb, hm, by simp [hpp], ?_⟩
    intro p' h
    simp [hpp] at h
  | some p =>
    obtain ⟨b', p', e', hb', hm'⟩ := save1_later m.popts p s hp (h2 p hpp)
    simp only [e']
    refine ⟨b || b', rfl, ?_, hm, rfl, ?_⟩
    · rw [Bool.or_eq_true, hb, hb']; simp
    · intro q h
      cases h
      exact hm'

theorem save1_ok (o : Opts) (l : List Nat) (s : Nat) (b : Bool) (l' : List Nat) (h : save1 o l s false = .ok (b, l')) :
    shouldSave1 o l s = .ok b := by
  unfold save1 at h
  simp only [Bool.false_eq_true, if_false] at h
  split at h
  · cases h
  · rename_i e; cases h; exact e
  · rename_i e
    split at h
    · cases h
    · cases h; exact e

/-- C139: what an unforced save answers is what `should_save` says of the step. -/
theorem C139_should_save (m : Mgr) (s : Nat) (b : Bool) (h : (save m s false).1 = .ok b) : shouldSave m s = .ok b := by
  unfold save at h
  unfold shouldSave
  split at h
  · cases h
  · rename_i b1 l1 e1
    rw [save1_ok _ _ _ _ _ e1]
    cases hp : m.pers with
    | none => simp only [hp] at h ⊢; exact h
    | some p =>
      simp only [hp] at h ⊢
      split at h
      · cases h
      · rename_i b2 l2 e2
        cases h
        cases b1 with
        | true => rfl
        | false => simpa using save1_ok _ _ _ _ _ e2

theorem save1_cases (o : Opts) (l : List Nat) (s : Nat) (f : Bool) (b : Bool) (l' : List Nat) (h : save1 o l s f = .ok (b, l')) :
    (b = false ∧ l' = l ∧ f = false) ∨ (b = true ∧ s ∉ l ∧ l' = preserved o.keep (l ++ [s])) := by
  have go : (if s ∈ l then Except.error Err.exists else .ok (true, preserved o.keep (l ++ [s]))) = Except.ok (b, l') →
      b = true ∧ s ∉ l ∧ l' = preserved o.keep (l ++ [s]) := by
    intro h
    split at h
    · cases h
    · cases h; exact ⟨rfl, by assumption, rfl⟩
  unfold save1 at h
  cases f with
  | true => exact .inr (go (by simpa using h))
  | false =>
    simp only [Bool.false_eq_true, if_false] at h
    split at h
    · cases h
    · cases h; exact .inl ⟨rfl, rfl, rfl⟩
    · exact .inr (go h)

/-- C139: a save that answers False, and a save that is refused by the local storage, change nothing. -/
theorem C139_refused (m : Mgr) (s : Nat) (f : Bool) :
    ((save m s f).1 = .ok false → (save m s f).2 = m ∧ f = false) ∧
    (s ∈ m.loc → f = true → (save m s f).1 = .error .exists ∧ (save m s f).2 = m) := by
  constructor
  · intro h
    unfold save at h ⊢
    split at h
    · cases h
    · rename_i b l e
      cases hp : m.pers with
      | none =>
        simp only [hp] at h
        cases h
        rcases save1_cases _ _ _ _ _ _ e with ⟨_, rfl, rfl⟩ | ⟨h, _⟩
        · simp only [e, hp, and_true]
          cases m; simp_all
        · cases h
      | some p =>
        simp only [hp] at h
        split at h
        · cases h
        · rename_i b2 l2 e2
          have hb : b = false ∧ b2 = false := by
            cases b <;> cases b2 <;> simp_all
          obtain ⟨rfl, rfl⟩ := hb
          rcases save1_cases _ _ _ _ _ _ e with ⟨_, rfl, rfl⟩ | ⟨h, _⟩
          · rcases save1_cases _ _ _ _ _ _ e2 with ⟨_, rfl, _⟩ | ⟨h, _⟩
            · simp only [e, hp, e2, and_true]
              cases m; simp_all
            · cases h
          · cases h
  · rintro h rfl
    have : save1 m.lopts m.loc s true = .error .exists := by simp [save1, h]
    unfold save
    rw [this]
    exact ⟨rfl, rfl⟩

/-- C139: a save that answers True for a forced step has it in both storages (unless told to keep none). -/
theorem C139_forced (m : Mgr) (s : Nat) (b : Bool) (h : (save m s true).1 = .ok b) :
    b = true ∧ (m.lopts.keep ≠ some 0 → (save m s true).2.loc.getLast? = some s) ∧
    (∀ p', (save m s true).2.pers = some p' → m.popts.keep ≠ some 0 → p'.getLast? = some s) := by
  have last : ∀ (k : Option Nat) (l : List Nat), k ≠ some 0 → (preserved k (l ++ [s])).getLast? = some s := by
    intro k l hk
    unfold preserved
    cases k with
    | none => simp
    | some n =>
      simp only
      split
      · simp
      · have : n ≠ 0 := fun h => hk (by rw [h])
        rename_i hn
        simp only [List.length_append, List.length_singleton] at hn ⊢
        rw [List.drop_append_of_le_length (by omega)]
        simp
  unfold save at h ⊢
  split at h
  · cases h
  · rename_i b1 l1 e1
    rcases save1_cases _ _ _ _ _ _ e1 with ⟨_, _, h'⟩ | ⟨rfl, _, rfl⟩
    · cases h'
    · cases hp : m.pers with
      | none =>
        simp only [hp] at h
        cases h
        simp only [hp]
        exact ⟨trivial, last _ _, fun p' h => by simp [hp] at h⟩
      | some p =>
        simp only [hp] at h
        split at h
        · cases h
        · rename_i b2 l2 e2
          cases h
          simp only [e1, hp, e2]
          refine ⟨by trivial, last _ _, ?_⟩
          intro p' h hk
          cases h
          rcases save1_cases _ _ _ _ _ _ e2 with ⟨_, _, h'⟩ | ⟨_, _, rfl⟩
          · cases h'
          · exact last _ _ hk

/-! ### What one call may do to either storage -/

inductive Change (o : Opts) (c : Call) (l : List Nat) : List Nat → Prop
  | same : Change o c l l
  | saved (s f) (h : c = .save s f) (hn : s ∉ l) (hs : f = false → ∃ b, b = true ∧ shouldSave1 o l s = .ok b) :
      Change o c l (preserved o.keep (l ++ [s]))
  | deleted (s) (h : c = .delete s) : Change o c l (l.filter fun x => decide (x ≠ s))

theorem save1_change (o : Opts) (l : List Nat) (s : Nat) (f : Bool) (b : Bool) (l' : List Nat) (h : save1 o l s f = .ok (b, l')) :
    Change o (.save s f) l l' := by
  rcases save1_cases _ _ _ _ _ _ h with ⟨_, rfl, _⟩ | ⟨rfl, hn, rfl⟩
  · exact .same
  · refine .saved s f rfl hn ?_
    rintro rfl
    exact ⟨true, rfl, save1_ok _ _ _ _ _ h⟩

theorem delete1_change (o : Opts) (l : List Nat) (s : Nat) (l' : List Nat) (h : delete1 l s = .ok l') : Change o (.delete s) l l' := by
  unfold delete1 at h
  split at h
  · cases h
  · cases h; exact .deleted s rfl

theorem step_change (m : Mgr) (c : Call) :
    (step m c).lopts = m.lopts ∧ (step m c).popts = m.popts ∧ Change m.lopts c m.loc (step m c).loc ∧
    (m.pers = none → (step m c).pers = none) ∧
    (∀ p, m.pers = some p → ∃ p', (step m c).pers = some p' ∧ Change m.popts c p p') := by
  cases c with
  | save s f =>
    simp only [step]
    unfold save
    split
    · exact ⟨rfl, rfl, .same, id, fun p h => ⟨p, h, .same⟩⟩
    · rename_i b l e
      have c1 := save1_change _ _ _ _ _ _ e
      cases hp : m.pers with
      | none => exact ⟨rfl, rfl, c1, fun _ => by simp [hp], fun p h => by cases h⟩
      | some p =>
        simp only
        split
        · exact ⟨rfl, rfl, c1, fun h => by simp at h, fun q h => ⟨q, by simp [hp, h], .same⟩⟩
        · rename_i b' p' e'
          refine ⟨rfl, rfl, c1, fun h => by simp at h, fun q h => ?_⟩
          cases h
          exact ⟨p', rfl, save1_change _ _ _ _ _ _ e'⟩
  | delete s =>
    simp only [step]
    unfold delete
    split
    · exact ⟨rfl, rfl, .same, id, fun p h => ⟨p, h, .same⟩⟩
    · rename_i l e
      have c1 := delete1_change m.lopts _ _ _ e
      cases hp : m.pers with
      | none => exact ⟨rfl, rfl, c1, fun _ => by simp [hp], fun p h => by cases h⟩
      | some p =>
        simp only
        split
        · exact ⟨rfl, rfl, c1, fun h => by simp at h, fun q h => ⟨q, by simp [hp, h], .same⟩⟩
        · rename_i p' e'
          refine ⟨rfl, rfl, c1, fun h => by simp at h, fun q h => ?_⟩
          cases h
          exact ⟨p', rfl, delete1_change _ _ _ _ e'⟩

/-- An invariant of either storage holds after every program. -/
theorem run_inv (P : Opts → List Nat → Prop) (ok : Call → Prop) (hP : ∀ o c l l', ok c → P o l → Change o c l l' → P o l') (m : Mgr) (cs : List Call)
    (hc : ∀ c ∈ cs, ok c) (h1 : P m.lopts m.loc) (h2 : ∀ p, m.pers = some p → P m.popts p) :
    (run m cs).lopts = m.lopts ∧ (run m cs).popts = m.popts ∧ P m.lopts (run m cs).loc ∧ ∀ p, (run m cs).pers = some p → P m.popts p := by
  induction cs generalizing m with
  | nil => exact ⟨rfl, rfl, h1, h2⟩
  | cons c cs ih =>
    obtain ⟨e1, e2, c1, n2, c2⟩ := step_change m c
    have hc0 := hc c (List.mem_cons_self ..)
    have := ih (step m c) (fun c h => hc c (List.mem_cons_of_mem _ h)) (by rw [e1]; exact hP _ _ _ _ hc0 h1 c1) (by
      intro p' hp'
      rw [e2]
      cases hp : m.pers with
      | none => rw [n2 hp] at hp'; cases hp'
      | some p =>
        obtain ⟨q, hq, cq⟩ := c2 p hp
        rw [hq] at hp'
        cases hp'
        exact hP _ _ _ _ hc0 (h2 p hp) cq)
    rw [e1, e2] at this
    exact this

theorem length_preserved (k : Option Nat) (l : List Nat) (n : Nat) (h : k = some n) : (preserved k l).length ≤ n := by
  subst h
  unfold preserved
  simp only
  split
  · assumption
  · rw [List.length_drop]; omega

/-- C139: a manager that starts with empty storages never has more steps than `max_to_keep` in either, whatever is saved, forced or deleted; in
local storage that is one step when nothing was said.  No step is there twice. -/
theorem C139_bounded (lo po : Opts) (persistent : Bool) (cs : List Call) :
    (run (make lo po [] (if persistent then some [] else none)) cs).loc.length ≤ lo.keep.getD 1 ∧
    (run (make lo po [] (if persistent then some [] else none)) cs).loc.Nodup ∧
    (∀ p, (run (make lo po [] (if persistent then some [] else none)) cs).pers = some p → p.Nodup ∧ ∀ n, po.keep = some n → p.length ≤ n) := by
  have := run_inv (fun o l => l.Nodup ∧ ∀ n, o.keep = some n → l.length ≤ n) (fun _ => True) (by
    intro o c l l' _ ⟨h, hn⟩ hc
    cases hc with
    | same => exact ⟨h, hn⟩
    | saved s f _ hs _ =>
      refine ⟨(preserved_sub _ _).nodup ?_, fun n hk => length_preserved _ _ _ hk⟩
      rw [List.nodup_append]
      refine ⟨h, by simp, ?_⟩
      intro a ha b hb
      simp only [List.mem_singleton] at hb
      subst hb
      rintro rfl
      exact hs ha
    | deleted s _ => exact ⟨(List.filter_sublist).nodup h, fun n hk => Nat.le_trans (List.length_filter_le _ _) (hn n hk)⟩)
    (make lo po [] (if persistent then some [] else none)) cs (fun _ _ => trivial) (by simp [make]) (by
      intro p hp
      cases persistent <;> simp [make] at hp
      subst hp
      simp)
  obtain ⟨_, _, ⟨h1, h2⟩, h3⟩ := this
  exact ⟨h2 _ rfl, h1, h3⟩

/-- C139: with no limit on persistent storage, a step that is there stays until it is deleted by name. -/
theorem C139_persistent_stays (m : Mgr) (cs : List Call) (p : List Nat) (t : Nat) (hk : m.popts.keep = none) (hp : m.pers = some p) (ht : t ∈ p)
    (hd : Call.delete t ∉ cs) : ∃ p', (run m cs).pers = some p' ∧ t ∈ p' := by
  induction cs generalizing m p with
  | nil => exact ⟨p, hp, ht⟩
  | cons c cs ih =>
    obtain ⟨_, e2, _, _, c2⟩ := step_change m c
    obtain ⟨q, hq, cq⟩ := c2 p hp
    refine ih (step m c) q (by rw [e2]; exact hk) hq ?_ (fun h => hd (List.mem_cons_of_mem _ h))
    cases cq with
    | same => exact ht
    | saved s f _ _ _ => rw [hk]; exact List.mem_append_left _ ht
    | deleted s h =>
      rw [List.mem_filter]
      refine ⟨ht, ?_⟩
      have : t ≠ s := by rintro rfl; exact hd (by rw [h]; exact List.mem_cons_self ..)
      simpa using this

/-- C139: with saves that are not forced, each storage has its steps in increasing order. -/
theorem C139_increasing (m : Mgr) (cs : List Call) (hf : ∀ s, Call.save s true ∉ cs) (h1 : m.loc.Pairwise (· < ·))
    (h2 : ∀ p, m.pers = some p → p.Pairwise (· < ·)) :
    (run m cs).loc.Pairwise (· < ·) ∧ ∀ p, (run m cs).pers = some p → p.Pairwise (· < ·) := by
  have := run_inv (fun _ l => l.Pairwise (· < ·)) (fun c => ∀ s, c ≠ .save s true) (by
    intro o c l l' hok h hc
    cases hc with
    | same => exact h
    | saved s f e hs hd =>
      refine List.Pairwise.sublist (preserved_sub _ _) ?_
      have hf : f = false := by
        cases f with
        | false => rfl
        | true => exact absurd e (hok s)
      obtain ⟨b, rfl, hb⟩ := hd hf
      rw [List.pairwise_append]
      refine ⟨h, by simp, ?_⟩
      intro a ha b hb'
      simp only [List.mem_singleton] at hb'
      subst hb'
      unfold shouldSave1 at hb
      split at hb
      · rename_i x hx
        have hlt : x < b := by
          by_cases hg : x ≥ b
          · rw [if_pos hg] at hb; cases hb
          · omega
        obtain ⟨ys, rfl⟩ := List.getLast?_eq_some_iff.1 hx
        rw [List.mem_append] at ha
        rw [List.pairwise_append] at h
        rcases ha with ha | ha
        · exact Nat.lt_trans (h.2.2 a ha x (by simp)) hlt
        · simp only [List.mem_singleton] at ha
          subst ha
          exact hlt
      · rename_i hx
        rw [List.getLast?_eq_none_iff] at hx
        subst hx
        cases ha
    | deleted s _ => exact List.Pairwise.sublist List.filter_sublist h)
    m cs (fun c hc s e => hf s (e ▸ hc)) h1 h2
  exact ⟨this.2.2.1, this.2.2.2⟩

theorem drop_later (l : List Nat) (n : Nat) (h : l.Pairwise (· < ·)) (t : Nat) : t ∈ l.drop (l.length - n) ↔ t ∈ l ∧ later t l < n := by
  induction l with
  | nil => simp
  | cons x l ih =>
    rw [List.pairwise_cons] at h
    have ih := ih h.2
    by_cases hn : n ≤ l.length
    · have e : (x :: l).length - n = (l.length - n) + 1 := by simp; omega
      rw [e, List.drop_succ_cons, ih, List.mem_cons]
      have hx : later x (x :: l) = l.length := by
        unfold later
        rw [List.filter_cons_of_neg (by simp), List.filter_eq_self.2 (by intro a ha; simpa using h.1 a ha)]
      constructor
      · rintro ⟨ht, hl⟩
        refine ⟨.inr ht, ?_⟩
        have := h.1 t ht
        unfold later at hl ⊢
        rw [List.filter_cons_of_neg (by simp; omega)]
        exact hl
      · rintro ⟨rfl | ht, hl⟩
        · rw [hx] at hl; omega
        · refine ⟨ht, ?_⟩
          have := h.1 t ht
          unfold later at hl ⊢
          rw [List.filter_cons_of_neg (by simp; omega)] at hl
          exact hl
    · have e : (x :: l).length - n = 0 := by simp; omega
      rw [e, List.drop_zero]
      refine ⟨fun ht => ⟨ht, ?_⟩, fun h => h.1⟩
      have h1 : later t (x :: l) < (x :: l).length := by
        unfold later
        refine Nat.lt_of_le_of_ne (List.length_filter_le _ _) ?_
        intro e
        have := List.length_filter_eq_length_iff.1 e t ht
        simp at this
      simp only [List.length_cons] at h1
      omega

/-- C139: when an unforced save stores a step locally, of the steps there and the new one exactly those stay that fewer than `max_to_keep` of them
are later than: the oldest go, and never the new one. -/
theorem C139_oldest_go (m : Mgr) (s n : Nat) (hk : m.lopts.keep = some n) (hi : m.loc.Pairwise (· < ·)) (hl : ∀ x ∈ m.loc, x < s)
    (hs : s ∈ (save m s false).2.loc) (t : Nat) :
    t ∈ (save m s false).2.loc ↔ (t ∈ m.loc ∨ t = s) ∧ later t (m.loc ++ [s]) < n := by
  have hn : s ∉ m.loc := fun h => Nat.lt_irrefl _ (hl s h)
  have hc := (step_change m (.save s false)).2.2.1
  simp only [step] at hc
  have key : (save m s false).2.loc = preserved m.lopts.keep (m.loc ++ [s]) := by
    generalize (save m s false).2.loc = l' at hc hs
    cases hc with
    | same => exact absurd hs hn
    | saved s' f e _ _ => cases e; rfl
    | deleted s' e => cases e
  have hsort : (m.loc ++ [s]).Pairwise (· < ·) := by
    rw [List.pairwise_append]
    refine ⟨hi, by simp, ?_⟩
    intro a ha b hb
    simp only [List.mem_singleton] at hb
    subst hb
    exact hl a ha
  have hd := drop_later (m.loc ++ [s]) n hsort t
  rw [key, hk]
  unfold preserved
  simp only
  have hm : (t ∈ m.loc ∨ t = s) ↔ t ∈ m.loc ++ [s] := by simp
  rw [hm]
  split
  · rename_i hle
    have : (m.loc ++ [s]).length - n = 0 := by omega
    rw [this, List.drop_zero] at hd
    exact hd
  · exact hd

theorem mem_insert (n t : Nat) (l : List Nat) : t ∈ insert n l ↔ t = n ∨ t ∈ l := by
  induction l with
  | nil => simp [insert]
  | cons x l ih =>
    unfold insert
    split
    · simp
    · split
      · rename_i h; subst h; simp
      · rw [List.mem_cons, ih, List.mem_cons]
        constructor
        · rintro (h | h | h)
          · exact .inr (.inl h)
          · exact .inl h
          · exact .inr (.inr h)
        · rintro (h | h | h)
          · exact .inr (.inl h)
          · exact .inl h
          · exact .inr (.inr h)

theorem sorted_insert (n : Nat) (l : List Nat) (h : l.Pairwise (· < ·)) : (insert n l).Pairwise (· < ·) := by
  induction l with
  | nil => simp [insert]
  | cons x l ih =>
    rw [List.pairwise_cons] at h
    unfold insert
    split
    · rename_i hlt
      rw [List.pairwise_cons]
      refine ⟨?_, by rw [List.pairwise_cons]; exact h⟩
      intro a ha
      rcases List.mem_cons.1 ha with rfl | ha
      · exact hlt
      · exact Nat.lt_trans hlt (h.1 a ha)
    · split
      · rw [List.pairwise_cons]; exact h
      · rw [List.pairwise_cons]
        refine ⟨?_, ih h.2⟩
        intro a ha
        rcases (mem_insert _ _ _).1 ha with rfl | ha
        · omega
        · exact h.1 a ha

/-- C139: `all_steps` lists, in increasing order and once each, the steps of the own local storage, of the peers and of persistent storage, and no
other. -/
theorem C139_all_steps (m : Mgr) (own : Bool) (peers : List Nat) :
    (allSteps m own peers).Pairwise (· < ·) ∧
    ∀ t, t ∈ allSteps m own peers ↔ (own = true ∧ t ∈ m.loc) ∨ t ∈ peers ∨ ∃ p, m.pers = some p ∧ t ∈ p := by
  unfold allSteps
  have gen : ∀ l : List Nat, (l.foldr insert []).Pairwise (· < ·) ∧ ∀ t, t ∈ l.foldr insert [] ↔ t ∈ l := by
    intro l
    induction l with
    | nil => simp
    | cons x l ih =>
      refine ⟨sorted_insert _ _ ih.1, fun t => ?_⟩
      rw [List.foldr_cons, mem_insert, ih.2, List.mem_cons]
  refine ⟨(gen _).1, fun t => ?_⟩
  rw [(gen _).2]
  cases own <;> cases hp : m.pers <;> simp [or_assoc]

/-- C139: a deletion that returns has removed the step from both storages and nothing else; one of a step that is not in local storage raises
`FileNotFoundError` and changes nothing. -/
theorem C139_deleted (m : Mgr) (s : Nat) :
    ((delete m s).1 = .ok () → (∀ t, t ∈ (delete m s).2.loc ↔ t ∈ m.loc ∧ t ≠ s) ∧
      (∀ p', (delete m s).2.pers = some p' → ∃ p, m.pers = some p ∧ ∀ t, t ∈ p' ↔ t ∈ p ∧ t ≠ s)) ∧
    (s ∉ m.loc → (delete m s).1 = .error .notFound ∧ (delete m s).2 = m) ∧
    (s ∈ m.loc → (∀ p, m.pers = some p → s ∈ p) → (delete m s).1 = .ok ()) := by
  unfold delete delete1
  refine ⟨?_, ?_, ?_⟩
  · by_cases hs : s ∈ m.loc
    · rw [if_neg (by simpa using hs)]
      cases hp : m.pers with
      | none => intro _; refine ⟨fun t => by simp, fun p' h => by simp [hp] at h⟩
      | some p =>
        simp only
        by_cases hs' : s ∈ p
        · rw [if_neg (by simpa using hs')]
          intro _
          refine ⟨fun t => by simp, fun p' h => ?_⟩
          cases h
          exact ⟨p, rfl, fun t => by simp⟩
        · rw [if_pos hs']
          intro h; cases h
    · rw [if_pos hs]
      intro h; cases h
  · intro hs
    rw [if_pos hs]
    exact ⟨rfl, rfl⟩
  · intro hs h2
    rw [if_neg (by simpa using hs)]
    cases hp : m.pers with
    | none => rfl
    | some p =>
      simp only
      rw [if_neg (by simpa using h2 p hp)]

/-- C139 (finding): a step that `all_steps` lists from persistent storage, and that local storage has given up meanwhile, cannot be deleted: for any
manager `delete` raises `FileNotFoundError` and the step stays.  With the default options this is so of every step but the last. -/
theorem C139_delete_fails :
    (∀ (m : Mgr) (s : Nat) (p : List Nat), m.pers = some p → s ∈ p → s ∉ m.loc →
      s ∈ allSteps m true [] ∧ (delete m s).1 = .error .notFound ∧ (delete m s).2.pers = some p) ∧
    (∃ m : Mgr, m = run (make ⟨10, 0, none⟩ ⟨20, 0, none⟩ [] (some [])) [.save 0 false, .save 10 false, .save 20 false] ∧
      m.loc = [20] ∧ m.pers = some [0, 20]) := by
  refine ⟨?_, _, rfl, rfl, rfl⟩
  intro m s p hp hs hn
  refine ⟨((C139_all_steps m true []).2 s).2 (.inr (.inr ⟨p, hp, hs⟩)), ((C139_deleted m s).2.1 hn).1, ?_⟩
  rw [((C139_deleted m s).2.1 hn).2]
  exact hp

/-- C139 (finding): deleting a step that only local storage has (because it is off the persistent schedule) removes it and yet raises
`FileNotFoundError`. -/
theorem C139_deleted_raises_fails (m : Mgr) (s : Nat) (p : List Nat) (hp : m.pers = some p) (hs : s ∈ m.loc) (hn : s ∉ p) :
    (delete m s).1 = .error .notFound ∧ s ∉ (delete m s).2.loc := by
  unfold delete delete1
  rw [if_neg (by simpa using hs), hp]
  simp only
  rw [if_pos hn]
  exact ⟨rfl, by simp⟩

/-- C139 (finding): forcing a step that local storage has and persistent storage has not raises `StepAlreadyExistsError`, and the step does not
reach persistent storage. -/
theorem C139_not_persisted_fails (m : Mgr) (s : Nat) (p : List Nat) (hp : m.pers = some p) (hs : s ∈ m.loc) (hn : s ∉ p) :
    (save m s true).1 = .error .exists ∧ ∃ p', (save m s true).2.pers = some p' ∧ s ∉ p' := by
  obtain ⟨h1, h2⟩ := (C139_refused m s true).2 hs rfl
  exact ⟨h1, p, by rw [h2]; exact hp, hn⟩

/-- C139 (finding): forcing a step that persistent storage has and local storage has not raises `StepAlreadyExistsError` although the step was
written to local storage, where it may have taken the place of a later one. -/
theorem C139_half_saved_fails :
    (∀ (m : Mgr) (s : Nat) (p : List Nat), m.pers = some p → s ∈ p → s ∉ m.loc → m.lopts.keep ≠ some 0 →
      (save m s true).1 = .error .exists ∧ s ∈ (save m s true).2.loc) ∧
    (save (run (make ⟨10, 0, none⟩ ⟨20, 0, none⟩ [] (some [])) [.save 0 false, .save 10 false]) 0 true).2.loc = [0] := by
  refine ⟨?_, rfl⟩
  intro m s p hp hs hn hk
  have e1 : save1 m.lopts m.loc s true = .ok (true, preserved m.lopts.keep (m.loc ++ [s])) := by simp [save1, hn]
  have e2 : save1 m.popts p s true = .error .exists := by simp [save1, hs]
  unfold save
  rw [e1, hp]
  simp only [e2]
  exact ⟨by trivial, (mem_preserved_last _ _ _ hn).2 hk⟩

/-- C139 (finding): after a forced save of an earlier step, `should_save` may say True of a step that is there, and saving it unforced raises. -/
theorem C139_should_save_existing_fails :
    shouldSave (run (make ⟨10, 0, some 3⟩ ⟨20, 0, none⟩ [] none) [.save 20 false, .save 5 true]) 20 = .ok true ∧
    (save (run (make ⟨10, 0, some 3⟩ ⟨20, 0, none⟩ [] none) [.save 20 false, .save 5 true]) 20 false).1 = .error .exists :=
  ⟨rfl, rfl⟩

/-- C139: a schedule with interval 0 makes every save of a step that is due by its offset raise, and nothing is stored. -/
theorem C139_interval_zero (m : Mgr) (s : Nat) (hi : m.lopts.interval = 0) (ho : m.lopts.offset ≤ s) (h1 : ∀ x ∈ m.loc, x < s) :
    (save m s false).1 = .error .zeroDivision ∧ (save m s false).2 = m ∧ shouldSave m s = .error .zeroDivision := by
  have e : shouldSave1 m.lopts m.loc s = .error .zeroDivision := by
    rw [should_later _ _ _ h1]
    unfold due
    rw [if_neg (by omega), if_pos hi]
  have e1 : save1 m.lopts m.loc s false = .error .zeroDivision := by simp [save1, e]
  unfold save shouldSave
  rw [e1, e]
  exact ⟨rfl, rfl, rfl⟩

/-- A manager that saves locally every 10 steps from 3, keeping two, and every 20 steps persistently. -/
theorem C139_nonvacuous :
    (let m := run (make ⟨10, 3, some 2⟩ ⟨20, 0, none⟩ [] (some [])) [.save 0 false, .save 3 false, .save 13 false, .save 20 false]
     m.loc = [3, 13] ∧ m.pers = some [0, 20] ∧ (save m 23 false).2.loc = [13, 23] ∧ (save m 40 false).2.pers = some [0, 20, 40] ∧
       (save m 41 false).1 = .ok false ∧ allSteps m true [7] = [0, 3, 7, 13, 20] ∧ OnSchedule m.lopts 23) ∧
    (delete (run (make ⟨10, 0, none⟩ ⟨10, 0, none⟩ [] (some [])) [.save 0 false]) 0).1 = .ok () :=
  ⟨⟨rfl, rfl, rfl, rfl, rfl, rfl, 2, rfl⟩, rfl⟩

end Verif.Emergency.PeerSaves
