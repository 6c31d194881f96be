import Verif.Futures.KV

/-!
# Properties of the key-value signaling client (C29) and of the signals contract (C27)

Specification: `Holds log k v` says that in the history `log` the key `k` was set to `v`, and after that
neither set again nor deleted.
-/

namespace Verif.Futures.KV

open Verif

/-- Deleting `k` removes the key `k'`: it is the key itself, or `k` is a directory above it. -/
def Covers (k k' : Str) : Prop := k' = k ∨ (k.getLast? = some '/' ∧ k <+: k')

/-- The operation changes the value of key `k`. -/
def Touches : Op → Str → Prop
  | .set k' _, k => k' = k
  | .delete k', k => Covers k' k

/-- After the history `log` the key `k` has the value `v`. -/
def Holds (log : List Op) (k v : Str) : Prop :=
  ∃ pre post, log = pre ++ .set k v :: post ∧ ∀ o ∈ post, ¬ Touches o k

/-! ### The operations -/

theorem covers_iff (k k' : Str) : Covers k k' ↔ if isDir k then (k == k' || k.isPrefixOf k') = true else k' = k := by
  unfold Covers isDir
  by_cases h : k.getLast? = some '/'
  · simp only [h, true_and, beq_self_eq_true, if_true, Bool.or_eq_true, beq_iff_eq, List.isPrefixOf_iff_prefix]
    constructor
    · rintro (h | h)
      · exact .inl h.symm
      · exact .inr h
    · rintro (h | h)
      · exact .inl h.symm
      · exact .inr h
  · simp [h]

theorem get_filter (d : Data) (p : Str → Bool) (k : Str) :
    Assoc.get (d.filter fun q => p q.1) k = if p k then Assoc.get d k else none := by
  induction d with
  | nil => simp
  | cons q d ih =>
    by_cases hq : p q.1 = true
    · rw [List.filter_cons_of_pos (by simpa using hq)]
      simp only [Assoc.get]
      by_cases hk : q.1 = k
      · subst hk; simp only [if_true, hq]
      · simp only [hk, if_false, ih]
    · rw [List.filter_cons_of_neg (by simpa using hq), ih]
      simp only [Assoc.get]
      by_cases hk : q.1 = k
      · simp only [hk, if_true]
        rw [hk] at hq; simp [hq]
      · simp [hk]

open Classical in
/-- **C29** deleting a key removes exactly that key and, if it ends with `/`, everything below it; all
other keys keep their value. -/
theorem C29_delete (d : Data) (k k' : Str) :
    tryGet (delete d k) k' = if Covers k k' then none else tryGet d k' := by
  unfold delete tryGet
  by_cases hd : isDir k = true
  · rw [if_pos hd, get_filter d (fun x => !(k == x || k.isPrefixOf x)) k']
    have := covers_iff k k'
    rw [if_pos hd] at this
    by_cases hc : Covers k k'
    · rw [if_pos hc, this.mp hc]; rfl
    · rw [if_neg hc]
      have : (k == k' || k.isPrefixOf k') = false := by
        cases hb : (k == k' || k.isPrefixOf k') with
        | false => rfl
        | true => exact absurd (this.mpr hb) hc
      rw [this]; rfl
  · rw [if_neg hd, Assoc.get_del]
    have := covers_iff k k'
    rw [if_neg hd] at this
    by_cases hc : Covers k k'
    · rw [if_pos hc, if_pos (this.mp hc)]
    · rw [if_neg hc, if_neg (fun h => hc (this.mpr h))]

/-- **C29** setting a key raises, without any effect, iff the key exists and overwriting is not allowed;
otherwise the key gets the value and all other keys keep theirs. -/
theorem C29_set (d : Data) (k v : Str) (ow : Bool) :
    (set d k v ow = none ↔ (∃ u, tryGet d k = some u) ∧ ow = false) ∧
    ∀ d', set d k v ow = some d' → ∀ k', tryGet d' k' = if k' = k then some v else tryGet d k' := by
  unfold set tryGet
  refine ⟨?_, ?_⟩
  · rw [← Assoc.mem_keys_iff]
    by_cases h : k ∈ Assoc.keys d ∧ ow = false
    · simp [h]
    · rw [if_neg h]; simp only [reduceCtorEq, false_iff]; exact h
  · intro d' h k'
    split at h
    · cases h
    · simp only [Option.some.injEq] at h; subst h
      exact Assoc.get_put d k k' v

/-- **C29** listing a directory returns the keys below it, with their values (`ValueError` if the key does
not end with `/`). -/
theorem C29_dir_get (d : Data) (k : Str) :
    (dirGet d k = none ↔ k.getLast? ≠ some '/') ∧
    ∀ l, dirGet d k = some l → ∀ k', Assoc.get l k' = if k.isPrefixOf k' then tryGet d k' else none := by
  unfold dirGet
  refine ⟨?_, ?_⟩
  · by_cases h : isDir k = true
    · rw [if_pos h]; simpa [isDir] using h
    · rw [if_neg h]; simpa [isDir] using h
  · intro l h k'
    split at h
    · simp only [Option.some.injEq] at h; subst h
      rw [get_filter d (fun x => k == x || k.isPrefixOf x) k']
      have : (k == k' || k.isPrefixOf k') = k.isPrefixOf k' := by
        by_cases he : k = k'
        · subst he; simp
        · simp [he]
      rw [this]; rfl
    · cases h

/-! ### Blocking get -/

theorem holds_append_set (log : List Op) (k v k' v' : Str) :
    Holds (log ++ [.set k v]) k' v' ↔ if k' = k then v' = v else Holds log k' v' := by
  by_cases he : k' = k
  · subst he
    simp only [if_true]
    constructor
    · rintro ⟨pre, post, h, hp⟩
      rcases List.eq_nil_or_concat post with rfl | ⟨post', x, rfl⟩
      · have := List.append_inj' (t₁ := [Op.set k' v]) (t₂ := [Op.set k' v']) h (by simp)
        have h2 := this.2
        simp only [List.cons.injEq, Op.set.injEq, true_and, and_true] at h2
        exact h2.symm
      · have h2 : log ++ [.set k' v] = (pre ++ .set k' v' :: post') ++ [x] := by rw [h]; simp
        have := (List.append_inj' h2 (by simp)).2
        simp only [List.cons.injEq, and_true] at this
        exact absurd rfl (hp x (by simp) ∘ (fun (_ : k' = k') => by rw [← this]; exact rfl))
    · rintro rfl; exact ⟨log, [], rfl, by simp⟩
  · simp only [he, if_false]
    constructor
    · rintro ⟨pre, post, h, hp⟩
      rcases List.eq_nil_or_concat post with rfl | ⟨post', x, rfl⟩
      · have := (List.append_inj' (t₁ := [Op.set k v]) (t₂ := [Op.set k' v']) h (by simp)).2
        simp only [List.cons.injEq, Op.set.injEq, and_true] at this
        exact absurd this.1.symm he
      · have h2 : log ++ [.set k v] = (pre ++ .set k' v' :: post') ++ [x] := by rw [h]; simp
        exact ⟨pre, post', (List.append_inj' h2 (by simp)).1, fun o ho => hp o (by simp [ho])⟩
    · rintro ⟨pre, post, rfl, hp⟩
      refine ⟨pre, post ++ [.set k v], by simp, ?_⟩
      intro o ho
      simp only [List.mem_append, List.mem_singleton] at ho
      rcases ho with ho | rfl
      · exact hp o ho
      · exact fun h : k = k' => he h.symm

theorem holds_append_delete (log : List Op) (k k' v' : Str) :
    Holds (log ++ [.delete k]) k' v' ↔ ¬ Covers k k' ∧ Holds log k' v' := by
  constructor
  · rintro ⟨pre, post, h, hp⟩
    rcases List.eq_nil_or_concat post with rfl | ⟨post', x, rfl⟩
    · have := (List.append_inj' (t₁ := [Op.delete k]) (t₂ := [Op.set k' v']) h (by simp)).2
      simp at this
    · have h2 : log ++ [.delete k] = (pre ++ .set k' v' :: post') ++ [x] := by rw [h]; simp
      have := List.append_inj' h2 (by simp)
      have hx := this.2
      simp only [List.cons.injEq, and_true] at hx
      exact ⟨fun hc => hp x (by simp) (by rw [← hx]; exact hc), pre, post', this.1, fun o ho => hp o (by simp [ho])⟩
  · rintro ⟨hc, pre, post, rfl, hp⟩
    refine ⟨pre, post ++ [.delete k], by simp, ?_⟩
    intro o ho
    simp only [List.mem_append, List.mem_singleton] at ho
    rcases ho with ho | rfl
    · exact hp o ho
    · exact hc

theorem step_data (w w' : World) (e : Ev) (h : step w e = some w') :
    (w'.data = w.data ∧ w'.log = w.log) ∨
    (∃ k v, w'.data = Assoc.put w.data k v ∧ w'.log = w.log ++ [.set k v] ∧ w'.getters = w.getters.map notify) ∨
    (∃ k, w'.data = delete w.data k ∧ w'.log = w.log ++ [.delete k] ∧ w'.getters = w.getters) := by
  cases e with
  | tick => simp only [step, Option.some.injEq] at h; subst h; exact .inl ⟨rfl, rfl⟩
  | set k v ow =>
    simp only [step, set] at h
    split at h
    · simp only [Option.some.injEq] at h; subst h; exact .inl ⟨rfl, rfl⟩
    · rename_i d hd
      split at hd
      · cases hd
      · simp only [Option.some.injEq] at h hd
        subst h; subst hd
        exact .inr (.inl ⟨k, v, rfl, rfl, rfl⟩)
  | delete k => simp only [step, Option.some.injEq] at h; subst h; exact .inr (.inr ⟨k, rfl, rfl, rfl⟩)
  | get k t => simp only [step, Option.some.injEq] at h; subst h; exact .inl ⟨rfl, rfl⟩
  | wake i =>
    simp only [step] at h
    split at h
    · split at h
      · simp only [Option.some.injEq] at h; subst h; exact .inl ⟨rfl, rfl⟩
      · cases h
    · cases h
  | expire i =>
    simp only [step] at h
    split at h
    · split at h
      · simp only [Option.some.injEq] at h; subst h; exact .inl ⟨rfl, rfl⟩
      · cases h
    · cases h

/-- **C29** at any time, in any interleaving, a key has a value iff it was set to it and not set again or
deleted (itself, or a directory above it) since. -/
theorem C29_linearizable (w : World) (h : Reach w) (k v : Str) : tryGet w.data k = some v ↔ Holds w.log k v := by
  induction h generalizing k v with
  | init =>
    simp only [init, tryGet, Assoc.get_nil, reduceCtorEq, false_iff]
    rintro ⟨pre, post, h, _⟩
    simp at h
  | step w w' e _ hs ih =>
    rcases step_data w w' e hs with ⟨h1, h2⟩ | ⟨k', v', h1, h2, _⟩ | ⟨k', h1, h2, _⟩
    · rw [h1, h2]; exact ih k v
    · rw [h1, h2, holds_append_set, tryGet, Assoc.get_put]
      by_cases he : k = k'
      · simp only [he, if_true, Option.some.injEq]; exact eq_comm
      · simp only [he, if_false]; exact ih k v
    · rw [h1, h2, C29_delete, holds_append_delete]
      by_cases hc : Covers k' k
      · simp [hc]
      · simp only [hc, if_false, not_false_eq_true, true_and]; exact ih k v

/-- **C29** no lost wake-up: a getter is never asleep while its key has a value. -/
theorem C29_never_asleep_while_set (w : World) (h : Reach w) (g : Getter) (hg : g ∈ w.getters)
    (hs : g.status = .sleeping) (v : Str) : ¬ Holds w.log g.key v := by
  have key : ∀ g ∈ w.getters, g.status = .sleeping → Assoc.get w.data g.key = none := by
    clear hs hg g
    induction h with
    | init => simp [init]
    | step w w' e _ hstep ih =>
      have hobs : ∀ now g, (observe w.data now g).status = .sleeping →
          Assoc.get w.data (observe w.data now g).key = none := by
        intro now g hh
        unfold observe at hh ⊢
        cases hd : Assoc.get w.data g.key with
        | some v => simp [hd] at hh
        | none =>
          simp only [hd] at hh ⊢
          split at hh
          · rename_i hlt; simp [hlt, hd]
          · cases hh
      intro g hg hsl
      cases e with
      | tick => simp only [step, Option.some.injEq] at hstep; subst hstep; exact ih g hg hsl
      | set k v ow =>
        simp only [step] at hstep
        split at hstep
        · simp only [Option.some.injEq] at hstep; subst hstep; exact ih g hg hsl
        · simp only [Option.some.injEq] at hstep; subst hstep
          simp only [List.mem_map] at hg
          obtain ⟨g0, _, rfl⟩ := hg
          unfold notify at hsl
          split at hsl
          · cases hsl
          · rename_i hne; exact absurd hsl hne
      | delete k =>
        simp only [step, Option.some.injEq] at hstep; subst hstep
        have := ih g hg hsl
        have h2 := C29_delete w.data k g.key
        unfold tryGet at h2
        simp only
        rw [h2, this]; simp
      | get k t =>
        simp only [step, Option.some.injEq] at hstep; subst hstep
        simp only [List.mem_append, List.mem_singleton] at hg
        rcases hg with hg | rfl
        · exact ih g hg hsl
        · exact hobs _ _ hsl
      | wake i =>
        simp only [step] at hstep
        split at hstep
        · split at hstep
          · simp only [Option.some.injEq] at hstep; subst hstep
            rcases List.mem_or_eq_of_mem_set hg with hg | rfl
            · exact ih g hg hsl
            · exact hobs _ _ hsl
          · cases hstep
        · cases hstep
      | expire i =>
        simp only [step] at hstep
        split at hstep
        · split at hstep
          · simp only [Option.some.injEq] at hstep; subst hstep
            rcases List.mem_or_eq_of_mem_set hg with hg | rfl
            · exact ih g hg hsl
            · exact hobs _ _ hsl
          · cases hstep
        · cases hstep
  intro hh
  rw [← C29_linearizable w h, tryGet, key g hg hs] at hh
  cases hh

theorem observe_key (d : Data) (now : Nat) (g : Getter) :
    (observe d now g).key = g.key ∧ (observe d now g).deadline = g.deadline := by
  unfold observe
  split
  · exact ⟨rfl, rfl⟩
  · split <;> exact ⟨rfl, rfl⟩

theorem notify_key (g : Getter) : (notify g).key = g.key ∧ (notify g).deadline = g.deadline ∧
    (∀ v, (notify g).status = .returned v ↔ g.status = .returned v) ∧
    ((notify g).status = .timedOut ↔ g.status = .timedOut) := by
  unfold notify
  split
  · rename_i h; simp [h]
  · simp

/-- How a step can end a get. -/
theorem step_getter (w w' : World) (e : Ev) (hs : step w e = some w') (i : Nat) (g' : Getter)
    (hg : w'.getters[i]? = some g') :
    (∃ g, w.getters[i]? = some g ∧ g.key = g'.key ∧ g.deadline = g'.deadline ∧
      (g'.status = g.status ∨ g'.status = .notified)) ∨
    (w'.log = w.log ∧ w'.data = w.data ∧ w'.now = w.now ∧ ∃ g0, g' = observe w.data w.now g0) := by
  cases e with
  | tick =>
    simp only [step, Option.some.injEq] at hs; subst hs
    exact .inl ⟨g', hg, rfl, rfl, .inl rfl⟩
  | set k v ow =>
    simp only [step] at hs
    split at hs
    · simp only [Option.some.injEq] at hs; subst hs
      exact .inl ⟨g', hg, rfl, rfl, .inl rfl⟩
    · simp only [Option.some.injEq] at hs; subst hs
      simp only [List.getElem?_map, Option.map_eq_some_iff] at hg
      obtain ⟨g, h1, rfl⟩ := hg
      refine .inl ⟨g, h1, (notify_key g).1.symm, (notify_key g).2.1.symm, ?_⟩
      unfold notify
      split
      · exact .inr rfl
      · exact .inl rfl
  | delete k =>
    simp only [step, Option.some.injEq] at hs; subst hs
    exact .inl ⟨g', hg, rfl, rfl, .inl rfl⟩
  | get k t =>
    simp only [step, Option.some.injEq] at hs; subst hs
    simp only [List.getElem?_append] at hg
    split at hg
    · exact .inl ⟨g', hg, rfl, rfl, .inl rfl⟩
    · right
      refine ⟨rfl, rfl, rfl, ?_⟩
      have := List.mem_of_getElem? hg
      simp only [List.mem_singleton] at this
      exact ⟨_, this⟩
  | wake j =>
    simp only [step] at hs
    split at hs
    · split at hs
      · simp only [Option.some.injEq] at hs; subst hs
        simp only [List.getElem?_set] at hg
        split at hg
        · split at hg
          · simp only [Option.some.injEq] at hg
            exact .inr ⟨rfl, rfl, rfl, _, hg.symm⟩
          · cases hg
        · exact .inl ⟨g', hg, rfl, rfl, .inl rfl⟩
      · cases hs
    · cases hs
  | expire j =>
    simp only [step] at hs
    split at hs
    · split at hs
      · simp only [Option.some.injEq] at hs; subst hs
        simp only [List.getElem?_set] at hg
        split at hg
        · split at hg
          · simp only [Option.some.injEq] at hg
            exact .inr ⟨rfl, rfl, rfl, _, hg.symm⟩
          · cases hg
        · exact .inl ⟨g', hg, rfl, rfl, .inl rfl⟩
      · cases hs
    · cases hs

/-- **C29** a blocking get that returns, returns the value that the key has at that moment. -/
theorem C29_get_returns_current_value (w w' : World) (hw : Reach w) (e : Ev) (hs : step w e = some w') (i : Nat)
    (g' : Getter) (hg : w'.getters[i]? = some g') (v : Str) (hr : g'.status = .returned v)
    (hbefore : ∀ g, w.getters[i]? = some g → g.status ≠ .returned v) : Holds w'.log g'.key v := by
  rcases step_getter w w' e hs i g' hg with ⟨g, h1, h2, h3, h4⟩ | ⟨h1, h2, h3, g0, h4⟩
  · rcases h4 with h4 | h4
    · exact absurd (h4 ▸ hr) (hbefore g h1)
    · rw [hr] at h4; cases h4
  · rw [← C29_linearizable w' (.step w w' e hw hs), h2, h4, (observe_key w.data w.now g0).1, tryGet]
    rw [h4] at hr
    unfold observe at hr
    split at hr
    · rename_i u hu
      simp only [Status.returned.injEq] at hr
      rw [hu, hr]
    · split at hr <;> cases hr

/-- **C29** a blocking get that times out does so after its deadline, and the key has no value at that
moment. -/
theorem C29_get_times_out_only_if_absent (w w' : World) (hw : Reach w) (e : Ev) (hs : step w e = some w') (i : Nat)
    (g' : Getter) (hg : w'.getters[i]? = some g') (hr : g'.status = .timedOut)
    (hbefore : ∀ g, w.getters[i]? = some g → g.status ≠ .timedOut) :
    g'.deadline ≤ w'.now ∧ ∀ v, ¬ Holds w'.log g'.key v := by
  rcases step_getter w w' e hs i g' hg with ⟨g, h1, h2, h3, h4⟩ | ⟨h1, h2, h3, g0, h4⟩
  · rcases h4 with h4 | h4
    · exact absurd (h4 ▸ hr) (hbefore g h1)
    · rw [hr] at h4; cases h4
  · rw [h4] at hr
    have hk := observe_key w.data w.now g0
    unfold observe at hr
    split at hr
    · cases hr
    · rename_i hn
      split at hr
      · cases hr
      · rename_i hlt
        refine ⟨by rw [h4, hk.2, h3]; omega, ?_⟩
        intro v hh
        rw [← C29_linearizable w' (.step w w' e hw hs), h2, h4, hk.1, tryGet, hn] at hh
        cases hh

/-- **C29** a blocking get cannot get stuck: it has ended, or it has been notified and can go on, or it is
asleep and its timeout will end it. -/
theorem C29_get_progress (w : World) (i : Nat) (g : Getter) (hg : w.getters[i]? = some g) :
    (∃ v, g.status = .returned v) ∨ g.status = .timedOut ∨
    (g.status = .notified ∧ ∃ w', step w (.wake i) = some w') ∨
    (g.status = .sleeping ∧ ∃ w', step { w with now := max w.now g.deadline } (.expire i) = some w') := by
  cases hst : g.status with
  | returned v => exact .inl ⟨v, rfl⟩
  | timedOut => exact .inr (.inl rfl)
  | notified => exact .inr (.inr (.inl ⟨rfl, _, by simp only [step, hg, hst, if_true]; rfl⟩))
  | sleeping =>
    refine .inr (.inr (.inr ⟨rfl, ?_⟩))
    have hle : g.deadline ≤ max w.now g.deadline := by omega
    simp only [step, hg, hst, true_and, hle, if_true]
    exact ⟨_, rfl⟩

/-- Run a sequence of events. -/
def runEvs : World → List Ev → Option World
  | w, [] => some w
  | w, e :: es => (step w e).bind fun w' => runEvs w' es

theorem reach_run (es : List Ev) (w w' : World) (h : Reach w) (hr : runEvs w es = some w') : Reach w' := by
  induction es generalizing w with
  | nil => simp only [runEvs, Option.some.injEq] at hr; exact hr ▸ h
  | cons e es ih =>
    simp only [runEvs] at hr
    cases hs : step w e with
    | none => rw [hs] at hr; cases hr
    | some w1 => rw [hs] at hr; exact ih w1 (.step w w1 e h hs) hr

/-- Non-vacuity: a get that sleeps, is woken by an unrelated key, sleeps again and then gets its value. -/
example : ∃ w, Reach w ∧ w.getters = [⟨['a'], 5, .returned ['1']⟩] ∧ w.now = 2 :=
  ⟨_, reach_run [.get ['a'] 5, .set ['b'] ['0'] false, .tick, .wake 0, .tick, .set ['a'] ['1'] false, .wake 0] _ _
    .init rfl, by decide, by decide⟩

/-- Finding: a get may time out although its key was set in time: if the key is deleted again before the
notified getter gets the lock, the value is missed. -/
theorem C29_set_and_deleted_is_missed_fails :
    ∃ w, Reach w ∧ .set ['a'] ['1'] ∈ w.log ∧ w.getters = [⟨['a'], 1, .timedOut⟩] :=
  ⟨_, reach_run [.get ['a'] 1, .set ['a'] ['1'] false, .delete ['a'], .wake 0, .tick, .expire 0] _ _
    .init rfl, by decide, by decide⟩

/-- Finding: deleting a key that does not end with `/` leaves the keys below it in place. -/
theorem C29_delete_without_slash_keeps_children_fails :
    tryGet (delete [("a/b".toList, ['1'])] "a".toList) "a/b".toList = some ['1'] := by decide

/-! ### The contract -/

theorem split_cons_ne (c : Char) (cs : Str) (h : c ≠ ',') : ∃ s ss, split cs = s :: ss ∧ split (c :: cs) = (c :: s) :: ss := by
  have hne : split cs ≠ [] := by
    cases cs with
    | nil => simp [split]
    | cons x xs =>
      simp only [split]
      split
      · simp
      · split <;> simp
  cases hs : split cs with
  | nil => exact absurd hs hne
  | cons s ss => exact ⟨s, ss, rfl, by simp [split, h, hs]⟩

theorem split_append (s : Str) (h : ',' ∉ s) (rest : Str) :
    split (s ++ ',' :: rest) = s :: split rest := by
  induction s with
  | nil => simp [split]
  | cons c s ih =>
    simp only [List.mem_cons, not_or] at h
    obtain ⟨x, xs, h1, h2⟩ := split_cons_ne c (s ++ ',' :: rest) (Ne.symm h.1)
    rw [List.cons_append, h2]
    rw [ih h.2] at h1
    simp only [List.cons.injEq] at h1
    rw [← h1.1, ← h1.2]

theorem split_single (s : Str) (h : ',' ∉ s) : split s = [s] := by
  induction s with
  | nil => rfl
  | cons c s ih =>
    simp only [List.mem_cons, not_or] at h
    obtain ⟨x, xs, h1, h2⟩ := split_cons_ne c s (Ne.symm h.1)
    rw [ih h.2] at h1
    simp only [List.cons.injEq] at h1
    rw [h2, ← h1.1, ← h1.2]

theorem split_join (l : List Str) (hne : l ≠ []) (h : ∀ s ∈ l, ',' ∉ s) : split (join l) = l := by
  induction l with
  | nil => exact absurd rfl hne
  | cons s l ih =>
    cases l with
    | nil => exact split_single s (h s (by simp))
    | cons t l =>
      rw [join]
      · rw [split_append s (h s (by simp)), ih (by simp) (fun x hx => h x (by simp [hx]))]
      · simp

theorem value_no_comma (s : Sig) : ',' ∉ s.value := by cases s <;> decide

theorem ofValue_value (s : Sig) : Sig.ofValue s.value = some s := by cases s <;> decide

theorem mapM_ofValue (l : List Sig) : (l.map Sig.value).mapM Sig.ofValue = some l := by
  induction l with
  | nil => rfl
  | cons s l ih => simp [ofValue_value, ih]

theorem opDir_prefix (op op' : Str) (k : Str) (h : '/' ∉ op) (h' : '/' ∉ op')
    (hp : opDir op <+: opDir op' ++ k) : op = op' := by
  unfold opDir at hp
  simp only [List.append_assoc] at hp
  rw [List.prefix_append_right_inj] at hp
  obtain ⟨t, ht⟩ := hp
  simp only [List.append_assoc, List.singleton_append] at ht
  induction op generalizing op' with
  | nil =>
    cases op' with
    | nil => rfl
    | cons c op' => simp at ht; exact absurd (ht.1 ▸ List.mem_cons_self) h'
  | cons c op ih =>
    cases op' with
    | nil => simp at ht; exact absurd (ht.1 ▸ List.mem_cons_self) h
    | cons c' op' =>
      simp only [List.cons_append, List.cons.injEq] at ht
      simp only [List.mem_cons, not_or] at h h'
      rw [ht.1, ih op' h.2 h'.2 ht.2]

theorem opDir_last (op : Str) : (opDir op).getLast? = some '/' := by
  have h : ∀ a : Str, (a ++ ['/']).getLast? = some '/' := by intro a; simp
  exact h _

theorem sigKey_inj (op op' : Str) (s s' : Sig) (h : '/' ∉ op) (h' : '/' ∉ op') (he : sigKey op s = sigKey op' s') :
    op = op' ∧ s = s' := by
  have h1 : op = op' := opDir_prefix op op' s'.value h h' ⟨s.value, by rw [← sigKey, he]; rfl⟩
  subst h1
  refine ⟨rfl, ?_⟩
  have := List.append_cancel_left he
  have := congrArg Sig.ofValue this
  rw [ofValue_value, ofValue_value] at this
  exact Option.some.inj this

theorem getContract_add (d d' : Data) (op op' : Str) (signals cur cur' : List Sig) (h : '/' ∉ op) (h' : '/' ∉ op')
    (hc : getContract d op = some cur) (hc' : getContract d op' = some cur')
    (ha : addContract d op signals = some d') :
    getContract d' op' = some (if op' = op then cur ++ signals else cur') := by
  unfold addContract at ha
  by_cases hs : signals = []
  · rw [if_pos hs] at ha
    simp only [Option.some.injEq] at ha; subst ha
    split
    · rename_i he; subst he; rw [hs, List.append_nil, hc]
    · exact hc'
  · rw [if_neg hs, hc] at ha
    simp only at ha
    have := (C29_set d (sigKey op .contract) (join ((cur ++ signals).map Sig.value)) true).2 d' ha
      (sigKey op' .contract)
    unfold getContract
    rw [this]
    by_cases he : op' = op
    · subst he
      simp only [if_true]
      rw [split_join _ (by simp [hs]) (by
        intro s hs'
        simp only [List.mem_map] at hs'
        obtain ⟨x, _, rfl⟩ := hs'
        exact value_no_comma x)]
      exact mapM_ofValue _
    · rw [if_neg (fun hk => he (sigKey_inj op' op _ _ h' h hk).1), if_neg he]
      exact hc'

/-- **C27** adding signals to the contract of an operation appends them to its list of awaitable signals,
and leaves the contracts of other operations alone. -/
theorem C27_contract_add (d : Data) (op op' : Str) (signals cur cur' : List Sig) (h : '/' ∉ op) (h' : '/' ∉ op')
    (hc : getContract d op = some cur) (hc' : getContract d op' = some cur') :
    ∃ d', addContract d op signals = some d' ∧
      getContract d' op' = some (if op' = op then cur ++ signals else cur') := by
  cases ha : addContract d op signals with
  | some d' => exact ⟨d', rfl, getContract_add d d' op op' signals cur cur' h h' hc hc' ha⟩
  | none =>
    exfalso
    unfold addContract at ha
    split at ha
    · cases ha
    · rw [hc] at ha
      simp only at ha
      have := ((C29_set d (sigKey op .contract) _ true).1.mp ha).2
      cases this

/-- **C27** setting a signal of an operation sets that signal, and no other signal of any operation. -/
theorem C27_set_signal (d : Data) (op op' : Str) (s s' : Sig) (h : '/' ∉ op) (h' : '/' ∉ op') :
    ∃ d', setSignal d op s = some d' ∧ (isSet d' op' s' = true ↔ (op' = op ∧ s' = s) ∨ isSet d op' s' = true) := by
  cases hs : setSignal d op s with
  | none =>
    have := ((C29_set d (sigKey op s) _ true).1.mp hs).2
    cases this
  | some d' =>
    refine ⟨d', rfl, ?_⟩
    unfold isSet
    rw [(C29_set d (sigKey op s) _ true).2 d' hs (sigKey op' s')]
    by_cases he : sigKey op' s' = sigKey op s
    · have := sigKey_inj op' op s' s h' h he
      simp [this]
    · rw [if_neg he]
      constructor
      · exact .inr
      · rintro (⟨rfl, rfl⟩ | h1)
        · exact absurd rfl he
        · exact h1

/-- **C27** removing the signals of an operation removes all of them, and none of any other operation (one
whose number merely starts with the same digits, say). -/
theorem C27_remove_all (d : Data) (op op' : Str) (s : Sig) (h : '/' ∉ op) (h' : '/' ∉ op') :
    tryGet (removeAll d op) (sigKey op' s) = if op' = op then none else tryGet d (sigKey op' s) := by
  unfold removeAll
  rw [C29_delete]
  have : Covers (opDir op) (sigKey op' s) ↔ op' = op := by
    constructor
    · rintro (h1 | ⟨_, h1⟩)
      · refine (opDir_prefix op op' s.value h h' ?_).symm
        exact ⟨[], by rw [List.append_nil, ← h1]; rfl⟩
      · exact (opDir_prefix op op' s.value h h' h1).symm
    · rintro rfl
      right
      exact ⟨opDir_last _, List.prefix_append _ _⟩
  by_cases he : op' = op
  · rw [if_pos (this.mpr he), if_pos he]
  · rw [if_neg (fun hc => he (this.mp hc)), if_neg he]

/-- **C27** after any additions to contracts, by any operations in any order, the contract of every operation is the list of
the signals added to it, in that order; it is empty for an operation to which none was added. -/
theorem C27_contract_history (adds : List (Str × List Sig)) (h : ∀ x ∈ adds, '/' ∉ x.1) :
    ∃ d, adds.foldlM (fun d x => addContract d x.1 x.2) ([] : Data) = some d ∧
      ∀ op, '/' ∉ op → getContract d op = some ((adds.filter fun x => decide (x.1 = op)).flatMap (·.2)) := by
  have main : ∀ (adds : List (Str × List Sig)) (d : Data) (f : Str → List Sig), (∀ x ∈ adds, '/' ∉ x.1) →
      (∀ op, '/' ∉ op → getContract d op = some (f op)) →
      ∃ d', adds.foldlM (fun d x => addContract d x.1 x.2) d = some d' ∧
        ∀ op, '/' ∉ op → getContract d' op = some (f op ++ (adds.filter fun x => decide (x.1 = op)).flatMap (·.2)) := by
    intro adds
    induction adds with
    | nil => intro d f _ hf; exact ⟨d, rfl, fun op ho => by simp [hf op ho]⟩
    | cons x adds ih =>
      intro d f hx hf
      have hx1 : '/' ∉ x.1 := hx x (List.mem_cons_self ..)
      obtain ⟨d1, h1, -⟩ := C27_contract_add d x.1 x.1 x.2 _ _ hx1 hx1 (hf _ hx1) (hf _ hx1)
      obtain ⟨d', h2, h3⟩ := ih d1 (fun op => if op = x.1 then f op ++ x.2 else f op)
        (fun y hy => hx y (List.mem_cons_of_mem _ hy)) (fun op ho => by
          rw [getContract_add d d1 x.1 op x.2 _ _ hx1 ho (hf _ hx1) (hf _ ho) h1]
          by_cases he : op = x.1
          · subst he; simp
          · simp [he])
      refine ⟨d', by simp [List.foldlM_cons, h1, h2], fun op ho => ?_⟩
      rw [h3 op ho]
      by_cases he : op = x.1
      · subst he; simp
      · simp [he, Ne.symm he]
  obtain ⟨d, h1, h2⟩ := main adds [] (fun _ => []) h (fun op _ => rfl)
  exact ⟨d, h1, fun op ho => by simpa using h2 op ho⟩

/-- **C27** once the signals of an operation have been removed its contract is empty. -/
theorem C27_contract_removed (d : Data) (op : Str) (h : '/' ∉ op) : getContract (removeAll d op) op = some [] := by
  unfold getContract
  rw [C27_remove_all d op op .contract h h, if_pos rfl]

/-- Non-vacuity: two operations with contracts and signals. -/
example : ∃ d1 d2 d3, addContract [] ['1'] [.stepDirectoryCreation] = some d1 ∧
    addContract d1 ['1'] [.itemDirectoryCreation] = some d2 ∧
    getContract d2 ['1'] = some [.stepDirectoryCreation, .itemDirectoryCreation] ∧
    setSignal d2 ['1', '0'] .stepDirectoryCreation = some d3 ∧
    isSet (removeAll d3 ['1']) ['1', '0'] .stepDirectoryCreation = true ∧
    getContract (removeAll d3 ['1']) ['1'] = some [] := by
  refine ⟨_, _, _, rfl, rfl, ?_, rfl, ?_, ?_⟩ <;> decide

end Verif.Futures.KV
