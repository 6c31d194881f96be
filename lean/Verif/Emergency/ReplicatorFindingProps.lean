import Verif.Emergency.ReplicatorPairProps

/-!
# Where state and dataset come apart, and what is refused (C87)
-/

namespace Verif.Emergency.Replicator
open Verif Verif.Emergency.Mesh
open Verif.Policies (Ckpt)

variable {V D : Type}

/-- Nothing is deleted (`PreserveAll`). -/
def keepAll (l : List Ckpt) : List Bool := l.map fun _ => true

theorem trim_keepAll {α : Type} (m : Mgr α) (f : Info α → Ckpt) : Mgr.trim (keepAll (m.map f)) m = m := by
  induction m with
  | nil => rfl
  | cons a m ih => simpa [keepAll, Mgr.trim] using ih

/-! ### Refusals -/

theorem restore_eq_none (st : St V D) (s : Int) (args : List (Name × Arg)) (h : restoreStep st s args = none) : restore st (some s) args = none := by
  simp only [restore]
  split
  · rfl
  · exact h

theorem found (cfg : Cfg) (start : St V D) (h0 : start.loc = []) (es : List (Ev V D)) (s : Int) (d : Local V)
    (hd : (run cfg start es).2.loc.find s = some d) :
    ∃ inc c, lastSave start.inc s (run cfg start es).1 none = some (inc, c) ∧ d = localOf inc c := by
  obtain ⟨t, ht⟩ := find_mem _ _ _ hd
  obtain ⟨inc, c, h1, -, h3⟩ := (tracks_start cfg start h0 es).2 _ ht
  exact ⟨inc, c, h1, h3⟩

/-- C87: a step that is not listed is not restored, whatever the persistent directory has. -/
theorem C87_unlisted (st : St V D) (s : Int) (args : List (Name × Arg)) (h : s ∉ st.loc.steps) : restore st (some s) args = none := by
  apply restore_eq_none
  simp [restoreStep, find_none _ _ h]

/-- C87: after the number of processes or of devices has changed, no step saved before is restored: nothing wrong is returned instead. -/
theorem C87_resized (cfg : Cfg) (start : St V D) (h0 : start.loc = []) (es : List (Ev V D)) (s : Int) (args : List (Name × Arg))
    (inc : Inc) (c : SaveCall V D) (hlast : lastSave start.inc s (run cfg start es).1 none = some (inc, c))
    (h : inc.ids.length ≠ (run cfg start es).2.inc.ids.length ∨
      inc.ids.flatten.length ≠ (run cfg start es).2.inc.ids.flatten.length) :
    restore (run cfg start es).2 (some s) args = none := by
  cases hr : restore (run cfg start es).2 (some s) args with
  | none => rfl
  | some res =>
    exfalso
    obtain ⟨s', hs, hr'⟩ := restore_some _ _ _ _ hr
    have e : s' = s := by
      rcases hs with h | h
      · cases h; rfl
      · cases h.1
    rw [e] at hr'
    obtain ⟨d, args', rest, got, got', h1, -, h3, -⟩ := restoreStep_some _ _ _ _ hr'
    obtain ⟨inc', c', h4, h5⟩ := found cfg start h0 es s d h1
    rw [hlast] at h4
    cases h4
    rw [h5] at h3
    simp only [compatible, localOf, Bool.and_eq_true, beq_iff_eq] at h3
    rcases h with h | h
    · exact h h3.1.1
    · exact h h3.1.2

/-- C87 (finding): a dataset requested with `PyTreeRestore` is looked for in local storage, where it never is: it can be saved, but in no history
restored that way. -/
theorem C87_tree_dataset_fails (cfg : Cfg) (start : St V D) (h0 : start.loc = []) (es : List (Ev V D)) (step : Option Int)
    (args : List (Name × Arg)) (p : Place) (h : (datasetName, Arg.tree p) ∈ args) : restore (run cfg start es).2 step args = none := by
  cases hr : restore (run cfg start es).2 step args with
  | none => rfl
  | some res =>
    exfalso
    obtain ⟨s, -, hr'⟩ := restore_some _ _ _ _ hr
    obtain ⟨d, -, -, -, -, h1, -⟩ := restoreStep_some _ _ _ _ hr'
    obtain ⟨inc, c, -, rfl⟩ := found cfg start h0 es s d h1
    obtain ⟨-, rest, -, h3⟩ := restoreStep_values _ _ _ _ hr' inc c h1
    exact (h3 _ _ h).1 rfl

theorem per_none_run (cfg : Cfg) (es : List (Ev V D)) (st : St V D) (h : st.per = none) : (run cfg st es).2.per = none := by
  induction es generalizing st with
  | nil => exact h
  | cons e es ih =>
    simp only [run]
    apply ih
    cases e with
    | restart inc keep => simp [exec, h]
    | delete s =>
      simp only [exec, delete, h]
      split
      · exact h
      · rfl
    | save c =>
      simp only [exec, save]
      split
      · exact h
      split
      · exact h
      cases st.loc.save cfg c.step c.now c.force c.preempted (localOf st.inc c) with
      | none => exact h
      | some r =>
        obtain ⟨loc, b⟩ := r
        cases b with
        | false => exact h
        | true => simp [h]

theorem readLocal_keys (inc : Inc) (rest : List Nat) (d : Local V) (args : List (Name × Arg)) (got : List (Name × (List V ⊕ D)))
    (h : readLocal D inc rest d args = some got) (k : Name) (v : List V ⊕ D) (hk : Assoc.get got k = some v) :
    ∃ a ∈ args, a.1 = k ∧ a.2.isTree = true := by
  have hm := Assoc.mem_of_get _ _ _ hk
  rw [readLocal, mapM_iff] at h
  have : some (k, v) ∈ got.map some := List.mem_map.2 ⟨_, hm, rfl⟩
  rw [← h] at this
  obtain ⟨a, ha, e⟩ := List.mem_map.1 this
  obtain ⟨w, -, e⟩ := Option.map_eq_some_iff.1 e
  cases e
  exact ⟨a, (List.mem_filter.1 ha).1, rfl, (List.mem_filter.1 ha).2⟩

/-- C87 (finding): without a persistent directory `save` accepts a dataset and drops it (`C87_no_directory_nonvacuous`), and no request for
a dataset is ever served. -/
theorem C87_no_directory_fails (cfg : Cfg) (start : St V D) (h0 : start.loc = []) (hp : start.per = none) (es : List (Ev V D))
    (step : Option Int) (args : List (Name × Arg)) (h : datasetName ∈ args.map (·.1)) : restore (run cfg start es).2 step args = none := by
  cases hr : restore (run cfg start es).2 step args with
  | none => rfl
  | some res =>
    exfalso
    obtain ⟨⟨k, a⟩, ha, hk⟩ := List.mem_map.1 h
    simp only at hk
    subst hk
    cases a with
    | tree p => rw [C87_tree_dataset_fails cfg start h0 es step args p ha] at hr; cases hr
    | other =>
      obtain ⟨s, -, hr'⟩ := restore_some _ _ _ _ hr
      obtain ⟨d, args', rest, got, got', h1, h2, -, -, -, h6, h7, h8⟩ := restoreStep_some _ _ _ _ hr'
      have hgg := (addDataset_some _ _ _ _ _ h7).2.1 (per_none_run cfg es start hp)
      obtain ⟨e, -⟩ := materialize_some _ _ _ h2
      have hm : (datasetName, Arg.other) ∈ args' := e ▸ List.mem_map.2 ⟨_, ha, rfl⟩
      have : ((Assoc.get got' datasetName).map fun v => (datasetName, place (run cfg start es).2.inc rest .other v)) ∈ res.map some := by
        rw [← (mapM_iff _ _ _).1 h8]
        exact List.mem_map.2 ⟨_, hm, rfl⟩
      obtain ⟨r, -, e2⟩ := List.mem_map.1 this
      obtain ⟨v, hv, -⟩ := Option.map_eq_some_iff.1 e2.symm
      rw [hgg] at hv
      obtain ⟨⟨k, b⟩, hb, hk, ht⟩ := readLocal_keys _ _ _ _ _ h6 _ _ hv
      simp only at hk
      subst hk
      rw [e] at hb
      obtain ⟨⟨k, b'⟩, hb', e3⟩ := List.mem_map.1 hb
      have hk : k = datasetName := by
        have := congrArg Prod.fst e3
        rwa [named_fst] at this
      subst hk
      have ht' : b'.isTree = true := by
        have := named_isTree (datasetName, b')
        rw [e3] at this
        exact this.symm.trans ht
      cases b' with
      | other => cases ht'
      | tree p => rw [C87_tree_dataset_fails cfg start h0 es step args p hb'] at hr; cases hr

/-- C87 (finding): a step that was saved without a dataset can be listed and restored, but `delete` raises and keeps it. -/
theorem C87_delete_fails (cfg : Cfg) (st : St V D) (per : Mgr D) (hp : st.per = some per) (c : SaveCall V D) (hd : c.dataset = none)
    (hn : c.step ∉ per.steps) (hk : cfg.keep = keepAll) (hs : (save cfg st c).2 = .saved) :
    delete (save cfg st c).1 c.step = ((save cfg st c).1, .raised) ∧ c.step ∈ (save cfg st c).1.loc.steps := by
  have hper : (save cfg st c).1.per = some per ∧ c.step ∈ (save cfg st c).1.loc.steps := by
    simp only [save] at hs ⊢
    split at hs
    · cases hs
    split at hs
    · cases hs
    rename_i h1 h2
    rw [if_neg h1, if_neg h2]
    rcases save_cases cfg st.loc c.step c.now c.force c.preempted (localOf st.inc c) with h3 | h3 | ⟨hn', fs, h3⟩
    · rw [h3] at hs; cases hs
    · rw [h3] at hs; cases hs
    · have h4 : st.loc.save cfg c.step c.now c.force c.preempted (localOf st.inc c) =
          some (st.loc ++ [⟨c.step, c.now, localOf st.inc c⟩], true) := by
        simp only [Mgr.save] at h3 ⊢
        split at h3
        · simp at h3
        rename_i h5
        rw [if_neg h5, if_neg (by simpa using hn')]
        rw [hk, trim_keepAll]
      rw [h4]
      simp only [hp, hd]
      exact ⟨trivial, by simp [Mgr.steps]⟩
  refine ⟨?_, hper.2⟩
  simp only [delete, hper.1, (delete_none_iff per c.step).2 hn]

theorem mem_trim_of {α : Type} (fs : List Bool) (m : Mgr α) (k : Nat) (i : Info α) (hi : m[k]? = some i) (hf : fs[k]? ≠ some false) :
    i ∈ Mgr.trim fs m := by
  induction fs generalizing m k with
  | nil => simpa [Mgr.trim] using List.mem_of_getElem? hi
  | cons f fs ih =>
    cases m with
    | nil => simp at hi
    | cons j m =>
      simp only [Mgr.trim]
      cases k with
      | zero =>
        have h1 : j = i := by simpa using hi
        have h2 : f = true := by cases f <;> simp_all
        simp [h1, h2]
      | succ k =>
        have := ih m k (by simpa using hi) (by simpa using hf)
        cases f
        · simpa using this
        · exact List.mem_cons_of_mem _ (by simpa using this)

/-- C87: a forced save of a step that is not listed stores the state, whatever the save decisions are, and the step is listed unless the policy drops
the newest step. -/
theorem C87_forced (cfg : Cfg) (hkeep : ∀ (l : List Ckpt) (k : Nat), k + 1 = l.length → (cfg.keep l)[k]? ≠ some false) (st : St V D)
    (c : SaveCall V D) (hf : c.force = true) (hs : stateName ∈ c.items.map (·.1)) (hp : processName ∉ c.items.map (·.1))
    (hn : c.step ∉ st.loc.steps) :
    ((save cfg st c).2 = .saved ∨ (save cfg st c).2 = .raisedDataset) ∧ c.step ∈ (save cfg st c).1.loc.steps := by
  have hv : validNames (c.items.map (·.1)) = true := by
    simp only [validNames, Bool.and_eq_true, Bool.not_eq_true']
    exact ⟨by simpa using hs, by simpa using hp⟩
  have hc : st.loc.steps.contains c.step = false := by simpa using hn
  have h1 : ∃ fs, st.loc.save cfg c.step c.now c.force c.preempted (localOf st.inc c) =
      some (Mgr.trim fs (st.loc ++ [⟨c.step, c.now, localOf st.inc c⟩]), true) ∧ fs[st.loc.length]? ≠ some false := by
    simp only [Mgr.save, hf, Bool.not_true, Bool.false_and, Bool.false_eq_true, if_false, hc]
    exact ⟨_, rfl, hkeep _ _ (by simp)⟩
  obtain ⟨fs, h1, h2⟩ := h1
  have hmem : c.step ∈ Mgr.steps (Mgr.trim fs (st.loc ++ [⟨c.step, c.now, localOf st.inc c⟩])) :=
    List.mem_map.2 ⟨_, mem_trim_of fs _ st.loc.length ⟨c.step, c.now, localOf st.inc c⟩ (by simp) h2, rfl⟩
  simp only [save, hv, hf, Bool.not_true, Bool.false_and, Bool.false_eq_true, if_false]
  rw [hf] at h1
  rw [h1]
  simp only
  split
  · split
    · exact ⟨.inr rfl, hmem⟩
    · exact ⟨.inl rfl, hmem⟩
  · exact ⟨.inl rfl, hmem⟩

theorem C87_forced_nonvacuous (l : List Ckpt) (k : Nat) (h : k + 1 = l.length) : (keepAll l)[k]? ≠ some false := by
  simp [keepAll, List.getElem?_map]

/-! ### State and dataset of different calls -/

/-- The save call of the examples: one array, at clock 0. -/
def call (s : Int) (x : Nat → V) (d : D) : SaveCall V D := ⟨s, [(stateName, x)], some d, false, false, 0, 0⟩

/-- Default save decisions, nothing deleted. -/
def plain (n : Nat) : Cfg := ⟨interval n, keepAll⟩

theorem save_first {α : Type} (n : Nat) (s t : Int) (p : Bool) (x : α) : Mgr.save (plain n) ([] : Mgr α) s t false p x = some ([⟨s, t, x⟩], true) := by
  simp [Mgr.save, Mgr.shouldSave, Mgr.latest, plain, interval, Mgr.steps, Mgr.trim, keepAll]

theorem save_call_first (n : Nat) (st : St V D) (h : st.loc = []) (s : Int) (x : Nat → V) (d : D) :
    save (plain n) st (call s x d) = match st.per with
      | none => (⟨st.inc, [⟨s, 0, localOf st.inc (call s x d)⟩], none⟩, .saved)
      | some per => match per.save (plain n) s 0 false false d with
        | none => (⟨st.inc, [⟨s, 0, localOf st.inc (call s x d)⟩], some per⟩, .raisedDataset)
        | some (per, _) => (⟨st.inc, [⟨s, 0, localOf st.inc (call s x d)⟩], some per⟩, .saved) := by
  obtain ⟨inc, loc, per⟩ := st
  have h : loc = [] := h
  subst h
  have h1 : validNames ((call s x d).items.map (·.1)) = true := by
    simp only [call, List.map_cons, List.map_nil]; decide
  have h2 : Mgr.shouldSave (plain n) ([] : Mgr (Local V)) s false = true := by simp [Mgr.shouldSave, Mgr.latest, plain, interval, Mgr.steps]
  simp only [save, h1, call, h2, Bool.not_true, Bool.and_false, Bool.false_eq_true, if_false, save_first]
  cases per with
  | none => rfl
  | some per => cases per.save (plain n) s 0 false false d <;> rfl

/-- C87 (finding): local steps were lost, the persistent directory has some, all before `s`.  With the default save decisions the next `save` of a
step `s` off the interval returns `True`, because there are no local steps, but the dataset is not saved, because there are datasets: a restore of
the step with its dataset fails. -/
theorem C87_dataset_skipped_fails (n : Nat) (s : Int) (hs : s % n ≠ 0) (inc : Inc) (per : Mgr D) (hne : per ≠ []) (hlt : ∀ l ∈ per.steps, l < s)
    (x : Nat → V) (d : D) (args : List (Name × Arg)) (ha : datasetName ∈ args.map (·.1)) :
    (save (plain n) ⟨inc, [], some per⟩ (call s x d)).2 = .saved ∧
    restore (save (plain n) ⟨inc, [], some per⟩ (call s x d)).1 (some s) args = none := by
  have hp : per.save (plain n) s 0 false false d = some (per, false) := by
    have hsh : per.shouldSave (plain n) s false = false := by
      have hb : interval n s per.steps false = false := by
        have : per.steps.isEmpty = false := by cases per <;> simp_all [Mgr.steps]
        simp [interval, hs, this]
      simp only [Mgr.shouldSave, plain]
      split
      · split
        · rfl
        · exact hb
      · exact hb
    simp [Mgr.save, hsh]
  rw [save_call_first n _ rfl]
  simp only [hp]
  refine ⟨trivial, ?_⟩
  apply restore_eq_none
  cases hr : restoreStep _ s args with
  | none => rfl
  | some res =>
    exfalso
    obtain ⟨_, args', rest, got, got', -, h2, -, -, -, -, h7, -⟩ := restoreStep_some _ _ _ _ hr
    obtain ⟨e, -⟩ := materialize_some _ _ _ h2
    have hm : datasetName ∈ args'.map (·.1) := by
      obtain ⟨a, ham, e1⟩ := List.mem_map.1 ha
      exact List.mem_map.2 ⟨named a, e ▸ List.mem_map.2 ⟨a, ham, rfl⟩, by rw [named_fst]; exact e1⟩
    obtain ⟨dd, hdd, -⟩ := (addDataset_some _ _ _ _ _ h7).2.2 per rfl hm
    rw [find_none per s (fun hc => by have := hlt s hc; omega)] at hdd
    cases hdd

theorem C87_dataset_skipped_nonvacuous : ((7 : Int) % (5 : Nat) ≠ 0) ∧ (∀ l ∈ Mgr.steps ([⟨5, 0, 1⟩] : Mgr Nat), l < 7) ∧
    ([⟨5, 0, 1⟩] : Mgr Nat) ≠ [] := by
  refine ⟨by decide, ?_, by simp⟩
  intro l hl
  have : l = 5 := by simpa [Mgr.steps] using hl
  omega

/-- C87 (finding): step `s` is saved, the local steps are lost, the run repeats and saves step `s` again: `save` returns `True`, and restoring
gives the new state with the old dataset. -/
theorem C87_stale_dataset_fails (n : Nat) (s : Int) (inc : Inc) (hi : inc.Ok) (x x' : Nat → V) (d d' : D) :
    ∃ tr st, run (plain n) ⟨inc, [], some []⟩ [.save (call s x d), .restart inc (fun _ => false), .save (call s x' d')] = (tr, st) ∧
      tr.map (·.2) = [.saved, .done, .saved] ∧
      lastSave inc s tr none = some (inc, call s x' d') ∧
      ∃ res, restore st (some s) [(stateName, .tree .infer), (datasetName, .other)] = some res ∧ (datasetName, Val.data d) ∈ res := by
  have h1 : Mgr.save (plain n) ([⟨s, 0, d⟩] : Mgr D) s 0 false false d' = some ([⟨s, 0, d⟩], false) := by
    simp [Mgr.save, Mgr.shouldSave, Mgr.latest]
  have e1 : save (plain n) (⟨inc, [], some []⟩ : St V D) (call s x d) = (⟨inc, [⟨s, 0, localOf inc (call s x d)⟩], some [⟨s, 0, d⟩]⟩, .saved) := by
    rw [save_call_first n _ rfl]
    simp only [save_first]
  have e2 : save (plain n) (⟨inc, [], some [⟨s, 0, d⟩]⟩ : St V D) (call s x' d') =
      (⟨inc, [⟨s, 0, localOf inc (call s x' d')⟩], some [⟨s, 0, d⟩]⟩, .saved) := by
    rw [save_call_first n _ rfl]
    simp only [h1]
  have e3 : run (plain n) (⟨inc, [], some []⟩ : St V D) [.save (call s x d), .restart inc (fun _ => false), .save (call s x' d')] =
      ([(.save (call s x d), .saved), (.restart inc (fun _ => false), .done), (.save (call s x' d'), .saved)],
        ⟨inc, [⟨s, 0, localOf inc (call s x' d')⟩], some [⟨s, 0, d⟩]⟩) := by
    simp [run, exec, e1, e2, Mgr.load, Mgr.insert]
  refine ⟨_, _, e3, rfl, by simp [lastSave, call], ?_⟩
  have hoth : ∀ k, (k, Arg.other) ∈ [(stateName, Arg.tree .infer), (datasetName, .other)] → k = datasetName := by
    intro k hk
    simpa using hk
  obtain ⟨res, hres⟩ := restoreStep_exists (⟨inc, [⟨s, 0, localOf inc (call s x' d')⟩], some [⟨s, 0, d⟩]⟩ : St V D) s
    [(stateName, .tree .infer), (datasetName, .other)] inc (call s x' d') (by simp [Mgr.find]) hi hi rfl
    (by
      intro k p hk
      simp only [List.mem_cons, Prod.mk.injEq, Arg.tree.injEq, reduceCtorEq, and_false, List.not_mem_nil, or_false] at hk
      obtain ⟨rfl, rfl⟩ := hk
      exact ⟨by simp, by decide, x', by simp [call, Assoc.get]⟩)
    (fun k hk => ⟨hoth k hk, [⟨s, 0, d⟩], d, rfl, by simp [Mgr.find]⟩)
  refine ⟨res, by rw [restore_valid _ _ _ (by decide) (by decide) hoth]; exact hres, ?_⟩
  obtain ⟨_, args', rest, got, got', -, h2, -, -, -, -, h7, h8⟩ := restoreStep_some _ _ _ _ hres
  obtain ⟨e, -⟩ := materialize_some _ _ _ h2
  subst e
  obtain ⟨dd, hdd, hg⟩ := (addDataset_some _ _ _ _ _ h7).2.2 _ rfl (by decide)
  have : dd = d := by
    have h9 : Mgr.find ([⟨s, 0, d⟩] : Mgr D) s = some d := by simp [Mgr.find]
    rw [h9] at hdd; cases hdd; rfl
  subst this
  have hm : ((Assoc.get got' datasetName).map fun v => (datasetName, place inc rest .other v)) ∈ res.map some := by
    rw [← (mapM_iff _ _ _).1 h8]
    exact List.mem_map.2 ⟨(datasetName, .other), by simp [named], rfl⟩
  rw [hg] at hm
  simp only [Option.map_some, List.mem_map, Option.some.injEq] at hm
  obtain ⟨r, hr, e⟩ := hm
  rw [e] at hr
  exact hr

/-! ### A concrete job -/

/-- Two hosts with two devices each; after the restart the hosts have each other's device ids. -/
def before : Inc := ⟨[[0, 1], [2, 3]], [0, 1, 2, 3], [0, 2, 1, 3]⟩
def after : Inc := ⟨[[2, 3], [0, 1]], [0, 1, 2, 3], [0, 2, 1, 3]⟩

theorem before_ok : before.Ok := by
  refine ⟨by decide, by decide, by decide, by decide⟩
theorem after_ok : after.Ok := by
  refine ⟨by decide, by decide, by decide, by decide⟩

/-- Two steps, a restart. -/
def job : List (Ev Nat Nat) := [.save (call 0 (fun k => 10 + k) 70), .save (call 5 (fun k => 20 + k) 75), .restart after fun _ => true]

theorem C87_nonvacuous :
    (run (plain 5) ⟨before, [], some []⟩ job).2.loc.steps = [0, 5] ∧
    restore (run (plain 5) ⟨before, [], some []⟩ job).2 (some 5) [(stateName, .tree .named), (datasetName, .other)] =
      some [(stateName, .array [(0, 20), (2, 21), (1, 22), (3, 23)]), (datasetName, .data 75)] ∧
    restore (run (plain 5) ⟨before, [], some []⟩ job).2 none [(stateName, .tree .infer)] =
      some [(stateName, .array [(0, 20), (2, 21), (1, 22), (3, 23)])] := by
  refine ⟨rfl, rfl, rfl⟩

/-- The hypotheses of `C87_succeeds` and `C87_pairs_succeed` are met by `job`. -/
theorem C87_succeeds_nonvacuous :
    (5 : Int) ∈ (run (plain 5) ⟨before, [], some []⟩ job).2.loc.steps ∧
    lastSave before 5 (run (plain 5) ⟨before, [], some []⟩ job).1 none = some (before, call 5 (fun k => 20 + k) 75) ∧
    (run (plain 5) ⟨before, [], some []⟩ job).2.inc = after ∧ before.Ok ∧ after.Ok ∧ SameShape before.ids after.ids ∧
    (∀ c, Ev.save c ∈ job → c.dataset ≠ none ∧ c.force = false) ∧ (∀ inc keep, Ev.restart inc keep ∈ job → ∀ s, keep s = true) ∧
    ∀ l l' : List Ckpt, l.map (·.step) = l'.map (·.step) → (plain 5).keep l = (plain 5).keep l' := by
  refine ⟨by decide, rfl, rfl, before_ok, after_ok, rfl, ?_, ?_, ?_⟩
  · intro c hc
    simp only [job, List.mem_cons, Ev.save.injEq, reduceCtorEq, List.not_mem_nil, or_false] at hc
    rcases hc with rfl | rfl <;> simp [call]
  · intro inc keep h s
    simp only [job, List.mem_cons, reduceCtorEq, Ev.restart.injEq, List.not_mem_nil, or_false, false_or] at h
    rw [h.2]
  · intro l l' h
    have : l.length = l'.length := by simpa using congrArg List.length h
    simp [plain, keepAll, List.map_const', this]

/-- `LatestN` depends on the steps only. -/
theorem C87_latestN_nonvacuous (n : Option Int) (l l' : List Ckpt) (h : l.map (·.step) = l'.map (·.step)) :
    Policies.latestN n l = Policies.latestN n l' := by
  have : l.length = l'.length := by simpa using congrArg List.length h
  simp [Policies.latestN, this]

/-- C87 (finding): with arguments that give mesh and axes instead of a sharding, the array comes back on other devices than those of the mesh. -/
theorem C87_mesh_axes_fails :
    restore (run (plain 5) ⟨before, [], some []⟩ job).2 (some 5) [(stateName, .tree .meshAxes)] =
      some [(stateName, .array [(2, 20), (0, 21), (3, 22), (1, 23)])] := rfl

/-- C87 (finding): a policy on time (`EveryNSeconds`) deletes different steps in the two stores, because each takes its own time: the step is
listed, its dataset is gone. -/
theorem C87_time_policy_fails :
    ∃ tr st, run ⟨interval 1, Policies.everyNSeconds 10⟩ (⟨before, [], some []⟩ : St Nat Nat)
        [.save { call 1 (fun k => k) 71 with nowDataset := 1 }, .save { call 2 (fun k => k) 72 with now := 10, nowDataset := 10 }] = (tr, st) ∧
      tr.map (·.2) = [.saved, .saved] ∧ st.loc.steps = [1, 2] ∧ st.per.map Mgr.steps = some [1] ∧
      restore st (some 2) [(stateName, .tree .infer), (datasetName, .other)] = none :=
  ⟨_, _, rfl, rfl, rfl, rfl, rfl⟩

theorem C87_no_directory_nonvacuous : (save (plain 5) (⟨before, [], none⟩ : St Nat Nat) (call 0 (fun k => k) 70)).2 = .saved := rfl

theorem C87_delete_nonvacuous :
    (save (plain 5) (⟨before, [], some []⟩ : St Nat Nat) { call 0 (fun k => k) 70 with dataset := none }).2 = .saved := rfl

theorem C87_resized_nonvacuous :
    restore (run (plain 5) ⟨before, [], some []⟩ (job ++ [.restart ⟨[[0, 1, 2, 3]], [0, 1, 2, 3], [0, 2, 1, 3]⟩ fun _ => true])).2 (some 5)
      [(stateName, .tree .named)] = none := rfl

end Verif.Emergency.Replicator
