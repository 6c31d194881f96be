import Verif.Store.Snapshot

/-! # C59: snapshots -/

namespace Verif.Snapshot

open Verif.Assoc

/-! ### Specification: what is at a path of a directory tree -/

mutual
/-- What is at the path in the directory. -/
def Tree.at : Tree → Path → Option Kind
  | .mk _ _, [] => some .dir
  | .mk fs ds, n :: q => match q, Assoc.get fs n with
    | [], some c => some (.file c)
    | _, _ => Forest.at ds n q
def Forest.at : Forest → Name → Path → Option Kind
  | .nil, _, _ => none
  | .cons m t r, n, q => if n = m then Tree.at t q else Forest.at r n q
end

/-- The names of the directories. -/
def Forest.names : Forest → List Name
  | .nil => []
  | .cons n _ r => n :: Forest.names r

mutual
/-- Names in a directory are different. -/
def Tree.Wf : Tree → Prop
  | .mk fs ds => (keys fs).Nodup ∧ ds.names.Nodup ∧ (∀ n ∈ keys fs, n ∉ ds.names) ∧ Forest.Wf ds
def Forest.Wf : Forest → Prop
  | .nil => True
  | .cons _ t r => Tree.Wf t ∧ Forest.Wf r
end

/-! ### Helper lemmas -/

theorem forest_at_none (ds : Forest) (n : Name) (q : Path) (h : n ∉ ds.names) : Forest.at ds n q = none := by
  match ds with
  | .nil => simp [Forest.at]
  | .cons m t r =>
    simp only [Forest.names, List.mem_cons, not_or] at h
    simp only [Forest.at, h.1, if_false]
    exact forest_at_none r n q h.2

mutual
theorem mem_walk (t : Tree) (h : t.Wf) (p : Path) (q : Path) (k : Kind) :
    (q, k) ∈ walk t p ↔ ∃ q', q = p ++ q' ∧ t.at q' = some k := by
  match t with
  | .mk fs ds =>
    simp only [Tree.Wf] at h
    obtain ⟨h1, h2, h3, h4⟩ := h
    simp only [walk, List.cons_append, List.mem_cons, List.mem_append, List.mem_map, Prod.mk.injEq, Prod.exists]
    constructor
    · rintro (⟨rfl, rfl⟩ | ⟨n, c, hm, rfl, rfl⟩ | hm)
      · exact ⟨[], by simp, by simp [Tree.at]⟩
      · refine ⟨[n], rfl, ?_⟩
        simp [Tree.at, get_of_mem fs h1 n c hm]
      · obtain ⟨n, q', rfl, hat⟩ := (mem_walkF ds h4 h2 p q k).1 hm
        refine ⟨n :: q', rfl, ?_⟩
        have hn : Assoc.get fs n = none := by
          rw [get_eq_none_iff]
          intro hn
          rw [forest_at_none ds n q' (h3 n hn)] at hat
          cases hat
        simp [Tree.at, hn, hat]
    · rintro ⟨q', rfl, hat⟩
      cases q' with
      | nil =>
        simp only [Tree.at, Option.some.injEq] at hat
        subst hat
        left; simp
      | cons n q' =>
        right
        simp only [Tree.at] at hat
        split at hat
        · rename_i c hg
          simp only [Option.some.injEq] at hat
          subst hat
          exact Or.inl ⟨n, c, mem_of_get _ _ _ hg, rfl, rfl⟩
        · exact Or.inr ((mem_walkF ds h4 h2 p _ k).2 ⟨n, _, rfl, hat⟩)
theorem mem_walkF (ds : Forest) (h : ds.Wf) (hn : ds.names.Nodup) (p : Path) (q : Path) (k : Kind) :
    (q, k) ∈ walkF ds p ↔ ∃ n q', q = p ++ n :: q' ∧ ds.at n q' = some k := by
  match ds with
  | .nil => simp [walkF, Forest.at]
  | .cons m t r =>
    simp only [Forest.Wf] at h
    simp only [Forest.names, List.nodup_cons] at hn
    simp only [walkF, List.mem_append, mem_walk t h.1, mem_walkF r h.2 hn.2]
    constructor
    · rintro (⟨q', rfl, hat⟩ | ⟨n, q', rfl, hat⟩)
      · exact ⟨m, q', by simp, by simp [Forest.at, hat]⟩
      · refine ⟨n, q', rfl, ?_⟩
        have : n ≠ m := by
          rintro rfl
          rw [forest_at_none r n q' hn.1] at hat
          cases hat
        simp [Forest.at, this, hat]
    · rintro ⟨n, q', rfl, hat⟩
      simp only [Forest.at] at hat
      split at hat
      · rename_i he
        subst he
        exact Or.inl ⟨q', by simp, hat⟩
      · exact Or.inr ⟨n, q', rfl, hat⟩
end

mutual
theorem walk_nodup (t : Tree) (h : t.Wf) (p : Path) : ((walk t p).map Prod.fst).Nodup := by
  match t with
  | .mk fs ds =>
    simp only [Tree.Wf] at h
    obtain ⟨h1, h2, h3, h4⟩ := h
    simp only [walk, List.cons_append, List.map_cons, List.map_append, List.map_map, List.nodup_cons, List.mem_append,
      List.mem_map, Function.comp_def, Prod.exists, exists_and_right, List.nodup_append]
    refine ⟨?_, ?_, walkF_nodup ds h4 h2 p, ?_⟩
    · rintro (⟨n, ⟨c, hm⟩, he⟩ | ⟨q, ⟨k, hm⟩, he⟩)
      · have := congrArg List.length he; simp at this
      · obtain ⟨n, q', rfl, _⟩ := (mem_walkF ds h4 h2 p q k).1 hm
        have := congrArg List.length he; simp at this
    · have : (fs.map fun x => p ++ [x.1]) = (keys fs).map fun n => p ++ [n] := by simp [keys, Function.comp_def]
      rw [this]
      exact List.Pairwise.map _ (fun a b hab he => hab (by simpa using he)) h1
    · rintro q ⟨n, ⟨c, hm⟩, rfl⟩ q' ⟨q0, ⟨k, hm'⟩, rfl⟩ he
      obtain ⟨n', q'', rfl, hat⟩ := (mem_walkF ds h4 h2 p _ k).1 hm'
      simp only [List.append_cancel_left_eq, List.cons.injEq] at he
      obtain ⟨rfl, rfl⟩ := he
      rw [forest_at_none ds n [] (h3 n (List.mem_map.2 ⟨(n, c), hm, rfl⟩))] at hat
      cases hat
theorem walkF_nodup (ds : Forest) (h : ds.Wf) (hn : ds.names.Nodup) (p : Path) : ((walkF ds p).map Prod.fst).Nodup := by
  match ds with
  | .nil => simp [walkF]
  | .cons m t r =>
    simp only [Forest.Wf] at h
    simp only [Forest.names, List.nodup_cons] at hn
    simp only [walkF, List.map_append, List.nodup_append]
    refine ⟨walk_nodup t h.1 _, walkF_nodup r h.2 hn.2 p, ?_⟩
    simp only [List.mem_map, Prod.exists, exists_and_right, exists_eq_right]
    rintro q ⟨k, hm⟩ q' ⟨k', hm'⟩ rfl
    obtain ⟨q1, e1, _⟩ := (mem_walk t h.1 _ q k).1 hm
    obtain ⟨n, q2, e2, hat⟩ := (mem_walkF r h.2 hn.2 p q k').1 hm'
    rw [e1, List.append_assoc] at e2
    simp only [List.append_cancel_left_eq, List.singleton_append, List.cons.injEq] at e2
    obtain ⟨rfl, rfl⟩ := e2
    rw [forest_at_none r m _ hn.1] at hat
    cases hat
end

theorem run_mem (as : List (Path × Kind)) : ∀ (fs : List (Path × Kind)) q k,
    Assoc.get (run fs as) q = some k → Assoc.get fs q = some k ∨ (q, k) ∈ as := by
  induction as with
  | nil => intro fs q k h; exact Or.inl h
  | cons a as ih =>
    intro fs q k h
    rcases ih (exec fs a) q k h with h | h
    · obtain ⟨p, kk⟩ := a
      simp only [exec] at h
      split at h
      · split at h
        · rw [get_put] at h
          split at h
          · rename_i he
            simp only [Option.some.injEq] at h
            subst h he
            rename_i e _
            exact Or.inr (by simp_all)
          · exact Or.inl h
        · exact Or.inl h
      · rename_i c e
        rw [get_put] at h
        split at h
        · rename_i he
          simp only [Option.some.injEq] at h
          exact Or.inr (by simp_all)
        · exact Or.inl h
    · exact Or.inr (List.mem_cons_of_mem _ h)

theorem exec_isSome (fs : List (Path × Kind)) (a : Path × Kind) (q : Path) (h : (Assoc.get fs q).isSome = true ∨ q = a.1) :
    (Assoc.get (exec fs a) q).isSome = true := by
  obtain ⟨p, k⟩ := a
  simp only [exec]
  split
  · split
    · rename_i hn
      rw [get_put]
      split
      · rfl
      · exact h.elim id fun e => by simp_all
    · rename_i v hv
      exact h.elim id fun e => by simp only at e hv; rw [e, hv]; rfl
  · rw [get_put]
    split
    · rfl
    · exact h.elim id fun e => by simp_all

theorem run_isSome (as : List (Path × Kind)) : ∀ (fs : List (Path × Kind)) q,
    ((Assoc.get fs q).isSome = true ∨ q ∈ as.map Prod.fst) → (Assoc.get (run fs as) q).isSome = true := by
  induction as with
  | nil => intro fs q h; simpa [run] using h
  | cons a as ih =>
    intro fs q h
    apply ih
    rcases h with h | h
    · exact Or.inl (exec_isSome fs a q (Or.inl h))
    · simp only [List.map_cons, List.mem_cons] at h
      rcases h with h | h
      · exact Or.inl (exec_isSome fs a q (Or.inr h))
      · exact Or.inr h

theorem walk_ne_nil (t : Tree) (p : Path) : walk t p ≠ [] := by
  cases t; simp [walk]

/-- The result of copying a whole tree. -/
theorem run_walk (t : Tree) (h : t.Wf) (q : Path) : Assoc.get (run [] (walk t [])) q = t.at q := by
  rcases hq : t.at q with _ | k
  · rcases hg : Assoc.get (run [] (walk t [])) q with _ | k
    · rfl
    · rcases run_mem _ _ _ _ hg with h' | h'
      · simp at h'
      · obtain ⟨q', e, hat⟩ := (mem_walk t h [] q k).1 h'
        simp only [List.nil_append] at e
        subst e
        rw [hq] at hat; cases hat
  · have hm : (q, k) ∈ walk t [] := (mem_walk t h [] q k).2 ⟨q, by simp, hq⟩
    obtain ⟨k', hk'⟩ := Option.isSome_iff_exists.1 (run_isSome (walk t []) [] q (Or.inr (List.mem_map.2 ⟨_, hm, rfl⟩)))
    rw [hk']
    rcases run_mem _ _ _ _ hk' with h' | h'
    · simp at h'
    · obtain ⟨q', e, hat⟩ := (mem_walk t h [] q k').1 h'
      simp only [List.nil_append] at e
      subst e
      rw [hq] at hat; exact hat.symm

/-- An interrupted copy misses something. -/
theorem run_take_walk (t : Tree) (h : t.Wf) (n : Nat) (hn : n < (walk t []).length) :
    ∃ q, (t.at q).isSome = true ∧ Assoc.get (run [] ((walk t []).take n)) q = none := by
  have hget : (walk t [])[n] ∈ walk t [] := List.getElem_mem hn
  refine ⟨(walk t [])[n].1, ?_, ?_⟩
  · obtain ⟨q', e, hat⟩ := (mem_walk t h [] (walk t [])[n].1 (walk t [])[n].2).1 hget
    simp only [List.nil_append] at e
    rw [e, hat]; rfl
  · rcases hg : Assoc.get (run [] ((walk t []).take n)) (walk t [])[n].1 with _ | k
    · rfl
    · rcases run_mem _ _ _ _ hg with h' | h'
      · simp at h'
      · exfalso
        have hnd := walk_nodup t h []
        obtain ⟨i, hi, e⟩ := List.getElem_of_mem h'
        rw [List.getElem_take] at e
        simp only [List.length_take] at hi
        have hin : i < n := by omega
        have := List.pairwise_iff_getElem.1 hnd i n (by simp; omega) (by simpa using hn) hin
        simp only [List.getElem_map] at this
        apply this
        rw [e]

/-! ### Example -/

/-- Two files at the top, one in a directory. -/
def t0 : Tree := .mk [(['m'], 1), (['c'], 2)] (.cons ['s'] (.mk [(['d'], 3)] .nil) .nil)

theorem wf_t0 : t0.Wf := by simp [t0, Tree.Wf, Forest.Wf, Forest.names, keys]

/-! ### The snapshot -/

/-- C59: a snapshot taken without disturbance has exactly the files and directories of the checkpoint;
the checkpoint and the other snapshots are as before. -/
theorem C59_copy (w : World) (name : Name) (t : Tree) (ht : Assoc.get w.steps name = some t) (hw : t.Wf)
    (hs : Assoc.get w.snaps name = none) (ignore : Bool) :
    (snapshot w (some name) .calm ignore).2 = .ok ∧ (snapshot w (some name) .calm ignore).1.steps = w.steps ∧
    (∃ fs, Assoc.get (snapshot w (some name) .calm ignore).1.snaps name = some fs ∧ ∀ q, Assoc.get fs q = t.at q) ∧
    ∀ n, n ≠ name → Assoc.get (snapshot w (some name) .calm ignore).1.snaps n = Assoc.get w.snaps n := by
  have hne : (walk t []).isEmpty = false := by
    rcases hwk : walk t [] with _ | _
    · exact absurd hwk (walk_ne_nil t [])
    · rfl
  simp only [snapshot, ht, hs, Option.isSome_none, Bool.false_eq_true, if_false, partialCopy, hne]
  refine ⟨trivial, trivial, ⟨run [] (walk t []), by simp, run_walk t hw⟩, fun n hn => get_put_ne _ _ hn⟩

theorem C59_copy_nonvacuous : ((snapshot ⟨[(['5'], t0)], []⟩ (some ['5']) .calm true).1.snaps.map fun p => p.2.length) = [5] ∧
    t0.at [['s'], ['d']] = some (.file 3) ∧ t0.at [['s'], ['e']] = none := by decide

/-- C59: whatever happens while a snapshot is taken, the other snapshots and the other checkpoints stay as
they are, and so does the checkpoint unless it is removed by somebody else. -/
theorem C59_copy_frame (w : World) (name : Name) (env : Env) (ignore : Bool) (n : Name) (hn : n ≠ name) :
    Assoc.get (snapshot w (some name) env ignore).1.snaps n = Assoc.get w.snaps n ∧
    Assoc.get (snapshot w (some name) env ignore).1.steps n = Assoc.get w.steps n ∧
    ((∀ k, env ≠ .gone k) → (snapshot w (some name) env ignore).1.steps = w.steps) := by
  have hp : ∀ as, Assoc.get (partialCopy w.snaps name as) n = Assoc.get w.snaps n := by
    intro as
    simp only [partialCopy]
    split
    · rfl
    · exact get_put_ne _ _ hn
  simp only [snapshot]
  split
  · exact ⟨rfl, rfl, fun _ => rfl⟩
  · split
    · exact ⟨rfl, rfl, fun _ => rfl⟩
    · cases env with
      | calm => exact ⟨hp _, rfl, fun _ => rfl⟩
      | crash k => exact ⟨hp _, rfl, fun _ => rfl⟩
      | gone k => exact ⟨hp _, get_del_ne _ hn, fun h => absurd rfl (h k)⟩

/-- C59: releasing a snapshot removes it and nothing else; an interrupted release touches nothing else
either. -/
theorem C59_release (w : World) (name : Name) (fs : List (Path × Kind)) (h : Assoc.get w.snaps name = some fs)
    (ignore : Bool) (c : Option Nat) :
    (release w name ignore none).2 = .ok ∧ Assoc.get (release w name ignore none).1.snaps name = none ∧
    (release w name ignore c).1.steps = w.steps ∧
    ∀ n, n ≠ name → Assoc.get (release w name ignore c).1.snaps n = Assoc.get w.snaps n := by
  refine ⟨by simp [release, h], by simp [release, h], ?_, fun n hn => ?_⟩
  · cases c <;> simp [release, h]
  · cases c with
    | none => simp only [release, h]; exact get_del_ne _ hn
    | some c =>
      simp only [release, h]
      split
      · exact get_del_ne _ hn
      · exact get_put_ne _ _ hn

/-- C59: with the standard name formats, the snapshot that is released is the one that was taken: after
taking and releasing, the snapshots are as before. -/
theorem C59_take_release (f : NameFormat.Format) (dir : List NameFormat.Entry) (s : Int) (m : NameFormat.Meta)
    (hf : NameFormat.findStep f dir s = some m) (w : World) (t : Tree) (ht : Assoc.get w.steps m.name = some t)
    (hs : Assoc.get w.snaps m.name = none) (ignore : Bool) (n : Name) :
    (release (snapshot w (some m.name) .calm ignore).1 (NameFormat.buildName f s) ignore none).2 = .ok ∧
    Assoc.get (release (snapshot w (some m.name) .calm ignore).1 (NameFormat.buildName f s) ignore none).1.snaps n = Assoc.get w.snaps n := by
  have hm : m.name = NameFormat.buildName f s := by
    simp only [NameFormat.findStep] at hf
    split at hf
    · simp only [Option.some.injEq] at hf
      rw [← hf]
    · cases hf
  have hne : (walk t []).isEmpty = false := by
    rcases hwk : walk t [] with _ | _
    · exact absurd hwk (walk_ne_nil t [])
    · rfl
  rw [← hm]
  simp only [snapshot, ht, hs, Option.isSome_none, Bool.false_eq_true, if_false, partialCopy, hne, release, get_put_self]
  refine ⟨trivial, ?_⟩
  by_cases hn : n = m.name
  · subst hn; simp [hs]
  · rw [get_del_ne _ hn, get_put_ne _ _ hn]

/-! ### What fails -/

/-- C59 (finding): the copy is not atomic, and the existence of the snapshot directory is taken for its
completeness.  Wherever the process dies in the middle of the copy, the next attempt reports success and
hands out a snapshot that lacks something. -/
theorem C59_incomplete_fails (w : World) (name : Name) (t : Tree) (ht : Assoc.get w.steps name = some t) (hw : t.Wf)
    (hs : Assoc.get w.snaps name = none) (ignore : Bool) (n : Nat) (h0 : 0 < n) (hn : n < (walk t []).length) :
    ∃ fs q, snapshot (snapshot w (some name) (.crash n) ignore).1 (some name) .calm ignore =
        ((snapshot w (some name) (.crash n) ignore).1, .ok) ∧
      Assoc.get (snapshot w (some name) (.crash n) ignore).1.snaps name = some fs ∧
      (t.at q).isSome = true ∧ Assoc.get fs q = none := by
  obtain ⟨q, h1, h2⟩ := run_take_walk t hw n hn
  have hne : ((walk t []).take n).isEmpty = false := by
    rcases hwk : (walk t []).take n with _ | _
    · have := congrArg List.length hwk
      simp only [List.length_take, List.length_nil] at this
      omega
    · rfl
  have hw' : (snapshot w (some name) (.crash n) ignore).1 = { w with snaps := put w.snaps name (run [] ((walk t []).take n)) } := by
    simp [snapshot, ht, hs, partialCopy, hne]
  refine ⟨run [] ((walk t []).take n), q, ?_, ?_, h1, h2⟩
  · rw [hw']
    simp [snapshot, ht]
  · rw [hw']; simp

/-- C59 (finding): by default (`ignore_snapshot_errors=True`) a checkpoint that the trainer deletes while
it is being copied is handed out with an incomplete snapshot, or none, as if nothing had happened. -/
theorem C59_deleted_fails (w : World) (name : Name) (t : Tree) (ht : Assoc.get w.steps name = some t) (hw : t.Wf)
    (hs : Assoc.get w.snaps name = none) (n : Nat) (hn : n < (walk t []).length) :
    (snapshot w (some name) (.gone n) true).2 = .ok ∧
    ∃ q, (t.at q).isSome = true ∧
      ((Assoc.get (snapshot w (some name) (.gone n) true).1.snaps name).bind fun fs => Assoc.get fs q) = none := by
  obtain ⟨q, h1, h2⟩ := run_take_walk t hw n hn
  refine ⟨by simp [snapshot, ht, hs], q, h1, ?_⟩
  simp only [snapshot, ht, hs, Option.isSome_none, Bool.false_eq_true, if_false, partialCopy]
  split
  · simp [hs]
  · simp [h2]

/-- C59 (finding): even with errors enabled the loss is unnoticed when the next thing to be copied is a
directory, because `os.walk` skips directories it cannot list. -/
theorem C59_deleted_strict_fails : ∃ (w : World) (t : Tree) (q : Path), t.Wf ∧ Assoc.get w.steps ['5'] = some t ∧
    (snapshot w (some ['5']) (.gone 3) false).2 = .ok ∧ t.at q = some (.file 3) ∧
    ((Assoc.get (snapshot w (some ['5']) (.gone 3) false).1.snaps ['5']).bind fun fs => Assoc.get fs q) = none :=
  ⟨⟨[(['5'], t0)], []⟩, t0, [['s'], ['d']], wf_t0, rfl, by decide, by decide, by decide⟩

/-- C59 (finding): a snapshot that is already there is handed out whatever it holds, for instance the
version of a step that has since been deleted and saved again. -/
theorem C59_stale_fails (w : World) (name : Name) (t : Tree) (ht : Assoc.get w.steps name = some t)
    (fs : List (Path × Kind)) (hs : Assoc.get w.snaps name = some fs) (env : Env) (ignore : Bool) :
    snapshot w (some name) env ignore = (w, .ok) := by
  simp [snapshot, ht, hs]

/-- C59 (finding): an interrupted release leaves a damaged snapshot that is handed out as complete the
next time. -/
theorem C59_release_interrupted_fails : ∃ w : World, Assoc.get w.steps ['5'] = some t0 ∧
    (snapshot (release (snapshot w (some ['5']) .calm true).1 ['5'] true (some 1)).1 (some ['5']) .calm true).2 = .ok ∧
    ((Assoc.get (snapshot (release (snapshot w (some ['5']) .calm true).1 ['5'] true (some 1)).1 (some ['5']) .calm true).1.snaps ['5']).bind
      fun fs => Assoc.get fs [['s'], ['d']]) = none ∧ t0.at [['s'], ['d']] = some (.file 3) :=
  ⟨⟨[(['5'], t0)], []⟩, rfl, by decide, by decide, by decide⟩

/-- C59 (finding): the snapshot is named after the directory that was found, but the one released is named
by the format used for writing.  With a composite name format a step found under another format's name
keeps its snapshot for ever: the release reports success (errors are ignored by default) and removes
nothing. -/
theorem C59_release_composite_fails : ∃ (fw fr : NameFormat.Format) (dir : List NameFormat.Entry) (m : NameFormat.Meta) (w : World),
    NameFormat.compositeFindStep [fw, fr] dir 5 = some m ∧ Assoc.get w.steps m.name = some t0 ∧ w.snaps = [] ∧
    release (snapshot w (some m.name) .calm true).1 (NameFormat.buildName fw 5) true none = ((snapshot w (some m.name) .calm true).1, .ok) ∧
    (Assoc.get (snapshot w (some m.name) .calm true).1.snaps m.name).isSome = true := by
  refine ⟨⟨some ['s'], none⟩, ⟨none, none⟩, [⟨['5'], true⟩], ⟨5, ['5']⟩, ⟨[(['5'], t0)], []⟩, ?_, rfl, rfl, ?_, by decide⟩
  · simp [NameFormat.compositeFindStep, NameFormat.findStep, NameFormat.buildName, NameFormat.prefixU, NameFormat.showInt,
      NameFormat.dec, NameFormat.digit]
  · have e : NameFormat.buildName ⟨some ['s'], none⟩ 5 = ['s', '_', '5'] := by
      simp [NameFormat.buildName, NameFormat.prefixU, NameFormat.showInt, NameFormat.dec, NameFormat.digit]
    rw [e]
    rfl

/-! ### Replacing the source -/

/-- C59: an uninterrupted replacement leaves the snapshot under the name of the source, and nothing
else. -/
theorem C59_replace (old new : Tree) : replaceSource ⟨some old, some new, none⟩ 3 = (⟨some new, none, none⟩, true) := rfl

/-- C59: at every point of a replacement the old version or the new one is complete somewhere, and the new
one always is. -/
theorem C59_replace_versions (old new : Tree) (n : Nat) :
    let s := (replaceSource ⟨some old, some new, none⟩ n).1
    (s.source = some new ∨ s.snap = some new) ∧ (s.source = some old ∨ s.recovery = some old ∨ s = ⟨some new, none, none⟩) := by
  match n with
  | 0 => exact ⟨Or.inr rfl, Or.inl rfl⟩
  | 1 => exact ⟨Or.inr rfl, Or.inr (Or.inl rfl)⟩
  | 2 => exact ⟨Or.inl rfl, Or.inr (Or.inl rfl)⟩
  | n + 3 =>
    have : replaceSource ⟨some old, some new, none⟩ (n + 3) = (⟨some new, none, none⟩, true) := by
      simp [replaceSource, rrun, rexec]
    simp [this]

/-- C59 (finding): a crash between the two renames leaves no checkpoint under the name of the source, and
a later replacement fails at its first rename; nothing recovers the version under the recovery name. -/
theorem C59_replace_window_fails (old new : Tree) :
    (replaceSource ⟨some old, some new, none⟩ 1).1.source = none ∧
    ∀ n, 0 < n → replaceSource (replaceSource ⟨some old, some new, none⟩ 1).1 n = ((replaceSource ⟨some old, some new, none⟩ 1).1, false) := by
  refine ⟨rfl, fun n hn => ?_⟩
  cases n with
  | zero => omega
  | succ n => simp [replaceSource, rrun, rexec]

/-- C59 (finding): a replacement whose snapshot does not exist fails only after the source has been moved
away: the checkpoint is no longer under its name. -/
theorem C59_replace_missing_fails (old : Tree) (n : Nat) (hn : 2 ≤ n) :
    replaceSource ⟨some old, none, none⟩ n = (⟨none, none, some old⟩, false) := by
  match n with
  | n + 2 => simp [replaceSource, rrun, rexec]

end Verif.Snapshot
