import Verif.Partial.Crash

/-! # C61: a finalized partial save is the union of its partial saves -/

namespace Verif.Partial

open Verif.Assoc

/-! ### Example saves -/

/-- Two processes save the leaves `[1]` and `[2, 1]`. -/
def r1 : Req := ⟨[(0, [([1], 10)]), (1, [([2, 1], 11)])], [([1], 100), ([2, 1], 101)], [(0, [7]), (1, [8])], some [(1, 5), (2, 5)], true, 3⟩

/-- One process saves the leaf `[2, 2]`. -/
def r2 : Req := ⟨[(0, [([2, 2], 12)])], [([2, 2], 102)], [(0, [9])], some [(2, 6)], true, 8⟩

/-- `[2]` has leaves below it already. -/
def r3 : Req := ⟨[(0, [([2], 13)])], [([2], 103)], [(0, [6])], none, true, 9⟩

/-- Nothing on disk but a temporary directory left by some crash. -/
def w0 : World := ⟨some emptyDir, none, none⟩

theorem wf_r1 : Wf r1 := by constructor <;> decide
theorem wf_r2 : Wf r2 := by constructor <;> decide

/-! ### The union -/

theorem union_aux (tmp : Option Dir) (rs : List Req) (hw : ∀ r ∈ rs, Wf r)
    (hid : (rs.map Req.id).Nodup) (w : World) (hs : saves ⟨tmp, none, none⟩ rs = (w, none)) (hne : rs ≠ []) :
    ∃ s qs b, w.sess = some s ∧ w.final = none ∧ rs.Perm qs ∧ (qs.map Req.id).Pairwise (· ≤ ·) ∧ Inv qs b ∧
      run s (mergeActs s (pendingNames s)) = (⟨b, []⟩, true) ∧
      (∀ d ∈ rs, ∀ d' ∈ rs, d.id ≠ d'.id → Apart d d') ∧
      (run s (finalizeActs s)) = (setTree ⟨b, []⟩ { treeOf b with db := mergedDb (treeOf b) }, true) := by
  obtain ⟨hf, hse, hap⟩ := saves_ok rs ⟨tmp, none, none⟩ w emptyDir [] hs rfl (Or.inl ⟨rfl, rfl, rfl⟩)
    (by intro i j hj; simp at hj)
  simp only [List.nil_append] at hse hap
  rcases hse with ⟨_, h, _⟩ | hse
  · exact absurd h hne
  -- any two saves are apart
  have hapart : ∀ d ∈ rs, ∀ d' ∈ rs, d.id ≠ d'.id → Apart d d' := by
    intro d hd d' hd' hne'
    obtain ⟨i, hi, rfl⟩ := List.getElem_of_mem hd
    obtain ⟨j, hj, rfl⟩ := List.getElem_of_mem hd'
    rcases Nat.lt_trichotomy i j with h | h | h
    · exact hap i j hj h
    · subst h; exact absurd rfl hne'
    · intro k hk k' hk'
      have := hap j i hi h k' hk' k hk
      exact ⟨this.2, this.1⟩
  have hkeys : keys (pendOf rs) = rs.map Req.id := by simp [keys, pendOf, Function.comp_def]
  have hperm : (rs.map Req.id).Perm (pendingNames ⟨emptyDir, pendOf rs⟩) := by
    simp only [pendingNames, hkeys]
    exact (foldr_insert_perm _).symm
  obtain ⟨qs, hq, hqn⟩ := perm_lift Req.id hperm rs rfl
  have hmem : ∀ d, d ∈ rs ↔ d ∈ qs := fun d => hq.mem_iff
  obtain ⟨b, hb, hrun⟩ := run_mergeActs qs ⟨emptyDir, pendOf rs⟩ [] rs inv_nil rfl hq hid
    (fun d hd => hw d ((hmem d).2 hd)) (fun d hd d' hd' => hapart d ((hmem d).2 hd) d' ((hmem d').2 hd'))
    (by simp only [List.nil_append]; exact (hq.map _).nodup_iff.1 hid)
  simp only [List.nil_append] at hb
  rw [hqn] at hrun
  refine ⟨_, qs, b, hse, hf, hq, ?_, hb, hrun, hapart, ?_⟩
  · rw [hqn]; exact foldr_insert_sorted _
  · have hany : ((pendingNames ⟨emptyDir, pendOf rs⟩).any fun p => hasTree (pendDir ⟨emptyDir, pendOf rs⟩ p)) = true := by
      obtain ⟨r, hr⟩ := List.exists_mem_of_ne_nil rs hne
      rw [List.any_eq_true]
      refine ⟨r.id, hperm.mem_iff.1 (List.mem_map.2 ⟨r, hr, rfl⟩), ?_⟩
      simp [pendDir, get_pendOf rs hid r hr, hasTree, dirOf]
    simp only [finalizeActs, hany, if_true, run_append, hrun, run, exec]
    rfl

theorem leafAt_aux (rs qs : List Req) (b : Dir) (hw : ∀ r ∈ rs, Wf r) (hid : (rs.map Req.id).Nodup) (hq : rs.Perm qs)
    (hb : Inv qs b) (ha : ∀ d ∈ rs, ∀ d' ∈ rs, d.id ≠ d'.id → Apart d d') (k : Key) (v : Nat) :
    leafAt (setTree ⟨b, []⟩ { treeOf b with db := mergedDb (treeOf b) }).base k = some v ↔ ∃ r ∈ rs, Leaf r k v := by
  have hmem : ∀ d, d ∈ rs ↔ d ∈ qs := fun d => hq.mem_iff
  have hprocs : (∃ p ∈ (treeOf b).procs, (k, v) ∈ p.2) ↔ ∃ r ∈ rs, Leaf r k v := by
    rw [hb.procs]
    constructor
    · rintro ⟨p, hp, hkv⟩
      obtain ⟨r, hr, hp⟩ := List.mem_flatMap.1 hp
      obtain ⟨x, hx, rfl⟩ := List.mem_map.1 hp
      exact ⟨r, (hmem r).2 hr, x, hx, hkv⟩
    · rintro ⟨r, hr, x, hx, hkv⟩
      exact ⟨_, List.mem_flatMap.2 ⟨r, (hmem r).1 hr, List.mem_map.2 ⟨x, hx, rfl⟩⟩, hkv⟩
  have hnd : ((treeOf b).procs.flatMap fun p => keys p.2).Nodup := by
    rw [hb.procs]
    have := leaves_nodup qs (fun d hd => hw d ((hmem d).2 hd))
      (fun d hd d' hd' => ha d ((hmem d).2 hd) d' ((hmem d').2 hd')) ((hq.map _).nodup_iff.1 hid)
    simpa [List.flatMap_assoc, List.flatMap_map] using this
  simp only [leafAt, setTree, Option.bind_some, mergedDb]
  split
  · rename_i he
    simp only [hb.db, Option.bind_none, reduceCtorEq, false_iff]
    intro h
    obtain ⟨p, hp, _⟩ := hprocs.2 h
    simp only [List.isEmpty_iff] at he
    rw [he] at hp
    simp at hp
  · simp only [Option.bind_some]
    rw [get_foldl_update _ _ hnd (by simp [hb.db, keys]), hb.db]
    simp only [Option.getD_none, get_nil, reduceCtorEq, false_or]
    exact hprocs

/-- C61: after any sequence of accepted partial saves (whatever a crash had left in the temporary
directory), nothing is at the path; `finalize` succeeds, removes the session, and publishes a
checkpoint in which exactly the saved leaves can be read, with exactly their metadata entries. -/
theorem C61_union (tmp : Option Dir) (rs : List Req) (hw : ∀ r ∈ rs, Wf r) (hid : (rs.map Req.id).Nodup)
    (hne : rs ≠ []) (w : World) (hs : saves ⟨tmp, none, none⟩ rs = (w, none)) :
    w.final = none ∧ ∃ d, finalize w none = ({ w with sess := none, final := some d }, none) ∧
      (∀ k v, leafAt d k = some v ↔ ∃ r ∈ rs, Leaf r k v) ∧
      (∀ k e, entryAt d k = some e ↔ ∃ r ∈ rs, (k, e) ∈ r.entries) := by
  obtain ⟨s, qs, b, hse, hf, hq, _, hb, _, ha, hrun⟩ := union_aux tmp rs hw hid w hs hne
  refine ⟨hf, _, ?_, leafAt_aux rs qs b hw hid hq hb ha, ?_⟩
  · simp [finalize, hf, hse, hrun]
  · intro k e
    have hmem : ∀ d, d ∈ rs ↔ d ∈ qs := fun d => hq.mem_iff
    simp only [entryAt, setTree, Option.bind_some]
    rcases hi : (treeOf b).info with _ | i
    · have := hb.noinfo hi
      rw [this] at hq
      exact absurd hq.eq_nil hne
    · simp only [Option.bind_some, hb.entries i hi k e, hmem]

theorem C61_union_nonvacuous : (saves w0 [r2, r1]).2 = none ∧ ((saves w0 [r2, r1]).1.sess.map fun s => s.pend.length) = some 2 ∧
    ((finalize (saves w0 [r2, r1]).1 none).1.final.map fun d => (leafAt d [1], leafAt d [2, 1], leafAt d [2, 2], leafAt d [2])) =
      some (some 10, some 11, some 12, none) := by decide

/-- C61: the custom metadata of the published checkpoint has, for every key, the value of the last save
that set it (`rs` in the order of the times in the names of the pending directories). -/
theorem C61_custom (tmp : Option Dir) (rs : List Req) (hw : ∀ r ∈ rs, Wf r) (hid : (rs.map Req.id).Pairwise (· < ·))
    (hne : rs ≠ []) (w : World) (hs : saves ⟨tmp, none, none⟩ rs = (w, none)) (k : Nat) :
    ∃ d, (finalize w none).1.final = some d ∧
      customAt d k = (rs.reverse.findSome? fun r => Assoc.get (r.custom.getD []) k) := by
  have hnd : (rs.map Req.id).Nodup := hid.imp (fun h => Nat.ne_of_lt h)
  obtain ⟨s, qs, b, hse, hf, hq, hsort, hb, _, ha, hrun⟩ := union_aux tmp rs hw hnd w hs hne
  refine ⟨(setTree ⟨b, []⟩ { treeOf b with db := mergedDb (treeOf b) }).base, by simp [finalize, hf, hse, hrun], ?_⟩
  -- both orders are sorted, so they are equal
  have hqs : rs = qs := by
    clear hb hs hrun hw ha hne
    induction rs generalizing qs with
    | nil => exact hq.nil_eq
    | cons r rs ih =>
      cases qs with
      | nil => exact hq.eq_nil
      | cons q qs =>
        simp only [List.map_cons, List.pairwise_cons, List.mem_map, forall_exists_index, and_imp, forall_apply_eq_imp_iff₂] at hid hsort
        have e : r = q := by
          rcases List.mem_cons.1 (hq.mem_iff.1 (List.mem_cons_self : r ∈ r :: rs)) with h | h
          · exact h
          · rcases List.mem_cons.1 (hq.mem_iff.2 (List.mem_cons_self : q ∈ q :: qs)) with h' | h'
            · exact h'.symm
            · have h1 := hid.1 q h'
              have h2 := hsort.1 r h
              omega
        subst e
        rw [ih hid.2 (List.Pairwise.sublist (List.Sublist.map _ (List.sublist_cons_self _ _)) hnd) qs hq.cons_inv hsort.2]
  subst hqs
  have hc := hb.ckpt k
  have hcustom : customAt (setTree ⟨b, []⟩ { treeOf b with db := mergedDb (treeOf b) }).base k = Assoc.get (b.ckpt.getD []) k := by
    simp only [customAt, setTree]
    rcases b.ckpt with _ | c <;> simp
  rw [hcustom]
  simp only at hc
  rw [hc]
  clear hc hcustom hrun hb hw hid hne hs hq hnd hsort ha
  -- the fold is the search from the end
  have : ∀ (l : List Req) (a : Option Nat), l.foldl (fun a r => (Assoc.get (r.custom.getD []) k).or a) a =
      (l.reverse.findSome? fun r => Assoc.get (r.custom.getD []) k).or a := by
    intro l
    induction l with
    | nil => intro a; rfl
    | cons r l ih =>
      intro a
      rw [List.foldl_cons, ih, List.reverse_cons, List.findSome?_append, List.findSome?_singleton, Option.or_assoc]
  rw [this, Option.or_none]

theorem C61_custom_nonvacuous :
    ((finalize (saves w0 [r1, r2]).1 none).1.final.map fun d => (customAt d 1, customAt d 2)) = some (some 5, some 6) := by decide

/-- C61: the array metadata of a process in the published checkpoint is that of all the saves, one after
the other. -/
theorem C61_array_metadata (tmp : Option Dir) (rs : List Req) (hw : ∀ r ∈ rs, Wf r) (hid : (rs.map Req.id).Nodup)
    (hne : rs ≠ []) (w : World) (hs : saves ⟨tmp, none, none⟩ rs = (w, none)) (k : Nat) :
    ∃ d t, (finalize w none).1.final = some d ∧ d.tree = some t ∧
      ∃ qs, rs.Perm qs ∧ (Assoc.get t.arrays k).getD [] = qs.flatMap fun r => (Assoc.get r.arrays k).getD [] := by
  obtain ⟨s, qs, b, hse, hf, hq, hsort, hb, _, ha, hrun⟩ := union_aux tmp rs hw hid w hs hne
  refine ⟨(setTree ⟨b, []⟩ { treeOf b with db := mergedDb (treeOf b) }).base, _, by simp [finalize, hf, hse, hrun], rfl, qs, hq, ?_⟩
  exact hb.arrays k

/-! ### Refusal, visibility -/

/-- C61: a save that repeats a leaf of a pending save, or has a leaf inside one, or one inside a leaf of
it, is refused, and changes nothing but the temporary directory. -/
theorem C61_refuse (w : World) (s : Session) (hf : w.final = none) (hs : w.sess = some s) (r : Req) (p : Nat) (d : Dir)
    (t : TreeDir) (i : Info) (hp : (p, d) ∈ s.pend) (ht : d.tree = some t) (hi : t.info = some i)
    (k k' : Key) (hk : k ∈ keys r.entries) (hk' : k' ∈ keys i.entries) (h : k <+: k' ∨ k' <+: k) :
    (save w r).2 = some .replacement ∧ (save w r).1.sess = w.sess ∧ (save w r).1.final = none := by
  have hc : (keys r.entries).any (conflicts (pendingKeys w.sess)) = true := by
    rw [List.any_eq_true]
    refine ⟨k, hk, ?_⟩
    apply Classical.byContradiction
    intro hne
    rw [Bool.not_eq_true, conflicts_false] at hne
    have hmem : k' ∈ pendingKeys w.sess := by
      simp only [hs, pendingKeys, List.mem_flatMap]
      exact ⟨(p, d), hp, by simp only [ht, hi]; exact hk'⟩
    have := hne k' hmem
    exact h.elim this.1 this.2
  simp [save, saveSteps, steps, step, start, hf, hc]

theorem C61_refuse_nonvacuous : (save (saves w0 [r1, r2]).1 r3).2 = some .replacement ∧
    (save (saves w0 [r1, r2]).1 r1).2 = some .replacement := by decide

/-- C61: a save without such a conflict is accepted. -/
theorem C61_accept (w : World) (hf : w.final = none) (r : Req)
    (h : ∀ s, w.sess = some s → ∀ d ∈ s.pend, ∀ t i, d.2.tree = some t → t.info = some i →
      ∀ k ∈ keys r.entries, ∀ k' ∈ keys i.entries, ¬ k <+: k' ∧ ¬ k' <+: k) :
    (save w r).2 = none := by
  have hc : (keys r.entries).any (conflicts (pendingKeys w.sess)) = false := by
    rw [List.any_eq_false]
    intro k hk
    rw [Bool.not_eq_true, conflicts_false]
    intro m hm
    rcases hs : w.sess with _ | s
    · simp [hs, pendingKeys] at hm
    · simp only [hs, pendingKeys, List.mem_flatMap] at hm
      obtain ⟨d, hd, hm⟩ := hm
      split at hm
      · simp at hm
      · rename_i t ht
        split at hm
        · simp at hm
        · rename_i i hi
          exact h s hs d hd t i ht hi k hk m hm
  simp [save, saveSteps, steps, step, start, write, publish, hf, hc]

theorem C61_accept_nonvacuous : (save (saves w0 [r1]).1 r2).2 = none := by decide

/-- C61: only a completed `finalize` makes anything appear at the path: not partial saves, complete or
interrupted at any step, nor an interrupted `finalize`. -/
theorem C61_invisible (w : World) (hf : w.final = none) (r : Req) (n : Nat) :
    (steps w ((saveSteps r).take n)).1.final = none ∧ (finalize w (some n)).1.final = none := by
  constructor
  · have hall : ∀ (xs : List Step) (w : World), w.final = none → (steps w xs).1.final = none := by
      intro xs
      induction xs with
      | nil => intro w h; exact h
      | cons x xs ih =>
        intro w h
        have hx : (step w x).1.final = none := by
          cases x with
          | start r => simp only [step, start, h]; split <;> simp_all <;> split <;> simp_all
          | write r => simp only [step, write]; split <;> simp_all
          | publish r => simp only [step, publish]; split <;> simp_all
        simp only [steps]
        rcases he : step w x with ⟨w', _ | e⟩
        · rw [he] at hx; exact ih w' hx
        · rw [he] at hx; exact hx
    exact hall _ w hf
  · simp only [finalize, hf, Option.isSome_none, Bool.false_eq_true, if_false]
    split
    · exact hf
    · simp

/-- C61: neither a save nor `finalize` changes a path that has its final checkpoint, and `finalize` of a
path without session fails. -/
theorem C61_final_kept (w : World) (d : Dir) (hf : w.final = some d) (r : Req) (c : Option Nat) :
    save w r = (w, some .fileExists) ∧ finalize w c = (w, some .fileExists) ∧
    ∀ w', w'.final = none → w'.sess = none → finalize w' c = (w', some .notFound) := by
  refine ⟨by simp [save, saveSteps, steps, step, start, hf], by simp [finalize, hf], ?_⟩
  intro w' h1 h2
  simp [finalize, h1, h2]

/-! ### Interruption -/

/-- C61: an interrupted or failed save leaves the earlier partial saves as they are. -/
theorem C61_save_interrupted (w : World) (r : Req) (n : Nat) (s : Session) (hs : w.sess = some s) :
    ∃ s', (steps w ((saveSteps r).take n)).1.sess = some s' ∧ s'.base = s.base ∧
      (s'.pend = s.pend ∨ s'.pend = s.pend ++ [(r.id, dirOf r)]) := by
  rcases hf : w.final with _ | d
  · rcases hc : (keys r.entries).any (conflicts (pendingKeys w.sess)) with _ | _
    · have hst : start w r = ({ w with tmp := some emptyDir }, none) := by simp [start, hf, hc]
      match n with
      | 0 => exact ⟨s, hs, rfl, Or.inl rfl⟩
      | 1 => exact ⟨s, by simp [saveSteps, steps, step, hst, hs], rfl, Or.inl rfl⟩
      | 2 => exact ⟨s, by simp [saveSteps, steps, step, hst, hs, write], rfl, Or.inl rfl⟩
      | n + 3 =>
        exact ⟨⟨s.base, s.pend ++ [(r.id, dirOf r)]⟩, by simp [saveSteps, steps, step, hst, hs, write, publish], rfl, Or.inr rfl⟩
    · have hst : start w r = ({ w with tmp := some emptyDir }, some .replacement) := by simp [start, hf, hc]
      cases n with
      | zero => exact ⟨s, hs, rfl, Or.inl rfl⟩
      | succ n => exact ⟨s, by simp [saveSteps, steps, step, hst, hs], rfl, Or.inl rfl⟩
  · cases n with
    | zero => exact ⟨s, hs, rfl, Or.inl rfl⟩
    | succ n => exact ⟨s, by simp [saveSteps, steps, step, start, hf, hs], rfl, Or.inl rfl⟩

theorem good_publish (s : Session) (r : Req) (hg : Good s) (hw : Wf r) (hf : r.id ∉ keys s.pend) :
    Good ⟨s.base, s.pend ++ [(r.id, dirOf r)]⟩ := by
  refine ⟨⟨?_, ?_⟩, ?_⟩
  · simp only [keys, List.map_append, List.map_cons, List.map_nil, List.nodup_append, List.nodup_cons, List.not_mem_nil,
      not_false_eq_true, List.nodup_nil, and_true, true_and, List.mem_singleton]
    refine ⟨hg.1.pend, ?_⟩
    rintro a ha b rfl rfl
    exact hf ha
  · intro d hd t ht
    rcases List.mem_append.1 hd with hd | hd
    · exact hg.1.procs d hd t ht
    · simp only [List.mem_singleton] at hd
      subst hd
      simp only [dirOf, Option.some.injEq] at ht
      subst ht
      have := hw.procs
      simp only [keys, List.map_map] at this ⊢
      have e : (Prod.fst ∘ fun p : Nat × List (Key × Nat) => (((p.1, none) : ProcName), p.2)) = (fun k => ((k, none) : ProcName)) ∘ Prod.fst := rfl
      rw [e, ← List.map_map]
      exact List.Pairwise.map _ (fun a b h he => h (by simpa using he)) this
  · refine hg.2.elim Or.inl fun h => Or.inr ?_
    intro d hd t ht
    rcases List.mem_append.1 hd with hd | hd
    · exact h d hd t ht
    · simp only [List.mem_singleton] at hd
      subst hd
      simp only [dirOf, Option.some.injEq] at ht
      subst ht
      rfl

theorem good_empty : Good ⟨emptyDir, []⟩ :=
  ⟨⟨List.nodup_nil, fun d hd => by simp at hd⟩, Or.inr fun d hd => by simp at hd⟩

theorem reach_inv {w : World} {rs : List Req} (h : Reach w rs) :
    (∀ s, w.sess = some s → Good s) ∧ ∀ r ∈ rs, ∀ k v, Leaf r k v → OnDisk w k v := by
  induction h with
  | init tmp => exact ⟨fun s hs => by simp at hs, fun r hr => by simp at hr⟩
  | @saved w w' rs r h hw hf hs ih =>
    obtain ⟨h1, h2, h3⟩ := save_ok hs
    subst h3
    have hg : Good (w.sess.getD ⟨emptyDir, []⟩) := by
      rcases hs' : w.sess with _ | s
      · exact good_empty
      · exact ih.1 s hs'
    have hfr : r.id ∉ keys (w.sess.getD ⟨emptyDir, []⟩).pend := by
      rcases hs' : w.sess with _ | s
      · simp [keys]
      · exact hf s hs'
    refine ⟨fun s hs => ?_, fun r' hr' k v hl => ?_⟩
    · simp only [Option.some.injEq] at hs
      subst hs
      exact good_publish _ r hg hw hfr
    · rcases List.mem_append.1 hr' with hr' | hr'
      · rcases ih.2 r' hr' k v hl with ⟨s, hs', hh⟩ | ⟨d, hd, _⟩
        · refine Or.inl ⟨_, rfl, ?_⟩
          rcases hh with hh | ⟨d, hd, hh⟩
          · left; simpa [hs'] using hh
          · right
            exact ⟨d, by simp [hs', hd], hh⟩
        · rw [h1] at hd; cases hd
      · simp only [List.mem_singleton] at hr'
        subst hr'
        refine Or.inl ⟨_, rfl, Or.inr ⟨(r'.id, dirOf r'), by simp, _, rfl, ?_⟩⟩
        obtain ⟨p, hp, hkv⟩ := hl
        exact ⟨((p.1, none), p.2), List.mem_map.2 ⟨p, hp, rfl⟩, hkv⟩
  | @interrupted w rs r h hw hf n ih =>
    have hfin : (steps w ((saveSteps r).take n)).1.final = w.final := by
      rcases hfw : w.final with _ | d
      · exact (C61_invisible w hfw r n).1
      · cases n with
        | zero => exact hfw
        | succ n => simp [saveSteps, steps, step, start, hfw]
    rcases hs : w.sess with _ | s
    · -- no session before: at most one pending directory afterwards
      have hcase : (steps w ((saveSteps r).take n)).1.sess = none ∨
          (steps w ((saveSteps r).take n)).1.sess = some ⟨emptyDir, [(r.id, dirOf r)]⟩ := by
        rcases hfw : w.final with _ | d
        · rcases hc : (keys r.entries).any (conflicts (pendingKeys w.sess)) with _ | _
          · have hst : start w r = ({ w with tmp := some emptyDir }, none) := by simp [start, hfw, hc]
            match n with
            | 0 => exact Or.inl hs
            | 1 => left; simp [saveSteps, steps, step, hst, hs]
            | 2 => left; simp [saveSteps, steps, step, hst, hs, write]
            | n + 3 => right; simp [saveSteps, steps, step, hst, hs, write, publish]
          · have hst : start w r = ({ w with tmp := some emptyDir }, some .replacement) := by simp [start, hfw, hc]
            cases n with
            | zero => exact Or.inl hs
            | succ n => left; simp [saveSteps, steps, step, hst, hs]
        · cases n with
          | zero => exact Or.inl hs
          | succ n => left; simp [saveSteps, steps, step, start, hfw, hs]
      refine ⟨fun s' hs' => ?_, fun r' hr' k v hl => ?_⟩
      · rcases hcase with e | e
        · rw [e] at hs'; cases hs'
        · rw [e] at hs'
          simp only [Option.some.injEq] at hs'
          subst hs'
          exact good_publish ⟨emptyDir, []⟩ r good_empty hw (by simp [keys])
      · rcases ih.2 r' hr' k v hl with ⟨s, hs', _⟩ | hh
        · rw [hs] at hs'; cases hs'
        · right; rw [hfin]; exact hh
    · obtain ⟨s', hs', hb, hp⟩ := C61_save_interrupted w r n s hs
      refine ⟨fun s'' hs'' => ?_, fun r' hr' k v hl => ?_⟩
      · rw [hs'] at hs''
        simp only [Option.some.injEq] at hs''
        subst hs''
        obtain ⟨b', p'⟩ := s'
        simp only at hb hp
        subst hb
        rcases hp with rfl | rfl
        · exact ih.1 s hs
        · exact good_publish s r (ih.1 s hs) hw (hf s hs)
      · rcases ih.2 r' hr' k v hl with ⟨s0, hs0, hh⟩ | hh
        · rw [hs] at hs0
          simp only [Option.some.injEq] at hs0
          subst hs0
          refine Or.inl ⟨s', hs', ?_⟩
          rcases hh with hh | ⟨d, hd, hh⟩
          · left; rw [hb]; exact hh
          · right
            refine ⟨d, ?_, hh⟩
            rcases hp with e | e <;> rw [e]
            · exact hd
            · exact List.mem_append_left _ hd
        · right; rw [hfin]; exact hh
  | @finalize w rs h crash ih =>
    simp only [Partial.finalize]
    split
    · exact ih
    · split
      · exact ih
      · rename_i s hs
        have hfw : w.final = none := by
          rcases hfw : w.final with _ | d
          · rfl
          · rename_i hn _; simp [hfw] at hn
        have hk := keeps_finalizeActs s (ih.1 s hs)
        have hst : ∀ r ∈ rs, ∀ k v, Leaf r k v → Stored s k v := by
          intro r hr k v hl
          rcases ih.2 r hr k v hl with ⟨s0, hs0, hh⟩ | ⟨d, hd, _⟩
          · rw [hs] at hs0
            simp only [Option.some.injEq] at hs0
            subst hs0
            exact hh
          · rw [hfw] at hd; cases hd
        split
        · rename_i n
          obtain ⟨g1, g2⟩ := hk n
          refine ⟨fun s' hs' => ?_, fun r hr k v hl => Or.inl ⟨_, rfl, g2 k v (hst r hr k v hl)⟩⟩
          simp only [Option.some.injEq] at hs'
          subst hs'
          exact g1
        · obtain ⟨g1, g2⟩ := keeps_full hk
          rcases hok : (run s (finalizeActs s)).2 with _ | _
          · simp only [Bool.false_eq_true, if_false]
            refine ⟨fun s' hs' => ?_, fun r hr k v hl => Or.inl ⟨_, rfl, g2 k v (hst r hr k v hl)⟩⟩
            simp only [Option.some.injEq] at hs'
            subst hs'
            exact g1
          · simp only [if_true]
            refine ⟨fun s' hs' => by simp at hs', fun r hr k v hl => Or.inr ⟨_, rfl, ?_⟩⟩
            rcases g2 k v (hst r hr k v hl) with hh | ⟨d, hd, _⟩
            · exact hh
            · rw [pend_finalize s hok] at hd
              simp at hd

/-- C61: in every history of a path, whatever partial saves and calls of `finalize` were interrupted and
wherever, every leaf of every partial save that reported success is still on disk, in a database of the
session, of a pending directory or of the final checkpoint. -/
theorem C61_data_kept (w : World) (rs : List Req) (h : Reach w rs) (r : Req) (hr : r ∈ rs) (k : Key) (v : Nat)
    (hl : Leaf r k v) : OnDisk w k v := (reach_inv h).2 r hr k v hl

theorem C61_data_kept_nonvacuous : Reach (finalize (finalize (saves w0 [r1, r2]).1 (some 11)).1 (some 3)).1 [r1, r2] ∧
    Leaf r1 [2, 1] 11 := by
  refine ⟨?_, (1, [([2, 1], 11)]), by decide, by decide⟩
  apply Reach.finalize
  apply Reach.finalize
  have h1 : Reach (save w0 r1).1 ([] ++ [r1]) :=
    Reach.saved (w := w0) (Reach.init _) wf_r1 (by intro s hs; cases hs) rfl
  have h2 : Reach (save (save w0 r1).1 r2).1 ([r1] ++ [r2]) :=
    Reach.saved h1 wf_r2 (by
      intro s hs
      have e : (save w0 r1).1.sess = some ⟨emptyDir, [(3, dirOf r1)]⟩ := by decide
      rw [e] at hs
      simp only [Option.some.injEq] at hs
      subst hs
      decide) rfl
  exact h2

/-! ### What fails -/

/-- C61 (finding): an interruption of `finalize` while it rewrites the merged `_METADATA` (the old file is
unlinked before the new one is written) followed by a second `finalize`, which succeeds, publishes a
checkpoint whose metadata has lost the leaves of the first save: the checkpoint cannot be restored
although every save and the last `finalize` reported success. -/
theorem C61_metadata_lost_fails : ∃ n d, finalize (finalize (saves w0 [r1, r2]).1 (some n)).1 none =
      (⟨none, none, some d⟩, none) ∧ entryAt d [1] = none ∧ entryAt d [2, 1] = none ∧ entryAt d [2, 2] = some 102 ∧
      Leaf r1 [1] 10 := by
  refine ⟨14, _, rfl, by decide, by decide, by decide, (0, [([1], 10)]), by decide, by decide⟩

/-- C61 (finding): if `finalize` is interrupted after merging the last pending directory and before
merging the databases, then for every sequence of saves the second `finalize` finds nothing pending,
skips the databases, and publishes a checkpoint in which no leaf can be read. -/
theorem C61_unmerged_fails (tmp : Option Dir) (rs : List Req) (hw : ∀ r ∈ rs, Wf r) (hid : (rs.map Req.id).Nodup)
    (hne : rs ≠ []) (w : World) (hs : saves ⟨tmp, none, none⟩ rs = (w, none)) :
    ∃ n d, finalize (finalize w (some n)).1 none = ({ w with sess := none, final := some d }, none) ∧
      ∀ k, leafAt d k = none := by
  obtain ⟨s, qs, b, hse, hf, hq, _, hb, hmrun, ha, hrun⟩ := union_aux tmp rs hw hid w hs hne
  refine ⟨(mergeActs s (pendingNames s)).length, b, ?_, ?_⟩
  · have ht : (finalizeActs s).take (mergeActs s (pendingNames s)).length = mergeActs s (pendingNames s) := by
      simp [finalizeActs]
    have h1 : (finalize w (some (mergeActs s (pendingNames s)).length)).1 = { w with sess := some ⟨b, []⟩ } := by
      simp only [finalize, hf, hse, ht, hmrun, Option.isSome_none, Bool.false_eq_true, if_false]
    have h2 : run ⟨b, []⟩ (finalizeActs ⟨b, []⟩) = (⟨b, []⟩, true) := rfl
    rw [h1]
    simp only [finalize, hf, h2, Option.isSome_none, Bool.false_eq_true, if_false, if_true]
  · intro k
    have := hb.db
    simp only [treeOf] at this
    simp only [leafAt]
    rcases ht : b.tree with _ | t
    · rfl
    · rw [ht] at this
      simp only [Option.getD_some] at this
      simp [this]

/-- C61 (finding): an interruption of `finalize` between the merge of `_METADATA` of a pending directory
and that of its array metadata makes every later `finalize` fail with `FileExistsError`: without
`_METADATA` the rest of the directory is no longer recognised as that of a pytree, and its array
metadata files collide with those merged before. -/
theorem C61_stuck_fails : ∃ n w, (finalize (saves w0 [r1, r2]).1 (some n)).1 = w ∧
      finalize w none = (w, some .fileExists) ∧ ∀ c, (finalize w (some c)).1 = w := by
  refine ⟨17, _, rfl, by decide, fun c => ?_⟩
  obtain ⟨s, hs, ha, hf⟩ : ∃ s, (finalize (saves w0 [r1, r2]).1 (some 17)).1.sess = some s ∧
      finalizeActs s = [.collision, .rmTree 8, .rmPend 8] ∧ (finalize (saves w0 [r1, r2]).1 (some 17)).1.final = none :=
    ⟨_, rfl, by decide, by decide⟩
  have hrun : ∀ c, run s ((finalizeActs s).take c) = (s, decide (c = 0)) := by
    intro c
    rw [ha]
    cases c with
    | zero => simp [run]
    | succ c => simp [run, exec]
  generalize (finalize (saves w0 [r1, r2]).1 (some 17)).1 = w at hs hf
  obtain ⟨t, ss, f⟩ := w
  simp only at hs hf
  subst hs hf
  simp only [finalize, Option.isSome_none, Bool.false_eq_true, if_false, hrun]

/-- C61 (finding): two asynchronous partial saves to one path use the same temporary directory, and
nothing makes the second wait for the first: starting it while the first is being written removes what
the first has written, and the first reports success without anything stored. -/
theorem C61_overlap_fails : ∃ w, steps w0 [.start r1, .write r1, .start r2, .publish r1] = (w, none) ∧
      ¬ OnDisk w [1] 10 ∧ Leaf r1 [1] 10 := by
  refine ⟨_, rfl, ?_, (0, [([1], 10)]), by decide, by decide⟩
  rintro (⟨s, hs, h⟩ | ⟨d, hd, _⟩)
  · have e : (steps w0 [.start r1, .write r1, .start r2, .publish r1]).1.sess = some ⟨emptyDir, [(3, emptyDir)]⟩ := by decide
    change (steps w0 [.start r1, .write r1, .start r2, .publish r1]).1.sess = some s at hs
    rw [e] at hs
    simp only [Option.some.injEq] at hs
    subst hs
    rcases h with ⟨t, ht, _⟩ | ⟨d, hd, t, ht, _⟩
    · simp [emptyDir] at ht
    · simp only [List.mem_singleton] at hd
      subst hd
      simp [emptyDir] at ht
  · have e : (steps w0 [.start r1, .write r1, .start r2, .publish r1]).1.final = none := by decide
    change (steps w0 [.start r1, .write r1, .start r2, .publish r1]).1.final = some d at hd
    rw [e] at hd
    cases hd

/-- C61 (finding): replacements are looked for in the pending directories only.  After an interrupted
`finalize` that had merged the first save, a save of the same leaf is accepted, and the published
checkpoint has the second value. -/
theorem C61_replacement_missed_fails : ∃ n r, (saves w0 [r1, r2]).2 = none ∧ (1 : Nat) ≤ n ∧
      (save (finalize (saves w0 [r1, r2]).1 (some n)).1 r).2 = none ∧ [1] ∈ keys r.entries ∧ [1] ∈ keys r1.entries ∧
      ((finalize (save (finalize (saves w0 [r1, r2]).1 (some n)).1 r).1 none).1.final.map fun d => leafAt d [1]) = some (some 99) := by
  exact ⟨9, ⟨[(0, [([1], 99)])], [([1], 200)], [], none, true, 20⟩, by decide, by decide, by decide, by decide, by decide, by decide⟩

/-- C61 (finding): saves with different `use_zarr3` can be merged; the one flag of the checkpoint is that
of the last. -/
theorem C61_format_mixed_fails : ∃ r r' : Req, r.zarr3 = false ∧ r'.zarr3 = true ∧ (saves w0 [r, r']).2 = none ∧
      ((finalize (saves w0 [r, r']).1 none).1.final.bind fun d => d.tree.bind fun t => t.info.map (·.zarr3)) = some true :=
  ⟨{ r1 with zarr3 := false }, r2, rfl, rfl, by decide, by decide⟩

end Verif.Partial
