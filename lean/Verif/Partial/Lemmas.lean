import Verif.Partial.Spec

/-! # Helper lemmas on partial saving -/

namespace Verif.Partial

open Verif.Assoc

section Maps
variable {κ ν : Type} [DecidableEq κ]

theorem get_update (d e : List (κ × ν)) (hn : (keys e).Nodup) (k : κ) :
    get (update d e) k = (get e k).or (get d k) := by
  induction e generalizing d with
  | nil => simp [update]
  | cons p e ih =>
    simp only [keys, List.map_cons, List.nodup_cons] at hn
    have := ih (put d p.1 p.2) hn.2
    simp only [update, List.foldl_cons] at this ⊢
    rw [this, get_put]
    simp only [Assoc.get]
    by_cases hk : p.1 = k
    · subst hk
      have : get e p.1 = none := (get_eq_none_iff _ _).2 hn.1
      simp [this]
    · have hk' : ¬ k = p.1 := fun h => hk h.symm
      simp [hk, hk']

theorem mem_keys_update (d e : List (κ × ν)) (k : κ) : k ∈ keys (update d e) ↔ k ∈ keys d ∨ k ∈ keys e := by
  induction e generalizing d with
  | nil => simp [update, keys]
  | cons p e ih =>
    have := ih (put d p.1 p.2)
    simp only [update, List.foldl_cons] at this ⊢
    rw [this, mem_keys_put]
    simp only [keys, List.map_cons, List.mem_cons]
    constructor
    · rintro ((h | h) | h)
      · exact Or.inr (Or.inl h)
      · exact Or.inl h
      · exact Or.inr (Or.inr h)
    · rintro (h | h | h)
      · exact Or.inl (Or.inr h)
      · exact Or.inl (Or.inl h)
      · exact Or.inr h

theorem nodup_update (d e : List (κ × ν)) (h : (keys d).Nodup) : (keys (update d e)).Nodup := by
  induction e generalizing d with
  | nil => exact h
  | cons p e ih => exact ih _ (nodup_put _ _ _ h)

theorem get_map_fst (l : List (κ × ν)) (p : κ) (f : ν → ν) :
    get (l.map fun x => if x.1 = p then (x.1, f x.2) else x) p = (get l p).map f := by
  induction l with
  | nil => rfl
  | cons x l ih =>
    by_cases hx : x.1 = p
    · simp [Assoc.get, hx]
    · simp [Assoc.get, hx, ih]

theorem del_map_fst (l : List (κ × ν)) (p : κ) (f : ν → ν) :
    del (l.map fun x => if x.1 = p then (x.1, f x.2) else x) p = del l p := by
  induction l with
  | nil => rfl
  | cons x l ih =>
    simp only [del] at ih ⊢
    by_cases hx : x.1 = p
    · simp only [List.map_cons, hx, if_true, List.filter_cons, ne_eq, not_true, decide_false, Bool.false_eq_true, if_false]
      exact ih
    · simp only [List.map_cons, hx, if_false, List.filter_cons, ne_eq, not_false_eq_true, decide_true, if_true]
      rw [ih]

end Maps

theorem run_append (s : Session) (as bs : List Act) :
    run s (as ++ bs) = if (run s as).2 then run (run s as).1 bs else run s as := by
  induction as generalizing s with
  | nil => simp [run]
  | cons a as ih =>
    simp only [List.cons_append, run]
    obtain he | ⟨s', he⟩ : exec s a = none ∨ ∃ s', exec s a = some s' := by cases exec s a <;> simp
    · simp [he]
    · simp only [he]; exact ih s'

/-- The session merged so far is `b`, `d` is the pending directory `p`, `rest` the others. -/
def At (s : Session) (p : Nat) (b d : Dir) (rest : List (Nat × Dir)) : Prop :=
  s.base = b ∧ get s.pend p = some d ∧ del s.pend p = rest

theorem at_onPend {s p b d rest} (h : At s p b d rest) (f : Dir → Dir) :
    At (onPend s p f) p b (f d) rest := by
  obtain ⟨h1, h2, h3⟩ := h
  refine ⟨h1, ?_, ?_⟩
  · simp [onPend, get_map_fst, h2]
  · simp only [onPend]; rw [del_map_fst]; exact h3

theorem at_base {s p b d rest} (h : At s p b d rest) (b' : Dir) : At { s with base := b' } p b' d rest :=
  ⟨rfl, h.2.1, h.2.2⟩

theorem at_pendDir {s p b d rest} (h : At s p b d rest) : pendDir s p = d := by
  simp [pendDir, h.2.1]

/-- A run of actions ends well and in the state described. -/
def Goes (s : Session) (as : List Act) (p : Nat) (b d : Dir) (rest : List (Nat × Dir)) : Prop :=
  (run s as).2 = true ∧ At (run s as).1 p b d rest

theorem goes_append {s as bs p b d rest b' d'} (h : Goes s as p b d rest)
    (h' : ∀ s', At s' p b d rest → Goes s' bs p b' d' rest) : Goes s (as ++ bs) p b' d' rest := by
  unfold Goes
  rw [run_append, if_pos h.1]
  exact h' _ h.2

/-- What the custom metadata becomes. -/
def newCkpt (b : Dir) (c : List (Nat × Nat)) : List (Nat × Nat) :=
  match b.ckpt with
  | none => c
  | some m0 => mergeCkpt m0 c

theorem goes_ckpt {s p b d rest} (h : At s p b d rest) (c : List (Nat × Nat)) (hc : d.ckpt = some c) :
    Goes s (ckptActs s p d) p { b with ckpt := some (newCkpt b c) } { d with ckpt := none } rest := by
  have hb := h.1
  rcases hb' : b.ckpt with _ | m0
  · simp only [ckptActs, hc, hb, hb', Goes, run, exec, true_and, newCkpt, at_pendDir h]
    exact at_onPend (at_base h _) _
  · simp only [ckptActs, hc, hb, hb', Goes, run, exec, true_and, newCkpt]
    exact at_onPend (at_base (at_base h _) _) (fun d => { d with ckpt := none })

/-- The pytree directory of a session directory. -/
def treeOf (b : Dir) : TreeDir := b.tree.getD ⟨none, [], [], none⟩

theorem at_baseTree {s p b d rest} (h : At s p b d rest) : baseTree s = treeOf b := by
  simp [baseTree, treeOf, h.1]

theorem at_setTree {s p b d rest} (h : At s p b d rest) (t : TreeDir) :
    At (setTree s t) p { b with tree := some t } d rest := by
  refine ⟨?_, h.2.1, h.2.2⟩
  simp [setTree, h.1]

theorem at_pendTree {s p b d rest} (h : At s p b d rest) (t : TreeDir) (ht : d.tree = some t) :
    pendTree s p = t := by
  simp [pendTree, at_pendDir h, ht]

theorem at_onPendTree {s p b d rest} (h : At s p b d rest) (t : TreeDir) (ht : d.tree = some t) (f : TreeDir → TreeDir) :
    At (onPendTree s p f) p b { d with tree := some (f t) } rest := by
  have := at_onPend h (fun d => { d with tree := d.tree.map f })
  simpa [onPendTree, ht] using this

/-- What the metadata becomes. -/
def newInfo (b : TreeDir) (i : Info) : Info :=
  match b.info with
  | none => i
  | some i0 => mergeInfo i0 i

theorem goes_info {s s0 p b d rest} (h : At s p b d rest) (t : TreeDir) (i : Info) (ht : d.tree = some t)
    (hi : t.info = some i) (h0 : (baseTree s0).info = (treeOf b).info) :
    Goes s (infoActs s0 p i) p { b with tree := some { treeOf b with info := some (newInfo (treeOf b) i) } }
      { d with tree := some { t with info := none } } rest := by
  rcases hb' : (treeOf b).info with _ | i0
  · rw [hb'] at h0
    simp only [infoActs, h0, Goes, run, exec, newInfo, hb', at_pendTree h t ht, hi, at_baseTree h, true_and]
    exact at_onPendTree (at_setTree h _) t ht (fun t => { t with info := none })
  · rw [hb'] at h0
    have h1 := at_setTree h { treeOf b with info := none }
    have h2 := at_setTree h1 { treeOf b with info := some (mergeInfo i0 i) }
    have h3 := at_onPendTree h2 t ht (fun t => { t with info := none })
    simp only [infoActs, h0, Goes, run, exec, newInfo, hb', at_baseTree h, true_and]
    rw [at_baseTree h1]
    exact h3

theorem goes_procs {p : Nat} {rest : List (Nat × Dir)} (ps : List (ProcName × List (Key × Nat))) (hn : (keys ps).Nodup) :
    ∀ (s : Session) (b d : Dir) (t bt : TreeDir), At s p b d rest → d.tree = some t → b.tree = some bt → t.procs = ps →
    Goes s (ps.map fun x => Act.procMove p x.1 (x.1.1, some p)) p
      { b with tree := some { bt with procs := bt.procs ++ ps.map fun x => ((x.1.1, some p), x.2) } }
      { d with tree := some { t with procs := [] } } rest := by
  induction ps with
  | nil =>
    intro s b d t bt h ht hb hp
    refine ⟨rfl, ?_⟩
    have e1 : ({ b with tree := some { bt with procs := bt.procs ++ [] } } : Dir) = b := by
      cases b; simp at hb; simp [hb]
    have e2 : ({ d with tree := some { t with procs := [] } } : Dir) = d := by
      cases d; cases t; simp at ht hp; simp [ht, hp]
    simp only [List.map_nil]
    rw [e1, e2]; exact h
  | cons x ps ih =>
    intro s b d t bt h ht hb hp
    simp only [keys, List.map_cons, List.nodup_cons] at hn
    have hbt : treeOf b = bt := by simp [treeOf, hb]
    have hx : get t.procs x.1 = some x.2 := by simp [hp, Assoc.get]
    have hdel : del t.procs x.1 = ps := by
      rw [hp]
      simp only [del, List.filter_cons, ne_eq, not_true, decide_false, Bool.false_eq_true, if_false]
      refine List.filter_eq_self.2 fun y hy => ?_
      simp only [decide_eq_true_eq]
      intro he
      exact hn.1 (he ▸ List.mem_map.2 ⟨y, hy, rfl⟩)
    have h1 := at_setTree h { bt with procs := bt.procs ++ [((x.1.1, some p), x.2)] }
    have h2 := at_onPendTree h1 t ht (fun t => { t with procs := del t.procs x.1 })
    have := ih hn.2 _ _ _ _ _ h2 rfl rfl hdel
    simp only [Goes, List.map_cons, run, exec, at_pendTree h t ht, at_baseTree h, hbt, hx, Option.getD_some]
    simp only [Goes, List.append_assoc, List.singleton_append] at this
    exact this

/-- Two directories of array metadata with the same contents. -/
def SameArrays (a b : List (Nat × List Nat)) : Prop := ∀ k, get a k = get b k

/-- What the array metadata of process `k` becomes. -/
def newArr (a r : List (Nat × List Nat)) (k : Nat) : Option (List Nat) :=
  match get r k with
  | none => get a k
  | some l => some ((get a k).getD [] ++ l)

theorem goes_arrays {p : Nat} {rest : List (Nat × Dir)} (s0 : Session) (ar : List (Nat × List Nat)) (hn : (keys ar).Nodup) :
    ∀ (s : Session) (b d : Dir) (t bt : TreeDir), At s p b d rest → d.tree = some t → b.tree = some bt →
    (∀ k ∈ keys ar, get t.arrays k = get ar k ∧ get bt.arrays k = get (baseTree s0).arrays k) →
    ∃ arrs tarrs, (∀ k, get arrs k = newArr bt.arrays ar k) ∧
    Goes s (ar.flatMap fun x => match get (baseTree s0).arrays x.1 with
        | none => [Act.arrMove p x.1]
        | some l => [.arrUnlink x.1, .arrWrite x.1 (l ++ x.2), .arrDrop p x.1]) p
      { b with tree := some { bt with arrays := arrs } }
      { d with tree := some { t with arrays := tarrs } } rest := by
  induction ar with
  | nil =>
    intro s b d t bt h ht hb hk
    refine ⟨bt.arrays, t.arrays, fun k => by simp [newArr], rfl, ?_⟩
    simp only [List.flatMap_nil, run]
    have e1 : ({ b with tree := some { bt with arrays := bt.arrays } } : Dir) = b := by
      cases b; simp at hb; simp [hb]
    have e2 : ({ d with tree := some { t with arrays := t.arrays } } : Dir) = d := by
      cases d; simp at ht; simp [ht]
    rw [e1, e2]; exact h
  | cons x ar ih =>
    intro s b d t bt h ht hb hk
    simp only [keys, List.map_cons, List.nodup_cons] at hn
    have hbt : treeOf b = bt := by simp [treeOf, hb]
    obtain ⟨hk1, hk2⟩ := hk x.1 (by simp [keys])
    have hxa : get (x :: ar) x.1 = some x.2 := by simp [Assoc.get]
    rw [hxa] at hk1
    have hne : ∀ k ∈ keys ar, k ≠ x.1 := fun k hk he => hn.1 (he ▸ hk)
    have hnone : get ar x.1 = none := (get_eq_none_iff _ _).2 hn.1
    rcases hg : get (baseTree s0).arrays x.1 with _ | l
    · have h1 := at_setTree h { bt with arrays := put bt.arrays x.1 x.2 }
      have h2 := at_onPendTree h1 t ht (fun t => { t with arrays := del t.arrays x.1 })
      obtain ⟨arrs, tarrs, ha, hgo⟩ := ih hn.2 _ _ _ _ _ h2 rfl rfl (by
        intro k hk'
        have := hk k (by simp only [keys, List.map_cons, List.mem_cons]; exact Or.inr hk')
        have hx : ¬ x.1 = k := fun h => hne k hk' h.symm
        simp only [get_del_ne _ (hne k hk'), get_put_ne _ _ (hne k hk')]
        simpa [Assoc.get, hx] using this)
      refine ⟨arrs, tarrs, fun k => ?_, ?_⟩
      · rw [ha]
        simp only [newArr, Assoc.get]
        by_cases hkx : x.1 = k
        · subst hkx
          simp [hnone, hk2, hg]
        · simp [hkx, get_put_ne _ _ (fun h => hkx (Eq.symm h) : k ≠ x.1)]
      · simp only [List.flatMap_cons, hg, List.singleton_append, Goes, run, exec, at_pendTree h t ht, hk1,
          Option.getD_some, at_baseTree h, hbt]
        exact hgo
    · rw [hg] at hk2
      have h1 := at_setTree h { bt with arrays := del bt.arrays x.1 }
      have h2 := at_setTree h1 { bt with arrays := put (del bt.arrays x.1) x.1 (l ++ x.2) }
      have h3 := at_onPendTree h2 t ht (fun t => { t with arrays := del t.arrays x.1 })
      obtain ⟨arrs, tarrs, ha, hgo⟩ := ih hn.2 _ _ _ _ _ h3 rfl rfl (by
        intro k hk'
        have := hk k (by simp only [keys, List.map_cons, List.mem_cons]; exact Or.inr hk')
        have hx : ¬ x.1 = k := fun h => hne k hk' h.symm
        simp only [get_del_ne _ (hne k hk'), get_put_ne _ _ (hne k hk')]
        simpa [Assoc.get, hx] using this)
      refine ⟨arrs, tarrs, fun k => ?_, ?_⟩
      · rw [ha]
        simp only [newArr, Assoc.get]
        by_cases hkx : x.1 = k
        · subst hkx
          simp [hnone, hk2]
        · simp [hkx, get_put_ne _ _ (fun h => hkx (Eq.symm h) : k ≠ x.1), get_del_ne _ (fun h => hkx (Eq.symm h) : k ≠ x.1)]
      · simp only [List.flatMap_cons, hg, List.cons_append, List.nil_append, Goes, run, exec,
          at_baseTree h, hbt]
        have e1 : baseTree (setTree s { bt with arrays := del bt.arrays x.1 }) = { bt with arrays := del bt.arrays x.1 } := rfl
        rw [e1]
        exact hgo

/-- What merging the pending directory of the save `r` makes of the session. -/
structure Merged (b : Dir) (r : Req) (b' : Dir) : Prop where
  ckpt : b'.ckpt = some (newCkpt b (r.custom.getD []))
  tree : ∃ t, b'.tree = some t ∧ t.info = some (newInfo (treeOf b) ⟨r.entries, r.zarr3⟩) ∧
    t.procs = (treeOf b).procs ++ r.procs.map (fun x => ((x.1, some r.id), x.2)) ∧
    (∀ k, get t.arrays k = newArr (treeOf b).arrays r.arrays k) ∧ t.db = (treeOf b).db

theorem run_dirActs (s : Session) (r : Req) (hp : get s.pend r.id = some (dirOf r)) (hn : (keys r.procs).Nodup)
    (ha : (keys r.arrays).Nodup) :
    ∃ b', Merged s.base r b' ∧ run s (dirActs s r.id) = (⟨b', del s.pend r.id⟩, true) := by
  have h0 : At s r.id s.base (dirOf r) (del s.pend r.id) := ⟨rfl, hp, rfl⟩
  have hd : pendDir s r.id = dirOf r := at_pendDir h0
  -- checkpoint metadata
  have g1 := goes_ckpt h0 (r.custom.getD []) rfl
  -- pytree directory
  have hnp : (keys (r.procs.map fun p => (((p.1, none) : ProcName), p.2))).Nodup := by
    simp only [keys, List.map_map] at hn ⊢
    have : (Prod.fst ∘ fun p : Nat × List (Key × Nat) => (((p.1, none) : ProcName), p.2)) = (fun k => ((k, none) : ProcName)) ∘ Prod.fst := rfl
    rw [this, ← List.map_map]
    exact List.Pairwise.map _ (fun a b h he => h (by simpa using he)) hn
  let t0 : TreeDir := { info := some ⟨r.entries, r.zarr3⟩, procs := r.procs.map fun p => ((p.1, none), p.2), arrays := r.arrays, db := none }
  let b1 : Dir := { s.base with ckpt := some (newCkpt s.base (r.custom.getD [])) }
  let b2 : Dir := { b1 with tree := some (treeOf s.base) }
  let b3 : Dir := { b2 with tree := some { treeOf s.base with info := some (newInfo (treeOf s.base) ⟨r.entries, r.zarr3⟩) } }
  have hb1 : treeOf b1 = treeOf s.base := rfl
  have g2 : ∀ s', At s' r.id b1 { ckpt := none, tree := some t0 } (del s.pend r.id) →
      Goes s' [.mkTree] r.id b2 { ckpt := none, tree := some t0 } (del s.pend r.id) := by
    intro s' h'
    refine ⟨rfl, ?_⟩
    simp only [run, exec, at_baseTree h', hb1]
    exact at_setTree h' _
  have g3 : ∀ s', At s' r.id b2 { ckpt := none, tree := some t0 } (del s.pend r.id) →
      Goes s' (infoActs s r.id ⟨r.entries, r.zarr3⟩) r.id b3 { ckpt := none, tree := some { t0 with info := none } } (del s.pend r.id) := by
    intro s' h'
    exact goes_info h' t0 _ rfl rfl rfl
  let bt4 : TreeDir := { treeOf s.base with
    info := some (newInfo (treeOf s.base) ⟨r.entries, r.zarr3⟩)
    procs := (treeOf s.base).procs ++ (r.procs.map fun p => (((p.1, none) : ProcName), p.2)).map fun x => ((x.1.1, some r.id), x.2) }
  let b4 : Dir := { b3 with tree := some bt4 }
  have g4 : ∀ s', At s' r.id b3 { ckpt := none, tree := some { t0 with info := none } } (del s.pend r.id) →
      Goes s' (procActs r.id t0) r.id b4 { ckpt := none, tree := some { t0 with info := none, procs := [] } } (del s.pend r.id) := by
    intro s' h'
    exact goes_procs _ hnp s' _ _ _ _ h' rfl rfl rfl
  -- the state before the array metadata
  have ga := goes_append g1 (fun s' h' => goes_append (g2 s' h') (fun s'' h'' => goes_append (g3 s'' h'') g4))
  obtain ⟨s4, e4⟩ : ∃ s4, s4 = (run s (ckptActs s r.id (dirOf r) ++ ([.mkTree] ++ (infoActs s r.id ⟨r.entries, r.zarr3⟩ ++ procActs r.id t0)))).1 := ⟨_, rfl⟩
  have h4 := ga.2
  rw [← e4] at h4
  obtain ⟨arrs, tarrs, harr, g5⟩ := goes_arrays (p := r.id) s r.arrays ha s4 _ _ _ _ h4 rfl rfl (fun k _ => ⟨rfl, rfl⟩)
  refine ⟨{ b4 with tree := some { bt4 with arrays := arrs } }, ⟨rfl, _, rfl, rfl, ?_, harr, rfl⟩, ?_⟩
  · show (treeOf s.base).procs ++ _ = _
    simp [List.map_map, Function.comp_def]
  · have hacts : dirActs s r.id = (ckptActs s r.id (dirOf r) ++ ([.mkTree] ++ (infoActs s r.id ⟨r.entries, r.zarr3⟩ ++ procActs r.id t0)))
        ++ (arrActs s r.id t0 ++ [.rmTree r.id, .rmPend r.id]) := by
      simp only [dirActs, hd]
      show ckptActs s r.id (dirOf r) ++ ([.mkTree] ++ infoActs s r.id ⟨r.entries, r.zarr3⟩ ++ procActs r.id t0 ++ arrActs s r.id t0 ++ [.rmTree r.id]) ++ [.rmPend r.id] = _
      simp [List.append_assoc]
    rw [hacts, run_append, if_pos ga.1, ← e4, run_append]
    have g5' : (run s4 (arrActs s r.id t0)).2 = true := g5.1
    rw [if_pos g5']
    have h5 : At (run s4 (arrActs s r.id t0)).1 _ _ _ _ := g5.2
    have h6 := at_onPend h5 (fun d => { d with tree := none })
    simp only [run, exec]
    obtain ⟨e1, e2, e3⟩ := h6
    rw [e3, e1]

end Verif.Partial

namespace Verif.Partial

open Verif.Assoc

/-! ### Order of the pending directories -/

theorem insert_perm (p : Nat) (l : List Nat) : (insert p l).Perm (p :: l) := by
  induction l with
  | nil => exact List.Perm.refl _
  | cons q qs ih =>
    simp only [insert]
    split
    · exact List.Perm.refl _
    · exact (List.Perm.cons q ih).trans (List.Perm.swap p q qs)

theorem foldr_insert_perm (l : List Nat) : (l.foldr insert []).Perm l := by
  induction l with
  | nil => exact List.Perm.refl _
  | cons p l ih => exact (insert_perm p _).trans (List.Perm.cons p ih)

theorem insert_sorted (p : Nat) (l : List Nat) (h : l.Pairwise (· ≤ ·)) : (insert p l).Pairwise (· ≤ ·) := by
  induction l with
  | nil => simp [insert]
  | cons q qs ih =>
    simp only [List.pairwise_cons] at h
    simp only [insert]
    split
    · rename_i hpq
      simp only [List.pairwise_cons, List.mem_cons]
      exact ⟨fun a ha => ha.elim (fun e => e ▸ hpq) fun ha => Nat.le_trans hpq (h.1 a ha), h⟩
    · rename_i hpq
      simp only [List.pairwise_cons]
      refine ⟨fun a ha => ?_, ih h.2⟩
      rcases List.mem_cons.1 ((insert_perm p qs).mem_iff.1 ha) with e | ha
      · omega
      · exact h.1 a ha

theorem foldr_insert_sorted (l : List Nat) : (l.foldr insert []).Pairwise (· ≤ ·) := by
  induction l with
  | nil => exact List.Pairwise.nil
  | cons p l ih => exact insert_sorted p _ ih

/-! ### Keys that do not conflict -/

/-- The keys of two saves do not conflict. -/
def Apart (r r' : Req) : Prop := ∀ k ∈ keys r.entries, ∀ k' ∈ keys r'.entries, ¬ k <+: k' ∧ ¬ k' <+: k

theorem isPrefix_eq (a b : Key) : isPrefix a b = true ↔ a <+: b ∧ a ≠ b := by
  simp only [isPrefix, Bool.and_eq_true, decide_eq_true_eq, beq_iff_eq]
  constructor
  · rintro ⟨h1, h2⟩
    exact ⟨h2 ▸ List.take_prefix _ _, fun e => by simp [e] at h1⟩
  · rintro ⟨⟨c, h⟩, h2⟩
    subst h
    refine ⟨?_, by simp⟩
    cases c with
    | nil => simp at h2
    | cons x c => simp

theorem conflicts_false (saved : List Key) (k : Key) :
    conflicts saved k = false ↔ ∀ m ∈ saved, ¬ k <+: m ∧ ¬ m <+: k := by
  simp only [conflicts, Bool.or_eq_false_iff, List.any_eq_false, List.contains_eq_mem, decide_eq_false_iff_not,
    Bool.or_eq_true, not_or, isPrefix_eq]
  constructor
  · rintro ⟨h1, h2⟩ m hm
    have := h2 m hm
    exact ⟨fun h => this.1 ⟨h, fun e => h1 (e ▸ hm)⟩, fun h => this.2 ⟨h, fun e => h1 (e ▸ hm)⟩⟩
  · intro h
    refine ⟨fun hk => (h k hk).1 (List.prefix_refl _), fun m hm => ⟨fun h' => (h m hm).1 h'.1, fun h' => (h m hm).2 h'.1⟩⟩

/-- The pending directories of a list of saves. -/
def pendOf (rs : List Req) : List (Nat × Dir) := rs.map fun r => (r.id, dirOf r)

theorem pendingKeys_pendOf (b : Dir) (rs : List Req) :
    pendingKeys (some ⟨b, pendOf rs⟩) = rs.flatMap fun r => keys r.entries := by
  simp [pendingKeys, pendOf, dirOf, List.flatMap_map]

/-- What a save does when the pending directories come from earlier saves. -/
theorem save_ok {w w' : World} {r : Req} (h : save w r = (w', none)) :
    w.final = none ∧ (∀ k ∈ keys r.entries, conflicts (pendingKeys w.sess) k = false) ∧
    w' = { tmp := none, sess := some { (w.sess.getD ⟨emptyDir, []⟩) with
      pend := (w.sess.getD ⟨emptyDir, []⟩).pend ++ [(r.id, dirOf r)] }, final := none } := by
  simp only [save, saveSteps, steps, step, start] at h
  rcases hf : w.final with _ | d
  · simp only [hf, Option.isSome_none, Bool.false_eq_true, if_false] at h
    rcases hc : (keys r.entries).any (conflicts (pendingKeys w.sess)) with _ | _
    · simp only [hc, Bool.false_eq_true, if_false, write, publish, Prod.mk.injEq, and_true] at h
      refine ⟨rfl, fun k hk => ?_, ?_⟩
      · simp only [List.any_eq_false] at hc
        simpa using hc k hk
      · rw [← h]
    · simp [hc] at h
  · simp [hf] at h

theorem saves_ok (rs : List Req) : ∀ (w w' : World) (b : Dir) (done : List Req), saves w rs = (w', none) →
    w.final = none → (w.sess = none ∧ done = [] ∧ b = emptyDir ∨ w.sess = some ⟨b, pendOf done⟩) →
    (∀ i j (hj : j < done.length) (_ : i < j), Apart done[i] done[j]) →
    w'.final = none ∧ (w'.sess = none ∧ done ++ rs = [] ∧ b = emptyDir ∨ w'.sess = some ⟨b, pendOf (done ++ rs)⟩) ∧
    (∀ i j (hj : j < (done ++ rs).length) (_ : i < j), Apart (done ++ rs)[i] (done ++ rs)[j]) := by
  induction rs with
  | nil =>
    intro w w' b done h hf hs ha
    simp only [saves, Prod.mk.injEq, and_true] at h
    subst h
    simp only [List.append_nil]
    exact ⟨hf, hs, ha⟩
  | cons r rs ih =>
    intro w w' b done h hf hs ha
    simp only [saves] at h
    rcases hr : save w r with ⟨w1, _ | e⟩
    · simp only [hr] at h
      obtain ⟨_, hc, hw1⟩ := save_ok hr
      have hs1 : w1.sess = some ⟨b, pendOf (done ++ [r])⟩ := by
        rw [hw1]
        rcases hs with ⟨h1, h2, h3⟩ | h1
        · simp [h1, h2, h3, pendOf]
        · simp [h1, pendOf]
      have hk : ∀ d ∈ done, Apart d r := by
        intro d hd k hk k' hk'
        have := hc k' hk'
        rcases hs with ⟨h1, h2, h3⟩ | h1
        · simp [h2] at hd
        · rw [h1, pendingKeys_pendOf, conflicts_false] at this
          have := this k (List.mem_flatMap.2 ⟨d, hd, hk⟩)
          exact ⟨this.2, this.1⟩
      have := ih w1 w' b (done ++ [r]) h (by rw [hw1]) (Or.inr hs1) (by
        intro i j hj hij
        simp only [List.length_append, List.length_singleton] at hj
        rcases Nat.lt_succ_iff_lt_or_eq.1 hj with hj' | hj'
        · rw [List.getElem_append_left hj', List.getElem_append_left (Nat.lt_trans hij hj')]
          exact ha i j hj' hij
        · subst hj'
          rw [List.getElem_append_left hij]
          simp only [List.getElem_append_right (Nat.le_refl _), Nat.sub_self, List.getElem_cons_zero]
          exact hk _ (List.getElem_mem _))
      simpa [List.append_assoc] using this
    · simp [hr] at h

/-! ### The merged session -/

/-- The state of the session after the saves `done` have been merged in this order. -/
structure Inv (done : List Req) (b : Dir) : Prop where
  entries : ∀ i, (treeOf b).info = some i → ∀ k e, get i.entries k = some e ↔ ∃ r ∈ done, (k, e) ∈ r.entries
  noinfo : (treeOf b).info = none → done = []
  zarr : ∀ i r, (treeOf b).info = some i → done.getLast? = some r → i.zarr3 = r.zarr3
  procs : (treeOf b).procs = done.flatMap fun r => r.procs.map fun x => ((x.1, some r.id), x.2)
  arrays : ∀ k, (get (treeOf b).arrays k).getD [] = done.flatMap fun r => (get r.arrays k).getD []
  db : (treeOf b).db = none
  ckpt : ∀ k, (b.ckpt.getD []) |> fun c => get c k = (done.foldl (fun a r => (get (r.custom.getD []) k).or a) none)
  nockpt : b.ckpt = none → done = []

theorem mem_iff_get {κ ν : Type} [DecidableEq κ] (m : List (κ × ν)) (hn : (keys m).Nodup) (k : κ) (v : ν) :
    get m k = some v ↔ (k, v) ∈ m := ⟨mem_of_get m k v, get_of_mem m hn k v⟩

theorem mem_keys_of_mem {κ ν : Type} {m : List (κ × ν)} {k : κ} {v : ν} (h : (k, v) ∈ m) : k ∈ keys m :=
  List.mem_map.2 ⟨(k, v), h, rfl⟩

theorem filterConflicts_id (m : List (Key × Nat)) (h : ∀ k ∈ keys m, ∀ k' ∈ keys m, k <+: k' → k = k') :
    filterConflicts m = m := by
  refine List.filter_eq_self.2 fun p hp => ?_
  simp only [Bool.not_eq_true', List.any_eq_false, isPrefix_eq, not_and]
  exact fun q hq hpq hne => hne <| h p.1 (List.mem_map.2 ⟨p, hp, rfl⟩) q.1 (List.mem_map.2 ⟨q, hq, rfl⟩) hpq

theorem inv_step {done : List Req} {b b' : Dir} {r : Req} (h : Inv done b) (hm : Merged b r b')
    (hd : ∀ d ∈ done, Wf d) (hr : Wf r) (ha : ∀ d ∈ done, Apart d r)
    (hdd : ∀ d ∈ done, ∀ d' ∈ done, d ≠ d' → Apart d d') : Inv (done ++ [r]) b' := by
  obtain ⟨t, ht, hi, hp, hr', hdb⟩ := hm.tree
  have htr : treeOf b' = t := by simp [treeOf, ht]
  constructor
  · intro i hi' k e
    rw [htr, hi] at hi'
    simp only [Option.some.injEq] at hi'
    subst hi'
    rcases hb : (treeOf b).info with _ | i0
    · have hdone := h.noinfo hb
      subst hdone
      simp only [newInfo, hb, List.nil_append, List.mem_singleton, exists_eq_left]
      exact mem_iff_get _ hr.entries _ _
    · have hent := h.entries i0 hb
      have hkeys : ∀ k ∈ keys i0.entries, ∃ d ∈ done, k ∈ keys d.entries := by
        intro k hk
        obtain ⟨v, hv⟩ := (mem_keys_iff _ _).1 hk
        obtain ⟨d, hd1, hd2⟩ := (hent k v).1 hv
        exact ⟨d, hd1, mem_keys_of_mem hd2⟩
      have hfil : filterConflicts (update i0.entries r.entries) = update i0.entries r.entries := by
        apply filterConflicts_id
        intro k hk k' hk' hpre
        rw [mem_keys_update] at hk hk'
        rcases hk with hk | hk <;> rcases hk' with hk' | hk'
        · obtain ⟨d, hd1, hd2⟩ := hkeys k hk
          obtain ⟨d', hd1', hd2'⟩ := hkeys k' hk'
          by_cases he : d = d'
          · subst he; exact (hd d hd1).tree k hd2 k' hd2' hpre
          · exact absurd hpre (hdd d hd1 d' hd1' he k hd2 k' hd2').1
        · obtain ⟨d, hd1, hd2⟩ := hkeys k hk
          exact absurd hpre (ha d hd1 k hd2 k' hk').1
        · obtain ⟨d', hd1', hd2'⟩ := hkeys k' hk'
          exact absurd hpre (ha d' hd1' k' hd2' k hk).2
        · exact hr.tree k hk k' hk' hpre
      simp only [newInfo, hb, mergeInfo, hfil, get_update _ _ hr.entries]
      constructor
      · intro hg
        rcases hg1 : get r.entries k with _ | e'
        · simp only [hg1, Option.none_or] at hg
          obtain ⟨d, hd1, hd2⟩ := (hent k e).1 hg
          exact ⟨d, List.mem_append_left _ hd1, hd2⟩
        · simp only [hg1, Option.some_or, Option.some.injEq] at hg
          subst hg
          exact ⟨r, by simp, mem_of_get _ _ _ hg1⟩
      · rintro ⟨d, hd1, hd2⟩
        rcases List.mem_append.1 hd1 with hd1 | hd1
        · have : get r.entries k = none := by
            rw [get_eq_none_iff]
            intro hk
            exact (ha d hd1 k (mem_keys_of_mem hd2) k hk).1 (List.prefix_refl _)
          rw [this, Option.none_or]
          exact (hent k e).2 ⟨d, hd1, hd2⟩
        · simp only [List.mem_singleton] at hd1
          subst hd1
          rw [get_of_mem _ hr.entries _ _ hd2, Option.some_or]
  · intro hno
    rw [htr, hi] at hno
    cases hno
  · intro i r' hi' hl
    rw [htr, hi] at hi'
    simp only [Option.some.injEq] at hi'
    subst hi'
    simp only [List.getLast?_append, List.getLast?_singleton, Option.some_or, Option.some.injEq] at hl
    subst hl
    simp only [newInfo]
    split
    · rfl
    · rfl
  · rw [htr, hp, h.procs]
    simp
  · intro k
    rw [htr, hr', newArr]
    have := h.arrays k
    simp only [List.flatMap_append, List.flatMap_cons, List.flatMap_nil, List.append_nil, ← this]
    rcases get r.arrays k with _ | l
    · simp
    · simp
  · rw [htr, hdb, h.db]
  · intro k
    have := h.ckpt k
    simp only [hm.ckpt, Option.getD_some, List.foldl_append, List.foldl_cons, List.foldl_nil, ← this, newCkpt]
    rcases b.ckpt with _ | c
    · simp
    · simp only [mergeCkpt, Option.getD_some]
      exact get_update _ _ hr.custom k
  · intro hno
    rw [hm.ckpt] at hno
    cases hno

theorem inv_nil : Inv [] emptyDir := by
  constructor <;> simp [treeOf, emptyDir]

theorem get_pendOf (rs : List Req) (hn : (rs.map Req.id).Nodup) (r : Req) (hr : r ∈ rs) :
    get (pendOf rs) r.id = some (dirOf r) := by
  apply get_of_mem
  · simpa [keys, pendOf, Function.comp_def] using hn
  · exact List.mem_map.2 ⟨r, hr, rfl⟩

theorem del_pendOf (rs : List Req) (n : Nat) : del (pendOf rs) n = pendOf (rs.filter fun r => decide (r.id ≠ n)) := by
  simp only [del, pendOf]
  induction rs with
  | nil => rfl
  | cons r rs ih =>
    simp only [List.map_cons, List.filter_cons, ih]
    split <;> simp_all

/-- Merging the pending directories of `qs` (any order) after `done`. -/
theorem run_mergeActs (qs : List Req) : ∀ (s : Session) (done rest : List Req), Inv done s.base →
    s.pend = pendOf rest → rest.Perm qs → (rest.map Req.id).Nodup →
    (∀ d ∈ done ++ qs, Wf d) → (∀ d ∈ done ++ qs, ∀ d' ∈ done ++ qs, d.id ≠ d'.id → Apart d d') →
    ((done ++ qs).map Req.id).Nodup →
    ∃ b, Inv (done ++ qs) b ∧ run s (mergeActs s (qs.map Req.id)) = (⟨b, []⟩, true) := by
  induction qs with
  | nil =>
    intro s done rest hi hp hq _ _ _ _
    have : rest = [] := hq.eq_nil
    subst this
    refine ⟨s.base, by simpa using hi, ?_⟩
    obtain ⟨b, p⟩ := s
    simp only [pendOf, List.map_nil] at hp
    subst hp
    rfl
  | cons q qs ih =>
    intro s done rest hi hp hq hn hw ha hids
    have hqm : q ∈ rest := hq.mem_iff.2 (by simp)
    have hget : get s.pend q.id = some (dirOf q) := by rw [hp]; exact get_pendOf rest hn q hqm
    have hwq : Wf q := hw q (by simp)
    obtain ⟨b', hm, hrun⟩ := run_dirActs s q hget hwq.procs hwq.arrays
    have hidq : ∀ d ∈ done, d.id ≠ q.id := by
      intro d hd he
      rw [List.map_append, List.nodup_append] at hids
      exact hids.2.2 d.id (List.mem_map.2 ⟨d, hd, rfl⟩) q.id (by simp) he
    have hiddone : ∀ d ∈ done, ∀ d' ∈ done, d ≠ d' → d.id ≠ d'.id := by
      intro d hd d' hd' hne he
      apply hne
      have hnd : (done.map Req.id).Nodup := by
        rw [List.map_append, List.nodup_append] at hids; exact hids.1
      clear ih hids hw ha hi hq
      induction done with
      | nil => simp at hd
      | cons x xs ihx =>
        simp only [List.map_cons, List.nodup_cons, List.mem_map, not_exists, not_and] at hnd
        rcases List.mem_cons.1 hd with e1 | h1 <;> rcases List.mem_cons.1 hd' with e2 | h2
        · rw [e1, e2]
        · exact absurd (e1 ▸ he).symm (hnd.1 _ h2)
        · exact absurd (e2 ▸ he) (hnd.1 _ h1)
        · exact ihx (fun d hd => hidq d (List.mem_cons_of_mem _ hd)) h1 h2 hnd.2
    have hi' : Inv (done ++ [q]) b' := by
      refine inv_step hi hm (fun d hd => hw d (List.mem_append_left _ hd)) hwq ?_ ?_
      · intro d hd
        exact ha d (List.mem_append_left _ hd) q (by simp) (hidq d hd)
      · intro d hd d' hd' hne
        exact ha d (List.mem_append_left _ hd) d' (List.mem_append_left _ hd') (hiddone d hd d' hd' hne)
    have hqs : rest.filter (fun r => decide (r.id ≠ q.id)) |>.Perm qs := by
      have h1 := hq.filter (fun r => decide (r.id ≠ q.id))
      have h2 : (q :: qs).filter (fun r => decide (r.id ≠ q.id)) = qs := by
        simp only [List.filter_cons, ne_eq, not_true, decide_false, Bool.false_eq_true, if_false]
        refine List.filter_eq_self.2 fun y hy => ?_
        simp only [decide_eq_true_eq]
        intro he
        rw [List.map_append, List.nodup_append, List.map_cons, List.nodup_cons] at hids
        exact hids.2.1.1 (he ▸ List.mem_map.2 ⟨y, hy, rfl⟩)
      rw [h2] at h1
      exact h1
    have hsplit : done ++ q :: qs = (done ++ [q]) ++ qs := by simp
    obtain ⟨b, hb, hr⟩ := ih ⟨b', del s.pend q.id⟩ (done ++ [q]) (rest.filter fun r => decide (r.id ≠ q.id)) hi'
      (by simp only; rw [hp, del_pendOf]) hqs (List.Pairwise.sublist (List.Sublist.map _ List.filter_sublist) hn)
      (by rw [← hsplit]; exact hw) (by rw [← hsplit]; exact ha) (by rw [← hsplit]; exact hids)
    refine ⟨b, by rw [hsplit]; exact hb, ?_⟩
    simp only [List.map_cons, mergeActs, run_append, hrun, if_true]
    exact hr

theorem perm_lift {α β : Type} (f : α → β) {l l' : List β} (h : l.Perm l') :
    ∀ rs : List α, rs.map f = l → ∃ qs : List α, rs.Perm qs ∧ qs.map f = l' := by
  induction h with
  | nil =>
    intro rs hr
    exact ⟨rs, List.Perm.refl _, hr⟩
  | cons x h ih =>
    intro rs hr
    cases rs with
    | nil => simp at hr
    | cons r rs =>
      simp only [List.map_cons, List.cons.injEq] at hr
      obtain ⟨qs, h1, h2⟩ := ih rs hr.2
      exact ⟨r :: qs, List.Perm.cons _ h1, by simp [hr.1, h2]⟩
  | swap x y l =>
    intro rs hr
    match rs, hr with
    | a :: b :: rs, hr =>
      simp only [List.map_cons, List.cons.injEq] at hr
      exact ⟨b :: a :: rs, List.Perm.swap _ _ _, by simp [hr.1, hr.2.1, hr.2.2]⟩
  | trans h1 h2 ih1 ih2 =>
    intro rs hr
    obtain ⟨qs, p1, e1⟩ := ih1 rs hr
    obtain ⟨qs', p2, e2⟩ := ih2 qs e1
    exact ⟨qs', p1.trans p2, e2⟩

/-- The merged database, when no leaf is in two databases. -/
theorem get_foldl_update {ν α : Type} (ps : List (α × List (Key × ν))) : ∀ (m : List (Key × ν)),
    (ps.flatMap fun p => keys p.2).Nodup → (∀ p ∈ ps, ∀ k ∈ keys p.2, k ∉ keys m) → ∀ k v,
    Assoc.get (ps.foldl (fun m p => update m p.2) m) k = some v ↔ Assoc.get m k = some v ∨ ∃ p ∈ ps, (k, v) ∈ p.2 := by
  induction ps with
  | nil => intro m _ _ k v; simp
  | cons p ps ih =>
    intro m hn hm k v
    simp only [List.flatMap_cons, List.nodup_append] at hn
    have hdis : ∀ q ∈ ps, ∀ k ∈ keys q.2, k ∉ keys (update m p.2) := by
      intro q hq k hk hmem
      rcases (mem_keys_update _ _ _).1 hmem with h | h
      · exact hm q (List.mem_cons_of_mem _ hq) k hk h
      · exact hn.2.2 k h k (List.mem_flatMap.2 ⟨q, hq, hk⟩) rfl
    rw [List.foldl_cons, ih _ hn.2.1 hdis, get_update _ _ hn.1]
    constructor
    · rintro (h | ⟨q, hq, h⟩)
      · rcases hg : Assoc.get p.2 k with _ | v'
        · rw [hg, Option.none_or] at h; exact Or.inl h
        · rw [hg, Option.some_or, Option.some.injEq] at h
          subst h
          exact Or.inr ⟨p, by simp, mem_of_get _ _ _ hg⟩
      · exact Or.inr ⟨q, List.mem_cons_of_mem _ hq, h⟩
    · rintro (h | ⟨q, hq, h⟩)
      · have : Assoc.get p.2 k = none := by
          rw [get_eq_none_iff]
          intro hk
          exact hm p (by simp) k hk ((mem_keys_iff _ _).2 ⟨v, h⟩)
        left; rw [this, Option.none_or]; exact h
      · rcases List.mem_cons.1 hq with rfl | hq
        · left; rw [get_of_mem _ hn.1 _ _ h, Option.some_or]
        · exact Or.inr ⟨q, hq, h⟩

theorem leaves_nodup (rs : List Req) (hw : ∀ d ∈ rs, Wf d) (ha : ∀ d ∈ rs, ∀ d' ∈ rs, d.id ≠ d'.id → Apart d d')
    (hn : (rs.map Req.id).Nodup) : (rs.flatMap fun r => r.procs.flatMap fun p => keys p.2).Nodup := by
  induction rs with
  | nil => simp
  | cons r rs ih =>
    simp only [List.map_cons, List.nodup_cons, List.mem_map, not_exists, not_and] at hn
    simp only [List.flatMap_cons, List.nodup_append]
    refine ⟨(hw r (by simp)).leaves, ih (fun d hd => hw d (List.mem_cons_of_mem _ hd))
      (fun d hd d' hd' => ha d (List.mem_cons_of_mem _ hd) d' (List.mem_cons_of_mem _ hd')) hn.2, ?_⟩
    rintro k hk k' hk' rfl
    obtain ⟨p, hp, hk⟩ := List.mem_flatMap.1 hk
    obtain ⟨d, hd, hk'⟩ := List.mem_flatMap.1 hk'
    obtain ⟨p', hp', hk'⟩ := List.mem_flatMap.1 hk'
    have h1 := (hw r (by simp)).sub p hp k hk
    have h2 := (hw d (List.mem_cons_of_mem _ hd)).sub p' hp' k hk'
    exact (ha r (by simp) d (List.mem_cons_of_mem _ hd) (fun e => hn.1 d hd e.symm) k h1 k h2).1 (List.prefix_refl _)

end Verif.Partial
