import Verif.Emergency.ReplicatorLemmas

/-!
# What the replicator checkpoint manager restores (C87)

Claim: in every history of saves, deletions and restarts, restoring a step gives the state of the last `save` of that step that stored it, every
shard on the device the user asked for, whatever ids the devices have now; and the dataset is that of the same `save`.
-/

namespace Verif.Emergency.Replicator
open Verif Verif.Emergency.Mesh
open Verif.Policies (Ckpt)

variable {V D : Type}

/-! ### Specification -/

/-- The last call in a history that stored step `s`, with the incarnation that made it. -/
def lastSave (inc : Inc) (s : Int) : List (Ev V D × Out) → Option (Inc × SaveCall V D) → Option (Inc × SaveCall V D)
  | [], acc => acc
  | (.save c, out) :: tr, acc =>
    lastSave inc s tr (if c.step = s ∧ (out = .saved ∨ out = .raisedDataset) then some (inc, c) else acc)
  | (.delete _, _) :: tr, acc => lastSave inc s tr acc
  | (.restart inc' _, _) :: tr, acc => lastSave inc' s tr acc

/-- Distinct device ids; the mesh has every device once. -/
def Inc.Ok (inc : Inc) : Prop :=
  inc.ids.flatten.Nodup ∧ (∀ row ∈ inc.ids, ∀ id ∈ row, id ∈ inc.devices) ∧ inc.mesh.length = inc.ids.flatten.length ∧
  ∀ id ∈ inc.mesh, id ∈ inc.ids.flatten

/-! ### The invariant -/

/-- How one event changes the last calls. -/
def upd (inc : Inc) (e : Ev V D) (out : Out) (last : Int → Option (Inc × SaveCall V D)) : Int → Option (Inc × SaveCall V D) :=
  match e with
  | .save c => fun s => if c.step = s ∧ (out = .saved ∨ out = .raisedDataset) then some (inc, c) else last s
  | _ => last

theorem lastSave_cons (cfg : Cfg) (st : St V D) (e : Ev V D) (tr : List (Ev V D × Out)) (s : Int)
    (last : Int → Option (Inc × SaveCall V D)) :
    lastSave st.inc s ((e, (exec cfg st e).2) :: tr) (last s) =
      lastSave (exec cfg st e).1.inc s tr (upd st.inc e (exec cfg st e).2 last s) := by
  cases e with
  | save c =>
    have : (exec cfg st (.save c)).1.inc = st.inc := by
      simp only [exec, save]
      repeat' split
      all_goals rfl
    rw [this]
    rfl
  | delete s =>
    have : (exec cfg st (.delete s)).1.inc = st.inc := by
      simp only [exec, delete]
      repeat' split
      all_goals rfl
    rw [this]
    rfl
  | restart inc keep => rfl

/-- The local steps are what the last call of each step stored. -/
def Tracks (last : Int → Option (Inc × SaveCall V D)) (st : St V D) : Prop :=
  Uniq st.loc ∧ ∀ i ∈ st.loc, ∃ inc c, last i.step = some (inc, c) ∧ c.step = i.step ∧ i.data = localOf inc c

theorem tracks_localSave (cfg : Cfg) (last : Int → Option (Inc × SaveCall V D)) (st : St V D) (h : Tracks last st)
    (c : SaveCall V D) (loc : Mgr (Local V))
    (hs : st.loc.save cfg c.step c.now c.force c.preempted (localOf st.inc c) = some (loc, true)) (out : Out)
    (ho : out = .saved ∨ out = .raisedDataset) :
    Uniq loc ∧ ∀ i ∈ loc, ∃ inc c', upd st.inc (.save c) out last i.step = some (inc, c') ∧ c'.step = i.step ∧ i.data = localOf inc c' := by
  refine ⟨uniq_save _ _ _ _ _ _ _ _ _ h.1 hs, ?_⟩
  rcases save_cases cfg st.loc c.step c.now c.force c.preempted (localOf st.inc c) with h1 | h1 | ⟨hn, fs, h1⟩
  · rw [h1] at hs; cases hs
  · rw [h1] at hs; cases hs
  · rw [h1] at hs
    cases hs
    intro i hi
    rcases List.mem_append.1 (mem_trim _ _ _ hi) with hm | hm
    · obtain ⟨inc, c', h2, h3, h4⟩ := h.2 i hm
      have hne : c.step ≠ i.step := fun hc => hn (hc ▸ List.mem_map.2 ⟨i, hm, rfl⟩)
      exact ⟨inc, c', by simp [upd, hne, h2], h3, h4⟩
    · have : i = ⟨c.step, c.now, localOf st.inc c⟩ := by simpa using hm
      subst this
      exact ⟨st.inc, c, by simp [upd, ho], rfl, rfl⟩

theorem tracks_exec (cfg : Cfg) (last : Int → Option (Inc × SaveCall V D)) (st : St V D) (h : Tracks last st) (e : Ev V D) :
    Tracks (upd st.inc e (exec cfg st e).2 last) (exec cfg st e).1 := by
  cases e with
  | restart inc keep =>
    refine ⟨uniq_load _ (uniq_filter _ _ h.1), ?_⟩
    intro i hi
    simp only [exec, mem_load, List.mem_filter] at hi
    exact h.2 i hi.1
  | delete s =>
    have key : ∀ (loc : Mgr (Local V)), st.loc.delete s = some loc →
        Uniq loc ∧ ∀ i ∈ loc, ∃ inc c, last i.step = some (inc, c) ∧ c.step = i.step ∧ i.data = localOf inc c := by
      intro loc hl
      exact ⟨uniq_delete _ _ _ hl h.1, fun i hi => h.2 i ((delete_mem _ _ _ hl i).1 hi).1⟩
    show Tracks last (delete st s).1
    simp only [delete]
    split
    · cases hl : st.loc.delete s with
      | none => exact h
      | some loc => exact key loc hl
    · cases hp : Mgr.delete _ s with
      | none => exact h
      | some per =>
        cases hl : st.loc.delete s with
        | none => exact h
        | some loc => exact key loc hl
  | save c =>
    have keep : ∀ out, out = Out.raised ∨ out = Out.skipped → Tracks (upd st.inc (.save c) out last) st := by
      intro out ho
      have : upd st.inc (.save c) out last = last := by
        funext s
        rcases ho with rfl | rfl <;> simp [upd]
      rw [this]; exact h
    simp only [exec, save]
    split
    · exact keep _ (.inl rfl)
    split
    · exact keep _ (.inr rfl)
    cases hs : st.loc.save cfg c.step c.now c.force c.preempted (localOf st.inc c) with
    | none => exact keep _ (.inl rfl)
    | some r =>
      obtain ⟨loc, b⟩ := r
      cases b with
      | false => exact keep _ (.inr rfl)
      | true =>
        have k1 := tracks_localSave cfg last st h c loc hs .saved (.inl rfl)
        have k2 := tracks_localSave cfg last st h c loc hs .raisedDataset (.inr rfl)
        simp only
        split
        · cases hp : Mgr.save cfg _ c.step c.nowDataset c.force c.preempted _ with
          | none => exact k2
          | some r => exact k1
        · exact k1

theorem tracks_run (cfg : Cfg) (es : List (Ev V D)) (last : Int → Option (Inc × SaveCall V D)) (st : St V D) (h : Tracks last st) :
    Tracks (fun s => lastSave st.inc s (run cfg st es).1 (last s)) (run cfg st es).2 := by
  induction es generalizing last st with
  | nil => exact h
  | cons e es ih =>
    have := ih _ _ (tracks_exec cfg last st h e)
    simp only [run]
    have e1 : (fun s => lastSave st.inc s ((e, (exec cfg st e).2) :: (run cfg (exec cfg st e).1 es).1) (last s)) =
        fun s => lastSave (exec cfg st e).1.inc s (run cfg (exec cfg st e).1 es).1 (upd st.inc e (exec cfg st e).2 last s) := by
      funext s; exact lastSave_cons _ _ _ _ _ _
    rw [e1]
    exact this

theorem tracks_start (cfg : Cfg) (st : St V D) (h0 : st.loc = []) (es : List (Ev V D)) :
    Tracks (fun s => lastSave st.inc s (run cfg st es).1 none) (run cfg st es).2 := by
  apply tracks_run cfg es (fun _ => none) st
  rw [Tracks, h0]
  exact ⟨by simp [Uniq], by simp⟩

/-! ### One restore -/

theorem restoreStep_some (st : St V D) (s : Int) (args : List (Name × Arg)) (res : List (Name × Val V D))
    (h : restoreStep st s args = some res) :
    ∃ d args' rest got got', st.loc.find s = some d ∧ materialize d args = some args' ∧ compatible d.ids st.inc.ids d.mesh = true ∧
      restMesh st.inc d = some rest ∧ (args'.any fun a => a.2 == .tree .unplaced) = false ∧
      readLocal D st.inc rest d args' = some got ∧ addDataset st.per s args' got = some got' ∧
      (args'.mapM fun a => (Assoc.get got' a.1).map fun v => (a.1, place st.inc rest a.2 v)) = some res := by
  unfold restoreStep at h
  obtain ⟨d, hd, h⟩ := Option.bind_eq_some_iff.1 h
  obtain ⟨args', ha, h⟩ := Option.bind_eq_some_iff.1 h
  split at h
  · cases h
  rename_i hc
  obtain ⟨rest, hr, h⟩ := Option.bind_eq_some_iff.1 h
  split at h
  · cases h
  rename_i hu
  obtain ⟨got, hg, h⟩ := Option.bind_eq_some_iff.1 h
  obtain ⟨got', hg', h⟩ := Option.bind_eq_some_iff.1 h
  exact ⟨d, args', rest, got, got', hd, ha, by simpa using hc, hr, Bool.eq_false_iff.2 hu, hg, hg', h⟩

theorem addDataset_some (per : Option (Mgr D)) (s : Int) (args : List (Name × Arg)) (got got' : List (Name × (List V ⊕ D)))
    (h : addDataset per s args got = some got') :
    (∀ k, k ≠ datasetName → Assoc.get got' k = Assoc.get got k) ∧
    (per = none → got' = got) ∧
    ∀ p, per = some p → datasetName ∈ args.map (·.1) → ∃ d, p.find s = some d ∧ Assoc.get got' datasetName = some (.inr d) := by
  cases per with
  | none => cases h; exact ⟨fun _ _ => rfl, fun _ => rfl, by simp⟩
  | some p =>
    simp only [addDataset] at h
    split at h
    · obtain ⟨d, hd, rfl⟩ := Option.map_eq_some_iff.1 h
      refine ⟨fun k hk => Assoc.get_put_ne _ _ hk, by simp, ?_⟩
      intro p' hp _
      cases hp
      exact ⟨d, hd, by simp⟩
    · rename_i hn
      cases h
      exact ⟨fun _ _ => rfl, fun _ => rfl, fun p' _ hm => absurd (by simpa using hm) hn⟩

/-- What the arguments become. -/
def named : Name × Arg → Name × Arg
  | (k, .tree .infer) => (k, .tree .named)
  | a => a

theorem materialize_some (d : Local V) (args args' : List (Name × Arg)) (h : materialize d args = some args') :
    args' = args.map named ∧ ∀ k, (k, Arg.tree .infer) ∈ args → ∃ x, Assoc.get d.items k = some x := by
  rw [materialize, mapM_iff] at h
  induction args generalizing args' with
  | nil => cases args' <;> simp_all
  | cons a args ih =>
    cases args' with
    | nil => simp at h
    | cons a' args' =>
      simp only [List.map_cons, List.cons.injEq] at h
      obtain ⟨h1, h2⟩ := h
      obtain ⟨i1, i2⟩ := ih args' h2
      obtain ⟨k, a⟩ := a
      have : a' = named (k, a) ∧ (a = .tree .infer → ∃ x, Assoc.get d.items k = some x) := by
        cases a with
        | other => exact ⟨by simpa [named] using h1.symm, by simp⟩
        | tree p =>
          cases p with
          | infer =>
            simp only at h1
            obtain ⟨x, hx, e⟩ := Option.map_eq_some_iff.1 h1
            exact ⟨e.symm, fun _ => ⟨x, hx⟩⟩
          | named => exact ⟨by simpa [Replicator.named] using h1.symm, by simp⟩
          | meshAxes => exact ⟨by simpa [Replicator.named] using h1.symm, by simp⟩
          | unplaced => exact ⟨by simpa [Replicator.named] using h1.symm, by simp⟩
      refine ⟨by rw [List.map_cons, ← i1, this.1], ?_⟩
      intro k' hk
      rcases List.mem_cons.1 hk with hk | hk
      · cases hk; exact this.2 rfl
      · exact i2 k' hk

theorem named_fst (a : Name × Arg) : (named a).1 = a.1 := by
  obtain ⟨k, a⟩ := a
  cases a with
  | other => rfl
  | tree p => cases p <;> rfl

theorem named_isTree (a : Name × Arg) : (named a).2.isTree = a.2.isTree := by
  obtain ⟨k, a⟩ := a
  cases a with
  | other => rfl
  | tree p => cases p <;> rfl

theorem restMesh_length (inc : Inc) (d : Local V) (rest : List Nat) (h : restMesh inc d = some rest) : rest.length = inc.mesh.length := by
  simp only [restMesh] at h
  split at h
  · split at h
    · cases h; assumption
    · cases h
  · cases h

theorem got_get {A B E : Type} [DecidableEq A] (f : A → Option E) (l : List (A × B)) (got : List (A × E))
    (h : (l.mapM fun a => (f a.1).map fun v => (a.1, v)) = some got) (k : A) (hk : k ∈ l.map (·.1)) :
    ∃ v, f k = some v ∧ Assoc.get got k = some v := by
  induction l generalizing got with
  | nil => simp at hk
  | cons a l ih =>
    rw [mapM_option_cons] at h
    obtain ⟨b, hb, h⟩ := Option.bind_eq_some_iff.1 h
    obtain ⟨v, hv, rfl⟩ := Option.map_eq_some_iff.1 hb
    obtain ⟨got, hg, rfl⟩ := Option.map_eq_some_iff.1 h
    by_cases hak : a.1 = k
    · subst hak
      exact ⟨v, hv, by simp [Assoc.get]⟩
    · have : k ∈ l.map (·.1) := by
        rcases List.mem_cons.1 hk with h | h
        · exact absurd h.symm hak
        · exact h
      obtain ⟨w, h1, h2⟩ := ih got hg this
      exact ⟨w, h1, by simpa [Assoc.get, hak] using h2⟩

/-- The whole of a successful restore. -/
theorem restoreStep_values (st : St V D) (s : Int) (args : List (Name × Arg)) (res : List (Name × Val V D))
    (h : restoreStep st s args = some res) (inc : Inc) (c : SaveCall V D) (hf : st.loc.find s = some (localOf inc c)) :
    res.map (·.1) = args.map (·.1) ∧
    ∃ rest, restMesh st.inc (localOf inc c) = some rest ∧
    ∀ k p, (k, Arg.tree p) ∈ args → k ≠ datasetName ∧ p ≠ .unplaced ∧ ∃ x vs, Assoc.get c.items k = some x ∧ vs.length = st.inc.mesh.length ∧
      (∀ pos < st.inc.mesh.length, vs[pos]? = some (x pos)) ∧
      (k, Val.array ((if p = .meshAxes then rest else st.inc.mesh).zip vs)) ∈ res := by
  obtain ⟨d, args', rest, got, got', h1, h2, -, h4, h5, h6, h7, h8⟩ := restoreStep_some st s args res h
  rw [hf] at h1
  cases h1
  obtain ⟨ha, -⟩ := materialize_some _ _ _ h2
  have h8' := (mapM_iff _ _ _).1 h8
  refine ⟨?_, rest, h4, ?_⟩
  · have e := congrArg (List.map fun o : Option (Name × Val V D) => o.map (·.1)) h8'
    have e1 : (args'.map (·.1)).map some = (res.map (·.1)).map some := by
      have : ∀ a ∈ args', (((Assoc.get got' a.1).map fun v => (a.1, place st.inc rest a.2 v)).map (·.1) : Option Name) = some a.1 := by
        intro a ham
        have : ((Assoc.get got' a.1).map fun v => (a.1, place st.inc rest a.2 v)) ∈ res.map some := by
          rw [← h8']; exact List.mem_map.2 ⟨a, ham, rfl⟩
        obtain ⟨r, -, hr⟩ := List.mem_map.1 this
        obtain ⟨v, -, hv⟩ := Option.map_eq_some_iff.1 hr.symm
        rw [← hr]; simp [← hv]
      rw [List.map_map, List.map_map] at e
      rw [List.map_map, List.map_map]
      calc args'.map (some ∘ (·.1)) = args'.map ((fun o : Option (Name × Val V D) => o.map (·.1)) ∘
              fun a => (Assoc.get got' a.1).map fun v => (a.1, place st.inc rest a.2 v)) :=
            List.map_congr_left fun a ham => (this a ham).symm
        _ = _ := e
        _ = _ := rfl
    have e2 : args'.map (·.1) = res.map (·.1) := by
      have := congrArg (List.filterMap id) e1
      simpa [List.filterMap_map] using this
    rw [← e2, ha, List.map_map]
    exact List.map_congr_left fun a _ => named_fst a
  · intro k p hk
    have hk' : named (k, .tree p) ∈ args' := ha ▸ List.mem_map.2 ⟨_, hk, rfl⟩
    have hin : k ∈ (args'.filter fun a => a.2.isTree).map (·.1) := by
      refine List.mem_map.2 ⟨named (k, .tree p), List.mem_filter.2 ⟨hk', ?_⟩, named_fst _⟩
      rw [named_isTree]; rfl
    obtain ⟨v, hv, hgk⟩ := got_get (fun k => ((Assoc.get (localOf inc c).items k).bind (readShards st.inc rest)).map
      (Sum.inl : List V → List V ⊕ D)) _ _ h6 k hin
    obtain ⟨vs, hv2, rfl⟩ := Option.map_eq_some_iff.1 hv
    obtain ⟨y, hy, hvs⟩ := Option.bind_eq_some_iff.1 hv2
    simp only [localOf] at hy
    rw [get_items] at hy
    split at hy
    · cases hy
    rename_i hkd
    obtain ⟨x, hx, rfl⟩ := Option.map_eq_some_iff.1 hy
    obtain ⟨l1, l2⟩ := readShards_store _ _ _ _ _ hvs
    have hl := restMesh_length _ _ _ h4
    have hgk' : Assoc.get got' k = some (Sum.inl vs) := by
      rw [(addDataset_some _ _ _ _ _ h7).1 k hkd]; exact hgk
    have hpu : p ≠ .unplaced := by
      rintro rfl
      have : (args'.any fun a => a.2 == .tree .unplaced) = true := List.any_eq_true.2 ⟨_, hk', by rfl⟩
      rw [h5] at this; cases this
    refine ⟨hkd, hpu, x, vs, hx, by omega, fun pos hpos => l2 pos (by omega), ?_⟩
    have hmem : ((Assoc.get got' (named (k, .tree p)).1).map fun v => ((named (k, .tree p)).1, place st.inc rest (named (k, .tree p)).2 v)) ∈
        res.map some := by
      rw [← h8']
      exact List.mem_map.2 ⟨_, hk', rfl⟩
    rw [named_fst, hgk'] at hmem
    simp only [Option.map_some, List.mem_map, Option.some.injEq] at hmem
    obtain ⟨r, hr, e⟩ := hmem
    rw [e] at hr
    have : place st.inc rest (named (k, .tree p)).2 (Sum.inl vs : List V ⊕ D) =
        .array ((if p = .meshAxes then rest else st.inc.mesh).zip vs) := by
      cases p <;> simp [named, place] at *
    rw [this] at hr
    exact hr

theorem restore_some (st : St V D) (step : Option Int) (args : List (Name × Arg)) (res : List (Name × Val V D))
    (h : restore st step args = some res) : ∃ s, (step = some s ∨ step = none ∧ st.loc.latest = some s) ∧ restoreStep st s args = some res := by
  simp only [restore] at h
  split at h
  · cases h
  cases step with
  | some s => exact ⟨s, .inl rfl, h⟩
  | none =>
    cases hl : st.loc.latest with
    | none => rw [hl] at h; cases h
    | some s => rw [hl] at h; exact ⟨s, .inr ⟨rfl, rfl⟩, h⟩

/-! ### The theorems -/

/-- C87: whatever was saved, deleted, lost or renumbered, a restore of step `s` that succeeds returns the requested items in the requested order,
and every array is the one given to the last `save` that stored step `s`: its shard `pos` is on the device at position `pos` of the mesh. -/
theorem C87_state (cfg : Cfg) (start : St V D) (h0 : start.loc = []) (es : List (Ev V D)) (s : Int) (args : List (Name × Arg))
    (res : List (Name × Val V D)) (hr : restore (run cfg start es).2 (some s) args = some res) :
    ∃ inc c, lastSave start.inc s (run cfg start es).1 none = some (inc, c) ∧ c.step = s ∧
      res.map (·.1) = args.map (·.1) ∧
      ∀ k p, (k, Arg.tree p) ∈ args → p ≠ .meshAxes → ∃ x shards, (k, x) ∈ c.items ∧ (k, Val.array shards) ∈ res ∧
        shards.length = (run cfg start es).2.inc.mesh.length ∧
        ∀ (pos dev : Nat), (run cfg start es).2.inc.mesh[pos]? = some dev → shards[pos]? = some (dev, x pos) := by
  obtain ⟨s', hs, hr'⟩ := restore_some _ _ _ _ hr
  clear hr
  have hr := hr'
  clear hr'
  have : s' = s := by
    rcases hs with h | h
    · cases h; rfl
    · cases h.1
  subst this
  obtain ⟨d, -, -, -, -, hd, -⟩ := restoreStep_some _ _ _ _ hr
  obtain ⟨t, ht⟩ := find_mem _ _ _ hd
  obtain ⟨inc, c, h1, h2, h3⟩ := (tracks_start cfg start h0 es).2 _ ht
  simp only at h1 h2 h3
  rw [h3] at hd
  obtain ⟨k1, rest, -, k2⟩ := restoreStep_values _ _ _ _ hr inc c hd
  refine ⟨inc, c, h1, h2, k1, ?_⟩
  intro k p hk hp
  obtain ⟨-, -, x, vs, hx, hl, hv, hm⟩ := k2 k p hk
  rw [if_neg hp] at hm
  refine ⟨x, _, Assoc.mem_of_get _ _ _ hx, hm, by simp [hl], ?_⟩
  intro pos dev hpos
  have hlt := (List.getElem?_eq_some_iff.1 hpos).1
  rw [List.getElem?_zip_eq_some]
  exact ⟨hpos, hv pos hlt⟩

end Verif.Emergency.Replicator
