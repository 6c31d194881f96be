import Verif.Emergency.ReplicatorProps

/-!
# When a restore succeeds, and with which dataset (C87)
-/

namespace Verif.Emergency.Replicator
open Verif Verif.Emergency.Mesh
open Verif.Policies (Ckpt)

variable {V D : Type}

/-! ### A restore that succeeds -/

/-- The same number of devices on every host. -/
def SameShape (a b : List (List Nat)) : Prop := a.map List.length = b.map List.length

theorem sameShape_rows {a b : List (List Nat)} (h : SameShape a b) (i : Nat) (ra rb : List Nat) (ha : a[i]? = some ra) (hb : b[i]? = some rb) :
    ra.length = rb.length := by
  have := congrArg (fun l => l[i]?) h
  simpa [ha, hb] using this

theorem sameShape_flatten {a b : List (List Nat)} (h : SameShape a b) : a.flatten.length = b.flatten.length := by
  rw [List.length_flatten, List.length_flatten, h]

theorem restMesh_exists (old now : Inc) (ho : old.Ok) (hn : now.Ok) (hs : SameShape old.ids now.ids) (d : Local V)
    (hd1 : d.ids = old.ids) (hd2 : d.mesh = old.mesh) :
    ∃ rest, restMesh now d = some rest ∧ rest.length = old.mesh.length ∧
      ∀ (k id : Nat), old.mesh[k]? = some id → ∃ c i, rest[k]? = some c ∧ hostOf old.ids id = some i ∧ hostOf now.ids c = some i := by
  have hl : old.ids.length = now.ids.length := by simpa using congrArg List.length hs
  obtain ⟨new, hnew⟩ := C74_mesh_exists old.ids now.ids now.devices [old.mesh] (by omega)
    (fun i rp rc h1 h2 => by rw [sameShape_rows hs i rp rc h1 h2]; omega)
    (by intro row hrow id hid; simp only [List.mem_singleton] at hrow; subst hrow; exact ho.2.2.2 id hid) hn.2.1
  obtain ⟨h1, h2⟩ := restoreMesh_row _ _ _ _ _ hnew
  obtain ⟨rest, hr, hrl, hrk⟩ := h2 0 old.mesh rfl
  have e : new = [rest] := by
    match new, h1, hr with
    | [x], _, hr => simpa using hr
  subst e
  have hlen : rest.length = now.mesh.length := by
    rw [hrl, ho.2.2.1, hn.2.2.1]; exact sameShape_flatten hs
  refine ⟨rest, by simp [restMesh, hd1, hd2, hnew, hlen], hrl, ?_⟩
  intro k id hk
  obtain ⟨c, hc, -, i, j, rp, rc, e1, e2, e3, e4⟩ := hrk k id hk
  exact ⟨c, i, hc, hostOf_of_mem _ ho.1 i rp e1 id (List.mem_of_getElem? e3), hostOf_of_mem _ hn.1 i rc e2 c (List.mem_of_getElem? e4)⟩

theorem readShards_exists (old now : Inc) (rest : List Nat) (hl : rest.length = old.mesh.length)
    (hk : ∀ (k id : Nat), old.mesh[k]? = some id → ∃ c i, rest[k]? = some c ∧ hostOf old.ids id = some i ∧ hostOf now.ids c = some i)
    (x : Nat → V) : ∃ vs, readShards now rest (store old x) = some vs := by
  rw [readShards]
  apply allSome_map
  rintro ⟨c, k⟩ hm
  have hck : rest[k]? = some c := by
    have := List.mk_mem_zipIdx_iff_getElem?.1 hm
    simpa using this
  have hlt := (List.getElem?_eq_some_iff.1 hck).1
  obtain ⟨c', i, h1, h2, h3⟩ := hk k _ (List.getElem?_eq_getElem (show k < old.mesh.length by omega))
  rw [hck] at h1
  cases h1
  refine ⟨x k, ?_⟩
  simp only [h3, Option.bind_some, store, List.getElem?_eq_getElem (show k < old.mesh.length by omega), h2, if_true]

theorem materialize_exists (d : Local V) (args : List (Name × Arg))
    (h : ∀ k p, (k, Arg.tree p) ∈ args → ∃ x, Assoc.get d.items k = some x) : materialize d args = some (args.map named) := by
  have : ∃ r, materialize d args = some r := by
    apply mapM_exists
    rintro ⟨k, a⟩ ha
    cases a with
    | other => exact ⟨_, rfl⟩
    | tree p =>
      obtain ⟨x, hx⟩ := h k p ha
      cases p with
      | infer => exact ⟨(k, .tree .named), by simp [hx]⟩
      | named => exact ⟨_, rfl⟩
      | meshAxes => exact ⟨_, rfl⟩
      | unplaced => exact ⟨_, rfl⟩
  obtain ⟨r, hr⟩ := this
  rw [hr, (materialize_some _ _ _ hr).1]

theorem restoreStep_exists (st : St V D) (s : Int) (args : List (Name × Arg)) (inc : Inc) (c : SaveCall V D)
    (hf : st.loc.find s = some (localOf inc c)) (ho : inc.Ok) (hn : st.inc.Ok) (hs : SameShape inc.ids st.inc.ids)
    (htree : ∀ k p, (k, Arg.tree p) ∈ args → p ≠ .unplaced ∧ k ≠ datasetName ∧ ∃ x, Assoc.get c.items k = some x)
    (hother : ∀ k, (k, Arg.other) ∈ args → k = datasetName ∧ ∃ per d, st.per = some per ∧ per.find s = some d) :
    ∃ res, restoreStep st s args = some res := by
  have hget : ∀ k p, (k, Arg.tree p) ∈ args → ∃ x, Assoc.get (localOf inc c).items k = some (store inc x) := by
    intro k p hk
    obtain ⟨-, h1, x, hx⟩ := htree k p hk
    exact ⟨x, by simp only [localOf]; rw [get_items, if_neg h1, hx]; rfl⟩
  have hm : materialize (localOf inc c) args = some (args.map named) := by
    apply materialize_exists
    intro k p hk
    obtain ⟨x, hx⟩ := hget k p hk
    exact ⟨_, hx⟩
  have hmem : ∀ a ∈ args.map named, (∃ p, p ≠ Place.unplaced ∧ a.2 = .tree p ∧ ∃ q, (a.1, Arg.tree q) ∈ args) ∨ (a.1, Arg.other) ∈ args ∧ a.2 = .other := by
    intro a ha
    obtain ⟨⟨k, b⟩, hb, rfl⟩ := List.mem_map.1 ha
    cases b with
    | other => exact .inr ⟨hb, rfl⟩
    | tree q =>
      have := (htree k q hb).1
      cases q with
      | infer => exact .inl ⟨.named, by simp, rfl, _, hb⟩
      | named => exact .inl ⟨.named, by simp, rfl, _, hb⟩
      | meshAxes => exact .inl ⟨.meshAxes, by simp, rfl, _, hb⟩
      | unplaced => exact absurd rfl this
  have hcomp : compatible (localOf inc c).ids st.inc.ids (localOf inc c).mesh = true := by
    have h1 : inc.ids.length = st.inc.ids.length := by simpa using congrArg List.length hs
    have h2 := sameShape_flatten hs
    have h3 := ho.2.2.1
    simp only [compatible, localOf, Bool.and_eq_true, beq_iff_eq]
    exact ⟨⟨h1, h2⟩, by omega⟩
  obtain ⟨rest, hrest, hl, hk⟩ := restMesh_exists inc st.inc ho hn hs (localOf inc c) rfl rfl
  have hu : ¬ ((args.map named).any fun a => a.2 == .tree .unplaced) = true := by
    intro h
    obtain ⟨a, ha, he⟩ := List.any_eq_true.1 h
    have he : a.2 = .tree .unplaced := by simpa using he
    rcases hmem a ha with ⟨p, hp, h1, -⟩ | ⟨-, h1⟩
    · rw [he] at h1; cases h1; exact hp rfl
    · rw [he] at h1; cases h1
  obtain ⟨got, hgot⟩ : ∃ got, readLocal D st.inc rest (localOf inc c) (args.map named) = some got := by
    apply mapM_exists
    intro a ha
    obtain ⟨ha, ht⟩ := List.mem_filter.1 ha
    rcases hmem a ha with ⟨p, -, -, q, hq⟩ | ⟨-, h1⟩
    · obtain ⟨x, hx⟩ := hget _ _ hq
      obtain ⟨vs, hvs⟩ := readShards_exists inc st.inc rest hl hk x
      exact ⟨(a.1, .inl vs), by simp [hx, hvs]⟩
    · rw [h1] at ht; cases ht
  have hdata : ∀ per, st.per = some per → datasetName ∈ (args.map named).map (·.1) → ∃ d, per.find s = some d := by
    intro per hp hd
    obtain ⟨a, ha, hda⟩ := List.mem_map.1 hd
    rcases hmem a ha with ⟨p, -, -, q, hq⟩ | ⟨h1, -⟩
    · exact absurd hda (htree _ _ hq).2.1
    · obtain ⟨-, per', d, e1, e2⟩ := hother _ h1
      rw [hp] at e1; cases e1
      exact ⟨d, e2⟩
  obtain ⟨got', hgot'⟩ : ∃ got', addDataset st.per s (args.map named) got = some got' := by
    cases hp : st.per with
    | none => exact ⟨got, rfl⟩
    | some per =>
      simp only [addDataset]
      split
      · rename_i hd
        obtain ⟨d, e⟩ := hdata per hp (by simpa using hd)
        exact ⟨_, by rw [e]; rfl⟩
      · exact ⟨got, rfl⟩
  obtain ⟨g1, -, g3⟩ := addDataset_some _ _ _ _ _ hgot'
  obtain ⟨res, hres⟩ := mapM_exists (fun a : Name × Arg => (Assoc.get got' a.1).map fun v => (a.1, place st.inc rest a.2 v)) (args.map named) (by
    intro a ha
    rcases hmem a ha with ⟨p, -, h1, q, hq⟩ | ⟨h1, -⟩
    · obtain ⟨v, -, hv⟩ := got_get (fun k => ((Assoc.get (localOf inc c).items k).bind (readShards st.inc rest)).map
        (Sum.inl : List V → List V ⊕ D)) _ _ hgot a.1 (List.mem_map.2 ⟨a, List.mem_filter.2 ⟨ha, by rw [h1]; rfl⟩, rfl⟩)
      exact ⟨_, by rw [g1 _ (htree _ _ hq).2.1, hv]; rfl⟩
    · obtain ⟨e0, per, d, e1, e2⟩ := hother _ h1
      obtain ⟨d, -, hd⟩ := g3 per e1 (List.mem_map.2 ⟨a, ha, e0⟩)
      exact ⟨_, by rw [e0, hd]; rfl⟩)
  refine ⟨res, ?_⟩
  simp only [restoreStep, hf, Option.bind_some, hm, hcomp, hrest, hgot, hgot', if_neg hu]
  simpa using hres

theorem restore_valid (st : St V D) (s : Int) (args : List (Name × Arg)) (hs : stateName ∈ args.map (·.1)) (hp : processName ∉ args.map (·.1))
    (ho : ∀ k, (k, Arg.other) ∈ args → k = datasetName) : restore st (some s) args = restoreStep st s args := by
  simp only [restore]
  rw [if_neg]
  simp only [Bool.or_eq_true, not_or, Bool.not_eq_true']
  constructor
  · simp only [validNames, Bool.not_eq_false, Bool.and_eq_true, Bool.not_eq_true']
    exact ⟨by simpa using hs, by simpa using hp⟩
  · intro h
    obtain ⟨⟨k, a⟩, ha, he⟩ := List.any_eq_true.1 h
    cases a with
    | tree p => simp [Arg.isTree] at he
    | other =>
      have := ho k ha
      simp [Arg.isTree, this] at he

/-- C87: if step `s` is listed, the devices now are as many on every host as when it was saved, whatever their ids, and every requested item was
saved, then restoring succeeds. -/
theorem C87_succeeds (cfg : Cfg) (start : St V D) (h0 : start.loc = []) (es : List (Ev V D)) (s : Int) (args : List (Name × Arg))
    (hlist : s ∈ (run cfg start es).2.loc.steps) (inc : Inc) (c : SaveCall V D)
    (hlast : lastSave start.inc s (run cfg start es).1 none = some (inc, c))
    (ho : inc.Ok) (hn : (run cfg start es).2.inc.Ok) (hs : SameShape inc.ids (run cfg start es).2.inc.ids)
    (hstate : stateName ∈ args.map (·.1)) (hproc : processName ∉ args.map (·.1))
    (hargs : ∀ a ∈ args, (∃ p, a.2 = .tree p ∧ p ≠ .unplaced) ∧ a.1 ≠ datasetName ∧ ∃ x, (a.1, x) ∈ c.items) :
    ∃ res, restore (run cfg start es).2 (some s) args = some res := by
  rw [restore_valid _ _ _ hstate hproc (by
    intro k hk
    obtain ⟨⟨p, h, -⟩, -⟩ := hargs _ hk
    cases h)]
  obtain ⟨d, hd⟩ := find_some_of_steps _ _ hlist
  obtain ⟨t, ht⟩ := find_mem _ _ _ hd
  obtain ⟨inc', c', h1, h2, h3⟩ := (tracks_start cfg start h0 es).2 _ ht
  simp only at h1 h3
  rw [hlast] at h1
  cases h1
  rw [h3] at hd
  apply restoreStep_exists _ s args inc c hd ho hn hs
  · intro k p hk
    obtain ⟨⟨q, e1, e2⟩, e3, x, hx⟩ := hargs _ hk
    cases e1
    refine ⟨e2, e3, ?_⟩
    exact (Assoc.mem_keys_iff _ _).1 (List.mem_map.2 ⟨_, hx, rfl⟩)
  · intro k hk
    obtain ⟨⟨p, h, -⟩, -⟩ := hargs _ hk
    cases h

/-! ### Pairs -/

/-- The dataset's steps are the local ones, with the dataset of the last call. -/
def Paired (last : Int → Option (Inc × SaveCall V D)) (st : St V D) : Prop :=
  ∃ per, st.per = some per ∧ Uniq per ∧ Same st.loc per ∧ ∀ i ∈ per, ∃ inc c, last i.step = some (inc, c) ∧ c.dataset = some i.data

/-- The histories in question: every `save` has a dataset, and restarts lose nothing. -/
def Fine : Ev V D → Prop
  | .save c => c.dataset ≠ none
  | .delete _ => True
  | .restart _ keep => ∀ s, keep s = true

theorem same_delete {α β : Type} (a a' : Mgr α) (b b' : Mgr β) (h : Same a b) (s : Int) (ha : a.delete s = some a') (hb : b.delete s = some b') :
    Same a' b' := by
  simp only [Mgr.delete] at ha hb
  split at ha
  · split at hb
    · cases ha; cases hb
      exact same_filter (fun x => !(x == s)) a b h
    · cases hb
  · cases ha

theorem delete_none_iff {α : Type} (a : Mgr α) (s : Int) : a.delete s = none ↔ s ∉ a.steps := by
  simp only [Mgr.delete]
  split
  · rename_i h; simp only [reduceCtorEq, false_iff]; exact fun hn => hn (by simpa using h)
  · rename_i h; simp only [true_iff]; exact fun hn => h (by simpa using hn)

theorem paired_exec (cfg : Cfg) (hk : ∀ l l' : List Ckpt, l.map (·.step) = l'.map (·.step) → cfg.keep l = cfg.keep l')
    (last : Int → Option (Inc × SaveCall V D)) (st : St V D) (h : Paired last st) (e : Ev V D) (he : Fine e) :
    Paired (upd st.inc e (exec cfg st e).2 last) (exec cfg st e).1 ∧ (exec cfg st e).2 ≠ .raisedDataset := by
  obtain ⟨per, hp, hu, hsame, htr⟩ := h
  cases e with
  | restart inc keep =>
    refine ⟨⟨Mgr.load per, by simp [exec, hp], uniq_load _ hu, ?_, ?_⟩, by simp [exec]⟩
    · have : st.loc.filter (fun i => keep i.step) = st.loc := List.filter_eq_self.2 fun i _ => he i.step
      show Same (Mgr.load (st.loc.filter fun i => keep i.step)) (Mgr.load per)
      rw [this]
      exact same_load _ _ hsame
    · intro i hi
      exact htr i ((mem_load _ _).1 hi)
  | delete s =>
    show Paired last (delete st s).1 ∧ (delete st s).2 ≠ .raisedDataset
    have hiff : per.delete s = none ↔ st.loc.delete s = none := by
      rw [delete_none_iff, delete_none_iff, show st.loc.steps = per.steps from hsame]
    cases hd : per.delete s with
    | none =>
      simp only [delete, hp, hd]
      exact ⟨⟨per, hp, hu, hsame, htr⟩, by simp⟩
    | some per' =>
      cases hl : st.loc.delete s with
      | none => rw [hiff.2 hl] at hd; cases hd
      | some loc =>
        simp only [delete, hp, hd, hl]
        refine ⟨⟨per', rfl, uniq_delete _ _ _ hd hu, same_delete _ _ _ _ hsame s hl hd, ?_⟩, by simp⟩
        intro i hi
        exact htr i ((delete_mem _ _ _ hd i).1 hi).1
  | save c =>
    have keep : ∀ out, out = Out.raised ∨ out = Out.skipped → Paired (upd st.inc (.save c) out last) st ∧ out ≠ .raisedDataset := by
      intro out ho
      have : upd st.inc (.save c) out last = last := by
        funext s
        rcases ho with rfl | rfl <;> simp [upd]
      rw [this]; exact ⟨⟨per, hp, hu, hsame, htr⟩, by rcases ho with rfl | rfl <;> simp⟩
    simp only [exec, save]
    split
    · exact keep _ (.inl rfl)
    split
    · exact keep _ (.inr rfl)
    cases hs : st.loc.save cfg c.step c.now c.force c.preempted (localOf st.inc c) with
    | none => exact keep _ (.inl rfl)
    | some r =>
      obtain ⟨loc, b⟩ := r
      cases b with
      | false => exact keep _ (.inr rfl)
      | true =>
        cases hd : c.dataset with
        | none => exact absurd hd he
        | some d =>
          obtain ⟨per', hps, hS⟩ := same_save cfg hk st.loc per hsame c.step c.now c.nowDataset c.force c.preempted _ d loc hs
          simp only [hp, hps]
          refine ⟨⟨per', rfl, uniq_save _ _ _ _ _ _ _ _ _ hu hps, hS, ?_⟩, by simp⟩
          rcases save_cases cfg per c.step c.nowDataset c.force c.preempted d with h1 | h1 | ⟨hn, fs, h1⟩
          · rw [h1] at hps; cases hps
          · rw [h1] at hps; cases hps
          · rw [h1] at hps
            cases hps
            intro i hi
            rcases List.mem_append.1 (mem_trim _ _ _ hi) with hm | hm
            · obtain ⟨inc, c', h2, h3⟩ := htr i hm
              have hne : c.step ≠ i.step := fun hc => hn (hc ▸ List.mem_map.2 ⟨i, hm, rfl⟩)
              exact ⟨inc, c', by simp [upd, hne, h2], h3⟩
            · have : i = ⟨c.step, c.nowDataset, d⟩ := by simpa using hm
              subst this
              exact ⟨st.inc, c, by simp [upd], hd⟩

theorem paired_run (cfg : Cfg) (hk : ∀ l l' : List Ckpt, l.map (·.step) = l'.map (·.step) → cfg.keep l = cfg.keep l')
    (es : List (Ev V D)) (hf : ∀ e ∈ es, Fine e) (last : Int → Option (Inc × SaveCall V D)) (st : St V D) (h : Paired last st) :
    Paired (fun s => lastSave st.inc s (run cfg st es).1 (last s)) (run cfg st es).2 ∧ ∀ r ∈ (run cfg st es).1, r.2 ≠ .raisedDataset := by
  induction es generalizing last st with
  | nil => exact ⟨h, by simp [run]⟩
  | cons e es ih =>
    obtain ⟨k1, k2⟩ := paired_exec cfg hk last st h e (hf e (by simp))
    obtain ⟨i1, i2⟩ := ih (fun e he => hf e (List.mem_cons_of_mem _ he)) _ _ k1
    simp only [run]
    have e1 : (fun s => lastSave st.inc s ((e, (exec cfg st e).2) :: (run cfg (exec cfg st e).1 es).1) (last s)) =
        fun s => lastSave (exec cfg st e).1.inc s (run cfg (exec cfg st e).1 es).1 (upd st.inc e (exec cfg st e).2 last s) := by
      funext s; exact lastSave_cons _ _ _ _ _ _
    rw [e1]
    refine ⟨i1, ?_⟩
    intro r hr
    rcases List.mem_cons.1 hr with rfl | hr
    · exact k2
    · exact i2 r hr

/-- C87: with a persistent directory, if every `save` gives a dataset, restarts lose no local step, and what is kept depends on the steps only, then
both stores have the same steps, and a restore that succeeds returns the dataset given to the last `save` that stored the step: the call whose
state it returns, by `C87_state`. -/
theorem C87_pairs (cfg : Cfg) (hk : ∀ l l' : List Ckpt, l.map (·.step) = l'.map (·.step) → cfg.keep l = cfg.keep l')
    (start : St V D) (h0 : start.loc = []) (hp0 : start.per = some []) (es : List (Ev V D))
    (hdata : ∀ c, Ev.save c ∈ es → c.dataset ≠ none) (hlose : ∀ inc keep, Ev.restart inc keep ∈ es → ∀ s, keep s = true) :
    (∀ r ∈ (run cfg start es).1, r.2 ≠ .raisedDataset) ∧
    (∃ per, (run cfg start es).2.per = some per ∧ per.steps = (run cfg start es).2.loc.steps) ∧
    ∀ s args res, restore (run cfg start es).2 (some s) args = some res → datasetName ∈ args.map (·.1) →
      ∃ inc c d, lastSave start.inc s (run cfg start es).1 none = some (inc, c) ∧ c.dataset = some d ∧ (datasetName, Val.data d) ∈ res := by
  have hf : ∀ e ∈ es, Fine e := by
    intro e he
    cases e with
    | save c => exact hdata c he
    | delete s => trivial
    | restart inc keep => exact hlose inc keep he
  obtain ⟨⟨per, h1, h2, h3, h4⟩, h5⟩ := paired_run cfg hk es hf (fun _ => none) start ⟨[], hp0, by simp [Uniq], by simp [Same, h0], by simp⟩
  refine ⟨h5, ⟨per, h1, h3.symm⟩, ?_⟩
  intro s args res hr hd
  obtain ⟨s', hs, hr'⟩ := restore_some _ _ _ _ hr
  have e : s' = s := by
    rcases hs with h | h
    · cases h; rfl
    · cases h.1
  rw [e] at hr'
  obtain ⟨dl, args', rest, got, got', -, h6, -, -, -, -, h10, h11⟩ := restoreStep_some _ _ _ _ hr'
  obtain ⟨ha, -⟩ := materialize_some _ _ _ h6
  obtain ⟨a, ham, hda⟩ := List.mem_map.1 hd
  have ham' : named a ∈ args' := ha ▸ List.mem_map.2 ⟨a, ham, rfl⟩
  have hfst : (named a).1 = datasetName := by rw [named_fst]; exact hda
  obtain ⟨d, hfd, hgd⟩ := (addDataset_some _ _ _ _ _ h10).2.2 per h1 (List.mem_map.2 ⟨_, ham', hfst⟩)
  obtain ⟨t, ht⟩ := find_mem _ _ _ hfd
  obtain ⟨inc, c, k1, k2⟩ := h4 _ ht
  refine ⟨inc, c, d, k1, k2, ?_⟩
  have hmem : ((Assoc.get got' (named a).1).map fun v => ((named a).1, place (run cfg start es).2.inc rest (named a).2 v)) ∈ res.map some := by
    rw [← (mapM_iff _ _ _).1 h11]
    exact List.mem_map.2 ⟨_, ham', rfl⟩
  rw [hfst, hgd] at hmem
  simp only [Option.map_some, List.mem_map, Option.some.injEq] at hmem
  obtain ⟨r, hr, e⟩ := hmem
  rw [e] at hr
  exact hr

/-- C87: in those histories the state and the dataset of every listed step can be restored. -/
theorem C87_pairs_succeed (cfg : Cfg) (hk : ∀ l l' : List Ckpt, l.map (·.step) = l'.map (·.step) → cfg.keep l = cfg.keep l')
    (start : St V D) (h0 : start.loc = []) (hp0 : start.per = some []) (es : List (Ev V D))
    (hdata : ∀ c, Ev.save c ∈ es → c.dataset ≠ none) (hlose : ∀ inc keep, Ev.restart inc keep ∈ es → ∀ s, keep s = true)
    (s : Int) (hlist : s ∈ (run cfg start es).2.loc.steps) (inc : Inc) (c : SaveCall V D)
    (hlast : lastSave start.inc s (run cfg start es).1 none = some (inc, c))
    (ho : inc.Ok) (hn : (run cfg start es).2.inc.Ok) (hs : SameShape inc.ids (run cfg start es).2.inc.ids)
    (hstate : ∃ x, (stateName, x) ∈ c.items) :
    ∃ res, restore (run cfg start es).2 (some s) [(stateName, .tree .infer), (datasetName, .other)] = some res := by
  obtain ⟨-, ⟨per, hp, hst⟩, -⟩ := C87_pairs cfg hk start h0 hp0 es hdata hlose
  rw [restore_valid _ _ _ (by decide) (by decide) (by
    intro k hk
    simp only [List.mem_cons, Prod.mk.injEq, reduceCtorEq, and_false, List.not_mem_nil, or_false, false_or, and_true] at hk
    exact hk)]
  obtain ⟨d, hd⟩ := find_some_of_steps _ _ hlist
  obtain ⟨t, ht⟩ := find_mem _ _ _ hd
  obtain ⟨inc', c', h1, h2, h3⟩ := (tracks_start cfg start h0 es).2 _ ht
  simp only at h1 h3
  rw [hlast] at h1
  cases h1
  rw [h3] at hd
  apply restoreStep_exists _ s _ inc c hd ho hn hs
  · intro k p hk
    simp only [List.mem_cons, Prod.mk.injEq, Arg.tree.injEq, reduceCtorEq, and_false, List.not_mem_nil, or_false] at hk
    obtain ⟨rfl, rfl⟩ := hk
    obtain ⟨x, hx⟩ := hstate
    exact ⟨by simp, by decide, (Assoc.mem_keys_iff _ _).1 (List.mem_map.2 ⟨_, hx, rfl⟩)⟩
  · intro k hk
    simp only [List.mem_cons, Prod.mk.injEq, reduceCtorEq, and_false, List.not_mem_nil, or_false, false_or, and_true] at hk
    obtain ⟨dd, hdd⟩ := find_some_of_steps per s (hst ▸ hlist)
    exact ⟨hk, per, dd, hp, hdd⟩

/-! ### The latest step -/

def Sorted {α : Type} (m : Mgr α) : Prop := (m.map (·.step)).Pairwise (· < ·)

theorem sorted_insert {α : Type} (i : Info α) (m : Mgr α) (h : Sorted m) (hi : i.step ∉ m.map (·.step)) : Sorted (Mgr.insert i m) := by
  induction m with
  | nil => simp [Mgr.insert, Sorted]
  | cons j m ih =>
    simp only [Sorted, List.map_cons, List.pairwise_cons] at h
    simp only [List.map_cons, List.mem_cons, not_or] at hi
    simp only [Mgr.insert]
    split
    · rename_i hle
      have hlt : i.step < j.step := by have := hi.1; omega
      simp only [Sorted, List.map_cons, List.pairwise_cons]
      refine ⟨?_, h.1, h.2⟩
      intro x hx
      rcases List.mem_cons.1 hx with rfl | hx
      · exact hlt
      · have := h.1 x hx; omega
    · rename_i hle
      simp only [Sorted, List.map_cons, List.pairwise_cons]
      refine ⟨?_, ih h.2 hi.2⟩
      intro x hx
      obtain ⟨k, hk, rfl⟩ := List.mem_map.1 hx
      rcases (mem_insert _ _ _).1 hk with rfl | hk
      · omega
      · exact h.1 _ (List.mem_map.2 ⟨k, hk, rfl⟩)

theorem sorted_load {α : Type} (m : Mgr α) (hu : Uniq m) : Sorted (Mgr.load m) := by
  induction m with
  | nil => simp [Mgr.load, Sorted]
  | cons i m ih =>
    simp only [Uniq, List.map_cons, List.nodup_cons] at hu
    refine sorted_insert i _ (ih hu.2) ?_
    intro h
    obtain ⟨j, hj, e⟩ := List.mem_map.1 h
    exact hu.1 (List.mem_map.2 ⟨j, (mem_load _ _).1 hj, e⟩)

theorem sorted_sublist {α : Type} (m m' : Mgr α) (h : List.Sublist m' m) (hs : Sorted m) : Sorted m' := List.Pairwise.sublist (h.map _) hs

theorem latest_ge {α : Type} (m : Mgr α) (hs : Sorted m) (l : Int) (h : m.latest = some l) : l ∈ m.steps ∧ ∀ s ∈ m.steps, s ≤ l := by
  rw [Mgr.latest, ← List.getLast?_map, List.getLast?_eq_some_iff] at h
  obtain ⟨ys, e⟩ := h
  have e' : m.steps = ys ++ [l] := e
  rw [e']
  refine ⟨by simp, ?_⟩
  intro s h
  rcases List.mem_append.1 h with h | h
  · rw [Sorted, e, List.pairwise_append] at hs
    exact Int.le_of_lt (hs.2.2 s h l (by simp))
  · have : s = l := by simpa using h
    omega

theorem sorted_save {α : Type} (cfg : Cfg) (m m' : Mgr α) (s t : Int) (p b : Bool) (x : α) (hs : Sorted m)
    (h : m.save cfg s t false p x = some (m', b)) : Sorted m' := by
  rcases save_cases cfg m s t false p x with h1 | h1 | ⟨hn, fs, h1⟩
  · rw [h1] at h; cases h; exact hs
  · rw [h1] at h; cases h
  · rw [h1] at h
    cases h
    refine sorted_sublist _ _ (trim_sublist _ _) ?_
    have hsh : m.shouldSave cfg s p = true := by
      cases hc : m.shouldSave cfg s p with
      | true => rfl
      | false => simp [Mgr.save, hc] at h1
    rw [Sorted, List.map_append, List.pairwise_append]
    refine ⟨hs, by simp, ?_⟩
    intro a ha b hb
    have hb : b = s := by simpa using hb
    subst hb
    cases hl : m.latest with
    | none =>
      have : m = [] := by simpa [Mgr.latest] using hl
      subst this
      simp at ha
    | some l =>
      have hlt : ¬ l ≥ b := by
        intro hc
        simp [Mgr.shouldSave, hl, hc] at hsh
      have := (latest_ge m hs l hl).2 a ha
      omega

theorem sorted_run (cfg : Cfg) (es : List (Ev V D)) (hf : ∀ c, Ev.save c ∈ es → c.force = false) (st : St V D) (hu : Uniq st.loc)
    (h : Sorted st.loc) : Sorted (run cfg st es).2.loc := by
  induction es generalizing st with
  | nil => exact h
  | cons e es ih =>
    simp only [run]
    have hf' : ∀ c, Ev.save c ∈ es → c.force = false := fun c hc => hf c (List.mem_cons_of_mem _ hc)
    have hu' : Uniq (exec cfg st e).1.loc ∧ Sorted (exec cfg st e).1.loc := by
      cases e with
      | restart inc keep =>
        have := uniq_filter (fun i => keep i.step) _ hu
        exact ⟨uniq_load _ this, sorted_load _ this⟩
      | delete s =>
        have key : ∀ loc, st.loc.delete s = some loc → Uniq loc ∧ Sorted loc := by
          intro loc hl
          refine ⟨uniq_delete _ _ _ hl hu, ?_⟩
          simp only [Mgr.delete] at hl
          split at hl
          · cases hl; exact sorted_sublist _ _ List.filter_sublist h
          · cases hl
        simp only [exec, delete]
        split
        · cases hl : st.loc.delete s with
          | none => exact ⟨hu, h⟩
          | some loc => exact key loc hl
        · cases hp : Mgr.delete _ s with
          | none => exact ⟨hu, h⟩
          | some per =>
            cases hl : st.loc.delete s with
            | none => exact ⟨hu, h⟩
            | some loc => exact key loc hl
      | save c =>
        have hc := hf c (by simp)
        simp only [exec, save]
        split
        · exact ⟨hu, h⟩
        split
        · exact ⟨hu, h⟩
        cases hs : st.loc.save cfg c.step c.now c.force c.preempted (localOf st.inc c) with
        | none => exact ⟨hu, h⟩
        | some r =>
          obtain ⟨loc, b⟩ := r
          have k1 := uniq_save _ _ _ _ _ _ _ _ _ hu hs
          rw [hc] at hs
          have k2 := sorted_save cfg _ _ _ _ _ _ _ h hs
          cases b with
          | false => exact ⟨hu, h⟩
          | true =>
            simp only
            split
            · cases hp : Mgr.save cfg _ c.step c.nowDataset c.force c.preempted _ with
              | none => exact ⟨k1, k2⟩
              | some r => exact ⟨k1, k2⟩
            · exact ⟨k1, k2⟩
    exact ih hf' _ hu'.1 hu'.2

/-- C87: without forced saves, restoring without a step restores the highest step listed. -/
theorem C87_latest (cfg : Cfg) (start : St V D) (h0 : start.loc = []) (es : List (Ev V D)) (hf : ∀ c, Ev.save c ∈ es → c.force = false)
    (args : List (Name × Arg)) (res : List (Name × Val V D)) (hr : restore (run cfg start es).2 none args = some res) :
    ∃ s ∈ (run cfg start es).2.loc.steps, (∀ s' ∈ (run cfg start es).2.loc.steps, s' ≤ s) ∧
      restore (run cfg start es).2 (some s) args = some res := by
  have hs := sorted_run cfg es hf start (by simp [Uniq, h0]) (by simp [Sorted, h0])
  obtain ⟨s, h1, h2⟩ := restore_some _ _ _ _ hr
  rcases h1 with h1 | ⟨-, h1⟩
  · cases h1
  · obtain ⟨k1, k2⟩ := latest_ge _ hs s h1
    refine ⟨s, k1, k2, ?_⟩
    simp only [restore] at hr ⊢
    split at hr
    · cases hr
    · rename_i hv
      rw [if_neg hv]; exact h2

end Verif.Emergency.Replicator
