import Verif.Emergency.Peers

/-!
# What peer selection guarantees (C72)
-/
namespace Verif.Emergency.Peers
open Verif.Assoc

/-! ## The topology map -/

theorem mem_seen (row acc : List Nat) (p : Nat) :
    p ∈ row.foldl (fun acc d => if d ∈ acc then acc else acc ++ [d]) acc ↔ p ∈ acc ∨ p ∈ row := by
  induction row generalizing acc with
  | nil => simp
  | cons d row ih =>
    simp only [List.foldl_cons, ih]
    by_cases h : d ∈ acc
    · simp only [h, if_true, List.mem_cons]
      constructor
      · rintro (h1 | h1)
        · exact Or.inl h1
        · exact Or.inr (Or.inr h1)
      · rintro (h1 | rfl | h1)
        · exact Or.inl h1
        · exact Or.inl h
        · exact Or.inr h1
    · simp [h, or_assoc]

theorem mem_firstSeen (row : List Nat) (p : Nat) : p ∈ firstSeen row ↔ p ∈ row := by
  simp [firstSeen, mem_seen]

theorem seen_map (f : Nat → Nat) (row acc : List Nat)
    (h : ∀ x ∈ acc ++ row, ∀ y ∈ acc ++ row, f x = f y → x = y) :
    (row.map f).foldl (fun acc d => if d ∈ acc then acc else acc ++ [d]) (acc.map f) =
    (row.foldl (fun acc d => if d ∈ acc then acc else acc ++ [d]) acc).map f := by
  induction row generalizing acc with
  | nil => simp
  | cons d row ih =>
    simp only [List.map_cons, List.foldl_cons]
    have hd : f d ∈ acc.map f ↔ d ∈ acc := by
      constructor
      · intro hm
        obtain ⟨x, hx, he⟩ := List.mem_map.1 hm
        have := h x (List.mem_append_left _ hx) d (by simp) he
        exact this ▸ hx
      · exact fun hm => List.mem_map.2 ⟨d, hm, rfl⟩
    by_cases hm : d ∈ acc
    · simp only [hd.2 hm, hm, if_true]
      apply ih
      intro x hx y hy
      apply h
      · rcases List.mem_append.1 hx with hx | hx
        · exact List.mem_append_left _ hx
        · exact List.mem_append_right _ (List.mem_cons_of_mem _ hx)
      · rcases List.mem_append.1 hy with hy | hy
        · exact List.mem_append_left _ hy
        · exact List.mem_append_right _ (List.mem_cons_of_mem _ hy)
    · have hm' : ¬ f d ∈ acc.map f := fun h => hm (hd.1 h)
      simp only [hm', hm, if_false]
      have := ih (acc ++ [d]) (by simpa using h)
      rw [List.map_append] at this
      exact this

theorem firstSeen_map (f : Nat → Nat) (row : List Nat)
    (h : ∀ x ∈ row, ∀ y ∈ row, f x = f y → x = y) :
    firstSeen (row.map f) = (firstSeen row).map f := by
  have := seen_map f row [] (by simpa using h)
  simpa [firstSeen] using this

theorem foldl_put_get (rid : Nat) (l : List (Nat × Nat)) (m : Topology) (p : Nat) (v : Nat × Nat)
    (h : Assoc.get (l.foldl (fun m e => put m e.1 (rid, e.2)) m) p = some v) :
    (v.1 = rid ∧ (p, v.2) ∈ l) ∨ Assoc.get m p = some v := by
  induction l generalizing m with
  | nil => exact Or.inr h
  | cons e l ih =>
    rcases ih _ h with ⟨h1, h2⟩ | h1
    · exact Or.inl ⟨h1, List.mem_cons_of_mem _ h2⟩
    · rw [get_put] at h1
      split at h1
      · rename_i hp
        subst hp
        cases h1
        exact Or.inl ⟨rfl, by simp⟩
      · exact Or.inr h1

theorem foldl_put_keys (rid : Nat) (l : List (Nat × Nat)) (m : Topology) (p : Nat) :
    p ∈ keys (l.foldl (fun m e => put m e.1 (rid, e.2)) m) ↔ p ∈ keys m ∨ p ∈ l.map Prod.fst := by
  induction l generalizing m with
  | nil => simp
  | cons e l ih =>
    simp only [List.foldl_cons, ih, mem_keys_put, List.map_cons, List.mem_cons]
    constructor
    · rintro ((h | h) | h)
      · exact Or.inr (Or.inl h)
      · exact Or.inl h
      · exact Or.inr (Or.inr h)
    · rintro (h | h | h)
      · exact Or.inl (Or.inr h)
      · exact Or.inl (Or.inl h)
      · exact Or.inr h

theorem foldl_put_nodup (rid : Nat) (l : List (Nat × Nat)) (m : Topology) (h : (keys m).Nodup) :
    (keys (l.foldl (fun m e => put m e.1 (rid, e.2)) m)).Nodup := by
  induction l generalizing m with
  | nil => exact h
  | cons e l ih => exact ih _ (nodup_put _ _ _ h)

theorem rows_get (l : List (List Nat × Nat)) (m : Topology) (p : Nat) (v : Nat × Nat)
    (h : Assoc.get (l.foldl (fun m e => addRow m e.2 e.1) m) p = some v) :
    (∃ row, (row, v.1) ∈ l ∧ (firstSeen row)[v.2]? = some p) ∨ Assoc.get m p = some v := by
  induction l generalizing m with
  | nil => exact Or.inr h
  | cons e l ih =>
    rcases ih _ h with ⟨row, h1, h2⟩ | h1
    · exact Or.inl ⟨row, List.mem_cons_of_mem _ h1, h2⟩
    · rcases foldl_put_get _ _ _ _ _ h1 with ⟨h2, h3⟩ | h2
      · exact Or.inl ⟨e.1, by rw [h2]; simp, List.mem_zipIdx_iff_getElem?.1 h3⟩
      · exact Or.inr h2

theorem rows_keys (l : List (List Nat × Nat)) (m : Topology) (p : Nat) :
    p ∈ keys (l.foldl (fun m e => addRow m e.2 e.1) m) ↔ p ∈ keys m ∨ ∃ e ∈ l, p ∈ e.1 := by
  induction l generalizing m with
  | nil => simp
  | cons e l ih =>
    have h1 : ((firstSeen e.1).zipIdx).map Prod.fst = firstSeen e.1 := by
      simp
    rw [List.foldl_cons, ih, addRow, foldl_put_keys, h1, mem_firstSeen]
    simp only [List.mem_cons]
    constructor
    · rintro ((h | h) | ⟨x, h, h'⟩)
      · exact Or.inl h
      · exact Or.inr ⟨e, Or.inl rfl, h⟩
      · exact Or.inr ⟨x, Or.inr h, h'⟩
    · rintro (h | ⟨x, rfl | h, h'⟩)
      · exact Or.inl (Or.inl h)
      · exact Or.inl (Or.inr h')
      · exact Or.inr ⟨x, h, h'⟩

theorem rows_nodup (l : List (List Nat × Nat)) (m : Topology) (h : (keys m).Nodup) :
    (keys (l.foldl (fun m e => addRow m e.2 e.1) m)).Nodup := by
  induction l generalizing m with
  | nil => exact h
  | cons e l ih => exact ih _ (foldl_put_nodup _ _ _ h)

theorem topology_get (mesh : Mesh) (p : Nat) (v : Nat × Nat)
    (h : Assoc.get (topology mesh) p = some v) :
    ∃ row, mesh[v.1]? = some row ∧ (firstSeen row)[v.2]? = some p := by
  rcases rows_get _ _ _ _ h with ⟨row, h1, h2⟩ | h1
  · exact ⟨row, List.mem_zipIdx_iff_getElem?.1 h1, h2⟩
  · simp at h1

theorem topology_keys (mesh : Mesh) (p : Nat) :
    p ∈ keys (topology mesh) ↔ ∃ row ∈ mesh, p ∈ row := by
  rw [topology, rows_keys]
  constructor
  · rintro (h | ⟨e, he, hp⟩)
    · simp [keys] at h
    · exact ⟨e.1, List.mem_of_getElem? (List.mem_zipIdx_iff_getElem?.1 he), hp⟩
  · rintro ⟨row, hr, hp⟩
    obtain ⟨i, hi⟩ := List.mem_iff_getElem?.1 hr
    exact Or.inr ⟨(row, i), List.mem_zipIdx_iff_getElem?.2 hi, hp⟩

theorem topology_nodup (mesh : Mesh) : (keys (topology mesh)).Nodup :=
  rows_nodup _ _ List.nodup_nil

/-! ## The registry -/

theorem mem_put {κ ν : Type} [DecidableEq κ] (m : List (κ × ν)) (k : κ) (v : ν) (x : κ × ν)
    (h : x ∈ put m k v) : x = (k, v) ∨ x ∈ m := by
  induction m with
  | nil => simp [put] at h; exact Or.inl h
  | cons p m ih =>
    rw [put] at h
    split at h
    · rcases List.mem_cons.1 h with h | h
      · exact Or.inl h
      · exact Or.inr (List.mem_cons_of_mem _ h)
    · rcases List.mem_cons.1 h with h | h
      · exact Or.inr (by simp [h])
      · rcases ih h with h | h
        · exact Or.inl h
        · exact Or.inr (List.mem_cons_of_mem _ h)

/-- Every entry of the registry comes from an announcement. -/
def Sound (topo : Topology) (infos : List Info) (reg : Registry) : Prop :=
  ∀ step shards, Assoc.get reg step = some shards → ∀ s ∈ shards,
    ∃ i ∈ infos, s.2 = enrich topo i ∧ i.proc = some s.1 ∧ step ∈ i.steps

theorem enrich_fields (topo : Topology) (i : Info) :
    (enrich topo i).host = i.host ∧ (enrich topo i).proc = i.proc ∧
    (enrich topo i).steps = i.steps := by
  unfold enrich; split <;> simp

theorem Sound.steps {topo : Topology} {infos : List Info} (i : Info) (hi : i ∈ infos) (p : Nat)
    (hp : i.proc = some p) : ∀ (l : List Nat), (∀ s ∈ l, s ∈ i.steps) → ∀ (reg : Registry),
    Sound topo infos reg →
    Sound topo infos (l.foldl (fun reg s =>
      put reg s (put ((Assoc.get reg s).getD []) p (enrich topo i))) reg)
  | [], _, _, h => h
  | t :: l, hl, reg, h => by
    refine Sound.steps i hi p hp l (fun s hs => hl s (List.mem_cons_of_mem _ hs)) _ ?_
    intro step shards hg s hs
    rw [get_put] at hg
    split at hg
    · rename_i he
      subst he
      cases hg
      rcases mem_put _ _ _ _ hs with rfl | hs
      · exact ⟨i, hi, rfl, hp, hl _ (by simp)⟩
      · cases hgs : Assoc.get reg step with
        | none => rw [hgs] at hs; simp at hs
        | some sh =>
          rw [hgs] at hs
          exact h step sh hgs s hs
    · exact h step shards hg s hs

theorem Sound.register {topo : Topology} {infos : List Info} (i : Info) (hi : i ∈ infos)
    (reg : Registry) (h : Sound topo infos reg) :
    Sound topo infos (register reg (enrich topo i)) := by
  unfold Peers.register
  split
  · exact h
  · rename_i p hp
    rw [(enrich_fields topo i).2.1] at hp
    rw [(enrich_fields topo i).2.2]
    exact Sound.steps i hi p hp _ (fun _ hs => hs) reg h

theorem registry_sound (mesh : Mesh) (infos : List Info) :
    Sound (topology mesh) infos (registry mesh infos) := by
  suffices h : ∀ (l : List Info), (∀ i ∈ l, i ∈ infos) → ∀ reg, Sound (topology mesh) infos reg →
      Sound (topology mesh) infos
        (l.foldl (fun reg i => Peers.register reg (enrich (topology mesh) i)) reg) by
    exact h infos (fun _ h => h) [] (fun step shards hg => by simp at hg)
  intro l
  induction l with
  | nil => exact fun _ _ h => h
  | cons i l ih =>
    intro hl reg h
    exact ih (fun j hj => hl j (List.mem_cons_of_mem _ hj)) _
      (Sound.register i (hl i (by simp)) reg h)

/-- Look a shard up. -/
theorem steps_lookup (peer : Info) (p : Nat) (l : List Nat) (reg : Registry) (step q : Nat) :
    (((Assoc.get (l.foldl (fun reg s => put reg s (put ((Assoc.get reg s).getD []) p peer)) reg)
      step).getD []) |> fun sh => Assoc.get sh q) =
    if step ∈ l ∧ q = p then some peer else Assoc.get ((Assoc.get reg step).getD []) q := by
  induction l generalizing reg with
  | nil => simp
  | cons t l ih =>
    simp only [List.foldl_cons] at ih ⊢
    rw [ih]
    by_cases hl : step ∈ l
    · by_cases hq : q = p
      · simp [hl, hq]
      · simp only [hq, and_false, if_false, get_put]
        split
        · rename_i ht
          subst ht
          simp [get_put_ne _ _ hq]
        · rfl
    · simp only [hl, false_and, if_false, List.mem_cons, or_false, get_put]
      by_cases ht : step = t
      · subst ht
        simp only [if_true, Option.getD_some, true_and, get_put]
      · simp [ht]

theorem register_lookup (peer : Info) (reg : Registry) (step q : Nat) :
    Assoc.get ((Assoc.get (register reg peer) step).getD []) q =
    if step ∈ peer.steps ∧ peer.proc = some q then some peer
    else Assoc.get ((Assoc.get reg step).getD []) q := by
  unfold register
  cases hp : peer.proc with
  | none => simp
  | some p =>
    have := steps_lookup peer p peer.steps reg step q
    simp only at this ⊢
    rw [this]
    by_cases hq : q = p
    · simp [hq]
    · simp [hq, Ne.symm hq]

/-! ## The choice -/

theorem insertByReplica_perm (x : Info) (l : List Info) : (insertByReplica x l).Perm (x :: l) := by
  induction l with
  | nil => exact List.Perm.refl _
  | cons y l ih =>
    rw [insertByReplica]
    split
    · exact (ih.cons y).trans (List.Perm.swap _ _ _)
    · exact List.Perm.refl _

theorem sortByReplica_perm (l : List Info) : (sortByReplica l).Perm l := by
  suffices h : ∀ (l acc : List Info),
      (l.foldl (fun acc x => insertByReplica x acc) acc).Perm (acc ++ l) by
    simpa [sortByReplica] using h l []
  intro l
  induction l with
  | nil => intro acc; simp
  | cons x l ih =>
    intro acc
    simp only [List.foldl_cons]
    refine (ih _).trans ?_
    refine ((insertByReplica_perm x acc).append_right l).trans ?_
    rw [List.cons_append]
    exact List.perm_middle.symm

/-- The candidates of a process. -/
theorem sourcePeer_cases (topo : Topology) (reg : Registry) (step target : Nat) (peer : Info)
    (h : sourcePeer topo reg step target = some peer) :
    ∃ shards, Assoc.get reg step = some shards ∧ ∃ s ∈ shards, s.2 = peer ∧
      (s.1 = target ∨ ∃ tm m, Assoc.get topo target = some tm ∧ Assoc.get topo s.1 = some m ∧
        m.2 = tm.2) := by
  unfold sourcePeer at h
  split at h
  · cases h
  · rename_i shards hsh
    refine ⟨shards, hsh, ?_⟩
    split at h
    · rename_i p hp
      cases h
      exact ⟨(target, peer), mem_of_get _ _ _ hp, rfl, Or.inl rfl⟩
    · split at h
      · cases h
      · rename_i tm htm
        simp only at h
        split at h
        · cases h
        · have hm := (sortByReplica_perm _).mem_iff.1 (List.mem_of_getElem? h)
          obtain ⟨s, hs, rfl⟩ := List.mem_map.1 hm
          obtain ⟨hs1, hs2⟩ := List.mem_filter.1 hs
          refine ⟨s, hs1, rfl, Or.inr ?_⟩
          cases hg : Assoc.get topo s.1 with
          | none => simp [hasRel, hg] at hs2
          | some m =>
            simp only [hasRel, hg, decide_eq_true_eq] at hs2
            exact ⟨tm, m, htm, rfl, hs2⟩

theorem sourcePeer_isSome (topo : Topology) (reg : Registry) (step target : Nat)
    (shards : List (Nat × Info)) (hsh : Assoc.get reg step = some shards) (tm : Nat × Nat)
    (htm : Assoc.get topo target = some tm) (ha : available topo shards tm.2 = true) :
    (sourcePeer topo reg step target).isSome := by
  unfold sourcePeer
  simp only [hsh]
  cases hd : Assoc.get shards target with
  | some p => rfl
  | none =>
    simp only [htm]
    have hne : ((shards.filter (hasRel topo tm.2)).map fun s => s.2) ≠ [] := by
      intro he
      rw [List.map_eq_nil_iff, List.filter_eq_nil_iff] at he
      obtain ⟨s, hs, hs'⟩ := List.any_eq_true.1 ha
      exact he s hs hs'
    rw [if_neg hne]
    have hl := (sortByReplica_perm ((shards.filter (hasRel topo tm.2)).map fun s => s.2)).length_eq
    rw [List.getElem?_eq_getElem]
    · rfl
    · rw [hl]
      exact Nat.mod_lt _ (List.length_pos_iff.2 hne)

theorem complete_iff (mesh : Mesh) (hne : ∃ row ∈ mesh, row ≠ []) (reg : Registry) (step : Nat) :
    (step ∈ keys reg ∧ ((topology mesh).all fun e =>
      available (topology mesh) ((Assoc.get reg step).getD []) e.2.2) = true) ↔
    ∀ row ∈ mesh, ∀ p ∈ row, (sourcePeer (topology mesh) reg step p).isSome := by
  constructor
  · rintro ⟨hk, hall⟩ row hrow p hp
    obtain ⟨shards, hsh⟩ := (mem_keys_iff _ _).1 hk
    obtain ⟨tm, htm⟩ := (mem_keys_iff _ _).1 ((topology_keys mesh p).2 ⟨row, hrow, hp⟩)
    have := List.all_eq_true.1 hall (p, tm) (mem_of_get _ _ _ htm)
    rw [hsh] at this
    exact sourcePeer_isSome _ _ _ _ shards hsh tm htm this
  · intro h
    constructor
    · obtain ⟨row, hrow, hr⟩ := hne
      obtain ⟨p, hp⟩ := List.exists_mem_of_ne_nil _ hr
      obtain ⟨peer, hpeer⟩ := Option.isSome_iff_exists.1 (h row hrow p hp)
      obtain ⟨shards, hsh, -⟩ := sourcePeer_cases _ _ _ _ _ hpeer
      exact (mem_keys_iff _ _).2 ⟨shards, hsh⟩
    · rw [List.all_eq_true]
      intro e he
      have hg := get_of_mem _ (topology_nodup mesh) e.1 e.2 he
      obtain ⟨row, hrow, hp⟩ := (topology_keys mesh e.1).1 ((mem_keys_iff _ _).2 ⟨_, hg⟩)
      obtain ⟨peer, hpeer⟩ := Option.isSome_iff_exists.1 (h row hrow e.1 hp)
      obtain ⟨shards, hsh, s, hs, -, hcase⟩ := sourcePeer_cases _ _ _ _ _ hpeer
      rw [hsh]
      rw [available, List.any_eq_true]
      refine ⟨s, hs, ?_⟩
      rcases hcase with hc | ⟨tm, m, h1, h2, h3⟩
      · simp [hasRel, hc, hg]
      · rw [hg] at h1
        cases h1
        simp [hasRel, h2, h3]

/-- C72: the latest complete step is the greatest step for which every process of the mesh finds a
source, and there is none exactly when no step has that property. -/
theorem C72_latest_complete (mesh : Mesh) (hne : ∃ row ∈ mesh, row ≠ []) (infos : List Info) :
    (∀ t, latestComplete (topology mesh) (registry mesh infos) = some t →
      (∀ row ∈ mesh, ∀ p ∈ row,
        (sourcePeer (topology mesh) (registry mesh infos) t p).isSome) ∧
      ∀ t', (∀ row ∈ mesh, ∀ p ∈ row,
        (sourcePeer (topology mesh) (registry mesh infos) t' p).isSome) → t' ≤ t) ∧
    (latestComplete (topology mesh) (registry mesh infos) = none →
      ∀ t, ∃ row ∈ mesh, ∃ p ∈ row,
        sourcePeer (topology mesh) (registry mesh infos) t p = none) := by
  have ht : topology mesh ≠ [] := by
    obtain ⟨row, hrow, hr⟩ := hne
    obtain ⟨p, hp⟩ := List.exists_mem_of_ne_nil _ hr
    intro h
    have := (topology_keys mesh p).2 ⟨row, hrow, hp⟩
    rw [h] at this
    simp [keys] at this
  constructor
  · intro t h
    rw [latestComplete, if_neg ht, List.max?_eq_some_iff] at h
    obtain ⟨h1, h2⟩ := h
    rw [List.mem_filter] at h1
    refine ⟨(complete_iff mesh hne _ t).1 h1, fun t' h' => h2 t' ?_⟩
    rw [List.mem_filter]
    exact (complete_iff mesh hne _ t').2 h'
  · intro h t
    rw [latestComplete, if_neg ht, List.max?_eq_none_iff, List.filter_eq_nil_iff] at h
    apply Classical.byContradiction
    intro hc
    have hall : ∀ row ∈ mesh, ∀ p ∈ row,
        (sourcePeer (topology mesh) (registry mesh infos) t p).isSome := by
      intro row hrow p hp
      cases hs : sourcePeer (topology mesh) (registry mesh infos) t p with
      | some x => rfl
      | none => exact absurd ⟨row, hrow, p, hp, hs⟩ hc
    obtain ⟨h1, h2⟩ := (complete_iff mesh hne _ t).2 hall
    exact h t h1 h2

/-- C72: a source is a host that announced the step. -/
theorem C72_source_announced (mesh : Mesh) (infos : List Info) (step p : Nat) (peer : Info)
    (h : sourcePeer (topology mesh) (registry mesh infos) step p = some peer) :
    ∃ i ∈ infos, i.host = peer.host ∧ i.proc = peer.proc ∧ step ∈ i.steps := by
  obtain ⟨shards, hsh, s, hs, rfl, -⟩ := sourcePeer_cases _ _ _ _ _ h
  obtain ⟨i, hi, h1, h2, h3⟩ := registry_sound mesh infos step shards hsh s hs
  refine ⟨i, hi, ?_, ?_, h3⟩
  · rw [h1, (enrich_fields _ i).1]
  · rw [h1, (enrich_fields _ i).2.1]

/-- C72: a process whose own shard of a step is announced by exactly one host gets that host as its
source. -/
theorem C72_source_own (mesh : Mesh) (infos : List Info) (step p : Nat) (i : Info) (hi : i ∈ infos)
    (hp : i.proc = some p) (hs : step ∈ i.steps)
    (huniq : ∀ j ∈ infos, j.proc = some p → step ∈ j.steps → j = i) :
    ∃ peer, sourcePeer (topology mesh) (registry mesh infos) step p = some peer ∧
      peer.host = i.host ∧ peer.proc = some p := by
  have key : ∀ (l : List Info), (∀ j ∈ l, j ∈ infos) → ∀ reg : Registry,
      (i ∈ l ∨ Assoc.get ((Assoc.get reg step).getD []) p = some (enrich (topology mesh) i)) →
      Assoc.get ((Assoc.get (l.foldl (fun reg i =>
        Peers.register reg (enrich (topology mesh) i)) reg) step).getD []) p =
        some (enrich (topology mesh) i) := by
    intro l
    induction l with
    | nil =>
      rintro _ reg (h | h)
      · cases h
      · exact h
    | cons j l ih =>
      intro hl reg h
      apply ih (fun k hk => hl k (List.mem_cons_of_mem _ hk))
      rw [register_lookup, (enrich_fields _ j).2.2, (enrich_fields _ j).2.1]
      by_cases hj : step ∈ j.steps ∧ j.proc = some p
      · rw [huniq j (hl j (by simp)) hj.2 hj.1]
        simp [hs, hp]
      · rw [if_neg hj]
        rcases h with h | h
        · rcases List.mem_cons.1 h with rfl | h
          · exact absurd ⟨hs, hp⟩ hj
          · exact Or.inl h
        · exact Or.inr h
  have hk := key infos (fun _ h => h) [] (Or.inl hi)
  refine ⟨enrich (topology mesh) i, ?_, (enrich_fields _ i).1, by rw [(enrich_fields _ i).2.1, hp]⟩
  unfold sourcePeer
  cases hg : Assoc.get (registry mesh infos) step with
  | none =>
    rw [registry] at hg
    rw [hg] at hk
    simp at hk
  | some shards =>
    rw [registry] at hg
    rw [hg] at hk
    simp only [Option.getD_some] at hk
    simp only [hk]

/-- C72: if every replica assigns the positions to its processes in the same way (up to the names of
the processes) and no process is in two replicas, then a source stored the data of a process with
exactly the positions of the process that asks. -/
theorem C72_source_same_shard (mesh : Mesh) (infos : List Info) (step p q : Nat) (peer : Info)
    (hlayout : ∀ a ∈ mesh, ∀ b ∈ mesh, ∃ f : Nat → Nat, b = a.map f ∧
      ∀ x ∈ a, ∀ y ∈ a, f x = f y → x = y)
    (hone : ∀ (i j : Nat) (a b : List Nat), mesh[i]? = some a → mesh[j]? = some b →
      ∀ x ∈ a, x ∈ b → i = j)
    (h : sourcePeer (topology mesh) (registry mesh infos) step p = some peer)
    (hq : peer.proc = some q)
    (rowp rowq : List Nat) (hrp : rowp ∈ mesh) (hpp : p ∈ rowp) (hrq : rowq ∈ mesh)
    (hqq : q ∈ rowq) (k : Nat) :
    rowp[k]? = some p ↔ rowq[k]? = some q := by
  obtain ⟨shards, hsh, s, hs, rfl, hcase⟩ := sourcePeer_cases _ _ _ _ _ h
  obtain ⟨i, hi, h1, h2, h3⟩ := registry_sound mesh infos step shards hsh s hs
  have hsq : s.1 = q := by
    rw [h1, (enrich_fields _ i).2.1, h2] at hq
    exact Option.some.inj hq
  obtain ⟨ip, hip⟩ := List.mem_iff_getElem?.1 hrp
  obtain ⟨iq, hiq⟩ := List.mem_iff_getElem?.1 hrq
  rcases hcase with hc | ⟨tm, m, ht, hm, he⟩
  · have hpq : p = q := hc.symm.trans hsq
    subst hpq
    have := hone ip iq rowp rowq hip hiq p hpp hqq
    subst this
    rw [hip] at hiq
    cases hiq
    exact Iff.rfl
  · rw [hsq] at hm
    obtain ⟨a, ha, hfa⟩ := topology_get mesh p tm ht
    obtain ⟨b, hb, hfb⟩ := topology_get mesh q m hm
    have hpa : p ∈ a := (mem_firstSeen a p).1 (List.mem_of_getElem? hfa)
    have hqb : q ∈ b := (mem_firstSeen b q).1 (List.mem_of_getElem? hfb)
    have e1 := hone ip tm.1 rowp a hip ha p hpp hpa
    have e2 := hone iq m.1 rowq b hiq hb q hqq hqb
    rw [e1, ha] at hip
    rw [e2, hb] at hiq
    cases hip
    cases hiq
    obtain ⟨f, hf, hinj⟩ := hlayout rowp hrp rowq hrq
    rw [hf, firstSeen_map f _ hinj, List.getElem?_map, he, hfa] at hfb
    simp only [Option.map_some, Option.some.injEq] at hfb
    rw [hf, List.getElem?_map]
    constructor
    · intro hk
      rw [hk]; simp [hfb]
    · intro hk
      cases hr : rowp[k]? with
      | none => simp [hr] at hk
      | some x =>
        simp only [hr, Option.map_some, Option.some.injEq] at hk
        rw [← hfb] at hk
        rw [hinj x (List.mem_of_getElem? hr) p hpp hk]

/-! ## Announcements -/

/-- C72: if on every host all steps were stored by the same process, then the source chosen for a step
really has, on its disk, the step stored by the process it is asked for. -/
theorem C72_source_has_step_partial (mesh : Mesh) (hosts : List Disk)
    (hsame : ∀ disk ∈ hosts, ∃ p, ∀ e ∈ disk, e.2 = some p)
    (infos : List Info) (hinfos : infos.map some = hosts.zipIdx.map fun e => advert e.2 e.1)
    (step target : Nat) (peer : Info)
    (h : sourcePeer (topology mesh) (registry mesh infos) step target = some peer) :
    ∃ disk, hosts[peer.host]? = some disk ∧ (step, peer.proc) ∈ disk := by
  obtain ⟨i, hi, h1, h2, h3⟩ := C72_source_announced mesh infos step target peer h
  have hm : some i ∈ hosts.zipIdx.map fun e => advert e.2 e.1 := by
    rw [← hinfos]; exact List.mem_map.2 ⟨i, hi, rfl⟩
  obtain ⟨⟨disk, k⟩, hk, he⟩ := List.mem_map.1 hm
  have hdisk := List.mem_zipIdx_iff_getElem?.1 hk
  simp only at hdisk
  simp only [advert] at he
  split at he
  · cases he
    simp at h3
  · cases he
  · rename_i t p hl
    cases he
    refine ⟨disk, by rw [← h1]; exact hdisk, ?_⟩
    obtain ⟨⟨a, b⟩, hab, rfl⟩ := List.mem_map.1 h3
    obtain ⟨p', hp'⟩ := hsame disk (List.mem_of_getElem? hdisk)
    have e1 := hp' _ hab
    have e2 := hp' _ (List.mem_of_getLast? hl)
    simp only at e1 e2
    rw [← h2, e2, ← e1]
    exact hab

/-- C72 (finding): a host attributes every step to the process that stored its latest one.  Here host 0
was process 0 at step 1 and process 1 at step 2, and host 1 was process 1, then 0: at step 1 both shards
exist and step 1 is announced as complete, but each process is sent to the host that has the other
one's data, and the request is refused. -/
theorem C72_wrong_owner_fails :
    ∃ (mesh : Mesh) (hosts : List Disk) (infos : List Info),
      infos.map some = (hosts.zipIdx.map fun e => advert e.2 e.1) ∧
      latestComplete (topology mesh) (registry mesh infos) = some 2 ∧
      (∀ p, p = 0 ∨ p = 1 → ∃ peer disk,
        sourcePeer (topology mesh) (registry mesh infos) 1 p = some peer ∧
        hosts[peer.host]? = some disk ∧ peer.proc = some p ∧ (1, peer.proc) ∉ disk ∧
        ∃ disk' ∈ hosts, (1, some p) ∈ disk') := by
  refine ⟨[[0, 1]], [[(1, some 0), (2, some 1)], [(1, some 1), (2, some 0)]],
    [⟨0, some 1, [1, 2], -1⟩, ⟨1, some 0, [1, 2], -1⟩], by decide, by decide, ?_⟩
  rintro p (rfl | rfl)
  · exact ⟨⟨1, some 0, [1, 2], 0⟩, [(1, some 1), (2, some 0)], by decide, by decide, rfl,
      by decide, [(1, some 0), (2, some 1)], by simp, by simp⟩
  · exact ⟨⟨0, some 1, [1, 2], 0⟩, [(1, some 0), (2, some 1)], by decide, by decide, rfl,
      by decide, [(1, some 1), (2, some 0)], by simp, by simp⟩

/-- C72 (finding): a step of which the hosts hold every shard may not be found: the host that stores
step 1 of process 0 announces it as process 1's, because its latest step was stored by process 1. -/
theorem C72_complete_missed_fails :
    ∃ (mesh : Mesh) (hosts : List Disk) (infos : List Info),
      infos.map some = (hosts.zipIdx.map fun e => advert e.2 e.1) ∧
      (∀ row ∈ mesh, ∀ p ∈ row, ∃ disk ∈ hosts, (1, some p) ∈ disk) ∧
      latestComplete (topology mesh) (registry mesh infos) = none := by
  exact ⟨[[0, 1]], [[(1, some 0), (2, some 1)], [(1, some 1)]],
    [⟨0, some 1, [1, 2], -1⟩, ⟨1, some 1, [1], -1⟩], by decide, by decide, by decide⟩

/-- C72 (finding): if two replicas assign their positions differently, a process can be given the data
of other positions: relative ids only count the processes in the order in which they appear.  Here the
devices of process 1 are at positions 2 and 3, those of process 3 at positions 1 and 2. -/
theorem C72_layout_fails :
    ∃ (mesh : Mesh) (infos : List Info) (peer : Info),
      sourcePeer (topology mesh) (registry mesh infos) 5 1 = some peer ∧ peer.proc = some 3 ∧
      latestComplete (topology mesh) (registry mesh infos) = some 5 ∧
      [0, 0, 1, 1] ∈ mesh ∧ [2, 3, 3, 2] ∈ mesh := by
  exact ⟨[[0, 0, 1, 1], [2, 3, 3, 2]], [⟨0, some 2, [5], -1⟩, ⟨1, some 3, [5], -1⟩],
    ⟨1, some 3, [5], 1⟩, by decide, rfl, by decide, by decide, by decide⟩

/-- C72 (finding): a process in two replicas keeps only the last of its relative ids.  Process 1 has
positions 1 (replica 0) and 0 (replica 1), and is given the data of process 0, which has position 0
only, as if that were its own. -/
theorem C72_spanning_fails :
    ∃ (mesh : Mesh) (infos : List Info) (peer : Info),
      sourcePeer (topology mesh) (registry mesh infos) 5 1 = some peer ∧ peer.proc = some 0 ∧
      latestComplete (topology mesh) (registry mesh infos) = some 5 ∧
      mesh = [[0, 1], [1, 2]] := by
  exact ⟨[[0, 1], [1, 2]], [⟨0, some 0, [5], -1⟩, ⟨1, some 2, [5], -1⟩],
    ⟨0, some 0, [5], 0⟩, by decide, rfl, by decide, rfl⟩

/-- C72, non-vacuity: two replicas of two processes with two devices each; the shards of step 9 are on
the hosts of processes 0 and 3 only, step 4 is everywhere, and step 11 is incomplete. -/
theorem C72_nonvacuous :
    ∃ (mesh : Mesh) (hosts : List Disk) (infos : List Info),
      mesh = [[0, 0, 1, 1], [2, 2, 3, 3]] ∧
      infos.map some = (hosts.zipIdx.map fun e => advert e.2 e.1) ∧
      (∀ disk ∈ hosts, ∃ p, ∀ e ∈ disk, e.2 = some p) ∧
      (∀ a ∈ mesh, ∀ b ∈ mesh, ∃ f : Nat → Nat, b = a.map f ∧
        ∀ x ∈ a, ∀ y ∈ a, f x = f y → x = y) ∧
      latestComplete (topology mesh) (registry mesh infos) = some 9 ∧
      (sourcePeer (topology mesh) (registry mesh infos) 9 1).map (·.proc) = some (some 3) ∧
      (sourcePeer (topology mesh) (registry mesh infos) 9 3).map (·.proc) = some (some 3) ∧
      sourcePeer (topology mesh) (registry mesh infos) 11 1 = none := by
  refine ⟨[[0, 0, 1, 1], [2, 2, 3, 3]],
    [[(4, some 0), (9, some 0)], [(4, some 1)], [(4, some 2), (11, some 2)], [(4, some 3), (9, some 3)]],
    [⟨0, some 0, [4, 9], -1⟩, ⟨1, some 1, [4], -1⟩, ⟨2, some 2, [4, 11], -1⟩,
      ⟨3, some 3, [4, 9], -1⟩], rfl, by decide, ?_, ?_, by decide, by decide, by decide, by decide⟩
  · intro disk hd
    simp only [List.mem_cons, List.not_mem_nil, or_false] at hd
    rcases hd with rfl | rfl | rfl | rfl
    · exact ⟨0, by decide⟩
    · exact ⟨1, by decide⟩
    · exact ⟨2, by decide⟩
    · exact ⟨3, by decide⟩
  · intro a ha b hb
    simp only [List.mem_cons, List.not_mem_nil, or_false] at ha hb
    rcases ha with rfl | rfl <;> rcases hb with rfl | rfl
    · exact ⟨id, by decide, by decide⟩
    · exact ⟨(· + 2), by decide, by decide⟩
    · exact ⟨(· - 2), by decide, by decide⟩
    · exact ⟨id, by decide, by decide⟩

end Verif.Emergency.Peers
