import Verif.Emergency.Manager
import Verif.Emergency.PeersProps

/-!
# C76: restoring with the peer-to-peer checkpoint manager
-/
namespace Verif.Emergency.Manager
open Verif.Assoc Verif.Emergency.Peers

/-! ## Specification -/

/-- The shard stored by `q` is the shard of `p`: it is `p`'s own, or both are in the mesh and `q`'s
positions in its replica are `p`'s positions in its replica. -/
def SameShard (mesh : List (List Nat)) (p q : Nat) : Prop :=
  p = q ∨ ((∃ row ∈ mesh, p ∈ row) ∧ (∃ row ∈ mesh, q ∈ row) ∧
    ∀ rowp ∈ mesh, p ∈ rowp → ∀ rowq ∈ mesh, q ∈ rowq →
      ∀ k : Nat, rowp[k]? = some p ↔ rowq[k]? = some q)

/-- Every replica assigns its positions to its processes in the same way up to the names of the
processes, and no process is in two replicas. -/
structure Uniform (mesh : List (List Nat)) : Prop where
  layout : ∀ a ∈ mesh, ∀ b ∈ mesh, ∃ f : Nat → Nat, b = a.map f ∧
    ∀ x ∈ a, ∀ y ∈ a, f x = f y → x = y
  one : ∀ (i j : Nat) (a b : List Nat), mesh[i]? = some a → mesh[j]? = some b →
    ∀ x ∈ a, x ∈ b → i = j

/-! ## The right shard -/

theorem source_sameShard (s : Sys) (hu : Uniform s.mesh) (step p : Nat) (peer : Info) (q : Nat)
    (h : source s step p = some peer) (hq : peer.proc = some q) : SameShard s.mesh p q := by
  by_cases hpq : p = q
  · exact Or.inl hpq
  · obtain ⟨shards, hsh, e, he, he2, hcase⟩ := sourcePeer_cases _ _ _ _ _ h
    obtain ⟨i, hi, h1, h2, h3⟩ := registry_sound s.mesh s.infos step shards hsh e he
    have heq : e.1 = q := by
      rw [he2] at h1
      rw [h1, (enrich_fields _ i).2.1, h2] at hq
      exact Option.some.inj hq
    rcases hcase with hc | ⟨tm, m, ht, hm, _⟩
    · exact absurd (hc.symm.trans heq) hpq
    · rw [heq] at hm
      have hp : p ∈ keys (topology s.mesh) := (mem_keys_iff _ _).2 ⟨_, ht⟩
      have hq' : q ∈ keys (topology s.mesh) := (mem_keys_iff _ _).2 ⟨_, hm⟩
      refine Or.inr ⟨(topology_keys _ _).1 hp, (topology_keys _ _).1 hq', ?_⟩
      intro rowp hrp hpp rowq hrq hqq k
      exact C72_source_same_shard s.mesh s.infos step p q peer hu.layout hu.one h hq rowp rowq hrp hpp
        hrq hqq k

theorem fetchFromPeers_sound (s : Sys) (hu : Uniform s.mesh) (net : Nat → Nat → Bool) (step p q : Nat)
    (h : fetchFromPeers s net step p = some q) :
    SameShard s.mesh p q ∧ ∃ hst ∈ s.hosts, (step, some q) ∈ hst.disk := by
  unfold fetchFromPeers at h
  split at h
  · cases h
  · rename_i peer hs
    split at h
    · rename_i hst q' hh hq
      split at h
      · rename_i hc
        cases h
        exact ⟨source_sameShard s hu step p peer q hs hq, hst, List.mem_of_getElem? hh, hc.1⟩
      · cases h
    · cases h

/-- The invariant: what is in a host's restore directory is a shard of the host's process. -/
def Inv (s : Sys) : Prop :=
  ∀ (p : Nat) (h : Host), s.hosts[p]? = some h → ∀ step q, Assoc.get h.restoreDir step = some q →
    SameShard s.mesh p q

theorem get_put_cases (m : List (Nat × Nat)) (k v k' v' : Nat) (h : Assoc.get (put m k v) k' = some v') :
    (k' = k ∧ v' = v) ∨ Assoc.get m k' = some v' := by
  by_cases hk : k' = k
  · subst hk
    rw [get_put_self] at h
    exact Or.inl ⟨rfl, (Option.some.inj h).symm⟩
  · rw [get_put_ne _ _ hk] at h
    exact Or.inr h

theorem prefetch_inv (s : Sys) (hu : Uniform s.mesh) (net : Nat → Nat → Bool) (p : Nat) (h : Host)
    (hi : ∀ step q, Assoc.get h.restoreDir step = some q → SameShard s.mesh p q) (step q : Nat)
    (hg : Assoc.get (prefetch s net p h).restoreDir step = some q) : SameShard s.mesh p q := by
  unfold prefetch at hg
  split at hg
  · exact hi _ _ hg
  · rename_i t ht
    split at hg
    · exact hi _ _ hg
    · split at hg
      · exact hi _ _ hg
      · rename_i q' hf
        rcases get_put_cases _ _ _ _ _ hg with ⟨_, rfl⟩ | hg
        · exact (fetchFromPeers_sound s hu net t p _ hf).1
        · exact hi _ _ hg

theorem fetch_inv (s : Sys) (hu : Uniform s.mesh) (net : Nat → Nat → Bool) (p : Nat) (h : Host)
    (hi : ∀ step q, Assoc.get h.restoreDir step = some q → SameShard s.mesh p q) (t step q : Nat)
    (hg : Assoc.get (fetch s net p h t).2 step = some q) : SameShard s.mesh p q := by
  unfold fetch at hg
  split at hg
  · exact hi _ _ hg
  · split at hg
    · exact hi _ _ hg
    · rename_i q' hf
      rcases get_put_cases _ _ _ _ _ hg with ⟨_, rfl⟩ | hg
      · exact (fetchFromPeers_sound s hu net t p _ hf).1
      · exact hi _ _ hg

theorem restoreHost_inv (s : Sys) (net : Nat → Nat → Bool) (ok : Nat → Bool) (p : Nat) (h : Host)
    (hi : ∀ step q, Assoc.get h.restoreDir step = some q → SameShard s.mesh p q) (t step q : Nat)
    (hg : Assoc.get (restoreHost s net ok p h t).2.restoreDir step = some q) : SameShard s.mesh p q := by
  unfold restoreHost at hg
  split at hg
  · exact hi _ _ hg
  · split at hg
    · exact hi _ _ hg
    · simp at hg

theorem restoreHost_sound (s : Sys) (hu : Uniform s.mesh) (net : Nat → Nat → Bool) (ok : Nat → Bool)
    (p : Nat) (h : Host)
    (hi : ∀ step q, Assoc.get h.restoreDir step = some q → SameShard s.mesh p q) (t q : Nat)
    (hg : (restoreHost s net ok p h t).1 = some q) : SameShard s.mesh p q := by
  unfold restoreHost at hg
  split at hg
  · cases hg
  · split at hg
    · unfold restoreLocal at hg
      simp only at hg
      split at hg
      · cases hg; exact Or.inl rfl
      · cases hg
    · simp only at hg
      split at hg
      · exact fetch_inv s hu net p h hi t t q hg
      · cases hg

theorem restore_hosts (s : Sys) (net : Nat → Nat → Bool) (ok : Nat → Bool) (step : Option Nat) (p : Nat)
    (h : Host) (hh : (restore s net ok step).2.hosts[p]? = some h) :
    ∃ h0, s.hosts[p]? = some h0 ∧ (h = h0 ∨ ∃ t, h = (restoreHost s net ok p h0 t).2) := by
  unfold restore at hh
  split at hh
  · exact ⟨h, hh, Or.inl rfl⟩
  · exact ⟨h, hh, Or.inl rfl⟩
  · rename_i t _
    simp only [List.map_map, List.getElem?_map, List.getElem?_zipIdx, Option.map_map] at hh
    cases h0 : s.hosts[p]? with
    | none => rw [h0] at hh; simp at hh
    | some h1 =>
      rw [h0] at hh
      simp only [Option.map_some, Function.comp, Option.some.injEq, Nat.zero_add] at hh
      exact ⟨h1, rfl, Or.inr ⟨t, hh.symm⟩⟩

theorem restore_mesh (s : Sys) (net : Nat → Nat → Bool) (ok : Nat → Bool) (step : Option Nat) :
    (restore s net ok step).2.mesh = s.mesh := by
  unfold restore; split <;> rfl

theorem apply_mesh (s : Sys) (e : Event) : (apply s e).mesh = s.mesh := by
  cases e with
  | restore net ok step => exact restore_mesh s net ok step
  | _ => rfl

theorem apply_inv (s : Sys) (hu : Uniform s.mesh) (hi : Inv s) (e : Event) : Inv (apply s e) := by
  intro p h hh step q hg
  rw [apply_mesh]
  cases e with
  | prefetch net =>
    simp only [apply, List.getElem?_map, List.getElem?_zipIdx, Option.map_map] at hh
    cases h0 : s.hosts[p]? with
    | none => rw [h0] at hh; simp at hh
    | some h1 =>
      rw [h0] at hh
      simp only [Option.map_some, Function.comp, Option.some.injEq, Nat.zero_add] at hh
      subst hh
      exact prefetch_inv s hu net p h1 (hi p h1 h0) step q hg
  | disks new pers =>
    simp only [apply, List.getElem?_map, List.getElem?_zip_eq_some, Option.map_eq_some_iff] at hh
    obtain ⟨e, ⟨he, _⟩, rfl⟩ := hh
    exact hi p e.1 he step q hg
  | sync infos => exact hi p h hh step q hg
  | restore net ok t =>
    obtain ⟨h0, e0, rfl | ⟨t', rfl⟩⟩ := restore_hosts s net ok t p h hh
    · exact hi p h e0 step q hg
    · exact restoreHost_inv s net ok p h0 (hi p h0 e0) t' step q hg

theorem run_inv (es : List Event) : ∀ (s : Sys), Uniform s.mesh → Inv s →
    Inv (run s es) ∧ (run s es).mesh = s.mesh := by
  induction es with
  | nil => intro s _ hi; exact ⟨hi, rfl⟩
  | cons e es ih =>
    intro s hu hi
    have hm := apply_mesh s e
    obtain ⟨h1, h2⟩ := ih (apply s e) (by rw [hm]; exact hu) (apply_inv s hu hi e)
    exact ⟨h1, h2.trans hm⟩

theorem conclude_get (pers : Option (List Nat)) (t : Nat) (got : List (Option Nat)) (p step q : Nat)
    (h : (conclude pers t got)[p]? = some (.shard step q)) : step = t ∧ got[p]? = some (some q) := by
  have aux : ∀ (got : List (Option Nat)), (got.map fun g => match g with
      | some q => Outcome.shard t q
      | none => .error)[p]? = some (.shard step q) → step = t ∧ got[p]? = some (some q) := by
    intro got h
    rw [List.getElem?_map, Option.map_eq_some_iff] at h
    obtain ⟨g, hg, h⟩ := h
    cases g with
    | none => simp at h
    | some x => simp only [Outcome.shard.injEq] at h; exact ⟨h.1.symm, by rw [hg, h.2]⟩
  unfold conclude at h
  split at h
  · split at h
    · rw [List.getElem?_map, Option.map_eq_some_iff] at h
      obtain ⟨_, _, h⟩ := h
      split at h <;> cases h
    · exact aux got h
  · exact aux got h

/-- C76: whatever was prefetched, saved, deleted, synchronised and restored before, and whatever
transfers fail, a host that restores a shard restores one of its own positions, and of the step that was
asked for. -/
theorem C76_right_shard (s : Sys) (hu : Uniform s.mesh) (hempty : ∀ h ∈ s.hosts, h.restoreDir = [])
    (history : List Event) (net : Nat → Nat → Bool) (ok : Nat → Bool) (asked : Option Nat)
    (p step owner : Nat)
    (h : (restore (run s history) net ok asked).1[p]? = some (.shard step owner)) :
    SameShard s.mesh p owner ∧ ∀ t, asked = some t → step = t := by
  have hi : Inv s := by
    intro p h hh step q hg
    rw [hempty h (List.mem_of_getElem? hh)] at hg
    simp at hg
  obtain ⟨hi', hm⟩ := run_inv history s hu hi
  generalize hs : run s history = s' at *
  unfold restore at h
  split at h
  · rw [List.getElem?_map, Option.map_eq_some_iff] at h
    obtain ⟨_, _, h⟩ := h
    cases h
  · obtain ⟨_, hg⟩ := conclude_get _ _ _ _ _ _ h
    rw [List.getElem?_map, Option.map_eq_some_iff] at hg
    obtain ⟨_, _, hg⟩ := hg
    cases hg
  · rename_i t ht
    obtain ⟨rfl, hg⟩ := conclude_get _ _ _ _ _ _ h
    refine ⟨?_, ?_⟩
    · simp only [List.map_map, List.getElem?_map, List.getElem?_zipIdx, Option.map_map] at hg
      cases h0 : s'.hosts[p]? with
      | none => rw [h0] at hg; simp at hg
      | some h1 =>
        rw [h0] at hg
        simp only [Option.map_some, Function.comp, Option.some.injEq, Nat.zero_add] at hg
        rw [← hm]
        exact restoreHost_sound s' (by rw [hm]; exact hu) net ok p h1 (hi' p h1 h0) step owner hg
    · intro t' ht'
      subst ht'
      simp only [target, Option.some.injEq, Prod.mk.injEq] at ht
      exact ht.1.symm

/-! ## Agreement and fallback -/

/-- C76: with persistent storage the hosts agree: all of them restore their shards of one step, or all
restore one step from persistent storage, or all report an error. -/
theorem C76_agree (s : Sys) (steps : List Nat) (hp : s.persistent = some steps)
    (net : Nat → Nat → Bool) (ok : Nat → Bool) (asked : Option Nat) :
    (∃ step, ∀ o ∈ (restore s net ok asked).1, ∃ owner, o = .shard step owner) ∨
    (∃ step ∈ steps, ∀ o ∈ (restore s net ok asked).1, o = .persistent step) ∨
    (∀ o ∈ (restore s net ok asked).1, o = .error) := by
  have key : ∀ t got, (∃ step, ∀ o ∈ conclude s.persistent t got, ∃ owner, o = .shard step owner) ∨
      (∃ step ∈ steps, ∀ o ∈ conclude s.persistent t got, o = .persistent step) ∨
      (∀ o ∈ conclude s.persistent t got, o = .error) := by
    intro t got
    rw [hp]
    simp only [conclude]
    split
    · by_cases hc : steps.contains t
      · refine Or.inr (Or.inl ⟨t, by simpa using hc, ?_⟩)
        intro o ho
        obtain ⟨_, _, rfl⟩ := List.mem_map.1 ho
        simp only [hc, if_true]
      · refine Or.inr (Or.inr ?_)
        intro o ho
        obtain ⟨_, _, rfl⟩ := List.mem_map.1 ho
        simp only [hc, Bool.false_eq_true, if_false]
    · rename_i hn
      refine Or.inl ⟨t, ?_⟩
      intro o ho
      obtain ⟨g, hg, rfl⟩ := List.mem_map.1 ho
      cases g with
      | some q => exact ⟨q, rfl⟩
      | none => exact absurd (List.any_eq_true.2 ⟨none, hg, rfl⟩) hn
  unfold restore
  split
  · refine Or.inr (Or.inr ?_)
    intro o ho
    obtain ⟨_, _, rfl⟩ := List.mem_map.1 ho
    rfl
  · exact key _ _
  · exact key _ _

theorem conclude_fallback (steps : List Nat) (t : Nat) (ht : t ∈ steps) (got : List (Option Nat)) :
    .error ∉ conclude (some steps) t got := by
  simp only [conclude]
  intro h
  split at h
  · obtain ⟨_, _, h⟩ := List.mem_map.1 h
    rw [if_pos (by simpa using ht)] at h
    cases h
  · rename_i hn
    obtain ⟨g, hg, h⟩ := List.mem_map.1 h
    cases g with
    | some q => cases h
    | none => exact hn (List.any_eq_true.2 ⟨none, hg, rfl⟩)

/-- C76: a step that is in persistent storage can be restored on every host, whatever is missing on the
hosts and whatever transfers fail. -/
theorem C76_fallback (s : Sys) (steps : List Nat) (hp : s.persistent = some steps) (t : Nat)
    (ht : t ∈ steps) (net : Nat → Nat → Bool) (ok : Nat → Bool) :
    ∀ o ∈ (restore s net ok (some t)).1, o = .persistent t ∨ ∃ owner, o = .shard t owner := by
  intro o ho
  rcases C76_agree s steps hp net ok (some t) with ⟨step, h⟩ | ⟨step, -, h⟩ | h
  · obtain ⟨owner, rfl⟩ := h o ho
    obtain ⟨p, hpp⟩ := List.mem_iff_getElem?.1 ho
    simp only [restore, target] at hpp
    obtain ⟨rfl, -⟩ := conclude_get _ _ _ _ _ _ hpp
    exact Or.inr ⟨owner, rfl⟩
  · refine Or.inl ?_
    have h1 := h o ho
    subst h1
    simp only [restore, target, hp, conclude] at ho
    split at ho
    · obtain ⟨_, _, ho⟩ := List.mem_map.1 ho
      rw [if_pos (by simpa using ht)] at ho
      exact ho.symm
    · obtain ⟨g, _, ho⟩ := List.mem_map.1 ho
      cases g <;> cases ho
  · have := h o ho
    subst this
    simp only [restore, target, hp] at ho
    exact absurd ho (conclude_fallback steps t ht _)

/-- C76: if no step is complete among the hosts, `restore()` restores the greatest step in persistent
storage on all of them. -/
theorem C76_persistent_latest (s : Sys) (steps : List Nat) (hp : s.persistent = some steps)
    (hne : ∃ row ∈ s.mesh, row ≠ [])
    (hnone : ∀ t, ∃ row ∈ s.mesh, ∃ p ∈ row, source s t p = none) (t : Nat) (ht : t ∈ steps)
    (hmax : ∀ t' ∈ steps, t' ≤ t) (net : Nat → Nat → Bool) (ok : Nat → Bool) :
    (restore s net ok none).1 = s.hosts.map fun _ => .persistent t := by
  have hl : latestComplete (topology s.mesh) (registry s.mesh s.infos) = none := by
    cases h : latestComplete (topology s.mesh) (registry s.mesh s.infos) with
    | none => rfl
    | some u =>
      obtain ⟨row, hrow, p, hpr, hs⟩ := hnone u
      have := (((C72_latest_complete s.mesh hne s.infos).1 u h).1 row hrow p hpr)
      rw [source] at hs
      rw [hs] at this
      cases this
  have hm : steps.max? = some t := List.max?_eq_some_iff.2 ⟨ht, hmax⟩
  simp only [restore, target, hl, hp, Option.bind_some, hm, Option.map_some, conclude]
  cases hh : s.hosts with
  | nil => simp
  | cons a l =>
    rw [if_pos (by simp)]
    simp [ht]

/-! ## Success without persistent storage -/

/-- C76: if on every host all steps were stored by the same process, the announcements are up to date,
every process finds a source for the step, transfers and reads succeed and the step was not prefetched
(or is still in the restore directory), then every host restores a shard of the step. -/
theorem C76_complete (s : Sys)
    (hsame : ∀ h ∈ s.hosts, ∃ q, ∀ e ∈ h.disk, e.2 = some q)
    (hinfos : s.infos.map some = (s.hosts.map Host.disk).zipIdx.map fun e => advert e.2 e.1)
    (t : Nat) (hsrc : ∀ p, p < s.hosts.length → source s t p ≠ none)
    (hb : ∀ h ∈ s.hosts, h.bkgStep = some t → h.bkgOk = true ∧ ∃ q, Assoc.get h.restoreDir t = some q)
    (net : Nat → Nat → Bool) (hnet : ∀ p, net p t = true) (ok : Nat → Bool) (hok : ∀ p, ok p = true)
    (asked : Option Nat)
    (hasked : asked = some t ∨
      (asked = none ∧ latestComplete (topology s.mesh) (registry s.mesh s.infos) = some t)) :
    ∀ o ∈ (restore s net ok asked).1, ∃ owner, o = .shard t owner := by
  have htarget : target s asked = some (t, false) := by
    rcases hasked with rfl | ⟨rfl, h⟩
    · rfl
    · simp only [target, h]
  have hone : ∀ (p : Nat) (h : Host), s.hosts[p]? = some h →
      ∃ q, (restoreHost s net ok p h t).1 = some q := by
    intro p h hh
    have hlt : p < s.hosts.length := (List.getElem?_eq_some_iff.1 hh).1
    obtain ⟨peer, hpeer⟩ := Option.ne_none_iff_exists'.1 (hsrc p hlt)
    unfold restoreHost
    rw [hpeer]
    simp only [Option.isNone_some, Bool.false_eq_true, if_false]
    split
    · rename_i hmem
      refine ⟨p, ?_⟩
      simp only [restoreLocal, hok p, and_true]
      rw [if_pos]
      simp only [localSteps] at hmem
      split at hmem
      · rename_i a q hl
        split at hmem
        · rename_i hpq
          subst hpq
          obtain ⟨⟨x, y⟩, hxy, rfl⟩ := List.mem_map.1 hmem
          obtain ⟨q', hq'⟩ := hsame h (List.mem_of_getElem? hh)
          have e1 := hq' _ hxy
          have e2 := hq' _ (List.mem_of_getLast? hl)
          simp only at e1 e2
          rw [e2, ← e1]
          exact hxy
        · cases hmem
      · cases hmem
    · simp only [hok p, and_true]
      unfold fetch
      split
      · rename_i hbk
        obtain ⟨h1, q, h2⟩ := hb h (List.mem_of_getElem? hh) hbk
        exact ⟨q, by rw [if_pos h1]; exact h2⟩
      · have hdisk := C72_source_has_step_partial s.mesh (s.hosts.map Host.disk)
          (by intro d hd; obtain ⟨h', hh', rfl⟩ := List.mem_map.1 hd; exact hsame h' hh')
          s.infos hinfos t p peer hpeer
        obtain ⟨disk, hd1, hd2⟩ := hdisk
        rw [List.getElem?_map, Option.map_eq_some_iff] at hd1
        obtain ⟨h', hh', rfl⟩ := hd1
        obtain ⟨q0, hq0⟩ := hsame h' (List.mem_of_getElem? hh')
        have hproc : peer.proc = some q0 := hq0 _ hd2
        have hf : fetchFromPeers s net t p = some q0 := by
          unfold fetchFromPeers
          rw [hpeer]
          simp only [hh', hproc]
          rw [hproc] at hd2
          rw [if_pos ⟨hd2, hnet p⟩]
        rw [hf]
        exact ⟨q0, by simp⟩
  intro o ho
  simp only [restore, htarget] at ho
  have hall : ∀ g ∈ ((s.hosts.zipIdx.map fun e => restoreHost s net ok e.2 e.1 t).map Prod.fst),
      ∃ q, g = some q := by
    intro g hg
    simp only [List.map_map, List.mem_map, Function.comp] at hg
    obtain ⟨⟨h, p⟩, hm, rfl⟩ := hg
    exact hone p h (List.mem_zipIdx_iff_getElem?.1 hm)
  generalize ((s.hosts.zipIdx.map fun e => restoreHost s net ok e.2 e.1 t).map Prod.fst) = got at *
  have haux : ∀ o ∈ (got.map fun g => match g with
      | some q => Outcome.shard t q
      | none => .error), ∃ owner, o = .shard t owner := by
    intro o ho
    obtain ⟨g, hg, rfl⟩ := List.mem_map.1 ho
    obtain ⟨q, rfl⟩ := hall g hg
    exact ⟨q, rfl⟩
  unfold conclude at ho
  split at ho
  · split at ho
    · rename_i hn
      obtain ⟨g, hg, hgn⟩ := List.any_eq_true.1 hn
      obtain ⟨q, rfl⟩ := hall g hg
      cases hgn
    · exact haux o ho
  · exact haux o ho

/-! ## Findings -/

theorem notMem_localSteps (p : Nat) (disk : Disk) (t : Nat) (h : ∀ e ∈ disk, e.1 ≠ t) :
    t ∉ localSteps p disk := by
  intro hm
  unfold localSteps at hm
  split at hm
  · split at hm
    · obtain ⟨e, he, h2⟩ := List.mem_map.1 hm
      exact h e he h2
    · cases hm
  · cases hm

/-- C76 (finding): the step that was fetched in the background can be restored only once: restoring
removes the directory it was fetched to, and a second restore believes it to be still there. -/
theorem C76_second_restore_fails (s : Sys) (net : Nat → Nat → Bool) (ok : Nat → Bool) (p : Nat) (h : Host)
    (t : Nat) (hb : h.bkgStep = some t) (hn : ∀ e ∈ h.disk, e.1 ≠ t) (hs : source s t p ≠ none)
    (s' : Sys) (net' : Nat → Nat → Bool) (ok' : Nat → Bool) :
    (restoreHost s' net' ok' p (restoreHost s net ok p h t).2 t).1 = none := by
  replace hn := notMem_localSteps p h.disk t hn
  have h1 : (restoreHost s net ok p h t).2 = { h with restoreDir := [] } := by
    unfold restoreHost
    rw [if_neg (by simpa using hs), if_neg hn]
  rw [h1]
  unfold restoreHost
  split
  · rfl
  · simp only [fetch, hb, if_true]
    split <;> rfl

/-- C76 (finding): restoring any other step from a peer first has the same effect. -/
theorem C76_other_restore_fails (s : Sys) (net : Nat → Nat → Bool) (ok : Nat → Bool) (p : Nat) (h : Host)
    (t u : Nat) (hb : h.bkgStep = some t) (hn : ∀ e ∈ h.disk, e.1 ≠ t)
    (hu : ∀ e ∈ h.disk, e.1 ≠ u)
    (hs : source s u p ≠ none) (s' : Sys) (net' : Nat → Nat → Bool) (ok' : Nat → Bool) :
    (restoreHost s' net' ok' p (restoreHost s net ok p h u).2 t).1 = none := by
  replace hn := notMem_localSteps p h.disk t hn
  replace hu := notMem_localSteps p h.disk u hu
  have h1 : (restoreHost s net ok p h u).2 = { h with restoreDir := [] } := by
    unfold restoreHost
    rw [if_neg (by simpa using hs), if_neg hu]
  rw [h1]
  unfold restoreHost
  split
  · rfl
  · simp only [fetch, hb, if_true]
    split <;> rfl

/-- C76 (finding): the step to restore is chosen among the hosts, but if one transfer fails the same
step is demanded of persistent storage: `restore()` fails on all hosts although persistent storage has a
checkpoint. -/
theorem C76_fallback_missing_fails :
    ∃ (s : Sys) (net : Nat → Nat → Bool), s.persistent = some [6] ∧
      (restore s net (fun _ => true) none).1 = [.error, .error] ∧
      (restore s net (fun _ => true) (some 6)).1 = [.persistent 6, .persistent 6] := by
  exact ⟨⟨[[0], [1]], [⟨0, some 0, [7], -1⟩, ⟨1, none, [], -1⟩],
    [{ disk := [(7, some 0)] }, { disk := [] }], some [6]⟩, fun _ _ => false, rfl, by decide, by decide⟩

/-- C76 (finding): `restore()` prefers a step of the hosts to a later one in persistent storage. -/
theorem C76_newer_ignored_fails :
    ∃ (s : Sys), s.persistent = some [9] ∧
      (restore s (fun _ _ => true) (fun _ => true) none).1 = [.shard 7 0, .shard 7 0] := by
  exact ⟨⟨[[0], [1]], [⟨0, some 0, [7], -1⟩, ⟨1, none, [], -1⟩],
    [{ disk := [(7, some 0)] }, { disk := [] }], some [9]⟩, rfl, by decide⟩

/-- C76 (finding): without persistent storage the hosts do not agree: one raises while the other one
goes on with the restored state. -/
theorem C76_disagree_fails :
    ∃ (s : Sys) (net : Nat → Nat → Bool), s.persistent = none ∧
      (restore s net (fun _ => true) none).1 = [.shard 7 0, .error] := by
  exact ⟨⟨[[0], [1]], [⟨0, some 0, [7], -1⟩, ⟨1, none, [], -1⟩],
    [{ disk := [(7, some 0)] }, { disk := [] }], none⟩, fun _ _ => false, rfl, by decide⟩

/-- C76 (finding): a host whose own disk has the step, but stored when the host was another process,
fails although a peer has the process's shard: peers are not asked for a step that is on the disk. -/
theorem C76_local_owner_fails :
    ∃ (s : Sys), s.infos.map some = ((s.hosts.map Host.disk).zipIdx.map fun e => advert e.2 e.1) ∧
      s.persistent = none ∧ (∃ h ∈ s.hosts, (5, some 0) ∈ h.disk) ∧
      (∃ h ∈ s.hosts, (5, some 1) ∈ h.disk) ∧
      (restore s (fun _ _ => true) (fun _ => true) (some 5)).1 = [.error, .error] := by
  exact ⟨⟨[[0, 1]], [⟨0, some 0, [5, 7], -1⟩, ⟨1, some 1, [5, 7], -1⟩],
    [{ disk := [(5, some 1), (7, some 0)] }, { disk := [(5, some 0), (7, some 1)] }], none⟩,
    by decide, rfl, by decide, by decide, by decide⟩

/-! ## Non-vacuity -/

/-- C76, non-vacuity: two replicas of one process; host 1 has lost its disk, prefetches the shard of
host 0 and restores it; the hypotheses of `C76_complete` hold before and after the prefetch. -/
theorem C76_nonvacuous :
    ∃ (s : Sys), Uniform s.mesh ∧ (∀ h ∈ s.hosts, h.restoreDir = []) ∧
      s.infos.map some = ((s.hosts.map Host.disk).zipIdx.map fun e => advert e.2 e.1) ∧
      (∀ h ∈ s.hosts, ∃ q, ∀ e ∈ h.disk, e.2 = some q) ∧
      (∀ p, p < s.hosts.length → source s 7 p ≠ none) ∧
      (run s [.prefetch fun _ _ => true]).hosts =
        [{ disk := [(4, some 0), (7, some 0)] },
         { disk := [], bkgStep := some 7, bkgOk := true, restoreDir := [(7, 0)] }] ∧
      (restore (run s [.prefetch fun _ _ => true]) (fun _ _ => false) (fun _ => true) none).1 =
        [.shard 7 0, .shard 7 0] := by
  refine ⟨⟨[[0], [1]], [⟨0, some 0, [4, 7], -1⟩, ⟨1, none, [], -1⟩],
    [{ disk := [(4, some 0), (7, some 0)] }, { disk := [] }], some [4]⟩, ⟨?_, ?_⟩, by decide, by decide,
    ?_, ?_, by decide, by decide⟩
  · intro a ha b hb
    simp only [List.mem_cons, List.not_mem_nil, or_false] at ha hb
    rcases ha with rfl | rfl <;> rcases hb with rfl | rfl
    · exact ⟨fun _ => 0, rfl, by simp⟩
    · exact ⟨fun _ => 1, rfl, by simp⟩
    · exact ⟨fun _ => 0, rfl, by simp⟩
    · exact ⟨fun _ => 1, rfl, by simp⟩
  · intro i j a b ha hb x hxa hxb
    match i, j with
    | 0, 0 => rfl
    | 1, 1 => rfl
    | 0, 1 => simp at ha hb; subst ha; subst hb; simp at hxa hxb; omega
    | 1, 0 => simp at ha hb; subst ha; subst hb; simp at hxa hxb; omega
    | i + 2, _ => simp at ha
    | _, j + 2 => simp at hb
  · intro h hh
    simp only [List.mem_cons, List.not_mem_nil, or_false] at hh
    rcases hh with rfl | rfl
    · exact ⟨0, by simp⟩
    · exact ⟨0, by simp⟩
  · intro p hp
    match p, hp with
    | 0, _ => decide
    | 1, _ => decide

end Verif.Emergency.Manager
