import Verif.Emergency.SingleReplica
import Verif.Emergency.BroadcastProps

/-!
# Properties of restoring by one replica that broadcasts (C121)
-/

namespace Verif.Emergency.SingleReplica

open Broadcast

/-! ### Specification -/

/-- The mesh has every device once, all of them devices of the job. -/
structure WellFormed (J : Job) (m : Mesh) : Prop where
  inj : ∀ r k r' k', r < m.replicas → k < m.width → r' < m.replicas → k' < m.width →
    m.dev r k = m.dev r' k' → r = r' ∧ k = k'
  known : ∀ r k, r < m.replicas → k < m.width → m.dev r k ∈ J.devices

/-- The documented assumption: every process has all its devices inside the primary replica or none. -/
def WholeHosts (J : Job) (m : Mesh) (primary : Nat) : Prop :=
  ∀ r k k', r < m.replicas → k < m.width → k' < m.width → r ≠ primary →
    J.owner (m.dev r k) ≠ J.owner (m.dev primary k')

/-- What is needed of it: no process of the primary replica has a device in an earlier one. -/
def NoneEarlier (J : Job) (m : Mesh) (primary : Nat) : Prop :=
  ∀ r k k', r < primary → k < m.width → k' < m.width → J.owner (m.dev r k) ≠ J.owner (m.dev primary k')

/-- The process has a device in the mesh. -/
def InMesh (J : Job) (m : Mesh) (q : Nat) : Prop :=
  ∃ r k, r < m.replicas ∧ k < m.width ∧ J.owner (m.dev r k) = q

/-! ### Lemmas -/

theorem eraseDups_nodup : ∀ (l : List Nat), l.Nodup → l.eraseDups = l
  | [], _ => rfl
  | a :: l, h => by
    have h := List.nodup_cons.mp h
    have hf : l.filter (fun b => !b == a) = l := by
      rw [List.filter_eq_self]
      intro b hb
      have : b ≠ a := fun e => h.1 (e ▸ hb)
      simp [this]
    rw [List.eraseDups_cons, hf, eraseDups_nodup l h.2]

theorem primaryIds_length {J : Job} {m : Mesh} {primary : Nat} (hw : WellFormed J m) (hp : primary < m.replicas) :
    (primaryIds m primary).eraseDups.length = m.width := by
  rw [eraseDups_nodup]
  · simp [primaryIds]
  · unfold primaryIds
    rw [List.nodup_iff_pairwise_ne, List.pairwise_map]
    refine List.Pairwise.imp_of_mem (R := (· < ·)) ?_ List.pairwise_lt_range
    intro a b ha hb hlt e
    have := (hw.inj primary a primary b hp (List.mem_range.mp ha) hp (List.mem_range.mp hb) e).2
    omega

theorem mem_pids {J : Job} {m : Mesh} {primary q : Nat} :
    q ∈ primaryPids J m primary ↔ ∃ k, k < m.width ∧ J.owner (m.dev primary k) = q := by
  simp [primaryPids, primaryIds]

theorem inReplica_iff {J : Job} {m : Mesh} {q r : Nat} :
    inReplica J m q r = true ↔ ∃ k, k < m.width ∧ J.owner (m.dev r k) = q := by
  simp [inReplica]

theorem find_range (p : Nat → Bool) : ∀ (n r : Nat), r < n → p r = true → (∀ i, i < r → p i = false) →
    (List.range n).find? p = some r := by
  intro n r hr hp hlt
  rw [List.find?_range_eq_some]
  exact ⟨hp, List.mem_range.mpr hr, fun j hj => by simp [hlt j hj]⟩

theorem localRow_primary {J : Job} {m : Mesh} {primary q : Nat} (hc : primary < replicaCount m)
    (he : NoneEarlier J m primary) (hq : q ∈ primaryPids J m primary) : localRow J m q = some primary := by
  obtain ⟨k, hk, rfl⟩ := mem_pids.mp hq
  refine find_range _ _ _ hc (inReplica_iff.mpr ⟨k, hk, rfl⟩) fun i hi => ?_
  cases h : inReplica J m (J.owner (m.dev primary k)) i with
  | false => rfl
  | true =>
    obtain ⟨k', hk', e⟩ := inReplica_iff.mp h
    exact absurd e (he i k' k hi hk' hk)

theorem count_le (m : Mesh) (h : 0 < m.replicas) : replicaCount m ≤ m.replicas := by
  unfold replicaCount; split <;> omega

theorem contributes_eq {M : Type} (zero : M) {J : Job} {m : Mesh} {primary : Nat} (shard : Nat → M)
    (hw : WellFormed J m) (hc : primary < replicaCount m) (hpos : primary < m.replicas)
    (he : NoneEarlier J m primary) {r k : Nat} (hr : r < m.replicas) (hk : k < m.width) :
    contributes zero J primary m m shard r k = if r = primary then shard k else zero := by
  unfold contributes
  by_cases hp : J.owner (m.dev r k) ∈ primaryPids J m primary
  · rw [if_pos hp]
    rw [sourceOn, localRow_primary hc he hp]
    dsimp only
    by_cases h : r = primary
    · subst h
      have hf : (List.range m.width).find? (fun j => decide (m.dev r j = m.dev r k) &&
          decide (J.owner (m.dev r k) = J.owner (m.dev r k))) = some k := by
        refine find_range _ _ _ hk (by simp) fun i hi => ?_
        have : ¬ m.dev r i = m.dev r k := fun e => by
          have := (hw.inj r i r k hr (by omega) hr hk e).2; omega
        simp [this]
      rw [hf]; simp
    · have hf : (List.range m.width).find? (fun j => decide (m.dev primary j = m.dev r k) &&
          decide (J.owner (m.dev r k) = J.owner (m.dev r k))) = none := by
        rw [List.find?_eq_none]
        intro j hj
        have hj := List.mem_range.mp hj
        have : ¬ m.dev primary j = m.dev r k := fun e => h (hw.inj r k primary j hr hk hpos hj e.symm).1
        simp [this]
      rw [hf]; simp [h]
  · rw [if_neg hp]
    by_cases h : r = primary
    · subst h
      exact absurd (mem_pids.mpr ⟨k, hk, rfl⟩) hp
    · rw [if_neg h]

theorem flatMap_map_flatten {α β : Type} (f : α → β) : ∀ (l : List (List α)),
    (l.flatMap fun b => b.map f) = l.flatten.map f
  | [] => rfl
  | b :: l => by simp [flatMap_map_flatten f l]

/-! ### Theorems -/

/-- C121: if no process of the primary replica has devices in an earlier replica, every replica has in every
position exactly the shard that is stored, whatever the number of replicas, processes and devices. -/
theorem C121_value {M : Type} (add : M → M → M) (zero : M) (hl : ∀ x, add zero x = x) (hr : ∀ x, add x zero = x)
    (J : Job) (m : Mesh) (primary : Nat) (hw : WellFormed J m) (hax : m.axes ≠ 1)
    (hpos : primary < m.replicas) (he : NoneEarlier J m primary) (shard : Nat → M) (k : Nat) (hk : k < m.width) :
    restoredAt add zero J primary m m shard k = shard k := by
  have hc : primary < replicaCount m := by simpa [replicaCount, hax] using hpos
  have h1 : ((List.range m.replicas).map fun r => contributes zero J primary m m shard r k) =
      (List.range m.replicas).map fun r => if decide (r = primary) = true then shard k else zero := by
    refine List.map_congr_left fun r hr => ?_
    rw [contributes_eq zero shard hw hc hpos he (List.mem_range.mp hr) hk]
    simp
  have h2 := C75_broadcast_value add zero hl hr m.replicas primary hpos (fun r => decide (r = primary))
    (fun r _ => by simp) (fun _ => shard k)
  unfold merged at h2
  unfold restoredAt
  rw [h1]
  exact h2

/-- C121: the documented assumption is enough, for every array of a tree on one mesh, in the order of the tree
and whatever the limit on the memory of the broadcast. -/
theorem C121_tree {M : Type} (add : M → M → M) (zero : M) (hl : ∀ x, add zero x = x) (hr : ∀ x, add x zero = x)
    (J : Job) (m : Mesh) (primary : Nat) (hw : WellFormed J m) (hax : m.axes ≠ 1)
    (hpos : primary < m.replicas) (hh : WholeHosts J m primary) (size) (limit : Int)
    (arrays : List (DType × Stored M)) :
    let out := broadcastAll add zero J primary m size limit (arrays.map fun a => (m, a))
    out.length = arrays.length ∧
    ∀ i (hi : i < arrays.length) (ho : i < out.length), ∀ k, k < m.width → out[i].shard k = arrays[i].2.shard k := by
  have he : NoneEarlier J m primary := fun r k k' h1 h2 h3 =>
    hh r k k' (by omega) h2 h3 (by omega)
  have e : broadcastAll add zero J primary m size limit (arrays.map fun a => (m, a)) =
      arrays.map fun a => broadcastOne add zero J primary m (m, a) := by
    rw [broadcastAll, flatMap_map_flatten, (C75_batches_partition size limit _).1, List.map_map]
    rfl
  simp only [e]
  refine ⟨by simp, fun i hi ho k hk => ?_⟩
  simp only [List.getElem_map, broadcastOne]
  exact C121_value add zero hl hr J m primary hw hax hpos he _ k hk

theorem checkArgs_ok : ∀ (args : List Arg) (ss : List Sharding), args.map Arg.sharding = ss.map some →
    (∀ a ∈ args, a.isSingle = true) → checkArgs args = .ok ss
  | [], ss, h, _ => by cases ss <;> simp_all [checkArgs]
  | a :: l, ss, h, hs => by
    cases ss with
    | nil => simp at h
    | cons s ss =>
      simp only [List.map_cons, List.cons.injEq] at h
      have ih := checkArgs_ok l ss h.2 fun b hb => hs b (List.mem_cons_of_mem _ hb)
      simp [checkArgs, hs a (by simp), h.1, ih]

theorem singleRows_ok (J : Job) (q : Nat) : ∀ (ss : List Sharding),
    (∀ s ∈ ss, s.named = true ∧ s.mesh.axes ≠ 1 ∧ InMesh J s.mesh q) → ∃ rs, singleRows J q ss = .ok rs
  | [], _ => ⟨[], rfl⟩
  | s :: l, h => by
    obtain ⟨rs, ih⟩ := singleRows_ok J q l fun x hx => h x (List.mem_cons_of_mem _ hx)
    have hs := h s (by simp)
    cases hr : localRow J s.mesh q with
    | none =>
      obtain ⟨hn, hax, r, k, h1, h2, h3⟩ := hs
      rw [localRow, List.find?_eq_none] at hr
      exact absurd (inReplica_iff.mpr ⟨k, h2, h3⟩) (hr r (by simpa [replicaCount, hax] using h1))
    | some r => exact ⟨r :: rs, by simp [singleRows, hs.1, hr, ih]⟩

theorem validate_ok {J : Job} {primary : Nat} {s : Sharding} (hn : s.named = true)
    (hw : WellFormed J s.mesh) (hp : primary < s.mesh.replicas)
    (hd : s.mesh.width ≠ J.devices.length) :
    validate J primary s = .ok (primaryPids J s.mesh primary) := by
  have hall : ((primaryIds s.mesh primary).all fun d =>
      decide (d ∈ J.devices.filter fun d => decide (J.owner d ∈ primaryPids J s.mesh primary))) = true := by
    rw [List.all_eq_true]
    intro d hd
    obtain ⟨k, hk, rfl⟩ := List.mem_map.mp hd
    have hk := List.mem_range.mp hk
    simp only [decide_eq_true_eq, List.mem_filter]
    exact ⟨hw.known _ _ hp hk, mem_pids.mpr ⟨k, hk, rfl⟩⟩
  rw [← primaryIds_length hw hp] at hd
  simp only [validate, hn, Bool.true_eq_false, if_false, hd, hall, if_true]

/-- C121: with complete arguments no process is refused, and exactly those with a device in the primary replica
read; all others start from zeros. -/
theorem C121_roles (J : Job) (primary q : Nat) (args : List Arg) (s : Sharding) (ss : List Sharding)
    (hs : args.map Arg.sharding = (s :: ss).map some) (hsingle : ∀ a ∈ args, a.isSingle = true)
    (hnamed : ∀ t ∈ s :: ss, t.named = true ∧ t.mesh.axes ≠ 1 ∧ InMesh J t.mesh q)
    (hw : WellFormed J s.mesh) (hp : primary < s.mesh.replicas)
    (hd : s.mesh.width ≠ J.devices.length)
    (hfull : ∀ a ∈ args, a.shape.isSome ∧ a.dtype.isSome) :
    role J primary q args =
      .ok (if ∃ k, k < s.mesh.width ∧ J.owner (s.mesh.dev primary k) = q then .reads else .zeros) := by
  obtain ⟨rs, hr⟩ := singleRows_ok J q (s :: ss) hnamed
  have hf : (args.all fun a => a.shape.isSome && a.dtype.isSome) = true := by
    rw [List.all_eq_true]; intro a ha; simp [hfull a ha]
  simp only [role, checkArgs_ok args (s :: ss) hs hsingle, hr, validate_ok (hnamed s (by simp)).1 hw hp hd, hf,
    if_true, mem_pids]
  split <;> rfl

/-- C121: with a dispatcher arrays keep their values and types, and random keys are keys again if array metadata is
kept. -/
theorem C121_dispatcher {M : Type} (x : Mesh × DType × Stored M) :
    (dispatchOne true x).shard = x.2.2.shard ∧ (dispatchOne true x).dtype = x.2.1 ∧
      (dispatchOne true x).key = x.2.2.impl := ⟨rfl, rfl, rfl⟩

/-! ### Findings -/

/-- C121 (finding): the check that is to reject processes with devices inside and outside of the primary replica
never rejects anything: whatever the owners of the devices, a named sharding whose primary replica is not
everything is accepted. -/
theorem C121_mixed_accepted_fails (J : Job) (primary : Nat) (s : Sharding) (hn : s.named = true)
    (hw : WellFormed J s.mesh) (hp : primary < s.mesh.replicas)
    (hd : s.mesh.width ≠ J.devices.length) :
    ∀ owner : Nat → Nat, ∃ pids, validate { J with owner := owner } primary s = .ok pids := by
  intro owner
  exact ⟨_, validate_ok hn (J := { J with owner := owner }) ⟨hw.inj, hw.known⟩ hp hd⟩

/-- Two replicas of two devices, `2 * r + k`. -/
def square : Mesh where
  replicas := 2
  width := 2
  dev := fun r k => 2 * r + k
  axes := 2

/-- Process 0 has the device in row 0, column 0 and that in row 1, column 1. -/
def crossed : Job where
  devices := [0, 1, 2, 3]
  owner := fun d => if d = 0 then 0 else if d = 3 then 0 else d

/-- C121 (finding): such a sharding is accepted and can give wrong arrays, with no error
raised by this code: with the second replica
as the primary one, one shard is added to itself and the other is lost. -/
theorem C121_mixed_corrupts_fails {M : Type} (add : M → M → M) (zero : M) (hl : ∀ x, add zero x = x)
    (shard : Nat → M) :
    (∃ pids, validate crossed 1 ⟨true, square⟩ = .ok pids) ∧
    restoredAt add zero crossed 1 square square shard 0 = add (shard 0) (shard 0) ∧
    restoredAt add zero crossed 1 square square shard 1 = zero := by
  refine ⟨⟨_, rfl⟩, ?_, ?_⟩
  · have h : restoredAt add zero crossed 1 square square shard 0 = add (add zero (shard 0)) (shard 0) := by rfl
    rw [h, hl]
  · have h : restoredAt add zero crossed 1 square square shard 1 = add (add zero zero) zero := by rfl
    rw [h, hl, hl]

/-- Two replicas of two devices with the columns exchanged. -/
def swapped : Mesh where
  replicas := 2
  width := 2
  dev := fun r k => 2 * r + (1 - k)
  axes := 2

/-- C121 (finding): all arrays are put together on the mesh of the first one; an array whose own mesh has the same
devices in another order gets its shards in the wrong places, with no error raised by this code. -/
theorem C121_other_mesh_fails {M : Type} (add : M → M → M) (zero : M) (hl : ∀ x, add zero x = x)
    (hr : ∀ x, add x zero = x) (a b : DType × Stored M) (size) (limit : Int) :
    let J : Job := ⟨[0, 1, 2, 3], fun d => d / 2⟩
    WellFormed J square ∧ WellFormed J swapped ∧ WholeHosts J square 0 ∧ WholeHosts J swapped 0 ∧
    ∃ x y, broadcastAll add zero J 0 square size limit [(square, a), (swapped, b)] = [x, y] ∧
      (x.shard 0 = a.2.shard 0 ∧ x.shard 1 = a.2.shard 1) ∧
      (y.shard 0 = b.2.shard 1 ∧ y.shard 1 = b.2.shard 0) := by
  have hsq : ∀ x, x < 4 → x ∈ [0, 1, 2, 3] := by
    intro x hx
    match x, hx with
    | 0, _ => decide
    | 1, _ => decide
    | 2, _ => decide
    | 3, _ => decide
  refine ⟨⟨?_, ?_⟩, ⟨?_, ?_⟩, ?_, ?_,
    broadcastOne add zero ⟨[0, 1, 2, 3], fun d => d / 2⟩ 0 square (square, a),
    broadcastOne add zero ⟨[0, 1, 2, 3], fun d => d / 2⟩ 0 square (swapped, b), ?_, ⟨?_, ?_⟩, ?_, ?_⟩
  · intro r k r' k' h1 h2 h3 h4 e
    simp only [square] at h1 h2 h3 h4 e
    omega
  · intro r k h1 h2
    simp only [square] at h1 h2 ⊢
    exact hsq _ (by omega)
  · intro r k r' k' h1 h2 h3 h4 e
    simp only [swapped] at h1 h2 h3 h4 e
    omega
  · intro r k h1 h2
    simp only [swapped] at h1 h2 ⊢
    exact hsq _ (by omega)
  · intro r k k' h1 h2 h3 h4
    simp only [square] at h1 h2 h3 ⊢
    omega
  · intro r k k' h1 h2 h3 h4
    simp only [swapped] at h1 h2 h3 ⊢
    omega
  · rw [broadcastAll, flatMap_map_flatten, (C75_batches_partition size limit _).1]
    rfl
  · have h : restoredAt add zero ⟨[0, 1, 2, 3], fun d => d / 2⟩ 0 square square a.2.shard 0 =
        add (add zero (a.2.shard 0)) zero := by with_unfolding_all rfl
    show restoredAt add zero ⟨[0, 1, 2, 3], fun d => d / 2⟩ 0 square square a.2.shard 0 = _
    rw [h, hl, hr]
  · have h : restoredAt add zero ⟨[0, 1, 2, 3], fun d => d / 2⟩ 0 square square a.2.shard 1 =
        add (add zero (a.2.shard 1)) zero := by with_unfolding_all rfl
    show restoredAt add zero ⟨[0, 1, 2, 3], fun d => d / 2⟩ 0 square square a.2.shard 1 = _
    rw [h, hl, hr]
  · have h : restoredAt add zero ⟨[0, 1, 2, 3], fun d => d / 2⟩ 0 square swapped b.2.shard 0 =
        add (add zero (b.2.shard 1)) zero := by with_unfolding_all rfl
    show restoredAt add zero ⟨[0, 1, 2, 3], fun d => d / 2⟩ 0 square swapped b.2.shard 0 = _
    rw [h, hl, hr]
  · have h : restoredAt add zero ⟨[0, 1, 2, 3], fun d => d / 2⟩ 0 square swapped b.2.shard 1 =
        add (add zero (b.2.shard 0)) zero := by with_unfolding_all rfl
    show restoredAt add zero ⟨[0, 1, 2, 3], fun d => d / 2⟩ 0 square swapped b.2.shard 1 = _
    rw [h, hl, hr]

/-- C121 (finding): without a shape or a type in one of the arguments, the processes of the primary replica go on to
the broadcast while all others raise, so that the restore does not end. -/
theorem C121_diverge_fails (J : Job) (primary q : Nat) (args : List Arg) (s : Sharding) (ss : List Sharding)
    (hs : args.map Arg.sharding = (s :: ss).map some) (hsingle : ∀ a ∈ args, a.isSingle = true)
    (hnamed : ∀ t ∈ s :: ss, t.named = true ∧ t.mesh.axes ≠ 1 ∧ InMesh J t.mesh q)
    (hw : WellFormed J s.mesh) (hp : primary < s.mesh.replicas)
    (hd : s.mesh.width ≠ J.devices.length)
    (a : Arg) (ha : a ∈ args) (hmiss : a.shape = none ∨ a.dtype = none) :
    role J primary q args =
      if ∃ k, k < s.mesh.width ∧ J.owner (s.mesh.dev primary k) = q then .ok .reads
      else .error .noShapeOrDtype := by
  obtain ⟨rs, hr⟩ := singleRows_ok J q (s :: ss) hnamed
  have hf : (args.all fun a => a.shape.isSome && a.dtype.isSome) = false := by
    rw [List.all_eq_false]
    refine ⟨a, ha, ?_⟩
    rcases hmiss with h | h <;> simp [h]
  simp only [role, checkArgs_ok args (s :: ss) hs hsingle, hr, validate_ok (hnamed s (by simp)).1 hw hp hd, hf,
    Bool.false_eq_true, if_false, mem_pids]

/-- C121 (finding): without a dispatcher a random key is restored as its data, not as a key, with or without array
metadata. -/
theorem C121_key_not_wrapped_fails {M : Type} (add : M → M → M) (zero : M) (J : Job) (primary : Nat) (g : Mesh)
    (x : Mesh × DType × Stored M) : (broadcastOne add zero J primary g x).key = none := rfl

/-- C121 (finding): without a dispatcher arrays of booleans and small integers come back with another type (C75),
with a dispatcher they do not. -/
theorem C121_dtype_fails {M : Type} (add : M → M → M) (zero : M) (J : Job) (primary : Nat) (g : Mesh)
    (x : Mesh × DType × Stored M) : (broadcastOne add zero J primary g x).dtype = x.2.1 ↔
      x.2.1 ∉ [DType.bool, .int8, .int16, .uint8, .uint16] := by
  have := C75_dtype_fails x.2.1
  have e : (broadcastOne add zero J primary g x).dtype = sumDType x.2.1 := rfl
  rw [e]
  constructor
  · intro h h'; exact this.mpr h' h
  · intro h
    by_cases h' : sumDType x.2.1 = x.2.1
    · exact h'
    · exact absurd (this.mp h') h

/-- C121 (finding): a mesh with only the replica axis counts as one replica, so every process without a device in
the first replica is refused as not being in the mesh. -/
theorem C121_one_axis_fails (J : Job) (primary q : Nat) (args : List Arg) (s : Sharding) (ss : List Sharding)
    (hs : args.map Arg.sharding = (s :: ss).map some) (hsingle : ∀ a ∈ args, a.isSingle = true)
    (hnamed : s.named = true) (hax : s.mesh.axes = 1)
    (hq : ∀ k, k < s.mesh.width → J.owner (s.mesh.dev 0 k) ≠ q) :
    role J primary q args = .error .notInMesh := by
  have hl : localRow J s.mesh q = none := by
    rw [localRow, List.find?_eq_none]
    intro r hr h
    have : r = 0 := by
      have := List.mem_range.mp hr
      simp only [replicaCount, hax, if_true] at this
      omega
    subst this
    obtain ⟨k, hk, e⟩ := inReplica_iff.mp h
    exact hq k hk e
  simp only [role, checkArgs_ok args (s :: ss) hs hsingle, singleRows, hnamed, Bool.true_eq_false, if_false, hl]

/-! ### Non-vacuity -/

/-- C121: the hypotheses are met by two replicas of two devices on two processes, with either replica as the
primary one; the first process reads and the other does not. -/
theorem C121_nonvacuous (primary : Nat) (hp : primary < 2) :
    let J : Job := ⟨[0, 1, 2, 3], fun d => d / 2⟩
    let a : Arg := ⟨true, some ⟨true, square⟩, some [2], some .float32⟩
    WellFormed J square ∧ WholeHosts J square primary ∧ square.axes ≠ 1 ∧ primary < square.replicas ∧
    (∀ q, q < 2 → InMesh J square q) ∧
    square.width ≠ J.devices.length ∧
    role J primary primary [a] = .ok .reads ∧ role J primary (1 - primary) [a] = .ok .zeros := by
  have h01 : primary = 0 ∨ primary = 1 := by omega
  refine ⟨⟨?_, ?_⟩, ?_, by decide, hp, ?_, by decide, ?_, ?_⟩
  · intro r k r' k' h1 h2 h3 h4 e
    simp only [square] at h1 h2 h3 h4 e
    omega
  · intro r k h1 h2
    simp only [square] at h1 h2 ⊢
    have : 2 * r + k < 4 := by omega
    generalize 2 * r + k = x at this
    match x, this with
    | 0, _ => decide
    | 1, _ => decide
    | 2, _ => decide
    | 3, _ => decide
  · intro r k k' h1 h2 h3 h4
    simp only [square] at h1 h2 h3 ⊢
    omega
  · intro q hq
    refine ⟨q, 0, hq, by decide, ?_⟩
    simp only [square]
    omega
  · rcases h01 with rfl | rfl <;> rfl
  · rcases h01 with rfl | rfl <;> rfl

end Verif.Emergency.SingleReplica
