import Verif.Arrays.ZarrReadLemmas

/-!
# An array survives saving and restoring under any shardings (C88)

Specification.  `Placed` (C37) and `Grid` describe the array being saved, as `jax` lays it out on processes;
`Grid`: the parts form a grid.  `Fits sh g ss`: the sharding `sh` splits arrays of shape `g` into parts of
shape `ss`, one for every device.  `resized f zero A g`: the array of shape `g` that has the converted elements
of `A` where `A` has elements and zero elsewhere.  `Loaded T sh addr out`: what a process got is, on each of
its devices and on no other, the part of `T` that the sharding assigns to the device.  `Done ops evs`: the
schedule has written back every operation.
-/

namespace Verif.Arrays.Zarr

open Slices Replicas

/-- The parts lie on the grid of their shape. -/
def Grid {β} (A : Nd β) (ss : List Nat) (procs : List (List (Shard β))) : Prop :=
  ∀ s ∈ procs.flatten, ∀ (k : Nat) (t : Tri) (n : Nat), (box A.shape s.index)[k]? = some t → ss[k]? = some n → (n : Int) ∣ t.start

/-- The sharding splits arrays of shape `g` into parts of shape `ss`, one for every device. -/
structure Fits (sh : Sharding) (g ss : List Nat) : Prop where
  shard : sh.shardShape g = some ss
  nodup : ((sh.devices g).map (·.1)).Nodup
  rank : ∀ p ∈ sh.devices g, p.2.length = g.length
  step : ∀ p ∈ sh.devices g, ∀ x ∈ p.2, x.step = none
  within : ∀ p ∈ sh.devices g, Within (box g p.2) g
  lens : ∀ p ∈ sh.devices g, lens (box g p.2) = ss

open Classical in
/-- The array of shape `g` with the elements of `A`, converted, where `A` has some, and zero elsewhere. -/
noncomputable def resized {β γ} (f : β → γ) (zero : γ) (A : Nd β) (g : List Nat) : Nd γ :=
  ⟨g, fun i => if InShape i A.shape then f (A.at_ i) else zero⟩

/-- Each addressable device, and no other, has its part of `T`. -/
structure Loaded {γ} (T : Nd γ) (sh : Sharding) (addr : Nat → Bool) (out : Restored γ) : Prop where
  shape : out.shape = T.shape
  devices : (out.shards.map (·.1)).Perm (((sh.devices T.shape).map (·.1)).filter addr)
  parts : ∀ d v, (d, v) ∈ out.shards → ∃ idx, (d, idx) ∈ sh.devices T.shape ∧ Piece T ⟨box T.shape idx, some v⟩

/-- Every operation has been written back. -/
def Done {β} (ops : List (Op β)) (evs : List Ev) : Prop := ∀ j < ops.length, Ev.store j ∈ evs

/-! ### What is saved -/

/-- The shape of what a process writes at a time. -/
def localOf (c : Cfg) (shape ss : List Nat) (R : Nat) : List Nat :=
  match mode c shape ss R with
  | none => ss
  | some pl => pl.localShape

section save
variable {β : Type} {A : Nd β} {R : Nat} {ss : List Nat} {procs : List (List (Shard β))} {devs : List (List Slice)}

theorem box_unit {shape : List Nat} {idx : List Slice} {k : Nat} {t : Tri} (h : (box shape idx)[k]? = some t) : t.step = 1 :=
  box_step shape idx t (List.mem_of_getElem? h)

theorem frag_aligned (h : Placed A R ss procs devs) (hg : Grid A ss procs) (c : Cfg) (r : Nat)
    {f : Frag β} (hf : f ∈ fragsOf c A.shape ss R r procs.flatten) :
    f.index.length = (localOf c A.shape ss R).length ∧
    ∀ (k : Nat) (t : Tri) (n : Nat), f.index[k]? = some t → (localOf c A.shape ss R)[k]? = some n →
      t.step = 1 ∧ (n : Int) ∣ t.start ∧ t.stop = t.start + n := by
  unfold fragsOf at hf
  unfold localOf
  cases hm : mode c A.shape ss R with
  | none =>
    rw [hm] at hf
    simp only [List.mem_map, List.mem_filter] at hf
    obtain ⟨s, ⟨hs, -⟩, rfl⟩ := hf
    have ho := h.ok hs
    have hl := ho.lens
    refine ⟨by rw [← hl]; simp [fragS, Verif.Arrays.lens], ?_⟩
    intro k t n ht hn
    simp only [fragS] at ht
    have h1 := box_unit ht
    refine ⟨h1, hg s hs k t n ht hn, ?_⟩
    have h2 := lens_get ht
    rw [hl] at h2
    simp only at hn
    rw [hn] at h2
    cases h2
    have hlt : k < A.shape.length := by
      have := (List.getElem?_eq_some_iff.mp ht).1
      rw [box_length ho.rank] at this; exact this
    obtain ⟨w1, w2, w3, -⟩ := ((within_iff _ _).mp ho.data.1).2 k t _ ht (List.getElem?_eq_getElem hlt)
    rw [h1]
    unfold rangeLen
    simp only [show ((1 : Int) > 0) from by omega, if_true]
    split <;> simp <;> omega
  | some pl =>
    obtain ⟨hpl, -⟩ := mode_ok hm
    rw [hm] at hf
    simp only at hf ⊢
    generalize (pl.localShape[pl.axis]?).getD 0 = size at hpl hf
    simp only [List.mem_map, List.mem_filter, decide_eq_true_eq] at hf
    obtain ⟨s, ⟨hs, hr⟩, rfl⟩ := hf
    have ho := h.ok hs
    have hl := fragP_lens ho hpl
    obtain ⟨t0, e1, e2, e3, e4⟩ := fragP_index ho hpl
    refine ⟨by rw [← hl]; simp [Verif.Arrays.lens], ?_⟩
    intro k t n ht hn
    have hk := (List.getElem?_eq_some_iff.mp e1).1
    rw [e4, List.getElem?_set] at ht
    rw [hpl.localSize, List.getElem?_set] at hn
    split at ht
    · next ek =>
      subst ek
      cases ht
      have hk' := (List.getElem?_eq_some_iff.mp hpl.axis).1
      rw [if_pos rfl, if_pos hk'] at hn
      cases hn
      refine ⟨rfl, ?_, by push_cast; omega⟩
      have hd := hg s hs _ _ _ e1 hpl.axis
      refine Int.dvd_add ?_ ?_
      · exact (Dvd.intro _ (by push_cast; rfl)).trans hd
      · push_cast; exact Dvd.intro_left _ rfl
    · next ek =>
      rw [if_neg ek] at hn
      have h1 := box_unit ht
      refine ⟨h1, hg s hs k t n ht hn, ?_⟩
      have h2 := lens_get ht
      rw [ho.lens, hn] at h2
      cases h2
      have hlt : k < A.shape.length := by
        have := (List.getElem?_eq_some_iff.mp ht).1
        rw [box_length ho.rank] at this; exact this
      obtain ⟨w1, w2, w3, -⟩ := ((within_iff _ _).mp ho.data.1).2 k t _ ht (List.getElem?_eq_getElem hlt)
      rw [h1]
      unfold rangeLen
      simp only [show ((1 : Int) > 0) from by omega, if_true]
      split <;> simp <;> omega

theorem frag_chunks (h : Placed A R ss procs devs) (hg : Grid A ss procs) (c : SCfg) (hit : 0 < c.stored) (r : Nat) (fuel : Nat)
    {ch : List Nat} {t : Option Nat} (hc : ChunkShape.choose fuel A.shape (localOf c.rep A.shape ss R) c.stored t c.shardAxes = .ok ch)
    {f : Frag β} (hf : f ∈ fragsOf c.rep A.shape ss R r procs.flatten) : Aligned f.index ch := by
  obtain ⟨h1, h2⟩ := frag_aligned h hg c.rep r hf
  obtain ⟨h3, h4⟩ := ChunkShape.C33_divides fuel _ _ _ hit _ _ ch hc
  rw [aligned_iff]
  refine ⟨by omega, ?_⟩
  intro k u d hu hd
  have hlt : k < (localOf c.rep A.shape ss R).length := by
    have := (List.getElem?_eq_some_iff.mp hu).1
    omega
  have hn := List.getElem?_eq_getElem hlt
  obtain ⟨g1, g2, g3⟩ := h2 k u _ hu hn
  obtain ⟨d1, d2⟩ := h4 k d _ hd hn
  generalize (localOf c.rep A.shape ss R)[k] = n at g2 g3 d2
  refine ⟨d1, g1, ?_⟩
  rcases Nat.eq_zero_or_pos n with rfl | hpos
  · have : d = 1 := by simpa using d2
    subst this
    simp
  · have e : max 1 n = n := by omega
    rw [e] at d2
    have hd' : (d : Int) ∣ n := Int.natCast_dvd_natCast.mpr d2
    refine ⟨hd'.trans g2, ?_⟩
    rw [g3]
    exact Int.dvd_add (hd'.trans g2) hd'

theorem job_spec (h : Placed A R ss procs devs) {c : SCfg} {r : Nat} (hr : c.rep.replicaId = some r) {fuel : Nat}
    {p : List (Shard β)} (hp : p ∈ procs) :
    job c fuel A.shape devs p =
      match ChunkShape.choose fuel A.shape (localOf c.rep A.shape ss R) c.stored (chunkBytesFor c (localOf c.rep A.shape ss R)) c.shardAxes with
      | .ok ch => some ⟨ch, opsOf ch (fragsOf c.rep A.shape ss R r p)⟩
      | _ => none := by
  have hw := written_eq h hr hp
  unfold written at hw
  rw [Option.bind_eq_some_iff] at hw
  obtain ⟨sl, hsl, hfr⟩ := hw
  have hloc : sl.localShape = localOf c.rep A.shape ss R := by
    have hR := numReplicas_eq h (by rintro rfl; simp at hp)
    obtain ⟨s0, rest, hpe⟩ := List.exists_cons_of_ne_nil (h.addressable p hp)
    have h0 := h.ok (List.mem_flatten.mpr ⟨p, hp, by rw [hpe]; simp⟩ : s0 ∈ procs.flatten)
    rw [getReplicaSlices_eq hR hr hpe h0.shape] at hsl
    unfold localOf
    cases hm : mode c.rep A.shape ss R with
    | none => rw [hm] at hsl; cases hsl; rfl
    | some pl =>
      rw [hm] at hsl
      rw [Option.map_eq_some_iff] at hsl
      obtain ⟨l, -, rfl⟩ := hsl
      rfl
  simp only [job, hsl, Option.bind_some, hloc, hfr, Option.map_some]
  all_goals (cases ChunkShape.choose fuel A.shape (localOf c.rep A.shape ss R) c.stored (chunkBytesFor c (localOf c.rep A.shape ss R)) c.shardAxes <;> rfl)

/-- All processes use the same grid. -/
theorem jobs_spec (h : Placed A R ss procs devs) (c : SCfg) (r : Nat) (hr : c.rep.replicaId = some r) (fuel : Nat)
    {jobs : List (Job β)} (hj : procs.mapM (job c fuel A.shape devs) = some jobs) (hne : procs ≠ []) :
    ∃ ch, ChunkShape.choose fuel A.shape (localOf c.rep A.shape ss R) c.stored (chunkBytesFor c (localOf c.rep A.shape ss R)) c.shardAxes = .ok ch ∧
      jobs = procs.map fun p => ⟨ch, opsOf ch (fragsOf c.rep A.shape ss R r p)⟩ := by
  cases hch : ChunkShape.choose fuel A.shape (localOf c.rep A.shape ss R) c.stored (chunkBytesFor c (localOf c.rep A.shape ss R)) c.shardAxes with
  | ok ch =>
    refine ⟨ch, rfl, ?_⟩
    rw [mapM_some procs (h := fun p => ⟨ch, opsOf ch (fragsOf c.rep A.shape ss R r p)⟩) (by
      intro p hp
      rw [job_spec h hr hp, hch])] at hj
    cases hj; rfl
  | error =>
    cases procs with
    | nil => exact absurd rfl hne
    | cons p ps =>
      rw [List.mapM_cons, job_spec h hr (by simp), hch] at hj
      cases hj
  | diverges =>
    cases procs with
    | nil => exact absurd rfl hne
    | cons p ps =>
      rw [List.mapM_cons, job_spec h hr (by simp), hch] at hj
      cases hj

theorem fragsOf_sub {c : Cfg} {shape : List Nat} {r : Nat} {p : List (Shard β)} (hp : p ∈ procs) {f : Frag β}
    (hf : f ∈ fragsOf c shape ss R r p) : f ∈ fragsOf c shape ss R r procs.flatten := by
  rw [← all_frags]
  exact List.mem_flatten.mpr ⟨_, List.mem_map.mpr ⟨p, hp, rfl⟩, hf⟩

theorem ops_good (h : Placed A R ss procs devs) (hg : Grid A ss procs) (c : SCfg) (hit : 0 < c.stored) (r : Nat)
    (hr : c.rep.replicaId = some r) (hrR : r < R) (fuel : Nat) {ch : List Nat} {t : Option Nat}
    (hc : ChunkShape.choose fuel A.shape (localOf c.rep A.shape ss R) c.stored t c.shardAxes = .ok ch) :
    ∀ op ∈ opsOf ch (fragsOf c.rep A.shape ss R r procs.flatten), Good A ch op := by
  intro op hop
  simp only [opsOf, List.mem_flatMap, List.mem_map] at hop
  obtain ⟨f, hf, k, hk, rfl⟩ := hop
  obtain ⟨ws, e, h1, -, -⟩ := C37_every_element_written_once A R ss procs devs h c.rep r hr hrR
  have e' : ws = procs.map fun p => ⟨A.shape, fragsOf c.rep A.shape ss R r p⟩ := by
    rw [mapM_some procs (fun p hp => written_eq h hr hp)] at e
    cases e; rfl
  have hall : (ws.map (·.fragments)).flatten = fragsOf c.rep A.shape ss R r procs.flatten := by
    rw [e', List.map_map, ← all_frags]; rfl
  rw [hall] at h1
  exact ⟨h1 f hf, rfl, frag_chunks h hg c hit r fuel hc hf, hk⟩

theorem frags_facts (h : Placed A R ss procs devs) (c : Cfg) (r : Nat) (hr : c.replicaId = some r) (hrR : r < R) :
    Covered A.shape (fragsOf c A.shape ss R r procs.flatten) ∧
    (fragsOf c A.shape ss R r procs.flatten).Pairwise (fun f g => Replicas.Disjoint f.index g.index) := by
  obtain ⟨ws, e, -, h2, h3⟩ := C37_every_element_written_once A R ss procs devs h c r hr hrR
  have e' : ws = procs.map fun p => ⟨A.shape, fragsOf c A.shape ss R r p⟩ := by
    rw [mapM_some procs (fun p hp => written_eq h hr hp)] at e
    cases e; rfl
  have hall : (ws.map (·.fragments)).flatten = fragsOf c A.shape ss R r procs.flatten := by
    rw [e', List.map_map, ← all_frags]; rfl
  rw [hall] at h2 h3
  exact ⟨h2, h3⟩

theorem opsOf_append (ch : List Nat) (l : List (List (Frag β))) : (l.flatMap fun f => opsOf ch f) = opsOf ch l.flatten := by
  induction l with
  | nil => rfl
  | cons f l ih =>
    rw [List.flatMap_cons, ih, List.flatten_cons]
    simp [opsOf, List.flatMap_append]

theorem all_ops (c : Cfg) (shape : List Nat) (r : Nat) (ch : List Nat) :
    ((procs.map fun p => (⟨ch, opsOf ch (fragsOf c shape ss R r p)⟩ : Job β)).flatMap fun j => j.ops)
      = opsOf ch (fragsOf c shape ss R r procs.flatten) := by
  rw [List.flatMap_map, ← all_frags, ← opsOf_append, List.flatMap_map]

/-- C88: every chunk is written by one process, in one piece: whatever the sharding, the replicas, the
thresholds and the chunk sizes asked for, over all processes no two operations concern the same chunk, and
every operation covers all of its chunk.  All processes use the same grid. -/
theorem C88_one_writer (h : Placed A R ss procs devs) (hg : Grid A ss procs) (c : SCfg) (hit : 0 < c.stored) (r : Nat)
    (hr : c.rep.replicaId = some r) (hrR : r < R) (fuel : Nat) (jobs : List (Job β))
    (hj : procs.mapM (job c fuel A.shape devs) = some jobs) :
    ((jobs.flatMap fun j => j.ops).map (·.key)).Nodup ∧
    (∀ j ∈ jobs, ∀ op ∈ j.ops, op.chunk = j.chunk ∧ ∀ i, InShape i A.shape → chunkKey j.chunk i = op.key → Mem i op.frag.index) ∧
    ∀ j ∈ jobs, ∀ j' ∈ jobs, j.chunk = j'.chunk := by
  by_cases hne : procs = []
  · subst hne
    cases hj
    simp
  obtain ⟨ch, hch, rfl⟩ := jobs_spec h c r hr fuel hj hne
  have hgood := ops_good h hg c hit r hr hrR fuel hch
  refine ⟨?_, ?_, ?_⟩
  · rw [all_ops]
    obtain ⟨-, hdis⟩ := frags_facts h c.rep r hr hrR
    have e : ((opsOf ch (fragsOf c.rep A.shape ss R r procs.flatten)).map (·.key))
        = (fragsOf c.rep A.shape ss R r procs.flatten).flatMap fun f => touched ch f.index := by
      simp [opsOf, List.map_flatMap, List.map_map, Function.comp_def]
    rw [e, List.nodup_flatMap]
    refine ⟨fun f _ => touched_nodup _ _, ?_⟩
    refine List.Pairwise.imp_of_mem ?_ hdis
    intro f g hf hg' hd k hk1 hk2
    exact touched_disjoint (frag_chunks h hg c hit r fuel hch hf) (frag_chunks h hg c hit r fuel hch hg') hd hk1 hk2
  · intro j hj op hop
    obtain ⟨p, hp, rfl⟩ := List.mem_map.mp hj
    have hop' : op ∈ opsOf ch (fragsOf c.rep A.shape ss R r procs.flatten) := by
      simp only [opsOf, List.mem_flatMap] at hop ⊢
      obtain ⟨f, hf, hop⟩ := hop
      exact ⟨f, fragsOf_sub hp hf, hop⟩
    have hgd := hgood op hop'
    refine ⟨hgd.chunk, ?_⟩
    intro i hi hk
    simp only at hk
    have hl : i.length = ch.length := by
      rw [inShape_length hi, ← ((within_iff _ _).mp hgd.piece.1).1, ((aligned_iff _ _).mp hgd.aligned).1]
    have := chunk_in hgd.aligned hgd.key (off_inShape hl (aligned_pos hgd.aligned))
    rw [← hk, pos_key_off hl] at this
    exact this
  · intro j hj j' hj'
    obtain ⟨p, -, rfl⟩ := List.mem_map.mp hj
    obtain ⟨p', -, rfl⟩ := List.mem_map.mp hj'
    rfl

/-- Storage holds elements of the array only, on a legal grid. -/
structure Partly {β σ} (w : β → σ) (A : Nd β) (t : Stored σ) : Prop where
  shape : t.shape = A.shape
  sound : Sound w A t.chunk t.kv
  rank : t.chunk.length = A.shape.length
  pos : ∀ d ∈ t.chunk, 0 < d

/-- All elements are there. -/
def Full {σ} (t : Stored σ) : Prop := ∀ i, InShape i t.shape → (t.kv (chunkKey t.chunk i)).isSome

theorem choose_legal (h : Placed A R ss procs devs) (hne : procs ≠ []) (c : SCfg) (hit : 0 < c.stored) (fuel : Nat) {ch : List Nat} {t : Option Nat}
    (hc : ChunkShape.choose fuel A.shape (localOf c.rep A.shape ss R) c.stored t c.shardAxes = .ok ch) :
    ch.length = A.shape.length ∧ ∀ d ∈ ch, 0 < d := by
  obtain ⟨h3, h4⟩ := ChunkShape.C33_divides fuel _ _ _ hit _ _ ch hc
  have hl : (localOf c.rep A.shape ss R).length = A.shape.length := by
    obtain ⟨p, ps, rfl⟩ := List.exists_cons_of_ne_nil hne
    obtain ⟨s0, rest, hpe⟩ := List.exists_cons_of_ne_nil (h.addressable p (by simp))
    have h0 := h.ok (List.mem_flatten.mpr ⟨p, by simp, by rw [hpe]; simp⟩ : s0 ∈ (p :: ps).flatten)
    have e : ss.length = A.shape.length := by
      rw [← h0.lens]
      simp [Verif.Arrays.lens, box_length h0.rank]
    unfold localOf
    cases hm : mode c.rep A.shape ss R with
    | none => exact e
    | some pl =>
      obtain ⟨hpl, -⟩ := mode_ok hm
      simp only
      rw [hpl.localSize]; simpa using e
  refine ⟨by omega, ?_⟩
  intro d hd
  obtain ⟨k, hlt, rfl⟩ := List.getElem_of_mem hd
  exact (h4 k _ _ (List.getElem?_eq_getElem hlt) (List.getElem?_eq_getElem (by omega))).1

theorem direct_partly {σ} (w : β → σ) (fill : σ) (h : Placed A R ss procs devs) (hg : Grid A ss procs) (c : SCfg) (hit : 0 < c.stored) (r : Nat)
    (hr : c.rep.replicaId = some r) (hrR : r < R) (fuel : Nat) (jobs : List (Job β))
    (hj : procs.mapM (job c fuel A.shape devs) = some jobs) (primary : Nat) (evs : List Ev) (t : Stored σ)
    (ht : saveDirect w fill A.shape jobs primary evs = some t) :
    Partly w A t ∧ (Done (jobs.flatMap fun j => j.ops) evs → Full t) := by
  simp only [saveDirect, Option.map_eq_some_iff] at ht
  obtain ⟨j, hjp, rfl⟩ := ht
  have hne : procs ≠ [] := by
    rintro rfl
    cases hj
    simp at hjp
  obtain ⟨ch, hch, rfl⟩ := jobs_spec h c r hr fuel hj hne
  have hgood := ops_good h hg c hit r hr hrR fuel hch
  obtain ⟨hl, hpos⟩ := choose_legal h hne c hit fuel hch
  have hjc : j.chunk = ch := by
    obtain ⟨p, -, rfl⟩ := List.mem_map.mp (List.mem_of_getElem? hjp)
    rfl
  rw [hjc, all_ops]
  refine ⟨⟨rfl, run_sound hgood evs, hl, hpos⟩, ?_⟩
  intro hd i hi
  obtain ⟨hcov, -⟩ := frags_facts h c.rep r hr hrR
  obtain ⟨f, hf, hm⟩ := hcov i hi
  have hop : (⟨f, ch, chunkKey ch i⟩ : Op β) ∈ opsOf ch (fragsOf c.rep A.shape ss R r procs.flatten) := by
    simp only [opsOf, List.mem_flatMap, List.mem_map]
    exact ⟨f, hf, _, key_touched (frag_chunks h hg c hit r fuel hch hf) hm, rfl⟩
  obtain ⟨n, hlt, e⟩ := List.getElem_of_mem hop
  have := foldl_stores (w := w) (fill := fill) (shape := A.shape) (List.getElem?_eq_some_iff.mpr ⟨hlt, e⟩) evs
    ⟨fun _ => none, fun _ => none⟩ (hd n hlt)
  exact this

theorem ocdbt_partly {σ} (w : β → σ) (fill : σ) (h : Placed A R ss procs devs) (hg : Grid A ss procs) (c : SCfg) (hit : 0 < c.stored) (r : Nat)
    (hr : c.rep.replicaId = some r) (hrR : r < R) (fuel : Nat) (jobs : List (Job β))
    (hj : procs.mapM (job c fuel A.shape devs) = some jobs) (primary : Nat) (dirs : List (Job β × List Ev)) (t : Stored σ)
    (hsub : ∀ d ∈ dirs, d.1 ∈ jobs)
    (ht : saveOcdbt w fill A.shape jobs primary dirs = some t) :
    Partly w A t ∧ ((∀ j ∈ jobs, ∃ d ∈ dirs, d.1 = j ∧ Done j.ops d.2) → Full t) := by
  simp only [saveOcdbt, Option.map_eq_some_iff] at ht
  obtain ⟨j, hjp, rfl⟩ := ht
  have hne : procs ≠ [] := by
    rintro rfl
    cases hj
    simp at hjp
  obtain ⟨ch, hch, rfl⟩ := jobs_spec h c r hr fuel hj hne
  have hgood := ops_good h hg c hit r hr hrR fuel hch
  obtain ⟨hl, hpos⟩ := choose_legal h hne c hit fuel hch
  have hjc : j.chunk = ch := by
    obtain ⟨p, -, rfl⟩ := List.mem_map.mp (List.mem_of_getElem? hjp)
    rfl
  rw [hjc]
  refine ⟨⟨rfl, ?_, hl, hpos⟩, ?_⟩
  · refine merge_sound _ ?_
    intro kv hkv
    obtain ⟨d, hd, rfl⟩ := List.mem_map.mp hkv
    refine run_sound ?_ d.2
    intro op hop
    obtain ⟨p, hp, e⟩ := List.mem_map.mp (hsub d hd)
    rw [← e] at hop
    refine hgood op ?_
    simp only [opsOf, List.mem_flatMap] at hop ⊢
    obtain ⟨f, hf, hop⟩ := hop
    exact ⟨f, fragsOf_sub hp hf, hop⟩
  · intro hd i hi
    obtain ⟨hcov, -⟩ := frags_facts h c.rep r hr hrR
    obtain ⟨f, hf, hm⟩ := hcov i hi
    have hf' := hf
    rw [← all_frags] at hf'
    obtain ⟨l, hl', hfl⟩ := List.mem_flatten.mp hf'
    obtain ⟨p, hp, rfl⟩ := List.mem_map.mp hl'
    obtain ⟨d, hdd, he, hdone⟩ := hd _ (List.mem_map.mpr ⟨p, hp, rfl⟩)
    refine merge_some _ _ (List.mem_map.mpr ⟨d, hdd, rfl⟩) _ ?_
    rw [he]
    have hop : (⟨f, ch, chunkKey ch i⟩ : Op β) ∈ opsOf ch (fragsOf c.rep A.shape ss R r p) := by
      simp only [opsOf, List.mem_flatMap, List.mem_map]
      exact ⟨f, hfl, _, key_touched (frag_chunks h hg c hit r fuel hch hf) hm, rfl⟩
    obtain ⟨n, hlt, e⟩ := List.getElem_of_mem hop
    exact foldl_stores (w := w) (fill := fill) (shape := A.shape) (List.getElem?_eq_some_iff.mpr ⟨hlt, e⟩) d.2
      ⟨fun _ => none, fun _ => none⟩ (hdone n hlt)

end save

/-! ### What is restored -/

section restore
variable {β σ γ : Type} {A : Nd β} {w : β → σ}

theorem elem_eq {t : Stored σ} (h : Partly w A t) (fill : σ) {i : List Int} (hi : InShape i A.shape)
    (hp : (t.kv (chunkKey t.chunk i)).isSome) : elem t fill i = w (A.at_ i) := by
  obtain ⟨ch, hch⟩ := Option.isSome_iff_exists.mp hp
  have hl : i.length = t.chunk.length := by rw [inShape_length hi, h.rank]
  simp only [elem, hch, Option.map_some, Option.getD_some]
  rw [h.sound _ _ hch _ (off_inShape hl h.pos), pos_key_off hl]

/-- The part read is the right part. -/
theorem part_ok {t : Stored σ} (h : Partly w A t) (c : RCfg σ γ) {g : List Nat} {idx : List Tri} {strict : Bool} {v : Nd γ}
    (hw : Within idx g) (hs : ∀ u ∈ idx, u.step = 1) (hpr : c.raiseMissing = true ∨ Full t)
    (hv : readIndex c t g (lens idx) strict (idx.map fun u => mk u.start u.stop u.step) = some v) :
    Piece (resized (fun x => c.r (w x)) c.zero A g) ⟨idx, some v⟩ := by
  obtain ⟨-, -, h3, h4, h5, h6⟩ := readIndex_some hw hs hv
  refine piece_iff.mpr ⟨hw, v, rfl, h3, ?_⟩
  intro o ho
  have hm := fromSlice_mem hw ho
  simp only [resized]
  split
  · next hin =>
    rw [h5 o (by rw [h.shape]; exact hin) hm]
    congr 1
    refine elem_eq h _ hin ?_
    rcases hpr with hpr | hpr
    · exact h4 hpr _ hm (by rw [h.shape]; exact hin)
    · exact hpr _ (by rw [h.shape]; exact hin)
  · next hin => exact h6 o (by rw [h.shape]; exact hin)

theorem group_parts {c : RCfg σ γ} {t : Stored σ} {g ss : List Nat} {strict : Bool} :
    ∀ (gr : Groups) (ls : List (List (Nat × Nd γ))), gr.mapM (readGroup c t g ss strict) = some ls →
      ls.flatten.map (·.1) = gr.flatMap (·.2) ∧
      ∀ d v, (d, v) ∈ ls.flatten → ∃ k ds, (k, ds) ∈ gr ∧ d ∈ ds ∧ readIndex c t g ss strict (fromHashable k) = some v
  | [], ls, h => by cases h; simp
  | (k, ds) :: gr, ls, h => by
    rw [List.mapM_cons] at h
    simp only [Option.bind_eq_bind, Option.bind_eq_some_iff, Option.pure_def, Option.some.injEq] at h
    obtain ⟨l0, h0, ls', hls, rfl⟩ := h
    simp only [readGroup, Option.map_eq_some_iff] at h0
    obtain ⟨v0, hv0, rfl⟩ := h0
    obtain ⟨h1, h2⟩ := group_parts gr ls' hls
    constructor
    · simp only [List.flatten_cons, List.map_append, List.flatMap_cons, h1, List.map_map]
      congr 1
      simp [Function.comp_def]
    · intro d v hdv
      simp only [List.flatten_cons, List.mem_append, List.mem_map, Prod.mk.injEq] at hdv
      rcases hdv with ⟨d', hd', rfl, rfl⟩ | hdv
      · exact ⟨k, ds, by simp, hd', hv0⟩
      · obtain ⟨k', ds', a, b, e⟩ := h2 d v hdv
        exact ⟨k', ds', by simp [a], b, e⟩

theorem Fits.key {sh : Sharding} {g ss : List Nat} (hf : Fits sh g ss) :
    ∀ p ∈ sh.devices g, toHashable (p.2.map .slice) g = some ((box g p.2).map fun t => (t.start, t.stop, t.step)) :=
  fun p hp => toHashable_box (hf.rank p hp) (hf.step p hp) (hf.within p hp)

theorem filter_map_fst {α : Type} (addr : Nat → Bool) (l : List (Nat × α)) :
    (l.filter fun p => addr p.1).map (·.1) = (l.map (·.1)).filter addr := by
  rw [List.filter_map]; rfl

/-- A successful restore gives every device its part. -/
theorem restore_sound {t : Stored σ} (h : Partly w A t) (c : RCfg σ γ) (sh : Sharding) (gs : Option (List Nat)) (strict : Bool) (addr : Nat → Bool)
    {ss : List Nat} (hf : Fits sh (gs.getD A.shape) ss) (hpr : c.raiseMissing = true ∨ Full t) (out : Restored γ)
    (ho : deserialize c t sh gs strict addr = some out) :
    Loaded (resized (fun x => c.r (w x)) c.zero A (gs.getD A.shape)) sh addr out := by
  simp only [deserialize, h.shape] at ho
  generalize gs.getD A.shape = g at hf ho ⊢
  simp only [hf.shard, Option.bind_some, Option.map_eq_some_iff, readArray, Option.bind_eq_some_iff] at ho
  obtain ⟨l, ⟨gr, hgr, ls, hls, rfl⟩, rfl⟩ := ho
  obtain ⟨gr', e, hperm, hmem⟩ := group_spec (addr := addr) (key := fun idx => (box g idx).map fun t => (t.start, t.stop, t.step))
    (sh.devices g) [] hf.key
  rw [e] at hgr
  cases hgr
  obtain ⟨h1, h2⟩ := group_parts gr ls hls
  refine ⟨rfl, ?_, ?_⟩
  · simp only [resized]
    rw [h1, ← filter_map_fst]
    simpa using hperm
  · intro d v hdv
    obtain ⟨k, ds, hk, hd, hv⟩ := h2 d v hdv
    rcases hmem k ds d hk hd with ⟨ds', hds, -⟩ | ⟨idx, hi, -, rfl⟩
    · cases hds
    · refine ⟨idx, hi, ?_⟩
      simp only [from_triples] at hv
      rw [← hf.lens _ hi] at hv
      exact part_ok h c (hf.within _ hi) (box_step _ _) hpr hv

/-- A restore succeeds when everything is there and the shapes agree as they must. -/
theorem restore_succeeds {t : Stored σ} (h : Partly w A t) (hfull : Full t) (c : RCfg σ γ) (sh : Sharding) (gs : Option (List Nat)) (strict : Bool)
    (addr : Nat → Bool) {ss : List Nat} (hf : Fits sh (gs.getD A.shape) ss) (hrank : (gs.getD A.shape).length = A.shape.length)
    (hst : strict = true → gs.getD A.shape = A.shape) : ∃ out, deserialize c t sh gs strict addr = some out := by
  simp only [deserialize, h.shape]
  generalize gs.getD A.shape = g at hf hrank hst ⊢
  simp only [hf.shard, Option.bind_some]
  obtain ⟨gr, e, hperm, hmem⟩ := group_spec (addr := addr) (key := fun idx => (box g idx).map fun t => (t.start, t.stop, t.step))
    (sh.devices g) [] hf.key
  simp only [readArray, e, Option.bind_some]
  have hne := group_ne (sh.devices g) [] gr (by simp) e
  obtain ⟨ls, hls, -⟩ := mapM_some' (g := readGroup c t g ss strict) gr (by
    rintro ⟨k, ds⟩ hk
    obtain ⟨x, xs, hx⟩ := List.exists_cons_of_ne_nil (hne _ hk)
    rcases hmem k ds x hk (by simp only at hx; rw [hx]; simp) with ⟨ds', hds, -⟩ | ⟨idx, hi, -, rfl⟩
    · cases hds
    · obtain ⟨v, hv⟩ := readIndex_succeeds (c := c) (t := t) (strict := strict) (hf.within _ hi) (box_step _ _)
        (fun hs => by rw [h.shape, hst hs]) (by rw [h.shape, hrank]) (fun _ i _ hin => hfull i hin)
      refine ⟨ds.map fun d => (d, v), ?_⟩
      simp only [readGroup, from_triples]
      rw [← hf.lens _ hi, hv]
      rfl)
  exact ⟨_, by rw [hls]; rfl⟩

end restore

/-! ### The round trip -/

/-- C88: an array saved from any sharding on any number of processes, with any replica and chunk settings, and
whatever the order in which the processes' chunk reads and writes come, is restored under any sharding on any
number of processes: every device gets its part of the saved array, converted to the stored type and then to
the requested one.  Without padding and truncation the shape must be that of the array; with them the array
is cut off or filled up with zeros at the end of each axis. -/
theorem C88_direct {β σ γ : Type} {A : Nd β} {R : Nat} {ss : List Nat} {procs : List (List (Shard β))} {devs : List (List Slice)}
    (h : Placed A R ss procs devs) (hg : Grid A ss procs) (w : β → σ) (fill : σ) (c : SCfg) (hit : 0 < c.stored) (r : Nat)
    (hr : c.rep.replicaId = some r) (hrR : r < R) (fuel : Nat) (jobs : List (Job β))
    (hj : procs.mapM (job c fuel A.shape devs) = some jobs) (primary : Nat) (hp : primary < jobs.length) (evs : List Ev)
    (hd : Done (jobs.flatMap fun j => j.ops) evs)
    (rc : RCfg σ γ) (sh : Sharding) (gs : Option (List Nat)) (strict : Bool) (addr : Nat → Bool) (ss' : List Nat)
    (hf : Fits sh (gs.getD A.shape) ss') (hrank : (gs.getD A.shape).length = A.shape.length)
    (hst : strict = true → gs.getD A.shape = A.shape) :
    ∃ t out, saveDirect w fill A.shape jobs primary evs = some t ∧ deserialize rc t sh gs strict addr = some out ∧
      Loaded (resized (fun x => rc.r (w x)) rc.zero A (gs.getD A.shape)) sh addr out := by
  obtain ⟨t, ht⟩ : ∃ t, saveDirect w fill A.shape jobs primary evs = some t := by
    refine ⟨⟨A.shape, jobs[primary].chunk, run w fill A.shape (jobs.flatMap fun j => j.ops) evs⟩, ?_⟩
    simp [saveDirect, hp]
  obtain ⟨h1, h2⟩ := direct_partly w fill h hg c hit r hr hrR fuel jobs hj primary evs t ht
  obtain ⟨out, ho⟩ := restore_succeeds h1 (h2 hd) rc sh gs strict addr hf hrank hst
  exact ⟨t, out, ht, ho, restore_sound h1 rc sh gs strict addr hf (.inr (h2 hd)) out ho⟩

/-- C88: the same with OCDBT, where each process has its own database: whatever the schedule of each process
and the order in which the databases are copied together. -/
theorem C88_ocdbt {β σ γ : Type} {A : Nd β} {R : Nat} {ss : List Nat} {procs : List (List (Shard β))} {devs : List (List Slice)}
    (h : Placed A R ss procs devs) (hg : Grid A ss procs) (w : β → σ) (fill : σ) (c : SCfg) (hit : 0 < c.stored) (r : Nat)
    (hr : c.rep.replicaId = some r) (hrR : r < R) (fuel : Nat) (jobs : List (Job β))
    (hj : procs.mapM (job c fuel A.shape devs) = some jobs) (primary : Nat) (hp : primary < jobs.length)
    (dirs : List (Job β × List Ev)) (hperm : (dirs.map (·.1)).Perm jobs) (hd : ∀ d ∈ dirs, Done d.1.ops d.2)
    (rc : RCfg σ γ) (sh : Sharding) (gs : Option (List Nat)) (strict : Bool) (addr : Nat → Bool) (ss' : List Nat)
    (hf : Fits sh (gs.getD A.shape) ss') (hrank : (gs.getD A.shape).length = A.shape.length)
    (hst : strict = true → gs.getD A.shape = A.shape) :
    ∃ t out, saveOcdbt w fill A.shape jobs primary dirs = some t ∧ deserialize rc t sh gs strict addr = some out ∧
      Loaded (resized (fun x => rc.r (w x)) rc.zero A (gs.getD A.shape)) sh addr out := by
  obtain ⟨t, ht⟩ : ∃ t, saveOcdbt w fill A.shape jobs primary dirs = some t := by
    refine ⟨⟨A.shape, jobs[primary].chunk, merge (dirs.map fun d => run w fill A.shape d.1.ops d.2)⟩, ?_⟩
    simp [saveOcdbt, hp]
  obtain ⟨h1, h2⟩ := ocdbt_partly w fill h hg c hit r hr hrR fuel jobs hj primary dirs t
    (fun d hdd => hperm.mem_iff.mp (List.mem_map.mpr ⟨d, hdd, rfl⟩)) ht
  have hfull : Full t := h2 (by
    intro j hjj
    obtain ⟨d, hdd, e⟩ := List.mem_map.mp (hperm.mem_iff.mpr hjj)
    exact ⟨d, hdd, e, by rw [← e]; exact hd d hdd⟩)
  obtain ⟨out, ho⟩ := restore_succeeds h1 hfull rc sh gs strict addr hf hrank hst
  exact ⟨t, out, ht, ho, restore_sound h1 rc sh gs strict addr hf (.inr hfull) out ho⟩

/-- C88: if saving was interrupted anywhere, or databases of some processes are missing, and missing data is
an error (the default), then restoring either fails or gives the right array: nothing is made up. -/
theorem C88_interrupted {β σ γ : Type} {A : Nd β} {R : Nat} {ss : List Nat} {procs : List (List (Shard β))} {devs : List (List Slice)}
    (h : Placed A R ss procs devs) (hg : Grid A ss procs) (w : β → σ) (fill : σ) (c : SCfg) (hit : 0 < c.stored) (r : Nat)
    (hr : c.rep.replicaId = some r) (hrR : r < R) (fuel : Nat) (jobs : List (Job β))
    (hj : procs.mapM (job c fuel A.shape devs) = some jobs) (primary : Nat) (evs : List Ev) (dirs : List (Job β × List Ev))
    (hsub : ∀ d ∈ dirs, d.1 ∈ jobs) (t : Stored σ)
    (ht : saveDirect w fill A.shape jobs primary evs = some t ∨ saveOcdbt w fill A.shape jobs primary dirs = some t)
    (rc : RCfg σ γ) (hm : rc.raiseMissing = true) (sh : Sharding) (gs : Option (List Nat)) (strict : Bool) (addr : Nat → Bool)
    (ss' : List Nat) (hf : Fits sh (gs.getD A.shape) ss') (out : Restored γ) (ho : deserialize rc t sh gs strict addr = some out) :
    Loaded (resized (fun x => rc.r (w x)) rc.zero A (gs.getD A.shape)) sh addr out := by
  have h1 : Partly w A t := by
    rcases ht with ht | ht
    · exact (direct_partly w fill h hg c hit r hr hrR fuel jobs hj primary evs t ht).1
    · exact (ocdbt_partly w fill h hg c hit r hr hrR fuel jobs hj primary dirs t hsub ht).1
  exact restore_sound h1 rc sh gs strict addr hf (.inl hm) out ho

end Verif.Arrays.Zarr
