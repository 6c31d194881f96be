import Verif.Arrays.ZarrProps
import Mathlib.Data.List.Forall2

/-!
# More about saving and restoring arrays: refusals, chunk sizes, memory, the sharding used (C88)

Specification.  `Inside i dom`: the position belongs to the region.
-/

namespace Verif.Arrays.Zarr

open Slices Replicas

/-! ### Saving succeeds -/

section save
variable {β : Type} {A : Nd β} {R : Nat} {ss : List Nat} {procs : List (List (Shard β))} {devs : List (List Slice)}

theorem local_length (h : Placed A R ss procs devs) (hne : procs ≠ []) (c : Cfg) : (localOf c A.shape ss R).length = A.shape.length := by
  obtain ⟨p, ps, rfl⟩ := List.exists_cons_of_ne_nil hne
  obtain ⟨s0, rest, hpe⟩ := List.exists_cons_of_ne_nil (h.addressable p (by simp))
  have h0 := h.ok (List.mem_flatten.mpr ⟨p, by simp, by rw [hpe]; simp⟩ : s0 ∈ (p :: ps).flatten)
  have e : ss.length = A.shape.length := by
    rw [← h0.lens]
    simp [Verif.Arrays.lens, box_length h0.rank]
  unfold localOf
  cases hm : mode c A.shape ss R with
  | none => exact e
  | some pl =>
    obtain ⟨hpl, -⟩ := mode_ok hm
    simp only
    rw [hpl.localSize]; simpa using e

/-- C88: saving is refused only for chunk settings that make no sense: if the sizes asked for have room for an
element and the axes asked for exist, then every process gets its chunks and operations. -/
theorem C88_saves (h : Placed A R ss procs devs) (c : SCfg) (hit : 0 < c.stored) (r : Nat)
    (hr : c.rep.replicaId = some r) (h1 : ∀ b, c.chunkBytes = some b → c.stored ≤ b)
    (h2 : c.ocdbt = true → c.fileSize = 0 ∨ c.stored ≤ c.fileSize)
    (h3 : ∀ a ∈ c.shardAxes, 0 ≤ a ∧ a < (A.shape.length : Int)) :
    ∃ fuel0, ∀ fuel, fuel0 < fuel → ∃ jobs, procs.mapM (job c fuel A.shape devs) = some jobs := by
  by_cases hne : procs = []
  · subst hne
    exact ⟨0, fun _ _ => ⟨[], rfl⟩⟩
  refine ⟨2 * ((ChunkShape.floor1 (localOf c.rep A.shape ss R)).map fun n => (ChunkShape.findDivisors n).length).sum + 2, fun fuel hf => ?_⟩
  have hl := local_length h hne c.rep
  have e1 := ChunkShape.C33_terminates A.shape (localOf c.rep A.shape ss R) c.stored hit
    (chunkBytesFor c (localOf c.rep A.shape ss R)) c.shardAxes fuel hf
  have e2 := (ChunkShape.C33_error_iff A.shape (localOf c.rep A.shape ss R) c.stored hit
    (chunkBytesFor c (localOf c.rep A.shape ss R)) c.shardAxes fuel hf).mp
  cases hch : ChunkShape.choose fuel A.shape (localOf c.rep A.shape ss R) c.stored (chunkBytesFor c (localOf c.rep A.shape ss R)) c.shardAxes with
  | ok ch =>
    refine ⟨_, mapM_some procs (h := fun p => ⟨ch, opsOf ch (fragsOf c.rep A.shape ss R r p)⟩) ?_⟩
    intro p hp
    rw [job_spec h hr hp, hch]
  | diverges => exact absurd hch e1
  | error =>
    exfalso
    rcases e2 hch with hx | ⟨-, ⟨a, ha, hx⟩ | ⟨x, hx, hlt⟩⟩
    · omega
    · have := h3 a ha
      omega
    · unfold chunkBytesFor at hx
      split at hx
      · next ho =>
        have ho := h2 ho
        split at hx
        · exact absurd (h1 x hx) (by omega)
        · split at hx
          · split at hx
            · cases hx; omega
            · cases hx
          · next b hb =>
            have := h1 b hb
            cases hx
            omega
      · exact absurd (h1 x hx) (by omega)

theorem prod_le : ∀ {s w : List Nat}, s.length = w.length → (∀ (k d n : Nat), s[k]? = some d → w[k]? = some n → d ≤ n) → s.prod ≤ w.foldr (· * ·) 1
  | [], [], _, _ => by simp
  | [], _ :: _, h, _ => by simp at h
  | _ :: _, [], h, _ => by simp at h
  | d :: s, n :: w, hl, h => by
    have ih := prod_le (s := s) (w := w) (by simpa using hl) (fun k a b ha hb => h (k + 1) a b (by simpa using ha) (by simpa using hb))
    have h0 := h 0 d n (by simp) (by simp)
    simp only [List.prod_cons, List.foldr_cons]
    exact Nat.mul_le_mul h0 ih

theorem touched_nonempty : ∀ {c : List Nat} {idx : List Tri} {k : List Int}, k ∈ touched c idx → idx.length = c.length → ∀ t ∈ idx, t.start < t.stop
  | _, [], _, _, _ => by simp
  | [], _ :: _, _, _, hl => by simp at hl
  | d :: c, t :: idx, [], hk, _ => absurd hk (touched_nil_cons c idx t d)
  | d :: c, t :: idx, k :: ks, hk, hl => by
    rw [touched_cons] at hk
    intro u hu
    rcases List.mem_cons.mp hu with rfl | hu
    · exact hk.1.1
    · exact touched_nonempty hk.2 (by simpa using hl) u hu

/-- C88: with OCDBT and a limit for the size of data files no chunk is larger than the limit, and with or
without OCDBT none is larger than the chunk size asked for. -/
theorem C88_chunk_fits_file (h : Placed A R ss procs devs) (hg : Grid A ss procs) (c : SCfg) (hit : 0 < c.stored) (r : Nat)
    (hr : c.rep.replicaId = some r) (hrR : r < R) (fuel : Nat) (jobs : List (Job β))
    (hj : procs.mapM (job c fuel A.shape devs) = some jobs) (j : Job β) (hjj : j ∈ jobs) (op : Op β) (hop : op ∈ j.ops) :
    (c.ocdbt = true → c.fileSize ≠ 0 → op.chunk.prod * c.stored ≤ c.fileSize) ∧
    (∀ b, c.chunkBytes = some b → op.chunk.prod * c.stored ≤ b) := by
  have hne : procs ≠ [] := by
    rintro rfl
    cases hj
    simp at hjj
  obtain ⟨ch, hch, rfl⟩ := jobs_spec h c r hr fuel hj hne
  have hgood := ops_good h hg c hit r hr hrR fuel hch
  obtain ⟨p, hp, rfl⟩ := List.mem_map.mp hjj
  have hop' : op ∈ opsOf ch (fragsOf c.rep A.shape ss R r procs.flatten) := by
    simp only [opsOf, List.mem_flatMap] at hop ⊢
    obtain ⟨f, hf, hop⟩ := hop
    exact ⟨f, fragsOf_sub hp hf, hop⟩
  have hgd := hgood op hop'
  rw [hgd.chunk]
  cases hcb : chunkBytesFor c (localOf c.rep A.shape ss R) with
  | some x =>
    rw [hcb] at hch
    have hfit := ChunkShape.C33_fits_target fuel _ _ _ hit x _ _ hch
    unfold chunkBytesFor at hcb
    constructor
    · intro ho hs
      rw [if_pos ho, if_neg hs] at hcb
      split at hcb
      · split at hcb
        · cases hcb; exact hfit
        · cases hcb
      · cases hcb
        omega
    · intro b hb
      rw [hb] at hcb
      split at hcb
      · split at hcb
        · cases hcb; exact hfit
        · simp only [Option.some.injEq] at hcb
          omega
      · cases hcb; exact hfit
  | none =>
    unfold chunkBytesFor at hcb
    constructor
    · intro ho hs
      rw [if_pos ho, if_neg hs] at hcb
      split at hcb
      · split at hcb
        · cases hcb
        · next hlt =>
          obtain ⟨d1, d2⟩ := ChunkShape.C33_divides fuel _ _ _ hit _ _ ch hch
          have hle : ch.prod ≤ (localOf c.rep A.shape ss R).foldr (· * ·) 1 := by
            refine prod_le d1 ?_
            intro k d n hd hn
            obtain ⟨-, hdvd⟩ := d2 k d n hd hn
            simp only [opsOf, List.mem_flatMap, List.mem_map] at hop'
            obtain ⟨f, hf, kk, hk, rfl⟩ := hop'
            obtain ⟨e1, e2⟩ := frag_aligned h hg c.rep r hf
            have hlt : k < f.index.length := by
              have := (List.getElem?_eq_some_iff.mp hn).1
              omega
            obtain ⟨-, -, e5⟩ := e2 k _ n (List.getElem?_eq_getElem hlt) hn
            have := touched_nonempty hk (by rw [e1, ← d1]) _ (List.getElem_mem hlt)
            have hn0 : 0 < n := by omega
            rw [show max 1 n = n by omega] at hdvd
            exact Nat.le_of_dvd hn0 hdvd
          exact (Nat.mul_le_mul_right _ hle).trans (by omega)
      · cases hcb
    · intro b hb
      rw [hb] at hcb
      split at hcb
      · split at hcb <;> cases hcb
      · cases hcb

end save

/-! ### What is refused -/

section refuse
variable {σ γ : Type}

theorem read_each {t : Stored σ} {c : RCfg σ γ} {sh : Sharding} {gs : Option (List Nat)} {strict : Bool} {addr : Nat → Bool}
    {ss : List Nat} (hf : Fits sh (gs.getD t.shape) ss) {out : Restored γ} (ho : deserialize c t sh gs strict addr = some out)
    {d : Nat} {idx : List Slice} (hd : (d, idx) ∈ sh.devices (gs.getD t.shape)) (ha : addr d = true) :
    ∃ v, readIndex c t (gs.getD t.shape) (lens (box (gs.getD t.shape) idx)) strict
      ((box (gs.getD t.shape) idx).map fun u => mk u.start u.stop u.step) = some v := by
  simp only [deserialize] at ho
  generalize gs.getD t.shape = g at hf ho hd ⊢
  simp only [hf.shard, Option.bind_some, Option.map_eq_some_iff, readArray, Option.bind_eq_some_iff] at ho
  obtain ⟨l, ⟨gr, hgr, ls, hls, rfl⟩, rfl⟩ := ho
  obtain ⟨gr', e, hperm, hmem⟩ := group_spec (addr := addr) (key := fun idx => (box g idx).map fun t => (t.start, t.stop, t.step))
    (sh.devices g) [] hf.key
  rw [e] at hgr
  cases hgr
  have hin : d ∈ gr.flatMap (·.2) := by
    refine hperm.mem_iff.mpr ?_
    simp only [List.flatMap_nil, List.nil_append, List.mem_map, List.mem_filter]
    exact ⟨(d, idx), ⟨hd, ha⟩, rfl⟩
  obtain ⟨⟨k, ds⟩, hk, hdk⟩ := List.mem_flatMap.mp hin
  rcases hmem k ds d hk hdk with ⟨ds', hds, -⟩ | ⟨idx', hi, -, rfl⟩
  · cases hds
  have hidx : idx' = idx := by
    obtain ⟨n1, l1, e1⟩ := List.getElem_of_mem hi
    obtain ⟨n2, l2, e2⟩ := List.getElem_of_mem hd
    have := (List.Nodup.getElem_inj_iff hf.nodup (hi := by simpa using l1) (hj := by simpa using l2)).mp (by simp [e1, e2])
    subst this
    rw [e1] at e2
    cases e2; rfl
  subst hidx
  have hsome : ∀ (gr : Groups) (ls : List (List (Nat × Nd γ))), gr.mapM (readGroup c t g ss strict) = some ls → ∀ p ∈ gr,
      ∃ b, readGroup c t g ss strict p = some b := by
    intro gr
    induction gr with
    | nil => simp
    | cons q gr ih =>
      intro ls hls p hp
      rw [List.mapM_cons] at hls
      simp only [Option.bind_eq_bind, Option.bind_eq_some_iff, Option.pure_def, Option.some.injEq] at hls
      obtain ⟨b, hb, ls', hls', -⟩ := hls
      rcases List.mem_cons.mp hp with rfl | hp
      · exact ⟨b, hb⟩
      · exact ih ls' hls' p hp
  obtain ⟨b, hb⟩ := hsome gr ls hls _ hk
  simp only [readGroup, Option.map_eq_some_iff, from_triples] at hb
  obtain ⟨v, hv, -⟩ := hb
  rw [← hf.lens _ hd] at hv
  exact ⟨v, hv⟩

/-- C88: what is refused.  Restoring fails when one of the devices of the process needs part of the array and
the shape must be, but is not, that of the stored array, or the number of axes differs, or a chunk of the part
was never written and missing data is an error. -/
theorem C88_refused (t : Stored σ) (c : RCfg σ γ) (sh : Sharding) (gs : Option (List Nat)) (strict : Bool) (addr : Nat → Bool)
    (ss : List Nat) (hf : Fits sh (gs.getD t.shape) ss) (d : Nat) (idx : List Slice)
    (hd : (d, idx) ∈ sh.devices (gs.getD t.shape)) (ha : addr d = true)
    (hbad : (strict = true ∧ gs.getD t.shape ≠ t.shape) ∨ (gs.getD t.shape).length ≠ t.shape.length ∨
      (c.raiseMissing = true ∧ ∃ i, Mem i (box (gs.getD t.shape) idx) ∧ InShape i t.shape ∧ t.kv (chunkKey t.chunk i) = none)) :
    deserialize c t sh gs strict addr = none := by
  cases ho : deserialize c t sh gs strict addr with
  | none => rfl
  | some out =>
    exfalso
    obtain ⟨v, hv⟩ := read_each hf ho hd ha
    obtain ⟨h1, h2, -, h4, -, -⟩ := readIndex_some (hf.within _ hd) (box_step _ _) hv
    rcases hbad with ⟨hs, hx⟩ | hx | ⟨hm, i, hi, hin, hk⟩
    · exact hx (h1 hs).symm
    · exact hx h2.symm
    · have := h4 hm i hi hin
      rw [hk] at this
      cases this

end refuse

/-! ### Memory -/

/-- The position belongs to the region. -/
def Inside (i : List Int) (dom : Dom) : Prop := List.Forall₂ (fun x (p : Int × Int) => p.1 ≤ x ∧ x < p.2) i dom

theorem ceil_floor {a b : Int} {d : Nat} (hd : 0 < d) :
    -(-b / (d : Int)) * d - a / (d : Int) * d = (((b - 1) / d + 1) - a / d) * d := by
  have h : -(-b / (d : Int)) = (b - 1) / d + 1 := by
    have hd' : (0 : Int) < d := by omega
    have e1 := Int.mul_ediv_add_emod (-b) d
    have e2 := Int.emod_nonneg (-b) (show (d : Int) ≠ 0 by omega)
    have e3 := Int.emod_lt_of_pos (-b) hd'
    have e4 := Int.mul_ediv_add_emod (b - 1) d
    have e5 := Int.emod_nonneg (b - 1) (show (d : Int) ≠ 0 by omega)
    have e6 := Int.emod_lt_of_pos (b - 1) hd'
    have key : (d : Int) * (-(-b / (d : Int)) - ((b - 1) / d + 1)) = (-b) % d + (b - 1) % d + 1 - d := by
      have : (d : Int) * (-(-b / (d : Int)) - ((b - 1) / d + 1)) = -(d * (-b / d)) - d * ((b - 1) / d) - d := by ring
      rw [this]; omega
    generalize hzz : -(-b / (d : Int)) - ((b - 1) / d + 1) = z at key
    have hz : z = 0 := by
      rcases Int.lt_trichotomy z 0 with hz | hz | hz
      · have : (d : Int) * z ≤ d * (-1) := mul_le_mul_of_nonneg_left (by omega) (by omega)
        omega
      · exact hz
      · have : (d : Int) * 1 ≤ d * z := mul_le_mul_of_nonneg_left (by omega) (by omega)
        omega
    omega
  rw [h]; ring

/-- The chunks of a region, in a list. -/
def keysOf : List Nat → Dom → List (List Int)
  | d :: c, (a, b) :: dom => (pyRange (a / (d : Int)) ((b - 1) / (d : Int) + 1) 1).flatMap fun k => (keysOf c dom).map (k :: ·)
  | _, _ => [[]]

theorem mem_keysOf : ∀ (c : List Nat) (dom : Dom), c.length = dom.length → (∀ d ∈ c, 0 < d) → (∀ p ∈ dom, p.1 < p.2) → ∀ k,
    k ∈ keysOf c dom ↔ ∃ i, Inside i dom ∧ chunkKey c i = k
  | [], [], _, _, _, k => by
    simp only [keysOf, List.mem_singleton, Inside, List.forall₂_nil_right_iff]
    constructor
    · rintro rfl; exact ⟨[], rfl, rfl⟩
    · rintro ⟨_, rfl, rfl⟩; rfl
  | [], _ :: _, h, _, _, _ => by simp at h
  | _ :: _, [], h, _, _, _ => by simp at h
  | d :: c, (a, b) :: dom, hl, hc, hp, k => by
    have ih := mem_keysOf c dom (by simpa using hl) (fun x hx => hc x (by simp [hx])) (fun x hx => hp x (by simp [hx]))
    have hd := hc d (by simp)
    have hab := hp (a, b) (by simp)
    simp only at hab
    have hd' : (0 : Int) < d := by omega
    simp only [keysOf, List.mem_flatMap, List.mem_map, mem_range1]
    constructor
    · rintro ⟨x, ⟨hx1, hx2⟩, ks, hks, rfl⟩
      obtain ⟨i, hi, rfl⟩ := (ih ks).mp hks
      have a1 := Int.mul_ediv_add_emod a d
      have a2 := Int.emod_nonneg a (show (d : Int) ≠ 0 by omega)
      have a3 := Int.emod_lt_of_pos a hd'
      have b1 := Int.mul_ediv_add_emod (b - 1) d
      have b2 := Int.emod_nonneg (b - 1) (show (d : Int) ≠ 0 by omega)
      have b3 := Int.emod_lt_of_pos (b - 1) hd'
      have m2 : (d : Int) * x ≤ d * ((b - 1) / d) := mul_le_mul_of_nonneg_left (by omega) (by omega)
      have m1 : (d : Int) * (a / d) ≤ d * x := mul_le_mul_of_nonneg_left hx1 (by omega)
      by_cases hax : a ≤ d * x
      · refine ⟨(d * x) :: i, .cons ⟨hax, by simp only; omega⟩ hi, ?_⟩
        simp only [chunkKey, List.zipWith_cons_cons, List.cons.injEq, and_true]
        exact Int.mul_ediv_cancel_left x (by omega)
      · refine ⟨a :: i, .cons ⟨by simp, hab⟩ hi, ?_⟩
        simp only [chunkKey, List.zipWith_cons_cons, List.cons.injEq, and_true]
        have : a / d ≤ x ∧ x ≤ a / d := ⟨hx1, by
          rw [Int.le_ediv_iff_mul_le hd']
          rw [mul_comm]; omega⟩
        omega
    · rintro ⟨i, hi, rfl⟩
      cases hi with
      | @cons x _ i _ hx hi =>
        simp only at hx
        refine ⟨x / d, ⟨Int.ediv_le_ediv hd' hx.1, ?_⟩, chunkKey c i, (ih _).mpr ⟨i, hi, rfl⟩, rfl⟩
        have := Int.ediv_le_ediv hd' (show x ≤ b - 1 by omega)
        omega

theorem nodup_keysOf : ∀ (c : List Nat) (dom : Dom), (keysOf c dom).Nodup
  | [], _ => by simp [keysOf]
  | _ :: _, [] => by simp [keysOf]
  | d :: c, (a, b) :: dom => by
    simp only [keysOf, List.nodup_flatMap]
    refine ⟨fun x _ => (nodup_keysOf c dom).map (fun _ _ e => by simpa using e), ?_⟩
    refine List.Pairwise.imp ?_ (nodup_pyRange (by omega))
    intro x y hxy l hx hy
    simp only [List.mem_map] at hx hy
    obtain ⟨_, _, rfl⟩ := hx
    obtain ⟨_, _, e⟩ := hy
    exact hxy (by simp at e; exact e.1.symm)

theorem footprint_keys (itemsize : Nat) : ∀ (c : List Nat) (dom : Dom), c.length = dom.length → (∀ d ∈ c, 0 < d) → (∀ p ∈ dom, p.1 < p.2) →
    footprint itemsize c dom = (itemsize * c.prod * (keysOf c dom).length : Nat)
  | [], [], _, _, _ => by simp [footprint, keysOf]
  | [], _ :: _, h, _, _ => by simp at h
  | _ :: _, [], h, _, _ => by simp at h
  | d :: c, (a, b) :: dom, hl, hc, hp => by
    have ih := footprint_keys itemsize c dom (by simpa using hl) (fun x hx => hc x (by simp [hx])) (fun x hx => hp x (by simp [hx]))
    have hd := hc d (by simp)
    have hab := hp (a, b) (by simp)
    simp only at hab
    have hle : a / (d : Int) ≤ (b - 1) / d := Int.ediv_le_ediv (by omega) (by omega)
    have hlen : ((pyRange (a / (d : Int)) ((b - 1) / (d : Int) + 1) 1).length : Int) = (b - 1) / d + 1 - a / d := by
      simp only [pyRange, List.length_map, List.length_range, rangeLen]
      simp only [show ((1 : Int) > 0) from by omega, if_true]
      split <;> simp <;> omega
    simp only [footprint, ih, ceil_floor hd, keysOf, List.length_flatMap, List.length_map, List.prod_cons]
    rw [← hlen, List.map_const', List.sum_replicate]
    generalize (pyRange (a / (d : Int)) ((b - 1) / (d : Int) + 1) 1).length = n
    generalize (keysOf c dom).length = m
    change _ = ((itemsize * (d * c.prod) * (n * m) : Nat) : Int)
    push_cast
    ring

/-- C88: reading a region reserves exactly the bytes of the chunks that have to be fetched for it: the item size
times the volume of a chunk times the number of chunks with a position in the region. -/
theorem C88_reserved (itemsize : Nat) (c : List Nat) (dom : Dom) (hl : c.length = dom.length) (hc : ∀ d ∈ c, 0 < d)
    (hp : ∀ p ∈ dom, p.1 < p.2) (keys : List (List Int)) (hn : keys.Nodup)
    (hk : ∀ k, k ∈ keys ↔ ∃ i, Inside i dom ∧ chunkKey c i = k) :
    footprint itemsize c dom = (itemsize * c.prod * keys.length : Nat) := by
  rw [footprint_keys itemsize c dom hl hc hp]
  have : (keysOf c dom).Perm keys :=
    (List.perm_ext_iff_of_nodup (nodup_keysOf c dom) hn).mpr fun k => (mem_keysOf c dom hl hc hp k).trans (hk k).symm
  rw [this.length_eq]

/-- C88 (finding): the item size used is that of the type the array is converted to.  When a non-empty region
is restored into a type with smaller items than the stored one, fewer bytes are reserved than its chunks, as
stored, occupy. -/
theorem C88_reserved_cast_fails (stored target : Nat) (ht : target < stored) (c : List Nat) (dom : Dom) (hl : c.length = dom.length)
    (hc : ∀ d ∈ c, 0 < d) (hp : ∀ p ∈ dom, p.1 < p.2) (keys : List (List Int)) (hn : keys.Nodup)
    (hk : ∀ k, k ∈ keys ↔ ∃ i, Inside i dom ∧ chunkKey c i = k) :
    footprint target c dom < (stored * c.prod * keys.length : Nat) := by
  rw [C88_reserved target c dom hl hc hp keys hn hk]
  have h1 : 0 < c.prod := by
    clear hl hk
    induction c with
    | nil => simp
    | cons d c ih =>
      simp only [List.prod_cons]
      exact Nat.mul_pos (hc d (by simp)) (ih (fun x hx => hc x (by simp [hx])))
  have h2 : 0 < keys.length := by
    have hex : ∀ (dom : Dom), (∀ p ∈ dom, p.1 < p.2) → ∃ i, Inside i dom := by
      intro dom
      induction dom with
      | nil => intro _; exact ⟨[], .nil⟩
      | cons p dom ih =>
        intro hp
        obtain ⟨i, hi⟩ := ih (fun q hq => hp q (by simp [hq]))
        exact ⟨p.1 :: i, .cons ⟨le_refl _, hp p (by simp)⟩ hi⟩
    obtain ⟨i, hi⟩ := hex dom hp
    exact List.length_pos_of_mem ((hk _).mpr ⟨i, hi, rfl⟩)
  have : target * (c.prod * keys.length) < stored * (c.prod * keys.length) :=
    Nat.mul_lt_mul_of_pos_right ht (Nat.mul_pos h1 h2)
  rw [mul_assoc, mul_assoc]
  exact_mod_cast this

/-- C88 (finding): an empty region that does not begin at the edge of a chunk reserves bytes all the same. -/
theorem C88_reserved_empty_fails (itemsize d : Nat) (a : Int) (hi : 0 < itemsize) (ha : ¬ (d : Int) ∣ a) (hd : 0 < d) :
    0 < footprint itemsize [d] [(a, a)] := by
  simp only [footprint]
  rw [ceil_floor hd]
  have : (a - 1) / (d : Int) = a / d := by
    have hd' : (0 : Int) < d := by omega
    have e1 := Int.mul_ediv_add_emod a d
    have e3 := Int.emod_lt_of_pos a hd'
    have e2 := Int.emod_nonneg a (show (d : Int) ≠ 0 by omega)
    have e4 : a % d ≠ 0 := fun h => ha (Int.dvd_of_emod_eq_zero h)
    have : a - 1 = (a % d - 1) + d * (a / d) := by omega
    rw [this, Int.add_mul_ediv_left _ _ (by omega), Int.ediv_eq_zero_of_lt (by omega) (by omega)]
    omega
  rw [this]
  have h1 : (a / (d : Int) + 1 - a / d) = 1 := by omega
  rw [h1]
  have : (0 : Int) < d := by omega
  have : (0 : Int) < itemsize := by omega
  positivity

/-! ### Which sharding is used -/

/-- C88: which sharding is used: that of the mesh and its axes if the arguments have both, else the one given
in the arguments, else the one in the checkpoint; without any of them restoring is refused. -/
theorem C88_sharding {σ γ : Type} (c : RCfg σ γ) (t : Stored σ) (named : Nat → Nat → Sharding) (file : Option (Option Sharding)) (a : RArgs)
    (addr : Nat → Bool) :
    (∀ m x, a.array = true → a.mesh = some m → a.meshAxes = some x →
      restore c t named file a addr = deserialize c t (named m x) a.globalShape a.strict addr) ∧
    (∀ s, a.array = true → (a.mesh = none ∨ a.meshAxes = none) → a.sharding = some (some s) →
      restore c t named file a addr = deserialize c t s a.globalShape a.strict addr) ∧
    (∀ s, a.array = true → (a.mesh = none ∨ a.meshAxes = none) → a.sharding = none → file = some (some s) →
      restore c t named file a addr = deserialize c t s a.globalShape a.strict addr) ∧
    (∀ s, a.array = false → file = some (some s) → restore c t named file a addr = deserialize c t s none true addr) ∧
    ((a.array = false ∨ ((a.mesh = none ∨ a.meshAxes = none) ∧ a.sharding = none)) → file = none →
      restore c t named file a addr = none) := by
  obtain ⟨arr, m, x, s, g, st⟩ := a
  refine ⟨?_, ?_, ?_, ?_, ?_⟩
  · rintro m x rfl rfl rfl; rfl
  · rintro s rfl (h | h) rfl <;> simp only at h <;> subst h
    · rfl
    · cases m <;> rfl
  · rintro s rfl (h | h) rfl rfl <;> simp only at h <;> subst h
    · rfl
    · cases m <;> rfl
  · rintro s rfl rfl; rfl
  · rintro (h | ⟨h | h, h'⟩) rfl
    · simp only at h; subst h; rfl
    · simp only at h h'; subst h; subst h'; cases arr <;> rfl
    · simp only at h h'; subst h; subst h'; cases arr <;> cases m <;> rfl

/-- C88 (finding): the documentation of the arguments says that the sharding takes precedence over the mesh and
its axes; whenever all three are given, the sharding has no effect. -/
theorem C88_sharding_precedence_fails {σ γ : Type} (c : RCfg σ γ) (t : Stored σ) (named : Nat → Nat → Sharding)
    (file : Option (Option Sharding)) (a : RArgs) (addr : Nat → Bool) (m x : Nat) (ha : a.array = true) (hm : a.mesh = some m)
    (hx : a.meshAxes = some x) (s : Option (Option Sharding)) :
    restore c t named file { a with sharding := s } addr = restore c t named file a addr := by
  obtain ⟨arr, m', x', s', g, st⟩ := a
  simp only at ha hm hx
  subst ha hm hx
  rfl

end Verif.Arrays.Zarr
