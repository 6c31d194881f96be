import Verif.Arrays.ZarrMoreProps

/-!
# Cases that meet the hypotheses of the theorems of C88

The array of C37: 4 × 2, split by rows over two processes, each part on two devices.  It is restored by columns.
-/

namespace Verif.Arrays.Zarr

open Slices Replicas

/-- Chunks of one element. -/
def exS : SCfg := ⟨exCfg, 4, some 4, [], true, 1000⟩

def exJobs : Option (List (Job Int)) := exProcs.mapM (job exS 20 exA.shape exDevs)

/-- Columns, one for each of two devices. -/
def exSh : Sharding where
  shardShape := fun g => match g with | [n, 2] => some [n, 1] | _ => none
  devices := fun _ => [(7, [⟨none, none, none⟩, ⟨some 0, some 1, none⟩]), (5, [⟨none, none, none⟩, ⟨some 1, some 2, none⟩])]

def exR : RCfg Int Int := ⟨true, -1, fun x => 2 * x, 0⟩

/-- All chunks are read before any is written. -/
def exEvs : List Ev := (List.range 8).map Ev.load ++ (List.range 8).map Ev.store

/-- What arrives: for each device, the elements of a column of `n` rows. -/
def column (n : Nat) (out : Restored Int) : List (Nat × List Nat × List Int) :=
  out.shards.map fun p => (p.1, p.2.shape, (List.range n).map fun (k : Nat) => p.2.at_ [(k : Int), 0])

theorem ex_grid : Grid exA [2, 2] exProcs := by
  intro s hs k t n ht hn
  simp [exProcs] at hs
  match k, hn with
  | 0, hn =>
    simp at hn; subst hn
    rcases hs with rfl | rfl | rfl | rfl <;> simp [box, exI1, exI2, exA] at ht <;> subst ht <;> decide
  | 1, hn =>
    simp at hn; subst hn
    rcases hs with rfl | rfl | rfl | rfl <;> simp [box, exI1, exI2, exA] at ht <;> subst ht <;> decide
  | k + 2, hn => simp at hn

theorem ex_fits (n : Nat) : Fits exSh [n, 2] [n, 1] := by
  have hall : ∀ p ∈ exSh.devices [n, 2], p = (7, [⟨none, none, none⟩, ⟨some 0, some 1, none⟩]) ∨ p = (5, [⟨none, none, none⟩, ⟨some 1, some 2, none⟩]) := by
    intro p hp
    simpa [exSh] using hp
  refine ⟨rfl, by simp [exSh], ?_, ?_, ?_, ?_⟩
  · intro p hp; rcases hall p hp with rfl | rfl <;> rfl
  · intro p hp; rcases hall p hp with rfl | rfl <;> simp
  · intro p hp; rcases hall p hp with rfl | rfl <;> simp [box, Within]
  · intro p hp
    have : rangeLen 0 n 1 = n := by
      have := rangeLen_one (a := 0) (b := n) (by omega)
      omega
    rcases hall p hp with rfl | rfl <;> simp [box, Verif.Arrays.lens, this] <;> decide

/-- Eight chunks, each written once; the columns arrive, doubled. -/
theorem C88_direct_nonvacuous : ∃ jobs, exJobs = some jobs ∧ jobs.length = 2 ∧ (jobs.map fun j => j.ops.length) = [4, 4] ∧
    Done (jobs.flatMap fun j => j.ops) exEvs ∧
    (((saveDirect id (-1) exA.shape jobs 0 exEvs).bind fun t => deserialize exR t exSh none true (fun _ => true)).map (column 4)) =
      some [(7, [4, 1], [0, 20, 40, 60]), (5, [4, 1], [2, 22, 42, 62])] := by
  obtain ⟨jobs, hj⟩ := Option.isSome_iff_exists.mp (show exJobs.isSome = true by decide)
  have h1 : exJobs.map (·.length) = some 2 := by decide
  have h2 : (exJobs.map fun jobs => jobs.map fun j => j.ops.length) = some [4, 4] := by decide
  have h3 : (exJobs.bind fun jobs => ((saveDirect id (-1) exA.shape jobs 0 exEvs).bind fun t => deserialize exR t exSh none true (fun _ => true)).map (column 4)) =
      some [(7, [4, 1], [0, 20, 40, 60]), (5, [4, 1], [2, 22, 42, 62])] := by decide
  have h4 : (exJobs.map fun jobs => (jobs.flatMap fun j => j.ops).length) = some 8 := by decide
  rw [hj] at h1 h2 h3 h4
  simp only [Option.map_some, Option.some.injEq, Option.bind_some] at h1 h2 h3 h4
  refine ⟨jobs, hj, h1, h2, ?_, h3⟩
  intro k hk
  rw [h4] at hk
  simp only [exEvs, List.mem_append, List.mem_map, List.mem_range]
  exact .inr ⟨k, hk, rfl⟩

/-- With a database for each process, copied in the wrong order; a row of zeros is added, and only one of the
devices belongs to the process. -/
theorem C88_ocdbt_nonvacuous : ∃ jobs dirs, exJobs = some jobs ∧ (dirs.map (·.1)).Perm jobs ∧ (∀ d ∈ dirs, Done d.1.ops d.2) ∧
    (((saveOcdbt id (-1) exA.shape jobs 0 dirs).bind fun t => deserialize exR t exSh (some [5, 2]) false (fun d => d == 5)).map (column 5)) =
      some [(5, [5, 1], [2, 22, 42, 62, 0])] := by
  obtain ⟨jobs, hj⟩ := Option.isSome_iff_exists.mp (show exJobs.isSome = true by decide)
  have h2 : (exJobs.map fun jobs => jobs.map fun j => j.ops.length) = some [4, 4] := by decide
  have h3 : (exJobs.bind fun jobs => ((saveOcdbt id (-1) exA.shape jobs 0 (jobs.reverse.map fun j => (j, exEvs))).bind fun t =>
      deserialize exR t exSh (some [5, 2]) false (fun d => d == 5)).map (column 5)) =
      some [(5, [5, 1], [2, 22, 42, 62, 0])] := by decide
  rw [hj] at h2 h3
  simp only [Option.map_some, Option.some.injEq, Option.bind_some] at h2 h3
  refine ⟨jobs, jobs.reverse.map fun j => (j, exEvs), hj, ?_, ?_, h3⟩
  · rw [List.map_map]
    simp [Function.comp_def]
  · intro d hd
    simp only [List.mem_map, List.mem_reverse] at hd
    obtain ⟨j, hjj, rfl⟩ := hd
    intro k hk
    have : j.ops.length ∈ jobs.map fun j => j.ops.length := List.mem_map.mpr ⟨j, hjj, rfl⟩
    rw [h2] at this
    simp at this
    simp only [exEvs, List.mem_append, List.mem_map, List.mem_range]
    simp only at hk
    exact .inr ⟨k, by omega, rfl⟩

/-- Interrupted after the first column: that column can be restored, the other is refused. -/
theorem C88_interrupted_nonvacuous : ∃ jobs, exJobs = some jobs ∧
    (((saveDirect id (-1) exA.shape jobs 0 [.store 0, .store 2, .store 4, .store 6]).bind fun t =>
      deserialize exR t exSh none true (fun d => d == 7)).map (column 4)) = some [(7, [4, 1], [0, 20, 40, 60])] ∧
    (((saveDirect id (-1) exA.shape jobs 0 [.store 0, .store 2, .store 4, .store 6]).bind fun t =>
      deserialize exR t exSh none true (fun _ => true)).map (column 4)) = none := by
  obtain ⟨jobs, hj⟩ := Option.isSome_iff_exists.mp (show exJobs.isSome = true by decide)
  have h3 : (exJobs.map fun jobs =>
    ((((saveDirect id (-1) exA.shape jobs 0 [.store 0, .store 2, .store 4, .store 6]).bind fun t =>
      deserialize exR t exSh none true (fun d => d == 7)).map (column 4)) = some [(7, [4, 1], [0, 20, 40, 60])] ∧
    (((saveDirect id (-1) exA.shape jobs 0 [.store 0, .store 2, .store 4, .store 6]).bind fun t =>
      deserialize exR t exSh none true (fun _ => true)).map (column 4)) = none : Bool)) = some true := by decide
  rw [hj] at h3
  simp only [Option.map_some, Option.some.injEq, decide_eq_true_eq] at h3
  exact ⟨jobs, hj, h3⟩

/-- The hypotheses about the array, its placement and the settings. -/
theorem C88_one_writer_nonvacuous : Placed exA 2 [2, 2] exProcs exDevs ∧ Grid exA [2, 2] exProcs ∧ exS.rep.replicaId = some 0 ∧
    0 < exS.stored ∧ exJobs.isSome ∧ (exJobs.map fun jobs => jobs.map fun j => j.ops.map (·.key)) =
      some [[[0, 0], [0, 1], [1, 0], [1, 1]], [[3, 0], [3, 1], [2, 0], [2, 1]]] :=
  ⟨ex_placed, ex_grid, rfl, by decide, by decide, by decide⟩

theorem C88_saves_nonvacuous : (∀ b, exS.chunkBytes = some b → exS.stored ≤ b) ∧
    (exS.ocdbt = true → exS.fileSize = 0 ∨ exS.stored ≤ exS.fileSize) := by
  refine ⟨?_, fun _ => .inr (by decide)⟩
  intro b hb
  cases hb
  decide

theorem C88_chunk_fits_file_nonvacuous : exS.ocdbt = true ∧ exS.fileSize ≠ 0 ∧
    (exJobs.map fun jobs => jobs.flatMap fun j => j.ops.map (·.chunk)) = some (List.replicate 8 [1, 1]) := by decide

/-- An array of which nothing was written. -/
theorem C88_refused_nonvacuous : Fits exSh ((none : Option (List Nat)).getD [4, 2]) [4, 1] ∧
    deserialize exR (⟨[4, 2], [1, 1], fun _ => none⟩ : Stored Int) exSh none true (fun _ => true) = none ∧
    (deserialize exR (⟨[4, 2], [1, 1], fun _ => none⟩ : Stored Int) exSh none true (fun _ => false)).isSome :=
  ⟨ex_fits 4, C88_refused _ _ _ _ _ _ [4, 1] (ex_fits 4) 7 [⟨none, none, none⟩, ⟨some 0, some 1, none⟩] (by simp [exSh]) rfl
    (.inr (.inr ⟨rfl, [0, 0], by simp [box, Mem], by simp [InShape], rfl⟩)), by decide⟩

/-- A region over two chunks. -/
theorem C88_reserved_nonvacuous : (∀ k, k ∈ ([[1], [2]] : List (List Int)) ↔ ∃ i, Inside i [(5, 9)] ∧ chunkKey [4] i = k) ∧
    footprint 2 [4] [(5, 9)] = 16 := by
  refine ⟨?_, by decide⟩
  intro k
  rw [← mem_keysOf [4] [(5, 9)] rfl (by simp) (by simp) k]
  have : keysOf [4] [(5, 9)] = [[1], [2]] := by decide
  rw [this]

theorem C88_reserved_empty_fails_nonvacuous : footprint 2 [4] [(5, 5)] = 8 := by decide

theorem C88_sharding_nonvacuous :
    (restore exR (⟨[4, 2], [1, 1], fun _ => some fun _ => 3⟩ : Stored Int) (fun _ _ => exSh) none ⟨true, some 0, some 0, none, none, true⟩ (fun _ => true)).isSome ∧
    (restore exR (⟨[4, 2], [1, 1], fun _ => some fun _ => 3⟩ : Stored Int) (fun _ _ => exSh) none ⟨true, some 0, none, none, none, true⟩ (fun _ => true)).isNone := by
  decide

end Verif.Arrays.Zarr
