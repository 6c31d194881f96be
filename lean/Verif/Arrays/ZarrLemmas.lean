import Verif.Arrays.Zarr
import Verif.Arrays.ReplicasProps
import Verif.Arrays.ChunkShapeProps
import Mathlib.Data.List.Induction

/-!
# Lemmas about chunked storage
-/

namespace Verif.Arrays.Zarr

open Slices Replicas

/-! ### The grid -/

/-- The region consists of whole chunks. -/
def Aligned : List Tri → List Nat → Prop
  | [], [] => True
  | t :: ts, d :: c => (0 < d ∧ t.step = 1 ∧ (d : Int) ∣ t.start ∧ (d : Int) ∣ t.stop) ∧ Aligned ts c
  | _, _ => False

theorem aligned_iff : ∀ (idx : List Tri) (c : List Nat), Aligned idx c ↔ idx.length = c.length ∧
    ∀ (k : Nat) (t : Tri) (d : Nat), idx[k]? = some t → c[k]? = some d → (0 < d ∧ t.step = 1 ∧ (d : Int) ∣ t.start ∧ (d : Int) ∣ t.stop)
  | [], [] => by simp [Aligned]
  | [], _ :: _ => by simp [Aligned]
  | _ :: _, [] => by simp [Aligned]
  | t :: ts, d :: c => by
    simp only [Aligned, aligned_iff ts c, List.length_cons, Nat.add_right_cancel_iff]
    constructor
    · rintro ⟨h1, h2, h3⟩
      refine ⟨h2, ?_⟩
      intro k u m hk hm
      cases k with
      | zero =>
        simp only [List.getElem?_cons_zero, Option.some.injEq] at hk hm
        subst hk; subst hm; exact h1
      | succ k => exact h3 k u m (by simpa using hk) (by simpa using hm)
    · rintro ⟨h2, h3⟩
      exact ⟨h3 0 t d rfl rfl, h2, fun k u m hk hm => h3 (k + 1) u m (by simpa using hk) (by simpa using hm)⟩

theorem mem_range1 {a b x : Int} : x ∈ pyRange a b 1 ↔ a ≤ x ∧ x < b := by
  rw [mem_pyRange (by omega)]
  constructor
  · rintro ⟨k, rfl, h⟩; omega
  · rintro ⟨h1, h2⟩; exact ⟨(x - a).toNat, by omega, h2⟩

theorem touched_cons (c : List Nat) (idx : List Tri) (t : Tri) (d : Nat) (k : Int) (ks : List Int) :
    k :: ks ∈ touched (d :: c) (t :: idx) ↔ (t.start < t.stop ∧ t.start / d ≤ k ∧ k ≤ (t.stop - 1) / d) ∧ ks ∈ touched c idx := by
  simp only [touched, List.zipWith_cons_cons, mem_product, Choice]
  refine and_congr_left' ?_
  split
  · next h => rw [mem_range1]; constructor <;> intro h' <;> omega
  · next h => simp; intro h'; exact absurd h' h

theorem touched_nil_cons (c : List Nat) (idx : List Tri) (t : Tri) (d : Nat) : [] ∉ touched (d :: c) (t :: idx) := by
  simp [touched, mem_product, Choice]

theorem touched_nil_mem (k : List Int) : k ∈ touched [] [] ↔ k = [] := by
  simp [touched, product]

/-- A touched chunk of an aligned region lies in the region. -/
theorem chunk_in : ∀ {c : List Nat} {idx : List Tri} {k o : List Int}, Aligned idx c → k ∈ touched c idx → InShape o c →
    Mem (chunkPos c k o) idx
  | [], [], k, o, _, hk, ho => by
    rw [touched_nil_mem] at hk; subst hk
    cases o with
    | nil => trivial
    | cons => simp [InShape] at ho
  | [], _ :: _, _, _, h, _, _ => by simp [Aligned] at h
  | _ :: _, [], _, _, h, _, _ => by simp [Aligned] at h
  | d :: c, t :: idx, [], o, _, hk, _ => absurd hk (touched_nil_cons c idx t d)
  | d :: c, t :: idx, k :: ks, [], _, _, ho => by simp [InShape] at ho
  | d :: c, t :: idx, k :: ks, x :: o, ⟨⟨h1, h2, h3, h4⟩, h'⟩, hk, ⟨⟨ho1, ho2⟩, ho'⟩ => by
    rw [touched_cons] at hk
    obtain ⟨⟨k1, k2, k3⟩, hk'⟩ := hk
    have hd : (0 : Int) < d := by omega
    obtain ⟨a, ha⟩ := h3
    obtain ⟨b, hb⟩ := h4
    have e1 : t.start / d = a := by rw [ha]; exact Int.mul_ediv_cancel_left a (by omega)
    have e2 : (t.stop - 1) / d = b - 1 := by
      rw [hb, show (d : Int) * b - 1 = (d - 1) + d * (b - 1) by ring, Int.add_mul_ediv_left _ _ (by omega),
        Int.ediv_eq_zero_of_lt (by omega) (by omega)]
      omega
    rw [e1] at k2
    rw [e2] at k3
    have m1 : (d : Int) * a ≤ d * k := mul_le_mul_of_nonneg_left k2 (by omega)
    have m2 : (d : Int) * k ≤ d * (b - 1) := mul_le_mul_of_nonneg_left k3 (by omega)
    have m3 : (d : Int) * (b - 1) = d * b - d := by ring
    have m4 : k * (d : Int) = d * k := mul_comm _ _
    refine ⟨⟨?_, ?_, k * d + x - t.start, by rw [h2]; omega⟩, chunk_in h' hk' ho'⟩
    · omega
    · omega

/-- A position of a region belongs to a chunk the region touches. -/
theorem key_touched : ∀ {c : List Nat} {idx : List Tri} {i : List Int}, Aligned idx c → Mem i idx →
    chunkKey c i ∈ touched c idx
  | [], [], [], _, _ => by simp [chunkKey, touched, product]
  | [], [], _ :: _, _, h => by simp [Mem] at h
  | [], _ :: _, _, h, _ => by simp [Aligned] at h
  | _ :: _, [], _, h, _ => by simp [Aligned] at h
  | _ :: _, _ :: _, [], _, h => by simp [Mem] at h
  | d :: c, t :: idx, x :: i, ⟨⟨h1, h2, h3, h4⟩, h'⟩, ⟨⟨m1, m2, _⟩, m'⟩ => by
    simp only [chunkKey, List.zipWith_cons_cons]
    rw [touched_cons]
    refine ⟨⟨by omega, Int.ediv_le_ediv (by omega) m1, Int.ediv_le_ediv (by omega) (by omega)⟩, key_touched h' m'⟩

theorem off_inShape : ∀ {c : List Nat} {i : List Int}, i.length = c.length → (∀ d ∈ c, 0 < d) → InShape (chunkOff c i) c
  | [], [], _, _ => trivial
  | [], _ :: _, h, _ => by simp at h
  | _ :: _, [], h, _ => by simp at h
  | d :: c, x :: i, h, hd => by
    have h0 : (0 : Int) < d := by have := hd d (by simp); omega
    exact ⟨⟨Int.emod_nonneg _ (by omega), Int.emod_lt_of_pos _ h0⟩, off_inShape (by simpa using h) (fun e he => hd e (by simp [he]))⟩

theorem pos_key_off : ∀ {c : List Nat} {i : List Int}, i.length = c.length → chunkPos c (chunkKey c i) (chunkOff c i) = i
  | [], [], _ => rfl
  | [], _ :: _, h => by simp at h
  | _ :: _, [], h => by simp at h
  | d :: c, x :: i, h => by
    have := pos_key_off (c := c) (i := i) (by simpa using h)
    simp only [chunkKey, chunkOff] at this
    simp only [chunkKey, chunkOff, List.zipWith_cons_cons, chunkPos, this]
    congr 1
    have := Int.mul_ediv_add_emod x d
    rw [mul_comm]; omega

theorem aligned_pos {idx : List Tri} {c : List Nat} (h : Aligned idx c) : ∀ d ∈ c, 0 < d := by
  intro d hd
  obtain ⟨hl, hk⟩ := (aligned_iff _ _).mp h
  obtain ⟨k, hlt, rfl⟩ := List.getElem_of_mem hd
  exact (hk k _ _ (List.getElem?_eq_getElem (by omega)) (List.getElem?_eq_getElem hlt)).1

theorem zeros_inShape : ∀ {c : List Nat}, (∀ d ∈ c, 0 < d) → InShape (c.map fun _ => 0) c
  | [], _ => trivial
  | d :: c, h => ⟨⟨le_refl _, Int.natCast_pos.mpr (h d (by simp))⟩, zeros_inShape fun e he => h e (by simp [he])⟩

theorem mem_length : ∀ {i : List Int} {idx : List Tri}, Mem i idx → i.length = idx.length
  | [], [], _ => rfl
  | [], _ :: _, h => by simp [Mem] at h
  | _ :: _, [], h => by simp [Mem] at h
  | _ :: _, _ :: _, h => by simp [mem_length h.2]

theorem touched_nodup (c : List Nat) (idx : List Tri) : (touched c idx).Nodup := by
  refine nodup_product _ ?_
  intro l hl
  obtain ⟨k, hlt, rfl⟩ := List.getElem_of_mem hl
  simp only [List.getElem_zipWith]
  split
  · exact nodup_pyRange (by omega)
  · simp

/-- Aligned disjoint regions touch different chunks. -/
theorem touched_disjoint {c : List Nat} {a b : List Tri} (ha : Aligned a c) (hb : Aligned b c) (hd : Disjoint a b)
    {k : List Int} (h1 : k ∈ touched c a) (h2 : k ∈ touched c b) : False :=
  hd _ ⟨chunk_in ha h1 (zeros_inShape (aligned_pos ha)), chunk_in hb h2 (zeros_inShape (aligned_pos hb))⟩

/-! ### Writing -/

/-- The operation writes a whole chunk, with elements of the array. -/
structure Good {β} (A : Nd β) (c : List Nat) (op : Op β) : Prop where
  piece : Piece A op.frag
  chunk : op.chunk = c
  aligned : Aligned op.frag.index c
  key : op.key ∈ touched c op.frag.index

theorem overlay_eq {β σ} {w : β → σ} {fill : σ} {A : Nd β} {c : List Nat} {op : Op β} (h : Good A c op)
    (old : Option (Chunk σ)) {o : List Int} (ho : InShape o c) :
    overlay w fill A.shape op old o = w (A.at_ (chunkPos c op.key o)) := by
  have hm := chunk_in h.aligned h.key ho
  obtain ⟨hw, v, hv, -⟩ := piece_iff.mp h.piece
  simp only [overlay, axes_within hw, hv, h.chunk]
  rw [if_pos ((isSelected_iff hw).mpr hm), piece_at h.piece hv hm]

/-- Every chunk in the database holds the elements of the array. -/
def Sound {β σ} (w : β → σ) (A : Nd β) (c : List Nat) (kv : Kv σ) : Prop :=
  ∀ k ch, kv k = some ch → ∀ o, InShape o c → ch o = w (A.at_ (chunkPos c k o))

theorem step_sound {β σ} {w : β → σ} {fill : σ} {A : Nd β} {c : List Nat} {ops : List (Op β)} (h : ∀ op ∈ ops, Good A c op)
    (st : WSt σ) (hs : Sound w A c st.kv) (e : Ev) : Sound w A c (step w fill A.shape ops st e).kv := by
  cases e with
  | load j =>
    simp only [step]
    cases ops[j]? <;> exact hs
  | store j =>
    simp only [step]
    cases hj : ops[j]? with
    | none => exact hs
    | some op =>
      intro k ch hk o ho
      simp only at hk
      split at hk
      · next e =>
        cases hk
        rw [e]
        exact overlay_eq (h op (List.mem_of_getElem? hj)) _ ho
      · exact hs k ch hk o ho

theorem foldl_sound {β σ} {w : β → σ} {fill : σ} {A : Nd β} {c : List Nat} {ops : List (Op β)} (h : ∀ op ∈ ops, Good A c op) :
    ∀ (evs : List Ev) (st : WSt σ), Sound w A c st.kv → Sound w A c (evs.foldl (step w fill A.shape ops) st).kv
  | [], _, hs => hs
  | e :: evs, st, hs => foldl_sound h evs _ (step_sound h st hs e)

theorem run_sound {β σ} {w : β → σ} {fill : σ} {A : Nd β} {c : List Nat} {ops : List (Op β)} (h : ∀ op ∈ ops, Good A c op)
    (evs : List Ev) : Sound w A c (run w fill A.shape ops evs) :=
  foldl_sound h evs _ (fun k ch hk => by cases hk)

theorem step_keeps {β σ} {w : β → σ} {fill : σ} {shape : List Nat} {ops : List (Op β)} (st : WSt σ) (e : Ev) {k : List Int}
    (h : (st.kv k).isSome) : ((step w fill shape ops st e).kv k).isSome := by
  cases e with
  | load j => simp only [step]; cases ops[j]? <;> exact h
  | store j =>
    simp only [step]
    cases ops[j]? with
    | none => exact h
    | some op => simp only; split <;> [rfl; exact h]

theorem foldl_keeps {β σ} {w : β → σ} {fill : σ} {shape : List Nat} {ops : List (Op β)} {k : List Int} :
    ∀ (evs : List Ev) (st : WSt σ), (st.kv k).isSome → ((evs.foldl (step w fill shape ops) st).kv k).isSome
  | [], _, h => h
  | e :: evs, st, h => foldl_keeps evs _ (step_keeps st e h)

theorem foldl_stores {β σ} {w : β → σ} {fill : σ} {shape : List Nat} {ops : List (Op β)} {j : Nat} {op : Op β} (hj : ops[j]? = some op) :
    ∀ (evs : List Ev) (st : WSt σ), Ev.store j ∈ evs → ((evs.foldl (step w fill shape ops) st).kv op.key).isSome
  | e :: evs, st, h => by
    rcases List.mem_cons.mp h with rfl | h
    · refine foldl_keeps evs _ ?_
      simp [step, hj]
    · exact foldl_stores hj evs _ h

/-- Only keys of operations are written. -/
theorem foldl_only {β σ} {w : β → σ} {fill : σ} {shape : List Nat} {ops : List (Op β)} {k : List Int} (hk : ∀ op ∈ ops, op.key ≠ k) :
    ∀ (evs : List Ev) (st : WSt σ), st.kv k = none → (evs.foldl (step w fill shape ops) st).kv k = none
  | [], _, h => h
  | e :: evs, st, h => by
    refine foldl_only hk evs _ ?_
    cases e with
    | load j => simp only [step]; cases ops[j]? <;> exact h
    | store j =>
      simp only [step]
      cases hj : ops[j]? with
      | none => exact h
      | some op =>
        simp only
        rw [if_neg (fun e => hk op (List.mem_of_getElem? hj) e.symm)]
        exact h

theorem merge_eq {σ} (l : List (Kv σ)) (kv : Kv σ) (k : List Int) :
    merge (l ++ [kv]) k = match kv k with | some ch => some ch | none => merge l k := by
  simp only [merge, List.foldl_append, List.foldl_cons, List.foldl_nil]
  all_goals (cases kv k <;> rfl)

theorem merge_sound {β σ} {w : β → σ} {A : Nd β} {c : List Nat} (l : List (Kv σ)) (h : ∀ kv ∈ l, Sound w A c kv) :
    Sound w A c (merge l) := by
  induction l using List.reverseRecOn with
  | nil => intro k ch hk; cases hk
  | append_singleton l kv ih =>
    intro k ch hk
    rw [merge_eq] at hk
    cases hkv : kv k with
    | some ch' =>
      rw [hkv] at hk
      cases hk
      exact h kv (by simp) k ch hkv
    | none =>
      rw [hkv] at hk
      exact ih (fun kv hkv => h kv (by simp [hkv])) k ch hk

theorem merge_some {σ} (l : List (Kv σ)) (kv : Kv σ) (hkv : kv ∈ l) (k : List Int) (h : (kv k).isSome) : (merge l k).isSome := by
  induction l using List.reverseRecOn with
  | nil => simp at hkv
  | append_singleton l kv' ih =>
    rw [merge_eq]
    cases h' : kv' k with
    | some => rfl
    | none =>
      simp only [List.mem_append, List.mem_singleton] at hkv
      rcases hkv with hkv | rfl
      · exact ih hkv
      · rw [h'] at h; cases h

end Verif.Arrays.Zarr
