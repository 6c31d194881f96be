import Verif.Arrays.ZarrLemmas

/-!
# Lemmas about reading regions of chunked storage
-/

namespace Verif.Arrays.Zarr

open Slices Replicas

/-- The domain of an index. -/
def toDom (idx : List Tri) : Dom := idx.map fun t => (t.start, t.stop)

theorem has_toDom : ∀ {idx : List Tri} {i : List Int}, (∀ t ∈ idx, t.step = 1) → (Dom.has (toDom idx) i = true ↔ Mem i idx)
  | [], [], _ => by simp [toDom, Dom.has, Mem]
  | [], _ :: _, _ => by simp [toDom, Dom.has, Mem]
  | _ :: _, [], _ => by simp [toDom, Dom.has, Mem]
  | t :: idx, x :: i, h => by
    have ih := has_toDom (idx := idx) (i := i) (fun u hu => h u (by simp [hu]))
    simp only [toDom] at ih
    simp only [toDom, List.map_cons, Dom.has, Bool.and_eq_true, decide_eq_true_eq, Mem, ih]
    have h1 := h t (by simp)
    constructor
    · rintro ⟨⟨a, b⟩, c⟩; exact ⟨⟨a, b, x - t.start, by rw [h1]; omega⟩, c⟩
    · rintro ⟨⟨a, b, -⟩, c⟩; exact ⟨⟨a, b⟩, c⟩

theorem has_ofShape : ∀ {shape : List Nat} {i : List Int}, Dom.has (Dom.ofShape shape) i = true ↔ InShape i shape
  | [], [] => by simp [Dom.ofShape, Dom.has, InShape]
  | [], _ :: _ => by simp [Dom.ofShape, Dom.has, InShape]
  | _ :: _, [] => by simp [Dom.ofShape, Dom.has, InShape]
  | n :: shape, x :: i => by
    have ih := has_ofShape (shape := shape) (i := i)
    simp only [Dom.ofShape] at ih
    simp [Dom.ofShape, Dom.has, InShape, ih]

theorem contains_shape : ∀ {shape : List Nat} {idx : List Tri}, Within idx shape → Dom.contains (Dom.ofShape shape) (toDom idx) = true
  | [], [], _ => rfl
  | [], _ :: _, h => by simp [Within] at h
  | _ :: _, [], h => by simp [Within] at h
  | n :: shape, t :: idx, ⟨⟨h1, _, h3, _⟩, h'⟩ => by
    have ih := contains_shape h'
    simp only [Dom.ofShape, toDom] at ih
    simp [Dom.ofShape, toDom, Dom.contains, ih, h1, h3]

theorem buffer_eq : ∀ {shape : List Nat} {idx : List Tri}, Within idx shape → (∀ t ∈ idx, t.step = 1) →
    bufferDom (toDom idx) (lens idx) = some (toDom idx)
  | [], [], _, _ => rfl
  | [], _ :: _, h, _ => by simp [Within] at h
  | _ :: _, [], h, _ => by simp [Within] at h
  | n :: shape, t :: idx, ⟨⟨_, h2, _, _⟩, h'⟩, hs => by
    have ih := buffer_eq h' (fun u hu => hs u (by simp [hu]))
    simp only [toDom, lens] at ih
    have e : t.start + (rangeLen t.start t.stop 1 : Int) = t.stop := by
      unfold rangeLen
      simp only [show ((1 : Int) > 0) from by omega, if_true]
      split <;> simp <;> omega
    simp [toDom, lens, bufferDom, ih, hs t (by simp), e]

theorem contains_refl : ∀ (d : Dom), Dom.contains d d = true
  | [] => rfl
  | (a, b) :: d => by simp [Dom.contains, contains_refl d]

/-- Intersecting domains of the same rank. -/
theorem intersect_spec : ∀ (d e : Dom), d.length = e.length → ∃ r, Dom.intersect d e = some r ∧
    Dom.contains d r = true ∧ Dom.contains e r = true ∧ ∀ i, (Dom.has r i = true ↔ Dom.has d i = true ∧ Dom.has e i = true)
  | [], [], _ => ⟨[], rfl, rfl, rfl, fun i => by simp⟩
  | [], _ :: _, h => by simp at h
  | _ :: _, [], h => by simp at h
  | (a, b) :: d, (a', b') :: e, h => by
    obtain ⟨r, h1, h2, h3, h4⟩ := intersect_spec d e (by simpa using h)
    refine ⟨(max a a', max (min b b') (max a a')) :: r, by simp [Dom.intersect, h1], ?_, ?_, ?_⟩
    · simp only [Dom.contains, h2, Bool.and_true, Bool.or_eq_true, Bool.and_eq_true, decide_eq_true_eq]
      omega
    · simp only [Dom.contains, h3, Bool.and_true, Bool.or_eq_true, Bool.and_eq_true, decide_eq_true_eq]
      omega
    · intro i
      cases i with
      | nil => simp [Dom.has]
      | cons x i =>
        simp only [Dom.has, Bool.and_eq_true, decide_eq_true_eq, h4 i]
        constructor
        · rintro ⟨⟨g1, g2⟩, g3, g4⟩
          exact ⟨⟨⟨by omega, by omega⟩, g3⟩, ⟨by omega, by omega⟩, g4⟩
        · rintro ⟨⟨⟨g1, g2⟩, g3⟩, ⟨g4, g5⟩, g6⟩
          exact ⟨⟨by omega, by omega⟩, g3, g6⟩

theorem intersect_rank : ∀ (d e : Dom), d.length ≠ e.length → Dom.intersect d e = none
  | [], [], h => absurd rfl h
  | [], _ :: _, _ => rfl
  | _ :: _, [], _ => rfl
  | (a, b) :: d, (a', b') :: e, h => by simp [Dom.intersect, intersect_rank d e (by simpa using h)]

theorem mem_domPositions : ∀ (d : Dom) (i : List Int), i ∈ d.positions ↔ Dom.has d i = true
  | [], [] => by simp [Dom.positions, positions, translate, Dom.has]
  | [], _ :: _ => by simp [Dom.positions, positions, translate, Dom.has]
  | (a, b) :: d, i => by
    have ih := mem_domPositions d
    simp only [Dom.positions, List.mem_map, mem_positions] at ih ⊢
    constructor
    · rintro ⟨o, ho, rfl⟩
      cases o with
      | nil => simp [InShape] at ho
      | cons x o =>
        obtain ⟨⟨h1, h2⟩, ho'⟩ := ho
        simp only at h2
        have := (ih (translate (d.map (·.1)) o)).mp ⟨o, ho', rfl⟩
        simp only [translate] at this
        simp only [translate, List.map_cons, List.zipWith_cons_cons, Dom.has, this, Bool.and_true, Bool.and_eq_true, decide_eq_true_eq]
        omega
    · intro h
      cases i with
      | nil => simp [Dom.has] at h
      | cons x i =>
        simp only [Dom.has, Bool.and_eq_true, decide_eq_true_eq] at h
        obtain ⟨o, ho, e⟩ := (ih i).mpr h.2
        refine ⟨(x - a) :: o, ⟨⟨by omega, by simp only; omega⟩, ho⟩, ?_⟩
        simp only [translate] at e
        simp only [translate, List.map_cons, List.zipWith_cons_cons, e]
        congr 1
        omega

/-- Moving a position of a part to the array. -/
theorem translate_eq : ∀ {idx : List Tri} {o : List Int}, (∀ t ∈ idx, t.step = 1) →
    translate ((toDom idx).map (·.1)) o = fromSlice (axOf idx) o
  | [], [], _ => rfl
  | [], _ :: _, _ => by simp [translate, toDom, fromSlice, axOf]
  | _ :: _, [], _ => by simp [translate, fromSlice, axOf]
  | t :: idx, x :: o, h => by
    have ih := translate_eq (idx := idx) (o := o) (fun u hu => h u (by simp [hu]))
    simp only [translate, toDom, axOf] at ih
    simp only [translate, toDom, axOf, List.map_cons, List.zipWith_cons_cons, fromSlice, ih, h t (by simp)]
    congr 1
    omega

theorem domOf_mk (idx : List Tri) : domOf (idx.map fun t => mk t.start t.stop t.step) = some (toDom idx) := by
  unfold domOf toDom
  rw [List.mapM_map]
  exact mapM_some idx (fun t _ => rfl)

theorem step_ok {idx : List Tri} (h : ∀ t ∈ idx, t.step = 1) :
    ((idx.map fun t => mk t.start t.stop t.step).any fun s => s.step != none && s.step != some 1) = false := by
  rw [List.any_eq_false]
  intro s hs
  obtain ⟨t, ht, rfl⟩ := List.mem_map.mp hs
  simp [mk, h t ht]

theorem from_triples (idx : List Tri) : fromHashable (idx.map fun t => (t.start, t.stop, t.step)) = idx.map fun t => mk t.start t.stop t.step := by
  simp [fromHashable, List.map_map, Function.comp_def]

theorem toDom_length (idx : List Tri) : (toDom idx).length = idx.length := by simp [toDom]

theorem ofShape_length (s : List Nat) : (Dom.ofShape s).length = s.length := by simp [Dom.ofShape]

/-- The chunks of a domain are there. -/
def Present {σ} (t : Stored σ) (d : Dom) : Prop := ∀ i, Dom.has d i = true → (t.kv (chunkKey t.chunk i)).isSome

/-- The element at a position. -/
def elem {σ} (t : Stored σ) (fill : σ) (i : List Int) : σ := ((t.kv (chunkKey t.chunk i)).map fun ch => ch (chunkOff t.chunk i)).getD fill

theorem readDom_ok {σ γ} {c : RCfg σ γ} {t : Stored σ} {d : Dom} (h1 : Dom.contains (Dom.ofShape t.shape) d = true)
    (h2 : c.raiseMissing = true → Present t d) : readDom c t d = some fun i => c.r (elem t c.fill i) := by
  unfold readDom
  rw [if_neg (by simp [h1]), if_neg]
  · rfl
  · simp only [Bool.and_eq_true, Bool.not_eq_true']
    rintro ⟨h3, h4⟩
    have := h2 h3
    rw [← Bool.not_eq_true, List.all_eq_true] at h4
    exact h4 fun i hi => this i ((mem_domPositions d i).mp hi)

theorem readDom_some {σ γ} {c : RCfg σ γ} {t : Stored σ} {d : Dom} {f : List Int → γ} (h : readDom c t d = some f) :
    (c.raiseMissing = true → Present t d) ∧ f = fun i => c.r (elem t c.fill i) := by
  unfold readDom at h
  split at h
  · cases h
  · split at h
    · cases h
    · next h4 =>
      cases h
      refine ⟨?_, rfl⟩
      intro hr i hi
      simp only [hr, Bool.true_and, Bool.not_eq_true', Bool.not_eq_false, List.all_eq_true] at h4
      exact h4 i ((mem_domPositions d i).mpr hi)

/-- What a read of a shard returns. -/
theorem readShard_eq {σ γ} {c : RCfg σ γ} {t : Stored σ} {g : List Nat} {idx : List Tri} {rs : Dom} (hw : Within idx g)
    (hs : ∀ u ∈ idx, u.step = 1) (hc : Dom.contains (toDom idx) rs = true) :
    readShard c t (lens idx) (toDom idx) rs = (readDom c t rs).map fun f =>
      ⟨lens idx, fun o => if Dom.has rs (fromSlice (axOf idx) o) then f (fromSlice (axOf idx) o) else c.zero⟩ := by
  simp only [readShard, buffer_eq hw hs, Option.bind_some]
  rw [if_neg (by simp [hc])]
  simp only [translate_eq hs]

theorem readIndex_eq {σ γ} {c : RCfg σ γ} {t : Stored σ} {g : List Nat} {idx : List Tri} {strict : Bool} (hw : Within idx g)
    (hs : ∀ u ∈ idx, u.step = 1) :
    readIndex c t g (lens idx) strict (idx.map fun u => mk u.start u.stop u.step) =
      if strict then
        if t.shape = g then readShard c t (lens idx) (toDom idx) (toDom idx) else none
      else (Dom.intersect (Dom.ofShape t.shape) (toDom idx)).bind fun rs => readShard c t (lens idx) (toDom idx) rs := by
  unfold readIndex
  simp only [step_ok hs, domOf_mk, Option.bind_some]
  rw [if_neg (by simp), if_neg (by simp [contains_shape hw])]

/-- What a successful read of a part is: its elements are those stored, and zero where nothing is stored. -/
theorem readIndex_some {σ γ} {c : RCfg σ γ} {t : Stored σ} {g : List Nat} {idx : List Tri} {strict : Bool} {v : Nd γ} (hw : Within idx g)
    (hs : ∀ u ∈ idx, u.step = 1) (h : readIndex c t g (lens idx) strict (idx.map fun u => mk u.start u.stop u.step) = some v) :
    (strict = true → t.shape = g) ∧ t.shape.length = g.length ∧ v.shape = lens idx ∧
    (c.raiseMissing = true → ∀ i, Mem i idx → InShape i t.shape → (t.kv (chunkKey t.chunk i)).isSome) ∧
    (∀ o, InShape (fromSlice (axOf idx) o) t.shape → Mem (fromSlice (axOf idx) o) idx → v.at_ o = c.r (elem t c.fill (fromSlice (axOf idx) o))) ∧
    (∀ o, ¬ InShape (fromSlice (axOf idx) o) t.shape → v.at_ o = c.zero) := by
  rw [readIndex_eq hw hs] at h
  cases strict with
  | true =>
    simp only [if_true] at h
    split at h
    · next e =>
      rw [readShard_eq hw hs (contains_refl _), Option.map_eq_some_iff] at h
      obtain ⟨f, hf, rfl⟩ := h
      obtain ⟨h1, rfl⟩ := readDom_some hf
      refine ⟨fun _ => e, by rw [e], rfl, ?_, ?_, ?_⟩
      · intro hr i hi _
        exact h1 hr i ((has_toDom hs).mpr hi)
      · intro o _ ho
        simp only
        rw [if_pos ((has_toDom hs).mpr ho)]
      · intro o ho
        simp only
        rw [if_neg]
        intro h'
        exact ho (by rw [e]; exact mem_inShape hw ((has_toDom hs).mp h'))
    · cases h
  | false =>
    simp only [Bool.false_eq_true, if_false] at h
    rw [Option.bind_eq_some_iff] at h
    obtain ⟨rs, hrs, h⟩ := h
    have hlen : t.shape.length = idx.length := by
      by_contra hne
      rw [intersect_rank _ _ (by rw [ofShape_length, toDom_length]; exact hne)] at hrs
      cases hrs
    obtain ⟨rs', h1, h2, h3, h4⟩ := intersect_spec (Dom.ofShape t.shape) (toDom idx) (by rw [ofShape_length, toDom_length]; exact hlen)
    rw [h1] at hrs
    cases hrs
    rw [readShard_eq hw hs h3, Option.map_eq_some_iff] at h
    obtain ⟨f, hf, rfl⟩ := h
    obtain ⟨h5, rfl⟩ := readDom_some hf
    refine ⟨by simp, by rw [hlen, ((within_iff _ _).mp hw).1], rfl, ?_, ?_, ?_⟩
    · intro hr i hi hi'
      exact h5 hr i ((h4 i).mpr ⟨has_ofShape.mpr hi', (has_toDom hs).mpr hi⟩)
    · intro o ho ho'
      simp only
      rw [if_pos ((h4 _).mpr ⟨has_ofShape.mpr ho, (has_toDom hs).mpr ho'⟩)]
    · intro o ho
      simp only
      rw [if_neg]
      intro h'
      exact ho (has_ofShape.mp ((h4 _).mp h').1)

/-- A part can be read when its chunks are there and the shapes agree as they must. -/
theorem readIndex_succeeds {σ γ} {c : RCfg σ γ} {t : Stored σ} {g : List Nat} {idx : List Tri} {strict : Bool} (hw : Within idx g)
    (hs : ∀ u ∈ idx, u.step = 1) (h1 : strict = true → t.shape = g) (h2 : t.shape.length = g.length)
    (h3 : c.raiseMissing = true → ∀ i, Mem i idx → InShape i t.shape → (t.kv (chunkKey t.chunk i)).isSome) :
    ∃ v, readIndex c t g (lens idx) strict (idx.map fun u => mk u.start u.stop u.step) = some v := by
  rw [readIndex_eq hw hs]
  cases strict with
  | true =>
    have e := h1 rfl
    simp only [if_true, e]
    rw [readShard_eq hw hs (contains_refl _), readDom_ok (by rw [e]; exact contains_shape hw)]
    · exact ⟨_, rfl⟩
    · intro hr i hi
      have hm := (has_toDom hs).mp hi
      exact h3 hr i hm (by rw [e]; exact mem_inShape hw hm)
  | false =>
    obtain ⟨rs, g1, g2, g3, g4⟩ := intersect_spec (Dom.ofShape t.shape) (toDom idx)
      (by rw [ofShape_length, toDom_length, h2, ((within_iff _ _).mp hw).1])
    simp only [Bool.false_eq_true, if_false, g1, Option.bind_some]
    rw [readShard_eq hw hs g3, readDom_ok g2]
    · exact ⟨_, rfl⟩
    · intro hr i hi
      obtain ⟨a, b⟩ := (g4 i).mp hi
      exact h3 hr i ((has_toDom hs).mp b) (has_ofShape.mp a)

/-! ### Grouping the devices -/

abbrev Groups := List (List (Int × Int × Int) × List Nat)

theorem addDevice_mem (k : List (Int × Int × Int)) (d : Nat) : ∀ (l : Groups) (k' : List (Int × Int × Int)) (ds : List Nat) (x : Nat),
    (k', ds) ∈ addDevice k d l → x ∈ ds → (k' = k ∧ x = d) ∨ ∃ ds', (k', ds') ∈ l ∧ x ∈ ds'
  | [], k', ds, x, h, hx => by
    simp only [addDevice, List.mem_singleton, Prod.mk.injEq] at h
    obtain ⟨rfl, rfl⟩ := h
    exact .inl ⟨rfl, by simpa using hx⟩
  | (k0, ds0) :: l, k', ds, x, h, hx => by
    simp only [addDevice] at h
    split at h
    · next e =>
      rcases List.mem_cons.mp h with h | h
      · cases h
        rcases List.mem_append.mp hx with hx | hx
        · exact .inr ⟨ds0, by simp, hx⟩
        · exact .inl ⟨e, by simpa using hx⟩
      · exact .inr ⟨ds, by simp [h], hx⟩
    · rcases List.mem_cons.mp h with h | h
      · cases h
        exact .inr ⟨ds0, by simp, hx⟩
      · rcases addDevice_mem k d l k' ds x h hx with h' | ⟨ds', h', hx'⟩
        · exact .inl h'
        · exact .inr ⟨ds', by simp [h'], hx'⟩

theorem addDevice_perm (k : List (Int × Int × Int)) (d : Nat) : ∀ (l : Groups),
    ((addDevice k d l).flatMap (·.2)).Perm (l.flatMap (·.2) ++ [d])
  | [] => by simp [addDevice]
  | (k0, ds0) :: l => by
    simp only [addDevice]
    split
    · simp only [List.flatMap_cons, List.append_assoc]
      refine List.Perm.append_left _ ?_
      exact List.perm_append_comm
    · simp only [List.flatMap_cons, List.append_assoc]
      exact (addDevice_perm k d l).append_left _

theorem group_spec {g : List Nat} {addr : Nat → Bool} {key : List Slice → List (Int × Int × Int)} :
    ∀ (devs : List (Nat × List Slice)) (acc : Groups), (∀ p ∈ devs, toHashable (p.2.map .slice) g = some (key p.2)) →
    ∃ gr, groupDevices g addr devs acc = some gr ∧
      (gr.flatMap (·.2)).Perm (acc.flatMap (·.2) ++ (devs.filter fun p => addr p.1).map (·.1)) ∧
      ∀ k ds x, (k, ds) ∈ gr → x ∈ ds → (∃ ds', (k, ds') ∈ acc ∧ x ∈ ds') ∨ ∃ idx, (x, idx) ∈ devs ∧ addr x = true ∧ key idx = k
  | [], acc, _ => ⟨acc, rfl, by simp, fun k ds x h hx => .inl ⟨ds, h, hx⟩⟩
  | (d, idx) :: devs, acc, h => by
    have h' : ∀ p ∈ devs, toHashable (p.2.map .slice) g = some (key p.2) := fun p hp => h p (by simp [hp])
    simp only [groupDevices]
    by_cases ha : addr d = true
    · obtain ⟨gr, h1, h2, h3⟩ := group_spec devs (addDevice (key idx) d acc) h'
      refine ⟨gr, by rw [if_pos ha, h (d, idx) (by simp)]; exact h1, ?_, ?_⟩
      · refine h2.trans ?_
        rw [List.filter_cons, if_pos ha, List.map_cons]
        refine ((addDevice_perm _ _ _).append_right _).trans ?_
        simp
      · intro k ds x hk hx
        rcases h3 k ds x hk hx with ⟨ds', hd, hx'⟩ | ⟨idx', hi, hax, hke⟩
        · rcases addDevice_mem _ _ _ _ _ _ hd hx' with ⟨rfl, rfl⟩ | h4
          · exact .inr ⟨idx, by simp, ha, rfl⟩
          · exact .inl h4
        · exact .inr ⟨idx', by simp [hi], hax, hke⟩
    · obtain ⟨gr, h1, h2, h3⟩ := group_spec devs acc h'
      refine ⟨gr, by rw [if_neg ha]; exact h1, ?_, ?_⟩
      · rw [List.filter_cons, if_neg ha]; exact h2
      · intro k ds x hk hx
        rcases h3 k ds x hk hx with h4 | ⟨idx', hi, hax, hke⟩
        · exact .inl h4
        · exact .inr ⟨idx', by simp [hi], hax, hke⟩

theorem addDevice_ne (k : List (Int × Int × Int)) (d : Nat) : ∀ (l : Groups), (∀ p ∈ l, p.2 ≠ []) → ∀ p ∈ addDevice k d l, p.2 ≠ []
  | [], _, p, hp => by
    simp only [addDevice, List.mem_singleton] at hp
    subst hp; simp
  | (k0, ds0) :: l, h, p, hp => by
    simp only [addDevice] at hp
    split at hp
    · rcases List.mem_cons.mp hp with rfl | hp
      · simp
      · exact h p (by simp [hp])
    · rcases List.mem_cons.mp hp with rfl | hp
      · exact h _ (by simp)
      · exact addDevice_ne k d l (fun p hp => h p (by simp [hp])) p hp

theorem group_ne {g : List Nat} {addr : Nat → Bool} : ∀ (devs : List (Nat × List Slice)) (acc gr : Groups),
    (∀ p ∈ acc, p.2 ≠ []) → groupDevices g addr devs acc = some gr → ∀ p ∈ gr, p.2 ≠ []
  | [], acc, gr, h, e => by cases e; exact h
  | (d, idx) :: devs, acc, gr, h, e => by
    simp only [groupDevices] at e
    split at e
    · rw [Option.bind_eq_some_iff] at e
      obtain ⟨k, -, e⟩ := e
      exact group_ne devs _ gr (addDevice_ne k d acc h) e
    · exact group_ne devs acc gr h e

end Verif.Arrays.Zarr
