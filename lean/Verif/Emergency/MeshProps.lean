import Verif.Emergency.Mesh

/-!
# What the consistent mesh guarantees (C74)
-/
namespace Verif.Emergency.Mesh
open Verif.Assoc

theorem allSome_iff {α : Type} (l : List (Option α)) (r : List α) :
    allSome l = some r ↔ l = r.map some := by
  induction l generalizing r with
  | nil => cases r <;> simp [allSome]
  | cons x l ih =>
    cases x with
    | none => cases r <;> simp [allSome]
    | some a =>
      cases r with
      | nil => simp [allSome]
      | cons b r =>
        simp only [allSome, Option.map_eq_some_iff, List.cons.injEq, ih, List.map_cons,
          Option.some.injEq]
        constructor
        · rintro ⟨x, h1, h2, h3⟩
          exact ⟨h2, h3 ▸ h1⟩
        · rintro ⟨h1, h2⟩
          exact ⟨r, h2, h1, rfl⟩

/-! ## Permutations -/

theorem set_foldl_length (ws : List (Nat × Nat)) (acc : List (Option Nat)) :
    (ws.foldl (fun acc w => acc.set w.1 (some w.2)) acc).length = acc.length := by
  induction ws generalizing acc with
  | nil => rfl
  | cons w ws ih => simp [ih]

theorem set_foldl_get (ws : List (Nat × Nat)) (acc : List (Option Nat))
    (hn : (ws.map Prod.fst).Nodup) (hb : ∀ w ∈ ws, w.1 < acc.length) (p : Nat) :
    (∀ v, (p, v) ∈ ws →
      (ws.foldl (fun acc w => acc.set w.1 (some w.2)) acc)[p]? = some (some v)) ∧
    (p ∉ ws.map Prod.fst →
      (ws.foldl (fun acc w => acc.set w.1 (some w.2)) acc)[p]? = acc[p]?) := by
  induction ws generalizing acc with
  | nil => simp
  | cons w ws ih =>
    rw [List.map_cons, List.nodup_cons] at hn
    have hb' : ∀ x ∈ ws, x.1 < (acc.set w.1 (some w.2)).length := by
      intro x hx
      rw [List.length_set]
      exact hb x (List.mem_cons_of_mem _ hx)
    obtain ⟨i1, i2⟩ := ih (acc.set w.1 (some w.2)) hn.2 hb'
    refine ⟨?_, ?_⟩
    · intro v hv
      rcases List.mem_cons.1 hv with h | h
      · subst h
        rw [List.foldl_cons, i2 hn.1]
        have := hb (p, v) (by simp)
        simp only at this
        simp [this]
      · exact i1 v h
    · intro hp
      rw [List.map_cons, List.mem_cons] at hp
      rw [List.foldl_cons, i2 (fun h => hp (Or.inr h)), List.getElem?_set_ne]
      exact fun h => hp (Or.inl h.symm)

theorem set_foldl_mem (ws : List (Nat × Nat)) (acc : List (Option Nat)) (p v : Nat)
    (h : (ws.foldl (fun acc w => acc.set w.1 (some w.2)) acc)[p]? = some (some v)) :
    p ∈ ws.map Prod.fst ∨ acc[p]? = some (some v) := by
  induction ws generalizing acc with
  | nil => exact Or.inr h
  | cons w ws ih =>
    rcases ih _ h with h1 | h1
    · exact Or.inl (by rw [List.map_cons]; exact List.mem_cons_of_mem _ h1)
    · by_cases hp : w.1 = p
      · exact Or.inl (by simp [hp])
      · rw [List.getElem?_set_ne hp] at h1
        exact Or.inr h1

theorem cover_of_nodup (l : List Nat) (n : Nat) (hn : l.Nodup) (hb : ∀ x ∈ l, x < n)
    (hl : l.length = n) (k : Nat) (hk : k < n) : k ∈ l := by
  apply Classical.byContradiction
  intro hno
  have h1 : (k :: l).Nodup := List.nodup_cons.2 ⟨hno, hn⟩
  have := h1.length_le_of_subset (l₂ := List.range n) (by
    intro x hx
    rcases List.mem_cons.1 hx with rfl | hx
    · exact List.mem_range.2 hk
    · exact List.mem_range.2 (hb x hx))
  simp at this; omega

theorem nodup_of_cover (l : List Nat) (n : Nat) (hl : l.length = n)
    (hc : ∀ k < n, k ∈ l) : l.Nodup := by
  rw [List.nodup_iff_count]
  intro a
  apply Classical.byContradiction
  intro h
  have ha : a ∈ l := List.count_pos_iff.1 (by omega)
  have := (List.nodup_range (n := n)).length_le_of_subset (l₂ := l.erase a) (by
    intro x hx
    have hxl := hc x (List.mem_range.1 hx)
    by_cases hxa : x = a
    · subst hxa
      apply List.count_pos_iff.1
      rw [List.count_erase_self]; omega
    · exact (List.mem_erase_of_ne hxa).2 hxl)
  rw [List.length_range, List.length_erase_of_mem ha] at this
  have : 0 < l.length := List.length_pos_of_mem ha
  omega

theorem scatter_spec (n : Nat) (ws : List (Nat × Nat)) (hn : (ws.map Prod.fst).Nodup)
    (hb : ∀ w ∈ ws, w.1 < n) (hl : ws.length = n) :
    ∃ r, scatter n ws = some r ∧ r.length = n ∧ ∀ p v, (p, v) ∈ ws → r[p]? = some v := by
  have hall : (ws.all fun w => decide (w.1 < n)) = true := by
    rw [List.all_eq_true]; intro w hw; simpa using hb w hw
  generalize hacc : ws.foldl (fun acc w => acc.set w.1 (some w.2)) (List.replicate n none) = acc
  have hlen : acc.length = n := by rw [← hacc, set_foldl_length]; simp
  have hget : ∀ p v, (p, v) ∈ ws → acc[p]? = some (some v) := by
    intro p v hpv
    rw [← hacc]
    exact (set_foldl_get ws _ hn (by simpa using hb) p).1 v hpv
  have hfull : ∀ k, k < n → ∃ v, acc[k]? = some (some v) := by
    intro k hk
    have := cover_of_nodup (ws.map Prod.fst) n hn (by
      intro x hx
      obtain ⟨w, hw, rfl⟩ := List.mem_map.1 hx
      exact hb w hw) (by simpa using hl) k hk
    obtain ⟨w, hw, rfl⟩ := List.mem_map.1 this
    exact ⟨w.2, hget w.1 w.2 hw⟩
  have hr : acc = (acc.map fun o => o.getD 0).map some := by
    apply List.ext_getElem?
    intro k
    rw [List.getElem?_map, List.getElem?_map]
    by_cases hk : k < n
    · obtain ⟨v, hv⟩ := hfull k hk
      simp [hv]
    · rw [List.getElem?_eq_none (by omega)]; rfl
  refine ⟨acc.map fun o => o.getD 0, ?_, by simp [hlen], ?_⟩
  · rw [scatter, if_pos hall, hacc, allSome_iff]; exact hr
  · intro p v hpv
    rw [List.getElem?_map, hget p v hpv]; rfl

/-- C74: a list that is a permutation is inverted. -/
theorem C74_flip (l : List Nat) (hn : l.Nodup) (hb : ∀ v ∈ l, v < l.length) :
    ∃ r, flip l = some r ∧ r.length = l.length ∧ ∀ (i v : Nat), l[i]? = some v → r[v]? = some i := by
  obtain ⟨r, h1, h2, h3⟩ := scatter_spec l.length l.zipIdx (by simpa using hn) (by
    intro w hw
    exact hb w.1 (List.mem_of_getElem? (List.mem_zipIdx_iff_getElem?.1 hw))) (by simp)
  exact ⟨r, h1, h2, fun i v hi => h3 v i (List.mem_zipIdx_iff_getElem?.2 hi)⟩

/-- C74: and anything else is refused. -/
theorem C74_flip_refuses (l r : List Nat) (h : flip l = some r) :
    l.Nodup ∧ ∀ v ∈ l, v < l.length := by
  rw [flip, scatter] at h
  split at h
  · rename_i hall
    rw [allSome_iff] at h
    rw [List.all_eq_true] at hall
    refine ⟨nodup_of_cover l l.length rfl ?_, ?_⟩
    · intro k hk
      have hlen := set_foldl_length l.zipIdx (List.replicate l.length none)
      rw [h, List.length_map, List.length_replicate] at hlen
      have hk' : k < r.length := by omega
      have : (List.foldl (fun acc w => acc.set w.1 (some w.2)) (List.replicate l.length none)
          l.zipIdx)[k]? = some (some r[k]) := by
        rw [h, List.getElem?_map, List.getElem?_eq_getElem hk']; rfl
      rcases set_foldl_mem _ _ _ _ this with h1 | h1
      · simpa using h1
      · simp [List.getElem?_replicate] at h1
    · intro v hv
      obtain ⟨i, hi⟩ := List.mem_iff_getElem?.1 hv
      simpa using hall (v, i) (List.mem_zipIdx_iff_getElem?.2 hi)
  · cases h

/-- C74: after a restart, the map of runtime ids sends every process to the process that runs on the
same host (the same distributed id). -/
theorem C74_runtime_ids (n : Nat) (previous current : List Nat)
    (hp : previous.length = n) (hc : current.length = n)
    (hpn : previous.Nodup) (hcn : current.Nodup)
    (hpb : ∀ v ∈ previous, v < n) (hcb : ∀ v ∈ current, v < n) :
    ∃ res, runtimeAcrossRestarts n previous current = some res ∧ res.length = n ∧
      ∀ (r host : Nat), previous[r]? = some host → ∃ r' : Nat, res[r]? = some r' ∧ current[r']? = some host := by
  obtain ⟨c, hc1, hc2, hc3⟩ := C74_flip current hcn (by rw [hc]; exact hcb)
  obtain ⟨p, hp1, hp2, hp3⟩ := C74_flip previous hpn (by rw [hp]; exact hpb)
  have hpl : p.length = n := by omega
  have hcl : c.length = n := by omega
  -- p and c invert previous and current
  have hpinv : ∀ d, d < n → ∃ r, previous[r]? = some d ∧ p[d]? = some r := by
    intro d hd
    have := cover_of_nodup previous n hpn hpb hp d hd
    obtain ⟨r, hr⟩ := List.mem_iff_getElem?.1 this
    exact ⟨r, hr, hp3 r d hr⟩
  have hcinv : ∀ d, d < n → ∃ r, current[r]? = some d ∧ c[d]? = some r := by
    intro d hd
    have := cover_of_nodup current n hcn hcb hc d hd
    obtain ⟨r, hr⟩ := List.mem_iff_getElem?.1 this
    exact ⟨r, hr, hc3 r d hr⟩
  have hzip : ((p.take n).zip (c.take n)) = p.zip c := by
    rw [List.take_of_length_le (by omega), List.take_of_length_le (by omega)]
  have hfst : ((p.zip c).map Prod.fst) = p := by
    rw [List.map_fst_zip]; omega
  have hplt : ∀ x ∈ p, x < n := by
    intro x hx
    obtain ⟨d, hd⟩ := List.mem_iff_getElem?.1 hx
    have hdn : d < n := by
      have := (List.getElem?_eq_some_iff.1 hd).1; omega
    obtain ⟨r, hr1, hr2⟩ := hpinv d hdn
    rw [hd] at hr2; cases hr2
    have := (List.getElem?_eq_some_iff.1 hr1).1; omega
  have hpnd : p.Nodup := by
    apply nodup_of_cover p n hpl
    intro r hr
    have hr' : r < previous.length := by omega
    have h1 := hp3 r previous[r] (List.getElem?_eq_getElem hr')
    exact List.mem_of_getElem? h1
  obtain ⟨res, h1, h2, h3⟩ := scatter_spec n (p.zip c) (by rw [hfst]; exact hpnd) (by
    intro w hw
    exact hplt w.1 (List.of_mem_zip (show (w.1, w.2) ∈ _ from hw)).1) (by simp; omega)
  refine ⟨res, ?_, h2, ?_⟩
  · simp only [runtimeAcrossRestarts, hc1, hp1]
    rw [if_neg (by omega), hzip, h1]
  · intro r host hr
    have hhost : host < n := hpb host (List.mem_of_getElem? hr)
    obtain ⟨r', hr1, hr2⟩ := hcinv host hhost
    refine ⟨r', h3 r r' ?_, hr1⟩
    rw [List.mem_iff_getElem?]
    refine ⟨host, ?_⟩
    have hph := hp3 r host hr
    rw [List.getElem?_zip_eq_some]
    exact ⟨hph, hr2⟩

/-! ## The restore mesh -/

theorem rowPairs_mem : ∀ (p c : List Nat) (l : List (Nat × Nat)), rowPairs p c = some l →
    l.map Prod.fst = p ∧ ∀ x ∈ l, ∃ j : Nat, p[j]? = some x.1 ∧ c[j]? = some x.2
  | [], c, l, h => by
    simp only [rowPairs, Option.some.injEq] at h
    subst h
    simp
  | _ :: _, [], l, h => by simp [rowPairs] at h
  | a :: p, b :: c, l, h => by
    simp only [rowPairs, Option.map_eq_some_iff] at h
    obtain ⟨l', hl', rfl⟩ := h
    obtain ⟨h1, h2⟩ := rowPairs_mem p c l' hl'
    refine ⟨by simp [h1], ?_⟩
    intro x hx
    rcases List.mem_cons.1 hx with rfl | hx
    · exact ⟨0, rfl, rfl⟩
    · obtain ⟨j, h3, h4⟩ := h2 x hx
      exact ⟨j + 1, by simpa using h3, by simpa using h4⟩

theorem allPairs_mem : ∀ (p c : List (List Nat)) (l : List (Nat × Nat)), allPairs p c = some l →
    l.map Prod.fst = p.flatten ∧ ∀ x ∈ l, ∃ (i j : Nat) (rp rc : List Nat), p[i]? = some rp ∧ c[i]? = some rc ∧
      rp[j]? = some x.1 ∧ rc[j]? = some x.2
  | [], c, l, h => by
    simp only [allPairs, Option.some.injEq] at h
    subst h
    simp
  | _ :: _, [], l, h => by simp [allPairs] at h
  | a :: p, b :: c, l, h => by
    simp only [allPairs] at h
    cases h1 : rowPairs a b with
    | none => simp [h1] at h
    | some u =>
      cases h2 : allPairs p c with
      | none => simp [h1, h2] at h
      | some v =>
        simp only [h1, h2, Option.some.injEq] at h
        subst h
        obtain ⟨a1, a2⟩ := rowPairs_mem a b u h1
        obtain ⟨b1, b2⟩ := allPairs_mem p c v h2
        refine ⟨by simp [a1, b1], ?_⟩
        intro x hx
        rcases List.mem_append.1 hx with hx | hx
        · obtain ⟨j, h3, h4⟩ := a2 x hx
          exact ⟨0, j, a, b, rfl, rfl, h3, h4⟩
        · obtain ⟨i, j, rp, rc, h3, h4, h5, h6⟩ := b2 x hx
          exact ⟨i + 1, j, rp, rc, by simpa using h3, by simpa using h4, h5, h6⟩

theorem foldl_put_mem (l : List (Nat × Nat)) (m : List (Nat × Nat)) (k v : Nat)
    (h : Assoc.get (l.foldl (fun m e => put m e.1 e.2) m) k = some v) :
    (k, v) ∈ l ∨ Assoc.get m k = some v := by
  induction l generalizing m with
  | nil => exact Or.inr h
  | cons e l ih =>
    rcases ih _ h with h1 | h1
    · exact Or.inl (List.mem_cons_of_mem _ h1)
    · rw [get_put] at h1
      split at h1
      · rename_i he
        cases h1
        subst he
        exact Or.inl (by simp)
      · exact Or.inr h1

theorem foldl_put_key (l : List (Nat × Nat)) (m : List (Nat × Nat)) (k : Nat) :
    k ∈ keys (l.foldl (fun m e => put m e.1 e.2) m) ↔ k ∈ l.map Prod.fst ∨ k ∈ keys m := by
  induction l generalizing m with
  | nil => simp
  | cons e l ih =>
    rw [List.foldl_cons, ih, mem_keys_put, List.map_cons, List.mem_cons]
    constructor
    · rintro (h | h | h)
      · exact Or.inl (Or.inr h)
      · exact Or.inl (Or.inl h)
      · exact Or.inr h
    · rintro ((h | h) | h)
      · exact Or.inr (Or.inl h)
      · exact Or.inl h
      · exact Or.inr (Or.inr h)

theorem deviceMap_get (previous current : List (List Nat)) (m : List (Nat × Nat))
    (hm : deviceMap previous current = some m) (id c : Nat) (h : Assoc.get m id = some c) :
    ∃ (i j : Nat) (rp rc : List Nat), previous[i]? = some rp ∧ current[i]? = some rc ∧
      rp[j]? = some id ∧ rc[j]? = some c := by
  rw [deviceMap, Option.map_eq_some_iff] at hm
  obtain ⟨l, hl, rfl⟩ := hm
  rcases foldl_put_mem _ _ _ _ h with h1 | h1
  · exact (allPairs_mem _ _ _ hl).2 (id, c) h1
  · simp at h1

theorem restoreMesh_row (previous current : List (List Nat)) (devices : List Nat)
    (mesh new : List (List Nat)) (h : restoreMesh previous current devices mesh = some new) :
    new.length = mesh.length ∧ ∀ (r : Nat) (row : List Nat), mesh[r]? = some row → ∃ row' : List Nat, new[r]? = some row' ∧
      row'.length = row.length ∧ ∀ (k id : Nat), row[k]? = some id → ∃ c, row'[k]? = some c ∧
        c ∈ devices ∧ ∃ (i j : Nat) (rp rc : List Nat), previous[i]? = some rp ∧ current[i]? = some rc ∧
          rp[j]? = some id ∧ rc[j]? = some c := by
  rw [restoreMesh, Option.bind_eq_some_iff] at h
  obtain ⟨m, hm, h⟩ := h
  rw [allSome_iff] at h
  refine ⟨by simpa using (congrArg List.length h).symm, ?_⟩
  intro r row hr
  have h1 := congrArg (fun l => l[r]?) h
  simp only [List.getElem?_map, hr, Option.map_some] at h1
  cases hn : new[r]? with
  | none => rw [hn] at h1; cases h1
  | some row' =>
    rw [hn] at h1
    simp only [Option.map_some, Option.some.injEq] at h1
    rw [restoreRow, allSome_iff] at h1
    refine ⟨row', rfl, by simpa using (congrArg List.length h1).symm, ?_⟩
    intro k id hk
    have h2 := congrArg (fun l => l[k]?) h1
    simp only [List.getElem?_map, hk, Option.map_some] at h2
    cases hc : row'[k]? with
    | none => rw [hc] at h2; cases h2
    | some c =>
      rw [hc] at h2
      simp only [Option.map_some, Option.some.injEq] at h2
      rw [Option.bind_eq_some_iff] at h2
      obtain ⟨c', hc1, hc2⟩ := h2
      split at hc2
      · rename_i hd
        cases hc2
        exact ⟨c, rfl, hd, deviceMap_get previous current m hm id c hc1⟩
      · cases hc2

/-- C74: every position of the restore mesh is the piece of hardware (host and slot) that had the
position before the restart, if device ids were unique. -/
theorem C74_same_hardware (previous current : List (List Nat)) (devices : List Nat)
    (mesh new : List (List Nat)) (huniq : previous.flatten.Nodup)
    (h : restoreMesh previous current devices mesh = some new)
    (r k i j : Nat) (row rp : List Nat) (id : Nat)
    (hr : mesh[r]? = some row) (hk : row[k]? = some id)
    (hi : previous[i]? = some rp) (hj : rp[j]? = some id) :
    ∃ row' rc c, new[r]? = some row' ∧ row'[k]? = some c ∧ current[i]? = some rc ∧
      rc[j]? = some c := by
  obtain ⟨-, hrow⟩ := restoreMesh_row previous current devices mesh new h
  obtain ⟨row', h1, -, h2⟩ := hrow r row hr
  obtain ⟨c, h3, -, i', j', rp', rc, h4, h5, h6, h7⟩ := h2 k id hk
  have : i' = i ∧ j' = j := by
    clear h hrow h1 h2 h3 h5 h7 hr hk
    have key : ∀ (l : List (List Nat)), l.flatten.Nodup → ∀ (a b x y : Nat) (ra rb : List Nat),
        l[a]? = some ra → l[b]? = some rb → ra[x]? = some id → rb[y]? = some id →
        a = b ∧ x = y := by
      intro l
      induction l with
      | nil => intro _ a b x y ra rb ha; simp at ha
      | cons u l ih =>
        intro hn a b x y ra rb ha hb hx hy
        rw [List.flatten_cons, List.nodup_append] at hn
        obtain ⟨n1, n2, n3⟩ := hn
        match a, b with
        | 0, 0 =>
          simp only [List.getElem?_cons_zero, Option.some.injEq] at ha hb
          subst ha; subst hb
          refine ⟨rfl, ?_⟩
          exact (List.getElem?_inj (List.getElem?_eq_some_iff.1 hx).1 n1).1 (by rw [hx, hy])
        | 0, b + 1 =>
          simp only [List.getElem?_cons_zero, Option.some.injEq] at ha
          simp only [List.getElem?_cons_succ] at hb
          subst ha
          exact absurd rfl (n3 id (List.mem_of_getElem? hx) id
            (List.mem_flatten.2 ⟨rb, List.mem_of_getElem? hb, List.mem_of_getElem? hy⟩))
        | a + 1, 0 =>
          simp only [List.getElem?_cons_zero, Option.some.injEq] at hb
          simp only [List.getElem?_cons_succ] at ha
          subst hb
          exact absurd rfl (n3 id (List.mem_of_getElem? hy) id
            (List.mem_flatten.2 ⟨ra, List.mem_of_getElem? ha, List.mem_of_getElem? hx⟩))
        | a + 1, b + 1 =>
          simp only [List.getElem?_cons_succ] at ha hb
          obtain ⟨e1, e2⟩ := ih n2 a b x y ra rb ha hb hx hy
          exact ⟨by omega, e2⟩
    exact key previous huniq i' i j' j rp' rp h4 hi h6 hj
  obtain ⟨rfl, rfl⟩ := this
  exact ⟨row', rc, c, h1, h3, h5, h7⟩

theorem rowPairs_some : ∀ (p c : List Nat), p.length ≤ c.length → ∃ l, rowPairs p c = some l
  | [], c, _ => ⟨[], by simp [rowPairs]⟩
  | _ :: _, [], h => by simp at h
  | a :: p, b :: c, h => by
    obtain ⟨l, hl⟩ := rowPairs_some p c (by simpa using h)
    exact ⟨(a, b) :: l, by simp [rowPairs, hl]⟩

theorem allPairs_some : ∀ (p c : List (List Nat)), p.length ≤ c.length →
    (∀ (i : Nat) rp rc, p[i]? = some rp → c[i]? = some rc → rp.length ≤ rc.length) →
    ∃ l, allPairs p c = some l
  | [], c, _, _ => ⟨[], by simp [allPairs]⟩
  | _ :: _, [], h, _ => by simp at h
  | a :: p, b :: c, h, hl => by
    obtain ⟨u, hu⟩ := rowPairs_some a b (hl 0 a b rfl rfl)
    obtain ⟨v, hv⟩ := allPairs_some p c (by simpa using h)
      (fun i rp rc h1 h2 => hl (i + 1) rp rc (by simpa using h1) (by simpa using h2))
    exact ⟨u ++ v, by simp [allPairs, hu, hv]⟩

theorem allSome_map {α β : Type} (f : α → Option β) (l : List α) (h : ∀ x ∈ l, ∃ y, f x = some y) :
    ∃ r, allSome (l.map f) = some r := by
  induction l with
  | nil => exact ⟨[], rfl⟩
  | cons x l ih =>
    obtain ⟨y, hy⟩ := h x (by simp)
    obtain ⟨r, hr⟩ := ih (fun z hz => h z (List.mem_cons_of_mem _ hz))
    exact ⟨y :: r, by simp [allSome, hy, hr]⟩

/-- C74: the restore mesh exists whenever every host still has its slots and every device of the mesh
belonged to a host. -/
theorem C74_mesh_exists (previous current : List (List Nat)) (devices : List Nat)
    (mesh : List (List Nat)) (hlen : previous.length ≤ current.length)
    (hrows : ∀ (i : Nat) rp rc, previous[i]? = some rp → current[i]? = some rc →
      rp.length ≤ rc.length)
    (hmesh : ∀ row ∈ mesh, ∀ id ∈ row, id ∈ previous.flatten)
    (hdev : ∀ row ∈ current, ∀ id ∈ row, id ∈ devices) :
    ∃ new, restoreMesh previous current devices mesh = some new := by
  obtain ⟨l, hl⟩ := allPairs_some previous current hlen hrows
  have hm : deviceMap previous current = some (l.foldl (fun m e => put m e.1 e.2) []) := by
    simp [deviceMap, hl]
  have hfst := (allPairs_mem _ _ _ hl).1
  rw [restoreMesh, hm]
  simp only [Option.bind_some]
  apply allSome_map
  intro row hrow
  apply allSome_map
  intro id hid
  have hk := (foldl_put_key l [] id).2 (Or.inl (by rw [hfst]; exact hmesh row hrow id hid))
  obtain ⟨c, hc⟩ := (mem_keys_iff _ _).1 hk
  obtain ⟨i, j, rp, rc, h1, h2, h3, h4⟩ := deviceMap_get previous current _ hm id c hc
  refine ⟨c, ?_⟩
  rw [hc]
  simp [hdev rc (List.mem_of_getElem? h2) c (List.mem_of_getElem? h4)]

/-- C74 (finding): with the flag for distributed ids off (it is on by default) the restore mesh is the
old list of ids: if two hosts have exchanged their device ids, positions move to other hardware. -/
theorem C74_plain_fails :
    ∃ (previous current : List (List Nat)) (mesh new : List (List Nat)),
      restoreMeshPlain [0, 1, 2, 3] mesh = some new ∧
      (∃ r k id c : Nat, (mesh[r]?).bind (fun row => row[k]?) = some id ∧
        (new[r]?).bind (fun row => row[k]?) = some c ∧
        hostOf previous id = some 0 ∧ hostOf current c = some 1) := by
  exact ⟨[[0, 1], [2, 3]], [[2, 3], [0, 1]], [[0, 1], [2, 3]], [[0, 1], [2, 3]], by decide,
    0, 0, 0, 0, by decide, by decide, by decide, by decide⟩

/-! ## Reading the local checkpoint -/

theorem hostOf_of_mem (ids : List (List Nat)) (huniq : ids.flatten.Nodup) (i : Nat) (row : List Nat)
    (hi : ids[i]? = some row) (id : Nat) (hid : id ∈ row) : hostOf ids id = some i := by
  have hlt := (List.getElem?_eq_some_iff.1 hi).1
  have hget := (List.getElem?_eq_some_iff.1 hi).2
  rw [hostOf, List.findIdx?_eq_some_iff_getElem]
  refine ⟨hlt, by simpa [hget] using hid, ?_⟩
  intro j hj hc
  have hjm : id ∈ ids[j]'(by omega) := by simpa using hc
  have key : ∀ (l : List (List Nat)), l.flatten.Nodup → ∀ (a b : Nat) (ra rb : List Nat), a < b →
      l[a]? = some ra → l[b]? = some rb → id ∈ ra → id ∈ rb → False := by
    intro l
    induction l with
    | nil => intro _ a b ra rb _ ha; simp at ha
    | cons u l ih =>
      intro hn a b ra rb hab ha hb hx hy
      rw [List.flatten_cons, List.nodup_append] at hn
      obtain ⟨n1, n2, n3⟩ := hn
      match a, b with
      | _, 0 => omega
      | 0, b + 1 =>
        simp only [List.getElem?_cons_zero, Option.some.injEq] at ha
        simp only [List.getElem?_cons_succ] at hb
        subst ha
        exact n3 id hx id (List.mem_flatten.2 ⟨rb, List.mem_of_getElem? hb, hy⟩) rfl
      | a + 1, b + 1 =>
        simp only [List.getElem?_cons_succ] at ha hb
        exact ih n2 a b ra rb (by omega) ha hb hx hy
  exact key ids huniq j i _ row hj (List.getElem?_eq_getElem _) hi hjm hid

/-- C74: if the hosts of the restoring slice are, as a set, the hosts that made up the slice with the
same number before the restart, every position of the slice is read, on the hardware that saved it. -/
theorem C74_slice_read_partial (previous current : List (List Nat)) (devices : List Nat)
    (prevMesh userMesh new : List (List Nat))
    (hpu : previous.flatten.Nodup) (hcu : current.flatten.Nodup)
    (h : restoreMesh previous current devices prevMesh = some new)
    (r : Nat) (prow urow : List Nat) (hpr : prevMesh[r]? = some prow)
    (hur : userMesh[r]? = some urow)
    (hsame : ∀ host : Nat, (∃ id ∈ prow, ∃ row : List Nat, previous[host]? = some row ∧ id ∈ row) →
      ∃ id ∈ urow, ∃ row : List Nat, current[host]? = some row ∧ id ∈ row)
    (k : Nat) (hk : k < prow.length) :
    isRead previous current prevMesh userMesh new r k = true := by
  obtain ⟨-, hrow⟩ := restoreMesh_row previous current devices prevMesh new h
  obtain ⟨row', h1, -, h2⟩ := hrow r prow hpr
  have hkk : prow[k]? = some prow[k] := List.getElem?_eq_getElem hk
  obtain ⟨c, h3, -, i, j, rp, rc, h4, h5, h6, h7⟩ := h2 k _ hkk
  have hhc : hostOf current c = some i := hostOf_of_mem current hcu i rc h5 c (List.mem_of_getElem? h7)
  have hhp : hostOf previous prow[k] = some i :=
    hostOf_of_mem previous hpu i rp h4 _ (List.mem_of_getElem? h6)
  obtain ⟨uid, hu1, urow', hu2, hu3⟩ := hsame i ⟨prow[k], List.getElem_mem hk, rp, h4,
    List.mem_of_getElem? h6⟩
  have hhu : hostOf current uid = some i := hostOf_of_mem current hcu i urow' hu2 uid hu3
  simp only [isRead, h1, Option.bind_some, h3, hhc, hur, Option.getD_some, Bool.and_eq_true]
  refine ⟨List.any_eq_true.2 ⟨uid, hu1, by simpa using hhu⟩, ?_⟩
  rw [savedAt, List.any_eq_true]
  exact ⟨prow, List.mem_of_getElem? hpr, by simp [hkk, hhp]⟩

/-- C74 (finding): the slice that reads is chosen by its number in the new mesh, but the devices it
reads for are those of the slice with that number in the old one.  Here two slices have exchanged
their numbers: the slice whose hosts hold the complete step reads no position at all. -/
theorem C74_swapped_slices_fails :
    ∃ (previous current : List (List Nat)) (prevMesh userMesh new : List (List Nat)),
      restoreMesh previous current [0, 1, 2, 3] prevMesh = some new ∧
      -- hosts 2 and 3 were slice 1, which saves locally, and are now slice 0
      (∀ id ∈ (prevMesh[1]?).getD [], hostOf previous id = some 2 ∨ hostOf previous id = some 3) ∧
      (∀ id ∈ (userMesh[0]?).getD [], hostOf current id = some 2 ∨ hostOf current id = some 3) ∧
      (∀ k, k < 2 → savedAt previous prevMesh (2 + k) k = true) ∧
      ∀ k, k < 2 → isRead previous current prevMesh userMesh new 0 k = false := by
  refine ⟨[[0], [1], [2], [3]], [[2], [3], [0], [1]], [[0, 1], [2, 3]], [[0, 1], [2, 3]],
    [[2, 3], [0, 1]], by decide, by decide, by decide, ?_, ?_⟩
  · intro k hk
    match k with
    | 0 => decide
    | 1 => decide
    | k + 2 => omega
  · intro k hk
    match k with
    | 0 => decide
    | 1 => decide
    | k + 2 => omega

/-- C74 (finding): a slice that is complete by the processes' listings can miss a position when its
hosts come from two old slices. -/
theorem C74_mixed_slices_fails :
    ∃ (previous current : List (List Nat)) (prevMesh userMesh new : List (List Nat)),
      restoreMesh previous current [0, 1, 2, 3] prevMesh = some new ∧
      isRead previous current prevMesh userMesh new 1 0 = false ∧
      isRead previous current prevMesh userMesh new 1 1 = true := by
  exact ⟨[[0], [1], [2], [3]], [[0], [2], [1], [3]], [[0, 1], [2, 3]], [[0, 1], [2, 3]],
    [[0, 2], [1, 3]], by decide, by decide, by decide⟩

/-- C74, non-vacuity: two hosts of a slice have exchanged their device ids; the restore mesh undoes it
and both positions are read. -/
theorem C74_nonvacuous :
    ∃ (previous current : List (List Nat)) (mesh new : List (List Nat)),
      previous.flatten.Nodup ∧ current.flatten.Nodup ∧
      restoreMesh previous current [0, 1, 2, 3, 4, 5, 6, 7] mesh = some new ∧
      mesh = [[0, 1, 2, 3], [4, 5, 6, 7]] ∧ new = [[0, 1, 2, 3], [6, 7, 4, 5]] ∧
      (∀ k, k < 4 → isRead previous current mesh mesh new 1 k = true) ∧
      flip [3, 4, 0, 1, 2] = some [2, 3, 4, 0, 1] ∧ flip [0, 0, 1] = none ∧
      runtimeAcrossRestarts 3 [1, 2, 0] [0, 1, 2] = some [1, 2, 0] := by
  refine ⟨[[0, 1], [2, 3], [4, 5], [6, 7]], [[0, 1], [2, 3], [6, 7], [4, 5]],
    [[0, 1, 2, 3], [4, 5, 6, 7]], [[0, 1, 2, 3], [6, 7, 4, 5]], by decide, by decide, by decide,
    rfl, rfl, ?_, by decide, by decide, by decide⟩
  intro k hk
  match k with
  | 0 => decide
  | 1 => decide
  | 2 => decide
  | 3 => decide
  | k + 4 => omega

end Verif.Emergency.Mesh
