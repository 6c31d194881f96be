import Verif.Tiering.Model

/-!
# Tiering service: invariants of the database over all executions
-/
namespace Verif.Tiering

theorem getElem?_modify_eq {α} (l : List α) (i k : Nat) (f : α → α) :
    (l.modify i f)[k]? = (l[k]?).map (fun x => if i = k then f x else x) := by
  rw [List.getElem?_modify]; cases l[k]? <;> rfl

theorem getElem?_append_one {α} (l : List α) (y : α) (k : Nat) (x : α) :
    (l ++ [y])[k]? = some x ↔ l[k]? = some x ∨ (k = l.length ∧ y = x) := by
  rcases Nat.lt_trichotomy k l.length with h | h | h
  · rw [List.getElem?_append_left h]
    constructor
    · exact fun h => Or.inl h
    · rintro (h' | ⟨h', _⟩)
      · exact h'
      · omega
  · subst h; simp
  · rw [List.getElem?_append_right (by omega)]
    constructor
    · intro h'
      have : ([y] : List α)[k - l.length]? = none := by
        apply List.getElem?_eq_none; simp; omega
      rw [this] at h'; cases h'
    · rintro (h' | ⟨h', _⟩)
      · have := (List.getElem?_eq_some_iff.1 h').1; omega
      · omega

/-! ## The tables as they evolve -/

/-- Rows stay, with their immutable columns. -/
structure Evo (d d' : DB) : Prop where
  a : ∀ (i : Nat) (r : Asset), d.assets[i]? = some r →
    ∃ r', d'.assets[i]? = some r' ∧ r'.path = r.path ∧ (r'.state = .active → r.state = .active)
  t : ∀ (i : Nat) (x : TierPath), d.tps[i]? = some x →
    ∃ x', d'.tps[i]? = some x' ∧ x'.asset = x.asset ∧ x'.backend = x.backend
  j : ∀ (i : Nat) (j : Job), d.jobs[i]? = some j →
    ∃ j', d'.jobs[i]? = some j' ∧ j'.asset = j.asset ∧ j'.kind = j.kind ∧ j'.target = j.target ∧
      j'.createdAt = j.createdAt

theorem Evo.refl (d : DB) : Evo d d :=
  ⟨fun _ r h => ⟨r, h, rfl, id⟩, fun _ x h => ⟨x, h, rfl, rfl⟩,
   fun _ j h => ⟨j, h, rfl, rfl, rfl, rfl⟩⟩

theorem Evo.trans {d e f : DB} (h1 : Evo d e) (h2 : Evo e f) : Evo d f := by
  refine ⟨fun i r h => ?_, fun i x h => ?_, fun i j h => ?_⟩
  · obtain ⟨r1, h1', hp, hs⟩ := h1.a i r h
    obtain ⟨r2, h2', hp2, hs2⟩ := h2.a i r1 h1'
    exact ⟨r2, h2', hp2.trans hp, fun h => hs (hs2 h)⟩
  · obtain ⟨r1, h1', hp, hs⟩ := h1.t i x h
    obtain ⟨r2, h2', hp2, hs2⟩ := h2.t i r1 h1'
    exact ⟨r2, h2', hp2.trans hp, hs2.trans hs⟩
  · obtain ⟨r1, h1', a1, a2, a3, a4⟩ := h1.j i j h
    obtain ⟨r2, h2', b1, b2, b3, b4⟩ := h2.j i r1 h1'
    exact ⟨r2, h2', b1.trans a1, b2.trans a2, b3.trans a3, b4.trans a4⟩

theorem Evo.commit {d d' : DB} (h : Evo d d') : Evo d (commit d d') := by
  unfold Verif.Tiering.commit tryCommit
  split
  · exact h
  · exact Evo.refl d

theorem evo_setAsset (d : DB) (i : Nat) (f : Asset → Asset)
    (hf : ∀ r, (f r).path = r.path ∧ ((f r).state = .active → r.state = .active)) :
    Evo d (d.setAsset i f) := by
  refine ⟨fun k r h => ?_, fun i x h => ⟨x, h, rfl, rfl⟩, fun _ j h => ⟨j, h, rfl, rfl, rfl, rfl⟩⟩
  simp only [DB.setAsset, getElem?_modify_eq, h, Option.map_some]
  split
  · exact ⟨_, rfl, (hf r).1, (hf r).2⟩
  · exact ⟨_, rfl, rfl, id⟩

theorem evo_setTp (d : DB) (i : Nat) (f : TierPath → TierPath)
    (hf : ∀ x, (f x).asset = x.asset ∧ (f x).backend = x.backend) : Evo d (d.setTp i f) := by
  refine ⟨fun _ r h => ⟨r, h, rfl, id⟩, fun k x h => ?_, fun _ j h => ⟨j, h, rfl, rfl, rfl, rfl⟩⟩
  simp only [DB.setTp, getElem?_modify_eq, h, Option.map_some]
  split
  · exact ⟨_, rfl, hf x⟩
  · exact ⟨_, rfl, rfl, rfl⟩

theorem evo_setTpsOf (d : DB) (a : Nat) (f : TierPath → TierPath)
    (hf : ∀ x, (f x).asset = x.asset ∧ (f x).backend = x.backend) : Evo d (d.setTpsOf a f) := by
  refine ⟨fun _ r h => ⟨r, h, rfl, id⟩, fun k x h => ?_, fun _ j h => ⟨j, h, rfl, rfl, rfl, rfl⟩⟩
  simp only [DB.setTpsOf, List.getElem?_map, h, Option.map_some]
  split
  · exact ⟨_, rfl, hf x⟩
  · exact ⟨_, rfl, rfl, rfl⟩

theorem evo_setJob (d : DB) (i : Nat) (f : Job → Job)
    (hf : ∀ j, (f j).asset = j.asset ∧ (f j).kind = j.kind ∧ (f j).target = j.target ∧
      (f j).createdAt = j.createdAt) : Evo d (d.setJob i f) := by
  refine ⟨fun _ r h => ⟨r, h, rfl, id⟩, fun k x h => ⟨x, h, rfl, rfl⟩, fun k j h => ?_⟩
  simp only [DB.setJob, getElem?_modify_eq, h, Option.map_some]
  split
  · exact ⟨_, rfl, hf j⟩
  · exact ⟨_, rfl, rfl, rfl, rfl, rfl⟩

theorem evo_append (d : DB) (la : List Asset) (lt : List TierPath) (lj : List Job) :
    Evo d { assets := d.assets ++ la, tps := d.tps ++ lt, jobs := d.jobs ++ lj } := by
  refine ⟨fun k r h => ⟨r, ?_, rfl, id⟩, fun k x h => ⟨x, ?_, rfl, rfl⟩,
    fun k j h => ⟨j, ?_, rfl, rfl, rfl, rfl⟩⟩
  · rw [List.getElem?_append_left (List.getElem?_eq_some_iff.1 h).1]; exact h
  · rw [List.getElem?_append_left (List.getElem?_eq_some_iff.1 h).1]; exact h
  · rw [List.getElem?_append_left (List.getElem?_eq_some_iff.1 h).1]; exact h

theorem backendOf_evo {d d' : DB} (h : Evo d d') {j j' : Job} (hj : j'.target = j.target)
    (hw : ∀ t, j.target = some t → ∃ x, d.tps[t]? = some x) :
    d'.backendOf j' = d.backendOf j := by
  unfold DB.backendOf
  rw [hj]
  cases ht : j.target with
  | none => rfl
  | some t =>
    obtain ⟨x, hx⟩ := hw t ht
    obtain ⟨x', hx', _, hb⟩ := h.t t x hx
    simp [hx, hx', hb]

/-! ## Database invariant -/

/-- What every reachable database satisfies. -/
structure DInv (d : DB) : Prop where
  tgt : ∀ (i : Nat) (j : Job), d.jobs[i]? = some j →
    (j.kind = .delAll ∧ j.target = none) ∨
    (j.kind = .copy ∧ ∃ t x, j.target = some t ∧ d.tps[t]? = some x ∧ x.asset = j.asset)
  uniq : ∀ (i k : Nat) (j j' : Job) (t : Nat), d.jobs[i]? = some j → d.jobs[k]? = some j' →
    j.target = some t → j'.target = some t → i = k
  tpa : ∀ (t : Nat) (x : TierPath), d.tps[t]? = some x → x.asset < d.assets.length
  rdy : ∀ (t : Nat) (x : TierPath), d.tps[t]? = some x → (x.state = .ready ↔ x.readyAt.isSome)
  rdyJ : ∀ (t : Nat) (x : TierPath), d.tps[t]? = some x → x.readyAt.isSome →
    ∀ (i : Nat) (j : Job), d.jobs[i]? = some j → j.target = some t → j.unfinished = false
  act : ∀ (a : Nat) (r : Asset), d.assets[a]? = some r → r.state = .active →
    ∀ (i : Nat) (j : Job), d.jobs[i]? = some j → j.asset = a → j.kind = .delAll
  exp : ∀ (i : Nat) (j : Job), d.jobs[i]? = some j → j.status = .processing →
    j.expAt.isSome ∧ j.owner.isSome

theorem DInv.commit {d d' : DB} (h : DInv d) (h' : DInv d') : DInv (commit d d') := by
  unfold Verif.Tiering.commit tryCommit
  split
  · exact h'
  · exact h

theorem dinv_setAsset {d : DB} (h : DInv d) (i : Nat) (f : Asset → Asset)
    (hf : ∀ r, (f r).state = .active → r.state = .active) : DInv (d.setAsset i f) := by
  refine ⟨h.tgt, h.uniq, ?_, h.rdy, h.rdyJ, ?_, h.exp⟩
  · intro t x hx; simpa [DB.setAsset] using h.tpa t x hx
  · intro a r hr hs
    simp only [DB.setAsset, getElem?_modify_eq, Option.map_eq_some_iff] at hr
    obtain ⟨r0, h0, rfl⟩ := hr
    apply h.act a r0 h0
    split at hs
    · exact hf _ hs
    · exact hs

theorem dinv_setJob {d : DB} (h : DInv d) (i : Nat) (f : Job → Job)
    (hf : ∀ j, d.jobs[i]? = some j → (f j).asset = j.asset ∧ (f j).kind = j.kind ∧ (f j).target = j.target ∧
      ((f j).unfinished = true → j.unfinished = true) ∧
      ((f j).status = .processing → (f j).expAt.isSome ∧ (f j).owner.isSome)) :
    DInv (d.setJob i f) := by
  have key : ∀ (k : Nat) (j : Job), (d.setJob i f).jobs[k]? = some j → ∃ j0, d.jobs[k]? = some j0 ∧
      j.asset = j0.asset ∧ j.kind = j0.kind ∧ j.target = j0.target ∧
      (j.unfinished = true → j0.unfinished = true) ∧
      (j.status = .processing → j.expAt.isSome ∧ j.owner.isSome) := by
    intro k j hj
    simp only [DB.setJob, getElem?_modify_eq, Option.map_eq_some_iff] at hj
    obtain ⟨j0, h0, rfl⟩ := hj
    refine ⟨j0, h0, ?_⟩
    split
    · subst i; exact hf j0 h0
    · exact ⟨rfl, rfl, rfl, id, h.exp k j0 h0⟩
  refine ⟨?_, ?_, h.tpa, h.rdy, ?_, ?_, ?_⟩
  · intro k j hj
    obtain ⟨j0, h0, e1, e2, e3, e4, _⟩ := key k j hj
    rcases h.tgt k j0 h0 with ⟨a, b⟩ | ⟨a, t, x, b, c, e⟩
    · exact Or.inl ⟨e2 ▸ a, e3 ▸ b⟩
    · exact Or.inr ⟨e2 ▸ a, t, x, e3 ▸ b, c, e1 ▸ e⟩
  · intro k k' j j' t hj hj' ht ht'
    obtain ⟨j0, h0, e1, e2, e3, e4, _⟩ := key k j hj
    obtain ⟨j0', h0', e1', e2', e3', e4', _⟩ := key k' j' hj'
    exact h.uniq k k' j0 j0' t h0 h0' (e3 ▸ ht) (e3' ▸ ht')
  · intro t x hx hr k j hj ht
    obtain ⟨j0, h0, e1, e2, e3, e4, _⟩ := key k j hj
    have := h.rdyJ t x hx hr k j0 h0 (e3 ▸ ht)
    cases hu : j.unfinished
    · rfl
    · exact absurd (e4 hu) (by simp [this])
  · intro a r hr hs k j hj ha
    obtain ⟨j0, h0, e1, e2, e3, e4, _⟩ := key k j hj
    exact e2 ▸ h.act a r hr hs k j0 h0 (e1 ▸ ha)
  · intro k j hj
    obtain ⟨j0, h0, e1, e2, e3, e4, e5⟩ := key k j hj
    exact e5

theorem dinv_setTp {d : DB} (h : DInv d) (t : Nat) (f : TierPath → TierPath)
    (ha : ∀ x, (f x).asset = x.asset)
    (hr : ∀ x, d.tps[t]? = some x → ((f x).state = .ready ↔ (f x).readyAt.isSome))
    (hj : ∀ x, d.tps[t]? = some x → (f x).readyAt.isSome →
      ∀ (i : Nat) (j : Job), d.jobs[i]? = some j → j.target = some t → j.unfinished = false) :
    DInv (d.setTp t f) := by
  have key : ∀ (k : Nat) (x : TierPath), (d.setTp t f).tps[k]? = some x →
      ∃ x0, d.tps[k]? = some x0 ∧ x.asset = x0.asset ∧ ((k = t ∧ x = f x0) ∨ x = x0) := by
    intro k x hx
    simp only [DB.setTp, getElem?_modify_eq, Option.map_eq_some_iff] at hx
    obtain ⟨x0, h0, rfl⟩ := hx
    refine ⟨x0, h0, ?_⟩
    split
    · next e => exact ⟨ha _, Or.inl ⟨e.symm, rfl⟩⟩
    · exact ⟨rfl, Or.inr rfl⟩
  refine ⟨?_, h.uniq, ?_, ?_, ?_, h.act, h.exp⟩
  · intro k j hk
    rcases h.tgt k j hk with a | ⟨a, t', x, b, c, e⟩
    · exact Or.inl a
    · refine Or.inr ⟨a, t', if t = t' then f x else x, b, ?_, ?_⟩
      · simp [DB.setTp, getElem?_modify_eq, c]
      · split <;> simp [ha, e]
  · intro k x hx
    obtain ⟨x0, h0, e, _⟩ := key k x hx
    rw [e]; exact h.tpa k x0 h0
  · intro k x hx
    obtain ⟨x0, h0, e, ⟨rfl, rfl⟩ | rfl⟩ := key k x hx
    · exact hr x0 h0
    · exact h.rdy k _ h0
  · intro k x hx
    obtain ⟨x0, h0, e, ⟨rfl, rfl⟩ | rfl⟩ := key k x hx
    · exact hj x0 h0
    · exact h.rdyJ k _ h0

theorem dinv_setTpsOf {d : DB} (h : DInv d) (a : Nat) (f : TierPath → TierPath)
    (ha : ∀ x, (f x).asset = x.asset)
    (hr : ∀ x, (f x).state ≠ .ready ∧ (f x).readyAt = none) : DInv (d.setTpsOf a f) := by
  have key : ∀ (k : Nat) (x : TierPath), (d.setTpsOf a f).tps[k]? = some x →
      ∃ x0, d.tps[k]? = some x0 ∧ x.asset = x0.asset ∧ (x = f x0 ∨ x = x0) := by
    intro k x hx
    simp only [DB.setTpsOf, List.getElem?_map, Option.map_eq_some_iff] at hx
    obtain ⟨x0, h0, rfl⟩ := hx
    refine ⟨x0, h0, ?_⟩
    split
    · exact ⟨ha _, Or.inl rfl⟩
    · exact ⟨rfl, Or.inr rfl⟩
  refine ⟨?_, h.uniq, ?_, ?_, ?_, h.act, h.exp⟩
  · intro k j hk
    rcases h.tgt k j hk with a' | ⟨a', t', x, b, c, e⟩
    · exact Or.inl a'
    · refine Or.inr ⟨a', t', if x.asset = a then f x else x, b, ?_, ?_⟩
      · simp [DB.setTpsOf, c]
      · split <;> simp [ha, e]
  · intro k x hx
    obtain ⟨x0, h0, e, _⟩ := key k x hx
    rw [e]; exact h.tpa k x0 h0
  · intro k x hx
    obtain ⟨x0, h0, e, rfl | rfl⟩ := key k x hx
    · simp [hr x0]
    · exact h.rdy k _ h0
  · intro k x hx hs
    obtain ⟨x0, h0, e, rfl | rfl⟩ := key k x hx
    · simp [hr x0] at hs
    · exact h.rdyJ k _ h0 hs

theorem tgt_lt {d : DB} (h : DInv d) (i : Nat) (j : Job) (hj : d.jobs[i]? = some j) (t : Nat)
    (ht : j.target = some t) : ∃ x, d.tps[t]? = some x ∧ x.asset = j.asset := by
  rcases h.tgt i j hj with ⟨_, e⟩ | ⟨_, t', x, e, hx, hxa⟩
  · rw [e] at ht; cases ht
  · rw [e] at ht; cases ht; exact ⟨x, hx, hxa⟩

theorem getElem?_append_old {α} {l : List α} {k : Nat} {x : α} (h : l[k]? = some x) (l' : List α) :
    (l ++ l')[k]? = some x := by
  rw [List.getElem?_append_left (List.getElem?_eq_some_iff.1 h).1]; exact h

theorem dinv_newAsset {d : DB} (h : DInv d) (r : Asset) (x : TierPath)
    (hx : x.asset = d.assets.length) (hs : x.state ≠ .ready) (hr : x.readyAt = none) :
    DInv { d with assets := d.assets ++ [r], tps := d.tps ++ [x] } := by
  refine ⟨?_, h.uniq, ?_, ?_, ?_, ?_, h.exp⟩
  · intro i j hj
    rcases h.tgt i j hj with a | ⟨a, t, y, b, c, e⟩
    · exact Or.inl a
    · exact Or.inr ⟨a, t, y, b, getElem?_append_old c _, e⟩
  · intro t y hy
    rw [List.length_append]
    rcases (getElem?_append_one _ _ _ _).1 hy with h' | ⟨_, rfl⟩
    · have := h.tpa t y h'; simp only [List.length_cons, List.length_nil]; omega
    · simp [hx]
  · intro t y hy
    rcases (getElem?_append_one _ _ _ _).1 hy with h' | ⟨_, rfl⟩
    · exact h.rdy t y h'
    · simp [hs, hr]
  · intro t y hy hsome i j hj ht
    rcases (getElem?_append_one _ _ _ _).1 hy with h' | ⟨_, rfl⟩
    · exact h.rdyJ t y h' hsome i j hj ht
    · simp [hr] at hsome
  · intro a r' hr' hs' i j hj ha
    rcases (getElem?_append_one _ _ _ _).1 hr' with h' | ⟨e, rfl⟩
    · exact h.act a r' h' hs' i j hj ha
    · rcases h.tgt i j hj with ⟨a', _⟩ | ⟨a', t, y, b, c, e'⟩
      · exact a'
      · have := h.tpa t y c; omega

theorem dinv_newCopy {d : DB} (h : DInv d) (a : Nat) (r : Asset) (ha : d.assets[a]? = some r)
    (hna : r.state ≠ .active) (x : TierPath) (hxa : x.asset = a) (hs : x.state ≠ .ready)
    (hr : x.readyAt = none) (now : Nat) :
    DInv { d with
      tps := d.tps ++ [x]
      jobs := d.jobs ++ [{ asset := a, kind := .copy, target := some d.tps.length, createdAt := now }] } := by
  have hlt : ∀ (i : Nat) (j : Job), d.jobs[i]? = some j → ∀ t, j.target = some t → t < d.tps.length := by
    intro i j hj t ht
    obtain ⟨y, hy, _⟩ := tgt_lt h i j hj t ht
    exact (List.getElem?_eq_some_iff.1 hy).1
  refine ⟨?_, ?_, ?_, ?_, ?_, ?_, ?_⟩
  · intro i j hj
    rcases (getElem?_append_one _ _ _ _).1 hj with h' | ⟨e, rfl⟩
    · rcases h.tgt i j h' with a | ⟨a, t, y, b, c, e⟩
      · exact Or.inl a
      · exact Or.inr ⟨a, t, y, b, getElem?_append_old c _, e⟩
    · exact Or.inr ⟨rfl, d.tps.length, x, rfl, by simp, hxa⟩
  · intro i k j j' t hj hj' ht ht'
    rcases (getElem?_append_one _ _ _ _).1 hj with h1 | ⟨e1, rfl⟩ <;>
    rcases (getElem?_append_one _ _ _ _).1 hj' with h2 | ⟨e2, rfl⟩
    · exact h.uniq i k j j' t h1 h2 ht ht'
    · cases ht'; exact absurd (hlt i j h1 _ ht) (Nat.lt_irrefl _)
    · cases ht; exact absurd (hlt k j' h2 _ ht') (Nat.lt_irrefl _)
    · omega
  · intro t y hy
    rcases (getElem?_append_one _ _ _ _).1 hy with h' | ⟨_, rfl⟩
    · exact h.tpa t y h'
    · rw [hxa]; exact (List.getElem?_eq_some_iff.1 ha).1
  · intro t y hy
    rcases (getElem?_append_one _ _ _ _).1 hy with h' | ⟨_, rfl⟩
    · exact h.rdy t y h'
    · simp [hs, hr]
  · intro t y hy hsome i j hj ht
    rcases (getElem?_append_one _ _ _ _).1 hy with h' | ⟨_, rfl⟩
    · rcases (getElem?_append_one _ _ _ _).1 hj with h1 | ⟨e1, rfl⟩
      · exact h.rdyJ t y h' hsome i j h1 ht
      · cases ht; exact absurd (List.getElem?_eq_some_iff.1 h').1 (Nat.lt_irrefl _)
    · simp [hr] at hsome
  · intro a' r' hr' hs' i j hj haj
    rcases (getElem?_append_one _ _ _ _).1 hj with h1 | ⟨e1, rfl⟩
    · exact h.act a' r' hr' hs' i j h1 haj
    · cases haj
      rw [ha] at hr'; cases hr'
      exact absurd hs' hna
  · intro i j hj hp
    rcases (getElem?_append_one _ _ _ _).1 hj with h1 | ⟨e1, rfl⟩
    · exact h.exp i j h1 hp
    · cases hp

theorem dinv_newDelete {d : DB} (h : DInv d) (a now : Nat) :
    DInv { d with jobs := d.jobs ++ [{ asset := a, kind := .delAll, target := none, createdAt := now }] } := by
  refine ⟨?_, ?_, h.tpa, h.rdy, ?_, ?_, ?_⟩
  · intro i j hj
    rcases (getElem?_append_one _ _ _ _).1 hj with h' | ⟨e, rfl⟩
    · exact h.tgt i j h'
    · exact Or.inl ⟨rfl, rfl⟩
  · intro i k j j' t hj hj' ht ht'
    rcases (getElem?_append_one _ _ _ _).1 hj with h1 | ⟨e1, rfl⟩ <;>
    rcases (getElem?_append_one _ _ _ _).1 hj' with h2 | ⟨e2, rfl⟩
    · exact h.uniq i k j j' t h1 h2 ht ht'
    · cases ht'
    · cases ht
    · omega
  · intro t y hy hsome i j hj ht
    rcases (getElem?_append_one _ _ _ _).1 hj with h1 | ⟨e1, rfl⟩
    · exact h.rdyJ t y hy hsome i j h1 ht
    · cases ht
  · intro a' r' hr' hs' i j hj haj
    rcases (getElem?_append_one _ _ _ _).1 hj with h1 | ⟨e1, rfl⟩
    · exact h.act a' r' hr' hs' i j h1 haj
    · rfl
  · intro i j hj hp
    rcases (getElem?_append_one _ _ _ _).1 hj with h1 | ⟨e1, rfl⟩
    · exact h.exp i j h1 hp
    · cases hp

/-! ## The unique indices -/

theorem unique_iff {α κ : Type} [DecidableEq κ] (p : α → Bool) (key : α → κ) (l : List α) :
    ((l.filter p).map key).Nodup ↔
      ∀ (i k : Nat) (x y : α), l[i]? = some x → l[k]? = some y → p x = true → p y = true →
        key x = key y → i = k := by
  rw [List.Nodup, List.pairwise_map, List.pairwise_filter, List.pairwise_iff_getElem]
  constructor
  · intro h i k x y hx hy px py he
    obtain ⟨hi, rfl⟩ := List.getElem?_eq_some_iff.1 hx
    obtain ⟨hk, rfl⟩ := List.getElem?_eq_some_iff.1 hy
    rcases Nat.lt_trichotomy i k with h' | h' | h'
    · exact absurd he (h i k hi hk h' px py)
    · exact h'
    · exact absurd he.symm (h k i hk hi h' py px)
  · intro h i k hi hk hlt px py he
    have := h i k _ _ (List.getElem?_eq_getElem hi) (List.getElem?_eq_getElem hk) px py he
    omega

theorem ok_iff (d : DB) : d.ok = true ↔
    (∀ (i k : Nat) (x y : Asset), d.assets[i]? = some x → d.assets[k]? = some y → x.live = true →
      y.live = true → x.path = y.path → i = k) ∧
    (∀ (i k : Nat) (x y : TierPath), d.tps[i]? = some x → d.tps[k]? = some y → x.active = true →
      y.active = true → x.asset = y.asset → x.backend = y.backend → i = k) := by
  unfold DB.ok
  rw [Bool.and_eq_true, decide_eq_true_iff, decide_eq_true_iff, unique_iff, unique_iff]
  constructor
  · rintro ⟨h1, h2⟩
    exact ⟨h1, fun i k x y hx hy px py e1 e2 => h2 i k x y hx hy px py (by simp [e1, e2])⟩
  · rintro ⟨h1, h2⟩
    exact ⟨h1, fun i k x y hx hy px py e => h2 i k x y hx hy px py (by simp at e; exact e.1) (by simp at e; exact e.2)⟩

/-- Rows that keep their keys and do not become live or active keep the indices satisfied. -/
theorem ok_mono {d d' : DB} (h : d.ok = true)
    (ha : ∀ (i : Nat) (x : Asset), d'.assets[i]? = some x → x.live = true →
      ∃ x0, d.assets[i]? = some x0 ∧ x0.live = true ∧ x0.path = x.path)
    (ht : ∀ (i : Nat) (x : TierPath), d'.tps[i]? = some x → x.active = true →
      ∃ x0, d.tps[i]? = some x0 ∧ x0.active = true ∧ x0.asset = x.asset ∧ x0.backend = x.backend) :
    d'.ok = true := by
  rw [ok_iff] at h ⊢
  refine ⟨fun i k x y hx hy px py e => ?_, fun i k x y hx hy px py e1 e2 => ?_⟩
  · obtain ⟨x0, hx0, px0, ex⟩ := ha i x hx px
    obtain ⟨y0, hy0, py0, ey⟩ := ha k y hy py
    exact h.1 i k x0 y0 hx0 hy0 px0 py0 (by rw [ex, ey, e])
  · obtain ⟨x0, hx0, px0, ex, ex'⟩ := ht i x hx px
    obtain ⟨y0, hy0, py0, ey, ey'⟩ := ht k y hy py
    exact h.2 i k x0 y0 hx0 hy0 px0 py0 (by rw [ex, ey, e1]) (by rw [ex', ey', e2])

theorem ok_commit {d d' : DB} (h : d.ok = true) : (commit d d').ok = true := by
  unfold commit tryCommit
  split
  · assumption
  · exact h

end Verif.Tiering
