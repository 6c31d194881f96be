import Verif.Manager.Items

/-!
# Properties of a manager of one unnamed item or of several named ones (C133)
-/

namespace Verif.ManagerItems

variable {X K S R M : Type}

/-! ### Specification -/

/-- Arguments of the constructor that contradict each other. -/
def Contradictory (i : Init) : Prop :=
  (i.registry ≠ none ∧ (i.checkpointers ≠ none ∨ i.itemHandlers ≠ none ∨ i.itemNames ≠ none)) ∨
  ((i.checkpointers = some .single ∨ ∃ n l, i.checkpointers = some (.named (n :: l))) ∧
    ((∃ n l, i.itemNames = some (n :: l)) ∨ i.itemHandlers = some .single ∨ ∃ n l, i.itemHandlers = some (.named (n :: l)))) ∨
  ((∃ n l, i.itemNames = some (n :: l)) ∧ i.itemHandlers = some .single)

/-- The names of items that a manager constructed like this takes. -/
def Takes (i : Init) (n : String) : Prop :=
  n = "metrics" ∨
  match i.checkpointers with
  | some .single => n = "default"
  | some (.named l) => n ∈ l
  | none =>
    match i.itemHandlers, i.itemNames with
    | some .single, _ => n = "default"
    | some (.named l), names => n ∈ l.map (·.1) ∨ n ∈ names.getD []
    | none, some names => n ∈ names
    | none, none => True

/-- A manager takes an item: there is a handler, or one will be found when the item is first used. -/
def Mgr.Accepts (m : Mgr) (n : String) : Prop := n ∈ m.known ∨ m.waiting = none ∨ ∃ l, m.waiting = some l ∧ n ∈ l

/-- The event writes or removes the step in the directory, or may do so. -/
def Event.Touches (dir st : Nat) : Event X K S R M → Prop
  | .save _ st' _ _ _ _ _ => st' = st
  | .gone dir' st' => dir' = dir ∧ st' = st
  | _ => False

/-! ### Lemmas -/

theorem get_mem {α : Type} {l : List (String × α)} {k : String} {v : α} (h : get l k = some v) : (k, v) ∈ l := by
  simp only [get, Option.map_eq_some_iff] at h
  obtain ⟨x, hx, rfl⟩ := h
  have h1 := List.find?_some hx
  have h2 := List.mem_of_find?_eq_some hx
  simp only [decide_eq_true_eq] at h1
  rw [← h1]; exact h2

theorem get_isSome {α : Type} {l : List (String × α)} {k : String} : (get l k).isSome ↔ k ∈ l.map (·.1) := by
  simp [get, List.find?_isSome]

theorem get_cons {α : Type} (a : String) (v : α) (l : List (String × α)) (k : String) : get ((a, v) :: l) k = if a = k then some v else get l k := by
  by_cases h : a = k <;> simp [get, List.find?_cons, h]

theorem get_of_mem {α : Type} : ∀ {l : List (String × α)}, (l.map (·.1)).Nodup → ∀ {k v}, (k, v) ∈ l → get l k = some v
  | [], _, _, _, h => nomatch h
  | (k', v') :: l, hn, k, v, h => by
    simp only [List.map_cons, List.nodup_cons] at hn
    rw [get_cons]
    by_cases hk : k' = k
    · subst hk
      cases h with
      | head => simp
      | tail _ h => exact absurd (List.mem_map.2 ⟨_, h, rfl⟩) hn.1
    · cases h with
      | head => exact absurd rfl hk
      | tail _ h => simpa [hk] using get_of_mem hn.2 h

theorem get_put {α : Type} (l : List (String × α)) (k k' : String) (v : α) : get (put l k v) k' = if k' = k then some v else get l k' := by
  simp only [put]
  split
  · rename_i hs
    have key : ∀ l : List (String × α), get (l.map fun x => if x.1 = k then (k, v) else x) k' =
        if k' = k then (if (get l k).isSome then some v else none) else get l k' := by
      intro l
      induction l with
      | nil => simp [get]
      | cons x l ih =>
        obtain ⟨a, y⟩ := x
        by_cases ha : a = k
        · simp only [List.map_cons, ha, if_true, get_cons]
          by_cases hk : k' = k
          · simp [hk]
          · simp only [hk, Ne.symm (Ne.intro hk), if_false]
            rw [ih]; simp [hk]
        · simp only [List.map_cons, ha, if_false, get_cons]
          rw [ih]
          by_cases hk : k' = k
          · simp [hk, ha]
          · simp [hk]
    rw [key, if_pos hs]
  · rename_i hs
    have hs : get l k = none := by simpa using hs
    have key : ∀ l : List (String × α), get l k = none → get (l ++ [(k, v)]) k' = if k' = k then some v else get l k' := by
      intro l
      induction l with
      | nil =>
        intro _
        show get ((k, v) :: []) k' = _
        rw [get_cons]
        by_cases hk : k' = k
        · simp [hk]
        · simp [hk, Ne.symm (Ne.intro hk)]
      | cons x l ih =>
        intro hn
        obtain ⟨a, y⟩ := x
        rw [get_cons] at hn
        have ha : a ≠ k := by intro ha; simp [ha] at hn
        rw [if_neg ha] at hn
        show get ((a, y) :: (l ++ [(k, v)])) k' = _
        rw [get_cons, get_cons, ih hn]
        by_cases hk : k' = k
        · subst hk; simp [ha]
        · simp [hk]
    exact key l hs

theorem mem_put {α : Type} (l : List (String × α)) (k n : String) (v : α) : n ∈ (put l k v).map (·.1) ↔ n = k ∨ n ∈ l.map (·.1) := by
  rw [← get_isSome, ← get_isSome, get_put]
  by_cases h : n = k <;> simp [h]

theorem items_remove (d : Store S) (st st' : Nat) : (d.remove st).items st' = if st' = st then none else d.items st' := by
  induction d with
  | nil => simp [Store.remove, Store.items]
  | cons x d ih =>
    obtain ⟨a, l⟩ := x
    simp only [Store.remove, Store.items] at ih ⊢
    by_cases ha : a = st
    · rw [List.filter_cons_of_neg (by simpa using ha), ih]
      by_cases hs : st' = st
      · simp [hs]
      · simp only [if_neg hs]
        rw [List.find?_cons_of_neg (by simpa [ha] using Ne.symm (Ne.intro hs))]
    · rw [List.filter_cons_of_pos (by simpa using ha)]
      by_cases hs' : a = st'
      · subst hs'; simp [ha]
      · rw [List.find?_cons_of_neg (by simpa using hs'), List.find?_cons_of_neg (by simpa using hs'), ih]

theorem items_cons (d : Store S) (st st' : Nat) (l : List (String × S)) : Store.items ((st, l) :: d) st' = if st = st' then some l else d.items st' := by
  by_cases h : st = st' <;> simp [Store.items, List.find?_cons, h]

/-! ### What calls do to a manager -/

/-- `m'` is `m` after some calls. -/
structure Later (m m' : Mgr) : Prop where
  dir : m'.dir = m.dir
  mode : ∀ b, m.mode = some b → m'.mode = some b
  best : m'.best = m.best
  known : ∀ n ∈ m.known, n ∈ m'.known
  waiting : m'.waiting = none ↔ m.waiting = none
  accepts : ∀ n, m'.Accepts n ↔ m.Accepts n

theorem Later.refl (m : Mgr) : Later m m := ⟨rfl, fun _ h => h, rfl, fun _ h => h, Iff.rfl, fun _ => Iff.rfl⟩

theorem Later.trans {a b c : Mgr} (h : Later a b) (h' : Later b c) : Later a c :=
  ⟨h'.dir.trans h.dir, fun x hx => h'.mode x (h.mode x hx), h'.best.trans h.best, fun n hn => h'.known n (h.known n hn),
    h'.waiting.trans h.waiting, fun n => (h'.accepts n).trans (h.accepts n)⟩

theorem later_lock (m : Mgr) (b : Bool) : Later m (m.lock b) :=
  ⟨rfl, fun x hx => by simp [Mgr.lock, hx], rfl, fun _ h => h, Iff.rfl, fun _ => Iff.rfl⟩

theorem later_steps (m : Mgr) (l : List Nat) : Later m { m with steps := l } := ⟨rfl, fun _ h => h, rfl, fun _ h => h, Iff.rfl, fun _ => Iff.rfl⟩

theorem register_mode {m m' : Mgr} {n : String} (h : m.register n = some m') : m'.mode = m.mode := by
  simp only [Mgr.register] at h
  repeat' split at h
  all_goals first | cases h | skip
  all_goals rfl

theorem later_register {m m' : Mgr} {n : String} (h : m.register n = some m') : Later m m' := by
  simp only [Mgr.register] at h
  split at h
  · cases h; exact Later.refl m
  · split at h
    · rename_i hw
      cases h
      refine ⟨rfl, fun _ h => h, rfl, fun _ h => by simp [h], by simp [hw], fun k => ?_⟩
      simp [Mgr.Accepts, hw]
    · rename_i un hw
      split at h
      · rename_i hn
        cases h
        refine ⟨rfl, fun _ h => h, rfl, fun _ h => by simp [h], by simp [hw], fun k => ?_⟩
        simp only [Mgr.Accepts, hw, reduceCtorEq, false_or, Option.some.injEq, exists_eq_left', List.mem_append, List.mem_singleton, List.mem_filter,
          decide_eq_true_eq]
        constructor
        · rintro ((h | rfl) | h)
          · exact Or.inl h
          · exact Or.inr hn
          · exact Or.inr h.1
        · rintro (h | h)
          · exact Or.inl (Or.inl h)
          · by_cases hk : k = n
            · exact Or.inl (Or.inr hk)
            · exact Or.inr ⟨h, by simpa using hk⟩
      · cases h

theorem register_iff (m : Mgr) (n : String) : (m.register n).isSome ↔ m.Accepts n := by
  simp only [Mgr.register, Mgr.Accepts]
  split
  · rename_i h; simp [h]
  · rename_i h
    split
    · rename_i hw; simp [hw]
    · rename_i un hw
      split
      · rename_i hn; simp [hw, hn]
      · rename_i hn; simp [hw, hn, h]

theorem later_registerAll : ∀ (l : List String) (m : Mgr), Later m (m.registerAll l).1 ∧ (m.registerAll l).1.mode = m.mode
  | [], m => ⟨Later.refl m, rfl⟩
  | n :: l, m => by
    simp only [Mgr.registerAll]
    split
    · exact ⟨Later.refl m, rfl⟩
    · rename_i m' h
      have ih := later_registerAll l m'
      exact ⟨(later_register h).trans ih.1, ih.2.trans (register_mode h)⟩

theorem registerAll_iff : ∀ (l : List String) (m : Mgr), (m.registerAll l).2 = true ↔ ∀ n ∈ l, m.Accepts n
  | [], m => by simp [Mgr.registerAll]
  | n :: l, m => by
    simp only [Mgr.registerAll, List.forall_mem_cons]
    split
    · rename_i h
      have := register_iff m n
      rw [h] at this
      simp at this
      simp [this]
    · rename_i m' h
      have h1 : m.Accepts n := (register_iff m n).1 (by simp [h])
      rw [registerAll_iff l m']
      simp only [h1, true_and]
      exact forall_congr' fun k => imp_congr_right fun _ => (later_register h).accepts k

theorem later_restoreItems (items : List (String × S)) : ∀ (l : List (String × R)) (m : Mgr),
    Later m (restoreItems items m l).2 ∧ (restoreItems items m l).2.mode = m.mode
  | [], m => ⟨Later.refl m, rfl⟩
  | (n, r) :: l, m => by
    simp only [restoreItems]
    split
    · exact ⟨Later.refl m, rfl⟩
    · split
      · exact ⟨Later.refl m, rfl⟩
      · rename_i m' h
        have ih := later_restoreItems items l m'
        exact ⟨(later_register h).trans ih.1, ih.2.trans (register_mode h)⟩

/-- What the loop of a restore returns. -/
theorem restoreItems_ok (items : List (String × S)) : ∀ (l : List (String × R)) (m : Mgr),
    (∀ x ∈ l, x.1 ∈ items.map (·.1) ∧ m.Accepts x.1) →
    ∃ q, (restoreItems items m l).1 = some q ∧ q.map (fun x => (x.1, x.2.2)) = l ∧ ∀ x ∈ q, get items x.1 = some x.2.1
  | [], m, _ => ⟨[], rfl, rfl, by simp⟩
  | (n, r) :: l, m, h => by
    have h1 := h (n, r) List.mem_cons_self
    obtain ⟨s, hs⟩ := Option.isSome_iff_exists.1 (get_isSome.2 h1.1)
    obtain ⟨m', hm⟩ := Option.isSome_iff_exists.1 ((register_iff m n).2 h1.2)
    obtain ⟨q, hq, hq1, hq2⟩ := restoreItems_ok items l m' fun x hx =>
      ⟨(h x (List.mem_cons_of_mem _ hx)).1, ((later_register hm).accepts _).2 (h x (List.mem_cons_of_mem _ hx)).2⟩
    refine ⟨(n, (s, r)) :: q, ?_, by simp [hq1], ?_⟩
    · simp only [restoreItems, hs, hm, hq, Option.map_some]
    · intro x hx
      cases hx with
      | head => exact hs
      | tail _ hx => exact hq2 x hx

theorem later_of_registerAll {l : List String} {m m2 : Mgr} {b : Bool} (h : m.registerAll l = (m2, b)) : Later m m2 ∧ m2.mode = m.mode := by
  have := later_registerAll l m
  rw [h] at this; exact this

theorem later_of_restoreItems {items : List (String × S)} {l : List (String × R)} {m m2 : Mgr} {o} (h : restoreItems items m l = (o, m2)) :
    Later m m2 ∧ m2.mode = m.mode := by
  have := later_restoreItems items l m
  rw [h] at this; exact this

theorem later_save (c : Classes X K S R M) (m : Mgr) (d : Store S) (st : Nat) (items kw metrics go args) :
    Later m (save c m d st items kw metrics go args).2.1 := by
  simp only [save]
  have hl := later_lock m (modeOfArgs args)
  repeat' split
  · exact Later.refl m
  · exact hl
  · exact hl
  · exact hl
  · exact hl
  · rename_i m2 h
    exact hl.trans (later_of_registerAll h).1
  · rename_i m2 h
    exact (hl.trans (later_of_registerAll h).1).trans (later_steps m2 _)

theorem later_restore (c : Classes X K S R M) (m : Mgr) (d : Store S) (o : Bool) (st items kw args) :
    Later m (restore c m d o st items kw args).2 := by
  simp only [restore]
  split
  · exact Later.refl m
  · rename_i step _
    have hl := later_lock m (modeOfDir d step)
    repeat' split
    all_goals first | exact hl | skip
    all_goals
      rename_i h
      exact hl.trans (later_of_restoreItems h).1

theorem later_metadata (m : Mgr) (d : Store S) (st : Nat) : Later m (metadata (R := R) m d st).2 := by
  simp only [metadata]
  repeat' split
  · exact Later.refl m
  all_goals exact later_lock m _

/-- A manager stays in its place through a call. -/
theorem later_step (c : Classes X K S R M) (w : World S) (e : Event X K S R M) (j : Nat) (m : Mgr) (h : w.mgrs[j]? = some m) :
    ∃ m', (step c w e).2.mgrs[j]? = some m' ∧ Later m m' := by
  have hj : j < w.mgrs.length := (List.getElem?_eq_some_iff.1 h).1
  have key : ∀ (k : Nat) (m0 m1 : Mgr), w.mgrs[k]? = some m0 → Later m0 m1 → ∃ m', (w.mgrs.set k m1)[j]? = some m' ∧ Later m m' := by
    intro k m0 m1 h0 hl
    by_cases hk : k = j
    · subst hk
      rw [h] at h0; cases h0
      exact ⟨m1, by simp [hj], hl⟩
    · exact ⟨m, by rw [List.getElem?_set_ne hk]; exact h, Later.refl m⟩
  cases e with
  | new dir i =>
    simp only [step]
    split
    · exact ⟨m, h, Later.refl m⟩
    · exact ⟨m, by rw [List.getElem?_append_left hj]; exact h, Later.refl m⟩
  | save k st items kw metrics go args =>
    simp only [step]
    split
    · exact ⟨m, h, Later.refl m⟩
    · rename_i m0 h0
      exact key k m0 _ h0 (later_save c m0 _ _ _ _ _ _ _)
  | restore k st dir items kw args =>
    simp only [step]
    split
    · exact ⟨m, h, Later.refl m⟩
    · rename_i m0 h0
      exact key k m0 _ h0 (later_restore c m0 _ _ _ _ _ _)
  | metadata k st =>
    simp only [step]
    split
    · exact ⟨m, h, Later.refl m⟩
    · rename_i m0 h0
      exact key k m0 _ h0 (later_metadata (R := R) m0 _ _)
  | reload k =>
    simp only [step]
    split
    · exact ⟨m, h, Later.refl m⟩
    · rename_i m0 h0
      exact key k m0 _ h0 (later_steps m0 _)
  | gone dir st => exact ⟨m, h, Later.refl m⟩

theorem later_run (c : Classes X K S R M) : ∀ (es : List (Event X K S R M)) (w : World S) (j : Nat) (m : Mgr), w.mgrs[j]? = some m →
    ∃ m', (run c w es).mgrs[j]? = some m' ∧ Later m m'
  | [], w, j, m, h => ⟨m, h, Later.refl m⟩
  | e :: es, w, j, m, h => by
    obtain ⟨m1, h1, l1⟩ := later_step c w e j m h
    obtain ⟨m2, h2, l2⟩ := later_run c es (step c w e).2 j m1 h1
    exact ⟨m2, h2, l1.trans l2⟩

theorem run_append (c : Classes X K S R M) (w : World S) (es es' : List (Event X K S R M)) : run c w (es ++ es') = run c (run c w es) es' := by
  simp [run]

theorem run_cons (c : Classes X K S R M) (w : World S) (e : Event X K S R M) (es) : run c w (e :: es) = run c (step c w e).2 es := rfl

theorem lock_mode (m : Mgr) (b : Bool) : (m.lock b).mode = some (m.mode.getD b) := rfl

/-- What a successful save does. -/
theorem save_saved {c : Classes X K S R M} {m m' : Mgr} {d d' : Store S} {st : Nat} {items kw metrics go args}
    (h : save c m d st items kw metrics go args = (.saved, m', d')) :
    ∃ l, go = true ∧ st ∉ m.steps ∧ valid c.isArgs (some (m.mode.getD (modeOfArgs args))) items args = true ∧
      saveArgs c (m.lock (modeOfArgs args)) items kw args = some l ∧ (∀ n ∈ (withMetrics c m metrics l).map (·.1), m.Accepts n) ∧
      d' = (st, withMetrics c m metrics l) :: d.remove st ∧ m'.mode = some (m.mode.getD (modeOfArgs args)) := by
  simp only [save] at h
  split at h
  · cases h
  split at h
  · cases h
  rename_i hv
  split at h
  · cases h
  rename_i hg
  split at h
  · cases h
  rename_i hs
  split at h
  · cases h
  rename_i l hl
  split at h
  · cases h
  rename_i m2 hr
  obtain ⟨-, h2⟩ := Prod.mk.inj h
  obtain ⟨h3, h4⟩ := Prod.mk.inj h2
  have hacc := (registerAll_iff _ _).1 (show (Mgr.registerAll (m.lock (modeOfArgs args)) _).2 = true by rw [hr])
  refine ⟨l, by simpa using hg, hs, (by show valid c.isArgs (m.lock (modeOfArgs args)).mode items args = true; simpa using hv), hl, fun n hn => ?_, h4.symm, ?_⟩
  · exact hacc n hn
  · rw [← h3]; exact (later_of_registerAll hr).2

/-- A save does not touch other steps. -/
theorem save_other (c : Classes X K S R M) (m : Mgr) (d : Store S) (st st' : Nat) (items kw metrics go args) (hs : st' ≠ st) :
    (save c m d st items kw metrics go args).2.2.items st' = d.items st' := by
  simp only [save]
  repeat' split
  all_goals simp [items_remove, items_cons, hs, Ne.symm hs]

theorem step_items (c : Classes X K S R M) (w : World S) (e : Event X K S R M) (dir st : Nat) (h : ¬ e.Touches dir st) :
    ((step c w e).2.dirs dir).items st = (w.dirs dir).items st := by
  cases e with
  | new dir' i => simp only [step]; split <;> rfl
  | save k st' items kw metrics go args =>
    simp only [step]
    split
    · rfl
    · rename_i m hm
      simp only [World.write]
      split
      · rename_i hd
        rw [hd]
        exact save_other c m _ st' st _ _ _ _ _ (fun h' => h h'.symm)
      · rfl
  | restore k st' dir' items kw args => simp only [step]; split <;> rfl
  | metadata k st' => simp only [step]; split <;> rfl
  | reload k => simp only [step]; split <;> rfl
  | gone dir' st' =>
    simp only [step, World.write]
    split
    · rename_i hd
      rw [items_remove, if_neg]
      · rw [hd]
      · intro hs; exact h ⟨hd.symm, hs.symm⟩
    · rfl

theorem run_items (c : Classes X K S R M) (dir st : Nat) : ∀ (es : List (Event X K S R M)) (w : World S), (∀ e ∈ es, ¬ e.Touches dir st) →
    ((run c w es).dirs dir).items st = (w.dirs dir).items st
  | [], _, _ => rfl
  | e :: es, w, h => by
    rw [run_cons, run_items c dir st es _ fun e he => h e (List.mem_cons_of_mem _ he), step_items c w e dir st (h e List.mem_cons_self)]

/-! ### Managers that exist -/

/-- What holds of every manager. -/
structure Inv (m : Mgr) : Prop where
  open_ : m.mode = none → m.waiting = none
  default : m.mode = some true → m.waiting ≠ none → defaultName ∈ m.known
  metric : metricName ∈ m.known

theorem inv_later {m m' : Mgr} (h : Inv m) (hl : Later m m') : Inv m' := by
  refine ⟨fun h1 => ?_, fun h1 h2 => ?_, hl.known _ h.metric⟩
  · apply hl.waiting.2
    apply h.open_
    cases hm : m.mode with
    | none => rfl
    | some b => rw [hl.mode b hm] at h1; cases h1
  · have h2' : m.waiting ≠ none := fun h3 => h2 (hl.waiting.2 h3)
    cases hm : m.mode with
    | none => exact absurd (h.open_ hm) h2'
    | some b =>
      rw [hl.mode b hm] at h1
      cases h1
      exact hl.known _ (h.default hm h2')

theorem inv_init {dir : Nat} {onDisk : List Nat} {i : Init} {m : Mgr} (h : init dir onDisk i = some m) : Inv m ∧ m.steps = onDisk ∧ m.dir = dir := by
  simp only [init] at h
  repeat' split at h
  all_goals first | (cases h; done) | skip
  all_goals injection h with h
  all_goals subst h
  all_goals refine ⟨⟨fun h1 => ?_, fun h1 h2 => ?_, ?_⟩, rfl, rfl⟩
  all_goals first
    | (simp at h1; done)
    | (simp at h2; done)
    | (simp; done)
    | skip
  all_goals
    simp only [List.mem_map, List.mem_filter]
    refine ⟨(metricName, true), ⟨?_, rfl⟩, rfl⟩
    apply get_mem
    rw [get_put, if_pos rfl]

theorem inv_step (c : Classes X K S R M) (w : World S) (e : Event X K S R M) (h : ∀ m ∈ w.mgrs, Inv m) : ∀ m ∈ (step c w e).2.mgrs, Inv m := by
  have key : ∀ (k : Nat) (m0 m1 : Mgr), w.mgrs[k]? = some m0 → Later m0 m1 → ∀ m ∈ w.mgrs.set k m1, Inv m := by
    intro k m0 m1 h0 hl m hm
    rcases List.mem_or_eq_of_mem_set hm with hm | rfl
    · exact h m hm
    · exact inv_later (h m0 (List.mem_of_getElem? h0)) hl
  cases e with
  | new dir i =>
    simp only [step]
    split
    · exact h
    · rename_i m hm
      intro m' hm'
      rcases List.mem_append.1 hm' with hm' | hm'
      · exact h m' hm'
      · rw [List.mem_singleton.1 hm']; exact (inv_init hm).1
  | save k st items kw metrics go args =>
    simp only [step]
    split
    · exact h
    · rename_i m0 h0
      exact key k m0 _ h0 (later_save c m0 _ _ _ _ _ _ _)
  | restore k st dir items kw args =>
    simp only [step]
    split
    · exact h
    · rename_i m0 h0
      exact key k m0 _ h0 (later_restore c m0 _ _ _ _ _ _)
  | metadata k st =>
    simp only [step]
    split
    · exact h
    · rename_i m0 h0
      exact key k m0 _ h0 (later_metadata (R := R) m0 _ _)
  | reload k =>
    simp only [step]
    split
    · exact h
    · rename_i m0 h0
      exact key k m0 _ h0 (later_steps m0 _)
  | gone dir st => exact h

theorem inv_run (c : Classes X K S R M) : ∀ (es : List (Event X K S R M)) (w : World S), (∀ m ∈ w.mgrs, Inv m) → ∀ m ∈ (run c w es).mgrs, Inv m
  | [], _, h => h
  | e :: es, w, h => inv_run c es _ (inv_step c w e h)

theorem inv_reached (c : Classes X K S R M) (es : List (Event X K S R M)) {j : Nat} {m : Mgr} (h : (run c World.start es).mgrs[j]? = some m) : Inv m :=
  inv_run c es World.start (by simp [World.start]) m (List.mem_of_getElem? h)

/-! ### The constructor -/

/-- C133: the constructor refuses exactly contradictory arguments. -/
theorem C133_refused (dir : Nat) (onDisk : List Nat) (i : Init) : init dir onDisk i = none ↔ Contradictory i := by
  obtain ⟨cp, names, hs, reg, best⟩ := i
  simp only [init, Contradictory]
  rcases cp with _ | (_ | _ | ⟨a, l⟩) <;> rcases names with _ | _ | ⟨b, l'⟩ <;> rcases hs with _ | (_ | _ | ⟨e, l''⟩) <;> rcases reg with _ | r <;>
    simp [Legacy.truth, Handlers.truth, namesTruth]

/-- C133: which way of use the constructor fixes: one checkpointer or handler is for one unnamed item, several or names are for named items, and with a
registry or nothing it is left open. -/
theorem C133_constructed (dir : Nat) (onDisk : List Nat) (i : Init) (m : Mgr) (h : init dir onDisk i = some m) :
    (m.mode = some true ↔ i.checkpointers = some .single ∨ (i.checkpointers = none ∧ i.itemHandlers = some .single)) ∧
    (m.mode = none ↔ i.checkpointers = none ∧ i.itemHandlers = none ∧ i.itemNames = none) := by
  obtain ⟨cp, names, hs, reg, best⟩ := i
  simp only [init] at h
  rcases cp with _ | (_ | _ | ⟨a, l⟩) <;> rcases names with _ | _ | ⟨b, l'⟩ <;> rcases hs with _ | (_ | _ | ⟨e, l''⟩) <;> rcases reg with _ | r <;>
    simp [Legacy.truth, Handlers.truth, namesTruth] at h <;> subst h <;> simp

theorem mem_allHandlers (n : String) : ∀ (l : List (String × Bool)) (acc : List (String × Bool)),
    n ∈ (l.foldl (fun acc x => put acc x.1 x.2) acc).map (·.1) ↔ n ∈ l.map (·.1) ∨ n ∈ acc.map (·.1)
  | [], acc => by simp
  | x :: l, acc => by
    rw [List.foldl_cons, mem_allHandlers n l, mem_put, List.map_cons, List.mem_cons]
    constructor
    · rintro (h | h | h) <;> simp [h]
    · rintro ((h | h) | h) <;> simp [h]

theorem accepts_init {dir : Nat} {onDisk : List Nat} {i : Init} {m : Mgr} (h : init dir onDisk i = some m) (n : String) : m.Accepts n ↔ Takes i n := by
  have split : ∀ all : List (String × Bool), (n ∈ (all.filter (·.2)).map (·.1) ∨ n ∈ (all.filter fun x => !x.2).map (·.1)) ↔ n ∈ all.map (·.1) := by
    intro all
    simp only [List.mem_map, List.mem_filter]
    constructor
    · rintro (⟨x, hx, rfl⟩ | ⟨x, hx, rfl⟩) <;> exact ⟨x, hx.1, rfl⟩
    · rintro ⟨x, hx, rfl⟩
      cases hb : x.2
      · exact Or.inr ⟨x, ⟨hx, by simp [hb]⟩, rfl⟩
      · exact Or.inl ⟨x, ⟨hx, hb⟩, rfl⟩
  obtain ⟨cp, names, hs, reg, best⟩ := i
  simp only [init] at h
  rcases cp with _ | (_ | _ | ⟨a, l⟩) <;> rcases names with _ | _ | ⟨b, l'⟩ <;> rcases hs with _ | (_ | _ | ⟨e, l''⟩) <;> rcases reg with _ | r <;>
    simp [Legacy.truth, Handlers.truth, namesTruth] at h <;> subst h <;>
    simp only [Mgr.Accepts, Takes, reduceCtorEq, false_or, Option.some.injEq, exists_eq_left', split, mem_put, allHandlers, mem_allHandlers] <;>
    simp [metricName, defaultName, or_comm, or_left_comm]

/-- C133: which items a manager takes is fixed by its constructor for all its life: without names, all; otherwise the named ones and the metrics. -/
theorem C133_items (c : Classes X K S R M) (es es' : List (Event X K S R M)) (dir : Nat) (i : Init) (hi : ¬ Contradictory i) :
    ∃ m, (run c World.start (es ++ .new dir i :: es')).mgrs[(run c World.start es).mgrs.length]? = some m ∧ ∀ n, m.Accepts n ↔ Takes i n := by
  have hne : init dir ((((run c World.start es).dirs dir)).map (·.1)) i ≠ none := fun h => hi ((C133_refused _ _ i).1 h)
  obtain ⟨m, hm⟩ := Option.ne_none_iff_exists'.1 hne
  rw [run_append, run_cons]
  have h1 : (step c (run c World.start es) (.new dir i)).2.mgrs[(run c World.start es).mgrs.length]? = some m := by
    simp only [step, hm]
    simp
  obtain ⟨m', h2, hl⟩ := later_run c es' _ _ m h1
  exact ⟨m', h2, fun n => (hl.accepts n).trans (accepts_init hm n)⟩

/-- C133 (finding): a manager constructed with names of items, but without handlers, does not save these items in the deprecated form
(`save(step, items)`), although it takes them in a `Composite`: for each the form needs a handler, and there is none yet. -/
theorem C133_names_deprecated_form_fails (c : Classes X K S R M) (dir : Nat) (onDisk : List Nat) (i : Init) (m : Mgr)
    (h : init dir onDisk i = some m) (hc : i.checkpointers = none) (hh : i.itemHandlers = none) (names : List String)
    (hn : i.itemNames = some names) (x : X) (l : List (String × X)) (hx : c.mapping x = some l) (n : String)
    (hl : n ∈ l.map (·.1)) (hm : n ≠ "metrics") (d : Store S) (st : Nat) (kw metrics go) :
    (save c m d st (some x) kw metrics go none).1 ≠ .saved ∧ (save c m d st (some x) kw metrics go none).2.2 = d := by
  obtain ⟨cp, nm, hs, reg, best⟩ := i
  simp only at hc hh hn
  subst hc hh hn
  have hk : m.mode = some false ∧ n ∉ m.known := by
    simp only [init] at h
    rcases reg with _ | r <;> simp [Legacy.truth, Handlers.truth] at h
    subst h
    refine ⟨rfl, ?_⟩
    simp only [List.mem_map, List.mem_filter, not_exists, not_and]
    rintro y ⟨hy, hb⟩ rfl
    simp only [allHandlers, List.foldl_nil] at hy
    have key : ∀ acc : List (String × Bool), (∀ z ∈ acc, z.2 = false) → y ∈ put acc metricName true → y.1 = metricName := by
      intro acc ha hy
      simp only [put] at hy
      by_cases hg : (get acc metricName).isSome = true
      · rw [if_pos hg] at hy
        obtain ⟨z, hz, he⟩ := List.mem_map.1 hy
        by_cases h1 : z.1 = metricName
        · rw [if_pos h1] at he; rw [← he]
        · rw [if_neg h1] at he; rw [← he, ha z hz] at hb; cases hb
      · rw [if_neg hg] at hy
        rcases List.mem_append.1 hy with h1 | h1
        · rw [ha y h1] at hb; cases hb
        · rw [List.mem_singleton.1 h1]
    exact hm (key _ (by simp) hy)
  have hleg : ∀ (l : List (String × X)) (kw : String → Option K), n ∈ l.map (·.1) → legacySave c m.known kw l = none := by
    intro l
    induction l with
    | nil => intro _ h; simp at h
    | cons p l ih =>
      intro kw h
      obtain ⟨k, y⟩ := p
      simp only [legacySave]
      split
      · rename_i hkn
        have hne : n ≠ k := fun e => hk.2 (e ▸ hkn)
        have : n ∈ l.map (·.1) := by simpa [hne] using h
        rw [ih kw this]; rfl
      · rfl
  have hs : saveArgs c (m.lock (modeOfArgs (none : Option (Args S)))) (some x) kw (none : Option (Args S)) = none := by
    have hlock : m.lock (modeOfArgs (none : Option (Args S))) = m := by
      obtain ⟨_, mode, _, _, _, _⟩ := m
      simp only at hk
      obtain ⟨rfl, -⟩ := hk
      rfl
    rw [hlock]
    simp [saveArgs, itemsOf, hk.1, hx, hleg l _ hl]
  simp only [save, Option.isNone_some, Bool.false_and, Bool.false_eq_true, if_false, hs]
  repeat' split
  all_goals simp

/-! ### The way of use -/

/-- C133: once fixed, the way of use of a manager never changes. -/
theorem C133_fixed (c : Classes X K S R M) (w : World S) (es : List (Event X K S R M)) (j : Nat) (m : Mgr) (b : Bool) (h : w.mgrs[j]? = some m)
    (hb : m.mode = some b) : ∃ m', (run c w es).mgrs[j]? = some m' ∧ m'.mode = some b := by
  obtain ⟨m', h', hl⟩ := later_run c es w j m h
  exact ⟨m', h', hl.mode b hb⟩

/-- C133: if it was left open, the first save that gets as far as looking at its arguments fixes it, by whether they are a `Composite`. -/
theorem C133_first_save (c : Classes X K S R M) (m : Mgr) (d : Store S) (st : Nat) (items kw metrics go) (args : Args S) (hm : m.mode = none) :
    (save c m d st items kw metrics go (some args)).2.1.mode = some (match args with | .composite _ => false | _ => true) := by
  have hl : (m.lock (modeOfArgs (some args))).mode = some (match args with | .composite _ => false | _ => true) := by
    rw [lock_mode, hm]; cases args <;> rfl
  revert hl
  generalize some (match args with | .composite _ => false | _ => true) = b
  intro hl
  simp only [save, Option.isNone_some, Bool.and_false, Bool.false_eq_true, if_false]
  repeat' split
  all_goals first | exact hl | skip
  all_goals
    rename_i h
    exact ((later_of_registerAll h).2).trans hl

/-- C133: and a restore of a step fixes it by the items of the step. -/
theorem C133_first_restore (c : Classes X K S R M) (m : Mgr) (d : Store S) (o : Bool) (st : Nat) (items kw args) (l : List (String × S))
    (hm : m.mode = none) (hd : d.items st = some l) :
    (restore c m d o (some st) items kw args).2.mode = some (decide ("default" ∈ l.map (·.1))) := by
  have hl : (m.lock (modeOfDir d st)).mode = some (decide ("default" ∈ l.map (·.1))) := by
    rw [lock_mode, hm]
    simp only [modeOfDir, hd, Option.getD_none, Option.some.injEq]
    rw [Bool.eq_iff_iff, decide_eq_true_eq]
    exact get_isSome
  simp only [restore, stepToRestore]
  repeat' split
  all_goals first | exact hl | skip
  all_goals
    rename_i h
    exact ((later_of_restoreItems h).2).trans hl

/-- C133: a manager of one unnamed item refuses a `Composite`, and a manager of named items refuses anything else, on saving and restoring; nothing is
written. -/
theorem C133_wrong_args (c : Classes X K S R M) (m : Mgr) (d : Store S) (b : Bool) (hm : m.mode = some b) (st : Nat) (st' : Option Nat) (o : Bool)
    (items kw metrics go) (sargs : Args S) (rargs : Args R)
    (hs : (∃ l, sargs = .composite l) ↔ b = true) (hr : (∃ l, rargs = .composite l) ↔ b = true) :
    save c m d st items kw metrics go (some sargs) = (.refused, m, d) ∧ restore c m d o st' items kw (some rargs) = (.refused, m) := by
  have hlock : ∀ x, m.lock x = m := by
    intro x; obtain ⟨_, mode, _, _, _, _⟩ := m
    simp only at hm; subst hm; rfl
  have hv : ∀ {T : Type} (a : Args T), ((∃ l, a = .composite l) ↔ b = true) → valid c.isArgs m.mode items (some a) = false := by
    intro T a ha
    simp only [valid, hm]
    split
    · rfl
    · cases a with
      | other => rfl
      | composite l => have := ha.1 ⟨l, rfl⟩; simp [this]
      | single t =>
        have : b = false := by
          cases b with
          | false => rfl
          | true => obtain ⟨l, hl⟩ := ha.2 rfl; cases hl
        simp [this]
  constructor
  · simp [save, hlock, hv sargs hs]
  · simp only [restore]
    split
    · rfl
    · simp [hlock, hv rargs hr]

/-- C133: hence all checkpoints that a manager writes are of one kind: after a save of an unnamed item, every save of named items is refused, and the
other way round, whatever happens in between. -/
theorem C133_one_kind (c : Classes X K S R M) (w : World S) (es : List (Event X K S R M)) (j st st' : Nat) (items kw metrics go items' kw' metrics' go')
    (a a' : Args S) (hs : (step c w (.save j st items kw metrics go (some a))).1 = .saved)
    (hk : (∃ l, a = .composite l) ↔ ¬ ∃ l, a' = .composite l) (w' : World S)
    (hw : w' = run c (step c w (.save j st items kw metrics go (some a))).2 es) :
    (step c w' (.save j st' items' kw' metrics' go' (some a'))).1 = .refused ∧
    (step c w' (.save j st' items' kw' metrics' go' (some a'))).2.dirs = w'.dirs := by
  simp only [step] at hs
  cases hj : w.mgrs[j]? with
  | none => rw [hj] at hs; cases hs
  | some m =>
    rw [hj] at hs
    simp only at hs
    have hjl : j < w.mgrs.length := (List.getElem?_eq_some_iff.1 hj).1
    generalize hsv : save c m (w.dirs m.dir) st items kw metrics go (some a) = r at hs
    obtain ⟨o, m1, d1⟩ := r
    simp only at hs; subst hs
    obtain ⟨l, -, -, hv, -, -, -, hmode⟩ := save_saved hsv
    have hm1 : (step c w (.save j st items kw metrics go (some a))).2.mgrs[j]? = some m1 := by
      simp only [step, hj, hsv]
      rw [List.getElem?_set_self hjl]
    obtain ⟨m2, hm2, hmode2⟩ := C133_fixed c _ es j m1 _ hm1 hmode
    rw [← hw] at hm2
    have hb : (∃ l, a' = .composite l) ↔ (m.mode.getD (modeOfArgs (some a))) = true := by
      simp only [valid] at hv
      split at hv
      · cases hv
      · cases a with
        | other => cases hv
        | composite l =>
          have h1 : ¬ ∃ l, a' = .composite l := hk.1 ⟨l, rfl⟩
          simp only [bne_iff_ne, ne_eq, Option.some.injEq] at hv
          exact ⟨fun h => absurd h h1, fun h => absurd h hv⟩
        | single t =>
          have h1 : ∃ l, a' = .composite l := Classical.byContradiction fun h => by
            obtain ⟨l, hl⟩ := hk.2 h; cases hl
          simp only [beq_iff_eq, Option.some.injEq] at hv
          exact ⟨fun _ => hv, fun _ => h1⟩
    have hwrong := (C133_wrong_args c m2 (w'.dirs m2.dir) _ hmode2 st' none false items' kw' metrics' go' a'
      (if (m.mode.getD (modeOfArgs (some a))) = true then Args.composite [] else (Args.other : Args R)) hb (by
        split
        · rename_i h; exact ⟨fun _ => h, fun _ => ⟨[], rfl⟩⟩
        · rename_i h; exact ⟨fun h' => (by obtain ⟨l, hl⟩ := h'; cases hl), fun h' => absurd h' h⟩)).1
    simp only [step, hm2, hwrong]
    refine ⟨trivial, ?_⟩
    funext k
    simp only [World.write]
    split
    · rename_i h; rw [h]
    · rfl

/-! ### What is saved and restored -/

theorem withMetrics_get (c : Classes X K S R M) (m : Mgr) (metrics : Option M) (l : List (String × S)) (n : String) (h : n ≠ metricName ∨ metrics = none) :
    get (withMetrics c m metrics l) n = get l n := by
  simp only [withMetrics]
  split
  · split
    · rw [get_put, if_neg (h.resolve_right (by simp))]
    · rfl
  · rfl

theorem withMetrics_names (c : Classes X K S R M) (m : Mgr) (metrics : Option M) (l : List (String × S)) (n : String)
    (h : n ∈ (withMetrics c m metrics l).map (·.1)) : n = metricName ∨ n ∈ l.map (·.1) := by
  simp only [withMetrics] at h
  split at h
  · split at h
    · exact (mem_put _ _ _ _).1 h
    · exact Or.inr h
  · exact Or.inr h

/-- The save of a manager as an event. -/
theorem step_saved {c : Classes X K S R M} {w : World S} {j st : Nat} {items kw metrics go args} {m : Mgr} (hj : w.mgrs[j]? = some m)
    (h : (step c w (.save j st items kw metrics go args)).1 = .saved) :
    ∃ l, saveArgs c (m.lock (modeOfArgs args)) items kw args = some l ∧ go = true ∧ st ∉ m.steps ∧
      valid c.isArgs (some (m.mode.getD (modeOfArgs args))) items args = true ∧ (∀ n ∈ (withMetrics c m metrics l).map (·.1), m.Accepts n) ∧
      ((step c w (.save j st items kw metrics go args)).2.dirs m.dir).items st = some (withMetrics c m metrics l) := by
  simp only [step, hj] at h
  generalize hsv : save c m (w.dirs m.dir) st items kw metrics go args = r at h
  obtain ⟨o, m1, d1⟩ := r
  simp only at h; subst h
  obtain ⟨l, h1, h2, h3, h4, h5, h6, -⟩ := save_saved hsv
  refine ⟨l, h4, h1, h2, h3, h5, ?_⟩
  simp only [step, hj, hsv, World.write, if_true]
  rw [h6, items_cons, if_pos rfl]

/-- C133: a successful save of one unnamed item writes the item under the name "default", and besides at most the metrics, when they are given and
tracked; a successful save of named items writes them under their names, and nothing else but such metrics. -/
theorem C133_written (c : Classes X K S R M) (w : World S) (j st : Nat) (m : Mgr) (items kw metrics go) (hj : w.mgrs[j]? = some m) (a : Args S)
    (h : (step c w (.save j st items kw metrics go (some a))).1 = .saved) (l : List (String × S))
    (hl : (∃ s, a = .single s ∧ l = [("default", s)]) ∨ a = .composite l) :
    ∃ q, ((step c w (.save j st items kw metrics go (some a))).2.dirs m.dir).items st = some q ∧
      (∀ n, n ≠ "metrics" → get q n = get l n) ∧
      (∀ x, metrics = some x → m.best = true → get q "metrics" = some (c.metrics x)) ∧
      (metrics = none ∨ m.best = false → q = l) := by
  obtain ⟨l', h1, -, -, -, -, h2⟩ := step_saved hj h
  have hll : l' = l := by
    rcases hl with ⟨s, rfl, rfl⟩ | rfl
    · simp only [saveArgs] at h1
      split at h1
      · exact (Option.some.inj h1).symm
      · cases h1
    · simp only [saveArgs] at h1
      split at h1
      · cases h1
      · exact (Option.some.inj h1).symm
  subst hll
  refine ⟨_, h2, fun n hn => withMetrics_get c m metrics _ n (Or.inl hn), fun x hx hb => ?_, fun hx => ?_⟩
  · simp only [withMetrics, hx, hb, if_true]
    exact (get_put _ _ _ _).trans (if_pos rfl)
  · rcases hx with rfl | hb
    · rfl
    · simp only [withMetrics, hb]
      split <;> rfl

/-- C133: a save leaves every other step and every other directory as it was, whether it succeeds or not. -/
theorem C133_other_steps (c : Classes X K S R M) (w : World S) (j st dir st' : Nat) (m : Mgr) (items kw metrics go args) (hj : w.mgrs[j]? = some m)
    (h : dir ≠ m.dir ∨ st' ≠ st) :
    ((step c w (.save j st items kw metrics go args)).2.dirs dir).items st' = (w.dirs dir).items st' := by
  simp only [step, hj, World.write]
  split
  · rename_i hd
    rw [hd]
    exact save_other c m _ st st' _ _ _ _ _ (h.resolve_left (fun h' => h' hd))
  · rfl

/-- C133: a save of a step that the manager knows never succeeds and writes nothing. -/
theorem C133_existing (c : Classes X K S R M) (m : Mgr) (d : Store S) (st : Nat) (items kw metrics go args) (h : st ∈ m.steps) :
    (save c m d st items kw metrics go args).1 ≠ .saved ∧ (save c m d st items kw metrics go args).2.2 = d := by
  have h' : st ∈ (m.lock (modeOfArgs args)).steps := h
  simp only [save, h', if_true]
  repeat' split
  all_goals exact ⟨by simp, rfl⟩

/-- C133: a manager that was given names refuses to save other items. -/
theorem C133_unlisted (c : Classes X K S R M) (w : World S) (j st : Nat) (m : Mgr) (items kw metrics go) (hj : w.mgrs[j]? = some m)
    (l : List (String × S)) (n : String) (hn : n ∈ l.map (·.1)) (ha : ¬ m.Accepts n) :
    (step c w (.save j st items kw metrics go (some (.composite l)))).1 ≠ .saved := by
  intro h
  obtain ⟨l', h1, -, -, -, h2, -⟩ := step_saved hj h
  simp only [saveArgs] at h1
  split at h1
  · cases h1
  · cases h1
    refine ha (h2 n ?_)
    simp only [withMetrics]
    split
    · split
      · exact (mem_put _ _ _ _).2 (Or.inr hn)
      · exact hn
    · exact hn

theorem accepts_default {m : Mgr} (hi : Inv m) (hm : m.mode ≠ some false) : m.Accepts defaultName := by
  cases hw : m.waiting with
  | none => exact Or.inr (Or.inl hw)
  | some l =>
    left
    apply hi.default
    · cases hmm : m.mode with
      | none => rw [hi.open_ hmm] at hw; cases hw
      | some b =>
        cases b with
        | false => exact absurd hmm hm
        | true => rfl
    · simp [hw]

/-- The restore of explicit arguments, when all is well. -/
theorem restore_ok (c : Classes X K S R M) (m : Mgr) (d : Store S) (o : Bool) (st : Nat) (items kw args) (saved : List (String × S)) (l l' : List (String × R))
    (hv : valid c.isArgs (m.lock (modeOfDir d st)).mode items args = true) (ha : restoreArgs c (m.lock (modeOfDir d st)) items kw args = some l)
    (hd : d.items st = some saved) (hl : (if l.isEmpty then defaultArgs c (m.lock (modeOfDir d st)) (saved.map (·.1)) else some l) = some l')
    (hq : ∀ x ∈ l', x.1 ∈ saved.map (·.1) ∧ m.Accepts x.1) :
    ∃ q, (restore c m d o (some st) items kw args).1 = unwrap (m.lock (modeOfDir d st)).mode q ∧ q.map (fun x => (x.1, x.2.2)) = l' ∧
      ∀ x ∈ q, get saved x.1 = some x.2.1 := by
  obtain ⟨q, h1, h2, h3⟩ := restoreItems_ok saved l' (m.lock (modeOfDir d st)) hq
  refine ⟨q, ?_, h2, h3⟩
  simp only [restore, stepToRestore, hv, Bool.not_true, Bool.false_eq_true, if_false, ha, hd, hl]
  generalize hr : restoreItems saved (m.lock (modeOfDir d st)) l' = r at h1
  obtain ⟨o', m2⟩ := r
  simp only at h1; subst h1
  simp only [(later_of_restoreItems hr).2]

theorem modeOfDir_eq (d : Store S) (st : Nat) (l : List (String × S)) (hd : d.items st = some l) : modeOfDir d st = decide (defaultName ∈ l.map (·.1)) := by
  simp only [modeOfDir, hd]
  rw [Bool.eq_iff_iff, decide_eq_true_eq]
  exact get_isSome

/-- C133: an unnamed item comes back as itself.  After a manager saved one item without a name, every manager that is not for named items, in whatever way
it was constructed and used, gets from a restore of this step exactly the item, restored with the arguments given, as long as nothing wrote or removed
the step in between; also when it is restored from another manager's directory, and also when no arguments are given. -/
theorem C133_roundtrip_unnamed (c : Classes X K S R M) (es es' : List (Event X K S R M)) (j j' st : Nat) (dir : Option Nat) (items kw metrics go) (s : S)
    (m m' : Mgr) (w w' : World S) (hw : w = run c World.start es) (hj : w.mgrs[j]? = some m)
    (hs : (step c w (.save j st items kw metrics go (some (.single s)))).1 = .saved)
    (hw' : w' = run c World.start (es ++ .save j st items kw metrics go (some (.single s)) :: es')) (he : ∀ e ∈ es', ¬ e.Touches m.dir st)
    (hj' : w'.mgrs[j']? = some m') (hm' : m'.mode ≠ some false) (hdir : dir.getD m'.dir = m.dir) :
    (∀ r, (step c w' (.restore j' (some st) dir none none (some (.single r)))).1 = .single (s, r)) ∧
    (step c w' (.restore j' (some st) dir none none none)).1 = .single (s, c.dflt "default") := by
  obtain ⟨l, h1, -, -, -, -, h2⟩ := step_saved hj hs
  have hl : l = [(defaultName, s)] := by
    simp only [saveArgs] at h1
    split at h1
    · exact (Option.some.inj h1).symm
    · cases h1
  subst hl
  have hst : (w'.dirs m.dir).items st = some (withMetrics c m metrics [(defaultName, s)]) := by
    rw [hw', run_append, run_cons, run_items c m.dir st es' _ he, ← hw]; exact h2
  have hg : get (withMetrics c m metrics [(defaultName, s)]) defaultName = some s := by
    rw [withMetrics_get _ _ _ _ _ (Or.inl (by decide))]; simp [get]
  have hinv : Inv m' := by rw [hw'] at hj'; exact inv_reached c _ hj'
  have hmd : modeOfDir (w'.dirs m.dir) st = true := by simp only [modeOfDir, hst, hg, Option.isSome_some]
  have hmode : (m'.lock (modeOfDir (w'.dirs m.dir) st)).mode = some true := by
    rw [lock_mode, hmd]
    cases hm : m'.mode with
    | none => rfl
    | some b => cases b with
      | false => exact absurd hm hm'
      | true => rfl
  have hacc := accepts_default hinv hm'
  have hmem : defaultName ∈ (withMetrics c m metrics [(defaultName, s)]).map (·.1) := get_isSome.1 (by simp [hg])
  have hmet : m'.Accepts metricName := Or.inl hinv.metric
  have fin : ∀ (q : List (String × (S × R))) (r : R), (∀ x ∈ q, get (withMetrics c m metrics [(defaultName, s)]) x.1 = some x.2.1) →
      get (q.map fun x => (x.1, x.2.2)) defaultName = some r → unwrap (some true) q = Out.single (s, r) := by
    intro q r hq hgq
    have : get q defaultName = some (s, r) := by
      clear hst
      induction q with
      | nil => simp [get] at hgq
      | cons x q ih =>
        obtain ⟨n, s', r'⟩ := x
        rw [List.map_cons, get_cons] at hgq
        rw [get_cons]
        by_cases hn : n = defaultName
        · simp only [hn, if_true, Option.some.injEq] at hgq ⊢
          have := hq _ List.mem_cons_self
          simp only [hn, hg, Option.some.injEq] at this
          rw [this, hgq]
        · simp only [hn, if_false] at hgq ⊢
          exact ih (fun x hx => hq x (List.mem_cons_of_mem _ hx)) hgq
    simp only [unwrap, if_true, this]
  constructor
  · intro r
    simp only [step, hj', hdir]
    obtain ⟨q, hq1, hq2, hq3⟩ := restore_ok c m' (w'.dirs m.dir) dir.isSome st none none (some (.single r)) _ [(defaultName, r)] [(defaultName, r)]
      (by rw [hmode]; rfl) (by simp only [restoreArgs, hmode, if_true]) hst rfl (by
        intro x hx; rw [List.mem_singleton.1 hx]; exact ⟨hmem, hacc⟩)
    rw [hq1, hmode]
    exact fin q r hq3 (by rw [hq2]; simp [get])
  · simp only [step, hj', hdir]
    have hdef : ∀ names : List String, (∀ n ∈ names, n = metricName ∨ n = defaultName) →
        defaultArgs c (m'.lock (modeOfDir (w'.dirs m.dir) st)) names = some (names.map fun n => (n, c.dflt n)) := by
      intro names
      induction names with
      | nil => intro _; rfl
      | cons n names ih =>
        intro hn
        have hcond : n ∈ (m'.lock (modeOfDir (w'.dirs m.dir) st)).known ∨ n ∉ (m'.lock (modeOfDir (w'.dirs m.dir) st)).waiting.getD [] := by
          rcases hn n List.mem_cons_self with rfl | rfl
          · exact Or.inl hinv.metric
          · cases hwt : m'.waiting with
            | none => right; simp [Mgr.lock, hwt]
            | some u =>
              left
              have hmt : m'.mode = some true := by
                cases hm : m'.mode with
                | none => rw [hinv.open_ hm] at hwt; cases hwt
                | some b => cases b with
                  | false => exact absurd hm hm'
                  | true => rfl
              exact hinv.default hmt (by simp [hwt])
        simp only [defaultArgs, hcond, if_true, ih fun k hk => hn k (List.mem_cons_of_mem _ hk), Option.map_some, List.map_cons]
    have hnames : ∀ n ∈ (withMetrics c m metrics [(defaultName, s)]).map (·.1), n = metricName ∨ n = defaultName := by
      intro n hn
      rcases withMetrics_names c m metrics _ n hn with h | h
      · exact Or.inl h
      · exact Or.inr (by simpa using h)
    obtain ⟨q, hq1, hq2, hq3⟩ := restore_ok c m' (w'.dirs m.dir) dir.isSome st none none none _ [] _ (by rfl)
      (by simp [restoreArgs, restoreKeys, legacyRestore]) hst (by simp only [List.isEmpty_nil, if_true]; exact hdef _ hnames) (by
        intro x hx
        obtain ⟨n, hn, rfl⟩ := List.mem_map.1 hx
        refine ⟨hn, ?_⟩
        rcases hnames n hn with rfl | rfl
        · exact hmet
        · exact hacc)
    rw [hq1, hmode]
    refine fin q _ hq3 ?_
    rw [hq2]
    have : ∀ names : List String, defaultName ∈ names → get (names.map fun n => (n, c.dflt n)) defaultName = some (c.dflt defaultName) := by
      intro names
      induction names with
      | nil => intro h; cases h
      | cons n names ih =>
        intro h
        rw [List.map_cons, get_cons]
        by_cases hn : n = defaultName
        · simp [hn]
        · rw [if_neg hn]
          exact ih ((List.mem_cons.1 h).resolve_left (Ne.symm hn))
    exact this _ hmem

/-- C133: named items come back under their names.  After a manager saved named items, none of them named "default", every manager that is not for one
unnamed item and takes the names gets from a restore exactly the items asked for, each with what was saved under its name and restored with the
arguments given for it. -/
theorem C133_roundtrip_named_partial (c : Classes X K S R M) (es es' : List (Event X K S R M)) (j j' st : Nat) (dir : Option Nat) (items kw metrics go)
    (l : List (String × S)) (hl : (l.map (·.1)).Nodup) (hdef : "default" ∉ l.map (·.1)) (hmet : metrics = none ∨ "metrics" ∉ l.map (·.1))
    (m m' : Mgr) (w w' : World S) (hw : w = run c World.start es) (hj : w.mgrs[j]? = some m)
    (hs : (step c w (.save j st items kw metrics go (some (.composite l)))).1 = .saved)
    (hw' : w' = run c World.start (es ++ .save j st items kw metrics go (some (.composite l)) :: es')) (he : ∀ e ∈ es', ¬ e.Touches m.dir st)
    (hj' : w'.mgrs[j']? = some m') (hm' : m'.mode ≠ some true) (hdir : dir.getD m'.dir = m.dir)
    (q : List (String × R)) (hq : q ≠ []) (hsub : ∀ x ∈ q, x.1 ∈ l.map (·.1) ∧ m'.Accepts x.1) :
    ∃ res, (step c w' (.restore j' (some st) dir none none (some (.composite q)))).1 = .named res ∧
      res.map (fun x => (x.1, x.2.2)) = q ∧ ∀ x ∈ res, (x.1, x.2.1) ∈ l := by
  obtain ⟨l', h1, -, -, -, -, h2⟩ := step_saved hj hs
  have hll : l' = l := by
    simp only [saveArgs] at h1
    split at h1
    · cases h1
    · exact (Option.some.inj h1).symm
  subst hll
  have hst : (w'.dirs m.dir).items st = some (withMetrics c m metrics l') := by
    rw [hw', run_append, run_cons, run_items c m.dir st es' _ he, ← hw]; exact h2
  have hmd : modeOfDir (w'.dirs m.dir) st = false := by
    rw [modeOfDir_eq _ _ _ hst, decide_eq_false_iff_not]
    intro h
    rcases withMetrics_names c m metrics _ _ h with h | h
    · exact absurd h (by decide)
    · exact hdef h
  have hmode : (m'.lock (modeOfDir (w'.dirs m.dir) st)).mode = some false := by
    rw [lock_mode, hmd]
    cases hm : m'.mode with
    | none => rfl
    | some b => cases b with
      | true => exact absurd hm hm'
      | false => rfl
  have hget : ∀ n ∈ l'.map (·.1), get (withMetrics c m metrics l') n = get l' n := by
    intro n hn
    apply withMetrics_get
    rcases hmet with h | h
    · exact Or.inr h
    · exact Or.inl fun h' => h (by rw [h'] at hn; exact hn)
  obtain ⟨res, hr1, hr2, hr3⟩ := restore_ok c m' (w'.dirs m.dir) dir.isSome st none none (some (.composite q)) _ q q (by rw [hmode]; rfl)
    (by simp [restoreArgs, hmode]) hst (by simp [hq]) (by
      intro x hx
      refine ⟨get_isSome.1 ?_, (hsub x hx).2⟩
      rw [hget _ (hsub x hx).1]
      exact get_isSome.2 (hsub x hx).1)
  refine ⟨res, ?_, hr2, fun x hx => ?_⟩
  · simp only [step, hj', hdir, hr1, hmode, unwrap]
    simp
  · have hxq : (x.1, x.2.2) ∈ q := by rw [← hr2]; exact List.mem_map.2 ⟨x, hx, rfl⟩
    have := hr3 x hx
    rw [hget _ (hsub _ hxq).1] at this
    exact get_mem this

/-! ### The deprecated form of calls -/

/-- C133: in the deprecated form, an object given to a manager of one unnamed item is saved as with the arguments made from it. -/
theorem C133_legacy_unnamed (c : Classes X K S R M) (m : Mgr) (d : Store S) (st : Nat) (x : X) (kw metrics go) (hm : m.mode = some true)
    (hk : "default" ∈ m.known) (hx : c.isArgs x = false) :
    save c m d st (some x) kw metrics go none = save c m d st none none metrics go (some (.single (c.save "default" x kw))) := by
  have hlock : ∀ b, m.lock b = m := by
    intro b; obtain ⟨_, mode, _, _, _, _⟩ := m
    simp only at hm; subst hm; rfl
  have hsv : saveArgs c m (some x) kw none = saveArgs c m none none (some (.single (c.save "default" x kw))) := by
    cases kw <;> simp [saveArgs, itemsOf, hm, legacySave, defaultName, hk, kwargOf]
  have hv1 : valid c.isArgs m.mode (some x) (none : Option (Args S)) = true := by simp [valid, hx]
  have hv2 : valid c.isArgs m.mode (none : Option X) (some (.single (c.save "default" x kw) : Args S)) = true := by simp [valid, hm]
  simp only [save, hlock, hv1, hv2, hsv, Option.isNone_some, Option.isNone_none, Bool.and_false, Bool.false_and, Bool.false_eq_true, if_false]

theorem legacySave_all (c : Classes X K S R M) (known : List String) (kw : String → Option K) : ∀ l : List (String × X), (∀ x ∈ l, x.1 ∈ known) →
    legacySave c known kw l = some (l.map fun x => (x.1, c.save x.1 x.2 (kw x.1)))
  | [], _ => rfl
  | (k, x) :: l, h => by
    have ih := legacySave_all c known kw l fun y hy => h y (List.mem_cons_of_mem _ hy)
    have hk : k ∈ known := h (k, x) List.mem_cons_self
    simp [legacySave, hk, ih]

/-- C133: and a mapping given to a manager of named items, as with the arguments made from each of its values with the keyword arguments for its key. -/
theorem C133_legacy_named (c : Classes X K S R M) (m : Mgr) (d : Store S) (st : Nat) (x : X) (l : List (String × X)) (kw : Option K) (metrics go)
    (hm : m.mode = some false) (hl : c.mapping x = some l) (hk : ∀ y ∈ l, y.1 ∈ m.known) (hx : c.isArgs x = false) :
    save c m d st (some x) kw metrics go none = save c m d st none none metrics go
      (some (.composite (l.map fun y => (y.1, c.save y.1 y.2 (kw.bind fun k => get (c.kwargs k) y.1))))) := by
  have hlock : ∀ b, m.lock b = m := by
    intro b; obtain ⟨_, mode, _, _, _, _⟩ := m
    simp only at hm; subst hm; rfl
  have hkw : ∀ n, kwargOf c (some false) kw n = kw.bind fun k => get (c.kwargs k) n := by
    intro n; cases kw <;> simp [kwargOf]
  have hsv : saveArgs c m (some x) kw none = saveArgs c m none none
      (some (.composite (l.map fun y => (y.1, c.save y.1 y.2 (kw.bind fun k => get (c.kwargs k) y.1))))) := by
    simp [saveArgs, itemsOf, hm, hl, legacySave_all c m.known _ l hk, hkw]
  have hv1 : valid c.isArgs m.mode (some x) (none : Option (Args S)) = true := by simp [valid, hx]
  have hv2 : ∀ a : List (String × S), valid c.isArgs m.mode (none : Option X) (some (.composite a : Args S)) = true := by simp [valid, hm]
  simp only [save, hlock, hv1, hv2, hsv, Option.isNone_some, Option.isNone_none, Bool.and_false, Bool.false_and, Bool.false_eq_true, if_false]

/-- C133: the same for restoring one unnamed item. -/
theorem C133_legacy_restore (c : Classes X K S R M) (m : Mgr) (d : Store S) (o : Bool) (st : Option Nat) (x : X) (kw : Option K) (hm : m.mode = some true)
    (hk : "default" ∈ m.known) (hx : c.isArgs x = false) :
    restore c m d o st (some x) kw none = restore c m d o st none none (some (.single (c.restore "default" (some x) kw))) := by
  have hlock : ∀ b, m.lock b = m := by
    intro b; obtain ⟨_, mode, _, _, _, _⟩ := m
    simp only at hm; subst hm; rfl
  have hra : restoreArgs c m (some x) kw none = restoreArgs c m none none (some (.single (c.restore "default" (some x) kw))) := by
    cases kw <;> simp [restoreArgs, restoreKeys, hm, legacyRestore, defaultName, hk, get]
  have hv1 : valid c.isArgs m.mode (some x) (none : Option (Args R)) = true := by simp [valid, hx]
  have hv2 : valid c.isArgs m.mode (none : Option X) (some (.single (c.restore "default" (some x) kw) : Args R)) = true := by simp [valid, hm]
  simp only [restore, hlock, hv1, hv2, hra]

theorem legacyRestore_all (c : Classes X K S R M) (known : List String) (xs : List (String × X)) (ks : List (String × K)) :
    ∀ l : List String, (∀ n ∈ l, n ∈ known) → legacyRestore c known xs ks l = some (l.map fun n => (n, c.restore n (get xs n) (get ks n)))
  | [], _ => rfl
  | k :: l, h => by
    have ih := legacyRestore_all c known xs ks l fun y hy => h y (List.mem_cons_of_mem _ hy)
    have hk : k ∈ known := h k List.mem_cons_self
    simp [legacyRestore, hk, ih]

/-- C133: and for restoring named items: each with the object and the keyword arguments given for its name; a name with keyword arguments only is
restored too. -/
theorem C133_legacy_restore_named (c : Classes X K S R M) (m : Mgr) (d : Store S) (o : Bool) (st : Option Nat) (x : X) (l : List (String × X)) (k : K)
    (hm : m.mode = some false) (hl : c.mapping x = some l) (hn : (l.map (·.1)).Nodup)
    (hk : ∀ n, n ∈ l.map (·.1) ∨ n ∈ (c.kwargs k).map (·.1) → n ∈ m.known) (hx : c.isArgs x = false) :
    ∃ q : List (String × R), restore c m d o st (some x) (some k) none = restore c m d o st none none (some (.composite q)) ∧
      (∀ n r, (n, r) ∈ q ↔ (n ∈ l.map (·.1) ∨ n ∈ (c.kwargs k).map (·.1)) ∧ r = c.restore n (get l n) (get (c.kwargs k) n)) ∧
      (∀ n y, (n, y) ∈ l → get l n = some y) := by
  have hlock : ∀ b, m.lock b = m := by
    intro b; obtain ⟨_, mode, _, _, _, _⟩ := m
    simp only at hm; subst hm; rfl
  have hra : restoreArgs c m (some x) (some k) none = restoreArgs c m none none (some (.composite
      ((l.map (·.1) ++ ((c.kwargs k).map (·.1)).filter fun k => !(l.map (·.1)).contains k).map
        fun n => (n, c.restore n (get l n) (get (c.kwargs k) n))))) := by
    simp only [restoreArgs, restoreKeys, hm, hl, Option.map_some, Option.bind_some]
    have hne : ¬ (some false = some true) := by simp
    simp only [if_neg hne, Option.map_some, Option.bind_some]
    apply legacyRestore_all
    intro n hn'
    rcases List.mem_append.1 hn' with h | h
    · exact hk n (Or.inl h)
    · exact hk n (Or.inr (List.mem_filter.1 h).1)
  have hv1 : valid c.isArgs m.mode (some x) (none : Option (Args R)) = true := by simp [valid, hx]
  have hv2 : ∀ a : List (String × R), valid c.isArgs m.mode (none : Option X) (some (.composite a : Args R)) = true := by simp [valid, hm]
  refine ⟨(l.map (·.1) ++ ((c.kwargs k).map (·.1)).filter fun k => !(l.map (·.1)).contains k).map
        fun n => (n, c.restore n (get l n) (get (c.kwargs k) n)), ?_, fun n r => ?_, fun n y hy => get_of_mem hn hy⟩
  · simp only [restore, hlock, hv1, hv2, hra]
  · simp only [List.mem_map, Prod.mk.injEq]
    constructor
    · rintro ⟨n', h, rfl, rfl⟩
      refine ⟨?_, rfl⟩
      rcases List.mem_append.1 h with h | h
      · exact Or.inl (List.mem_map.1 h)
      · exact Or.inr (List.mem_map.1 (List.mem_filter.1 h).1)
    · rintro ⟨h, rfl⟩
      refine ⟨n, ?_, rfl, rfl⟩
      by_cases h1 : n ∈ l.map (·.1)
      · exact List.mem_append.2 (Or.inl h1)
      · refine List.mem_append.2 (Or.inr (List.mem_filter.2 ⟨?_, by simpa using h1⟩))
        exact List.mem_map.2 (h.resolve_left fun h2 => h1 (List.mem_map.2 h2))

/-! ### The latest step and metadata -/

/-- C133: without a step, the latest one is restored: of those the manager knows, or of those in the directory if one is given; if there is none, the call
is refused and leaves the manager as it was. -/
theorem C133_latest (c : Classes X K S R M) (m : Mgr) (d : Store S) (o : Bool) (items kw args) (l : List Nat)
    (hl : l = if o then d.map (·.1) else m.steps) :
    (l = [] → restore c m d o none items kw args = (.refused, m)) ∧
    (∀ n ∈ l, (∀ k ∈ l, k ≤ n) → restore c m d o none items kw args = restore c m d o (some n) items kw args) := by
  have hst : stepToRestore m d o none = l.max? := by
    simp only [stepToRestore, hl]; split <;> rfl
  constructor
  · intro h
    simp only [restore, hst, h, List.max?_nil]
  · intro n hn hk
    have : l.max? = some n := (List.max?_eq_some_iff).2 ⟨hn, hk⟩
    have h2 : stepToRestore m d o (some n) = some n := rfl
    simp only [restore, hst, this, h2]

/-- C133: metadata has the form of what a restore returns: that of the unnamed item for a manager of one, and otherwise an entry for each saved item,
which is `None` exactly when the manager has no handler for the item yet.  For a step that does not exist it is refused, with no other effect. -/
theorem C133_metadata (m : Mgr) (d : Store S) (st : Nat) :
    (d.items st = none → metadata (R := R) m d st = (.refused, m)) ∧
    (∀ l, d.items st = some l → m.mode.getD (decide ("default" ∈ l.map (·.1))) = false →
      (metadata (R := R) m d st).1 = .metaNamed (l.map fun x => (x.1, if x.1 ∈ m.known then some x.2 else none))) ∧
    (∀ l s, d.items st = some l → m.mode ≠ some false → get l "default" = some s →
      (metadata (R := R) m d st).1 = .metaSingle (if "default" ∈ m.known then some s else none)) ∧
    (∀ l, d.items st = some l → m.mode = some true → "default" ∉ l.map (·.1) → (metadata (R := R) m d st).1 = .refused) := by
  have hmap : ∀ (l : List (String × S)) (n : String), get (l.map fun x => (x.1, if x.1 ∈ m.known then some x.2 else none)) n =
      (get l n).map fun s => if n ∈ m.known then some s else none := by
    intro l n
    induction l with
    | nil => simp [get]
    | cons x l ih =>
      obtain ⟨a, y⟩ := x
      rw [List.map_cons, get_cons, get_cons, ih]
      by_cases h : a = n <;> simp [h]
  refine ⟨fun h => by simp [metadata, h], fun l h hm => ?_, fun l s h hm hs => ?_, fun l h hm hn => ?_⟩
  · have hmode : (m.lock (modeOfDir d st)).mode = some false := by
      rw [lock_mode, modeOfDir_eq _ _ _ h]; exact congrArg some hm
    simp only [metadata, h, hmode]
    rfl
  · have hmode : (m.lock (modeOfDir d st)).mode = some true := by
      rw [lock_mode]
      have : modeOfDir d st = true := by simp only [modeOfDir, h, show get l defaultName = some s from hs, Option.isSome_some]
      rw [this]
      cases hmm : m.mode with
      | none => rfl
      | some b => cases b with
        | false => exact absurd hmm hm
        | true => rfl
    simp only [metadata, h, hmode, if_true]
    rw [show (m.lock (modeOfDir d st)).known = m.known from rfl, hmap, show get l defaultName = some s from hs]
    rfl
  · have hmode : (m.lock (modeOfDir d st)).mode = some true := by rw [lock_mode, hm]; rfl
    have hg : get l defaultName = none := by
      cases hg : get l defaultName with
      | none => rfl
      | some s => exact absurd (get_isSome.1 (show (get l defaultName).isSome = true by rw [hg]; rfl)) hn
    simp only [metadata, h, hmode, if_true]
    rw [show (m.lock (modeOfDir d st)).known = m.known from rfl, hmap, hg]
    rfl

/-! ### Findings -/

/-- C133 (finding): a call that is refused is not without effect.  A manager whose way of use was left open, called once with something that is no
`CheckpointArgs`, raises, and from then on refuses every `Composite`. -/
theorem C133_refused_call_fails (c : Classes X K S R M) (w : World S) (j st : Nat) (m : Mgr) (hj : w.mgrs[j]? = some m) (hm : m.mode = none)
    (items kw metrics go) (es : List (Event X K S R M)) (st' : Nat) (items' kw' metrics' go') (l : List (String × S)) :
    (step c w (.save j st items kw metrics go (some .other))).1 = .refused ∧
    (step c (run c (step c w (.save j st items kw metrics go (some .other))).2 es) (.save j st' items' kw' metrics' go' (some (.composite l)))).1 = .refused := by
  have hjl : j < w.mgrs.length := (List.getElem?_eq_some_iff.1 hj).1
  have hv : ∀ mode, valid c.isArgs mode items (some (.other : Args S)) = false := by intro mode; simp [valid]
  have h1 : save c m (w.dirs m.dir) st items kw metrics go (some .other) = (.refused, m.lock true, w.dirs m.dir) := by
    simp [save, hv, modeOfArgs]
  refine ⟨by simp only [step, hj, h1], ?_⟩
  have hm1 : (step c w (.save j st items kw metrics go (some .other))).2.mgrs[j]? = some (m.lock true) := by
    simp only [step, hj, h1]
    rw [List.getElem?_set_self hjl]
  obtain ⟨m2, hm2, hmode2⟩ := C133_fixed c _ es j _ true hm1 (by rw [lock_mode, hm]; rfl)
  generalize run c (step c w (.save j st items kw metrics go (some .other))).2 es = w2 at hm2
  simp only [step, hm2]
  rw [(C133_wrong_args c m2 _ true hmode2 st' none false items' kw' metrics' go' (.composite l) (.composite []) ⟨fun _ => rfl, fun _ => ⟨l, rfl⟩⟩
    ⟨fun _ => rfl, fun _ => ⟨[], rfl⟩⟩).1]

/-- C133 (finding): asking a new manager for a step that does not exist fixes its use to named items: it then refuses to save an unnamed one. -/
theorem C133_missing_step_fails (c : Classes X K S R M) (w : World S) (j st : Nat) (m : Mgr) (hj : w.mgrs[j]? = some m) (hm : m.mode = none)
    (hd : (w.dirs m.dir).items st = none) (rargs : Option (Args R)) (es : List (Event X K S R M)) (st' : Nat) (items' kw' metrics' go') (s : S) :
    (step c w (.restore j (some st) none none none rargs)).1 = .refused ∧
    (step c (run c (step c w (.restore j (some st) none none none rargs)).2 es) (.save j st' items' kw' metrics' go' (some (.single s)))).1 = .refused := by
  have hjl : j < w.mgrs.length := (List.getElem?_eq_some_iff.1 hj).1
  have hmd : modeOfDir (w.dirs m.dir) st = false := by simp [modeOfDir, hd]
  have h1 : restore c m (w.dirs m.dir) false (some st) none none rargs = (.refused, m.lock false) := by
    simp only [restore, stepToRestore, hmd, hd]
    repeat' split
    all_goals first | rfl | skip
    all_goals (rename_i h; cases h)
  refine ⟨by simp [step, hj, h1], ?_⟩
  have hm1 : (step c w (.restore j (some st) none none none rargs)).2.mgrs[j]? = some (m.lock false) := by
    simp only [step, hj, Option.getD_none, Option.isSome_none, h1]
    rw [List.getElem?_set_self hjl]
  obtain ⟨m2, hm2, hmode2⟩ := C133_fixed c _ es j _ false hm1 (by rw [lock_mode, hm]; rfl)
  generalize run c (step c w (.restore j (some st) none none none rargs)).2 es = w2 at hm2
  simp only [step, hm2]
  rw [(C133_wrong_args c m2 _ false hmode2 st' none false items' kw' metrics' go' (.single s) .other
    ⟨fun h => (by obtain ⟨l, h⟩ := h; cases h), fun h => (by cases h)⟩ ⟨fun h => (by obtain ⟨l, h⟩ := h; cases h), fun h => (by cases h)⟩).1]

/-- C133 (finding): named items of which one is called "default" can be saved, but a new manager whose way of use is left open refuses to restore any of
them by name. -/
theorem C133_default_name_fails (c : Classes X K S R M) (w : World S) (j st : Nat) (m : Mgr) (hj : w.mgrs[j]? = some m) (hm : m.mode = none)
    (l : List (String × S)) (hd : (w.dirs m.dir).items st = some l) (hn : "default" ∈ l.map (·.1)) (q : List (String × R)) :
    (step c w (.restore j (some st) none none none (some (.composite q)))).1 = .refused := by
  have hmd : modeOfDir (w.dirs m.dir) st = true := by rw [modeOfDir_eq _ _ _ hd]; exact decide_eq_true hn
  have hl : (m.lock true).mode = some true := by rw [lock_mode, hm]; rfl
  simp only [step, hj, Option.getD_none, restore, stepToRestore, hmd, valid, hl]
  simp

/-- C133 (finding): an item that the user calls "metrics" is silently replaced by the metrics, when these are given and tracked. -/
theorem C133_metrics_name_fails (c : Classes X K S R M) (w : World S) (j st : Nat) (m : Mgr) (hj : w.mgrs[j]? = some m) (hb : m.best = true)
    (items kw go) (x : M) (l : List (String × S)) (s : S) (_ : ("metrics", s) ∈ l)
    (h : (step c w (.save j st items kw (some x) go (some (.composite l)))).1 = .saved) :
    ∃ q, ((step c w (.save j st items kw (some x) go (some (.composite l)))).2.dirs m.dir).items st = some q ∧ get q "metrics" = some (c.metrics x) := by
  obtain ⟨q, h1, -, h2, -⟩ := C133_written c w j st m items kw (some x) go hj (.composite l) h l (Or.inr rfl)
  exact ⟨q, h1, h2 x rfl hb⟩

/-- C133 (finding): an object given together with `args` is silently not saved: the call is the same as without it. -/
theorem C133_both_fails (c : Classes X K S R M) (m : Mgr) (d : Store S) (st : Nat) (x : X) (kw metrics go) (a : Args S) (hx : c.isArgs x = false) :
    save c m d st (some x) kw metrics go (some a) = save c m d st none none metrics go (some a) := by
  have hv : ∀ mode, valid c.isArgs mode (some x) (some a) = valid c.isArgs mode none (some a) := by intro mode; simp [valid, hx]
  have hs : ∀ m', saveArgs c m' (some x) kw (some a) = saveArgs c m' none none (some a) := by intro m'; cases a <;> rfl
  simp only [save, hv, hs, Option.isNone_some, Option.isNone_none, Bool.and_false]

/-- C133 (finding): on a manager constructed without handlers, the deprecated form never works: the save of an object is refused, and the manager is from
then on one of an unnamed item. -/
theorem C133_legacy_open_fails (c : Classes X K S R M) (m : Mgr) (d : Store S) (st : Nat) (x : X) (kw metrics) (hm : m.mode = none)
    (hk : "default" ∉ m.known) :
    save c m d st (some x) kw metrics true none = (.refused, { m with mode := some true }, d) := by
  have hl : m.lock true = { m with mode := some true } := by simp [Mgr.lock, hm]
  have hs : saveArgs c { m with mode := some true } (some x) kw none = none := by simp [saveArgs, itemsOf, legacySave, defaultName, hk]
  simp only [save, modeOfArgs, hl, hs, Option.isNone_some, Bool.false_and, Bool.false_eq_true, if_false]
  repeat' split
  all_goals first | rfl | skip
  all_goals (rename_i h; cases h)

/-- C133 (finding): a save that is refused because of an item that was not listed removes the checkpoint of that step, if there is one that the manager
did not know of. -/
theorem C133_refused_removes_fails (c : Classes X K S R M) (w : World S) (j st : Nat) (m : Mgr) (hj : w.mgrs[j]? = some m) (hm : m.mode = some false)
    (hs : st ∉ m.steps) (l : List (String × S)) (n : String) (hn : n ∈ l.map (·.1)) (ha : ¬ m.Accepts n) :
    (step c w (.save j st none none none true (some (.composite l)))).1 = .refused ∧
    ((step c w (.save j st none none none true (some (.composite l)))).2.dirs m.dir).items st = none := by
  have hlock : ∀ b, m.lock b = m := by
    intro b; obtain ⟨_, mode, _, _, _, _⟩ := m
    simp only at hm; subst hm; rfl
  have hv : valid c.isArgs m.mode (none : Option X) (some (.composite l)) = true := by simp [valid, hm]
  have hsv : saveArgs c m (none : Option X) (none : Option K) (some (.composite l)) = some l := by simp [saveArgs, hm]
  generalize hr : m.registerAll (l.map (·.1)) = r
  obtain ⟨m2, b⟩ := r
  have hb : b = false := by
    cases b with
    | false => rfl
    | true => exact absurd ((registerAll_iff _ _).1 (show (m.registerAll (l.map (·.1))).2 = true by rw [hr]) n hn) ha
  subst hb
  have h1 : save c m (w.dirs m.dir) st none none none true (some (.composite l)) = (.refused, m2, (w.dirs m.dir).remove st) := by
    simp [save, hlock, hv, hs, hsv, withMetrics, hr]
  refine ⟨by simp only [step, hj, h1], ?_⟩
  simp only [step, hj, h1, World.write, if_true, items_remove]

/-! ### Non-vacuity -/

/-- Objects are numbers or mappings of one entry; arguments are texts that tell how they were made. -/
def demo : Classes Nat Nat String String Nat :=
  ⟨fun n x k => s!"save {n} {x} {k}", fun n x k => s!"restore {n} {x} {k}", fun n => "all " ++ n, fun x => s!"metrics {x}",
    fun x => if x = 7 then some [("state", 1)] else none, fun _ => false, fun _ => []⟩

/-- A manager of nothing in particular, one of names, and one for each kind of restore. -/
def demoEvents : List (Event Nat Nat String String Nat) :=
  [.new 0 ⟨none, none, none, none, true⟩, .new 0 ⟨none, some ["state", "meta"], none, none, false⟩, .new 0 ⟨none, none, none, none, false⟩,
   .new 0 ⟨none, none, some .single, none, false⟩,
   .save 0 1 none none (some 5) true (some (.single "one")), .save 1 2 none none none true (some (.composite [("meta", "m"), ("state", "s")]))]

/-- C133: unnamed and named items are saved, restored by other managers, refused in the other form, and metrics are written. -/
theorem C133_nonvacuous :
    ((run demo World.start demoEvents).dirs 0).items 1 = some [("default", "one"), ("metrics", "metrics 5")] ∧
    ((run demo World.start demoEvents).dirs 0).items 2 = some [("meta", "m"), ("state", "s")] ∧
    (step demo (run demo World.start demoEvents) (.restore 2 (some 1) none none none (some (.single "r")))).1 = .single ("one", "r") ∧
    (step demo (run demo World.start demoEvents) (.restore 3 (some 1) none none none none)).1 = .single ("one", "all default") ∧
    (step demo (run demo World.start demoEvents) (.restore 2 (some 2) none none none (some (.composite [("state", "r")])))).1 = .named [("state", ("s", "r"))] ∧
    (step demo (run demo World.start demoEvents) (.save 0 3 none none none true (some (.composite [("state", "x")])))).1 = .refused ∧
    (step demo (run demo World.start demoEvents) (.save 1 3 none none none true (some (.composite [("other", "x")])))).1 = .refused ∧
    (step demo (run demo World.start demoEvents) (.save 1 3 (some 7) none none true none)).1 = .saved ∧
    (step demo (run demo World.start demoEvents) (.metadata 2 2)).1 = .metaNamed [("meta", none), ("state", none)] :=
  ⟨rfl, rfl, rfl, rfl, rfl, rfl, rfl, rfl, rfl⟩

/-- C133: the findings occur. -/
theorem C133_findings_nonvacuous :
    (step demo (run demo World.start (demoEvents ++ [.save 2 9 none none none true (some .other)]))
      (.save 2 9 none none none true (some (.composite [("state", "s")])))).1 = .refused ∧
    (step demo (run demo World.start demoEvents) (.save 2 9 none none none true (some (.composite [("state", "s")])))).1 = .saved ∧
    (step demo (run demo World.start (demoEvents ++ [.restore 2 (some 9) none none none (some (.single "r"))]))
      (.save 2 9 none none none true (some (.single "s")))).1 = .refused ∧
    (step demo (run demo World.start demoEvents) (.save 2 9 none none none true (some (.single "s")))).1 = .saved ∧
    (step demo (run demo World.start (demoEvents ++ [.save 2 9 none none none true (some (.composite [("default", "d"), ("state", "s")])),
      .new 0 ⟨none, none, none, none, false⟩])) (.restore 4 (some 9) none none none (some (.composite [("state", "r")])))).1 = .refused ∧
    (step demo (run demo World.start (demoEvents ++ [.new 0 ⟨none, none, none, none, true⟩]))
      (.save 4 9 none none (some 5) true (some (.composite [("metrics", "mine"), ("state", "s")])))).1 = .saved ∧
    ((run demo World.start (demoEvents ++ [.new 0 ⟨none, none, none, none, true⟩,
      .save 4 9 none none (some 5) true (some (.composite [("metrics", "mine"), ("state", "s")]))])).dirs 0).items 9 =
      some [("metrics", "metrics 5"), ("state", "s")] ∧
    (step demo (run demo World.start demoEvents) (.save 2 9 (some 3) none none true none)).1 = .refused ∧
    ((run demo World.start (demoEvents ++ [.save 1 1 none none none true (some (.composite [("other", "x")]))])).dirs 0).items 1 = none :=
  ⟨rfl, rfl, rfl, rfl, rfl, rfl, rfl, rfl, rfl⟩

end Verif.ManagerItems
