import Verif.Handlers.Snapshot

/-!
# C132: an asynchronous save stores the values of the time of the call
-/

namespace Verif.Handlers.Snapshot

/-! ## Specification: uses only the types of Snapshot.lean -/

/-- The kinds of objects are what the kinds of items say. -/
def Typed (h : Heap) (it : Item) : Prop :=
  ((∃ p, it.kind = .array p) ∨ it.kind = .value) → (h it.obj).mutable = false

/-- An act that changes the contents of an object. -/
def Changes (o : Nat) (e : Event) : Prop := (∃ i v, e = .user (.set o i v)) ∨ ∃ v, e = .user (.push o v)

/-- How many steps the background has made. -/
def steps (es : List Event) : Nat := es.countP (fun e => decide (e = .background))

/-! ## Lemmas -/

theorem run_append (es es' : List Event) : ∀ s, run (es ++ es') s = run es' (run es s) := by
  induction es with
  | nil => intro s; rfl
  | cons e es ih =>
    rintro ⟨h, t⟩
    cases e <;> exact ih _

theorem act_mutable (h : Heap) (a : Act) (o : Nat) : (act h a o).mutable = (h o).mutable := by
  cases a <;> simp only [act] <;> split <;> rfl

theorem act_fixed (h : Heap) (a : Act) (o : Nat) (hm : (h o).mutable = false) : (act h a o).data = (h o).data := by
  cases a with
  | delete o' => simp only [act]; split <;> rfl
  | _ => simp [act, hm]

theorem act_other (h : Heap) (a : Act) (o : Nat) (hn : ¬ Changes o (.user a)) : (act h a o).data = (h o).data := by
  cases a with
  | set o' i v =>
    have : o ≠ o' := by
      rintro rfl; exact hn (Or.inl ⟨i, v, rfl⟩)
    simp [act, this]
  | push o' v =>
    have : o ≠ o' := by
      rintro rfl; exact hn (Or.inr ⟨v, rfl⟩)
    simp [act, this]
  | delete o' => simp only [act]; split <;> rfl

theorem act_alive (h : Heap) (a : Act) (o : Nat) (hn : a ≠ .delete o) : (act h a o).alive = (h o).alive := by
  cases a with
  | set o' i v => simp only [act]; split <;> rfl
  | push o' v => simp only [act]; split <;> rfl
  | delete o' =>
    have : o ≠ o' := by rintro rfl; exact hn rfl
    simp [act, this]

theorem run_done (es : List Event) : ∀ h d, (run es (h, .done d)).2 = .done d := by
  induction es with
  | nil => intro h d; rfl
  | cons e es ih => intro h d; cases e <;> exact ih _ d

theorem run_failed (es : List Event) : ∀ h, (run es (h, .failed)).2 = .failed := by
  induction es with
  | nil => intro h; rfl
  | cons e es ih => intro h; cases e <;> exact ih _

theorem run_have (es : List Event) : ∀ h d, (run es (h, .have d)).2 = .have d ∨ (run es (h, .have d)).2 = .done d := by
  induction es with
  | nil => intro h d; exact Or.inl rfl
  | cons e es ih =>
    intro h d
    cases e with
    | user a => exact ih _ d
    | background => exact Or.inr (run_done es h d)

/-- An object that is read later, but is the same all the time. -/
theorem run_same (o : Nat) (es : List Event) : ∀ (h : Heap) (t : Task) (d : List Nat), (h o).data = d →
    (∀ es' a es'' s, es = es' ++ .user a :: es'' → (act (run es' (h, s)).1 a o).data = ((run es' (h, s)).1 o).data) →
    (t = .have d ∨ t = .array o ∨ t = .json o ∨ ∃ got, t = .proto o got ∧ got <+: d) →
    (run es (h, t)).2 = .failed ∨ (run es (h, t)).2 = .done d ∨ (run es (h, t)).2 = .have d ∨
      (run es (h, t)).2 = .array o ∨ (run es (h, t)).2 = .json o ∨ ∃ got, (run es (h, t)).2 = .proto o got ∧ got <+: d := by
  induction es with
  | nil =>
    intro h t d _ _ ht
    rcases ht with rfl | rfl | rfl | ⟨got, rfl, hg⟩
    · exact Or.inr (Or.inr (Or.inl rfl))
    · exact Or.inr (Or.inr (Or.inr (Or.inl rfl)))
    · exact Or.inr (Or.inr (Or.inr (Or.inr (Or.inl rfl))))
    · exact Or.inr (Or.inr (Or.inr (Or.inr (Or.inr ⟨got, rfl, hg⟩))))
  | cons e es ih =>
    intro h t d hd hs ht
    cases e with
    | user a =>
      show _ ∨ _
      have h1 : (act h a o).data = d := by rw [← hd]; exact hs [] a es t rfl
      refine ih (act h a) t d h1 ?_ ht
      intro es' b es'' s he
      exact hs (.user a :: es') b es'' s (by rw [he]; rfl)
    | background =>
      have hs' : ∀ es' a es'' s, es = es' ++ .user a :: es'' → (act (run es' (h, s)).1 a o).data = ((run es' (h, s)).1 o).data := by
        intro es' b es'' s he
        have := hs (.background :: es') b es'' s (by rw [he]; rfl)
        have heap : ∀ (es : List Event) (h : Heap) (t t' : Task), (run es (h, t)).1 = (run es (h, t')).1 := by
          intro es
          induction es with
          | nil => intro h t t'; rfl
          | cons e es ih => intro h t t'; cases e <;> exact ih _ _ _
        have e1 : (run (.background :: es') (h, s)).1 = (run es' (h, s)).1 := heap es' h _ _
        rw [e1] at this
        exact this
      rw [show run (.background :: es) (h, t) = run es (h, step h t) from rfl]
      rcases ht with rfl | rfl | rfl | ⟨got, rfl, hg⟩
      · exact Or.inr (Or.inl (run_done es h d))
      · simp only [step]
        split
        · rw [hd]; exact ih h _ d hd hs' (Or.inl rfl)
        · exact Or.inl (run_failed es h)
      · simp only [step, hd]; exact ih h _ d hd hs' (Or.inl rfl)
      · simp only [step, hd]
        obtain ⟨tl, rfl⟩ := hg
        cases tl with
        | nil =>
          simp only [List.append_nil] at hd ⊢
          rw [List.getElem?_eq_none (Nat.le_refl _)]
          exact ih h _ _ hd hs' (Or.inl rfl)
        | cons v tl =>
          simp only [List.getElem?_append_right (Nat.le_refl _), Nat.sub_self, List.getElem?_cons_zero]
          exact ih h _ _ hd hs' (Or.inr (Or.inr (Or.inr ⟨got ++ [v], rfl, tl, by simp⟩)))

theorem run_mutable (es : List Event) (o : Nat) : ∀ h t, ((run es (h, t)).1 o).mutable = (h o).mutable := by
  induction es with
  | nil => intro h t; rfl
  | cons e es ih =>
    intro h t
    cases e with
    | user a => exact (ih _ t).trans (act_mutable h a o)
    | background => exact ih _ _

/-! ## The property -/

/-- C132: arrays (prioritized or not), numpy arrays, scalars and texts are stored with the values they had
when save was called, whatever the program does afterwards and whenever the background runs. -/
theorem C132_snapshot (h : Heap) (it : Item) (t : Task) (es : List Event) (d : List Nat) (hk : it.kind ≠ .json ∧ it.kind ≠ .proto)
    (ht : Typed h it) (hs : start h it = some t) (hd : (run es (h, t)).2 = .done d) : d = (h it.obj).data := by
  obtain ⟨kind, obj⟩ := it
  have fin : ∀ x, (run es (h, .have x)).2 = .done d → d = x := by
    intro x hx
    rcases run_have es h x with h1 | h1 <;> rw [h1] at hx
    · cases hx
    · injection hx with hx; exact hx.symm
  cases kind with
  | numpy => injection hs with hs; subst hs; exact fin _ hd
  | value => injection hs with hs; subst hs; exact fin _ hd
  | json => exact absurd rfl hk.1
  | proto => exact absurd rfl hk.2
  | array p =>
    have hm : (h obj).mutable = false := ht (Or.inl ⟨p, rfl⟩)
    cases p with
    | true =>
      simp only [start] at hs
      split at hs
      · injection hs with hs; subst hs; exact fin _ hd
      · cases hs
    | false =>
      injection hs with hs; subst hs
      have := run_same obj es h (.array obj) _ rfl
        (fun es' a es'' s _ => act_fixed _ _ _ ((run_mutable es' obj h s).trans hm)) (Or.inr (Or.inl rfl))
      rcases this with h1 | h1 | h1 | h1 | h1 | ⟨got, h1, _⟩ <;> rw [h1] at hd
      · cases hd
      · injection hd with hd; exact hd.symm
      · cases hd
      · cases hd
      · cases hd
      · cases hd

/-- C132: a save in the background fails only for an array that was not prioritized and was deleted
meanwhile; it never stores wrong values instead. -/
theorem C132_failed (h : Heap) (it : Item) (t : Task) (es : List Event) (hs : start h it = some t)
    (hd : (run es (h, t)).2 = .failed) :
    it.kind = .array false ∧ ((h it.obj).alive = true → Event.user (.delete it.obj) ∈ es) := by
  obtain ⟨kind, obj⟩ := it
  have nofail : ∀ (es : List Event) (h : Heap) (t : Task), (∀ o, t ≠ .array o) → t ≠ .failed → (run es (h, t)).2 ≠ .failed := by
    intro es
    induction es with
    | nil => intro h t _ h2; exact h2
    | cons e es ih =>
      intro h t h1 h2
      cases e with
      | user a => exact ih _ t h1 h2
      | background =>
        refine ih h (step h t) ?_ ?_
        · intro o
          cases t with
          | array o' => exact absurd rfl (h1 o')
          | proto o' got => simp only [step]; split <;> simp
          | _ => simp [step]
        · cases t with
          | array o' => exact absurd rfl (h1 o')
          | proto o' got => simp only [step]; split <;> simp
          | failed => exact absurd rfl h2
          | _ => simp [step]
  cases kind with
  | numpy => injection hs with hs; subst hs; exact absurd hd (nofail es h _ (by simp) (by simp))
  | value => injection hs with hs; subst hs; exact absurd hd (nofail es h _ (by simp) (by simp))
  | json => injection hs with hs; subst hs; exact absurd hd (nofail es h _ (by simp) (by simp))
  | proto => injection hs with hs; subst hs; exact absurd hd (nofail es h _ (by simp) (by simp))
  | array p =>
    cases p with
    | true =>
      simp only [start] at hs
      split at hs
      · injection hs with hs; subst hs; exact absurd hd (nofail es h _ (by simp) (by simp))
      · cases hs
    | false =>
      refine ⟨rfl, ?_⟩
      injection hs with hs; subst hs
      dsimp only
      intro ha
      induction es generalizing h with
      | nil => cases hd
      | cons e es ih =>
        cases e with
        | user a =>
          by_cases he : a = .delete obj
          · subst he; simp
          · exact List.mem_cons_of_mem _ (ih (act h a) hd ((act_alive h a obj he).trans ha))
        | background =>
          have : (run es (h, Task.have (h obj).data)).2 = .failed := by
            have e1 : run (.background :: es) (h, .array obj) = run es (h, step h (.array obj)) := rfl
            rw [e1] at hd
            simpa [step, ha] using hd
          exact absurd this (nofail es h _ (by simp) (by simp))

/-- C132: documents and protocol buffers are stored with the values of the time of the call if the program
does not change them until they are written; what it does afterwards does not matter. -/
theorem C132_documents (h : Heap) (it : Item) (t : Task) (es es' : List Event) (d : List Nat) (hs : start h it = some t)
    (hd : (run es (h, t)).2 = .done d) (hn : ∀ e ∈ es, ¬ Changes it.obj e) :
    d = (h it.obj).data ∧ (run (es ++ es') (h, t)).2 = .done d := by
  constructor
  · have hsame : ∀ es1 a es2 s, es = es1 ++ .user a :: es2 →
        (act (run es1 (h, s)).1 a it.obj).data = ((run es1 (h, s)).1 it.obj).data := by
      intro es1 a es2 s he
      exact act_other _ _ _ (hn _ (by rw [he]; simp))
    obtain ⟨kind, obj⟩ := it
    have key := fun t ht => run_same obj es h t _ rfl hsame ht
    have fin : ∀ t, ((run es (h, t)).2 = .failed ∨ (run es (h, t)).2 = .done (h obj).data ∨ (run es (h, t)).2 = .have (h obj).data ∨
      (run es (h, t)).2 = .array obj ∨ (run es (h, t)).2 = .json obj ∨ ∃ got, (run es (h, t)).2 = .proto obj got ∧ got <+: (h obj).data) →
      (run es (h, t)).2 = .done d → d = (h obj).data := by
      intro t h1 hd
      rcases h1 with h1 | h1 | h1 | h1 | h1 | ⟨got, h1, _⟩ <;> rw [h1] at hd
      · cases hd
      · injection hd with hd; exact hd.symm
      · cases hd
      · cases hd
      · cases hd
      · cases hd
    cases kind with
    | numpy => injection hs with hs; subst hs; exact fin _ (key _ (Or.inl rfl)) hd
    | value => injection hs with hs; subst hs; exact fin _ (key _ (Or.inl rfl)) hd
    | json => injection hs with hs; subst hs; exact fin _ (key _ (Or.inr (Or.inr (Or.inl rfl)))) hd
    | proto =>
      injection hs with hs; subst hs
      exact fin _ (key _ (Or.inr (Or.inr (Or.inr ⟨[], rfl, List.nil_prefix⟩)))) hd
    | array p =>
      cases p with
      | true =>
        simp only [start] at hs
        split at hs
        · injection hs with hs; subst hs; exact fin _ (key _ (Or.inl rfl)) hd
        · cases hs
      | false => injection hs with hs; subst hs; exact fin _ (key _ (Or.inr (Or.inl rfl))) hd
  · rw [run_append]
    generalize run es (h, t) = s at hd ⊢
    obtain ⟨h', t'⟩ := s
    dsimp only at hd
    subst hd
    exact run_done es' h' d

/-- C132: everything except protocol buffers is stored, or has failed, after two steps of the background. -/
theorem C132_finishes (h : Heap) (it : Item) (t : Task) (es : List Event) (hk : it.kind ≠ .proto) (hs : start h it = some t)
    (h2 : 2 ≤ steps es) : (∃ d, (run es (h, t)).2 = .done d) ∨ (run es (h, t)).2 = .failed := by
  have one : ∀ (es : List Event) (h : Heap) (d : List Nat), 1 ≤ steps es → (run es (h, .have d)).2 = .done d := by
    intro es
    induction es with
    | nil => intro h d h1; simp [steps] at h1
    | cons e es ih =>
      intro h d h1
      cases e with
      | user a => exact ih _ d (by simpa [steps] using h1)
      | background => exact run_done es h d
  have two : ∀ (es : List Event) (h : Heap) (t : Task), 2 ≤ steps es → ((∃ o, t = .array o) ∨ (∃ o, t = .json o) ∨ ∃ d, t = .have d) →
      (∃ d, (run es (h, t)).2 = .done d) ∨ (run es (h, t)).2 = .failed := by
    intro es
    induction es with
    | nil => intro h t h1; simp [steps] at h1
    | cons e es ih =>
      intro h t h1 ht
      cases e with
      | user a => exact ih _ t (by simpa [steps] using h1) ht
      | background =>
        have h1' : 1 ≤ steps es := by
          have : steps (.background :: es) = steps es + 1 := by simp [steps]
          omega
        show (∃ d, (run es (h, step h t)).2 = .done d) ∨ (run es (h, step h t)).2 = .failed
        rcases ht with ⟨o, rfl⟩ | ⟨o, rfl⟩ | ⟨d, rfl⟩
        · simp only [step]
          split
          · exact Or.inl ⟨_, one es h _ h1'⟩
          · exact Or.inr (run_failed es h)
        · exact Or.inl ⟨_, one es h _ h1'⟩
        · exact Or.inl ⟨d, run_done es h d⟩
  obtain ⟨kind, obj⟩ := it
  refine two es h t h2 ?_
  cases kind with
  | numpy => injection hs with hs; subst hs; exact Or.inr (Or.inr ⟨_, rfl⟩)
  | value => injection hs with hs; subst hs; exact Or.inr (Or.inr ⟨_, rfl⟩)
  | json => injection hs with hs; subst hs; exact Or.inr (Or.inl ⟨_, rfl⟩)
  | proto => exact absurd rfl hk
  | array p =>
    cases p with
    | true =>
      simp only [start] at hs
      split at hs
      · injection hs with hs; subst hs; exact Or.inr (Or.inr ⟨_, rfl⟩)
      · cases hs
    | false => injection hs with hs; subst hs; exact Or.inl ⟨_, rfl⟩

/-- C132: a prioritized array that is already deleted is refused by the call; nothing else is. -/
theorem C132_refused (h : Heap) (it : Item) : start h it = none ↔ it.kind = .array true ∧ (h it.obj).alive = false := by
  obtain ⟨kind, obj⟩ := it
  cases kind with
  | array p =>
    cases p with
    | true => cases ha : (h obj).alive <;> simp [start, ha]
    | false => simp [start]
  | _ => simp [start]

/-! ## Metrics -/

theorem mrun_append (es es' : List MEvent) : ∀ s, mrun (es ++ es') s = mrun es' (mrun es s) := by
  induction es with
  | nil => intro s; rfl
  | cons e es ih =>
    rintro ⟨h, is⟩
    cases e <;> exact ih _

theorem mrun_infos (es : List MEvent) : ∀ h is, ∃ more, (mrun es (h, is)).2 = is ++ more := by
  induction es with
  | nil => intro h is; exact ⟨[], by simp [mrun]⟩
  | cons e es ih =>
    intro h is
    cases e with
    | user a => exact ih _ is
    | save n o =>
      obtain ⟨more, hm⟩ := ih h (is ++ [⟨n, o⟩])
      exact ⟨⟨n, o⟩ :: more, by rw [show mrun (.save n o :: es) (h, is) = mrun es (h, is ++ [⟨n, o⟩]) from rfl, hm]; simp⟩

/-- C132: the manager ranks a checkpoint by the metrics of the time of the call, if the program does not
change the object afterwards. -/
theorem C132_metrics (es es' : List MEvent) (h : Heap) (n o : Nat)
    (hn : ∀ e ∈ es', ∀ a, e = MEvent.user a → ¬ Changes o (.user a)) :
    (n, ((mrun es (h, [])).1 o).data) ∈ tracked (mrun (es ++ .save n o :: es') (h, [])) := by
  rw [mrun_append]
  generalize mrun es (h, []) = s
  obtain ⟨h', is⟩ := s
  show _ ∈ tracked (mrun es' (h', is ++ [⟨n, o⟩]))
  obtain ⟨more, hm⟩ := mrun_infos es' h' (is ++ [⟨n, o⟩])
  have hdata : ∀ (es : List MEvent) (h : Heap) (is : List Info), (∀ e ∈ es, ∀ a, e = MEvent.user a → ¬ Changes o (.user a)) →
      ((mrun es (h, is)).1 o).data = (h o).data := by
    intro es
    induction es with
    | nil => intro h is _; rfl
    | cons e es ih =>
      intro h is hn
      cases e with
      | user a =>
        exact (ih (act h a) is (fun e he => hn e (by simp [he]))).trans (act_other h a o (hn _ (by simp) a rfl))
      | save n o => exact ih h _ (fun e he => hn e (by simp [he]))
  unfold tracked
  rw [hm]
  refine List.mem_map.2 ⟨⟨n, o⟩, by simp, ?_⟩
  dsimp only
  rw [hdata es' h' _ hn]

/-! ## Findings -/

/-- C132 (finding): a document (an item saved as JSON, metrics, custom metadata) that the program changes
after the call, before the background runs, is stored as changed. -/
theorem C132_json_fails (h : Heap) (o i v : Nat) (hm : (h o).mutable = true) (t : Task) (hs : start h ⟨.json, o⟩ = some t) :
    (run [.user (.set o i v), .background, .background] (h, t)).2 = .done ((h o).data.set i v) := by
  injection hs with hs; subst hs
  simp [run, step, act, hm]

/-- C132 (finding): a protocol buffer that is changed while it is printed is stored with contents it never
had. -/
theorem C132_proto_fails :
    let h : Heap := fun _ => { data := [0, 0], mutable := true }
    let es : List Event := [.background, .user (.set 0 0 1), .user (.set 0 1 1), .background, .background, .background]
    (run es (h, .proto 0 [])).2 = .done [0, 1] ∧
    ∀ n, ((run (es.take n) (h, .proto 0 [])).1 0).data ∈ [[0, 0], [1, 0], [1, 1]] := by
  refine ⟨rfl, ?_⟩
  intro n
  match n with
  | 0 => decide
  | 1 => decide
  | 2 => decide
  | 3 => decide
  | 4 => decide
  | 5 => decide
  | n + 6 => 
    rw [List.take_of_length_le (by simp)]
    decide

/-- C132 (finding): a program that uses one object for the metrics of several steps makes them all equal:
the best of these checkpoints is decided by the last values only. -/
theorem C132_reused_metrics_fails (es : List MEvent) (s : Heap × List Info) (a b : Nat × List Nat) (o : Nat)
    (hall : ∀ e ∈ es, ∀ n o', e = MEvent.save n o' → o' = o) (hs : s.2 = [])
    (ha : a ∈ tracked (mrun es s)) (hb : b ∈ tracked (mrun es s)) : a.2 = b.2 := by
  have key : ∀ (es : List MEvent) (s : Heap × List Info), (∀ e ∈ es, ∀ n o', e = MEvent.save n o' → o' = o) →
      (∀ i ∈ s.2, i.obj = o) → ∀ i ∈ (mrun es s).2, i.obj = o := by
    intro es
    induction es with
    | nil => intro s _ h; exact h
    | cons e es ih =>
      rintro ⟨h, is⟩ hall hi
      cases e with
      | user a => exact ih _ (fun e he => hall e (by simp [he])) hi
      | save n o' =>
        refine ih _ (fun e he => hall e (by simp [he])) ?_
        intro i hi'
        rcases List.mem_append.1 hi' with hi' | hi'
        · exact hi i hi'
        · simp at hi'; subst hi'; exact hall _ (by simp) n o' rfl
  have hk := key es s hall (by rw [hs]; simp)
  unfold tracked at ha hb
  obtain ⟨i, hi, rfl⟩ := List.mem_map.1 ha
  obtain ⟨j, hj, rfl⟩ := List.mem_map.1 hb
  dsimp only
  rw [hk i hi, hk j hj]

/-! ## The hypotheses are met -/

/-- A numpy array and an array that was not prioritized, with the program changing and deleting; metrics. -/
theorem C132_nonvacuous :
    let h : Heap := fun o => if o = 0 then { data := [1, 2], mutable := true } else { data := [3], mutable := false }
    Typed h ⟨.array false, 1⟩ ∧ start h ⟨.numpy, 0⟩ = some (.have [1, 2]) ∧
    (run [.user (.set 0 0 9), .background] (h, .have [1, 2])).2 = .done [1, 2] ∧
    (run [.background, .user (.delete 1), .background] (h, .array 1)).2 = .done [3] ∧
    (run [.user (.delete 1), .background, .background] (h, .array 1)).2 = .failed ∧
    (run [.background, .background, .background, .background] (h, .proto 0 [])).2 = .done [1, 2] ∧
    tracked (mrun [.save 1 0, .user (.set 0 0 9), .save 2 0] (h, [])) = [(1, [9, 2]), (2, [9, 2])] := by
  refine ⟨fun _ => rfl, rfl, rfl, rfl, rfl, rfl, rfl⟩

end Verif.Handlers.Snapshot
