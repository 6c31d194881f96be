import Verif.V1.ContextProps

/-!
# Contexts: children are independent of their parents, checkpointers keep their own (C90)

Specification: `source dflt h parent given name` is where an option of a new context comes from: the argument, else
the parent, else the default.
-/

namespace Verif.V1.Context

open Verif (Assoc.get)

/-- Where an option of a new context comes from. -/
def source (dflt : Defaults) (h : List Obj) (parent : Option Nat) (given : String → Option Val) (name : String) : List Obj × Val :=
  match given name with
  | some v => (h, v)
  | none => match parent.bind fun p => attr h p name with
    | some v => (h, v)
    | none => dflt name

theorem get_map {α β : Type} (f : α → β) (l : List (String × α)) (n : String) :
    Assoc.get (l.map fun p => (p.1, f p.2)) n = (Assoc.get l n).map f := by
  induction l with
  | nil => rfl
  | cons p l ih =>
    simp only [List.map_cons, Assoc.get]
    split
    · rfl
    · exact ih

theorem InRange.mono {n m : Nat} (h : n ≤ m) {v : Val} (hv : InRange n v) : InRange m v := by
  cases v with
  | atom => trivial
  | ref i => exact Nat.lt_of_lt_of_le hv h

theorem attr_inRange {h : List Obj} (hc : Closed h) {i : Nat} {n : String} {v : Val} (ha : attr h i n = some v) : InRange h.length v := by
  obtain ⟨o, ho, hg⟩ := Option.bind_eq_some_iff.mp ha
  exact hc o (List.mem_of_getElem? ho) _ (mem_of_get hg)

/-- What is read in a part of the heap without outgoing references. -/
theorem follow_region {h h' : List Obj} (Q : Nat → Prop) (hsame : ∀ i, Q i → h'[i]? = h[i]?)
    (hclosed : ∀ i, Q i → ∀ o, h[i]? = some o → ∀ p ∈ o.fields, ∀ j, p.2 = .ref j → Q j) :
    ∀ (p : List String) (v : Val), (∀ i, v = .ref i → Q i) → follow h' v p = follow h v p
  | [], _, _ => rfl
  | _ :: _, .atom _, _ => rfl
  | n :: p, .ref i, hv => by
    have hi := hv i rfl
    simp only [follow, attr, hsame i hi]
    cases ho : h[i]? with
    | none => rfl
    | some o =>
      simp only [Option.bind_some]
      cases hg : Assoc.get o.fields n with
      | none => rfl
      | some v => exact follow_region Q hsame hclosed p v fun j hj => hclosed i hi o ho _ (mem_of_get hg) j hj

theorem follow_prefix {h h' : List Obj} (hc : Closed h) (hpre : h <+: h') (p : List String) (v : Val) (hv : InRange h.length v) :
    follow h' v p = follow h v p := by
  refine follow_region (fun i => i < h.length) ?_ ?_ p v ?_
  · intro i hi
    rw [prefix_get hpre (List.getElem?_eq_getElem hi), List.getElem?_eq_getElem hi]
  · intro i hi o ho q hq j hj
    have := hc o (List.mem_of_getElem? ho) q hq
    rw [hj] at this; exact this
  · rintro i rfl; exact hv

theorem shift_get (h t : List Obj) (i : Nat) : (h ++ t.map (shiftObj h.length))[h.length + i]? = (t[i]?).map (shiftObj h.length) := by
  rw [List.getElem?_append_right (Nat.le_add_right _ _), Nat.add_sub_cancel_left, List.getElem?_map]

theorem follow_graft (h t : List Obj) : ∀ (p : List String) (v : Val),
    follow (graft h t v).1 (graft h t v).2 p = (follow t v p).map (shiftVal h.length)
  | [], _ => rfl
  | _ :: _, .atom _ => rfl
  | n :: p, .ref i => by
    simp only [graft, shiftVal, follow, attr, shift_get]
    cases ho : t[i]? with
    | none => rfl
    | some o =>
      simp only [Option.map_some, Option.bind_some, shiftObj, get_map]
      cases hg : Assoc.get o.fields n with
      | none => rfl
      | some v => exact follow_graft h t p v

theorem atomAt_graft (h t : List Obj) (v : Val) (p : List String) : atomAt (graft h t v).1 (graft h t v).2 p = atomAt t v p := by
  unfold atomAt
  rw [follow_graft]
  cases follow t v p with
  | none => rfl
  | some w => cases w <;> rfl

/-- The part of the heap from `n0` on refers to itself only, and so does the rest. -/
structure Split (n0 : Nat) (h : List Obj) : Prop where
  le : n0 ≤ h.length
  closed : Closed h
  upper : ∀ i, n0 ≤ i → ∀ o, h[i]? = some o → ∀ p ∈ o.fields, ∀ j, p.2 = .ref j → n0 ≤ j

theorem graft_split {n0 : Nat} {h t : List Obj} (hs : Split n0 h) (ht : Closed t) (v : Val) : Split n0 (graft h t v).1 := by
  have hmem : ∀ o ∈ t.map (shiftObj h.length), ∀ p ∈ o.fields, ∀ j, p.2 = .ref j → h.length ≤ j ∧ j < h.length + t.length := by
    intro o ho p hp j hj
    obtain ⟨o', ho', rfl⟩ := List.mem_map.mp ho
    obtain ⟨q, hq, rfl⟩ := List.mem_map.mp hp
    simp only at hj
    have := ht o' ho' q hq
    cases hq2 : q.2 with
    | atom a => rw [hq2] at hj; cases hj
    | ref k =>
      rw [hq2] at hj this
      simp only [shiftVal, Val.ref.injEq] at hj
      simp only [InRange] at this
      omega
  refine ⟨?_, ?_, ?_⟩
  · simp only [graft, List.length_append, List.length_map]; have := hs.le; omega
  · intro o ho p hp
    simp only [graft, List.length_append, List.length_map]
    rcases List.mem_append.mp ho with ho | ho
    · exact (hs.closed o ho p hp).mono (Nat.le_add_right _ _)
    · cases hp2 : p.2 with
      | atom => trivial
      | ref j => exact (hmem o ho p hp j hp2).2
  · intro i hi o ho p hp j hj
    rcases Nat.lt_or_ge i h.length with hl | hl
    · rw [graft, List.getElem?_append_left hl] at ho
      exact hs.upper i hi o ho p hp j hj
    · rw [graft, List.getElem?_append_right hl] at ho
      have := hmem o (List.mem_of_getElem? ho) p hp j hj
      have := hs.le
      omega

theorem graft_value {n0 : Nat} {h t : List Obj} (hs : Split n0 h) (v : Val) (hv : InRange t.length v) :
    InRange (graft h t v).1.length (graft h t v).2 ∧ ∀ j, (graft h t v).2 = .ref j → n0 ≤ j := by
  cases v with
  | atom a => exact ⟨trivial, fun j hj => by cases hj⟩
  | ref i =>
    simp only [InRange] at hv
    refine ⟨?_, fun j hj => ?_⟩
    · simp only [graft, shiftVal, InRange, List.length_append, List.length_map]; omega
    · simp only [graft, shiftVal, Val.ref.injEq] at hj; have := hs.le; omega

/-- The options of a new context. -/
theorem getOptions_spec (dflt : Defaults) (hd : ∀ n, Closed (dflt n).1 ∧ InRange (dflt n).1.length (dflt n).2) (h0 : List Obj) (hc : Closed h0)
    (given : String → Option Val) (hg : ∀ n v, given n = some v → InRange h0.length v) (parent : Option Nat) (hp : ∀ i, parent = some i → i < h0.length) :
    ∀ (ns : List String) (h : List Obj), h0 <+: h → Split h0.length h →
      Split h0.length (getOptions dflt given parent h ns).1 ∧
      (∀ q ∈ (getOptions dflt given parent h ns).2, InRange (getOptions dflt given parent h ns).1.length q.2 ∧ ∀ j, q.2 = .ref j → h0.length ≤ j) ∧
      ∀ n ∈ ns, ∃ v, Assoc.get (getOptions dflt given parent h ns).2 n = some v ∧
        ∀ p, atomAt (getOptions dflt given parent h ns).1 v p = atomAt (source dflt h0 parent given n).1 (source dflt h0 parent given n).2 p
  | [], h, _, hs => ⟨hs, by simp [getOptions], by simp⟩
  | n :: ns, h, hpre, hs => by
    simp only [getOptions]
    have hattr : (parent.bind fun p => attr h p n) = parent.bind fun p => attr h0 p n := by
      cases parent with
      | none => rfl
      | some i =>
        have := List.getElem?_eq_getElem (hp i rfl)
        simp only [Option.bind_some, attr, this, prefix_get hpre this]
    rw [hattr]
    have hlen : h0.length ≤ h.length := hpre.length_le
    -- one option
    have one : ∃ t v, getOption dflt h (given n) (parent.bind fun p => attr h0 p n) n = graft h t v ∧ Closed t ∧ InRange t.length v ∧
        ∀ p, atomAt t v p = atomAt (source dflt h0 parent given n).1 (source dflt h0 parent given n).2 p := by
      have copy : ∀ v, InRange h0.length v → ∀ p, atomAt h v p = atomAt h0 v p := by
        intro v hv p
        simp only [atomAt, follow_prefix hc hpre p v hv]
      cases hgn : given n with
      | some v =>
        refine ⟨h, v, rfl, hs.closed, (hg n v hgn).mono hlen, fun p => ?_⟩
        simp only [source, hgn]
        exact copy v (hg n v hgn) p
      | none =>
        cases hpn : (parent.bind fun p => attr h0 p n) with
        | some v =>
          have hv : InRange h0.length v := by
            obtain ⟨i, -, hi⟩ := Option.bind_eq_some_iff.mp hpn
            exact attr_inRange hc hi
          refine ⟨h, v, rfl, hs.closed, hv.mono hlen, fun p => ?_⟩
          simp only [source, hgn, hpn]
          exact copy v hv p
        | none =>
          refine ⟨(dflt n).1, (dflt n).2, rfl, (hd n).1, (hd n).2, fun p => ?_⟩
          simp only [source, hgn, hpn]
    obtain ⟨t, v, hopt, ht, hv, hval⟩ := one
    rw [hopt]
    have hs' := graft_split hs ht v
    have hpre' : h0 <+: (graft h t v).1 := hpre.trans (List.prefix_append _ _)
    obtain ⟨h1, h2, h3⟩ := getOptions_spec dflt hd h0 hc given hg parent hp ns (graft h t v).1 hpre' hs'
    have hpre2 := getOptions_prefix dflt given parent ns (graft h t v).1
    obtain ⟨hv1, hv2⟩ := graft_value hs v hv
    refine ⟨h1, ?_, ?_⟩
    · intro q hq
      rcases List.mem_cons.mp hq with rfl | hq
      · exact ⟨hv1.mono hpre2.length_le, hv2⟩
      · exact h2 q hq
    · intro m hm
      by_cases hmn : n = m
      · subst hmn
        refine ⟨(graft h t v).2, by simp [Assoc.get], fun p => ?_⟩
        rw [← hval p, ← atomAt_graft h t v p]
        simp only [atomAt, follow_prefix hs'.closed hpre2 p _ hv1]
      · rcases List.mem_cons.mp hm with rfl | hm
        · exact absurd rfl hmn
        · obtain ⟨w, hw1, hw2⟩ := h3 m hm
          exact ⟨w, by simp [Assoc.get, hmn, hw1], hw2⟩

/-- What is assumed when a context is created: no dangling references. -/
structure Sound (dflt : Defaults) (h : List Obj) (parent : Option Nat) (given : String → Option Val) : Prop where
  dflt : ∀ n, Closed (dflt n).1 ∧ InRange (dflt n).1.length (dflt n).2
  heap : Closed h
  given : ∀ n v, given n = some v → InRange h.length v
  parent : ∀ i, parent = some i → i < h.length

theorem newContext_split {dflt : Defaults} {h : List Obj} {parent : Option Nat} {given : String → Option Val} (hs : Sound dflt h parent given) :
    Split h.length (newContext dflt h parent given).1 ∧ h.length ≤ (newContext dflt h parent given).2 ∧
    (newContext dflt h parent given).2 < (newContext dflt h parent given).1.length := by
  obtain ⟨h1, h2, -⟩ := getOptions_spec dflt hs.dflt h hs.heap given hs.given parent hs.parent names h (List.prefix_refl h)
    ⟨Nat.le_refl _, hs.heap, fun i hi o ho => by rw [List.getElem?_eq_none hi] at ho; cases ho⟩
  refine ⟨⟨?_, ?_, ?_⟩, h1.le, by simp [newContext]⟩
  · simp only [newContext, List.length_append]; have := h1.le; omega
  · intro o ho p hp
    simp only [newContext, List.length_append] at ho ⊢
    rcases List.mem_append.mp ho with ho | ho
    · exact (h1.closed o ho p hp).mono (Nat.le_add_right _ _)
    · simp only [List.mem_singleton] at ho
      subst ho
      exact ((h2 p hp).1).mono (Nat.le_add_right _ _)
  · intro i hi o ho p hp j hj
    simp only [newContext] at ho
    rcases Nat.lt_or_ge i (getOptions dflt given parent h names).1.length with hl | hl
    · rw [List.getElem?_append_left hl] at ho
      exact h1.upper i hi o ho p hp j hj
    · rw [List.getElem?_append_right hl] at ho
      have ho := List.mem_of_getElem? ho
      simp only [List.mem_singleton] at ho
      subst ho
      exact (h2 p hp).2 j hj

/-- The options a context is documented to have. -/
def documented : List String :=
  ["array", "asynchronous", "atomicity", "checkpoint_layout", "checkpointables", "deletion", "file", "memory", "multiprocessing", "pathways",
   "pytree", "safetensors"]

theorem documented_names (name : String) : name ∈ documented ↔ name ∈ names := by
  simp only [documented, names, List.mem_cons, List.not_mem_nil, or_false]
  constructor <;> intro h <;> rcases h with h | h | h | h | h | h | h | h | h | h | h | h <;> simp [h]

/-- C90: each option of a new context reads like the argument, else the option of the parent, else the default. -/
theorem C90_inherits (dflt : Defaults) (h : List Obj) (parent : Option Nat) (given : String → Option Val) (hs : Sound dflt h parent given)
    (name : String) (hn : name ∈ documented) (p : List String) :
    atomAt (newContext dflt h parent given).1 (.ref (newContext dflt h parent given).2) (name :: p) =
      atomAt (source dflt h parent given name).1 (source dflt h parent given name).2 p := by
  obtain ⟨h1, h2, h3⟩ := getOptions_spec dflt hs.dflt h hs.heap given hs.given parent hs.parent names h (List.prefix_refl h)
    ⟨Nat.le_refl _, hs.heap, fun i hi o ho => by rw [List.getElem?_eq_none hi] at ho; cases ho⟩
  obtain ⟨v, hv, hval⟩ := h3 name ((documented_names name).1 hn)
  rw [← hval p]
  have : attr (newContext dflt h parent given).1 (newContext dflt h parent given).2 name = some v := by
    simp [attr, newContext, hv]
  simp only [atomAt, follow, this, Option.bind_some]
  rw [show follow (newContext dflt h parent given).1 v p = follow (getOptions dflt given parent h names).1 v p from
    follow_prefix h1.closed (List.prefix_append _ _) p v (h2 _ (mem_of_get hv)).1]

/-- Objects change by assignments to them only. -/
theorem run_heap (dflt : Defaults) (limit : Nat) (P : Nat → Prop) : ∀ (evs : List Event) (s : State), Avoids evs P →
    ∀ i, P i → ∀ o, s.heap[i]? = some o → (run dflt limit s evs).heap[i]? = some o
  | [], _, _, _, _, _, h => h
  | ev :: evs, s, ha, i, hi, o, ho => by
    rw [run_cons]
    refine run_heap dflt limit P evs _ (fun e j n v h => ha e j n v (h.imp (List.mem_cons_of_mem _) (List.mem_cons_of_mem _))) i hi o ?_
    cases ev with
    | new parent given => exact prefix_get (newContext_prefix _ _ _ _) ho
    | alloc o' => exact prefix_get (List.prefix_append _ _) ho
    | enter a c =>
      simp only [step]
      split
      · split
        · split
          · exact ho
          · exact ho
        · exact ho
      · exact ho
    | leave a =>
      simp only [step]
      split
      · exact ho
      · exact ho
    | thread a =>
      simp only [step]
      split
      · exact ho
      · exact ho
    | task a b =>
      simp only [step]
      split
      · exact ho
      · exact ho
    | poke a j n v =>
      have hij : i ≠ j := by rintro rfl; exact ha a i n v (.inr List.mem_cons_self) hi
      simp only [step]
      split
      · split
        · rw [assign_ne _ _ _ _ _ hij]; exact ho
        · rw [assign_ne _ _ _ _ _ hij]; exact ho
        · exact ho
      · exact ho
    | setattr a j n v =>
      have hij : i ≠ j := by rintro rfl; exact ha a i n v (.inl List.mem_cons_self) hi
      simp only [step]
      split
      · exact ho
      · rw [assign_ne _ _ _ _ _ hij]; exact ho

/-- C90: nothing that is done to the parent, to the arguments, or to any object other than those made for the new
context, changes what is read from the new context. -/
theorem C90_child_independent (dflt : Defaults) (limit : Nat) (s : State) (parent : Option Nat) (given : String → Option Val)
    (hs : Sound dflt s.heap parent given) (evs : List Event)
    (ha : Avoids evs fun i => s.heap.length ≤ i ∧ i < (newContext dflt s.heap parent given).1.length) (p : List String) :
    follow (run dflt limit s (.new parent given :: evs)).heap (.ref (newContext dflt s.heap parent given).2) p =
      follow (newContext dflt s.heap parent given).1 (.ref (newContext dflt s.heap parent given).2) p := by
  obtain ⟨h1, h2, h3⟩ := newContext_split hs
  rw [run_cons]
  refine follow_region (fun i => s.heap.length ≤ i ∧ i < (newContext dflt s.heap parent given).1.length) ?_ ?_ p _ ?_
  · intro i hi
    have := List.getElem?_eq_getElem hi.2
    rw [this]
    exact run_heap dflt limit _ evs _ ha i hi _ this
  · intro i hi o ho q hq j hj
    refine ⟨h1.upper i hi.1 o ho q hq j hj, ?_⟩
    have := h1.closed o (List.mem_of_getElem? ho) q hq
    rw [hj] at this; exact this
  · rintro i hi; cases hi; exact ⟨h2, h3⟩

/-- C90: nothing that is done to the objects made for a new context, or later ones, changes what is read from any
value that existed before, the parent among them. -/
theorem C90_parent_independent (dflt : Defaults) (limit : Nat) (s : State) (parent : Option Nat) (given : String → Option Val)
    (hs : Sound dflt s.heap parent given) (evs : List Event) (ha : Avoids evs fun i => i < s.heap.length) (v : Val) (hv : InRange s.heap.length v)
    (p : List String) : follow (run dflt limit s (.new parent given :: evs)).heap v p = follow s.heap v p := by
  rw [run_cons]
  refine follow_region (fun i => i < s.heap.length) ?_ ?_ p _ ?_
  · intro i hi
    have := List.getElem?_eq_getElem hi
    rw [this]
    exact run_heap dflt limit _ evs _ ha i hi _ (prefix_get (newContext_prefix _ _ _ _) this)
  · intro i hi o ho q hq j hj
    have := hs.heap o (List.mem_of_getElem? ho) q hq
    rw [hj] at this; exact this
  · rintro i rfl; exact hv

/-- Frozen objects exist. -/
def FrozenExist (s : State) : Prop := ∀ e x, s.exec e = some x → ∀ v ∈ x.full, ∀ i ∈ v.frozen, i < s.heap.length

theorem collect_exist (h : List Obj) : ∀ (fuel : Nat) (todo : List Val) (ids R : List Nat), collect h fuel todo ids = some R →
    (∀ i ∈ ids, i < h.length) → ∀ i ∈ R, i < h.length := by
  intro fuel
  induction fuel with
  | zero =>
    intro todo ids R hc hi
    cases todo with
    | nil => simp only [collect, Option.some.injEq] at hc; subst hc; exact hi
    | cons => cases hc
  | succ fuel ih =>
    intro todo ids R hc hi
    cases todo with
    | nil => simp only [collect, Option.some.injEq] at hc; subst hc; exact hi
    | cons v todo =>
      cases v with
      | atom a => exact ih todo ids R hc hi
      | ref i =>
        simp only [collect] at hc
        split at hc
        · exact ih _ _ _ hc hi
        · split at hc
          · exact ih _ _ _ hc hi
          · next o ho =>
            have hlt : i < h.length := by
              rcases Nat.lt_or_ge i h.length with hl | hl
              · exact hl
              · rw [List.getElem?_eq_none hl] at ho; cases ho
            split at hc
            · refine ih _ _ _ hc ?_
              intro j hj
              rcases List.mem_cons.mp hj with rfl | hj
              · exact hlt
              · exact hi j hj
            · exact ih _ _ _ hc hi
            · exact ih _ _ _ hc hi
            · exact ih _ _ _ hc hi

theorem step_heap_le (dflt : Defaults) (limit : Nat) (s : State) (ev : Event) : s.heap.length ≤ (step dflt limit s ev).heap.length := by
  cases ev with
  | new parent given => exact (newContext_prefix _ _ _ _).length_le
  | alloc o => simp [step]
  | enter e c =>
    simp only [step]
    split
    · split
      · split <;> exact Nat.le_refl _
      · exact Nat.le_refl _
    · exact Nat.le_refl _
  | leave e => simp only [step]; split <;> exact Nat.le_refl _
  | setattr e i n v => simp only [step]; split; exact Nat.le_refl _; simp [assign_length]
  | poke e i n v => simp only [step]; split; split <;> simp [assign_length]; exact Nat.le_refl _
  | thread e => simp only [step]; split <;> exact Nat.le_refl _
  | task a b => simp only [step]; split <;> exact Nat.le_refl _

theorem frozenExist_step (dflt : Defaults) (limit : Nat) (s : State) (ev : Event) (h : FrozenExist s) : FrozenExist (step dflt limit s ev) := by
  intro e x hx v hv i hi
  refine Nat.lt_of_lt_of_le ?_ (step_heap_le dflt limit s ev)
  cases he : s.exec e with
  | some x0 =>
    obtain ⟨x', hx', hc⟩ := step_exec dflt limit s ev e x0 he
    rw [hx'] at hx; cases hx
    rcases hc with rfl | ⟨c, o, ids, -, ho, -, hcol, hf⟩ | ⟨-, hf⟩
    · exact h e x he v hv i hi
    · rw [hf] at hv
      rcases List.mem_cons.mp hv with rfl | hv
      · rcases List.mem_append.mp hi with hi | hi
        · refine collect_exist s.heap limit _ [c] ids hcol ?_ i hi
          intro j hj
          simp only [List.mem_singleton] at hj
          subst hj
          rcases Nat.lt_or_ge j s.heap.length with hl | hl
          · exact hl
          · rw [List.getElem?_eq_none hl] at ho; cases ho
        · exact h e x0 he x0.vars (by simp [Exec.full]) i hi
      · exact h e x0 he v hv i hi
    · exact h e x0 he v (by rw [hf]; simp [hv]) i hi
  | none =>
    -- a new thread or task
    cases ev with
    | thread a =>
      simp only [step] at hx
      split at hx
      · simp only [putExec] at hx
        split at hx
        · cases hx
          simp only [Exec.full, List.mem_singleton] at hv
          subst hv; cases hi
        · rw [he] at hx; cases hx
      · rw [he] at hx; cases hx
    | task a b =>
      simp only [step] at hx
      split at hx
      · next xa hxa _ =>
        simp only [putExec] at hx
        split at hx
        · cases hx
          simp only [Exec.full, List.mem_singleton] at hv
          subst hv
          exact h a xa hxa xa.vars (by simp [Exec.full]) i hi
        · rw [he] at hx; cases hx
      · rw [he] at hx; cases hx
    | new parent given => simp only [step] at hx; rw [he] at hx; cases hx
    | alloc o => simp only [step] at hx; rw [he] at hx; cases hx
    | enter a c =>
      simp only [step] at hx
      split at hx
      · next xa _ hxa _ =>
        have hne : e ≠ a := by rintro rfl; rw [he] at hxa; cases hxa
        split at hx
        · split at hx
          · simp only [putExec, hne, if_false] at hx; rw [he] at hx; cases hx
          · rw [he] at hx; cases hx
        · rw [he] at hx; cases hx
      · rw [he] at hx; cases hx
    | leave a =>
      simp only [step] at hx
      split at hx
      · next hxa =>
        have hne : e ≠ a := by rintro rfl; rw [he] at hxa; cases hxa
        simp only [putExec, hne, if_false] at hx; rw [he] at hx; cases hx
      · rw [he] at hx; cases hx
    | setattr a j n w => simp only [step] at hx; split at hx <;> (rw [he] at hx; cases hx)
    | poke a j n w =>
      simp only [step] at hx
      split at hx
      · split at hx <;> (rw [he] at hx; cases hx)
      · rw [he] at hx; cases hx

theorem frozenExist_run (dflt : Defaults) (limit : Nat) : ∀ (evs : List Event) (s : State), FrozenExist s → FrozenExist (run dflt limit s evs)
  | [], _, h => h
  | ev :: evs, s, h => frozenExist_run dflt limit evs _ (frozenExist_step dflt limit s ev h)

/-- A program starts with one thread, without context. -/
def start : State := ⟨[], fun e => if e = 0 then some ⟨⟨none, []⟩, []⟩ else none⟩

/-- C90: in every history, the options of a context that was just created can be set in any thread, inside any number
of `with` blocks. -/
theorem C90_new_is_mutable (dflt : Defaults) (limit : Nat) (evs : List Event) (parent : Option Nat) (given : String → Option Val) (e : Nat) (i : Nat) (name : String)
    (v : Val) (o : Obj) (he : ((run dflt limit start evs).exec e).isSome)
    (hnew : (run dflt limit start evs).heap.length ≤ i) (hi : (run dflt limit start (evs ++ [.new parent given])).heap[i]? = some o) (hk : o.kind = .options) :
    attr (run dflt limit start (evs ++ [.new parent given, .setattr e i name v])).heap i name = some v := by
  have hfe : FrozenExist (run dflt limit start evs) := frozenExist_run dflt limit evs start (by
    intro e x hx v hv i hi
    simp only [start] at hx
    split at hx
    · cases hx
      simp only [Exec.full, List.mem_singleton] at hv
      subst hv; cases hi
    · cases hx)
  obtain ⟨x, hx⟩ := Option.isSome_iff_exists.mp he
  rw [run_append] at hi ⊢
  generalize run dflt limit start evs = s at *
  have hnf : i ∉ x.vars.frozen := fun h => by
    have := hfe e x hx x.vars (by simp [Exec.full]) i h
    omega
  change attr (step dflt limit (step dflt limit s (.new parent given)) (.setattr e i name v)).heap i name = some v
  change (step dflt limit s (.new parent given)).heap[i]? = some o at hi
  have hx' : (step dflt limit s (.new parent given)).exec e = some x := hx
  generalize step dflt limit s (.new parent given) = s' at *
  have hr : refused s' e i name = false := by simp [refused, hx', hi, hk, hnf]
  have hlt : i < s'.heap.length := by
    rcases Nat.lt_or_ge i s'.heap.length with hl | hl
    · exact hl
    · rw [List.getElem?_eq_none hl] at hi; cases hi
  simp [step, hr, assign, hi, attr, hlt]

/-- C90: a checkpointer used where no context is active uses its own. -/
theorem C90_checkpointer (s : State) (e : Nat) (own : Nat) (h : ∀ d, getContext s e d = d) : usedContext s e own = some own := h _

/-- C90: the own context of a checkpointer that is created with a context, or where one is active, reads like that
context does at that moment. -/
theorem C90_checkpointer_copy (dflt : Defaults) (s : State) (e : Nat) (context : Option Nat) (c : Nat)
    (hc : context = some c ∨ context = none ∧ getContext s e none = some c) (hs : Sound dflt s.heap (some c) (fun _ => none))
    (hfull : ∀ n ∈ documented, (attr s.heap c n).isSome) (name : String) (hn : name ∈ documented) (p : List String) :
    atomAt (newCheckpointer dflt s e context).1 (.ref (newCheckpointer dflt s e context).2) (name :: p) = atomAt s.heap (.ref c) (name :: p) := by
  have : newCheckpointer dflt s e context = newContext dflt s.heap (some c) (fun _ => none) := by
    rcases hc with rfl | ⟨rfl, h⟩
    · rfl
    · simp only [newCheckpointer, h]
  rw [this, C90_inherits dflt s.heap (some c) _ hs name hn p]
  obtain ⟨v, hv⟩ := Option.isSome_iff_exists.mp (hfull name hn)
  simp [source, hv, atomAt, follow]

/-- C90 (finding): the context given to a checkpointer is not used where another context is active, though it is
documented to wrap all its calls. -/
theorem C90_checkpointer_fails (s : State) (e : Nat) (own c : Nat) (hc : ∀ d, getContext s e d = some c) (hne : c ≠ own) :
    usedContext s e own ≠ some own := by
  intro h
  unfold usedContext at h
  rw [hc] at h
  exact hne (Option.some.inj h)

end Verif.V1.Context
