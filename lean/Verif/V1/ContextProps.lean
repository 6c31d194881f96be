import Verif.V1.Context

/-!
# Contexts: scoping, freezing and independence (C90)

Specification.  `follow h v path`: what the user reads at `v.a.b.c`.  `depth s e`: how many `with` blocks are open in
thread or task `e`.  `Open dflt limit s e d evs`: while `evs` happen, more than `d` blocks stay open in `e`.
`Family s A evs`: only the threads and tasks of `A`, and tasks they start, act in `evs`.  `Avoids evs P`: no event
changes an object of `P`.
-/

namespace Verif.V1.Context

open Verif (Assoc.get)

/-- The value that is read at a path. -/
def follow (h : List Obj) : Val → List String → Option Val
  | v, [] => some v
  | .atom _, _ :: _ => none
  | .ref i, n :: p => (attr h i n).bind fun v => follow h v p

/-- The number that is read at a path, if it is not an object. -/
def atomAt (h : List Obj) (v : Val) (p : List String) : Option Nat :=
  (follow h v p).bind fun | .atom a => some a | .ref _ => none

/-- Number of open `with` blocks. -/
def depth (s : State) (e : Nat) : Nat := ((s.exec e).map (·.stack.length)).getD 0

/-- More than `d` blocks are open in `e` all the time. -/
def Open (dflt : Defaults) (limit : Nat) (s : State) (e d : Nat) : List Event → Prop
  | [] => d < depth s e
  | ev :: evs => d < depth s e ∧ Open dflt limit (step dflt limit s ev) e d evs

/-- Who acts. -/
def actor : Event → Option Nat
  | .enter e _ => some e
  | .leave e => some e
  | .setattr e _ _ _ => some e
  | .poke e _ _ _ => some e
  | .task e _ => some e
  | _ => none

/-- Only `A` and the tasks they start act. -/
def Family (dflt : Defaults) (limit : Nat) : State → List Nat → List Event → Prop
  | _, _, [] => True
  | s, A, ev :: evs => (∀ e, actor ev = some e → e ∈ A) ∧ (∀ e e', ev = .task e e' → s.exec e' = none) ∧
      ((∀ e e', ev = .task e e' → Family dflt limit (step dflt limit s ev) (e' :: A) evs) ∧
       ((∀ e e', ev ≠ .task e e') → Family dflt limit (step dflt limit s ev) A evs))

/-- No event changes an object of `P`. -/
def Avoids (evs : List Event) (P : Nat → Prop) : Prop :=
  ∀ e i name v, (Event.setattr e i name v ∈ evs ∨ Event.poke e i name v ∈ evs) → ¬ P i

/-- No dangling references. -/
def InRange (n : Nat) : Val → Prop
  | .atom _ => True
  | .ref i => i < n

def Closed (h : List Obj) : Prop := ∀ o ∈ h, ∀ p ∈ o.fields, InRange h.length p.2

/-- Variables, innermost first. -/
def Exec.full (x : Exec) : List Vars := x.vars :: x.stack

/-! ## Steps and threads -/

theorem step_exec (dflt : Defaults) (limit : Nat) (s : State) (ev : Event) (e : Nat) (x : Exec) (h : s.exec e = some x) :
    ∃ x', (step dflt limit s ev).exec e = some x' ∧
      (x' = x ∨ (∃ c o ids, ev = .enter e c ∧ s.heap[c]? = some o ∧ o.kind = .context ∧ collect s.heap limit (o.fields.map (·.2)) [c] = some ids ∧
          x'.full = ⟨some c, ids ++ x.vars.frozen⟩ :: x.full) ∨
        (ev = .leave e ∧ x.full = x.vars :: x'.full)) := by
  cases ev with
  | new parent given => exact ⟨x, h, .inl rfl⟩
  | alloc o => exact ⟨x, h, .inl rfl⟩
  | setattr e' i name v =>
    refine ⟨x, ?_, .inl rfl⟩
    simp only [step]; split <;> exact h
  | poke e' i name v =>
    refine ⟨x, ?_, .inl rfl⟩
    simp only [step]
    split
    · split <;> exact h
    · exact h
  | thread e' =>
    refine ⟨x, ?_, .inl rfl⟩
    simp only [step]
    cases he : s.exec e' with
    | none =>
      have : e ≠ e' := by rintro rfl; rw [h] at he; cases he
      simp [putExec, this, h]
    | some _ => exact h
  | task a b =>
    refine ⟨x, ?_, .inl rfl⟩
    simp only [step]
    split
    · next he _ =>
      have : e ≠ b := by rintro rfl; rw [h] at *; contradiction
      simp [putExec, this, h]
    · exact h
  | enter a c =>
    simp only [step]
    by_cases hae : e = a
    · subst hae
      rw [h]
      cases hc : s.heap[c]? with
      | none => exact ⟨x, h, .inl rfl⟩
      | some o =>
        by_cases hk : o.kind = .context
        · cases hcol : collect s.heap limit (o.fields.map (·.2)) [c] with
          | none => exact ⟨x, by simp [hk, hcol, h], .inl rfl⟩
          | some ids =>
            refine ⟨⟨⟨some c, ids ++ x.vars.frozen⟩, x.vars :: x.stack⟩, by simp [hk, hcol, putExec], .inr (.inl ⟨c, o, ids, rfl, hc, hk, hcol, rfl⟩)⟩
        · exact ⟨x, by simp [hk, h], .inl rfl⟩
    · refine ⟨x, ?_, .inl rfl⟩
      split
      · split
        · split
          · simp [putExec, hae, h]
          · exact h
        · exact h
      · exact h
  | leave a =>
    simp only [step]
    by_cases hae : e = a
    · subst hae
      rw [h]
      obtain ⟨v, stack⟩ := x
      cases stack with
      | nil => exact ⟨⟨v, []⟩, h, .inl rfl⟩
      | cons old stack => exact ⟨⟨old, stack⟩, by simp [putExec], .inr (.inr ⟨rfl, rfl⟩)⟩
    · refine ⟨x, ?_, .inl rfl⟩
      split
      · simp [putExec, hae, h]
      · exact h

theorem run_cons (dflt : Defaults) (limit : Nat) (s : State) (ev : Event) (evs : List Event) :
    run dflt limit s (ev :: evs) = run dflt limit (step dflt limit s ev) evs := rfl

theorem depth_eq {s : State} {e : Nat} {x : Exec} (h : s.exec e = some x) : depth s e + 1 = x.full.length := by
  simp [depth, h, Exec.full]

/-- While more than `d` blocks are open, the lower ones do not change. -/
theorem run_suffix (dflt : Defaults) (limit : Nat) (e : Nat) (base : List Vars) :
    ∀ (evs : List Event) (s : State) (x : Exec), s.exec e = some x → base <:+ x.full →
      (base.length = 1 ∨ 2 ≤ base.length ∧ Open dflt limit s e (base.length - 2) evs) →
      ∃ x', (run dflt limit s evs).exec e = some x' ∧ base <:+ x'.full
  | [], s, x, h, hb, _ => ⟨x, h, hb⟩
  | ev :: evs, s, x, h, hb, ho => by
    obtain ⟨x', h', hx⟩ := step_exec dflt limit s ev e x h
    rw [run_cons]
    refine run_suffix dflt limit e base evs _ x' h' ?_ (ho.imp id fun ho => ⟨ho.1, ho.2.2⟩)
    rcases hx with rfl | ⟨c, o, ids, -, -, -, -, hf⟩ | ⟨-, hf⟩
    · exact hb
    · rw [hf]; exact hb.trans (List.suffix_cons _ _)
    · rw [hf] at hb
      rcases List.suffix_cons_iff.mp hb with e1 | hb
      · have hl := congrArg List.length e1
        have := depth_eq h'
        rcases ho with ho | ⟨h2, ho⟩
        · simp [Exec.full] at hl; omega
        · have hd : base.length - 2 < depth (step dflt limit s ev) e := by
            cases evs with
            | nil => exact ho.2
            | cons _ _ => exact ho.2.1
          simp only [List.length_cons] at hl
          omega
      · exact hb

theorem run_append (dflt : Defaults) (limit : Nat) (s : State) (evs evs' : List Event) :
    run dflt limit s (evs ++ evs') = run dflt limit (run dflt limit s evs) evs' := by simp [run]

/-- C90: whatever happens inside a `with` block, in its thread or elsewhere, the context of the innermost open block
is the active one; when the block is left, by an exception or not, everything is as before it was entered. -/
theorem C90_scope (dflt : Defaults) (limit : Nat) (s : State) (e : Nat) (c : Nat) (evs : List Event) (hs : (s.exec e).isSome)
    (hopen : Open dflt limit (step dflt limit s (.enter e c)) e (depth s e) evs)
    (hin : depth (run dflt limit s (.enter e c :: evs)) e = depth s e + 1) :
    (∀ d, getContext (run dflt limit s (.enter e c :: evs)) e d = some c) ∧
    (run dflt limit s (.enter e c :: evs ++ [.leave e])).exec e = s.exec e := by
  obtain ⟨x, hx⟩ := Option.isSome_iff_exists.mp hs
  obtain ⟨x1, h1, hcase⟩ := step_exec dflt limit s (.enter e c) e x hx
  have hd1 : depth s e < depth (step dflt limit s (.enter e c)) e := by
    cases evs with
    | nil => exact hopen
    | cons _ _ => exact hopen.1
  have e0 := depth_eq hx
  have e1 := depth_eq h1
  rcases hcase with rfl | ⟨c', o, ids, hev, -, -, -, hf⟩ | ⟨hev, -⟩
  · omega
  · cases hev
    have hl : x1.full.length = depth s e + 2 := by rw [hf]; simp [← e0]
    obtain ⟨x2, h2, hsuf⟩ := run_suffix dflt limit e x1.full evs _ x1 h1 (List.suffix_refl _)
      (.inr ⟨by omega, by rw [hl]; exact hopen⟩)
    rw [run_cons] at hin
    have e2 := depth_eq h2
    have : x2.full = x1.full := (hsuf.eq_of_length (by omega)).symm
    rw [hf] at this
    obtain ⟨v2, st2⟩ := x2
    simp only [Exec.full, List.cons.injEq] at this
    obtain ⟨rfl, rfl⟩ := this
    constructor
    · intro d
      rw [run_cons]
      simp [getContext, h2]
    · rw [List.cons_append, run_cons, run_append]
      have : ∀ t : State, t.exec e = some ⟨⟨some c, ids ++ x.vars.frozen⟩, x.full⟩ → (run dflt limit t [.leave e]).exec e = some x := by
        intro t ht
        simp [run, step, ht, Exec.full, putExec]
      rw [this _ h2, hx]
  · cases hev

/-- C90: a new thread has no active context, and has none whenever none of its own `with` blocks is open, whatever
happens in other threads. -/
theorem C90_thread (dflt : Defaults) (limit : Nat) (s : State) (e : Nat) (hs : s.exec e = none) (evs : List Event)
    (hd : depth (run dflt limit s (.thread e :: evs)) e = 0) (d : Option Nat) : getContext (run dflt limit s (.thread e :: evs)) e d = d := by
  have h1 : (step dflt limit s (.thread e)).exec e = some ⟨⟨none, []⟩, []⟩ := by simp [step, hs, putExec]
  obtain ⟨x, h2, hsuf⟩ := run_suffix dflt limit e [⟨none, []⟩] evs _ _ h1 (List.suffix_refl _) (.inl rfl)
  rw [run_cons] at hd ⊢
  have e2 := depth_eq h2
  have := hsuf.eq_of_length (by simp; omega)
  obtain ⟨v, st⟩ := x
  simp only [Exec.full, List.cons.injEq] at this
  simp [getContext, h2, ← this.1]

/-- C90: a task starts with the context that is active where it is created, and keeps it while none of its own blocks
is open, even if the block around its creation is left. -/
theorem C90_task (dflt : Defaults) (limit : Nat) (s : State) (e e' : Nat) (he : (s.exec e).isSome) (hs : s.exec e' = none) (evs : List Event)
    (hd : depth (run dflt limit s (.task e e' :: evs)) e' = 0) (d : Option Nat) :
    getContext (run dflt limit s (.task e e' :: evs)) e' d = getContext s e d := by
  obtain ⟨x, hx⟩ := Option.isSome_iff_exists.mp he
  have h1 : (step dflt limit s (.task e e')).exec e' = some ⟨x.vars, []⟩ := by simp [step, hx, hs, putExec]
  obtain ⟨x', h2, hsuf⟩ := run_suffix dflt limit e' [x.vars] evs _ _ h1 (List.suffix_refl _) (.inl rfl)
  rw [run_cons] at hd ⊢
  have e2 := depth_eq h2
  have := hsuf.eq_of_length (by simp; omega)
  obtain ⟨v, st⟩ := x'
  simp only [Exec.full, List.cons.injEq] at this
  simp [getContext, h2, hx, ← this.1]

/-! ## Frozen options -/

/-- Every options object that a value leads to, through options objects and containers, is in `R`. -/
inductive Covered (h : List Obj) (R : List Nat) : Val → Prop
  | atom (a : Nat) : Covered h R (.atom a)
  | missing (i : Nat) : h[i]? = none → Covered h R (.ref i)
  | options (i : Nat) (o : Obj) : h[i]? = some o → o.kind = .options → i ∈ R → Covered h R (.ref i)
  | container (i : Nat) (o : Obj) : h[i]? = some o → o.kind = .container → (∀ p ∈ o.fields, Covered h R p.2) → Covered h R (.ref i)
  | other (i : Nat) (o : Obj) : h[i]? = some o → o.kind = .foreign ∨ o.kind = .context → Covered h R (.ref i)

theorem collect_covers (h : List Obj) : ∀ (fuel : Nat) (todo : List Val) (ids R : List Nat), collect h fuel todo ids = some R →
    (∀ i ∈ ids, ∀ o, h[i]? = some o → o.kind = .options ∨ o.kind = .context) →
    (∀ i ∈ ids, i ∈ R) ∧ (∀ v ∈ todo, Covered h R v) ∧
    ∀ i ∈ R, i ∈ ids ∨ ∃ o, h[i]? = some o ∧ o.kind = .options ∧ ∀ p ∈ o.fields, Covered h R p.2 := by
  intro fuel
  induction fuel with
  | zero =>
    intro todo ids R hc _
    cases todo with
    | nil => simp only [collect, Option.some.injEq] at hc; subst hc; exact ⟨fun _ h => h, by simp, fun i hi => .inl hi⟩
    | cons => cases hc
  | succ fuel ih =>
    intro todo ids R hc hids
    cases todo with
    | nil => simp only [collect, Option.some.injEq] at hc; subst hc; exact ⟨fun _ h => h, by simp, fun i hi => .inl hi⟩
    | cons v todo =>
      cases v with
      | atom a =>
        obtain ⟨h1, h2, h3⟩ := ih todo ids R hc hids
        exact ⟨h1, by intro v hv; rcases List.mem_cons.mp hv with rfl | hv; exact .atom a; exact h2 v hv, h3⟩
      | ref i =>
        simp only [collect] at hc
        by_cases hi : i ∈ ids
        · rw [if_pos hi] at hc
          obtain ⟨h1, h2, h3⟩ := ih todo ids R hc hids
          refine ⟨h1, ?_, h3⟩
          intro v hv
          rcases List.mem_cons.mp hv with rfl | hv
          · cases ho : h[i]? with
            | none => exact .missing i ho
            | some o =>
              rcases hids i hi o ho with hk | hk
              · exact .options i o ho hk (h1 i hi)
              · exact .other i o ho (.inr hk)
          · exact h2 v hv
        · rw [if_neg hi] at hc
          cases ho : h[i]? with
          | none =>
            simp only [ho] at hc
            obtain ⟨h1, h2, h3⟩ := ih todo ids R hc hids
            exact ⟨h1, by intro v hv; rcases List.mem_cons.mp hv with rfl | hv; exact .missing i ho; exact h2 v hv, h3⟩
          | some o =>
            cases hk : o.kind with
            | options =>
              simp only [ho, hk] at hc
              obtain ⟨h1, h2, h3⟩ := ih _ _ R hc (by
                intro j hj o' ho'
                rcases List.mem_cons.mp hj with rfl | hj
                · rw [ho] at ho'; cases ho'; exact .inl hk
                · exact hids j hj o' ho')
              refine ⟨fun j hj => h1 j (by simp [hj]), ?_, ?_⟩
              · intro v hv
                rcases List.mem_cons.mp hv with rfl | hv
                · exact .options i o ho hk (h1 i (by simp))
                · exact h2 v (by simp [hv])
              · intro j hj
                rcases h3 j hj with hj | hj
                · rcases List.mem_cons.mp hj with rfl | hj
                  · exact .inr ⟨o, ho, hk, fun p hp => h2 p.2 (List.mem_append.mpr (.inl (List.mem_map.mpr ⟨p, hp, rfl⟩)))⟩
                  · exact .inl hj
                · exact .inr hj
            | container =>
              simp only [ho, hk] at hc
              obtain ⟨h1, h2, h3⟩ := ih _ _ R hc hids
              refine ⟨h1, ?_, h3⟩
              intro v hv
              rcases List.mem_cons.mp hv with rfl | hv
              · exact .container i o ho hk fun p hp => h2 p.2 (List.mem_append.mpr (.inl (List.mem_map.mpr ⟨p, hp, rfl⟩)))
              · exact h2 v (by simp [hv])
            | foreign =>
              simp only [ho, hk] at hc
              obtain ⟨h1, h2, h3⟩ := ih todo ids R hc hids
              exact ⟨h1, by intro v hv; rcases List.mem_cons.mp hv with rfl | hv; exact .other i o ho (.inl hk); exact h2 v hv, h3⟩
            | context =>
              simp only [ho, hk] at hc
              obtain ⟨h1, h2, h3⟩ := ih todo ids R hc hids
              exact ⟨h1, by intro v hv; rcases List.mem_cons.mp hv with rfl | hv; exact .other i o ho (.inr hk); exact h2 v hv, h3⟩

/-- The path leads through options objects and containers only. -/
def Plain (h : List Obj) : Val → List String → Prop
  | _, [] => True
  | .atom _, _ :: _ => True
  | .ref i, n :: p => ∃ o, h[i]? = some o ∧ (o.kind = .options ∨ o.kind = .container) ∧ ∀ v, Assoc.get o.fields n = some v → Plain h v p

theorem mem_of_get {α : Type} {l : List (String × α)} {n : String} {v : α} (h : Assoc.get l n = some v) : (n, v) ∈ l := by
  induction l with
  | nil => cases h
  | cons p l ih =>
    simp only [Assoc.get] at h
    split at h
    · next e => cases h; subst e; simp
    · simp [ih h]

theorem follow_frozen {h h' : List Obj} {R : List Nat}
    (hR : ∀ i ∈ R, ∀ o, h[i]? = some o → o.kind = .options → ∀ p ∈ o.fields, Covered h R p.2)
    (hsame : ∀ i o, h[i]? = some o → (o.kind = .options ∧ i ∈ R ∨ o.kind = .container) → h'[i]? = some o) :
    ∀ (p : List String) (v : Val), Covered h R v → Plain h v p → follow h' v p = follow h v p
  | [], _, _, _ => rfl
  | _ :: _, .atom _, _, _ => rfl
  | n :: p, .ref i, hc, hp => by
    obtain ⟨o, ho, hk, hv⟩ := hp
    have key : (o.kind = .options ∧ i ∈ R ∨ o.kind = .container) ∧ ∀ q ∈ o.fields, Covered h R q.2 := by
      cases hc with
      | missing _ hm => rw [ho] at hm; cases hm
      | options _ o' ho' hk' hi => rw [ho] at ho'; cases ho'; exact ⟨.inl ⟨hk', hi⟩, hR i hi o ho hk'⟩
      | container _ o' ho' hk' hf => rw [ho] at ho'; cases ho'; exact ⟨.inr hk', hf⟩
      | other _ o' ho' hk' =>
        rw [ho] at ho'; cases ho'
        rcases hk with hk | hk <;> rcases hk' with hk' | hk' <;> rw [hk] at hk' <;> cases hk'
    simp only [follow, attr, ho, hsame i o ho key.1, Option.bind_some]
    cases hg : Assoc.get o.fields n with
    | none => rfl
    | some v => exact follow_frozen hR hsame p v (key.2 _ (mem_of_get hg)) (hv v hg)

/-- What the family has frozen. -/
def Holds (e : Nat) (base : List Vars) (R : List Nat) (s : State) (A : List Nat) : Prop :=
  ∀ a ∈ A, ∃ x pre b, s.exec a = some x ∧ x.full = pre ++ b ∧ pre ≠ [] ∧ (∀ v ∈ pre, ∀ i ∈ R, i ∈ v.frozen) ∧ (b = [] ∨ a = e ∧ b = base)

theorem assign_length (h : List Obj) (i : Nat) (n : String) (v : Val) : (assign h i n v).length = h.length := by
  unfold assign; split <;> simp

theorem assign_ne (h : List Obj) (i j : Nat) (n : String) (v : Val) (hij : j ≠ i) : (assign h i n v)[j]? = h[j]? := by
  unfold assign
  split
  · rfl
  · simp [Ne.symm hij]

theorem getOptions_prefix (dflt : Defaults) (given : String → Option Val) (parent : Option Nat) : ∀ (ns : List String) (h : List Obj),
    h <+: (getOptions dflt given parent h ns).1
  | [], h => List.prefix_refl h
  | n :: ns, h => by
    simp only [getOptions]
    refine List.IsPrefix.trans ?_ (getOptions_prefix dflt given parent ns _)
    unfold getOption
    split <;> exact List.prefix_append _ _

theorem newContext_prefix (dflt : Defaults) (h : List Obj) (parent : Option Nat) (given : String → Option Val) : h <+: (newContext dflt h parent given).1 :=
  (getOptions_prefix dflt given parent names h).trans (List.prefix_append _ _)

theorem prefix_get {α : Type} {l l' : List α} (h : l <+: l') {i : Nat} {x : α} (hi : l[i]? = some x) : l'[i]? = some x := by
  obtain ⟨t, rfl⟩ := h
  have : i < l.length := by
    rcases Nat.lt_or_ge i l.length with h | h
    · exact h
    · rw [List.getElem?_eq_none h] at hi; cases hi
  rw [List.getElem?_append_left this]; exact hi

theorem family_holds (dflt : Defaults) (limit : Nat) (e : Nat) (base : List Vars) (hb : base ≠ []) (R : List Nat) (h0 : List Obj) :
    ∀ (evs : List Event) (s : State) (A : List Nat), Holds e base R s A → Family dflt limit s A evs → Open dflt limit s e (base.length - 1) evs →
      (∀ a i n v, Event.poke a i n v ∉ evs) →
      (∀ i o, h0[i]? = some o → ((o.kind = .options ∨ o.kind = .context) ∧ i ∈ R ∨ o.kind = .container) → s.heap[i]? = some o) →
      ∀ i o, h0[i]? = some o → ((o.kind = .options ∨ o.kind = .context) ∧ i ∈ R ∨ o.kind = .container) → (run dflt limit s evs).heap[i]? = some o := by
  intro evs
  induction evs with
  | nil => intro s A _ _ _ _ h; exact h
  | cons ev evs ih =>
    intro s A hh hf ho hpoke hsame
    rw [run_cons]
    obtain ⟨hact, hfresh, htask, hno⟩ := hf
    have hd' : base.length - 1 < depth (step dflt limit s ev) e := by
      cases evs with
      | nil => exact ho.2
      | cons _ _ => exact ho.2.1
    -- the family keeps its frozen objects
    have hh' : Holds e base R (step dflt limit s ev) A := by
      intro a ha
      obtain ⟨x, pre, b, hx, hfull, hne, hfz, hbb⟩ := hh a ha
      obtain ⟨x', hx', hc⟩ := step_exec dflt limit s ev a x hx
      rcases hc with rfl | ⟨c, o, ids, -, -, -, -, hf'⟩ | ⟨-, hf'⟩
      · exact ⟨x', pre, b, hx', hfull, hne, hfz, hbb⟩
      · refine ⟨x', ⟨some c, ids ++ x.vars.frozen⟩ :: pre, b, hx', by rw [hf', hfull]; rfl, by simp, ?_, hbb⟩
        intro v hv i hi
        rcases List.mem_cons.mp hv with rfl | hv
        · obtain ⟨v0, pre', rfl⟩ := List.exists_cons_of_ne_nil hne
          have : x.vars = v0 := by simp only [Exec.full, List.cons_append, List.cons.injEq] at hfull; exact hfull.1
          rw [this]
          exact List.mem_append.mpr (.inr (hfz v0 (by simp) i hi))
        · exact hfz v hv i hi
      · obtain ⟨v0, pre', rfl⟩ := List.exists_cons_of_ne_nil hne
        rw [hf', List.cons_append, List.cons.injEq] at hfull
        refine ⟨x', pre', b, hx', hfull.2, ?_, fun v hv => hfz v (by simp [hv]), hbb⟩
        rintro rfl
        rw [List.nil_append] at hfull
        rcases hbb with rfl | ⟨rfl, rfl⟩
        · simp [Exec.full] at hfull
        · have := depth_eq hx'
          rw [hfull.2] at this
          omega
    -- the heap keeps the frozen objects
    have hs' : ∀ i o, h0[i]? = some o → ((o.kind = .options ∨ o.kind = .context) ∧ i ∈ R ∨ o.kind = .container) →
        (step dflt limit s ev).heap[i]? = some o := by
      intro i o h0i hk
      have hi := hsame i o h0i hk
      cases ev with
      | new parent given => exact prefix_get (newContext_prefix _ _ _ _) hi
      | alloc o' => exact prefix_get (List.prefix_append _ _) hi
      | enter a c =>
        simp only [step]
        split
        · split
          · split
            · exact hi
            · exact hi
          · exact hi
        · exact hi
      | leave a =>
        simp only [step]
        split
        · exact hi
        · exact hi
      | thread a =>
        simp only [step]
        split
        · exact hi
        · exact hi
      | task a b =>
        simp only [step]
        split
        · exact hi
        · exact hi
      | poke a j n v => exact absurd (List.mem_cons_self) (hpoke a j n v)
      | setattr a j n v =>
        simp only [step]
        by_cases hij : i = j
        · subst hij
          have : refused s a i n = true := by
            obtain ⟨x, pre, b, hx, hfull, hne, hfz, -⟩ := hh a (hact a rfl)
            obtain ⟨v0, pre', rfl⟩ := List.exists_cons_of_ne_nil hne
            have hv0 : x.vars = v0 := by simp only [Exec.full, List.cons_append, List.cons.injEq] at hfull; exact hfull.1
            have hin : i ∈ R → i ∈ x.vars.frozen := by rw [hv0]; exact hfz v0 (by simp) i
            rcases hk with ⟨hk | hk, hR⟩ | hk
            · simp [refused, hx, hi, hk, hin hR]
            · simp [refused, hx, hi, hk, hin hR]
            · simp [refused, hx, hi, hk]
          simp [this, hi]
        · split
          · exact hi
          · rw [assign_ne _ _ _ _ _ hij]; exact hi
    have hpoke' : ∀ a i n v, Event.poke a i n v ∉ evs := fun a i n v h => hpoke a i n v (by simp [h])
    by_cases ht : ∃ a b, ev = .task a b
    · obtain ⟨a, b, rfl⟩ := ht
      refine ih _ (b :: A) ?_ (htask a b rfl) ho.2 hpoke' hs'
      intro a' ha'
      rcases List.mem_cons.mp ha' with rfl | ha'
      · obtain ⟨x, pre, b', hx, hfull, hne, hfz, -⟩ := hh a (hact a rfl)
        obtain ⟨v0, pre', rfl⟩ := List.exists_cons_of_ne_nil hne
        have hv0 : x.vars = v0 := by simp only [Exec.full, List.cons_append, List.cons.injEq] at hfull; exact hfull.1
        refine ⟨⟨x.vars, []⟩, [x.vars], [], by simp [step, hx, hfresh a a' rfl, putExec], rfl, by simp, ?_, .inl rfl⟩
        intro v hv i hi
        simp only [List.mem_singleton] at hv
        subst hv
        rw [hv0]
        exact hfz v0 (by simp) i hi
      · exact hh' a' ha'
    · exact ih _ A hh' (hno fun a b h => ht ⟨a, b, h⟩) ho.2 hpoke' hs'

/-- C90: while a `with` block is open, no assignment in its thread, or in tasks started in it, changes an option of its
context: every attribute that is reached through options and containers reads as it did on entry. -/
theorem C90_frozen (dflt : Defaults) (limit : Nat) (s : State) (e : Nat) (c : Nat) (evs : List Event) (hs : (s.exec e).isSome)
    (hopen : Open dflt limit (step dflt limit s (.enter e c)) e (depth s e) evs)
    (hfam : Family dflt limit (step dflt limit s (.enter e c)) [e] evs)
    (hpoke : ∀ a i n v, Event.poke a i n v ∉ evs)
    (name : String) (v : Val) (hv : attr s.heap c name = some v) (p : List String) (hp : Plain s.heap v p) :
    follow (run dflt limit s (.enter e c :: evs)).heap (.ref c) (name :: p) = follow s.heap (.ref c) (name :: p) := by
  obtain ⟨x, hx⟩ := Option.isSome_iff_exists.mp hs
  obtain ⟨x1, h1, hcase⟩ := step_exec dflt limit s (.enter e c) e x hx
  have hd1 : depth s e < depth (step dflt limit s (.enter e c)) e := by
    cases evs with
    | nil => exact hopen
    | cons _ _ => exact hopen.1
  have e0 := depth_eq hx
  have e1 := depth_eq h1
  rcases hcase with rfl | ⟨c', o, ids, hev, ho, hk, hcol, hf⟩ | ⟨hev, -⟩
  · omega
  · cases hev
    obtain ⟨hc1, hc2, hc3⟩ := collect_covers s.heap limit _ [c] ids hcol (by
      intro i hi o' ho'
      simp only [List.mem_singleton] at hi
      subst hi
      rw [ho] at ho'; cases ho'; exact .inr hk)
    have hheap : (step dflt limit s (.enter e c)).heap = s.heap := by
      simp only [step]
      split
      · split
        · split <;> rfl
        · rfl
      · rfl
    have main := family_holds dflt limit e x.full (by simp [Exec.full]) ids s.heap evs _ [e] (by
      intro a ha
      simp only [List.mem_singleton] at ha
      subst ha
      exact ⟨x1, [⟨some c, ids ++ x.vars.frozen⟩], x.full, h1, hf, by simp, by
        intro v hv i hi
        simp only [List.mem_singleton] at hv
        subst hv
        exact List.mem_append.mpr (.inl hi), .inr ⟨rfl, rfl⟩⟩) hfam (by rw [← e0]; exact hopen) hpoke
      (by rw [hheap]; exact fun _ _ h _ => h)
    rw [run_cons]
    have hcc := main c o ho (.inl ⟨.inr hk, hc1 c (by simp)⟩)
    have hg : Assoc.get o.fields name = some v := by simpa [attr, ho] using hv
    simp only [follow, attr, hcc, ho, Option.bind_some, hg]
    refine follow_frozen ?_ (fun i o ho hk => main i o ho (hk.imp (fun h => ⟨.inl h.1, h.2⟩) id)) p v (hc2 v (List.mem_map.mpr ⟨_, mem_of_get hg, rfl⟩)) hp
    intro i hi o' ho' hk'
    rcases hc3 i hi with hi | ⟨o'', ho'', -, hcov⟩
    · simp only [List.mem_singleton] at hi
      subst hi
      rw [ho] at ho'; cases ho'; rw [hk] at hk'; cases hk'
    · rw [ho'] at ho''; cases ho''; exact hcov
  · cases hev

end Verif.V1.Context
