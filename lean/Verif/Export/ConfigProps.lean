import Verif.Export.Config

/-!
# Properties of the options of the export package (C134)
-/

namespace Verif.ExportConfig

variable {V : Type}

/-! ### Specification -/

/-- The overrides of option `n` that thread `t` is inside of, the innermost first. -/
def inside (t : Nat) (n : String) : List (Event V) → List (Nat × V) → List (Nat × V)
  | [], σ => σ
  | .enter t' n' k v _ :: es, σ => inside t n es (if t' = t ∧ n' = n then (k, v) :: σ else σ)
  | .exit t' n' _ :: es, σ => inside t n es (if t' = t ∧ n' = n then σ.tail else σ)
  | _ :: es, σ => inside t n es σ

/-- Blocks of one thread for one option are properly nested: each is entered once, and left only when it is the innermost one; `σ` are the blocks open at
the beginning. -/
def Nested : List (Event V) → (Nat → String → List (Nat × V)) → Prop
  | [], _ => True
  | .enter t n k v r :: es, σ => r = false ∧ (∀ t' n' x, x ∈ σ t' n' → x.1 ≠ k) ∧ Nested es (set2 σ t n ((k, v) :: σ t n))
  | .exit t n k :: es, σ => (∃ v rest, σ t n = (k, v) :: rest) ∧ Nested es (set2 σ t n (σ t n).tail)
  | _ :: es, σ => Nested es σ

/-- The global value of an option of a `Config`: that of the last update, or of the definition. -/
def globally (c : Nat) (n : String) : List (Event V) → Option V → Option V
  | [], g => g
  | .define c' n' v :: es, g => globally c n es (if c' = c ∧ n' = n ∧ g.isNone then some v else g)
  | .undefine c' n' :: es, g => globally c n es (if c' = c ∧ n' = n then none else g)
  | .update c' n' v :: es, g => globally c n es (if c' = c ∧ n' = n ∧ g.isSome then some v else g)
  | _ :: es, g => globally c n es g

/-! ### Lemmas -/

theorem run_cons (s : State V) (e : Event V) (es) : run s (e :: es) = run (step s e).1 es := rfl

theorem run_append (s : State V) (es es' : List (Event V)) : run s (es ++ es') = run (run s es) es' := by simp [run]

theorem set2_same {α : Type} (f : Nat → String → α) (a : Nat) (n : String) (v : α) : set2 f a n v a n = v := by simp [set2]

theorem values_run (c : Nat) (n : String) : ∀ (es : List (Event V)) (s : State V), (run s es).values c n = globally c n es (s.values c n)
  | [], _ => rfl
  | e :: es, s => by
    rw [run_cons, values_run c n es]
    cases e with
    | define c' n' v =>
      simp only [step, define, globally]
      split
      · rename_i h
        congr 1
        by_cases hc : c' = c ∧ n' = n
        · obtain ⟨rfl, rfl⟩ := hc
          simp only [true_and]
          cases hv : s.values c' n' with
          | none => rw [hv] at h; cases h
          | some x => rfl
        · rw [if_neg]; exact fun h' => hc ⟨h'.1, h'.2.1⟩
      · rename_i h
        congr 1
        by_cases hc : c' = c ∧ n' = n
        · obtain ⟨rfl, rfl⟩ := hc
          simp only [true_and, set2_same]
          rw [if_pos]
          simpa using h
        · rw [if_neg (fun h' => hc ⟨h'.1, h'.2.1⟩)]
          simp only [set2]
          rw [if_neg (fun h' => hc ⟨h'.1.symm, h'.2.symm⟩)]
    | undefine c' n' =>
      simp only [step, undefine, globally]
      split
      · rename_i h
        congr 1
        by_cases hc : c' = c ∧ n' = n
        · obtain ⟨rfl, rfl⟩ := hc
          simpa using h
        · rw [if_neg hc]
      · congr 1
        by_cases hc : c' = c ∧ n' = n
        · obtain ⟨rfl, rfl⟩ := hc
          simp [set2]
        · rw [if_neg hc]
          simp only [set2]
          rw [if_neg (fun h' => hc ⟨h'.1.symm, h'.2.symm⟩)]
    | update c' n' v =>
      simp only [step, update, globally]
      split
      · rename_i h
        congr 1
        by_cases hc : c' = c ∧ n' = n
        · obtain ⟨rfl, rfl⟩ := hc
          simp only [true_and]
          rw [if_neg]
          have : s.values c' n' = none := by simpa using h
          simp [this]
        · rw [if_neg]; exact fun h' => hc ⟨h'.1, h'.2.1⟩
      · rename_i h
        congr 1
        by_cases hc : c' = c ∧ n' = n
        · obtain ⟨rfl, rfl⟩ := hc
          simp only [true_and, set2_same]
          rw [if_pos]
          cases hv : s.values c' n' with
          | none => rw [hv] at h; exact absurd rfl h
          | some x => rfl
        · rw [if_neg (fun h' => hc ⟨h'.1, h'.2.1⟩)]
          simp only [set2]
          rw [if_neg (fun h' => hc ⟨h'.1.symm, h'.2.symm⟩)]
    | enter t n' k v r => rfl
    | exit t n' k =>
      simp only [step, exit, globally]
      repeat' split
      all_goals rfl

/-- The state agrees with the blocks that are open. -/
structure Rel (s : State V) (σ : Nat → String → List (Nat × V)) : Prop where
  top : ∀ t n, s.local_ t n = (σ t n).head?.map (·.2)
  prev : ∀ t n a k v rest, σ t n = a ++ (k, v) :: rest → s.prev k = rest.head?.map (·.2)
  hook : ∀ t n, (s.localHook t n = none ∧ σ t n = []) ∨ s.localHook t n = some (s.local_ t n)
  unique : ∀ t n t' n' x y, x ∈ σ t n → y ∈ σ t' n' → x.1 = y.1 → t = t' ∧ n = n'
  nodup : ∀ t n, ((σ t n).map (·.1)).Nodup

theorem rel_start : Rel (State.start : State V) (fun _ _ => []) :=
  ⟨fun _ _ => rfl, fun _ _ a k v rest h => by simp at h, fun _ _ => Or.inl ⟨rfl, rfl⟩, fun _ _ _ _ x y h => by simp at h, fun _ _ => by simp⟩

theorem inside_set2 (t : Nat) (n : String) (σ : Nat → String → List (Nat × V)) (t' : Nat) (n' : String) (l : List (Nat × V)) :
    set2 σ t' n' l t n = if t' = t ∧ n' = n then l else σ t n := by
  simp only [set2]
  by_cases h : t' = t ∧ n' = n
  · rw [if_pos h, if_pos ⟨h.1.symm, h.2.symm⟩]
  · rw [if_neg h, if_neg fun h' => h ⟨h'.1.symm, h'.2.symm⟩]

theorem rel_enter {s : State V} {σ : Nat → String → List (Nat × V)} (h : Rel s σ) (t : Nat) (n : String) (k : Nat) (v : V) (r : Bool)
    (hk : ∀ t' n' x, x ∈ σ t' n' → x.1 ≠ k) : Rel (enter s t n k v r).1 (set2 σ t n ((k, v) :: σ t n)) := by
  refine ⟨fun t' n' => ?_, fun t' n' a k' v' rest h' => ?_, fun t' n' => ?_, fun t1 n1 t2 n2 x y hx hy hxy => ?_, fun t' n' => ?_⟩
  · simp only [enter, set2]
    split
    · rfl
    · exact h.top t' n'
  · rw [inside_set2] at h'
    simp only [enter]
    split at h'
    · rename_i hc
      obtain ⟨rfl, rfl⟩ := hc
      cases a with
      | nil =>
        simp only [List.nil_append, List.cons.injEq, Prod.mk.injEq] at h'
        obtain ⟨⟨rfl, rfl⟩, rfl⟩ := h'
        rw [if_pos rfl]
        exact h.top t n
      | cons x a =>
        simp only [List.cons_append, List.cons.injEq] at h'
        have hmem : (k', v') ∈ σ t n := by rw [h'.2]; simp
        rw [if_neg (hk t n _ hmem)]
        exact h.prev t n a k' v' rest h'.2
    · have hmem : (k', v') ∈ σ t' n' := by rw [h']; simp
      rw [if_neg (hk t' n' _ hmem)]
      exact h.prev t' n' a k' v' rest h'
  · simp only [enter, set2]
    split
    · exact Or.inr rfl
    · exact h.hook t' n'
  · rw [inside_set2] at hx hy
    split at hx <;> split at hy
    · rename_i h1 h2; exact ⟨h1.1.symm.trans h2.1, h1.2.symm.trans h2.2⟩
    · rename_i h1 h2
      rcases List.mem_cons.1 hx with rfl | hx
      · exact absurd hxy.symm (hk _ _ _ hy)
      · have := h.unique _ _ _ _ x y hx hy hxy
        exact ⟨h1.1.symm.trans this.1, h1.2.symm.trans this.2⟩
    · rename_i h1 h2
      rcases List.mem_cons.1 hy with rfl | hy
      · exact absurd hxy (hk _ _ _ hx)
      · have := h.unique _ _ _ _ x y hx hy hxy
        exact ⟨this.1.trans h2.1, this.2.trans h2.2⟩
    · exact h.unique _ _ _ _ x y hx hy hxy
  · rw [inside_set2]
    split
    · rw [List.map_cons, List.nodup_cons]
      refine ⟨fun hm => ?_, h.nodup t n⟩
      obtain ⟨x, hx, hxk⟩ := List.mem_map.1 hm
      exact hk _ _ x hx hxk
    · exact h.nodup t' n'

theorem rel_exit {s : State V} {σ : Nat → String → List (Nat × V)} (h : Rel s σ) (t : Nat) (n : String) (k : Nat) (v : V) (rest : List (Nat × V))
    (hk : σ t n = (k, v) :: rest) : Rel (exit s t n k).1 (set2 σ t n (σ t n).tail) ∧ (exit s t n k).2 = true := by
  have hp : s.prev k = rest.head?.map (·.2) := h.prev t n [] k v rest hk
  have ht : s.local_ t n = some v := by rw [h.top, hk]; rfl
  have key : (exit s t n k) = ({ s with local_ := set2 s.local_ t n (rest.head?.map (·.2)), localHook := set2 s.localHook t n (some (rest.head?.map (·.2))) }, true) := by
    simp only [exit]
    cases hr : rest.head?.map (·.2) with
    | none => rw [hr] at hp; simp [hp, ht]
    | some x => rw [hr] at hp; simp [hp]
  rw [key]
  refine ⟨⟨fun t' n' => ?_, fun t' n' a k' v' rest' h' => ?_, fun t' n' => ?_, fun t1 n1 t2 n2 x y hx hy hxy => ?_, fun t' n' => ?_⟩, rfl⟩
  · simp only [set2]
    split
    · rw [hk]; rfl
    · exact h.top t' n'
  · rw [inside_set2] at h'
    split at h'
    · rename_i hc
      obtain ⟨rfl, rfl⟩ := hc
      rw [hk, List.tail_cons] at h'
      exact h.prev t n ((k, v) :: a) k' v' rest' (by rw [hk, h']; rfl)
    · exact h.prev t' n' a k' v' rest' h'
  · simp only [set2]
    split
    · exact Or.inr rfl
    · exact h.hook t' n'
  · have sub : ∀ t' n' x, x ∈ set2 σ t n (σ t n).tail t' n' → x ∈ σ t' n' := by
      intro t' n' x hx
      rw [inside_set2] at hx
      split at hx
      · rename_i hc
        obtain ⟨rfl, rfl⟩ := hc
        exact List.mem_of_mem_tail hx
      · exact hx
    exact h.unique _ _ _ _ x y (sub _ _ _ hx) (sub _ _ _ hy) hxy
  · rw [inside_set2]
    split
    · have := h.nodup t n
      rw [hk] at this ⊢
      exact (List.nodup_cons.1 this).2
    · exact h.nodup t' n'

/-- The state after a nested history agrees with the blocks open then. -/
theorem rel_run : ∀ (es : List (Event V)) (s : State V) (σ : Nat → String → List (Nat × V)), Rel s σ → Nested es σ →
    Rel (run s es) (fun t n => inside t n es (σ t n))
  | [], s, σ, h, _ => h
  | e :: es, s, σ, h, hn => by
    rw [run_cons]
    cases e with
    | define c n v =>
      have : Rel (define s c n v).1 σ := by
        simp only [define]; split
        · exact h
        · exact ⟨h.top, h.prev, h.hook, h.unique, h.nodup⟩
      exact rel_run es _ σ this hn
    | undefine c n =>
      have : Rel (undefine s c n).1 σ := by
        simp only [undefine]; split
        · exact h
        · exact ⟨h.top, h.prev, h.hook, h.unique, h.nodup⟩
      exact rel_run es _ σ this hn
    | update c n v =>
      have : Rel (update s c n v).1 σ := by
        simp only [update]; split
        · exact h
        · exact ⟨h.top, h.prev, h.hook, h.unique, h.nodup⟩
      exact rel_run es _ σ this hn
    | enter t n k v r =>
      have := rel_run es _ _ (rel_enter h t n k v r hn.2.1) hn.2.2
      simp only [inside_set2] at this
      have heq : (fun t' n' => inside t' n' (.enter t n k v r :: es) (σ t' n')) =
          fun t' n' => inside t' n' es (if t = t' ∧ n = n' then (k, v) :: σ t n else σ t' n') := by
        funext t' n'
        simp only [inside]
        congr 1
        split
        · rename_i hc; rw [hc.1, hc.2]
        · rfl
      rw [heq]; exact this
    | exit t n k =>
      obtain ⟨⟨v, rest, hk⟩, hn⟩ := hn
      have := rel_run es _ _ (rel_exit h t n k v rest hk).1 hn
      simp only [inside_set2] at this
      have heq : (fun t' n' => inside t' n' (.exit t n k :: es) (σ t' n')) =
          fun t' n' => inside t' n' es (if t = t' ∧ n = n' then (σ t n).tail else σ t' n') := by
        funext t' n'
        simp only [inside]
        congr 1
        split
        · rename_i hc; rw [hc.1, hc.2]
        · rfl
      rw [heq]; exact this

/-! ### Theorems -/

/-- C134: whatever the threads did, an option reads in a thread as the value of the innermost block the thread is inside of, and outside of all blocks as the
value of the last update, or of the definition. -/
theorem C134_value (es : List (Event V)) (hn : Nested es fun _ _ => []) (t c : Nat) (n : String) (hp : (run State.start es).prop n = true) :
    attr (run State.start es) t c n =
      match inside t n es [] with
      | (_, v) :: _ => some v
      | [] => globally c n es none := by
  have hr := rel_run es State.start _ rel_start hn
  have ht := hr.top t n
  simp only [attr, hp, if_true, ht]
  cases hi : inside t n es [] with
  | nil => simp only [List.head?_nil, Option.map_none, read]; exact values_run c n es _
  | cons x l => simp

theorem inside_append (t : Nat) (n : String) : ∀ (es es' : List (Event V)) (σ : List (Nat × V)), inside t n (es ++ es') σ = inside t n es' (inside t n es σ)
  | [], _, _ => rfl
  | e :: es, es', σ => by
    cases e <;> simp only [List.cons_append, inside] <;> exact inside_append t n es es' _

theorem inside_others (t : Nat) (n : String) : ∀ (es : List (Event V)) (σ : List (Nat × V)),
    (∀ e ∈ es, (∀ n' k v r, e ≠ .enter t n' k v r) ∧ ∀ n' k, e ≠ .exit t n' k) → inside t n es σ = σ
  | [], _, _ => rfl
  | e :: es, σ, h => by
    have ih := fun σ => inside_others t n es σ fun e he => h e (List.mem_cons_of_mem _ he)
    have he := h e List.mem_cons_self
    cases e with
    | enter t' n' k v r =>
      have : t' ≠ t := fun hc => (he.1 n' k v r) (by rw [hc])
      simp only [inside, this, false_and, if_false, ih]
    | exit t' n' k =>
      have : t' ≠ t := fun hc => (he.2 n' k) (by rw [hc])
      simp only [inside, this, false_and, if_false, ih]
    | define c n' v => exact ih σ
    | undefine c n' => exact ih σ
    | update c n' v => exact ih σ

/-- C134: inside a block, a thread sees the value of the block, whatever other threads do meanwhile, and also when the option is updated. -/
theorem C134_isolated (es es' : List (Event V)) (t c : Nat) (n : String) (k : Nat) (v : V)
    (hn : Nested (es ++ .enter t n k v false :: es') fun _ _ => [])
    (ho : ∀ e ∈ es', (∀ n' k v r, e ≠ .enter t n' k v r) ∧ ∀ n' k, e ≠ .exit t n' k)
    (hp : (run State.start (es ++ .enter t n k v false :: es')).prop n = true) :
    attr (run State.start (es ++ .enter t n k v false :: es')) t c n = some v := by
  rw [C134_value _ hn t c n hp, inside_append]
  simp only [inside, true_and, if_true]
  rw [inside_others t n es' _ ho]

theorem nested_append : ∀ (es es' : List (Event V)) (σ : Nat → String → List (Nat × V)), Nested (es ++ es') σ ↔
    Nested es σ ∧ Nested es' (fun t n => inside t n es (σ t n))
  | [], es', σ => by simp [Nested, inside]
  | e :: es, es', σ => by
    cases e with
    | define c n v => exact nested_append es es' σ
    | undefine c n => exact nested_append es es' σ
    | update c n v => exact nested_append es es' σ
    | enter t n k v r =>
      simp only [List.cons_append, Nested, nested_append es es', and_assoc]
      have heq : (fun t' n' => inside t' n' es (set2 σ t n ((k, v) :: σ t n) t' n')) = fun t' n' => inside t' n' (.enter t n k v r :: es) (σ t' n') := by
        funext t' n'
        simp only [inside, inside_set2]
        congr 1
        split
        · rename_i hc; rw [hc.1, hc.2]
        · rfl
      rw [heq]
    | exit t n k =>
      simp only [List.cons_append, Nested, nested_append es es', and_assoc]
      have heq : (fun t' n' => inside t' n' es (set2 σ t n (σ t n).tail t' n')) = fun t' n' => inside t' n' (.exit t n k :: es) (σ t' n') := by
        funext t' n'
        simp only [inside, inside_set2]
        congr 1
        split
        · rename_i hc; rw [hc.1, hc.2]
        · rfl
      rw [heq]

/-- C134: after a block is left everything is as before it was entered: if what happened within left no other block of the thread open, the thread
sees the block it was in before, or the global value of that time. -/
theorem C134_restored (es es' : List (Event V)) (t c : Nat) (n : String) (k : Nat) (v : V)
    (hn : Nested (es ++ .enter t n k v false :: es' ++ [.exit t n k]) fun _ _ => [])
    (hp : (run State.start (es ++ .enter t n k v false :: es' ++ [.exit t n k])).prop n = true)
    (hb : inside t n es' ((k, v) :: inside t n es []) = (k, v) :: inside t n es []) :
    attr (run State.start (es ++ .enter t n k v false :: es' ++ [.exit t n k])) t c n =
      match inside t n es [] with
      | (_, x) :: _ => some x
      | [] => globally c n (es ++ es') none := by
  have hg : ∀ (es : List (Event V)) (es' : List (Event V)) g, globally c n (es ++ es') g = globally c n es' (globally c n es g) := by
    intro es
    induction es with
    | nil => intro _ _; rfl
    | cons e es ih => intro es' g; cases e <;> simp only [List.cons_append, globally] <;> exact ih _ _
  rw [C134_value _ hn t c n hp]
  have h1 : inside t n (es ++ .enter t n k v false :: es' ++ [.exit t n k]) [] = inside t n es [] := by
    rw [inside_append, inside_append]
    simp only [inside, true_and, if_true]
    rw [hb]
    rfl
  rw [h1]
  cases inside t n es [] with
  | cons x l => rfl
  | nil => simp only [hg, List.append_assoc, List.cons_append, globally]

/-- C134: leaving a block of a nested history never raises, and the thread-local hook was last called with the value in force in the thread: `None` outside
of all blocks. -/
theorem C134_hooks (es : List (Event V)) (hn : Nested es fun _ _ => []) (t : Nat) (n : String) :
    (∀ k, Nested (es ++ [.exit t n k]) (fun _ _ => []) → (step (run State.start es) (.exit t n k)).2 = true) ∧
    (∀ x, (run State.start es).localHook t n = some x → x = (inside t n es []).head?.map (·.2)) ∧
    (inside t n es [] ≠ [] → (run State.start es).localHook t n ≠ none) := by
  have hr := rel_run es State.start _ rel_start hn
  refine ⟨fun k hk => ?_, fun x hx => ?_, fun hne => ?_⟩
  · obtain ⟨-, ⟨v, rest, hk⟩, -⟩ := (nested_append es [.exit t n k] _).1 hk
    exact (rel_exit hr t n k v rest hk).2
  · rcases hr.hook t n with h | h
    · rw [h.1] at hx; cases hx
    · rw [hx] at h
      rw [← hr.top t n]
      exact Option.some.inj h
  · rcases hr.hook t n with h | h
    · exact absurd h.2 hne
    · rw [h]; simp

/-- C134: the global hook was last called with the global value. -/
theorem C134_global_hook (es : List (Event V)) (c : Nat) (n : String) : (run State.start es).globalHook c n = (run State.start es).values c n := by
  have : ∀ (es : List (Event V)) (s : State V), s.globalHook = s.values → (run s es).globalHook = (run s es).values := by
    intro es
    induction es with
    | nil => intro s h; exact h
    | cons e es ih =>
      intro s h
      rw [run_cons]
      apply ih
      cases e with
      | define c n v => simp only [step, define]; split <;> simp [h]
      | undefine c n => simp only [step, undefine]; split <;> simp [h]
      | update c n v => simp only [step, update]; split <;> simp [h]
      | enter t n k v r => exact h
      | exit t n k => simp only [step, exit]; repeat' split
                      all_goals exact h
  exact congrFun (congrFun (this es State.start rfl) c) n

/-- C134: an option can be defined only once, and only defined options can be updated, read or undefined; a refused call changes nothing. -/
theorem C134_defined (s : State V) (c : Nat) (n : String) (v : V) :
    ((step s (.define c n v)).2 = true ↔ s.values c n = none) ∧ ((step s (.define c n v)).2 = false → (step s (.define c n v)).1 = s) ∧
    ((step s (.update c n v)).2 = true ↔ s.values c n ≠ none) ∧ ((step s (.update c n v)).2 = false → (step s (.update c n v)).1 = s) ∧
    (s.values c n = none → step s (.undefine c n) = (s, false) ∧ read s c n = none) := by
  refine ⟨?_, ?_, ?_, ?_, ?_⟩
  · simp only [step, define]; cases h : s.values c n <;> simp
  · simp only [step, define]; split <;> simp
  · simp only [step, update]; cases h : s.values c n <;> simp
  · simp only [step, update]; split <;> simp
  · intro h; simp [step, undefine, read, h]

/-- C134: after a definition the option can be read, with the given value outside of blocks. -/
theorem C134_new (s : State V) (t c : Nat) (n : String) (v : V) (h : s.values c n = none) (hl : s.local_ t n = none) :
    attr (step s (.define c n v)).1 t c n = some v := by
  simp [step, define, h, attr, hl, read, set2]

/-- The option an event is about. -/
def Event.option : Event V → String
  | .define _ n _ => n
  | .undefine _ n => n
  | .update _ n _ => n
  | .enter _ n _ _ _ => n
  | .exit _ n _ => n

/-- C134: what happens to one option changes no other option, in any thread. -/
theorem C134_others (s : State V) (e : Event V) (t c : Nat) (n : String) (h : e.option ≠ n) :
    attr (step s e).1 t c n = attr s t c n ∧ read (step s e).1 c n = read s c n := by
  have h' := Ne.symm h
  cases e <;> simp only [Event.option] at h' <;> simp only [step, define, undefine, update, enter, exit, attr, read] <;> repeat' split
  all_goals simp_all [set2]

/-- C134: the environment decides the initial value: the texts for true and false, in any case, and otherwise an error; without a variable the default. -/
theorem C134_env (default : Bool) :
    boolEnv none default = some default ∧
    (∀ e b, boolEnv (some e) default = some b ↔
      (b = true ∧ e.toLower ∈ ["y", "yes", "t", "true", "on", "1"]) ∨ (b = false ∧ e.toLower ∈ ["n", "no", "f", "false", "off", "0"])) := by
  have hd : ∀ x : String, x ∈ ["y", "yes", "t", "true", "on", "1"] → x ∉ ["n", "no", "f", "false", "off", "0"] := by
    intro x hx
    simp only [List.mem_cons, List.not_mem_nil, or_false] at hx
    rcases hx with rfl | rfl | rfl | rfl | rfl | rfl <;> decide
  refine ⟨?_, fun e b => ?_⟩
  · cases default <;> rfl
  · simp only [boolEnv]
    by_cases h1 : e.toLower ∈ ["y", "yes", "t", "true", "on", "1"]
    · rw [if_pos h1]
      constructor
      · intro h; exact Or.inl ⟨(Option.some.inj h).symm, h1⟩
      · rintro (⟨rfl, -⟩ | ⟨-, h⟩)
        · rfl
        · exact absurd h (hd _ h1)
    · rw [if_neg h1]
      by_cases h2 : e.toLower ∈ ["n", "no", "f", "false", "off", "0"]
      · rw [if_pos h2]
        constructor
        · intro h; exact Or.inr ⟨(Option.some.inj h).symm, h2⟩
        · rintro (⟨-, h⟩ | ⟨rfl, -⟩)
          · exact absurd h h1
          · rfl
      · rw [if_neg h2]
        constructor
        · intro h; cases h
        · rintro (⟨-, h⟩ | ⟨-, h⟩)
          · exact absurd h h1
          · exact absurd h h2

/-! ### Findings -/

/-- C134 (finding): `read` does not see blocks: within a block it gives the global value, not that of the attribute. -/
theorem C134_read_fails (s : State V) (t c : Nat) (n : String) (k : Nat) (v : V) (hp : s.prop n = true) :
    attr (step s (.enter t n k v false)).1 t c n = some v ∧ read (step s (.enter t n k v false)).1 c n = read s c n := by
  simp [step, enter, attr, hp, read, set2]

/-- C134 (finding): a block is not of one `Config`: it overrides the option of the same name of all of them, also of one that has no such option. -/
theorem C134_all_configs_fails (s : State V) (t : Nat) (n : String) (k : Nat) (v : V) (hp : s.prop n = true) (c : Nat) :
    attr (step s (.enter t n k v false)).1 t c n = some v := by simp [step, enter, attr, hp, set2]

/-- C134 (finding): and undefining an option in one `Config` makes the attribute of every other one unreadable. -/
theorem C134_undefine_fails (s : State V) (t c c' : Nat) (n : String) (h : s.values c n ≠ none) : attr (step s (.undefine c n)).1 t c' n = none := by
  cases hv : s.values c n with
  | none => exact absurd hv h
  | some v => simp [step, undefine, hv, attr]

/-- C134 (finding): if the hook raises on entering, the block is not entered, but its value stays in force in the thread. -/
theorem C134_hook_raises_fails (s : State V) (t c : Nat) (n : String) (k : Nat) (v : V) (hp : s.prop n = true) :
    (step s (.enter t n k v true)).2 = false ∧ attr (step s (.enter t n k v true)).1 t c n = some v := by
  simp [step, enter, attr, hp, set2]

/-- C134 (finding): blocks that are not nested, as of two suspended generators, leave an override behind although all are left. -/
theorem C134_order_fails (s : State V) (t c : Nat) (n : String) (v v' : V) (hp : s.prop n = true) (hl : s.local_ t n = none) :
    attr (run s [.enter t n 0 v false, .enter t n 1 v' false, .exit t n 0, .exit t n 1]) t c n = some v := by
  simp [run, step, enter, exit, attr, hp, hl, set2]

/-! ### Non-vacuity -/

/-- Two threads with nested blocks, an update and a second option. -/
def demo : List (Event Nat) :=
  [.define 0 "a" 1, .define 0 "b" 2, .enter 0 "a" 0 10 false, .enter 1 "a" 1 20 false, .update 0 "a" 3, .enter 0 "a" 2 11 false, .enter 0 "b" 3 30 false,
   .exit 0 "a" 2, .exit 1 "a" 1]

/-- C134: the history is nested; threads see their own blocks and the update. -/
theorem C134_nonvacuous : Nested demo (fun _ _ => []) ∧ (run State.start demo).prop "a" = true ∧
    inside 0 "a" demo [] = [(0, 10)] ∧ attr (run State.start demo) 0 0 "a" = some 10 ∧ attr (run State.start demo) 1 0 "a" = some 3 ∧
    attr (run State.start demo) 0 0 "b" = some 30 ∧ attr (run State.start demo) 2 0 "b" = some 2 ∧
    attr (run State.start (demo ++ [.exit 0 "a" 0])) 0 0 "a" = some 3 ∧ (run State.start demo).localHook 1 "a" = some none := by
  refine ⟨?_, rfl, rfl, rfl, rfl, rfl, rfl, rfl, rfl⟩
  simp only [demo, Nested, true_and, and_true]
  refine ⟨by simp, ?_, ?_, ?_, ⟨11, [(0, 10)], rfl⟩, ⟨20, [], rfl⟩⟩
  all_goals
    intro t' n' x hx
    simp only [set2] at hx
    repeat' split at hx
    all_goals simp at hx
    all_goals first | (subst hx; decide) | (rcases hx with rfl | rfl <;> decide) | (rcases hx with rfl | rfl | rfl <;> decide)

end Verif.ExportConfig
