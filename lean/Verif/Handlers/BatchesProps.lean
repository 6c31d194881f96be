import Verif.Handlers.Batches

/-!
# C118: every leaf goes to its handler once, with its own arguments, and comes back at its key
-/

namespace Verif.Handlers.Batches

open Verif

variable {K T V I A H R : Type} [DecidableEq H]

/-! ## Specification -/

/-- The leaf is to be given to handler `h`: it is not marked to be skipped, and it is restored
with `h` registered for the type asked for (else the stored type), which is not that of an
empty node, or it is saved with `h` registered for its type, and is not an empty node. -/
def Belongs (reg : Registry T H) (l : Leaf K T V I A) (h : H) : Prop :=
  l.skip = false ∧
  ((∃ t a, l.arg = .restore (some t) a ∧ reg.isEmpty t = false ∧ reg.get t = some h) ∨
   (∃ a, l.arg = .restore none a ∧ reg.isEmpty l.type = false ∧ reg.get l.type = some h) ∨
   (∃ a, l.arg = .save a ∧ l.emptyValue = false ∧ reg.get l.type = some h))

/-- The leaf is left out: it is marked to be skipped, or its argument, the type asked for or
the value is that of an empty node. -/
def LeftOut (reg : Registry T H) (l : Leaf K T V I A) : Prop :=
  l.skip = true ∨ l.arg = .empty ∨
  (∃ t a, l.arg = .restore (some t) a ∧ reg.isEmpty t = true) ∨
  (∃ a, l.arg = .restore none a ∧ reg.isEmpty l.type = true) ∨
  (∃ a, l.arg = .save a ∧ l.emptyValue = true)

/-- The leaves that belong to handler `h`, in the order of the tree. -/
def Mine (reg : Registry T H) (h : H) (ls : List (Leaf K T V I A)) : List (Leaf K T V I A) :=
  ls.filter fun l => decide (handlerOf reg l = some (some h))

/-- A leaf with what its handler needs. -/
def entry (l : Leaf K T V I A) : K × V × I × Arg T A := (l.key, l.value, l.info, l.arg)

/-- The four lists of a request have the same length (`BatchRequest.__post_init__`). -/
def Even {B : Type} (r : Request H K V I B) : Prop :=
  r.values.length = r.keys.length ∧ r.infos.length = r.keys.length ∧
    r.args.length = r.keys.length

/-! ## Lemmas -/

/-- The invariant of grouping (proof device). -/
def Good (reg : Registry T H) (seen : List (Leaf K T V I A))
    (g : List (Request H K V I (Arg T A))) : Prop :=
  (g.map (·.handler)).Nodup ∧
  (∀ r, r ∈ g → Even r ∧ r.items = (Mine reg r.handler seen).map entry ∧ r.keys ≠ []) ∧
  (∀ l, l ∈ seen → ∀ h, handlerOf reg l = some (some h) → h ∈ g.map (·.handler))

theorem mine_snoc (reg : Registry T H) (h : H) (seen : List (Leaf K T V I A))
    (l : Leaf K T V I A) :
    Mine reg h (seen ++ [l]) =
      Mine reg h seen ++ (if handlerOf reg l = some (some h) then [l] else []) := by
  simp only [Mine, List.filter_append]
  by_cases hh : handlerOf reg l = some (some h) <;> simp [hh]

theorem items_snoc {r : Request H K V I (Arg T A)} (h : Even r) (hd : H) (l : Leaf K T V I A) :
    (⟨hd, r.keys ++ [l.key], r.values ++ [l.value], r.infos ++ [l.info], r.args ++ [l.arg]⟩ :
      Request H K V I (Arg T A)).items = r.items ++ [entry l] := by
  obtain ⟨h1, h2, h3⟩ := h
  simp only [Request.items, entry]
  rw [List.zip_append (by omega), List.zip_append (by simp; omega),
    List.zip_append (by simp; omega)]
  simp

theorem add_handlers (h : H) (l : Leaf K T V I A) :
    ∀ g : List (Request H K V I (Arg T A)), (add h l g).map (·.handler) =
      if h ∈ g.map (·.handler) then g.map (·.handler) else g.map (·.handler) ++ [h]
  | [] => by simp [add]
  | r :: rs => by
    simp only [add]
    by_cases hr : r.handler = h
    · simp [hr]
    · have hr' : ¬ h = r.handler := fun e => hr e.symm
      simp only [hr, if_false, List.map_cons, add_handlers h l rs, List.mem_cons, hr', false_or]
      split <;> simp

theorem add_mem (h : H) (l : Leaf K T V I A) :
    ∀ g : List (Request H K V I (Arg T A)), (g.map (·.handler)).Nodup → ∀ r, r ∈ add h l g →
      (r ∈ g ∧ r.handler ≠ h) ∨
      (∃ r0, r0 ∈ g ∧ r0.handler = h ∧ r = ⟨h, r0.keys ++ [l.key], r0.values ++ [l.value],
        r0.infos ++ [l.info], r0.args ++ [l.arg]⟩) ∨
      (h ∉ g.map (·.handler) ∧ r = ⟨h, [l.key], [l.value], [l.info], [l.arg]⟩)
  | [], _, r, hr => by
    simp only [add, List.mem_singleton] at hr
    exact Or.inr (Or.inr ⟨by simp, hr⟩)
  | r1 :: rs, hn, r, hr => by
    simp only [List.map_cons, List.nodup_cons] at hn
    simp only [add] at hr
    by_cases h1 : r1.handler = h
    · simp only [h1, if_true, List.mem_cons] at hr
      rcases hr with hr | hr
      · exact Or.inr (Or.inl ⟨r1, by simp, h1, hr⟩)
      · refine Or.inl ⟨by simp [hr], fun he => hn.1 ?_⟩
        rw [h1, ← he]; exact List.mem_map_of_mem hr
    · simp only [h1, if_false, List.mem_cons] at hr
      rcases hr with hr | hr
      · exact Or.inl ⟨by simp [hr], by rw [hr]; exact h1⟩
      · rcases add_mem h l rs hn.2 r hr with ⟨h2, h3⟩ | ⟨r0, h2, h3, h4⟩ | ⟨h2, h3⟩
        · exact Or.inl ⟨by simp [h2], h3⟩
        · exact Or.inr (Or.inl ⟨r0, by simp [h2], h3, h4⟩)
        · refine Or.inr (Or.inr ⟨?_, h3⟩)
          simp only [List.map_cons, List.mem_cons, not_or]
          exact ⟨fun e => h1 e.symm, h2⟩

theorem good_skip {reg : Registry T H} {seen : List (Leaf K T V I A)} {l : Leaf K T V I A}
    {g : List (Request H K V I (Arg T A))} (h : Good reg seen g)
    (hl : handlerOf reg l = some none) : Good reg (seen ++ [l]) g := by
  obtain ⟨h1, h2, h3⟩ := h
  refine ⟨h1, fun r hr => ?_, fun l' hl' hd hh => ?_⟩
  · rw [mine_snoc, hl]; simpa using h2 r hr
  · rcases List.mem_append.mp hl' with h4 | h4
    · exact h3 l' h4 hd hh
    · simp only [List.mem_singleton] at h4
      subst h4; rw [hl] at hh; cases hh

theorem good_add {reg : Registry T H} {seen : List (Leaf K T V I A)} {l : Leaf K T V I A}
    {g : List (Request H K V I (Arg T A))} (h : Good reg seen g) {hd : H}
    (hl : handlerOf reg l = some (some hd)) : Good reg (seen ++ [l]) (add hd l g) := by
  obtain ⟨h1, h2, h3⟩ := h
  refine ⟨?_, fun r hr => ?_, fun l' hl' hd' hh => ?_⟩
  · rw [add_handlers]
    split
    · exact h1
    · rename_i hno
      rw [List.nodup_append]
      refine ⟨h1, by simp, ?_⟩
      intro a ha b hb
      simp only [List.mem_singleton] at hb
      subst hb
      intro he
      subst he
      exact hno ha
  · rw [mine_snoc, hl]
    rcases add_mem hd l g h1 r hr with ⟨h4, h5⟩ | ⟨r0, h4, h5, h6⟩ | ⟨h4, h5⟩
    · have : ¬ (some (some hd) = some (some r.handler)) := by
        intro e; simp only [Option.some.injEq] at e; exact h5 e.symm
      simpa [this] using h2 r h4
    · obtain ⟨e1, e2, _⟩ := h2 r0 h4
      subst h6
      refine ⟨?_, ?_, by simp⟩
      · obtain ⟨a1, a2, a3⟩ := e1
        simp [Even, a1, a2, a3]
      · rw [items_snoc e1, e2]; simp [h5]
    · subst h5
      refine ⟨by simp [Even], ?_, by simp⟩
      have hm : Mine reg hd seen = [] := by
        simp only [Mine, List.filter_eq_nil_iff, decide_eq_true_eq]
        intro l' hl' he
        exact h4 (h3 l' hl' hd he)
      simp [Request.items, hm, entry]
  · rw [add_handlers]
    rcases List.mem_append.mp hl' with h4 | h4
    · have := h3 l' h4 hd' hh
      split
      · exact this
      · exact List.mem_append_left _ this
    · simp only [List.mem_singleton] at h4
      subst h4
      rw [hl] at hh
      simp only [Option.some.injEq] at hh
      subst hh
      split
      · assumption
      · simp

theorem batch_good {reg : Registry T H} :
    ∀ (ls seen : List (Leaf K T V I A)) (g : List (Request H K V I (Arg T A))),
      Good reg seen g → (∀ l, l ∈ ls → handlerOf reg l ≠ none) →
      ∃ rs, batch reg ls g = some rs ∧ Good reg (seen ++ ls) rs
  | [], seen, g, h, _ => ⟨g, rfl, by simpa using h⟩
  | l :: ls, seen, g, h, hall => by
    have hrest : ∀ l', l' ∈ ls → handlerOf reg l' ≠ none := fun l' h' => hall l' (by simp [h'])
    cases hl : handlerOf reg l with
    | none => exact absurd hl (hall l (by simp))
    | some o =>
      cases o with
      | none =>
        obtain ⟨rs, h1, h2⟩ := batch_good ls (seen ++ [l]) g (good_skip h hl) hrest
        exact ⟨rs, by simpa only [batch, hl] using h1, by simpa using h2⟩
      | some hd =>
        obtain ⟨rs, h1, h2⟩ := batch_good ls (seen ++ [l]) _ (good_add h hl) hrest
        exact ⟨rs, by simpa only [batch, hl] using h1, by simpa using h2⟩

/-! ## C118 -/

omit [DecidableEq H] in
/-- C118. Which handler a leaf has, and which leaves have none: those left out, and those that
make the operation fail. -/
theorem C118_which_handler (reg : Registry T H) (l : Leaf K T V I A) :
    (∀ h, handlerOf reg l = some (some h) ↔ Belongs reg l h) ∧
    (handlerOf reg l = some none ↔ LeftOut reg l) := by
  rcases l with ⟨key, value, type, ev, info, skip, arg⟩
  cases skip <;> cases arg with
  | save a => cases ev <;> simp [handlerOf, Belongs, LeftOut]
  | restore t a =>
    cases t with
    | none => cases he : reg.isEmpty type <;> simp [handlerOf, Belongs, LeftOut, he]
    | some t => cases he : reg.isEmpty t <;> simp [handlerOf, Belongs, LeftOut, he]
  | empty => simp [handlerOf, Belongs, LeftOut]
  | other => simp [handlerOf, Belongs, LeftOut]

/-- C118. If some leaf has no handler (or an argument of no known kind) the operation fails
before any handler is called; otherwise there is one batch per handler that is needed, and the
batch of a handler consists of exactly the leaves that belong to it, in the order of the tree,
each with its own key, value, info and argument. -/
theorem C118_batches (reg : Registry T H) (ls : List (Leaf K T V I A)) :
    ((∃ l, l ∈ ls ∧ handlerOf reg l = none) → batch reg ls [] = none) ∧
    ((∀ l, l ∈ ls → handlerOf reg l ≠ none) → ∃ rs, batch reg ls [] = some rs ∧
      (rs.map (·.handler)).Nodup ∧
      (∀ h, h ∈ rs.map (·.handler) ↔ ∃ l, l ∈ ls ∧ handlerOf reg l = some (some h)) ∧
      ∀ r, r ∈ rs → Even r ∧ r.items = (Mine reg r.handler ls).map entry) := by
  constructor
  · have hgen : ∀ (ls : List (Leaf K T V I A)) (g : List (Request H K V I (Arg T A))),
        (∃ l, l ∈ ls ∧ handlerOf reg l = none) → batch reg ls g = none := by
      intro ls
      induction ls with
      | nil => rintro g ⟨l, hl, _⟩; simp at hl
      | cons l ls ih =>
        rintro g ⟨l', hl', hn⟩
        cases hl : handlerOf reg l with
        | none => simp only [batch, hl]
        | some o =>
          have : ∃ l, l ∈ ls ∧ handlerOf reg l = none := by
            rcases List.mem_cons.mp hl' with e | e
            · subst e; rw [hl] at hn; cases hn
            · exact ⟨l', e, hn⟩
          cases o with
          | none => simp only [batch, hl]; exact ih g this
          | some h => simp only [batch, hl]; exact ih _ this
    exact hgen ls []
  · intro hall
    obtain ⟨rs, h1, h2, h3, h4⟩ := batch_good ls [] [] (reg := reg)
      ⟨by simp, by simp, by simp⟩ hall
    simp only [List.nil_append] at h3 h4
    refine ⟨rs, h1, h2, fun h => ⟨fun hh => ?_, fun ⟨l, hl, hh⟩ => h4 l hl h hh⟩,
      fun r hr => ⟨(h3 r hr).1, (h3 r hr).2.1⟩⟩
    obtain ⟨r, hr, rfl⟩ := List.mem_map.mp hh
    obtain ⟨⟨e1, e2, e3⟩, hi, hk⟩ := h3 r hr
    have hlen : r.items.length = r.keys.length := by simp [Request.items, e1, e2, e3]
    have hne : Mine reg r.handler ls ≠ [] := by
      intro he
      rw [hi, he] at hlen
      simp only [List.map_nil, List.length_nil] at hlen
      exact hk (List.length_eq_zero_iff.mp hlen.symm)
    obtain ⟨l, hl⟩ := List.exists_mem_of_ne_nil _ hne
    simp only [Mine, List.mem_filter, decide_eq_true_eq] at hl
    exact ⟨l, hl.1, hl.2⟩

/-- C118. Saving: a handler is called at most once, and it is given exactly the values, infos
and arguments of its leaves, each once and in the order of the tree. -/
theorem C118_saved_once (reg : Registry T H) (ls : List (Leaf K T V I A))
    (rs : List (Request H K V I (Arg T A))) (hb : batch reg ls [] = some rs) :
    ((executeSave rs).map (·.1)).Nodup ∧
    ∀ h xs, (h, xs) ∈ executeSave rs ↔
      (xs = (Mine reg h ls).map (fun l => (l.value, l.info, l.arg)) ∧ Mine reg h ls ≠ []) := by
  have hall : ∀ l, l ∈ ls → handlerOf reg l ≠ none := by
    intro l hl hn
    rw [(C118_batches reg ls).1 ⟨l, hl, hn⟩] at hb; cases hb
  obtain ⟨rs', h1, h2, h3, h4⟩ := (C118_batches reg ls).2 hall
  rw [hb] at h1; cases h1
  have hx : ∀ r, r ∈ rs → r.values.zip (r.infos.zip r.args) =
      (Mine reg r.handler ls).map (fun l => (l.value, l.info, l.arg)) := by
    intro r hr
    obtain ⟨⟨e1, e2, e3⟩, hi⟩ := h4 r hr
    have h5 : r.items.map Prod.snd = r.values.zip (r.infos.zip r.args) := by
      simp only [Request.items]
      rw [List.map_snd_zip]
      simp [e1, e2, e3]
    rw [← h5, hi, List.map_map]
    rfl
  have hne : ∀ h, Mine reg h ls ≠ [] ↔ h ∈ rs.map (·.handler) := by
    intro h
    rw [h3 h]
    constructor
    · intro hne
      obtain ⟨l, hl⟩ := List.exists_mem_of_ne_nil _ hne
      simp only [Mine, List.mem_filter, decide_eq_true_eq] at hl
      exact ⟨l, hl⟩
    · rintro ⟨l, hl, hh⟩ he
      have : l ∈ Mine reg h ls := by simp [Mine, hl, hh]
      rw [he] at this; simp at this
  constructor
  · simpa [executeSave, List.map_map, Function.comp_def] using h2
  · intro h xs
    constructor
    · intro hm
      simp only [executeSave, List.mem_map, Prod.mk.injEq] at hm
      obtain ⟨r, hr, rfl, rfl⟩ := hm
      exact ⟨hx r hr, (hne r.handler).mpr (List.mem_map_of_mem hr)⟩
    · rintro ⟨rfl, hn⟩
      obtain ⟨r, hr, rfl⟩ := List.mem_map.mp ((hne h).mp hn)
      simp only [executeSave, List.mem_map, Prod.mk.injEq]
      exact ⟨r, hr, rfl, hx r hr⟩

/-! ### Restoring -/

theorem foldl_put [DecidableEq K] (ps : List (K × R)) : ∀ (d : List (K × R)) (k : K),
    Assoc.get (ps.foldl (fun d q => Assoc.put d q.1 q.2) d) k =
      ((ps.filter (fun q => decide (q.1 = k))).getLast?.map (·.2)).or (Assoc.get d k) := by
  induction ps with
  | nil => intro d k; simp
  | cons p ps ih =>
    intro d k
    rw [List.foldl_cons, ih]
    by_cases hk : p.1 = k
    · subst hk
      simp only [List.filter_cons, decide_true, if_true, Assoc.get_put_self]
      cases hf : (ps.filter fun q => decide (q.1 = p.1)) with
      | nil => simp
      | cons a as =>
        rw [List.getLast?_cons_cons]
        cases hg : (a :: as).getLast? with
        | none => rw [List.getLast?_eq_none_iff] at hg; cases hg
        | some q => rfl
    · rw [Assoc.get_put_ne _ _ (fun e => hk e.symm)]
      simp [List.filter_cons, hk]

theorem collect_flat [DecidableEq K] {B : Type} : ∀ (ps : List (Request H K V I B × List R))
    (d : List (K × R)),
    ps.foldl (fun d p => (p.1.keys.zip p.2).foldl (fun d q => Assoc.put d q.1 q.2) d) d =
      (ps.flatMap fun p => p.1.keys.zip p.2).foldl (fun d q => Assoc.put d q.1 q.2) d
  | [], d => rfl
  | p :: ps, d => by
    simp only [List.foldl_cons, List.flatMap_cons, List.foldl_append]
    exact collect_flat ps _

/-- A function on lists that treats every element on its own (what the handlers promise). -/
def Pointwise (deserialize : H → List (I × Arg T A) → Option (List R))
    (one : H → I → Arg T A → R) : Prop :=
  ∀ h l, deserialize h l = some (l.map fun x => one h x.1 x.2)

theorem executeRestore_pointwise {deserialize : H → List (I × Arg T A) → Option (List R)}
    {one : H → I → Arg T A → R} (hd : Pointwise deserialize one) :
    ∀ rs : List (Request H K V I (Arg T A)),
      executeRestore deserialize rs =
        some (rs.map fun r => (r.infos.zip r.args).map fun x => one r.handler x.1 x.2)
  | [] => rfl
  | r :: rs => by
    simp [executeRestore, hd r.handler, executeRestore_pointwise hd rs]

theorem zip_map_self {α β γ : Type} (f : α → β) (g : α → γ) :
    ∀ l : List α, (l.map f).zip (l.map g) = l.map fun x => (f x, g x)
  | [] => rfl
  | x :: l => by simp [zip_map_self f g l]

/-- C118. Restoring: with handlers that restore every leaf on its own and keys that are all
different, every leaf that has a handler is restored by its handler from its own info and
argument and is found under its own key, and nothing else is found. -/
theorem C118_restored_at_key [DecidableEq K] (reg : Registry T H)
    (deserialize : H → List (I × Arg T A) → Option (List R)) (one : H → I → Arg T A → R)
    (hd : Pointwise deserialize one) (ls : List (Leaf K T V I A))
    (hkeys : (ls.map (·.key)).Nodup) (hall : ∀ l, l ∈ ls → handlerOf reg l ≠ none) :
    ∃ d, restore reg deserialize ls = some d ∧
      ∀ k v, Assoc.get d k = some v ↔
        ∃ l h, l ∈ ls ∧ handlerOf reg l = some (some h) ∧ l.key = k ∧ v = one h l.info l.arg := by
  obtain ⟨rs, h1, h2, h3, h4⟩ := (C118_batches reg ls).2 hall
  refine ⟨collect rs (rs.map fun r => (r.infos.zip r.args).map fun x => one r.handler x.1 x.2),
    by simp [restore, h1, executeRestore_pointwise hd], ?_⟩
  have hpairs : (rs.zip (rs.map fun r => (r.infos.zip r.args).map fun x => one r.handler x.1 x.2)).flatMap
      (fun p => p.1.keys.zip p.2) =
      rs.flatMap fun r => (Mine reg r.handler ls).map fun l => (l.key, one r.handler l.info l.arg) := by
    have hz : rs.zip (rs.map fun r => (r.infos.zip r.args).map fun x => one r.handler x.1 x.2) =
        rs.map fun r => (r, (r.infos.zip r.args).map fun x => one r.handler x.1 x.2) := by
      have := zip_map_self (fun r : Request H K V I (Arg T A) => r)
        (fun r => (r.infos.zip r.args).map fun x => one r.handler x.1 x.2) rs
      simpa using this
    rw [hz, List.flatMap_map]
    have hr : ∀ r, r ∈ rs → (r.keys.zip ((r.infos.zip r.args).map fun x => one r.handler x.1 x.2)) =
        (Mine reg r.handler ls).map fun l => (l.key, one r.handler l.info l.arg) := by
      intro r hr
      obtain ⟨⟨e1, e2, e3⟩, hi⟩ := h4 r hr
      have hk : r.keys = (Mine reg r.handler ls).map (·.key) := by
        have : r.items.map Prod.fst = r.keys := by
          simp only [Request.items]; rw [List.map_fst_zip]; simp [e1, e2, e3]
        rw [← this, hi, List.map_map]; rfl
      have ha : r.infos.zip r.args = (Mine reg r.handler ls).map (fun l => (l.info, l.arg)) := by
        have : (r.items.map Prod.snd).map Prod.snd = r.infos.zip r.args := by
          simp only [Request.items]
          rw [List.map_snd_zip (by simp [e1, e2, e3]), List.map_snd_zip (by simp [e1, e2, e3])]
        rw [← this, hi, List.map_map, List.map_map]; rfl
      rw [hk, ha, List.map_map]
      exact zip_map_self _ _ _
    clear hz h1 h2 h3
    induction rs with
    | nil => rfl
    | cons r rs ih =>
      simp only [List.flatMap_cons]
      rw [hr r (by simp), ih (fun r' h' => h4 r' (by simp [h'])) (fun r' h' => hr r' (by simp [h']))]
  intro k v
  simp only [collect]
  rw [collect_flat, hpairs, foldl_put]
  simp only [Assoc.get_nil, Option.or_none]
  have huniq : ∀ l l', l ∈ ls → l' ∈ ls → l.key = l'.key → l = l' := by
    clear h1 h2 h3 h4 hpairs hall
    induction ls with
    | nil => intro l l' hl; simp at hl
    | cons a as ih =>
      simp only [List.map_cons, List.nodup_cons] at hkeys
      intro l l' hl hl' he
      rcases List.mem_cons.mp hl with e | e <;> rcases List.mem_cons.mp hl' with e' | e'
      · rw [e, e']
      · exfalso; subst e; exact hkeys.1 (he ▸ List.mem_map_of_mem e')
      · exfalso; subst e'; exact hkeys.1 (he ▸ List.mem_map_of_mem e)
      · exact ih hkeys.2 l l' e e' he
  have hmem : ∀ q : K × R, q ∈ (rs.flatMap fun r => (Mine reg r.handler ls).map fun l =>
      (l.key, one r.handler l.info l.arg)) ↔
      ∃ l h, l ∈ ls ∧ handlerOf reg l = some (some h) ∧ q = (l.key, one h l.info l.arg) := by
    intro q
    simp only [List.mem_flatMap, List.mem_map, Mine, List.mem_filter, decide_eq_true_eq]
    constructor
    · rintro ⟨r, _, l, ⟨hl, hh⟩, rfl⟩
      exact ⟨l, r.handler, hl, hh, rfl⟩
    · rintro ⟨l, h, hl, hh, rfl⟩
      obtain ⟨r, hr, rfl⟩ := List.mem_map.mp ((h3 h).mpr ⟨l, hl, hh⟩)
      exact ⟨r, hr, l, ⟨hl, hh⟩, rfl⟩
  constructor
  · intro hg
    obtain ⟨q, hq, rfl⟩ := Option.map_eq_some_iff.mp hg
    have hq' := List.mem_of_getLast? hq
    simp only [List.mem_filter, decide_eq_true_eq] at hq'
    obtain ⟨l, h, hl, hh, he⟩ := (hmem q).mp hq'.1
    exact ⟨l, h, hl, hh, by rw [← hq'.2, he], by rw [he]⟩
  · rintro ⟨l, h, hl, hh, rfl, rfl⟩
    have hin := (hmem _).mpr ⟨l, h, hl, hh, rfl⟩
    have hinf : (l.key, one h l.info l.arg) ∈ (rs.flatMap fun r =>
        (Mine reg r.handler ls).map fun l => (l.key, one r.handler l.info l.arg)).filter
        (fun q => decide (q.1 = l.key)) := by
      rw [List.mem_filter]; exact ⟨hin, by simp⟩
    obtain ⟨q, hq⟩ : ∃ q, ((rs.flatMap fun r =>
        (Mine reg r.handler ls).map fun l => (l.key, one r.handler l.info l.arg)).filter
        (fun q => decide (q.1 = l.key))).getLast? = some q := by
      cases hc : ((rs.flatMap fun r =>
        (Mine reg r.handler ls).map fun l => (l.key, one r.handler l.info l.arg)).filter
        (fun q => decide (q.1 = l.key))).getLast? with
      | none => rw [List.getLast?_eq_none_iff] at hc; rw [hc] at hinf; simp at hinf
      | some q => exact ⟨q, rfl⟩
    rw [hq]
    have hq' := List.mem_of_getLast? hq
    simp only [List.mem_filter, decide_eq_true_eq] at hq'
    obtain ⟨l', h', hl', hh', he⟩ := (hmem q).mp hq'.1
    have : l' = l := huniq l' l hl' hl (by rw [← hq'.2, he])
    subst this
    rw [hh] at hh'
    simp only [Option.some.injEq] at hh'
    subst hh'
    rw [he]; rfl

/-! ### Partial saves -/

/-- C118. In a partial save, when no addition is a prefix of another (they are the paths of
the leaves of one tree), exactly the entries whose key extends an addition are kept, each
once, with its own value, info and argument, in the same order. -/
theorem C118_filtered {N B : Type} [DecidableEq N] (additions : List (List N))
    (hnd : additions.Nodup)
    (hpre : ∀ a b, a ∈ additions → b ∈ additions → a = b.take a.length → a = b)
    (rs : List (Request H (List N) V I B)) :
    ∀ r', r' ∈ filterRequests additions rs ↔ ∃ r, r ∈ rs ∧
      (r.items.filter fun x => additions.any fun a => decide (a = x.1.take a.length)) ≠ [] ∧
      r'.handler = r.handler ∧ Even r' ∧
      r'.items = r.items.filter fun x => additions.any fun a => decide (a = x.1.take a.length) := by
  have hone : ∀ (k : List N), additions.filter (fun a => decide (a = k.take a.length)) = [] ∨
      ∃ a, additions.filter (fun a => decide (a = k.take a.length)) = [a] := by
    intro k
    have hn := hnd.filter (fun a => decide (a = k.take a.length))
    cases hc : additions.filter (fun a => decide (a = k.take a.length)) with
    | nil => exact Or.inl rfl
    | cons a as =>
      cases as with
      | nil => exact Or.inr ⟨a, rfl⟩
      | cons b bs =>
        exfalso
        have ha : a ∈ additions.filter (fun a => decide (a = k.take a.length)) := by rw [hc]; simp
        have hb : b ∈ additions.filter (fun a => decide (a = k.take a.length)) := by rw [hc]; simp
        simp only [List.mem_filter, decide_eq_true_eq] at ha hb
        rw [hc] at hn
        have hne : a ≠ b := (List.pairwise_cons.mp hn).1 b (by simp)
        rcases Nat.le_total a.length b.length with hle | hle
        · exact hne (hpre a b ha.1 hb.1 (by
            rw [hb.2, List.take_take, Nat.min_eq_left hle]; exact ha.2))
        · exact hne (hpre b a hb.1 ha.1 (by
            rw [ha.2, List.take_take, Nat.min_eq_left hle]; exact hb.2)).symm
  have hitems : ∀ l : List (List N × V × I × B),
      (l.flatMap fun x => (additions.filter fun a => decide (a = x.1.take a.length)).map fun _ => x) =
      l.filter fun x => additions.any fun a => decide (a = x.1.take a.length) := by
    intro l
    induction l with
    | nil => rfl
    | cons x l ih =>
      rw [List.flatMap_cons, ih, List.filter_cons]
      rcases hone x.1 with h | ⟨a, h⟩
      · have : (additions.any fun a => decide (a = x.1.take a.length)) = false := by
          rw [List.any_eq_false]
          intro a ha hd
          have : a ∈ additions.filter fun a => decide (a = x.1.take a.length) := by
            rw [List.mem_filter]; exact ⟨ha, hd⟩
          rw [h] at this; simp at this
        simp [h, this]
      · have : (additions.any fun a => decide (a = x.1.take a.length)) = true := by
          rw [List.any_eq_true]
          have : a ∈ additions.filter fun a => decide (a = x.1.take a.length) := by rw [h]; simp
          rw [List.mem_filter] at this
          exact ⟨a, this⟩
        simp [h, this]
  have hrebuild : ∀ l : List (List N × V × I × B),
      (l.map (·.1)).zip ((l.map (·.2.1)).zip ((l.map (·.2.2.1)).zip (l.map (·.2.2.2)))) = l := by
    intro l
    induction l with
    | nil => rfl
    | cons x l ih => simp [ih]
  intro r'
  simp only [filterRequests, List.mem_filterMap, hitems]
  constructor
  · rintro ⟨r, hr, he⟩
    split at he
    · cases he
    · rename_i hne
      simp only [Option.some.injEq] at he
      subst he
      refine ⟨r, hr, fun h => hne (by rw [h]; rfl), rfl, by simp [Even], ?_⟩
      exact hrebuild _
  · rintro ⟨r, hr, hne, hh, ⟨e1, e2, e3⟩, hi⟩
    refine ⟨r, hr, ?_⟩
    rw [if_neg (by rw [List.isEmpty_iff]; exact hne)]
    rcases r' with ⟨h', ks, vs, is, as⟩
    simp only [Request.items] at hi hh e1 e2 e3
    simp only [Option.some.injEq, Request.mk.injEq]
    simp only [Request.items]
    rw [← hi]
    refine ⟨hh.symm, ?_, ?_, ?_, ?_⟩
    · exact List.map_fst_zip (by simp [e1, e2, e3])
    · have : (fun x : List N × V × I × B => x.2.1) = Prod.fst ∘ Prod.snd := rfl
      rw [this, ← List.map_map, List.map_snd_zip (by simp [e1, e2, e3])]
      exact List.map_fst_zip (by simp [e1, e2, e3])
    · have : (fun x : List N × V × I × B => x.2.2.1) = Prod.fst ∘ (Prod.snd ∘ Prod.snd) := rfl
      rw [this, ← List.map_map, ← List.map_map, List.map_snd_zip (by simp [e1, e2, e3]),
        List.map_snd_zip (by simp [e1, e2, e3])]
      exact List.map_fst_zip (by simp [e2, e3])
    · have : (fun x : List N × V × I × B => x.2.2.2) = Prod.snd ∘ (Prod.snd ∘ Prod.snd) := rfl
      rw [this, ← List.map_map, ← List.map_map, List.map_snd_zip (by simp [e1, e2, e3]),
        List.map_snd_zip (by simp [e1, e2, e3])]
      exact List.map_snd_zip (by simp [e2, e3])

/-- C118 (finding). A handler that gives back fewer values than it was asked for is not
noticed here: the last leaves of its batch are missing from what was restored. -/
theorem C118_short_batch_fails :
    (restore (K := Nat) (V := Unit) (A := Unit) (⟨fun t => some t, fun _ => false⟩ : Registry Nat Nat)
      (fun _ l => some ((l.map (·.1)).dropLast))
      [⟨1, (), 0, false, 10, false, .restore none ()⟩, ⟨2, (), 0, false, 20, false, .restore none ()⟩]) =
      some [(1, 10)] := by
  decide

/-- A registry for examples: types 0 and 1 share handler 5, type 2 has handler 6, type 9 is
the empty type. -/
def exReg : Registry Nat Nat :=
  ⟨fun t => if t ≤ 1 then some 5 else if t = 2 then some 6 else none, fun t => t == 9⟩

theorem C118_nonvacuous :
    (restore (K := Nat) (V := Unit) (A := Unit) exReg (fun h l => some (l.map fun x => (h, x.1)))
      [⟨1, (), 0, false, 10, false, .restore none ()⟩, ⟨2, (), 2, false, 20, false, .restore none ()⟩,
       ⟨3, (), 7, false, 30, false, .restore (some 1) ()⟩, ⟨4, (), 9, false, 40, false, .restore none ()⟩]) =
      some [(1, (5, 10)), (3, (5, 30)), (2, (6, 20))] ∧
    (batch (K := Nat) (V := Unit) (I := Nat) (A := Unit) exReg
      [⟨1, (), 0, false, 10, false, .save ()⟩, ⟨2, (), 3, false, 20, false, .save ()⟩] []).isNone := by
  decide

end Verif.Handlers.Batches
