import Verif.PyTree.Transform
import Verif.PyTree.Core
import Verif.Trees.TransformProps

/-!
# Which parameters a restore with transforms reads
-/

namespace Verif.PyTree

open Verif Verif.Trees Verif.TreeMetadata

/-! ### Specification -/

/-- A request to restore with transforms. -/
structure Request (V : Type) where
  fm : FullMatch
  dto : Bool
  item : Tree V
  args : Tree RArg
  rules : Tree (RRule V)

/-- The transforms with their patterns, in the order of the tree. -/
def Request.list {V} (R : Request V) : List (Name × RRule V) := (R.rules.flat false).filterMap fun x => match x.2 with
  | .leaf r => some (slashName x.1, r)
  | .node _ _ => none

/-- The rule takes one value of the checkpoint. -/
def RRule.Single {V} (r : RRule V) : Prop := r.multiFn = none ∧ r.useFallback = false

/-- A transform that takes one value and matches the name of `p` takes the value called `n`. -/
def Request.Takes {V} (R : Request V) (p : List Key) (n : Name) : Prop :=
  ∃ x ∈ R.list, x.2.Single ∧ ∃ expand, R.fm x.1 (slashName p) = some expand ∧ n = x.2.originalKey.elim (slashName p) expand

/-- A transform with a function of several values declares the value called `n` as an input, with the arguments `a`. -/
def Request.Declares {V} (R : Request V) (n : Name) (a : RArg) : Prop :=
  ∃ x ∈ R.list, x.2.multiFn ≠ none ∧ ∃ ins, x.2.inputs = some ins ∧ ∃ y ∈ ins, R.fm y.1 n ≠ none ∧ y.2 = a

/-- A transform asking for the fallback matches the name. -/
def Request.Fallback {V} (R : Request V) (n : Name) : Prop := ∃ x ∈ R.list, R.fm x.1 n ≠ none ∧ x.2.useFallback = true

/-- A value of the checkpoint that has the name of a leaf `p` of the item may be carried over. -/
def Request.Carries {V} (R : Request V) (p : List Key) (n : Name) : Prop := slashName p = n ∧ (R.dto = true ↔ ¬ R.Fallback n)

/-- The value called `n` is wanted with the restore arguments `a`: a function of several values declares it, or a leaf of the item with these
arguments takes it or has its name. -/
def Request.Wants {V} (R : Request V) (n : Name) (a : RArg) : Prop :=
  R.Declares n a ∨ ∃ p v, R.item.at_ p = some (.leaf v) ∧ R.args.at_ p = some (.leaf a) ∧ (R.Takes p n ∨ R.Carries p n)

/-- What a request must meet.  `names` are the paths of the values in the checkpoint. -/
structure Request.Ok {V} (R : Request V) (names : List (List Key)) : Prop where
  item : R.item.Distinct
  itemNames : NamesApart R.item
  rules : R.rules.Distinct
  ruleNames : NamesApart R.rules
  args : R.args.shape = R.item.shape
  /-- equal joined names are equal paths -/
  apart : ∀ p v, R.item.at_ p = some (.leaf v) → ∀ q ∈ names, slashName p = slashName q → strPath p = strPath q
  /-- no transform takes a value for an empty container of the item -/
  empties : ∀ p kd, R.item.at_ p = some (.node kd .nil) → ∀ n, ¬ R.Takes p n
  /-- the item is not an empty container -/
  nonempty : ∀ kd, R.item = .node kd .nil → ∃ n, kd = .custom n

/-! ### Flat dictionaries -/

theorem rules_flat {V} (R : Request V) (h : R.rules.Distinct) :
    (toFlat false R.rules).map (fun x => (keystr x.1, x.2)) = R.list.map fun x => (x.1, .leaf x.2) := by
  rw [toFlat_eq false _ h, Request.list]
  have : ∀ l : List (List Key × Tree (RRule V)), (∀ x ∈ l, ∃ a, x.2 = .leaf a) →
      (l.map fun x => (strPath x.1, x.2)).map (fun x => (keystr x.1, x.2)) =
      (l.filterMap fun x => match x.2 with
        | .leaf r => some (slashName x.1, r)
        | .node _ _ => none).map fun x => (x.1, .leaf x.2) := by
    intro l
    induction l with
    | nil => intro _; rfl
    | cons x l ih =>
      intro hl
      obtain ⟨a, ha⟩ := hl x List.mem_cons_self
      obtain ⟨p, u⟩ := x
      subst ha
      simp only [List.map_cons, List.filterMap_cons, List.cons.injEq]
      exact ⟨rfl, ih fun y hy => hl y (List.mem_cons_of_mem _ hy)⟩
  apply this
  intro x hx
  obtain ⟨a, h1, _⟩ := flat_leaf h (p := x.1) (v := x.2) hx
  exact ⟨a, h1⟩

theorem mem_toFlat {α} {t : Tree α} (h : t.Distinct) (n : List Name) (v : Tree α) :
    (n, v) ∈ toFlat true t ↔ ∃ p, strPath p = n ∧ t.at_ p = some v ∧ v.emptyOrLeaf = true := by
  rw [(C40_flat_entries true t h n v).1]
  simp

theorem get_toFlatK {α} {t : Tree α} (h : t.Distinct) (n : List Name) (v : Tree α) :
    Assoc.get (toFlat true t) n = some v ↔ ∃ p, strPath p = n ∧ t.at_ p = some v ∧ v.emptyOrLeaf = true := by
  rw [← mem_toFlat h]
  exact ⟨Assoc.mem_of_get _ _ _, Assoc.get_of_mem _ (C40_flat_entries true t h n v).2 _ _⟩

/-- Paths with the same names are equal. -/
theorem strPath_inj {α} {t : Tree α} (h : t.Distinct) {p q : List Key} {v w : Tree α} (hp : t.at_ p = some v) (hq : t.at_ q = some w)
    (hv : v.emptyOrLeaf = true) (hw : w.emptyOrLeaf = true) (e : strPath p = strPath q) : p = q := by
  have h1 := (t.flat_spec true h p v).mpr ⟨hp, hv, by simp⟩
  have h2 := (t.flat_spec true h q w).mpr ⟨hq, hw, by simp⟩
  have hn := t.flat_nodup true h
  have hn' : (((t.flat true).map fun x => (strPath x.1, x.1)).map (·.1)).Nodup := by rw [List.map_map]; exact hn
  have e1 := get_of_nodup hn' (List.mem_map_of_mem (f := fun x => (strPath x.1, x.1)) h1)
  have e2 := get_of_nodup hn' (List.mem_map_of_mem (f := fun x => (strPath x.1, x.1)) h2)
  simp only at e1 e2
  rw [e, e2] at e1
  exact (Option.some.inj e1).symm

/-! ### The decision about one parameter -/

theorem findInput_some {fm : FullMatch} {key : Name} {a : RArg} : ∀ {l : List (Name × RArg)}, findInput fm key l = some a →
    ∃ y ∈ l, fm y.1 key ≠ none ∧ y.2 = a
  | [], h => by cases h
  | (re, b) :: l, h => by
    simp only [findInput] at h
    split at h
    · rename_i h1
      cases h
      exact ⟨_, List.mem_cons_self, by simpa [Option.isSome_iff_ne_none] using h1, rfl⟩
    · obtain ⟨y, hy, h2⟩ := findInput_some h
      exact ⟨y, List.mem_cons_of_mem _ hy, h2⟩

theorem findInput_none {fm : FullMatch} {key : Name} : ∀ {l : List (Name × RArg)}, findInput fm key l = none → ∀ y ∈ l, fm y.1 key = none
  | [], _, y, hy => by cases hy
  | (re, b) :: l, h, y, hy => by
    simp only [findInput] at h
    split at h
    · cases h
    · rename_i h1
      rcases List.mem_cons.mp hy with rfl | hy
      · simpa using h1
      · exact findInput_none h y hy

theorem findOutput_cons {α} (fm : FullMatch) (args : List (List Name × Tree RArg)) (pattern : Name) (ok : Option Name) (key : Name) (out : List Name)
    (u : Tree α) (l : List (List Name × Tree α)) :
    findOutput fm args pattern ok key ((out, u) :: l) = match fm pattern (keystr out) with
      | none => findOutput fm args pattern ok key l
      | some expand =>
        if ok.elim (keystr out) expand = key then (Assoc.get args out).map some else findOutput fm args pattern ok key l := by
  cases ok <;> rfl

theorem findOutput_some {α} {fm : FullMatch} {args : List (List Name × Tree RArg)} {pattern : Name} {ok : Option Name} {key : Name} {a : Tree RArg} :
    ∀ {l : List (List Name × Tree α)}, findOutput fm args pattern ok key l = some (some a) →
    ∃ x ∈ l, ∃ expand, fm pattern (keystr x.1) = some expand ∧ key = ok.elim (keystr x.1) expand ∧ Assoc.get args x.1 = some a
  | [], h => by simp [findOutput] at h
  | (out, u) :: l, h => by
    simp only [findOutput_cons] at h
    split at h
    · obtain ⟨x, hx, h1⟩ := findOutput_some h
      exact ⟨x, List.mem_cons_of_mem _ hx, h1⟩
    · rename_i expand he
      split at h
      · rename_i h1
        exact ⟨_, List.mem_cons_self, expand, he, h1.symm, by simpa using h⟩
      · obtain ⟨x, hx, h1⟩ := findOutput_some h
        exact ⟨x, List.mem_cons_of_mem _ hx, h1⟩

theorem findOutput_none {α} {fm : FullMatch} {args : List (List Name × Tree RArg)} {pattern : Name} {ok : Option Name} {key : Name} :
    ∀ {l : List (List Name × Tree α)}, findOutput fm args pattern ok key l = some none →
    ∀ x ∈ l, ∀ expand, fm pattern (keystr x.1) = some expand → key ≠ ok.elim (keystr x.1) expand
  | [], _, x, hx => by cases hx
  | (out, u) :: l, h, x, hx => by
    simp only [findOutput_cons] at h
    intro expand he
    split at h
    · rename_i h1
      rcases List.mem_cons.mp hx with rfl | hx
      · rw [he] at h1; cases h1
      · exact findOutput_none h x hx expand he
    · rename_i expand' he'
      split at h
      · simp at h
      · rename_i h1
        rcases List.mem_cons.mp hx with rfl | hx
        · rw [he] at he'
          cases he'
          exact fun e => h1 e.symm
        · exact findOutput_none h x hx expand he

/-- The first matching entry decides; nothing else can fail than the restore arguments. -/
theorem findOutput_isSome {α} {fm : FullMatch} {args : List (List Name × Tree RArg)} {pattern : Name} {ok : Option Name} {key : Name} :
    ∀ {l : List (List Name × Tree α)}, (∀ x ∈ l, (Assoc.get args x.1).isSome = true) → (findOutput fm args pattern ok key l).isSome = true
  | [], _ => rfl
  | (out, u) :: l, h => by
    have ih := findOutput_isSome (fm := fm) (args := args) (pattern := pattern) (ok := ok) (key := key) fun x hx => h x (List.mem_cons_of_mem _ hx)
    simp only [findOutput_cons]
    split
    · exact ih
    · split
      · simpa using h _ List.mem_cons_self
      · exact ih

/-- A transform asks for the value called `key`, with the arguments `a`. -/
def Asks {α V} (fm : FullMatch) (item : List (List Name × Tree α)) (args : List (List Name × Tree RArg)) (key : Name) (r : Name × RRule V) (a : Tree RArg) :
    Prop :=
  (r.2.multiFn ≠ none ∧ ∃ ins, r.2.inputs = some ins ∧ ∃ y ∈ ins, fm y.1 key ≠ none ∧ a = .leaf y.2) ∨
  (r.2.Single ∧ ∃ x ∈ item, ∃ expand, fm r.1 (keystr x.1) = some expand ∧ key = r.2.originalKey.elim (keystr x.1) expand ∧ Assoc.get args x.1 = some a)

theorem findArgs_some {α V} {fm : FullMatch} {item : List (List Name × Tree α)} {args : List (List Name × Tree RArg)} {key : Name} {a : Tree RArg} :
    ∀ {l : List (List Name × Tree (RRule V))}, findArgs fm item args key l = some (some a) →
    ∃ x ∈ l, ∃ r, x.2 = .leaf r ∧ Asks fm item args key (keystr x.1, r) a
  | [], h => by simp [findArgs] at h
  | (n, .node _ _) :: l, h => by
    simp only [findArgs] at h
    obtain ⟨x, hx, h1⟩ := findArgs_some h
    exact ⟨x, List.mem_cons_of_mem _ hx, h1⟩
  | (n, .leaf r) :: l, h => by
    have tail : findArgs fm item args key l = some (some a) → ∃ x ∈ (n, Tree.leaf r) :: l, ∃ r, x.2 = .leaf r ∧ Asks fm item args key (keystr x.1, r) a := by
      intro h
      obtain ⟨x, hx, h1⟩ := findArgs_some h
      exact ⟨x, List.mem_cons_of_mem _ hx, h1⟩
    simp only [findArgs] at h
    split at h
    · rename_i hm
      split at h
      · cases h
      · split at h
        · cases h
        · rename_i ins hi
          split at h
          · rename_i b hb
            cases h
            obtain ⟨y, hy, h1, rfl⟩ := findInput_some hb
            exact ⟨_, List.mem_cons_self, r, rfl, .inl ⟨Option.isSome_iff_ne_none.mp hm, ins, hi, y, hy, h1, rfl⟩⟩
          · exact tail h
    · rename_i hm
      split at h
      · rename_i hf
        split at h
        · cases h
        · rename_i b hb
          cases h
          obtain ⟨x, hx, expand, h1⟩ := findOutput_some hb
          exact ⟨_, List.mem_cons_self, r, rfl, .inr ⟨⟨by simpa using hm, by simpa using hf⟩, x, hx, expand, h1⟩⟩
        · exact tail h
      · exact tail h

theorem findArgs_none {α V} {fm : FullMatch} {item : List (List Name × Tree α)} {args : List (List Name × Tree RArg)} {key : Name} :
    ∀ {l : List (List Name × Tree (RRule V))}, findArgs fm item args key l = some none →
    ∀ x ∈ l, ∀ r, x.2 = .leaf r → ∀ a, ¬ Asks fm item args key (keystr x.1, r) a
  | [], _, x, hx => by cases hx
  | (n, .node _ _) :: l, h, x, hx => by
    simp only [findArgs] at h
    rcases List.mem_cons.mp hx with rfl | hx
    · intro r e; cases e
    · exact findArgs_none h x hx
  | (n, .leaf r) :: l, h, x, hx => by
    intro r' er a ha
    simp only [findArgs] at h
    have go : findArgs fm item args key l = some none → ¬ Asks fm item args key (keystr n, r) a → False := by
      intro h h1
      rcases List.mem_cons.mp hx with rfl | hx
      · cases er; exact h1 ha
      · exact findArgs_none h x hx r' er a ha
    split at h
    · rename_i hm
      split at h
      · cases h
      · split at h
        · cases h
        · rename_i ins hi
          split at h
          · simp at h
          · rename_i hn
            refine go h ?_
            rintro (⟨-, ins', e, y, hy, h1, -⟩ | ⟨⟨e, -⟩, -⟩)
            · rw [hi] at e; cases e
              exact h1 (findInput_none hn y hy)
            · rw [e] at hm; cases hm
    · rename_i hm
      have hm' : r.multiFn = none := by simpa using hm
      split at h
      · split at h
        · cases h
        · simp at h
        · rename_i hn
          refine go h ?_
          rintro (⟨e, -⟩ | ⟨-, z, hz, expand, h1, h2, -⟩)
          · exact e hm'
          · exact findOutput_none hn z hz expand h1 h2
      · rename_i hf
        refine go h ?_
        rintro (⟨e, -⟩ | ⟨⟨-, e⟩, -⟩)
        · exact e hm'
        · simp only at e
          rw [e] at hf
          exact hf rfl

theorem findArgs_isSome {α V} {fm : FullMatch} {item : List (List Name × Tree α)} {args : List (List Name × Tree RArg)} {key : Name} 
    (ha : ∀ x ∈ item, (Assoc.get args x.1).isSome = true) :
    ∀ {l : List (List Name × Tree (RRule V))}, (∀ x ∈ l, ∀ r, x.2 = .leaf r → r.multiFn ≠ none → r.isRestore = true ∧ r.inputs ≠ none) →
    (findArgs fm item args key l).isSome = true
  | [], _ => rfl
  | (n, .node _ _) :: l, h => by
    simp only [findArgs]
    exact findArgs_isSome ha fun x hx => h x (List.mem_cons_of_mem _ hx)
  | (n, .leaf r) :: l, h => by
    have ih := findArgs_isSome (fm := fm) (key := key) ha (l := l) fun x hx => h x (List.mem_cons_of_mem _ hx)
    simp only [findArgs]
    split
    · rename_i hm
      obtain ⟨h1, h2⟩ := h _ List.mem_cons_self r rfl (Option.isSome_iff_ne_none.mp hm)
      simp only [h1, Bool.not_true, Bool.false_eq_true, if_false]
      split
      · rename_i e; exact absurd e h2
      · split
        · rfl
        · exact ih
    · split
      · split
        · rename_i e
          have := findOutput_isSome (fm := fm) (args := args) (pattern := keystr n) (ok := r.originalKey) (key := key) ha
          rw [e] at this
          cases this
        · rfl
        · exact ih
      · exact ih

/-- A rule that may not be used makes every lookup fail. -/
theorem findArgs_multi {α V} {fm : FullMatch} {item : List (List Name × Tree α)} {args : List (List Name × Tree RArg)} {key : Name} 
    {n : List Name} {r : RRule V} {l : List (List Name × Tree (RRule V))} (hm : r.multiFn ≠ none) (hr : r.isRestore = false ∨ r.inputs = none) :
    findArgs fm item args key ((n, .leaf r) :: l) = none := by
  simp only [findArgs, Option.isSome_iff_ne_none.mpr hm, if_true]
  rcases hr with h | h
  · simp [h]
  · simp [h]

/-! ### Requests -/

theorem leaf_of_shape {α β} {t : Tree α} {u : Tree β} (h : u.shape = t.shape) {p : List Key} {a : α} (hp : t.at_ p = some (.leaf a)) :
    ∃ b, u.at_ p = some (.leaf b) := by
  have h1 := at_shape p t
  rw [hp, ← h, at_shape] at h1
  cases hu : u.at_ p with
  | none => rw [hu] at h1; cases h1
  | some c =>
    rw [hu] at h1
    cases c with
    | leaf b => exact ⟨b, rfl⟩
    | node k f => simp [Tree.shape] at h1

theorem empty_of_shape {α β} {t : Tree α} {u : Tree β} (h : u.shape = t.shape) {p : List Key} {k : Kind} (hp : t.at_ p = some (.node k .nil)) :
    u.at_ p = some (.node k .nil) := by
  have h1 := at_shape p t
  rw [hp, ← h, at_shape] at h1
  cases hu : u.at_ p with
  | none => rw [hu] at h1; cases h1
  | some c =>
    rw [hu] at h1
    cases c with
    | leaf b => simp [Tree.shape] at h1
    | node k f =>
      cases f with
      | nil => simp [Tree.shape, Forest.shape] at h1; rw [h1]
      | cons => simp [Tree.shape, Forest.shape] at h1

theorem emptyOrLeaf_cases {α} {v : Tree α} (h : v.emptyOrLeaf = true) : (∃ a, v = .leaf a) ∨ ∃ k, v = .node k .nil := by
  cases v with
  | leaf a => exact .inl ⟨a, rfl⟩
  | node k f =>
    cases f with
    | nil => exact .inr ⟨k, rfl⟩
    | cons => cases h

/-- The decision about the parameter at a path. -/
def Request.plan {V} (R : Request V) (q : List Key) : Option (Option (Tree RArg)) :=
  PyTree.plan R.fm R.dto (toFlat true R.item) (toFlat true R.args) (toFlat false R.rules) (strPath q)

section
variable {V : Type} {R : Request V} {names : List (List Key)}

theorem Request.Ok.argsDistinct (h : R.Ok names) : R.args.Distinct := by
  rw [← shape_distinct, h.args, shape_distinct]; exact h.item

theorem Request.Ok.mem_list (h : R.Ok names) {x : List Name × Tree (RRule V)} (hx : x ∈ toFlat false R.rules) {r : RRule V} (hr : x.2 = .leaf r) :
    (keystr x.1, r) ∈ R.list := by
  have := List.mem_map_of_mem (f := fun x => (keystr x.1, x.2)) hx
  rw [rules_flat R h.rules, hr] at this
  obtain ⟨y, hy, e⟩ := List.mem_map.mp this
  simp only [Prod.mk.injEq, Tree.leaf.injEq] at e
  rw [← e.1, ← e.2]
  exact hy

theorem Request.Ok.list_mem (h : R.Ok names) {y : Name × RRule V} (hy : y ∈ R.list) :
    ∃ x ∈ toFlat false R.rules, keystr x.1 = y.1 ∧ x.2 = .leaf y.2 := by
  have := List.mem_map_of_mem (f := fun x => (x.1, Tree.leaf x.2)) hy
  rw [← rules_flat R h.rules] at this
  obtain ⟨x, hx, e⟩ := List.mem_map.mp this
  simp only [Prod.mk.injEq] at e
  exact ⟨x, hx, e⟩

theorem Request.Ok.fallback_iff (h : R.Ok names) (n : Name) : hasFallback R.fm n (toFlat false R.rules) = true ↔ R.Fallback n := by
  simp only [hasFallback, List.any_eq_true]
  constructor
  · rintro ⟨x, hx, h1⟩
    split at h1
    · rename_i r hr
      simp only [Bool.and_eq_true] at h1
      exact ⟨_, h.mem_list hx hr, Option.isSome_iff_ne_none.mp h1.1, h1.2⟩
    · cases h1
  · rintro ⟨y, hy, h1, h2⟩
    obtain ⟨x, hx, e1, e2⟩ := h.list_mem hy
    refine ⟨x, hx, ?_⟩
    rw [e2]
    simp only [Bool.and_eq_true]
    exact ⟨Option.isSome_iff_ne_none.mpr (by rw [e1]; exact h1), h2⟩

/-- What transforms ask for is wanted. -/
theorem Request.Ok.asks (h : R.Ok names) {y : Name × RRule V} (hy : y ∈ R.list) {n : Name} {a : Tree RArg}
    (ha : Asks R.fm (toFlat true R.item) (toFlat true R.args) n y a) : ∃ b, a = .leaf b ∧ R.Wants n b := by
  rcases ha with ⟨h1, ins, h2, z, hz, h3, rfl⟩ | ⟨h1, x, hx, expand, h2, h3, h4⟩
  · exact ⟨_, rfl, .inl ⟨y, hy, h1, ins, h2, z, hz, h3, rfl⟩⟩
  · obtain ⟨p, e, hp, hv⟩ := (mem_toFlat h.item x.1 x.2).mp hx
    have ht : R.Takes p n := by
      refine ⟨y, hy, h1, expand, ?_, ?_⟩
      · rw [← e] at h2; exact h2
      · rw [← e] at h3; exact h3
    rcases emptyOrLeaf_cases hv with ⟨v, ev⟩ | ⟨k, ev⟩
    · rw [ev] at hp
      obtain ⟨b, hb⟩ := leaf_of_shape h.args hp
      have := (get_toFlatK h.argsDistinct x.1 (.leaf b)).mpr ⟨p, e, hb, rfl⟩
      rw [this] at h4
      cases h4
      exact ⟨b, rfl, .inr ⟨p, v, hp, hb, .inl ht⟩⟩
    · rw [ev] at hp
      exact absurd ht (h.empties p k hp n)

/-- What is declared or taken is asked for. -/
theorem Request.Ok.asked (h : R.Ok names) {n : Name} {b : RArg}
    (hw : R.Declares n b ∨ ∃ p v, R.item.at_ p = some (.leaf v) ∧ R.args.at_ p = some (.leaf b) ∧ R.Takes p n) :
    ∃ y ∈ R.list, Asks R.fm (toFlat true R.item) (toFlat true R.args) n y (.leaf b) := by
  rcases hw with ⟨y, hy, h1, ins, h2, z, hz, h3, rfl⟩ | ⟨p, v, hp, hb, y, hy, h1, expand, h2, h3⟩
  · exact ⟨y, hy, .inl ⟨h1, ins, h2, z, hz, h3, rfl⟩⟩
  · refine ⟨y, hy, .inr ⟨h1, (strPath p, .leaf v), (mem_toFlat h.item _ _).mpr ⟨p, rfl, hp, rfl⟩, expand, h2, h3, ?_⟩⟩
    exact (get_toFlatK h.argsDistinct _ _).mpr ⟨p, rfl, hb, rfl⟩

/-- A leaf of the item with the name of a parameter is at its path. -/
theorem Request.Ok.same (h : R.Ok names) {q : List Key} (hq : q ∈ names) {p : List Key} {v : V} (hp : R.item.at_ p = some (.leaf v))
    (e : slashName p = slashName q) : Assoc.get (toFlat true R.item) (strPath q) = some (.leaf v) :=
  (get_toFlatK h.item _ _).mpr ⟨p, h.apart p v hp q hq e, hp, rfl⟩

/-- A parameter that is read is wanted with the arguments it is read with; only for an empty container of the item the arguments are not
restore arguments, and then it is not wanted.  A parameter that is skipped is not wanted. -/
theorem Request.Ok.plan (h : R.Ok names) {q : List Key} (hq : q ∈ names) {r : Option (Tree RArg)} (hr : R.plan q = some r) :
    (∃ b, r = some (.leaf b) ∧ R.Wants (slashName q) b) ∨ ((r = none ∨ ∃ k, r = some (.node k .nil)) ∧ ∀ b, ¬ R.Wants (slashName q) b) := by
  simp only [Request.plan, PyTree.plan] at hr
  split at hr
  · cases hr
  · rename_i found hf
    cases found with
    | some a =>
      obtain ⟨x, hx, ru, e, h1⟩ := findArgs_some hf
      obtain ⟨b, rfl, h2⟩ := h.asks (h.mem_list hx e) h1
      simp only [truthyArgs, if_true, Option.some.injEq] at hr
      exact .inl ⟨b, hr.symm, h2⟩
    | none =>
      have h0 : ∀ b, ¬ (R.Declares (slashName q) b ∨ ∃ p v, R.item.at_ p = some (.leaf v) ∧ R.args.at_ p = some (.leaf b) ∧ R.Takes p (slashName q)) := by
        intro b hw
        obtain ⟨y, hy, h1⟩ := h.asked hw
        obtain ⟨x, hx, e1, e2⟩ := h.list_mem hy
        refine findArgs_none hf x hx _ e2 (.leaf b) ?_
        rw [e1]
        exact h1
      have hc : ∀ b, R.Wants (slashName q) b → ∃ v, Assoc.get (toFlat true R.item) (strPath q) = some (.leaf v) ∧ (R.dto = true ↔ ¬ R.Fallback (slashName q)) := by
        rintro b (hw | ⟨p, v, hp, hb, hw | ⟨e, hd⟩⟩)
        · exact absurd (.inl hw) (h0 b)
        · exact absurd (.inr ⟨p, v, hp, hb, hw⟩) (h0 b)
        · exact ⟨v, h.same hq hp e, hd⟩
      have hk : keystr (strPath q) = slashName q := rfl
      have hget : ∀ r, (R.dto = true ↔ ¬ R.Fallback (slashName q)) → (Assoc.get (toFlat true R.item) (strPath q)).isSome = true →
          (Assoc.get (toFlat true R.args) (strPath q)).map some = some r →
          (∃ b, r = some (.leaf b) ∧ R.Wants (slashName q) b) ∨ ((r = none ∨ ∃ k, r = some (.node k .nil)) ∧ ∀ b, ¬ R.Wants (slashName q) b) := by
        intro r hd hi hr
        obtain ⟨v, hv⟩ := Option.isSome_iff_exists.mp hi
        obtain ⟨p, e, hp, hl⟩ := (get_toFlatK h.item _ _).mp hv
        rcases emptyOrLeaf_cases hl with ⟨w, rfl⟩ | ⟨k, rfl⟩
        · obtain ⟨b, hb⟩ := leaf_of_shape h.args hp
          rw [(get_toFlatK h.argsDistinct _ _).mpr ⟨p, e, hb, rfl⟩] at hr
          simp only [Option.map_some, Option.some.injEq] at hr
          refine .inl ⟨b, hr.symm, .inr ⟨p, w, hp, hb, .inr ⟨?_, hd⟩⟩⟩
          simp only [slashName, e]
        · rw [(get_toFlatK h.argsDistinct _ _).mpr ⟨p, e, empty_of_shape h.args hp, rfl⟩] at hr
          simp only [Option.map_some, Option.some.injEq] at hr
          refine .inr ⟨.inr ⟨k, hr.symm⟩, fun b hw => ?_⟩
          obtain ⟨v, h1, -⟩ := hc b hw
          rw [hv] at h1
          cases h1
      simp only [truthyArgs, Bool.false_eq_true, if_false, hk] at hr
      split at hr
      · rename_i hi
        split at hr
        · rename_i hfb
          rw [h.fallback_iff] at hfb
          split at hr
          · rename_i hd
            cases hr
            refine .inr ⟨.inl rfl, fun b hw => ?_⟩
            obtain ⟨v, -, h1⟩ := hc b hw
            exact h1.mp hd hfb
          · rename_i hd
            exact hget r ⟨fun e => absurd e hd, fun e => absurd hfb e⟩ hi hr
        · rename_i hfb
          rw [h.fallback_iff] at hfb
          split at hr
          · rename_i hd
            exact hget r ⟨fun _ => hfb, fun _ => hd⟩ hi hr
          · rename_i hd
            cases hr
            refine .inr ⟨.inl rfl, fun b hw => ?_⟩
            obtain ⟨v, -, h1⟩ := hc b hw
            exact hd (h1.mpr hfb)
      · rename_i hi
        cases hr
        refine .inr ⟨.inl rfl, fun b hw => ?_⟩
        obtain ⟨v, h1, -⟩ := hc b hw
        rw [h1] at hi
        exact hi rfl

/-- The decision is possible if the functions of several values declare their inputs. -/
theorem Request.Ok.plan_isSome (h : R.Ok names) (hm : ∀ x ∈ R.list, x.2.multiFn ≠ none → x.2.isRestore = true ∧ x.2.inputs ≠ none) (q : List Key) :
    (R.plan q).isSome = true := by
  have ha : ∀ x ∈ toFlat true R.item, (Assoc.get (toFlat true R.args) x.1).isSome = true := by
    intro x hx
    obtain ⟨p, e, hp, hl⟩ := (mem_toFlat h.item x.1 x.2).mp hx
    rcases emptyOrLeaf_cases hl with ⟨w, ew⟩ | ⟨k, ew⟩
    · rw [ew] at hp
      obtain ⟨b, hb⟩ := leaf_of_shape h.args hp
      rw [(get_toFlatK h.argsDistinct _ _).mpr ⟨p, e, hb, rfl⟩]
      rfl
    · rw [ew] at hp
      rw [(get_toFlatK h.argsDistinct _ _).mpr ⟨p, e, empty_of_shape h.args hp, rfl⟩]
      rfl
  have hf := findArgs_isSome (fm := R.fm) (key := keystr (strPath q)) ha (l := toFlat false R.rules)
    fun x hx r e => hm _ (h.mem_list hx e)
  have hi : (Assoc.get (toFlat true R.item) (strPath q)).isSome = true → ((Assoc.get (toFlat true R.args) (strPath q)).map some).isSome = true := by
    intro hi
    obtain ⟨v, hv⟩ := Option.isSome_iff_exists.mp hi
    rw [Option.isSome_map]
    exact ha (strPath q, v) (Assoc.mem_of_get _ _ _ hv)
  simp only [Request.plan, PyTree.plan]
  split
  · rename_i e; rw [e] at hf; cases hf
  · split
    · rfl
    · split
      · rename_i hg
        split
        · split
          · rfl
          · exact hi hg
        · split
          · exact hi hg
          · rfl
      · rfl

end

end Verif.PyTree
