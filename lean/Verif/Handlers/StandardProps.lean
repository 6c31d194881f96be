import Verif.Handlers.Standard
import Mathlib.Data.List.Forall2

/-!
# StandardCheckpointHandler: leaves come back as they were saved, or as the target asks (C89)

Specification.  `Lawful`: facts about Python and NumPy.  `typeOf x`: the target that a value of the tree stands
for.  `plain x`: the value as it is stored, with subclasses of arrays forgotten.
-/

namespace Verif.Handlers.Standard

open Verif.Arrays (Nd)

variable {D E P S : Type} [DecidableEq D]

/-- What is true of Python and NumPy. -/
structure Lawful (w : World D E P S) : Prop where
  cast : ∀ d e, w.cast d d e = e
  item : ∀ p d e, w.ofPy p = some (d, e) → w.item d e = p
  conv : ∀ p, w.conv (w.tyOf p) p = some p
  pyOf : ∀ p d e, w.ofPy p = some (d, e) → w.pyOf d = w.tyOf p
  f64 : ∀ e, w.toF64 (w.item w.f64 e) = some e

/-- A value of the tree, as a target. -/
def typeOf (w : World D E P S) : Leaf D E P S → Target D S
  | .py p => .py (w.tyOf p)
  | .npScalar d _ => .npScalar d
  | .np _ d a => .np d a.shape
  | .jax d a s => .jax d a.shape s
  | .arrayLike _ _ => .other
  | .other => .other

/-- Arrays of subclasses are plain arrays. -/
def plain : Leaf D E P S → Leaf D E P S
  | .np _ d a => .np false d a
  | x => x

/-- Values that are saved as arrays come back as arrays, and so do arrays whose sharding is not recorded;
arrays whose devices no longer exist come back with the fallback sharding, if there is one. -/
def asSaved (w : World D E P S) (fallback : Option S) : Leaf D E P S → Option (Leaf D E P S)
  | .np _ d a => some (.np false d a)
  | .npScalar d e => some (.np false d ⟨[], fun _ => e⟩)
  | .arrayLike d a => some (.np false d a)
  | .jax d a s =>
    if w.recorded s = false then some (.np false d a)
    else if w.available s then some (.jax d a s)
    else fallback.map (fun f => .jax d a f)
  | x => some x

/-- A position of an array. -/
def Pos : List Nat → List Int → Prop
  | [], [] => True
  | n :: shape, x :: i => (0 ≤ x ∧ x < n) ∧ Pos shape i
  | _, _ => False

theorem inside_iff : ∀ (shape : List Nat) (i : List Int), inside shape i = true ↔ Pos shape i
  | [], [] => by simp [inside, Pos]
  | [], _ :: _ => by simp [inside, Pos]
  | _ :: _, [] => by simp [inside, Pos]
  | n :: shape, x :: i => by simp [inside, Pos, inside_iff shape i]

/-- Equal arrays: the same shape and the same elements. -/
def EqArr (a b : Nd E) : Prop := a.shape = b.shape ∧ ∀ i, Pos a.shape i → a.at_ i = b.at_ i

/-- Equal leaves: the same type and equal values. -/
def EqLeaf : Leaf D E P S → Leaf D E P S → Prop
  | .np b d a, y => ∃ a', y = .np b d a' ∧ EqArr a a'
  | .jax d a s, y => ∃ a', y = .jax d a' s ∧ EqArr a a'
  | x, y => y = x

/-- Equal trees: the same keys in the same order, with equal leaves. -/
def EqTree (t t' : List (String × Leaf D E P S)) : Prop := List.Forall₂ (fun p q => q.1 = p.1 ∧ EqLeaf p.2 q.2) t t'

open Classical in
/-- `a'` holds the elements of `st`, converted to the type `d`, where `st` has a position, and zeros elsewhere. -/
def Holds (w : World D E P S) (st : Stored D E S) (d : D) (a' : Nd E) : Prop :=
  ∀ i, Pos a'.shape i → a'.at_ i = if Pos st.a.shape i then w.cast st.d d (st.a.at_ i) else w.zero d

/-- What a saved leaf may be restored as, for each kind of target. -/
inductive Restored (w : World D E P S) (fallback : Option S) (strict : Bool) (st : Stored D E S) : Target D S → Leaf D E P S → Prop
  /-- A number: the stored scalar, converted by the type of the target. -/
  | py (t : PyT) (p : P) : st.a.shape = [] → w.conv t (w.item st.d (st.a.at_ [])) = some p → Restored w fallback strict st (.py t) (.py p)
  | f64 (d : D) (e : E) : st.a.shape = [] → w.toF64 (w.item st.d (st.a.at_ [])) = some e →
      Restored w fallback strict st (.npScalar d) (.npScalar w.f64 e)
  /-- An `np.ndarray`: of the type of the target, and of the shape that was saved. -/
  | np (d : D) (shape : List Nat) (a' : Nd E) : a'.shape = st.a.shape → Holds w st d a' → Restored w fallback strict st (.np d shape) (.np false d a')
  /-- A `jax.Array`: type, shape and sharding of the target. -/
  | jax (d : D) (shape : List Nat) (s : S) (a' : Nd E) : a'.shape = shape → w.fits s shape = true → st.a.shape.length = shape.length →
      (strict = true → st.a.shape = shape) → Holds w st d a' → Restored w fallback strict st (.jax d shape s) (.jax d a' s)
  | struct (d : D) (shape : List Nat) (s : S) (a' : Nd E) : a'.shape = shape → w.fits s shape = true → st.a.shape.length = shape.length →
      (strict = true → st.a.shape = shape) → Holds w st d a' → Restored w fallback strict st (.struct d shape (some s)) (.jax d a' s)
  /-- A struct without sharding: the sharding that was saved, if its devices exist, or the fallback. -/
  | saved (d : D) (shape : List Nat) (s s' : S) (a' : Nd E) : st.kind = .jax → st.sharding = some s →
      (w.available s = true ∧ s' = s ∨ w.available s = false ∧ fallback = some s') →
      a'.shape = shape → w.fits s' shape = true → st.a.shape.length = shape.length →
      (strict = true → st.a.shape = shape) → Holds w st d a' → Restored w fallback strict st (.struct d shape none) (.jax d a' s')
  /-- A struct without sharding, of a leaf saved without: an `np.ndarray`. -/
  | unsharded (d : D) (shape : List Nat) (a' : Nd E) : (st.kind = .jax → st.sharding = none) → a'.shape = st.a.shape → Holds w st d a' →
      Restored w fallback strict st (.struct d shape none) (.np false d a')

theorem EqArr.refl (a : Nd E) : EqArr a a := ⟨rfl, fun _ _ => rfl⟩

theorem EqLeaf.refl (x : Leaf D E P S) : EqLeaf x x := by
  cases x with
  | np b d a => exact ⟨a, rfl, EqArr.refl a⟩
  | jax d a s => exact ⟨a, rfl, EqArr.refl a⟩
  | _ => rfl

theorem convert_self {w : World D E P S} (h : Lawful w) (d : D) (a : Nd E) : convert w d d a = a := by
  simp [convert, h.cast]

/-- Nothing is converted when saving. -/
def NoCast (args : String → Option (SaveArg D)) : Prop := ∀ k a, args k = some a → a.dtype = none

theorem write_eq {w : World D E P S} {kind : Kind} {arg : Option (SaveArg D)} (h : ∀ a, arg = some a → a.dtype = none) {d : D} {a : Nd E}
    {s : Option S} {st : Stored D E S} (hw : write w kind arg d a s = some st) : st = ⟨kind, d, a, s⟩ ∧ ∀ n ∈ a.shape, n ≠ 0 := by
  have e : (arg.bind (·.dtype)).getD d = d := by
    cases arg with
    | none => rfl
    | some x => simp [h x rfl]
  simp only [write, e, if_true] at hw
  split at hw
  · cases hw
  · next hn =>
    cases hw
    refine ⟨rfl, ?_⟩
    intro n hn' h0
    apply hn
    rw [List.any_eq_true]
    exact ⟨n, hn', by simp [h0]⟩

/-- The stored form of a leaf. -/
theorem saveLeaf_some {w : World D E P S} {arg : Option (SaveArg D)} (h : ∀ a, arg = some a → a.dtype = none) {x : Leaf D E P S}
    {st : Stored D E S} (hw : saveLeaf w arg x = some st) :
    (∃ p d e, x = .py p ∧ w.tyOf p ≠ .complex ∧ w.ofPy p = some (d, e) ∧ st = ⟨.scalar, d, ⟨[], fun _ => e⟩, none⟩) ∨
    (∃ d e, x = .npScalar d e ∧ st = ⟨.np, d, ⟨[], fun _ => e⟩, none⟩) ∨
    (∃ b d a, x = .np b d a ∧ st = ⟨.np, d, a, none⟩) ∨
    (∃ d a, x = .arrayLike d a ∧ st = ⟨.np, d, a, none⟩) ∨
    (∃ d a s, x = .jax d a s ∧ st = ⟨.jax, d, a, if w.recorded s then some s else none⟩) := by
  simp only [saveLeaf] at hw
  split at hw
  · cases hw
  · cases x with
    | py p =>
      simp only at hw
      have key : ((w.ofPy p).bind fun r => write w .scalar arg r.1 ⟨[], fun _ => r.2⟩ none) = some st ∧ w.tyOf p ≠ .complex := by
        cases ht : w.tyOf p <;> rw [ht] at hw <;> simp only at hw
        · exact ⟨hw, by simp⟩
        · exact ⟨hw, by simp⟩
        · exact ⟨hw, by simp⟩
        · cases hw
      obtain ⟨hw, hc⟩ := key
      rw [Option.bind_eq_some_iff] at hw
      obtain ⟨⟨d, e⟩, h1, h2⟩ := hw
      exact .inl ⟨p, d, e, rfl, hc, h1, (write_eq h h2).1⟩
    | npScalar d e => exact .inr (.inl ⟨d, e, rfl, (write_eq h hw).1⟩)
    | np b d a => exact .inr (.inr (.inl ⟨b, d, a, rfl, (write_eq h hw).1⟩))
    | jax d a s => exact .inr (.inr (.inr (.inr ⟨d, a, s, rfl, (write_eq h hw).1⟩)))
    | arrayLike d a => exact .inr (.inr (.inr (.inl ⟨d, a, rfl, (write_eq h hw).1⟩)))
    | other => cases hw

/-- C89: what can be saved: Python integers of at most 64 bits, floats and booleans, and all arrays, NumPy
scalars and objects that convert to arrays with at least one element; `aggregate` is refused. -/
theorem C89_saveable (w : World D E P S) (arg : Option (SaveArg D)) (x : Leaf D E P S) :
    (saveLeaf w arg x).isSome ↔ (∀ a, arg = some a → a.aggregate = false) ∧
      ((∃ p, x = .py p ∧ w.tyOf p ≠ .complex ∧ (w.ofPy p).isSome) ∨ (∃ d e, x = .npScalar d e) ∨
        (∃ b d a, x = .np b d a ∧ ∀ n ∈ a.shape, n ≠ 0) ∨ (∃ d a, x = .arrayLike d a ∧ ∀ n ∈ a.shape, n ≠ 0) ∨
        (∃ d a s, x = .jax d a s ∧ ∀ n ∈ a.shape, n ≠ 0)) := by
  have hwr : ∀ (kind : Kind) (d : D) (a : Nd E) (s : Option S), (write w kind arg d a s).isSome ↔ ∀ n ∈ a.shape, n ≠ 0 := by
    intro kind d a s
    simp only [write]
    split
    · next h =>
      simp only [Option.isSome_none, Bool.false_eq_true, false_iff]
      rw [List.any_eq_true] at h
      obtain ⟨n, hn, e⟩ := h
      intro hall
      exact hall n hn (by simpa using e)
    · next h =>
      simp only [Option.isSome_some, true_iff]
      intro n hn e
      exact h (List.any_eq_true.mpr ⟨n, hn, by simp [e]⟩)
  have hag : (arg.map (·.aggregate)).getD false = true ↔ ¬ ∀ a, arg = some a → a.aggregate = false := by
    cases arg with
    | none => simp
    | some a => simp
  simp only [saveLeaf]
  split
  · next h => simp [hag.mp h]
  · next h =>
    have h' : ∀ a, arg = some a → a.aggregate = false := Classical.not_not.mp (fun hc => h (hag.mpr hc))
    cases x with
    | py p =>
      cases ht : w.tyOf p <;> simp only [ht] <;> (try simp [ht]) <;>
        (cases hp : w.ofPy p with
          | none => simp
          | some r => simp [hwr]; exact h')
    | npScalar d e => simp [hwr]; exact h'
    | np b d a =>
      rw [hwr]
      exact ⟨fun hn => ⟨h', .inr (.inr (.inl ⟨b, d, a, rfl, hn⟩))⟩, by
        rintro ⟨-, ⟨p, e, -⟩ | ⟨_, _, e⟩ | ⟨_, _, _, e, hn⟩ | ⟨_, _, e, -⟩ | ⟨_, _, _, e, -⟩⟩ <;> cases e
        exact hn⟩
    | jax d a s =>
      rw [hwr]
      exact ⟨fun hn => ⟨h', .inr (.inr (.inr (.inr ⟨d, a, s, rfl, hn⟩)))⟩, by
        rintro ⟨-, ⟨p, e, -⟩ | ⟨_, _, e⟩ | ⟨_, _, _, e, -⟩ | ⟨_, _, e, -⟩ | ⟨_, _, _, e, hn⟩⟩ <;> cases e
        exact hn⟩
    | arrayLike d a =>
      rw [hwr]
      exact ⟨fun hn => ⟨h', .inr (.inr (.inr (.inl ⟨d, a, rfl, hn⟩)))⟩, by
        rintro ⟨-, ⟨p, e, -⟩ | ⟨_, _, e⟩ | ⟨_, _, _, e, -⟩ | ⟨_, _, e, hn⟩ | ⟨_, _, _, e, -⟩⟩ <;> cases e
        exact hn⟩
    | other => simp

/-- A leaf restored to its own type is the leaf. -/
theorem readLeaf_own {w : World D E P S} (hw : Lawful w) {arg : Option (SaveArg D)} (h : ∀ a, arg = some a → a.dtype = none) {x : Leaf D E P S}
    {st : Stored D E S} (hs : saveLeaf w arg x = some st) (fallback : Option S) (strict : Bool) (hacc : accepted w (typeOf w x) = true)
    (hfit : ∀ d a s, x = .jax d a s → w.fits s a.shape = true) :
    ∃ s a v, targetSharding w fallback (some st) (typeOf w x) = some s ∧ restoreArg s (typeOf w x) = some a ∧
      readLeaf w st (setStrict strict a) = some v ∧ EqLeaf (plain x) v := by
  rcases saveLeaf_some h hs with ⟨p, d, e, rfl, hc, hp, rfl⟩ | ⟨d, e, rfl, rfl⟩ | ⟨b, d, a, rfl, rfl⟩ | ⟨d, a, rfl, rfl⟩ | ⟨d, a, s, rfl, rfl⟩
  · exact ⟨none, _, .py p, rfl, rfl, by simp [setStrict, readLeaf, openAs, hw.item p d e hp, hw.conv], rfl⟩
  · simp only [typeOf, accepted, decide_eq_true_eq] at hacc
    subst hacc
    exact ⟨none, _, .npScalar w.f64 e, rfl, rfl, by simp [setStrict, readLeaf, openAs, hw.f64], rfl⟩
  · exact ⟨none, _, .np false d a, rfl, rfl, by simp [setStrict, readLeaf, openAs, convert_self hw], EqLeaf.refl _⟩
  · cases hacc
  · have hf := hfit d a s rfl
    cases strict with
    | true => exact ⟨some s, _, .jax d a s, rfl, rfl, by simp [setStrict, readLeaf, hf, convert_self hw], EqLeaf.refl _⟩
    | false =>
      refine ⟨some s, _, .jax d ⟨a.shape, fun i => if inside a.shape i then w.cast d d (a.at_ i) else w.zero d⟩ s, rfl, rfl,
        by simp [setStrict, readLeaf, hf], ⟨_, rfl, rfl, ?_⟩⟩
      intro i hi
      simp [(inside_iff _ _).mpr hi, hw.cast]

theorem lookup_of_mem {α : Type} {l : List (String × α)} (hn : (l.map (·.1)).Nodup) {k : String} {x : α} (h : (k, x) ∈ l) : l.lookup k = some x := by
  induction l with
  | nil => cases h
  | cons p l ih =>
    obtain ⟨k', x'⟩ := p
    simp only [List.map_cons, List.nodup_cons] at hn
    rcases List.mem_cons.mp h with e | h
    · cases e; simp
    · have : k ≠ k' := by
        rintro rfl
        exact hn.1 (List.mem_map.mpr ⟨(k, x), by assumption, rfl⟩)
      rw [List.lookup_cons, beq_false_of_ne this]
      exact ih hn.2 h

theorem mem_of_lookup {α : Type} {l : List (String × α)} {k : String} {x : α} (h : l.lookup k = some x) : (k, x) ∈ l := by
  induction l with
  | nil => cases h
  | cons p l ih =>
    obtain ⟨k', x'⟩ := p
    rw [List.lookup_cons] at h
    split at h
    · next e => cases h; simp [eq_of_beq e]
    · simp [ih h]

theorem mapM_some_iff {α β : Type} {f : α → Option β} : ∀ {l : List α} {l' : List β}, l.mapM f = some l' ↔ List.Forall₂ (fun a b => f a = some b) l l'
  | [], l' => by
    cases l' with
    | nil => simp
    | cons => simp
  | a :: l, l' => by
    rw [List.mapM_cons]
    cases ha : f a with
    | none => simp [List.forall₂_cons_left_iff, ha]
    | some b =>
      cases l' with
      | nil => cases hl : l.mapM f <;> simp
      | cons b' l' =>
        have ih := mapM_some_iff (f := f) (l := l) (l' := l')
        simp only [List.forall₂_cons, ← ih, ha, Option.some.injEq]
        cases hl : l.mapM f <;> simp

/-- What is restored for one leaf of the target. -/
def leafTo (w : World D E P S) (fallback : Option S) (strict : Bool) (st : Stored D E S) (x : Target D S) : Option (Leaf D E P S) :=
  (targetSharding w fallback (some st) x).bind fun s => (restoreArg s x).bind fun a => readLeaf w st (setStrict strict a)

theorem restoreTo_iff {w : World D E P S} {fallback : Option S} {strict : Bool} {ckpt : List (String × Stored D E S)} {target : List (String × Target D S)}
    {out : List (String × Leaf D E P S)} :
    restoreTo w fallback strict ckpt target = some out ↔
      (∀ p ∈ target, accepted w p.2 = true) ∧ (∀ p ∈ target, (ckpt.lookup p.1).isSome) ∧ (∀ p ∈ ckpt, (target.lookup p.1).isSome) ∧
      List.Forall₂ (fun p q => q.1 = p.1 ∧ ∃ st, ckpt.lookup p.1 = some st ∧ leafTo w fallback strict st p.2 = some q.2) target out := by
  unfold restoreTo
  by_cases h1 : ∀ p ∈ target, accepted w p.2 = true
  swap
  · have : (target.all fun p => accepted w p.2) = false := by
      rw [Bool.eq_false_iff]; intro h; exact h1 (List.all_eq_true.mp h)
    simp only [this, Bool.not_false, if_true]
    exact Iff.intro (fun h => nomatch h) (fun h => absurd h.1 h1)
  rw [if_neg (by simpa using h1)]
  rw [and_iff_right h1]
  by_cases h2 : (∀ p ∈ target, (ckpt.lookup p.1).isSome) ∧ (∀ p ∈ ckpt, (target.lookup p.1).isSome)
  swap
  · have : (target.all (fun p => (ckpt.lookup p.1).isSome) && ckpt.all (fun p => (target.lookup p.1).isSome)) = false := by
      rw [Bool.eq_false_iff]; intro h
      rw [Bool.and_eq_true, List.all_eq_true, List.all_eq_true] at h
      exact h2 h
    simp only [this, Bool.not_false, if_true]
    constructor
    · intro h; obtain ⟨_, -, h'⟩ := Option.bind_eq_some_iff.mp h; cases h'
    · rintro ⟨a, b, -⟩; exact absurd ⟨a, b⟩ h2
  have : (target.all (fun p => (ckpt.lookup p.1).isSome) && ckpt.all (fun p => (target.lookup p.1).isSome)) = true := by
    rw [Bool.and_eq_true, List.all_eq_true, List.all_eq_true]; exact h2
  simp only [this, Bool.not_true, if_false, Bool.false_eq_true, Option.bind_eq_some_iff, mapM_some_iff]
  constructor
  · rintro ⟨args, ha, ho⟩
    refine ⟨h2.1, h2.2, ?_⟩
    clear h1 h2 this
    induction ha generalizing out with
    | nil => cases ho; exact .nil
    | @cons p q t args hd _ ih =>
      obtain ⟨k, x⟩ := p
      rcases ho with _ | ⟨hq, ho⟩
      refine .cons ?_ (ih ho)
      simp only [Option.map_eq_some_iff] at hd hq
      obtain ⟨s, hs, a, ha, rfl⟩ := hd
      obtain ⟨st, hst, v, hv, rfl⟩ := hq
      refine ⟨rfl, st, hst, ?_⟩
      rw [hst] at hs
      simp [leafTo, hs, ha, hv]
  · rintro ⟨-, -, h⟩
    clear h1 h2 this
    induction h with
    | nil => exact ⟨[], .nil, .nil⟩
    | @cons p q t out hd _ ih =>
      obtain ⟨k, x⟩ := p
      obtain ⟨k', v⟩ := q
      obtain ⟨rfl, st, hst, hv⟩ := hd
      simp only [leafTo, Option.bind_eq_some_iff] at hv
      obtain ⟨s, hs, a, ha, hv⟩ := hv
      obtain ⟨args, h1, h2⟩ := ih
      refine ⟨(k', a) :: args, .cons ?_ h1, .cons ?_ h2⟩
      · simp only at hst; simp [hst, hs, ha]
      · simp only at hst; simp [hst, hv]

omit [DecidableEq D] in
theorem holds_self (w : World D E P S) (st : Stored D E S) (d : D) : Holds w st d (convert w st.d d st.a) := by
  intro i hi
  rw [if_pos (show Pos st.a.shape i from hi)]; rfl

omit [DecidableEq D] in
theorem holds_pad (w : World D E P S) (st : Stored D E S) (d : D) (g : List Nat) :
    Holds w st d ⟨g, fun i => if inside st.a.shape i then w.cast st.d d (st.a.at_ i) else w.zero d⟩ := by
  intro i _
  by_cases hp : Pos st.a.shape i
  · simp [hp, (inside_iff _ _).mpr hp]
  · have : inside st.a.shape i = false := by rw [Bool.eq_false_iff]; exact fun h => hp ((inside_iff _ _).mp h)
    simp [hp, this]

/-- Reading into a sharding. -/
theorem readArray_iff {w : World D E P S} {st : Stored D E S} {s : S} {g : List Nat} {d : D} {strict : Bool} :
    (w.fits s g = true ∧ st.a.shape.length = g.length ∧ (strict = true → st.a.shape = g) ↔
      (readLeaf w st (setStrict strict (.array s g d true))).isSome) ∧
    ∀ v, readLeaf w st (setStrict strict (.array s g d true)) = some v →
      ∃ a', v = .jax d a' s ∧ a'.shape = g ∧ w.fits s g = true ∧ st.a.shape.length = g.length ∧ (strict = true → st.a.shape = g) ∧ Holds w st d a' := by
  cases hf : w.fits s g with
  | false => simp [setStrict, readLeaf, hf]
  | true =>
    cases strict with
    | true =>
      by_cases hg : st.a.shape = g
      · simp only [setStrict, readLeaf, hf, hg]
        refine ⟨by simp, ?_⟩
        rintro v hv
        cases hv
        exact ⟨_, rfl, hg, trivial, trivial, fun _ => trivial, holds_self w st d⟩
      · simp [setStrict, readLeaf, hf, hg]
    | false =>
      by_cases hg : st.a.shape.length = g.length
      · simp only [setStrict, readLeaf, hf, hg]
        refine ⟨by simp, ?_⟩
        rintro v hv
        cases hv
        exact ⟨_, rfl, rfl, trivial, trivial, by simp, holds_pad w st d g⟩
      · simp [setStrict, readLeaf, hf, hg]

/-- C89: what is restored for a leaf of the target is what the kind of target asks for. -/
theorem leafTo_sound {w : World D E P S} {fallback : Option S} {strict : Bool} {st : Stored D E S} {x : Target D S} {v : Leaf D E P S}
    (h : leafTo w fallback strict st x = some v) : Restored w fallback strict st x v := by
  unfold leafTo at h
  cases x with
  | py t =>
    simp only [targetSharding, restoreArg, setStrict, readLeaf, openAs, Option.bind_some] at h
    split at h
    · next hs =>
      obtain ⟨p, hp, rfl⟩ := Option.map_eq_some_iff.mp h
      exact .py t p hs hp
    · cases h
  | npScalar d =>
    simp only [targetSharding, restoreArg, setStrict, readLeaf, openAs, Option.bind_some] at h
    split at h
    · next hs =>
      obtain ⟨p, hp, rfl⟩ := Option.map_eq_some_iff.mp h
      exact .f64 d p hs hp
    · cases h
  | np d shape =>
    simp only [targetSharding, restoreArg, setStrict, readLeaf, openAs, Option.bind_some, Option.some.injEq] at h
    subst h
    exact .np d shape _ rfl (holds_self w st d)
  | jax d shape s =>
    simp only [targetSharding, restoreArg, Option.getD_some, Option.bind_some] at h
    obtain ⟨a', rfl, h1, h2, h3, h4, h5⟩ := readArray_iff.2 v h
    exact .jax d shape s a' h1 h2 h3 h4 h5
  | struct d shape os =>
    cases os with
    | some s =>
      simp only [targetSharding, restoreArg, Option.bind_some] at h
      obtain ⟨a', rfl, h1, h2, h3, h4, h5⟩ := readArray_iff.2 v h
      exact .struct d shape s a' h1 h2 h3 h4 h5
    | none =>
      simp only [targetSharding, Option.bind_some] at h
      by_cases hk : st.kind = .jax
      · cases hs : st.sharding with
        | none =>
          simp only [metaSharding, hk, hs, restoreArg, setStrict, readLeaf, openAs, Option.bind_some, Option.some.injEq] at h
          subst h
          exact .unsharded d shape _ (fun _ => hs) rfl (holds_self w st d)
        | some s =>
          cases hav : w.available s with
          | true =>
            simp only [metaSharding, hk, hs, hav, if_true, restoreArg, Option.bind_some] at h
            obtain ⟨a', rfl, h1, h2, h3, h4, h5⟩ := readArray_iff.2 v h
            exact .saved d shape s s a' hk hs (.inl ⟨hav, rfl⟩) h1 h2 h3 h4 h5
          | false =>
            cases fallback with
            | none => simp [metaSharding, hk, hs, hav] at h
            | some f =>
              simp only [metaSharding, hk, hs, hav, Bool.false_eq_true, if_false, restoreArg, Option.bind_some, Option.map_some] at h
              obtain ⟨a', rfl, h1, h2, h3, h4, h5⟩ := readArray_iff.2 v h
              exact .saved d shape s f a' hk hs (.inr ⟨hav, rfl⟩) h1 h2 h3 h4 h5
      · have : metaSharding w fallback st = some none := by
          unfold metaSharding
          cases hk' : st.kind <;> simp_all
        simp only [this, restoreArg, setStrict, readLeaf, openAs, Option.bind_some, Option.some.injEq] at h
        subst h
        exact .unsharded d shape _ (fun h => absurd h hk) rfl (holds_self w st d)
  | metadata => simp [targetSharding, restoreArg] at h
  | other => simp [targetSharding, restoreArg] at h

/-- Whatever is possible is restored. -/
theorem leafTo_complete {w : World D E P S} {fallback : Option S} {strict : Bool} {st : Stored D E S} {x : Target D S} {v : Leaf D E P S}
    (h : Restored w fallback strict st x v) : (leafTo w fallback strict st x).isSome := by
  unfold leafTo
  cases h with
  | py t p hs hp => simp [targetSharding, restoreArg, setStrict, readLeaf, openAs, hs, hp]
  | f64 d e hs hp => simp [targetSharding, restoreArg, setStrict, readLeaf, openAs, hs, hp]
  | np d shape a' h1 h2 => simp [targetSharding, restoreArg, setStrict, readLeaf]
  | jax d shape s a' h1 h2 h3 h4 h5 =>
    simp only [targetSharding, restoreArg, Option.getD_some, Option.bind_some]
    exact readArray_iff.1.mp ⟨h2, h3, h4⟩
  | struct d shape s a' h1 h2 h3 h4 h5 =>
    simp only [targetSharding, restoreArg, Option.bind_some]
    exact readArray_iff.1.mp ⟨h2, h3, h4⟩
  | saved d shape s s' a' hk hs ha h1 h2 h3 h4 h5 =>
    have : metaSharding w fallback st = some (some s') := by
      rcases ha with ⟨ha, rfl⟩ | ⟨ha, hf⟩
      · simp [metaSharding, hk, hs, ha]
      · simp [metaSharding, hk, hs, ha, hf]
    simp only [targetSharding, restoreArg, Option.bind_some, this]
    exact readArray_iff.1.mp ⟨h2, h3, h4⟩
  | unsharded d shape a' hk h1 h2 =>
    have : metaSharding w fallback st = some none := by
      unfold metaSharding
      cases hk' : st.kind <;> simp_all
    simp [targetSharding, restoreArg, this, setStrict, readLeaf]

end Verif.Handlers.Standard
