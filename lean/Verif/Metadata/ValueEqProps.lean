import Verif.Metadata.ValueEq

/-! C141: when the metadata of two values are equal. -/

namespace Verif.Metadata.ValueEq

variable {N S D T V : Type} [DecidableEq N] [DecidableEq S] [DecidableEq D] [DecidableEq T] [DecidableEq V]

/-- Specification: metadata of an array, a scalar or a string. -/
def OfValue (a : Obj N S D T V) : Prop := a.cls = .array ∨ a.cls = .scalar ∨ a.cls = .string

/-- Specification: two metadata describe values alike, wherever they are stored. -/
def Alike (a b : Obj N S D T V) : Prop :=
  (a.cls = .array ∧ b.cls = .array ∧ a.shape = b.shape ∧ a.sharding = b.sharding ∧ a.dtype = b.dtype ∧ a.storage = b.storage) ∨
  (a.cls = .scalar ∧ b.cls = .scalar ∧ a.dtype = b.dtype) ∨
  (a.cls = .string ∧ b.cls = .string)

/-- C141: metadata of arrays, scalars and strings are equal exactly if they are of one kind and, for arrays, agree in shape, sharding, type and stored
form, for scalars in type; names and directories do not matter. -/
theorem C141_alike (same : Bool) (a b : Obj N S D T V) (ha : OfValue a) (hb : OfValue b) : eq same a b = true ↔ Alike a b := by
  unfold OfValue at ha hb
  unfold eq method Alike
  rcases ha with h | h | h <;> rcases hb with h' | h' | h' <;> simp [h, h', isSub, and_assoc]

/-- C141: an array and a scalar are never equal, not even if shape and type agree, whichever is on the left. -/
theorem C141_array_scalar (same : Bool) (a b : Obj N S D T V) (ha : a.cls = .array) (hb : b.cls = .scalar) :
    eq same a b = false ∧ eq same b a = false := by
  unfold eq method
  simp [ha, hb, isSub]

/-- C141: among metadata of arrays, scalars and strings equality is an equivalence. -/
theorem C141_equivalence (s1 s2 s3 : Bool) (a b c : Obj N S D T V) (ha : OfValue a) (hb : OfValue b) (hc : OfValue c) :
    eq s1 a a = true ∧ (eq s1 a b = true → eq s2 b a = true) ∧ (eq s1 a b = true → eq s2 b c = true → eq s3 a c = true) := by
  rw [C141_alike _ a a ha ha, C141_alike _ a b ha hb, C141_alike _ b a hb ha, C141_alike _ b c hb hc, C141_alike _ a c ha hc]
  unfold Alike
  refine ⟨?_, ?_, ?_⟩
  · rcases ha with h | h | h <;> simp [h]
  · rintro (⟨h1, h2, h3, h4, h5, h6⟩ | ⟨h1, h2, h3⟩ | ⟨h1, h2⟩)
    · exact .inl ⟨h2, h1, h3.symm, h4.symm, h5.symm, h6.symm⟩
    · exact .inr (.inl ⟨h2, h1, h3.symm⟩)
    · exact .inr (.inr ⟨h2, h1⟩)
  · rintro (⟨h1, h2, h3, h4, h5, h6⟩ | ⟨h1, h2, h3⟩ | ⟨h1, h2⟩) (⟨k1, k2, k3, k4, k5, k6⟩ | ⟨k1, k2, k3⟩ | ⟨k1, k2⟩)
    · exact .inl ⟨h1, k2, h3.trans k3, h4.trans k4, h5.trans k5, h6.trans k6⟩
    · rw [h2] at k1; cases k1
    · rw [h2] at k1; cases k1
    · rw [h2] at k1; cases k1
    · exact .inr (.inl ⟨h1, k2, h3.trans k3⟩)
    · rw [h2] at k1; cases k1
    · rw [h2] at k1; cases k1
    · rw [h2] at k1; cases k1
    · exact .inr (.inr ⟨h1, k2⟩)

/-- C141: for all classes equality is reflexive and does not depend on the side, and some method always decides. -/
theorem C141_symmetric (s1 s2 : Bool) (a b : Obj N S D T V) : eq s1 a b = eq s2 b a ∧ eq s1 a a = true := by
  unfold eq method
  have e1 : decide (a.shape = b.shape) = decide (b.shape = a.shape) := decide_eq_decide.2 eq_comm
  have e2 : decide (a.sharding = b.sharding) = decide (b.sharding = a.sharding) := decide_eq_decide.2 eq_comm
  have e3 : decide (a.dtype = b.dtype) = decide (b.dtype = a.dtype) := decide_eq_decide.2 eq_comm
  have e4 : decide (a.storage = b.storage) = decide (b.storage = a.storage) := decide_eq_decide.2 eq_comm
  have e5 : decide (a.name = b.name) = decide (b.name = a.name) := decide_eq_decide.2 eq_comm
  have e6 : decide (a.directory = b.directory) = decide (b.directory = a.directory) := decide_eq_decide.2 eq_comm
  have e7 : decide (a.v1 = b.v1) = decide (b.v1 = a.v1) := decide_eq_decide.2 eq_comm
  rw [e1, e2, e3, e4, e5, e6, e7]
  cases ha : a.cls <;> cases hb : b.cls <;> simp [isSub]

/-- C141: wrapped metadata of the newer interface are equal exactly if name, directory and content are, and never equal to metadata of arrays, scalars or
strings. -/
theorem C141_wrapped (same : Bool) (a b : Obj N S D T V) (ha : a.cls = .v0) :
    (b.cls = .v0 → (eq same a b = true ↔ a.name = b.name ∧ a.directory = b.directory ∧ a.v1 = b.v1)) ∧
    (OfValue b → eq same a b = false) := by
  refine ⟨fun hb => ?_, fun hb => ?_⟩
  · unfold eq method; simp [ha, hb, isSub, and_assoc]
  · unfold OfValue at hb
    unfold eq method
    rcases hb with h | h | h <;> simp [ha, h, isSub]

/-- C141 (finding): plain metadata are equal to each other, and to wrapped metadata, whatever these hold; so two wrapped metadata that differ are
equal to a third object: equality is not transitive. -/
theorem C141_plain_fails (same : Bool) (a b c : Obj N S D T V) (hb : b.cls = .base) :
    (a.cls = .base ∨ a.cls = .v0 → eq same a b = true) ∧
    (a.cls = .v0 → c.cls = .v0 → a.v1 ≠ c.v1 → eq same a b = true ∧ eq same b c = true ∧ eq same a c = false) := by
  refine ⟨?_, ?_⟩
  · rintro (h | h) <;> unfold eq method <;> simp [h, hb, isSub]
  · intro h h' hne
    unfold eq method
    simp [h, h', hb, isSub, hne]

/-- C141 (finding): metadata of scalars that are stored differently are equal, where metadata of arrays are not. -/
theorem C141_scalar_storage_fails (same : Bool) (a : Obj N S D T V) (s t : Option T) (h : s ≠ t) :
    eq same { a with cls := .scalar, storage := s } { a with cls := .scalar, storage := t } = true ∧
    eq same { a with cls := .array, storage := s } { a with cls := .array, storage := t } = false := by
  unfold eq method
  simp [isSub, h]

/-- Two arrays under different names, and a scalar of the same type. -/
theorem C141_nonvacuous :
    (let a : Obj Nat Nat Nat Nat Nat := ⟨.array, 1, 1, [4, 2], none, some 32, none, 0⟩
     eq false a { a with name := 2, directory := 3 } = true ∧ eq false a { a with shape := [2, 4] } = false ∧
       eq false { a with shape := [] } { a with cls := .scalar, shape := [] } = false ∧ OfValue a ∧ Alike a { a with name := 2 }) := by
  refine ⟨by decide, by decide, by decide, .inl rfl, .inl ⟨rfl, rfl, rfl, rfl, rfl, rfl⟩⟩

end Verif.Metadata.ValueEq
