import Verif.Handlers.Json

/-!
# What can be expected of JSON checkpointables

Only the values are taken from the model; the relations below do not mention its functions.
-/

namespace Verif.Handlers.Json.Spec

open Verif.Handlers.Json

/-- An entry of a dictionary. -/
inductive Entry : Dict → Key → Val → Prop where
  | head (k v r) : Entry (.cons k v r) k v
  | tail {k v r} (k' v') : Entry r k v → Entry (.cons k' v' r) k v

/-- No key occurs twice. (Always so in Python.) -/
inductive Distinct : Dict → Prop where
  | nil : Distinct .nil
  | cons {k v r} : (∀ w, ¬ Entry r k w) → Distinct r → Distinct (.cons k v r)

mutual
/-- A value made of `None`, booleans, numbers, strings, lists, and dictionaries with strings as keys. -/
inductive Native : Val → Prop where
  | none : Native .none
  | bool (b) : Native (.bool b)
  | int (i) : Native (.int i)
  | float (r) : Native (.float r)
  | str (s) : Native (.str s)
  | list {xs} : NativeSeq xs → Native (.list xs)
  | dict {d} : Distinct d → NativeDict d → Native (.dict d)
inductive NativeSeq : Seq → Prop where
  | nil : NativeSeq .nil
  | cons {v r} : Native v → NativeSeq r → NativeSeq (.cons v r)
inductive NativeDict : Dict → Prop where
  | nil : NativeDict .nil
  | cons {v r} (s : String) : Native v → NativeDict r → NativeDict (.cons (.str s) v r)
end

/-- The name under which a key appears in a document. -/
inductive Named : Key → String → Prop where
  | str (s) : Named (.str s) s
  | int (i : Int) : Named (.int i) (toString i)
  | tru : Named (.bool true) "true"
  | fls : Named (.bool false) "false"
  | none : Named .none "null"
  | float (r) : Named (.float r) r

/-- The last entry of a dictionary with a name has the value. -/
inductive Last : Dict → String → Val → Prop where
  | here {k v r s} : Named k s → (∀ k' w, Entry r k' w → ¬ Named k' s) → Last (.cons k v r) s v
  | later {r s v} (k' v') : Last r s v → Last (.cons k' v' r) s v

mutual
/-- The second value is what one gets for the first: a tuple is a list, a key is its name, and of entries with the
same name the last counts. -/
inductive Reads : Val → Val → Prop where
  | none : Reads .none .none
  | bool (b) : Reads (.bool b) (.bool b)
  | int (i) : Reads (.int i) (.int i)
  | float (r) : Reads (.float r) (.float r)
  | str (s) : Reads (.str s) (.str s)
  | list {xs ys} : ReadsSeq xs ys → Reads (.list xs) (.list ys)
  | tuple {xs ys} : ReadsSeq xs ys → Reads (.tuple xs) (.list ys)
  | dict {d e} (f : String → Val) :
    Distinct e →
    (∀ k w, Entry e k w → ∃ s, k = .str s ∧ Last d s (f s)) →
    (∀ s w, Entry e (.str s) w → Reads (f s) w) →
    (∀ k v, Entry d k v → ∃ s w, Named k s ∧ Entry e (.str s) w) →
    Reads (.dict d) (.dict e)
inductive ReadsSeq : Seq → Seq → Prop where
  | nil : ReadsSeq .nil .nil
  | cons {v w xs ys} : Reads v w → ReadsSeq xs ys → ReadsSeq (.cons v xs) (.cons w ys)
end

end Verif.Handlers.Json.Spec
