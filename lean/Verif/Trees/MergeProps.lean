import Verif.Trees.Merge
import Verif.Trees.TrimProps

/-!
# Property C45: `merge_trees`: later trees win, nothing is lost
-/

namespace Verif.Trees

open Verif
open scoped List

/-! ### Specification -/

/-- Where both trees have nodes other than `None`, these are of the same kind, and unless they are dictionaries they
have the same keys. -/
def Compat {α β} (t : Tree α) (s : Tree β) : Prop :=
  ∀ p kd f kd' g, t.at_ p = some (.node kd f) → s.at_ p = some (.node kd' g) → kd ≠ .none → kd' ≠ .none →
    kd = kd' ∧ (kd ≠ .dict → f.keys = g.keys)

/-- The tree says what is at the path: it has a leaf there or above, or a node other than `None` there. -/
def Overrides {α} (t : Tree α) (q : List Key) : Prop :=
  (∃ p a, p <+: q ∧ t.at_ p = some (.leaf a)) ∨ ∃ kd f, kd ≠ .none ∧ t.at_ q = some (.node kd f)

/-- A leaf or `None`. -/
def Tree.Entry {α} : Tree α → Prop
  | .leaf _ => True
  | .node kd _ => kd = .none

mutual
/-- Nodes of the same class have the same keys. -/
def Tree.Typed {α} (fields : Kind → List Key) : Tree α → Prop
  | .leaf _ => True
  | .node kd f => (∀ n, (kd = .named n ∨ kd = .custom n) → f.keys = fields kd) ∧ f.Typed fields
def Forest.Typed {α} (fields : Kind → List Key) : Forest α → Prop
  | .nil => True
  | .cons _ t r => t.Typed fields ∧ r.Typed fields
end

/-! ### Lemmas -/

theorem seqFrom_keys_eq {l m : List Key} (h : SeqFrom Key.seq 0 l) (h' : SeqFrom Key.seq 0 m) (e : l.length = m.length) : l = m := by
  apply List.ext_getElem? 
  intro i
  rcases Nat.lt_or_ge i l.length with hi | hi
  · rw [seqFrom_get l 0 i h hi, seqFrom_get m 0 i h' (by omega)]
  · rw [List.getElem?_eq_none hi, List.getElem?_eq_none (by omega)]

theorem asDict_eq {α} : ∀ (g : Forest α), (∀ k ∈ g.keys, ∃ n, k = .dict (.str n)) → g.asDict = g
  | .nil, _ => rfl
  | .cons k t r, h => by
    obtain ⟨n, rfl⟩ := h k List.mem_cons_self
    simp only [Forest.asDict, Key.asDict]
    rw [asDict_eq r (fun k' hk' => h k' (List.mem_cons_of_mem _ hk'))]

theorem find_dict {α} : ∀ (g : Forest α), (∀ k ∈ g.keys, ∃ n, k = .dict (.str n)) → ∀ n, g.find (Key.raw (.dict (.str n))) = g.get (.dict (.str n))
  | .nil, _, n => rfl
  | .cons k t r, h, n => by
    obtain ⟨m, rfl⟩ := h k List.mem_cons_self
    simp only [Forest.find, Forest.get, Key.raw, Atom.str.injEq, Key.dict.injEq]
    rw [← find_dict r (fun k' hk' => h k' (List.mem_cons_of_mem _ hk')) n]
    rfl

theorem put_keys {α} : ∀ (g : Forest α) (k : Key) (v : Tree α), (g.put k v).keys = if k ∈ g.keys then g.keys else g.keys ++ [k]
  | .nil, k, v => rfl
  | .cons k' t r, k, v => by
    simp only [Forest.put, Forest.keys]
    by_cases e : k' = k
    · subst e; simp [Forest.keys]
    · simp only [e, if_false, Forest.keys, put_keys r k v]
      by_cases h : k ∈ r.keys
      · simp [h]
      · simp [h, Ne.symm e]

theorem update_spec {α} : ∀ (F g : Forest α), (∀ k ∈ F.keys, ∃ n, k = .dict (.str n)) → (∀ k ∈ g.keys, ∃ n, k = .dict (.str n)) →
    F.keys.Nodup → g.keys.Nodup →
    (∀ k, (g.update F).get k = (F.get k).or (g.get k)) ∧ (g.update F).keys.Nodup ∧ ∀ k ∈ (g.update F).keys, ∃ n, k = .dict (.str n)
  | .nil, g, _, hg, _, hn => ⟨fun k => rfl, hn, hg⟩
  | .cons k t r, g, hF, hg, hnF, hn => by
    simp only [Forest.keys, List.nodup_cons] at hnF
    obtain ⟨n, rfl⟩ := hF k List.mem_cons_self
    simp only [Forest.update, Key.asDict]
    obtain ⟨h1, h2, h3⟩ := update_spec r (g.put (.dict (.str n)) t) (fun k' hk' => hF k' (List.mem_cons_of_mem _ hk'))
      (by
        intro k' hk'
        rw [put_keys] at hk'
        split at hk'
        · exact hg k' hk'
        · rcases List.mem_append.mp hk' with h | h
          · exact hg k' h
          · exact ⟨n, List.mem_singleton.mp h⟩)
      hnF.2 (by
        rw [put_keys]
        split
        · exact hn
        · next h =>
          rw [List.nodup_append]
          refine ⟨hn, by simp, ?_⟩
          intro a ha b hb e
          rw [List.mem_singleton] at hb
          subst hb e
          exact h ha)
    refine ⟨?_, h2, h3⟩
    intro k'
    rw [h1]
    simp only [Forest.get]
    by_cases e : Key.dict (.str n) = k'
    · subst e
      rw [Forest.put_get_self, if_pos rfl, Forest.get_none.mpr hnF.1]
      rfl
    · rw [if_neg e, Forest.put_get_ne _ _ (Ne.symm e)]

theorem mergeWith_get {α} {ow : Bool} {st : α → α → Bool} {look : Key → Option (Tree α)} : ∀ {f F : Forest α}, f.mergeWith ow st look = some F →
    F.keys = f.keys ∧ ∀ k t, f.get k = some t → (look k = none → F.get k = some t) ∧
      ∀ c, look k = some c → ∃ t', t.merge ow st c = some t' ∧ F.get k = some t'
  | .nil, F, h => by
    cases h
    exact ⟨rfl, by simp [Forest.get]⟩
  | .cons k t r, F, h => by
    simp only [Forest.mergeWith] at h
    cases hk : look k with
    | none =>
      simp only [hk, Option.map_eq_some_iff] at h
      obtain ⟨r', h1, rfl⟩ := h
      obtain ⟨h2, h3⟩ := mergeWith_get h1
      refine ⟨by simp [Forest.keys, h2], ?_⟩
      intro k' t' ht'
      simp only [Forest.get] at ht' ⊢
      by_cases e : k = k'
      · subst e
        simp only [if_true, Option.some.injEq] at ht' ⊢
        subst ht'
        exact ⟨fun _ => rfl, by rw [hk]; simp⟩
      · simp only [e, if_false] at ht' ⊢
        exact h3 k' t' ht'
    | some c =>
      simp only [hk, Option.bind_eq_bind, Option.bind_eq_some_iff, Option.pure_def, Option.some.injEq] at h
      obtain ⟨t1, h0, r', h1, rfl⟩ := h
      obtain ⟨h2, h3⟩ := mergeWith_get h1
      refine ⟨by simp [Forest.keys, h2], ?_⟩
      intro k' t' ht'
      simp only [Forest.get] at ht' ⊢
      by_cases e : k = k'
      · subst e
        simp only [if_true, Option.some.injEq] at ht' ⊢
        subst ht'
        refine ⟨by rw [hk]; simp, ?_⟩
        intro c' hc'
        rw [hk] at hc'
        cases hc'
        exact ⟨t1, h0, rfl⟩
      · simp only [e, if_false] at ht' ⊢
        exact h3 k' t' ht'

/-- The children of a merged node. -/
structure Merged {α} (ow : Bool) (st : α → α → Bool) (kd : Kind) (f g R : Forest α) : Prop where
  both : ∀ k a b, f.get k = some a → g.get k = some b → ∃ c, a.merge ow st b = some c ∧ R.get k = some c
  left : ∀ k a, f.get k = some a → g.get k = none → R.get k = some a
  right : ∀ k, f.get k = none → R.get k = g.get k
  keys : kd ≠ .dict → R.keys = f.keys
  wf : KeysWf kd R.keys
  nodup : (R.keys.map Key.str).Nodup

theorem str_nodup_of_dict {l : List Key} (h : ∀ k ∈ l, ∃ n, k = .dict (.str n)) (hn : l.Nodup) : (l.map Key.str).Nodup := by
  simp only [List.Nodup, List.pairwise_map] at hn ⊢
  refine List.Pairwise.imp_of_mem (fun {a b} ha hb hab e => ?_) hn
  obtain ⟨n, rfl⟩ := h a ha
  obtain ⟨m, rfl⟩ := h b hb
  have : n = m := e
  exact hab (by rw [this])

/-- The look-up that merging two nodes of the same kind uses. -/
def lookFor {α} (kd : Kind) (f g : Forest α) : Key → Option (Tree α) := match kd with
  | .dict => fun k => g.find k.raw
  | .named _ => fun k => g.find k.raw
  | .list => fun k => (Assoc.get (zipped f g) k).map (·.2)
  | .tuple => fun k => (Assoc.get (zipped f g) k).map (·.2)
  | .custom _ => fun k => (Assoc.get (g.entries cleanKey) (cleanKey k)).map (·.2)
  | .none => fun _ => none

theorem lookFor_eq {α} {kd : Kind} {f g : Forest α} (hf : (Tree.node kd f).Wf) (hg : (Tree.node kd g).Wf) (hkd : kd ≠ .none)
    (hk : kd ≠ .dict → f.keys = g.keys) : ∀ k ∈ f.keys, lookFor kd f g k = g.get k := by
  intro k hkf
  have hzip : f.keys = g.keys → (Assoc.get (zipped f g) k).map (·.2) = g.get k := by
    intro e
    cases hc : g.get k with
    | none => exact absurd (by rw [← e]; exact hkf) (Forest.get_none.mp hc)
    | some c =>
      obtain ⟨i, hi⟩ := List.mem_iff_getElem?.mp hkf
      rw [(get_zipped f g (nodup_of_map hf.2.1) (nodup_of_map hg.2.1) k k c).mpr ⟨hc, i, hi, by rw [← e]; exact hi⟩]
      rfl
  cases kd with
  | none => exact absurd rfl hkd
  | dict =>
    obtain ⟨n, rfl⟩ := hf.1 k hkf
    exact find_dict g hg.1 n
  | named n => exact find_raw g hg.2.1 k (by rw [← hk (by simp)]; exact hkf)
  | list => exact hzip (hk (by simp))
  | tuple => exact hzip (hk (by simp))
  | custom n =>
    have e := hk (by simp)
    simp only [lookFor]
    cases hc : g.get k with
    | none => exact absurd (by rw [← e]; exact hkf) (Forest.get_none.mp hc)
    | some c =>
      have hn : (g.keys.map cleanKey).Nodup := by
        have := hg.2.1
        simp only [List.Nodup, List.pairwise_map] at this ⊢
        exact this.imp (fun h e => h (by simpa [cleanKey] using e))
      rw [(get_entries cleanKey g hn (cleanKey k) k c).mpr ⟨hc, rfl⟩]
      rfl

/-- The result from the merged children. -/
def build {α} (kd : Kind) (g m : Forest α) : Tree α := match kd with
  | .dict => .node .dict (g.update m)
  | kd => .node kd m

theorem merge_same {α} {ow : Bool} {st : α → α → Bool} {kd : Kind} {f g : Forest α} (hf : (Tree.node kd f).Wf) (hg : (Tree.node kd g).Wf)
    (hkd : kd ≠ .none) (hk : kd ≠ .dict → f.keys = g.keys) :
    (Tree.node kd f).merge ow st (.node kd g) = (f.mergeWith ow st (lookFor kd f g)).map (build kd g) := by
  have hlen : kd ≠ .dict → ¬ f.length ≠ g.length := by
    intro h; rw [Forest.length_keys, Forest.length_keys, hk h]; simp
  have hkk : ¬ (kd ≠ kd ∧ ow = false) := by simp
  rw [Tree.merge.eq_def]
  simp only [if_neg hkk, if_neg hkd]
  cases kd with
  | none => exact absurd rfl hkd
  | dict => simp only [Kind.isMap, if_true, lookFor, asDict_eq g hg.1]; rfl
  | named n =>
    have hall : (g.keys.all fun l => (f.keys.map Key.raw).contains l.raw) = true := by
      rw [List.all_eq_true]
      intro l hl
      rw [List.contains_iff_mem, hk (by simp)]
      exact List.mem_map_of_mem hl
    simp only [Kind.isMap, if_true, lookFor, hall]
    rfl
  | list => simp only [Kind.isSeq, if_true, lookFor, if_neg (hlen (by simp))]; rfl
  | tuple => simp only [Kind.isSeq, if_true, lookFor, if_neg (hlen (by simp))]; rfl
  | custom n => rfl

theorem merge_node {α} {ow : Bool} {st : α → α → Bool} {kd : Kind} {f g : Forest α} {r : Tree α} (hf : (Tree.node kd f).Wf)
    (hg : (Tree.node kd g).Wf) (hkd : kd ≠ .none) (hk : kd ≠ .dict → f.keys = g.keys) (h : (Tree.node kd f).merge ow st (.node kd g) = some r) :
    ∃ R, r = .node kd R ∧ Merged ow st kd f g R := by
  rw [merge_same hf hg hkd hk, Option.map_eq_some_iff] at h
  obtain ⟨m, h1, rfl⟩ := h
  have hl := lookFor_eq hf hg hkd hk
  obtain ⟨h2, h3⟩ := mergeWith_get h1
  have both : ∀ k a b, f.get k = some a → g.get k = some b → ∃ c, a.merge ow st b = some c ∧ m.get k = some c := by
    intro k a b ha hb
    exact (h3 k a ha).2 b (by rw [hl k (Forest.get_mem ha)]; exact hb)
  have left : ∀ k a, f.get k = some a → g.get k = none → m.get k = some a := by
    intro k a ha hb
    exact (h3 k a ha).1 (by rw [hl k (Forest.get_mem ha)]; exact hb)
  have hnone : ∀ k, f.get k = none → m.get k = none := by
    intro k hk'
    rw [Forest.get_none] at hk' ⊢
    rw [h2]; exact hk'
  by_cases hd : kd = .dict
  · subst hd
    have hm : ∀ k ∈ m.keys, ∃ n, k = .dict (.str n) := by rw [h2]; exact hf.1
    obtain ⟨h4, h5, h6⟩ := update_spec m g hm hg.1 (by rw [h2]; exact nodup_of_map hf.2.1) (nodup_of_map hg.2.1)
    refine ⟨_, rfl, ?_, ?_, ?_, by simp, h6, str_nodup_of_dict h6 h5⟩
    · intro k a b ha hb
      obtain ⟨c, h7, h8⟩ := both k a b ha hb
      exact ⟨c, h7, by rw [h4, h8]; rfl⟩
    · intro k a ha hb
      rw [h4, left k a ha hb]; rfl
    · intro k hk'
      rw [h4, hnone k hk']; rfl
  · have hb : build kd g m = .node kd m := by
      cases kd <;> first | exact absurd rfl hd | rfl
    refine ⟨m, hb, both, left, ?_, fun _ => h2, by rw [h2]; exact hf.1, by rw [h2]; exact hf.2.1⟩
    intro k hk'
    rw [hnone k hk']
    rw [Forest.get_none, hk hd, ← Forest.get_none] at hk'
    exact hk'.symm

theorem forest_wf_of_get {α} : ∀ {f : Forest α}, f.keys.Nodup → (∀ k c, f.get k = some c → c.Wf) → f.Wf
  | .nil, _, _ => trivial
  | .cons k t r, hn, h => by
    simp only [Forest.keys, List.nodup_cons] at hn
    refine ⟨h k t (by simp [Forest.get]), forest_wf_of_get hn.2 ?_⟩
    intro k' c hc
    refine h k' c ?_
    simp only [Forest.get]
    rw [if_neg]
    · exact hc
    · intro e; subst e; exact hn.1 (Forest.get_mem hc)

theorem forest_typed_of_get {α} {fields} : ∀ {f : Forest α}, f.keys.Nodup → (∀ k c, f.get k = some c → c.Typed fields) → f.Typed fields
  | .nil, _, _ => trivial
  | .cons k t r, hn, h => by
    simp only [Forest.keys, List.nodup_cons] at hn
    refine ⟨h k t (by simp [Forest.get]), forest_typed_of_get hn.2 ?_⟩
    intro k' c hc
    refine h k' c ?_
    simp only [Forest.get]
    rw [if_neg]
    · exact hc
    · intro e; subst e; exact hn.1 (Forest.get_mem hc)

theorem Forest.get_typed {α} {fields} : ∀ {f : Forest α} {k c}, f.Typed fields → f.get k = some c → c.Typed fields
  | .nil, _, _, _, h => by simp [Forest.get] at h
  | .cons k' t r, k, c, ho, h => by
    simp only [Forest.get] at h
    split at h
    · cases h; exact ho.1
    · exact Forest.get_typed ho.2 h

theorem compat_child {α β} {kd kd' : Kind} {f : Forest α} {g : Forest β} (h : Compat (.node kd f) (.node kd' g)) {k a b} (ha : f.get k = some a)
    (hb : g.get k = some b) : Compat a b := by
  intro p kd1 f1 kd2 g1 h1 h2
  exact h (k :: p) kd1 f1 kd2 g1 (by simp only [Tree.at_, ha]; exact h1) (by simp only [Tree.at_, hb]; exact h2)

mutual
theorem merge_ok {α} {st : α → α → Bool} : ∀ (t1 t2 : Tree α), t1.Wf → t2.Wf → Compat t1 t2 → (t1.merge true st t2).isSome = true
  | .leaf a, t2, _, _, _ => by
    cases t2 <;> simp [Tree.merge]
  | .node kd f, t2, h1, h2, hc => by
    cases t2 with
    | leaf b => simp only [Tree.merge]; by_cases e : kd = .none <;> simp [e]
    | node kd' g =>
      by_cases hkd : kd = .none
      · rw [Tree.merge.eq_def]; simp [hkd]
      · by_cases hkd' : kd' = .none
        · rw [Tree.merge.eq_def]; simp [hkd, hkd']
        · obtain ⟨rfl, hk⟩ := hc [] kd f kd' g rfl rfl hkd hkd'
          rw [merge_same h1 h2 hkd hk, Option.isSome_map]
          apply mergeWith_ok f (lookFor kd f g) h1.2.2
          intro k t hk1 c hk2
          have hkf : k ∈ f.keys := by
            have : ∀ {f : Forest α}, (k, t) ∈ f.toList → k ∈ f.keys := by
              intro f h
              rw [← keys_toList]
              exact List.mem_map_of_mem (f := (·.1)) h
            exact this hk1
          rw [lookFor_eq h1 h2 hkd hk k hkf] at hk2
          exact ⟨Forest.get_wf h2.2.2 hk2, compat_child hc ((mem_toList (nodup_of_map h1.2.1)).mp hk1) hk2⟩
theorem mergeWith_ok {α} {st : α → α → Bool} : ∀ (f : Forest α) (look : Key → Option (Tree α)), f.Wf →
    (∀ k t, (k, t) ∈ f.toList → ∀ c, look k = some c → c.Wf ∧ Compat t c) → (f.mergeWith true st look).isSome = true
  | .nil, _, _, _ => rfl
  | .cons k t r, look, hw, h => by
    have hr := mergeWith_ok (st := st) r look hw.2 (fun k' t' h' => h k' t' (List.mem_cons_of_mem _ h'))
    obtain ⟨r', hr'⟩ := Option.isSome_iff_exists.mp hr
    simp only [Forest.mergeWith]
    cases hk : look k with
    | none => simp only [hr']; rfl
    | some c =>
      obtain ⟨h1, h2⟩ := h k t List.mem_cons_self c hk
      obtain ⟨t', ht'⟩ := Option.isSome_iff_exists.mp (merge_ok (st := st) t c hw.1 h1 h2)
      simp only [ht', hr']
      rfl
end

theorem merge_cases {α} {st : α → α → Bool} {t1 t2 r : Tree α} (h1 : t1.Wf) (h2 : t2.Wf) (hc : Compat t1 t2)
    (h : t1.merge true st t2 = some r) :
    ((∃ a, t1 = .leaf a) ∧ r = t1) ∨ (t1 = .pyNone ∧ r = t2) ∨
    (∃ kd f, t1 = .node kd f ∧ kd ≠ .none ∧ ((∃ b, t2 = .leaf b) ∨ t2 = .pyNone) ∧ r = t1) ∨
    ∃ kd f g R, t1 = .node kd f ∧ t2 = .node kd g ∧ kd ≠ .none ∧ r = .node kd R ∧ Merged true st kd f g R := by
  cases t1 with
  | leaf a =>
    left
    cases t2 <;> simp [Tree.merge] at h <;> exact ⟨⟨a, rfl⟩, h.symm⟩
  | node kd f =>
    right
    by_cases hkd : kd = .none
    · left
      subst hkd
      have := wf_none h1
      subst this
      refine ⟨rfl, ?_⟩
      cases t2 <;> simp [Tree.merge] at h <;> exact h.symm
    · right
      cases t2 with
      | leaf b =>
        left
        simp [Tree.merge, hkd] at h
        exact ⟨kd, f, rfl, hkd, .inl ⟨b, rfl⟩, h.symm⟩
      | node kd' g =>
        by_cases hkd' : kd' = .none
        · left
          subst hkd'
          have := wf_none h2
          subst this
          rw [Tree.merge.eq_def] at h
          simp [hkd] at h
          exact ⟨kd, f, rfl, hkd, .inr rfl, h.symm⟩
        · right
          obtain ⟨rfl, hk⟩ := hc [] kd f kd' g rfl rfl hkd hkd'
          obtain ⟨R, h3, h4⟩ := merge_node h1 h2 hkd hk h
          exact ⟨kd, f, g, R, rfl, rfl, hkd, h3, h4⟩

theorem overrides_cons {α} {kd : Kind} {f : Forest α} {k : Key} {q : List Key} :
    Overrides (.node kd f) (k :: q) ↔ ∃ c, f.get k = some c ∧ Overrides c q := by
  constructor
  · rintro (⟨p, a, h1, h2⟩ | ⟨kd', g, h1, h2⟩)
    · cases p with
      | nil => simp [Tree.at_] at h2
      | cons k' p =>
        obtain ⟨rfl, h3⟩ := List.cons_prefix_cons.mp h1
        simp only [Tree.at_, Option.bind_eq_some_iff] at h2
        obtain ⟨c, h4, h5⟩ := h2
        exact ⟨c, h4, .inl ⟨p, a, h3, h5⟩⟩
    · simp only [Tree.at_, Option.bind_eq_some_iff] at h2
      obtain ⟨c, h4, h5⟩ := h2
      exact ⟨c, h4, .inr ⟨kd', g, h1, h5⟩⟩
  · rintro ⟨c, h4, ⟨p, a, h1, h2⟩ | ⟨kd', g, h1, h2⟩⟩
    · exact .inl ⟨k :: p, a, List.cons_prefix_cons.mpr ⟨rfl, h1⟩, by simp only [Tree.at_, h4]; exact h2⟩
    · exact .inr ⟨kd', g, h1, by simp only [Tree.at_, h4]; exact h2⟩

theorem overrides_leaf {α} (a : α) (q : List Key) : Overrides (.leaf a) q := .inl ⟨[], a, List.nil_prefix, rfl⟩

theorem not_overrides_none {α} (q : List Key) : ¬ Overrides (.pyNone : Tree α) q := by
  cases q with
  | nil =>
    rintro (⟨p, a, h1, h2⟩ | ⟨kd', g, h1, h2⟩)
    · rw [List.prefix_nil.mp h1] at h2; simp [Tree.at_, Tree.pyNone] at h2
    · simp [Tree.at_, Tree.pyNone] at h2
      exact h1 h2.1.symm
  | cons k q => rw [Tree.pyNone, overrides_cons]; simp [Forest.get]

theorem none_at {α} {q : List Key} {x : Tree α} (h : (Tree.pyNone : Tree α).at_ q = some x) : q = [] ∧ x = .pyNone := by
  cases q with
  | nil => simp [Tree.at_] at h; exact ⟨rfl, h.symm⟩
  | cons k q => simp [Tree.at_, Tree.pyNone, Forest.get] at h

theorem leaf_at {α} {a : α} {q : List Key} {x : Tree α} (h : (Tree.leaf a : Tree α).at_ q = some x) : q = [] ∧ x = .leaf a := by
  cases q with
  | nil => simp [Tree.at_] at h; exact ⟨rfl, h.symm⟩
  | cons k q => simp [Tree.at_] at h

/-- One merge: which leaf is where. -/
theorem merge_leaf {α} {st : α → α → Bool} {q : List Key} : ∀ {t1 t2 r : Tree α}, t1.Wf → t2.Wf → Compat t1 t2 → t1.merge true st t2 = some r →
    ∀ a, r.at_ q = some (.leaf a) ↔ t1.at_ q = some (.leaf a) ∨ (t2.at_ q = some (.leaf a) ∧ ¬ Overrides t1 q) := by
  induction q with
  | nil =>
    intro t1 t2 r h1 h2 hc h a
    rcases merge_cases h1 h2 hc h with ⟨⟨b, rfl⟩, rfl⟩ | ⟨rfl, rfl⟩ | ⟨kd, f, rfl, hkd, h3, rfl⟩ | ⟨kd, f, g, R, rfl, rfl, hkd, rfl, hm⟩
    · simp [overrides_leaf]
    · exact ⟨fun h => .inr ⟨h, not_overrides_none _⟩, fun h => h.elim (fun h => by cases (none_at h).2) (·.1)⟩
    · constructor
      · exact .inl
      · rintro (h | ⟨_, h⟩)
        · exact h
        · exact absurd (.inr ⟨kd, f, hkd, rfl⟩) h
    · simp [Tree.at_]
  | cons k q ih =>
    intro t1 t2 r h1 h2 hc h a
    rcases merge_cases h1 h2 hc h with ⟨⟨b, rfl⟩, rfl⟩ | ⟨rfl, rfl⟩ | ⟨kd, f, rfl, hkd, h3, rfl⟩ | ⟨kd, f, g, R, rfl, rfl, hkd, rfl, hm⟩
    · simp [overrides_leaf]
    · exact ⟨fun h => .inr ⟨h, not_overrides_none _⟩, fun h => h.elim (fun h => by cases (none_at h).2) (·.1)⟩
    · constructor
      · exact .inl
      · rintro (h | ⟨h, _⟩)
        · exact h
        · rcases h3 with ⟨b, rfl⟩ | rfl
          · simp [Tree.at_] at h
          · simp [Tree.at_, Tree.pyNone, Forest.get] at h
    · rw [overrides_cons]
      simp only [Tree.at_]
      cases hf : f.get k with
      | none =>
        rw [hm.right k hf]
        simp
      | some c =>
        cases hg : g.get k with
        | none =>
          rw [hm.left k c hf hg]
          simp
        | some d =>
          obtain ⟨e, h4, h5⟩ := hm.both k c d hf hg
          rw [h5]
          simp only [Option.bind_some, Option.some.injEq, exists_eq_left']
          exact ih (Forest.get_wf h1.2.2 hf) (Forest.get_wf h2.2.2 hg) (compat_child hc hf hg) h4 a

mutual
theorem merge_wf {α} {st : α → α → Bool} : ∀ (t1 : Tree α) {t2 r : Tree α}, t1.Wf → t2.Wf → Compat t1 t2 → t1.merge true st t2 = some r → r.Wf
  | .leaf a, t2, r, h1, h2, hc, h => by
    rcases merge_cases h1 h2 hc h with ⟨⟨b, e⟩, rfl⟩ | ⟨e, rfl⟩ | ⟨kd, f, e, hkd, h3, rfl⟩ | ⟨kd, f, g, R, e, rfl, hkd, rfl, hm⟩
    · exact h1
    · cases e
    · cases e
    · cases e
  | .node kd0 f0, t2, r, h1, h2, hc, h => by
    rcases merge_cases h1 h2 hc h with ⟨⟨b, e⟩, rfl⟩ | ⟨e, rfl⟩ | ⟨kd, f, e, hkd, h3, rfl⟩ | ⟨kd, f, g, R, e, rfl, hkd, rfl, hm⟩
    · cases e
    · exact h2
    · exact h1
    · cases e
      refine ⟨hm.wf, hm.nodup, forest_wf_of_get (nodup_of_map hm.nodup) ?_⟩
      intro k c hk
      exact merge_wf_children f0 h1.2.2 k c (fun hf => by rw [hm.right k hf] at hk; exact Forest.get_wf h2.2.2 hk)
        (fun a ha => by
          cases hg : g.get k with
          | none => rw [hm.left k a ha hg] at hk; cases hk; exact .inl rfl
          | some b =>
            obtain ⟨e, h4, h5⟩ := hm.both k a b ha hg
            rw [h5] at hk; cases hk
            exact .inr ⟨b, Forest.get_wf h2.2.2 hg, compat_child hc ha hg, h4⟩)
theorem merge_wf_children {α} {st : α → α → Bool} : ∀ (f : Forest α), f.Wf → ∀ k (c : Tree α), (f.get k = none → c.Wf) →
    (∀ a, f.get k = some a → c = a ∨ ∃ b, b.Wf ∧ Compat a b ∧ a.merge true st b = some c) → c.Wf
  | .nil, _, k, c, h, _ => h rfl
  | .cons k' t r, hw, k, c, h, h' => by
    simp only [Forest.get] at h h'
    by_cases e : k' = k
    · simp only [e, if_true] at h'
      rcases h' t rfl with rfl | ⟨b, h1, h2, h3⟩
      · exact hw.1
      · exact merge_wf t hw.1 h1 h2 h3
    · simp only [e, if_false] at h h'
      exact merge_wf_children r hw.2 k c h h'
end

/-- The nodes of the result are nodes of the inputs. -/
theorem merge_nodes {α} {st : α → α → Bool} {q : List Key} : ∀ {t1 t2 r : Tree α}, t1.Wf → t2.Wf → Compat t1 t2 → t1.merge true st t2 = some r →
    ∀ x, r.at_ q = some x → ∃ y, (t1.at_ q = some y ∨ t2.at_ q = some y) ∧
      (x = y ∨ ∃ kd f g, x = .node kd f ∧ y = .node kd g ∧ (kd ≠ .dict → f.keys = g.keys)) := by
  induction q with
  | nil =>
    intro t1 t2 r h1 h2 hc h x hx
    cases hx
    rcases merge_cases h1 h2 hc h with ⟨⟨b, rfl⟩, rfl⟩ | ⟨rfl, rfl⟩ | ⟨kd, f, rfl, hkd, h3, rfl⟩ | ⟨kd, f, g, R, rfl, rfl, hkd, rfl, hm⟩
    · exact ⟨_, .inl rfl, .inl rfl⟩
    · exact ⟨_, .inr rfl, .inl rfl⟩
    · exact ⟨_, .inl rfl, .inl rfl⟩
    · exact ⟨_, .inl rfl, .inr ⟨kd, R, f, rfl, rfl, hm.keys⟩⟩
  | cons k q ih =>
    intro t1 t2 r h1 h2 hc h x hx
    rcases merge_cases h1 h2 hc h with ⟨⟨b, rfl⟩, rfl⟩ | ⟨rfl, rfl⟩ | ⟨kd, f, rfl, hkd, h3, rfl⟩ | ⟨kd, f, g, R, rfl, rfl, hkd, rfl, hm⟩
    · exact ⟨_, .inl hx, .inl rfl⟩
    · exact ⟨_, .inr hx, .inl rfl⟩
    · exact ⟨_, .inl hx, .inl rfl⟩
    · simp only [Tree.at_] at hx ⊢
      cases hf : f.get k with
      | none =>
        rw [hm.right k hf] at hx
        exact ⟨x, .inr hx, .inl rfl⟩
      | some c =>
        cases hg : g.get k with
        | none =>
          rw [hm.left k c hf hg] at hx
          exact ⟨x, .inl hx, .inl rfl⟩
        | some d =>
          obtain ⟨e, h4, h5⟩ := hm.both k c d hf hg
          rw [h5] at hx
          simp only [Option.bind_some] at hx ⊢
          exact ih (Forest.get_wf h1.2.2 hf) (Forest.get_wf h2.2.2 hg) (compat_child hc hf hg) h4 x hx

theorem merge_compat {α β} {st : α → α → Bool} {t1 t2 r : Tree α} (h1 : t1.Wf) (h2 : t2.Wf) (hc : Compat t1 t2) (h : t1.merge true st t2 = some r)
    {s : Tree β} (hs1 : Compat s t1) (hs2 : Compat s t2) : Compat s r := by
  intro p kd f kd' g hs hr hkd hkd'
  obtain ⟨y, hy, hxy⟩ := merge_nodes h1 h2 hc h _ hr
  have key : ∀ g', y = .node kd' g' → kd = kd' ∧ (kd ≠ .dict → f.keys = g'.keys) := by
    intro g' e
    subst e
    rcases hy with hy | hy
    · exact hs1 p kd f kd' g' hs hy hkd hkd'
    · exact hs2 p kd f kd' g' hs hy hkd hkd'
  rcases hxy with rfl | ⟨kd2, f2, g2, e1, e2, h3⟩
  · exact key g rfl
  · cases e1
    obtain ⟨h4, h5⟩ := key g2 e2
    refine ⟨h4, fun hd => ?_⟩
    rw [h5 hd, h3 (by rw [← h4]; exact hd)]

theorem mergeFrom_spec {α} {st : α → α → Bool} : ∀ (ts : List (Tree α)) (acc : Tree α), acc.Wf → (∀ t ∈ ts, t.Wf) →
    (∀ t ∈ ts, Compat t acc) → (∀ t ∈ ts, ∀ s ∈ ts, Compat t s) →
    ∃ r, mergeFrom true st acc ts = some r ∧ r.Wf ∧
      (∀ q a, r.at_ q = some (.leaf a) ↔ (acc.at_ q = some (.leaf a) ∧ ∀ t ∈ ts, ¬ Overrides t q) ∨
        ∃ pre s post, ts = pre ++ s :: post ∧ s.at_ q = some (.leaf a) ∧ ∀ t ∈ post, ¬ Overrides t q) ∧
      ∀ q x, r.at_ q = some x → (acc.at_ q).isSome = true ∨ ∃ t ∈ ts, (t.at_ q).isSome = true
  | [], acc, hw, _, _, _ => by
    refine ⟨acc, rfl, hw, by simp, ?_⟩
    intro q x hx
    left; rw [hx]; rfl
  | t :: ts, acc, hw, hts, hca, hcc => by
    have ht := hts t List.mem_cons_self
    have hc := hca t List.mem_cons_self
    obtain ⟨m, hm⟩ := Option.isSome_iff_exists.mp (merge_ok (st := st) t acc ht hw hc)
    have hmw := merge_wf t ht hw hc hm
    obtain ⟨r, h1, h2, h3, h4⟩ := mergeFrom_spec (st := st) ts m hmw (fun s hs => hts s (List.mem_cons_of_mem _ hs))
      (fun s hs => merge_compat ht hw hc hm (hcc s (List.mem_cons_of_mem _ hs) t List.mem_cons_self) (hca s (List.mem_cons_of_mem _ hs)))
      (fun s hs s' hs' => hcc s (List.mem_cons_of_mem _ hs) s' (List.mem_cons_of_mem _ hs'))
    refine ⟨r, by simp only [mergeFrom, hm, Option.bind_some]; exact h1, h2, ?_, ?_⟩
    · intro q a
      rw [h3, merge_leaf ht hw hc hm]
      constructor
      · rintro (⟨h5 | ⟨h5, h6⟩, h7⟩ | ⟨pre, s, post, rfl, h5, h6⟩)
        · exact .inr ⟨[], t, ts, rfl, h5, h7⟩
        · refine .inl ⟨h5, ?_⟩
          intro s hs
          rcases List.mem_cons.mp hs with e | hs
          · subst e; exact h6
          · exact h7 s hs
        · exact .inr ⟨t :: pre, s, post, rfl, h5, h6⟩
      · rintro (⟨h5, h6⟩ | ⟨pre, s, post, he, h5, h6⟩)
        · exact .inl ⟨.inr ⟨h5, h6 t List.mem_cons_self⟩, fun s hs => h6 s (List.mem_cons_of_mem _ hs)⟩
        · cases pre with
          | nil =>
            simp only [List.nil_append, List.cons.injEq] at he
            obtain ⟨rfl, rfl⟩ := he
            exact .inl ⟨.inl h5, h6⟩
          | cons p pre =>
            simp only [List.cons_append, List.cons.injEq] at he
            obtain ⟨rfl, rfl⟩ := he
            exact .inr ⟨pre, s, post, rfl, h5, h6⟩
    · intro q x hx
      rcases h4 q x hx with h5 | ⟨s, hs, h5⟩
      · obtain ⟨y, hy⟩ := Option.isSome_iff_exists.mp h5
        obtain ⟨z, hz | hz, _⟩ := merge_nodes ht hw hc hm y hy
        · exact .inr ⟨t, List.mem_cons_self, by rw [hz]; rfl⟩
        · exact .inl (by rw [hz]; rfl)
      · exact .inr ⟨s, List.mem_cons_of_mem _ hs, h5⟩

/-! ### Without overwriting -/

theorem keys_of_typed {α} {fields : Kind → List Key} {kd : Kind} {f g : Forest α} (hf : (Tree.node kd f).Wf) (hg : (Tree.node kd g).Wf)
    (hf' : (Tree.node kd f).Typed fields) (hg' : (Tree.node kd g).Typed fields) (hkd : kd ≠ .none)
    (hl : kd = .list ∨ kd = .tuple → f.length = g.length) : kd ≠ .dict → f.keys = g.keys := by
  intro hd
  cases kd with
  | none => exact absurd rfl hkd
  | dict => exact absurd rfl hd
  | named n => rw [hf'.1 n (.inl rfl), hg'.1 n (.inl rfl)]
  | custom n => rw [hf'.1 n (.inr rfl), hg'.1 n (.inr rfl)]
  | list => exact seqFrom_keys_eq hf.1 hg.1 (by rw [← Forest.length_keys, ← Forest.length_keys]; exact hl (.inl rfl))
  | tuple => exact seqFrom_keys_eq hf.1 hg.1 (by rw [← Forest.length_keys, ← Forest.length_keys]; exact hl (.inr rfl))

theorem merge_cases_strict {α} {st : α → α → Bool} {fields : Kind → List Key} {t1 t2 r : Tree α} (h1 : t1.Wf) (h2 : t2.Wf)
    (hy1 : t1.Typed fields) (hy2 : t2.Typed fields) (h : t1.merge false st t2 = some r) :
    (∃ a b, t1 = .leaf a ∧ t2 = .leaf b ∧ r = t1) ∨ (t1 = .pyNone ∧ t2 = .pyNone ∧ r = .pyNone) ∨
    ∃ kd f g R, t1 = .node kd f ∧ t2 = .node kd g ∧ kd ≠ .none ∧ r = .node kd R ∧ Merged false st kd f g R := by
  cases t1 with
  | leaf a =>
    left
    cases t2 with
    | leaf b =>
      simp only [Tree.merge] at h
      split at h
      · cases h
      · cases h; exact ⟨a, b, rfl, rfl, rfl⟩
    | node kd' g => simp [Tree.merge] at h
  | node kd f =>
    right
    cases t2 with
    | leaf b => simp [Tree.merge] at h
    | node kd' g =>
      by_cases e : kd = kd'
      · subst e
        by_cases hkd : kd = .none
        · subst hkd
          have e1 := wf_none h1
          have e2 := wf_none h2
          subst e1 e2
          left
          refine ⟨rfl, rfl, ?_⟩
          rw [Tree.merge.eq_def] at h
          simp at h
          exact h.symm
        · right
          have hk := keys_of_typed h1 h2 hy1 hy2 hkd (by
            intro hs
            rw [Tree.merge.eq_def] at h
            apply Classical.byContradiction
            intro hl
            rcases hs with rfl | rfl <;> simp [Kind.isSeq, hl] at h)
          obtain ⟨R, h3, h4⟩ := merge_node h1 h2 hkd hk h
          exact ⟨kd, f, g, R, rfl, rfl, hkd, h3, h4⟩
      · rw [Tree.merge.eq_def] at h
        simp [e] at h

/-- One merge without overwriting: the leaves and `None`s are those of the inputs. -/
theorem merge_entries {α} {st : α → α → Bool} {fields : Kind → List Key} {q : List Key} : ∀ {t1 t2 r : Tree α}, t1.Wf → t2.Wf →
    t1.Typed fields → t2.Typed fields → t1.merge false st t2 = some r → ∀ x, x.Entry →
    (r.at_ q = some x → t1.at_ q = some x ∨ t2.at_ q = some x) ∧
    (t1.at_ q = some x → r.at_ q = some x) ∧
    (t2.at_ q = some x → r.at_ q = some x ∨ ∃ y, y.Entry ∧ t1.at_ q = some y) := by
  induction q with
  | nil =>
    intro t1 t2 r h1 h2 hy1 hy2 h x hx
    rcases merge_cases_strict h1 h2 hy1 hy2 h with ⟨a, b, rfl, rfl, rfl⟩ | ⟨rfl, rfl, rfl⟩ | ⟨kd, f, g, R, rfl, rfl, hkd, rfl, hm⟩
    · refine ⟨.inl, fun h => h, fun _ => .inr ⟨.leaf a, trivial, rfl⟩⟩
    · exact ⟨.inl, fun h => h, .inl⟩
    · refine ⟨?_, ?_, ?_⟩ <;> intro e <;> cases e <;> exact absurd hx hkd
  | cons k q ih =>
    intro t1 t2 r h1 h2 hy1 hy2 h x hx
    rcases merge_cases_strict h1 h2 hy1 hy2 h with ⟨a, b, rfl, rfl, rfl⟩ | ⟨rfl, rfl, rfl⟩ | ⟨kd, f, g, R, rfl, rfl, hkd, rfl, hm⟩
    · refine ⟨?_, ?_, ?_⟩ <;> intro e <;> cases (leaf_at e).1
    · refine ⟨?_, ?_, ?_⟩ <;> intro e <;> cases (none_at e).1
    · simp only [Tree.at_]
      cases hf : f.get k with
      | none =>
        rw [hm.right k hf]
        simp
      | some c =>
        cases hg : g.get k with
        | none =>
          rw [hm.left k c hf hg]
          simp
        | some d =>
          obtain ⟨e, h4, h5⟩ := hm.both k c d hf hg
          rw [h5]
          simp only [Option.bind_some]
          exact ih (Forest.get_wf h1.2.2 hf) (Forest.get_wf h2.2.2 hg) (Forest.get_typed hy1.2 hf) (Forest.get_typed hy2.2 hg) h4 x hx

mutual
theorem merge_wf_strict {α} {st : α → α → Bool} {fields : Kind → List Key} : ∀ (t1 : Tree α) {t2 r : Tree α}, t1.Wf → t2.Wf → t1.Typed fields →
    t2.Typed fields → t1.merge false st t2 = some r → r.Wf ∧ r.Typed fields
  | .leaf a, t2, r, h1, h2, hy1, hy2, h => by
    rcases merge_cases_strict h1 h2 hy1 hy2 h with ⟨a, b, e, rfl, rfl⟩ | ⟨e, rfl, rfl⟩ | ⟨kd, f, g, R, e, rfl, hkd, rfl, hm⟩
    · exact ⟨h1, hy1⟩
    · cases e
    · cases e
  | .node kd0 f0, t2, r, h1, h2, hy1, hy2, h => by
    rcases merge_cases_strict h1 h2 hy1 hy2 h with ⟨a, b, e, rfl, rfl⟩ | ⟨e, rfl, rfl⟩ | ⟨kd, f, g, R, e, rfl, hkd, rfl, hm⟩
    · cases e
    · exact ⟨h2, hy2⟩
    · cases e
      have key : ∀ k c, R.get k = some c → c.Wf ∧ c.Typed fields := by
        intro k c hk
        exact merge_wf_strict_children f0 h1.2.2 hy1.2 k c
          (fun hf => by rw [hm.right k hf] at hk; exact ⟨Forest.get_wf h2.2.2 hk, Forest.get_typed hy2.2 hk⟩)
          (fun a ha => by
            cases hg : g.get k with
            | none => rw [hm.left k a ha hg] at hk; cases hk; exact .inl rfl
            | some b =>
              obtain ⟨e, h4, h5⟩ := hm.both k a b ha hg
              rw [h5] at hk; cases hk
              exact .inr ⟨b, Forest.get_wf h2.2.2 hg, Forest.get_typed hy2.2 hg, h4⟩)
      have hn := nodup_of_map hm.nodup
      refine ⟨⟨hm.wf, hm.nodup, forest_wf_of_get hn fun k c hk => (key k c hk).1⟩, ?_, forest_typed_of_get hn fun k c hk => (key k c hk).2⟩
      intro n e
      rw [hm.keys (by rcases e with rfl | rfl <;> simp), hy1.1 n e]
theorem merge_wf_strict_children {α} {st : α → α → Bool} {fields : Kind → List Key} : ∀ (f : Forest α), f.Wf → f.Typed fields → ∀ k (c : Tree α),
    (f.get k = none → c.Wf ∧ c.Typed fields) →
    (∀ a, f.get k = some a → c = a ∨ ∃ b, b.Wf ∧ b.Typed fields ∧ a.merge false st b = some c) → c.Wf ∧ c.Typed fields
  | .nil, _, _, k, c, h, _ => h rfl
  | .cons k' t r, hw, hy, k, c, h, h' => by
    simp only [Forest.get] at h h'
    by_cases e : k' = k
    · simp only [e, if_true] at h'
      rcases h' t rfl with rfl | ⟨b, h1, h2, h3⟩
      · exact ⟨hw.1, hy.1⟩
      · exact merge_wf_strict t hw.1 h1 hy.1 h2 h3
    · simp only [e, if_false] at h h'
      exact merge_wf_strict_children r hw.2 hy.2 k c h h'
end

mutual
theorem mem_entryPaths {α} : ∀ (t : Tree α), t.Wf → ∀ q, q ∈ t.entryPaths ↔ ∃ x, t.at_ q = some x ∧ x.Entry
  | .leaf a, _, q => by
    simp only [Tree.entryPaths, List.mem_singleton]
    constructor
    · rintro rfl; exact ⟨_, rfl, trivial⟩
    · rintro ⟨x, h, _⟩; exact (leaf_at h).1
  | .node kd f, hw, q => by
    simp only [Tree.entryPaths]
    by_cases hkd : kd = .none
    · subst hkd
      have := wf_none hw
      subst this
      simp only [if_true, List.mem_singleton]
      constructor
      · rintro rfl; exact ⟨_, rfl, rfl⟩
      · rintro ⟨x, h, _⟩; exact (none_at h).1
    · rw [if_neg hkd, mem_forest_entryPaths f (nodup_of_map hw.2.1) hw.2.2 q]
      constructor
      · rintro ⟨k, p, c, rfl, h1, x, h2, h3⟩
        exact ⟨x, by simp only [Tree.at_, h1]; exact h2, h3⟩
      · rintro ⟨x, h1, h2⟩
        cases q with
        | nil => cases h1; exact absurd h2 hkd
        | cons k p =>
          simp only [Tree.at_, Option.bind_eq_some_iff] at h1
          obtain ⟨c, h3, h4⟩ := h1
          exact ⟨k, p, c, rfl, h3, x, h4, h2⟩
theorem mem_forest_entryPaths {α} : ∀ (f : Forest α), f.keys.Nodup → f.Wf → ∀ q, q ∈ f.entryPaths ↔
    ∃ k p c, q = k :: p ∧ f.get k = some c ∧ ∃ x, c.at_ p = some x ∧ x.Entry
  | .nil, _, _, q => by simp [Forest.entryPaths, Forest.get]
  | .cons k t r, hn, hw, q => by
    simp only [Forest.keys, List.nodup_cons] at hn
    simp only [Forest.entryPaths, List.mem_append, List.mem_map, mem_entryPaths t hw.1, mem_forest_entryPaths r hn.2 hw.2 q, Forest.get]
    constructor
    · rintro (⟨p, h1, rfl⟩ | ⟨k', p, c, rfl, h1, h2⟩)
      · exact ⟨k, p, t, rfl, by simp, h1⟩
      · refine ⟨k', p, c, rfl, ?_, h2⟩
        rw [if_neg]
        · exact h1
        · rintro rfl; exact hn.1 (Forest.get_mem h1)
    · rintro ⟨k', p, c, rfl, h1, h2⟩
      by_cases e : k = k'
      · subst e
        simp only [if_true, Option.some.injEq] at h1
        subst h1
        exact .inl ⟨p, h2, rfl⟩
      · simp only [e, if_false] at h1
        exact .inr ⟨k', p, c, rfl, h1, h2⟩
end

/-- No path is a leaf or `None` in both. -/
def Apart {α} (s t : Tree α) : Prop := ∀ q x y, s.at_ q = some x → x.Entry → t.at_ q = some y → y.Entry → False

theorem commonKeys_false {α} : ∀ (ts : List (Tree α)) (seen : List (List Name)), (∀ t ∈ ts, t.Wf) → commonKeys seen ts = false →
    (∀ t ∈ ts, ∀ q x, t.at_ q = some x → x.Entry → strPath q ∉ seen) ∧ ts.Pairwise Apart
  | [], _, _, _ => ⟨by simp, List.Pairwise.nil⟩
  | t :: ts, seen, hw, h => by
    simp only [commonKeys, Bool.or_eq_false_iff, List.any_eq_false, List.contains_iff_mem] at h
    obtain ⟨h1, h2⟩ := commonKeys_false ts _ (fun s hs => hw s (List.mem_cons_of_mem _ hs)) h.2
    have hmem : ∀ q x, t.at_ q = some x → x.Entry → strPath q ∈ t.entryPaths.map strPath := fun q x hq hx =>
      List.mem_map_of_mem ((mem_entryPaths t (hw t List.mem_cons_self) q).mpr ⟨x, hq, hx⟩)
    refine ⟨?_, List.pairwise_cons.mpr ⟨?_, h2⟩⟩
    · intro s hs q x hq hx
      rcases List.mem_cons.mp hs with e | hs
      · subst e
        exact h.1 _ (hmem q x hq hx)
      · exact fun h' => h1 s hs q x hq hx (List.mem_append_left _ h')
    · intro s hs q x y hq hx hq' hy
      exact h1 s hs q y hq' hy (List.mem_append_right _ (hmem q x hq hx))

theorem mergeFrom_strict {α} {st : α → α → Bool} {fields : Kind → List Key} : ∀ (ts : List (Tree α)) (acc r : Tree α), acc.Wf → acc.Typed fields →
    (∀ t ∈ ts, t.Wf ∧ t.Typed fields) → (∀ t ∈ ts, Apart acc t) → ts.Pairwise Apart → mergeFrom false st acc ts = some r →
    ∀ q x, x.Entry → (r.at_ q = some x ↔ acc.at_ q = some x ∨ ∃ t ∈ ts, t.at_ q = some x)
  | [], acc, r, _, _, _, _, _, h => by
    simp only [mergeFrom, Option.some.injEq] at h
    subst h
    simp
  | t :: ts, acc, r, hw, hy, hts, ha, hp, h => by
    simp only [mergeFrom, Option.bind_eq_some_iff] at h
    obtain ⟨m, h1, h2⟩ := h
    obtain ⟨ht, hty⟩ := hts t List.mem_cons_self
    obtain ⟨hmw, hmy⟩ := merge_wf_strict t ht hw hty hy h1
    obtain ⟨hp1, hp2⟩ := List.pairwise_cons.mp hp
    intro q x hx
    rw [mergeFrom_strict ts m r hmw hmy (fun s hs => hts s (List.mem_cons_of_mem _ hs)) ?_ hp2 h2 q x hx]
    · obtain ⟨h3, h4, h5⟩ := merge_entries (q := q) ht hw hty hy h1 x hx
      simp only [List.mem_cons, exists_eq_or_imp]
      rw [← or_assoc]
      refine or_congr ⟨fun h => (h3 h).symm, ?_⟩ Iff.rfl
      rintro (h | h)
      · rcases h5 h with h6 | ⟨y, h6, h7⟩
        · exact h6
        · exact (ha t List.mem_cons_self q x y h hx h7 h6).elim
      · exact h4 h
    · intro s hs q x y hq hx hq' hy'
      rcases (merge_entries (q := q) ht hw hty hy h1 x hx).1 hq with h | h
      · exact hp1 s hs q x y h hx hq' hy'
      · exact ha s (List.mem_cons_of_mem _ hs) q x y h hx hq' hy'

/-- The trees can be merged without overwriting: what both have is nodes of the same kind, with the same keys unless
they are dictionaries. -/
def Joinable {α β} (t : Tree α) (s : Tree β) : Prop :=
  ∀ p x y, t.at_ p = some x → s.at_ p = some y →
    ∃ kd f g, x = .node kd f ∧ y = .node kd g ∧ kd ≠ .none ∧ (kd ≠ .dict → f.keys = g.keys)

theorem joinable_child {α β} {kd kd' : Kind} {f : Forest α} {g : Forest β} (h : Joinable (.node kd f) (.node kd' g)) {k a b} (ha : f.get k = some a)
    (hb : g.get k = some b) : Joinable a b := by
  intro p x y h1 h2
  exact h (k :: p) x y (by simp only [Tree.at_, ha]; exact h1) (by simp only [Tree.at_, hb]; exact h2)

mutual
theorem merge_join {α} {st : α → α → Bool} : ∀ (t1 t2 : Tree α), t1.Wf → t2.Wf → Joinable t1 t2 → ∃ r, t1.merge false st t2 = some r ∧ r.Wf ∧
    ∀ q x, r.at_ q = some x → ∃ y, (t1.at_ q = some y ∨ t2.at_ q = some y) ∧
      (x = y ∨ ∃ kd f g, x = .node kd f ∧ y = .node kd g ∧ (kd ≠ .dict → f.keys = g.keys))
  | .leaf a, t2, _, _, hc => by
    obtain ⟨kd, f, g, h, _⟩ := hc [] _ _ rfl rfl
    cases h
  | .node kd f, t2, h1, h2, hc => by
    obtain ⟨kd', f', g, h, rfl, hkd, hk⟩ := hc [] _ _ rfl rfl
    cases h
    have h3 := mergeWith_join (st := st) f (lookFor kd f g) h1.2.2 (by
      intro k t hk1 c hk2
      have hkf : k ∈ f.keys := by
        rw [← keys_toList]
        exact List.mem_map_of_mem (f := (·.1)) hk1
      rw [lookFor_eq h1 h2 hkd hk k hkf] at hk2
      exact ⟨Forest.get_wf h2.2.2 hk2, joinable_child hc ((mem_toList (nodup_of_map h1.2.1)).mp hk1) hk2⟩)
    obtain ⟨F, h4, h5⟩ := h3
    have h6 := merge_same (ow := false) (st := st) h1 h2 hkd hk
    rw [h4, Option.map_some] at h6
    obtain ⟨R, h7, hm⟩ := merge_node h1 h2 hkd hk h6
    rw [h7] at h6
    have key : ∀ k c, R.get k = some c → (f.get k = none ∧ g.get k = some c) ∨ (f.get k = some c ∧ g.get k = none) ∨
        ∃ a b, f.get k = some a ∧ g.get k = some b ∧ c.Wf ∧ ∀ q x, c.at_ q = some x → ∃ y, (a.at_ q = some y ∨ b.at_ q = some y) ∧
          (x = y ∨ ∃ kd f g, x = .node kd f ∧ y = .node kd g ∧ (kd ≠ .dict → f.keys = g.keys)) := by
      intro k c hR
      cases hf : f.get k with
      | none => rw [hm.right k hf] at hR; exact .inl ⟨rfl, hR⟩
      | some a =>
        cases hg : g.get k with
        | none => rw [hm.left k a hf hg] at hR; cases hR; exact .inr (.inl ⟨rfl, rfl⟩)
        | some b =>
          obtain ⟨e, h8, h9⟩ := hm.both k a b hf hg
          rw [h9] at hR; cases hR
          obtain ⟨h10, h11⟩ := h5 k a ((mem_toList (nodup_of_map h1.2.1)).mpr hf) b
            (by rw [lookFor_eq h1 h2 hkd hk k (Forest.get_mem hf)]; exact hg) _ h8
          exact .inr (.inr ⟨a, b, rfl, rfl, h10, h11⟩)
    refine ⟨_, h6, ⟨hm.wf, hm.nodup, forest_wf_of_get (nodup_of_map hm.nodup) ?_⟩, ?_⟩
    · intro k c hR
      rcases key k c hR with ⟨_, h⟩ | ⟨h, _⟩ | ⟨a, b, _, _, h, _⟩
      · exact Forest.get_wf h2.2.2 h
      · exact Forest.get_wf h1.2.2 h
      · exact h
    · intro q x hx
      cases q with
      | nil =>
        cases hx
        exact ⟨_, .inl rfl, .inr ⟨kd, R, f, rfl, rfl, hm.keys⟩⟩
      | cons k q =>
        simp only [Tree.at_, Option.bind_eq_some_iff] at hx ⊢
        obtain ⟨c, hc1, hc2⟩ := hx
        rcases key k c hc1 with ⟨_, h⟩ | ⟨h, _⟩ | ⟨a, b, ha, hb, _, h⟩
        · exact ⟨x, .inr ⟨c, h, hc2⟩, .inl rfl⟩
        · exact ⟨x, .inl ⟨c, h, hc2⟩, .inl rfl⟩
        · obtain ⟨y, hy, hxy⟩ := h q x hc2
          exact ⟨y, hy.imp (fun h => ⟨a, ha, h⟩) (fun h => ⟨b, hb, h⟩), hxy⟩
theorem mergeWith_join {α} {st : α → α → Bool} : ∀ (f : Forest α) (look : Key → Option (Tree α)), f.Wf →
    (∀ k t, (k, t) ∈ f.toList → ∀ c, look k = some c → c.Wf ∧ Joinable t c) →
    ∃ F, f.mergeWith false st look = some F ∧ ∀ k t, (k, t) ∈ f.toList → ∀ c, look k = some c → ∀ e, t.merge false st c = some e → e.Wf ∧
      ∀ q x, e.at_ q = some x → ∃ y, (t.at_ q = some y ∨ c.at_ q = some y) ∧
        (x = y ∨ ∃ kd f g, x = .node kd f ∧ y = .node kd g ∧ (kd ≠ .dict → f.keys = g.keys))
  | .nil, _, _, _ => ⟨.nil, rfl, by simp [Forest.toList]⟩
  | .cons k t r, look, hw, h => by
    obtain ⟨r', hr, hr'⟩ := mergeWith_join (st := st) r look hw.2 (fun k' t' h' => h k' t' (List.mem_cons_of_mem _ h'))
    simp only [Forest.mergeWith]
    cases hk : look k with
    | none =>
      refine ⟨.cons k t r', by simp only [hr]; rfl, ?_⟩
      intro k' t' h' c hc
      simp only [Forest.toList, List.mem_cons, Prod.mk.injEq] at h'
      rcases h' with ⟨rfl, rfl⟩ | h'
      · rw [hk] at hc; cases hc
      · exact hr' k' t' h' c hc
    | some c =>
      obtain ⟨h1, h2⟩ := h k t List.mem_cons_self c hk
      obtain ⟨t', ht', h3, h4⟩ := merge_join (st := st) t c hw.1 h1 h2
      refine ⟨.cons k t' r', by simp only [ht', hr]; rfl, ?_⟩
      intro k' t'' h' c' hc
      simp only [Forest.toList, List.mem_cons, Prod.mk.injEq] at h'
      rcases h' with ⟨rfl, rfl⟩ | h'
      · rw [hk] at hc; cases hc
        intro e he
        rw [ht'] at he; cases he
        exact ⟨h3, h4⟩
      · exact hr' k' t'' h' c' hc
end

theorem mergeFrom_join {α} {st : α → α → Bool} : ∀ (ts : List (Tree α)) (acc : Tree α), acc.Wf → (∀ t ∈ ts, t.Wf) →
    (∀ t ∈ ts, Joinable t acc) → ts.Pairwise (fun s t => Joinable t s) → (mergeFrom false st acc ts).isSome = true
  | [], _, _, _, _, _ => rfl
  | t :: ts, acc, hw, hts, hj, hp => by
    obtain ⟨r, h1, h2, h3⟩ := merge_join (st := st) t acc (hts t List.mem_cons_self) hw (hj t List.mem_cons_self)
    obtain ⟨hp1, hp2⟩ := List.pairwise_cons.mp hp
    simp only [mergeFrom, h1, Option.bind_some]
    refine mergeFrom_join ts r h2 (fun s hs => hts s (List.mem_cons_of_mem _ hs)) ?_ hp2
    intro s hs p x y hx hy
    obtain ⟨z, hz, hyz⟩ := h3 p y hy
    have : ∃ kd f g, x = .node kd f ∧ z = .node kd g ∧ kd ≠ .none ∧ (kd ≠ .dict → f.keys = g.keys) := by
      rcases hz with hz | hz
      · exact hp1 s hs p x z hx hz
      · exact hj s (List.mem_cons_of_mem _ hs) p x z hx hz
    obtain ⟨kd, f, g, rfl, rfl, h4, h5⟩ := this
    rcases hyz with rfl | ⟨kd', f', g', rfl, e, h6⟩
    · exact ⟨kd, f, g, rfl, rfl, h4, h5⟩
    · cases e
      exact ⟨kd, f, f', rfl, rfl, h4, fun hd => by rw [h5 hd, h6 hd]⟩

theorem joinable_names {α} : ∀ {p q : List Key} {s t x y : Tree α}, s.Wf → t.Wf → Joinable t s → s.at_ p = some x → t.at_ q = some y →
    strPath p = strPath q → p = q
  | [], [], _, _, _, _, _, _, _, _, _, _ => rfl
  | [], _ :: _, _, _, _, _, _, _, _, _, _, h => by simp [strPath] at h
  | _ :: _, [], _, _, _, _, _, _, _, _, _, h => by simp [strPath] at h
  | k :: p, k' :: q, s, t, x, y, hs, ht, hj, hx, hy, h => by
    obtain ⟨kd, f, g, rfl, rfl, hkd, hk⟩ := hj [] t s rfl rfl
    simp only [strPath, List.map_cons, List.cons.injEq] at h
    simp only [Tree.at_, Option.bind_eq_some_iff] at hx hy
    obtain ⟨a, ha, hx⟩ := hx
    obtain ⟨b, hb, hy⟩ := hy
    have e : k = k' := by
      by_cases hd : kd = .dict
      · subst hd
        obtain ⟨n, rfl⟩ := hs.1 k (Forest.get_mem ha)
        obtain ⟨m, rfl⟩ := ht.1 k' (Forest.get_mem hb)
        have : n = m := h.1
        rw [this]
      · refine str_inj_on ht.2.1 (by rw [hk hd]; exact Forest.get_mem ha) (Forest.get_mem hb) h.1
    subst e
    rw [joinable_names (Forest.get_wf hs.2.2 ha) (Forest.get_wf ht.2.2 hb) (joinable_child hj hb ha) hx hy h.2]

theorem commonKeys_join {α} : ∀ (ts : List (Tree α)) (seen : List (List Name)), (∀ t ∈ ts, t.Wf) →
    (∀ t ∈ ts, ∀ q x, t.at_ q = some x → x.Entry → strPath q ∉ seen) → ts.Pairwise (fun s t => Joinable t s) → commonKeys seen ts = false
  | [], _, _, _, _ => rfl
  | t :: ts, seen, hw, h1, hp => by
    obtain ⟨hp1, hp2⟩ := List.pairwise_cons.mp hp
    have ht := hw t List.mem_cons_self
    simp only [commonKeys, Bool.or_eq_false_iff, List.any_eq_false, List.contains_iff_mem]
    constructor
    · intro q hq
      obtain ⟨p, hp', rfl⟩ := List.mem_map.mp hq
      obtain ⟨x, hx, hx'⟩ := (mem_entryPaths t ht p).mp hp'
      exact h1 t List.mem_cons_self p x hx hx'
    · refine commonKeys_join ts _ (fun s hs => hw s (List.mem_cons_of_mem _ hs)) ?_ hp2
      intro s hs q x hx hx' hmem
      rcases List.mem_append.mp hmem with h | h
      · exact h1 s (List.mem_cons_of_mem _ hs) q x hx hx' h
      · obtain ⟨p, hp', he⟩ := List.mem_map.mp h
        obtain ⟨y, hy, hy'⟩ := (mem_entryPaths t ht p).mp hp'
        have := joinable_names ht (hw s (List.mem_cons_of_mem _ hs)) (hp1 s hs) hy hx he
        subst this
        obtain ⟨kd, f, g, rfl, rfl, hkd, _⟩ := hp1 s hs p _ _ hx hy
        exact hkd hx'

/-! ### The property -/

/-- With `overwrite`: merging compatible trees succeeds; the merged tree has a leaf at a path exactly if some input has
that leaf there and no later input says otherwise. -/
theorem C45_last_wins {α} (st : α → α → Bool) (trees : List (Tree α)) (hne : trees ≠ []) (hw : ∀ t ∈ trees, t.Wf)
    (hc : ∀ t ∈ trees, ∀ s ∈ trees, Compat t s) :
    ∃ r, mergeTrees true st trees = some r ∧
      ∀ q a, r.at_ q = some (.leaf a) ↔ ∃ pre s post, trees = pre ++ s :: post ∧ s.at_ q = some (.leaf a) ∧ ∀ t ∈ post, ¬ Overrides t q := by
  cases trees with
  | nil => exact absurd rfl hne
  | cons t ts =>
    obtain ⟨r, h1, h2, h3, h4⟩ := mergeFrom_spec (st := st) ts t (hw t List.mem_cons_self) (fun s hs => hw s (List.mem_cons_of_mem _ hs))
      (fun s hs => hc s (List.mem_cons_of_mem _ hs) t List.mem_cons_self)
      (fun s hs s' hs' => hc s (List.mem_cons_of_mem _ hs) s' (List.mem_cons_of_mem _ hs'))
    refine ⟨r, by simp [mergeTrees, h1], ?_⟩
    intro q a
    rw [h3]
    constructor
    · rintro (⟨h5, h6⟩ | ⟨pre, s, post, rfl, h5, h6⟩)
      · exact ⟨[], t, ts, rfl, h5, h6⟩
      · exact ⟨t :: pre, s, post, rfl, h5, h6⟩
    · rintro ⟨pre, s, post, he, h5, h6⟩
      cases pre with
      | nil =>
        simp only [List.nil_append, List.cons.injEq] at he
        obtain ⟨rfl, rfl⟩ := he
        exact .inl ⟨h5, h6⟩
      | cons p pre =>
        simp only [List.cons_append, List.cons.injEq] at he
        obtain ⟨rfl, rfl⟩ := he
        exact .inr ⟨pre, s, post, rfl, h5, h6⟩

/-- The merged tree has no path that none of the inputs has. -/
theorem C45_nothing_new {α} (st : α → α → Bool) (trees : List (Tree α)) (hne : trees ≠ []) (hw : ∀ t ∈ trees, t.Wf)
    (hc : ∀ t ∈ trees, ∀ s ∈ trees, Compat t s) {r : Tree α} (h : mergeTrees true st trees = some r) (q : List Key)
    (hq : (r.at_ q).isSome = true) : ∃ t ∈ trees, (t.at_ q).isSome = true := by
  cases trees with
  | nil => exact absurd rfl hne
  | cons t ts =>
    obtain ⟨r', h1, h2, h3, h4⟩ := mergeFrom_spec (st := st) ts t (hw t List.mem_cons_self) (fun s hs => hw s (List.mem_cons_of_mem _ hs))
      (fun s hs => hc s (List.mem_cons_of_mem _ hs) t List.mem_cons_self)
      (fun s hs s' hs' => hc s (List.mem_cons_of_mem _ hs) s' (List.mem_cons_of_mem _ hs'))
    simp [mergeTrees, h1] at h
    subst h
    obtain ⟨x, hx⟩ := Option.isSome_iff_exists.mp hq
    rcases h4 q x hx with h5 | ⟨s, hs, h5⟩
    · exact ⟨t, List.mem_cons_self, h5⟩
    · exact ⟨s, List.mem_cons_of_mem _ hs, h5⟩

/-- Without `overwrite`: if merging succeeds, the leaves and `None`s of the merged tree are those of the inputs. -/
theorem C45_union {α} (st : α → α → Bool) (fields : Kind → List Key) (trees : List (Tree α)) (hne : trees ≠ [])
    (hw : ∀ t ∈ trees, t.Wf ∧ t.Typed fields) {r : Tree α} (h : mergeTrees false st trees = some r) (q : List Key) (x : Tree α) (hx : x.Entry) :
    r.at_ q = some x ↔ ∃ t ∈ trees, t.at_ q = some x := by
  cases trees with
  | nil => exact absurd rfl hne
  | cons t ts =>
    simp only [mergeTrees, Bool.not_false, Bool.true_and] at h
    split at h
    · cases h
    · next hcm =>
      obtain ⟨_, hp⟩ := commonKeys_false (t :: ts) [] (fun s hs => (hw s hs).1) (by simpa using hcm)
      obtain ⟨hp1, hp2⟩ := List.pairwise_cons.mp hp
      rw [mergeFrom_strict ts t r (hw t List.mem_cons_self).1 (hw t List.mem_cons_self).2 (fun s hs => hw s (List.mem_cons_of_mem _ hs)) hp1 hp2 h q x hx]
      simp

/-- Without `overwrite`: two trees with a leaf or `None` at the same path are refused. -/
theorem C45_conflict {α} (st : α → α → Bool) (pre mid post : List (Tree α)) (s t : Tree α) (hw : ∀ u ∈ pre ++ s :: mid ++ t :: post, u.Wf)
    (q : List Key) (x y : Tree α) (hs : s.at_ q = some x) (hx : x.Entry) (ht : t.at_ q = some y) (hy : y.Entry) :
    mergeTrees false st (pre ++ s :: mid ++ t :: post) = none := by
  have key : ∀ l : List (Tree α), l = pre ++ s :: mid ++ t :: post → mergeTrees false st l = none := by
    intro l hl
    cases l with
    | nil => simp at hl
    | cons u us =>
      simp only [mergeTrees, Bool.not_false, Bool.true_and]
      split
      · rfl
      · next hcm =>
        obtain ⟨_, hp⟩ := commonKeys_false (u :: us) [] (by rw [hl]; exact hw) (by simpa using hcm)
        rw [hl, List.append_assoc, List.pairwise_append] at hp
        have := (List.pairwise_cons.mp hp.2.1).1 t (by simp)
        exact (this q x y hs hx ht hy).elim
  exact key _ rfl

/-- Without `overwrite`: trees that have nothing in common but nodes of the same kind are merged. -/
theorem C45_disjoint {α} (st : α → α → Bool) (trees : List (Tree α)) (hw : ∀ t ∈ trees, t.Wf)
    (hj : trees.Pairwise fun s t => Joinable t s) : (mergeTrees false st trees).isSome = true := by
  cases trees with
  | nil => rfl
  | cons t ts =>
    have hcm := commonKeys_join (t :: ts) [] hw (by simp) hj
    obtain ⟨hp1, hp2⟩ := List.pairwise_cons.mp hj
    simp only [mergeTrees, hcm, Bool.not_false, Bool.true_and, Bool.false_eq_true, if_false]
    exact mergeFrom_join ts t (hw t List.mem_cons_self) (fun s hs => hw s (List.mem_cons_of_mem _ hs)) hp1 hp2

/-- Without `overwrite`: a leaf against a node, or nodes of different kinds, at the same path are refused. -/
theorem C45_mismatch {α} (st : α → α → Bool) (fields : Kind → List Key) (s t : Tree α) (hs : s.Wf) (ht : t.Wf) (hsy : s.Typed fields)
    (hty : t.Typed fields) (p : List Key) (x y : Tree α) (hx : s.at_ p = some x) (hy : t.at_ p = some y)
    (hxy : ¬ ∃ kd f g, x = .node kd f ∧ y = .node kd g) : mergeTrees false st [s, t] = none := by
  have key : ∀ (p : List Key) (s t r : Tree α), s.Wf → t.Wf → s.Typed fields → t.Typed fields → t.merge false st s = some r → s.at_ p = some x →
      t.at_ p = some y → (∃ a b, x = .leaf a ∧ y = .leaf b) ∨ ∃ kd f g, x = .node kd f ∧ y = .node kd g := by
    intro p
    induction p with
    | nil =>
      intro s t r h1 h2 hy1 hy2 h hx hy
      cases hx; cases hy
      rcases merge_cases_strict h2 h1 hy2 hy1 h with ⟨a, b, rfl, rfl, rfl⟩ | ⟨rfl, rfl, rfl⟩ | ⟨kd, f, g, R, rfl, rfl, hkd, rfl, hm⟩
      · exact .inl ⟨b, a, rfl, rfl⟩
      · exact .inr ⟨.none, .nil, .nil, rfl, rfl⟩
      · exact .inr ⟨kd, g, f, rfl, rfl⟩
    | cons k p ih =>
      intro s t r h1 h2 hy1 hy2 h hx hy
      rcases merge_cases_strict h2 h1 hy2 hy1 h with ⟨a, b, rfl, rfl, rfl⟩ | ⟨rfl, rfl, rfl⟩ | ⟨kd, f, g, R, rfl, rfl, hkd, rfl, hm⟩
      · cases (leaf_at hx).1
      · cases (none_at hx).1
      · simp only [Tree.at_, Option.bind_eq_some_iff] at hx hy
        obtain ⟨a, ha, hx⟩ := hx
        obtain ⟨b, hb, hy⟩ := hy
        obtain ⟨c, h3, h4⟩ := hm.both k b a hb ha
        exact ih a b c (Forest.get_wf h1.2.2 ha) (Forest.get_wf h2.2.2 hb) (Forest.get_typed hy1.2 ha) (Forest.get_typed hy2.2 hb) h3 hx hy
  cases hm : mergeTrees false st [s, t] with
  | none => rfl
  | some r =>
    have hm' := hm
    simp only [mergeTrees, Bool.not_false, Bool.true_and] at hm
    split at hm
    · cases hm
    · simp only [mergeFrom, Option.bind_eq_some_iff, Option.some.injEq] at hm
      obtain ⟨r', h1, _⟩ := hm
      rcases key p s t r' hs ht hsy hty h1 hx hy with ⟨a, b, rfl, rfl⟩ | h
      · have := C45_conflict st [] [] [] s t (by simp; exact ⟨hs, ht⟩) p (.leaf a) (.leaf b) hx trivial hy trivial
        simp only [List.nil_append, List.cons_append] at this
        rw [this] at hm'; cases hm'
      · exact absurd h hxy

/-- Nothing is merged into an empty dictionary. -/
theorem C45_empty {α} (st : α → α → Bool) (ow : Bool) : mergeTrees (α := α) ow st [] = some (.node .dict .nil) := rfl

/-- The property fails for other nodes: what only the earlier of two custom nodes with different children has is lost. -/
theorem C45_custom_children_lost_fails : ∃ (s t : Tree Nat) (q : List Key), s.Wf ∧ t.Wf ∧ s.at_ q = some (.leaf 1) ∧ t.at_ q = none ∧ ¬ Overrides t q ∧
    ∃ r, mergeTrees true (fun _ _ => true) [s, t] = some r ∧ r.at_ q = none := by
  refine ⟨.node (.custom ['C']) (.cons (.attr ['x']) (.leaf 1) .nil), .node (.custom ['C']) (.cons (.attr ['y']) (.leaf 2) .nil), [.attr ['x']],
    ?_, ?_, rfl, rfl, ?_, _, rfl, rfl⟩
  · simp [Tree.Wf, Forest.Wf, Forest.keys, KeysWf]
  · simp [Tree.Wf, Forest.Wf, Forest.keys, KeysWf]
  · rw [overrides_cons]
    simp [Forest.get]

/-! ### A case -/

/-- `{'a': 1, 'b': {'c': 2}, 'z': None}` and `{'a': 100, 'b': {'e': 4}, 'z': 7}`. -/
def mergeExample1 : Tree Nat := .node .dict (.cons (.dict (.str ['a'])) (.leaf 1) (.cons (.dict (.str ['b']))
  (.node .dict (.cons (.dict (.str ['c'])) (.leaf 2) .nil)) (.cons (.dict (.str ['z'])) .pyNone .nil)))
def mergeExample2 : Tree Nat := .node .dict (.cons (.dict (.str ['a'])) (.leaf 100) (.cons (.dict (.str ['b']))
  (.node .dict (.cons (.dict (.str ['e'])) (.leaf 4) .nil)) (.cons (.dict (.str ['z'])) (.leaf 7) .nil)))
/-- `{'b': {'e': 4}, 'd': [3]}`. -/
def mergeExample3 : Tree Nat := .node .dict (.cons (.dict (.str ['b']))
  (.node .dict (.cons (.dict (.str ['e'])) (.leaf 4) .nil)) (.cons (.dict (.str ['d'])) (.node .list (.cons (.seq 0) (.leaf 3) .nil)) .nil))

example : mergeTrees true (fun _ _ => true) [mergeExample1, mergeExample2] = some (.node .dict (.cons (.dict (.str ['a'])) (.leaf 100)
    (.cons (.dict (.str ['b'])) (.node .dict (.cons (.dict (.str ['c'])) (.leaf 2) (.cons (.dict (.str ['e'])) (.leaf 4) .nil)))
      (.cons (.dict (.str ['z'])) (.leaf 7) .nil)))) := rfl

example : mergeTrees false (fun _ _ => true) [mergeExample1, mergeExample2] = none := by decide

theorem mergeExample_wf : mergeExample1.Wf ∧ mergeExample2.Wf ∧ mergeExample3.Wf := by
  refine ⟨?_, ?_, ?_⟩ <;>
    simp [mergeExample1, mergeExample2, mergeExample3, Tree.Wf, Forest.Wf, Forest.keys, KeysWf, Tree.pyNone, Key.str, Key.name, Atom.toStr, SeqFrom]

mutual
def Tree.dictOnly {α} : Tree α → Bool
  | .leaf _ => true
  | .node kd f => (kd = .dict || kd = .none) && f.dictOnly
def Forest.dictOnly {α} : Forest α → Bool
  | .nil => true
  | .cons _ t r => t.dictOnly && r.dictOnly
end

theorem Forest.get_dictOnly {α} : ∀ {f : Forest α} {k c}, f.dictOnly = true → f.get k = some c → c.dictOnly = true
  | .nil, _, _, _, h => by simp [Forest.get] at h
  | .cons k' t r, k, c, ho, h => by
    simp only [Forest.dictOnly, Bool.and_eq_true] at ho
    simp only [Forest.get] at h
    split at h
    · cases h; exact ho.1
    · exact Forest.get_dictOnly ho.2 h

theorem dictOnly_at {α} : ∀ {p : List Key} {t x : Tree α}, t.dictOnly = true → t.at_ p = some x → x.dictOnly = true
  | [], _, _, h, hx => by cases hx; exact h
  | k :: p, .leaf a, _, h, hx => by simp [Tree.at_] at hx
  | k :: p, .node kd f, x, h, hx => by
    simp only [Tree.at_, Option.bind_eq_some_iff] at hx
    obtain ⟨c, h1, h2⟩ := hx
    simp only [Tree.dictOnly, Bool.and_eq_true] at h
    exact dictOnly_at (Forest.get_dictOnly h.2 h1) h2

theorem compat_dictOnly {α} {t s : Tree α} (ht : t.dictOnly = true) (hs : s.dictOnly = true) : Compat t s := by
  intro p kd f kd' g h1 h2 h3 h4
  have h5 := dictOnly_at ht h1
  have h6 := dictOnly_at hs h2
  simp [Tree.dictOnly, h3, h4] at h5 h6
  exact ⟨by rw [h5.1, h6.1], fun h => absurd h5.1 h⟩

/-- The hypotheses of `C45_last_wins` are met. -/
example : ∀ t ∈ [mergeExample1, mergeExample2], ∀ s ∈ [mergeExample1, mergeExample2], Compat t s := by
  intro t ht s hs
  refine compat_dictOnly ?_ ?_
  · simp at ht; rcases ht with rfl | rfl <;> rfl
  · simp at hs; rcases hs with rfl | rfl <;> rfl

theorem mergeExample_joinable : Joinable mergeExample3 mergeExample1 := by
  intro p x y hx hy
  have dk : ∀ (f g : Forest Nat), ∃ (kd : Kind) (f' g' : Forest Nat), Tree.node .dict f = .node kd f' ∧ Tree.node .dict g = .node kd g' ∧
      kd ≠ .none ∧ (kd ≠ .dict → f'.keys = g'.keys) := fun f g => ⟨.dict, f, g, rfl, rfl, by simp, by simp⟩
  match p with
  | [] => cases hx; cases hy; exact dk _ _
  | k :: p =>
    simp only [mergeExample1, mergeExample3, Tree.at_, Forest.get] at hx hy
    by_cases e1 : Key.dict (.str ['b']) = k
    · subst e1
      simp at hx hy
      match p with
      | [] => cases hx; cases hy; exact dk _ _
      | k :: p =>
        simp only [Tree.at_, Forest.get] at hx hy
        by_cases e2 : Key.dict (.str ['e']) = k
        · subst e2
          simp at hy
        · simp [e2] at hx
    · by_cases e2 : Key.dict (.str ['d']) = k
      · subst e2
        simp at hy
      · simp [e1, e2] at hx

example : (mergeTrees false (fun _ _ => true) [mergeExample1, mergeExample3]).isSome = true :=
  C45_disjoint _ _ (by simp [mergeExample_wf]) (by simp [mergeExample_joinable])

end Verif.Trees
