import Verif.V1.Keys

/-!
# C115: waits of V1 operations meet only their own operation

The keys used by a history of operations are all different; keys of groups of
processes with different prefixes are different; a wait is for the processes that
take part. Three of these are false of the code in part, see the findings.
-/

namespace Verif.V1Keys

/-! ## Decimal numbers and constants -/

theorem decimal_digit {n : Nat} {ch : Char} (h : ch ∈ decimal n) : ch.isDigit = true :=
  Nat.isDigit_of_mem_toDigits (by omega) (by omega) h

theorem decimal_inj {n m : Nat} (h : decimal n = decimal m) : n = m := by
  have h1 := Nat.ofDigitChars_toDigits (b := 10) (n := n) (by omega) (by omega)
  have h2 := Nat.ofDigitChars_toDigits (b := 10) (n := m) (by omega) (by omega)
  have h' : Nat.toDigits 10 n = Nat.toDigits 10 m := h
  rw [h'] at h1
  omega

theorem digits_split {a b : Str} {x y : Char} {r t : Str}
    (ha : ∀ ch ∈ a, ch.isDigit = true) (hb : ∀ ch ∈ b, ch.isDigit = true)
    (hx : x.isDigit = false) (hy : y.isDigit = false)
    (h : a ++ x :: r = b ++ y :: t) : a = b ∧ x = y ∧ r = t := by
  induction a generalizing b with
  | nil =>
    cases b with
    | nil => simp at h; exact ⟨rfl, h.1, h.2⟩
    | cons c b =>
      simp at h
      have := hb c (by simp)
      rw [← h.1, hx] at this; cases this
  | cons c a ih =>
    cases b with
    | nil =>
      simp at h
      have := ha c (by simp)
      rw [h.1, hy] at this; cases this
    | cons d b =>
      simp only [List.cons_append, List.cons.injEq] at h
      obtain ⟨h1, h2⟩ := h
      obtain ⟨e1, e2, e3⟩ := ih (fun ch hc => ha ch (by simp [hc]))
        (fun ch hc => hb ch (by simp [hc])) h2
      exact ⟨by rw [h1, e1], e2, e3⟩

/-- Keys that carry the user's prefix. -/
def baseKeys : List Str :=
  [kNext, kPre, kRm, kPost, kPartial, kCreate, kSaved, kLoad, kLoadAsync, kFin1, kFin2, kFin3]

/-- Whether a string ends in another (proof device). -/
def endsIn (s t : Str) : Bool := t.isSuffixOf s

theorem no_inner : ∀ k1 ∈ baseKeys, ∀ k2 ∈ baseKeys, endsIn k2 ('_' :: k1) = false := by
  decide +kernel

theorem not_inner {k1 k2 : Str} (h1 : k1 ∈ baseKeys) (h2 : k2 ∈ baseKeys) (x : Str) :
    k2 ≠ x ++ '_' :: k1 := by
  intro h
  have hf := no_inner k1 h1 k2 h2
  have ht : endsIn k2 ('_' :: k1) = true := by
    unfold endsIn
    rw [List.isSuffixOf_iff_suffix, h]
    exact List.suffix_append _ _
  rw [ht] at hf; cases hf

theorem unique_some {k1 k2 p1 p2 : Str} (h1 : k1 ∈ baseKeys) (h2 : k2 ∈ baseKeys)
    (h : p1 ++ '_' :: k1 = p2 ++ '_' :: k2) : p1 = p2 ∧ k1 = k2 := by
  rcases List.append_eq_append_iff.mp h with ⟨x, hp, hk⟩ | ⟨x, hp, hk⟩
  · cases x with
    | nil => simp at hp hk; exact ⟨hp.symm, hk⟩
    | cons c x =>
      simp only [List.cons_append, List.cons.injEq] at hk
      exact absurd hk.2 (not_inner h2 h1 x)
  · cases x with
    | nil => simp at hp hk; exact ⟨hp, hk.symm⟩
    | cons c x =>
      simp only [List.cons_append, List.cons.injEq] at hk
      exact absurd hk.2 (not_inner h1 h2 x)

theorem unique_inj {k1 k2 : Str} {p1 p2 : Option Str} (h1 : k1 ∈ baseKeys)
    (h2 : k2 ∈ baseKeys) (h : uniqueKey k1 p1 = uniqueKey k2 p2) : k1 = k2 ∧ p1 = p2 := by
  cases p1 with
  | none =>
    cases p2 with
    | none => exact ⟨h, rfl⟩
    | some p => exact absurd h (not_inner h2 h1 p)
  | some p =>
    cases p2 with
    | none => exact absurd h.symm (not_inner h1 h2 p)
    | some q =>
      have := unique_some h1 h2 h
      exact ⟨this.2, by rw [this.1]⟩

/-! ## The shape of keys -/

/-- The key of a barrier with the user's prefix. -/
def baseKey (i : Nat) (k : Str) (p : Option Str) : Str := opKey (decimal i) (uniqueKey k p)

/-- The two keys of a PyTree. -/
def treeKey (i : Nat) (name : Str) (fin : Bool) : Str :=
  opKey (decimal i ++ '.' :: name) ("save_and_finalize_".toList ++ (decimal i ++ '.' :: name) ++
    (if fin then "_finalize_complete".toList else "_commit_complete".toList))

theorem opKey_head {a b x y : Str} (h : opKey a x = opKey b y) :
    a ++ ']' :: ' ' :: x = b ++ ']' :: ' ' :: y := by
  have h1 : "[op=".toList ++ (a ++ ']' :: ' ' :: x) = "[op=".toList ++ (b ++ ']' :: ' ' :: y) := by
    simpa [opKey, List.append_assoc] using h
  exact List.append_cancel_left h1

theorem baseKey_inj {i j : Nat} {k1 k2 : Str} {p1 p2 : Option Str} (h1 : k1 ∈ baseKeys)
    (h2 : k2 ∈ baseKeys) (h : baseKey i k1 p1 = baseKey j k2 p2) :
    i = j ∧ k1 = k2 ∧ p1 = p2 := by
  obtain ⟨e1, _, e3⟩ := digits_split (fun _ => decimal_digit) (fun _ => decimal_digit)
    (by decide) (by decide) (opKey_head h)
  simp only [List.cons.injEq, true_and] at e3
  have := unique_inj h1 h2 e3
  exact ⟨decimal_inj e1, this.1, this.2⟩

theorem base_ne_tree {i j : Nat} {k n : Str} {p : Option Str} {fin : Bool} :
    baseKey i k p ≠ treeKey j n fin := by
  intro h
  have h1 := opKey_head h
  rw [List.append_assoc, List.cons_append] at h1
  obtain ⟨_, e2, _⟩ := digits_split (fun _ => decimal_digit) (fun _ => decimal_digit)
    (by decide) (by decide) h1
  exact absurd e2 (by decide)

theorem treeKey_inj {i j : Nat} {n m : Str} {f g : Bool} (h : treeKey i n f = treeKey j m g) :
    i = j ∧ n = m ∧ f = g := by
  have h1 := opKey_head h
  rw [List.append_assoc (decimal i) ('.' :: n) (']' :: _),
    List.append_assoc (decimal j) ('.' :: m) (']' :: _), List.cons_append, List.cons_append] at h1
  obtain ⟨e1, _, e3⟩ := digits_split (fun _ => decimal_digit) (fun _ => decimal_digit)
    (by decide) (by decide) h1
  have hij := decimal_inj e1
  subst hij
  have hfg : f = g := by
    have hl := congrArg (fun l : Str => (l.reverse.drop 9).head?) e3
    cases f <;> cases g <;> simp at hl ⊢
  subst hfg
  have hlen := congrArg List.length e3
  have hnm : n.length = m.length := by
    simp only [List.length_append, List.length_cons] at hlen
    omega
  exact ⟨rfl, (List.append_inj e3 hnm).1, rfl⟩

theorem keysOf_append (a b : List Sync) : keysOf (a ++ b) = keysOf a ++ keysOf b := by
  induction a with
  | nil => rfl
  | cons s a ih => cases s <;> simp [keysOf, ih]

theorem keys_keyed (c : Cfg) (i : Nat) (k : Str) :
    keysOf (keyed c i k) = if c.skips then [] else [baseKey i k c.pfx] := by
  unfold keyed sync
  split <;> rfl

theorem keys_tree (c : Cfg) (i : Nat) (n : Str) :
    keysOf (treeSyncs c i n) = if c.skips then [] else [treeKey i n false, treeKey i n true] := by
  unfold treeSyncs sync
  split <;> rfl

theorem keys_dir (c : Cfg) : keysOf (directoryCheck c) = [] := by
  unfold directoryCheck
  split <;> rfl

theorem keys_trees (c : Cfg) (i : Nat) (names : List Str) :
    keysOf (names.flatMap (treeSyncs c i)) =
      if c.skips then [] else names.flatMap (fun n => [treeKey i n false, treeKey i n true]) := by
  induction names with
  | nil => simp [keysOf]
  | cons n ns ih =>
    simp only [List.flatMap_cons, keysOf_append, ih, keys_tree]
    split <;> rfl

theorem nodup_trees (i : Nat) (names : List Str) (h : names.Nodup) :
    (names.flatMap (fun n => [treeKey i n false, treeKey i n true])).Nodup := by
  induction names with
  | nil => simp
  | cons n ns ih =>
    rw [List.nodup_cons] at h
    simp only [List.flatMap_cons]
    rw [List.nodup_append]
    refine ⟨?_, ih h.2, ?_⟩
    · simp only [List.nodup_cons, List.mem_singleton, List.not_mem_nil, not_false_iff,
        List.nodup_nil, and_true]
      intro he
      have := (treeKey_inj he).2.2
      cases this
    · intro a ha b hb hab
      subst hab
      obtain ⟨m, hm, hmem⟩ := List.mem_flatMap.mp hb
      have hn : ∃ f, a = treeKey i n f := by
        simp at ha; rcases ha with h | h
        · exact ⟨_, h⟩
        · exact ⟨_, h⟩
      have hm' : ∃ f, a = treeKey i m f := by
        simp at hmem; rcases hmem with h | h
        · exact ⟨_, h⟩
        · exact ⟨_, h⟩
      obtain ⟨f, hf⟩ := hn
      obtain ⟨g, hg⟩ := hm'
      have := (treeKey_inj (hf.symm.trans hg)).2.1
      exact h.1 (this ▸ hm)

/-! ## Histories -/

/-- An operation whose last barrier is reached before another operation begins,
and which saves every name once. -/
def Plain : Op → Prop
  | .save _ names _ _ => names.Nodup
  | .loadAsync _ late => late = 0
  | _ => True

/-- Between two finalizations there is another operation. -/
def Spaced : List Op → Prop
  | [] => True
  | .finalize _ :: ops => (∀ c ops', ops ≠ .finalize c :: ops') ∧ Spaced ops
  | _ :: ops => Spaced ops

theorem mem_syncs_shape {i : Nat} {op : Op} (hpl : Plain op) {x : Str}
    (h : x ∈ keysOf (syncs i op)) :
    (∃ k p, k ∈ baseKeys ∧ x = baseKey i k p ∧
      ((∃ c, op = .finalize c) ↔ (k = kFin1 ∨ k = kFin2 ∨ k = kFin3))) ∨
    (∃ n f, x = treeKey i n f) := by
  have base : ∀ k p, k ∈ baseKeys → x = baseKey i k p →
      ((∃ c, op = .finalize c) ↔ (k = kFin1 ∨ k = kFin2 ∨ k = kFin3)) →
      (∃ k p, k ∈ baseKeys ∧ x = baseKey i k p ∧
      ((∃ c, op = .finalize c) ↔ (k = kFin1 ∨ k = kFin2 ∨ k = kFin3))) ∨
      (∃ n f, x = treeKey i n f) := fun k p h1 h2 h3 => Or.inl ⟨k, p, h1, h2, h3⟩
  cases op with
  | save c names isP rm =>
    have hno : ∀ k, ¬ (k = kFin1 ∨ k = kFin2 ∨ k = kFin3) →
        ((∃ c', Op.save c names isP rm = .finalize c') ↔ (k = kFin1 ∨ k = kFin2 ∨ k = kFin3)) := by
      intro k hk
      constructor
      · rintro ⟨_, h⟩; cases h
      · intro h; exact absurd h hk
    simp only [syncs, keysOf_append, keys_keyed, keys_dir, keys_trees, List.mem_append] at h
    by_cases hsk : c.skips = true
    · exfalso
      simp only [hsk, if_true, List.not_mem_nil, or_false, false_or] at h
      revert h; cases isP <;> cases rm <;> simp [keysOf_append, keys_keyed, hsk, keysOf]
    · simp only [hsk, if_false, Bool.false_eq_true, List.mem_singleton, List.not_mem_nil,
        or_false] at h
      rcases h with ((h | h) | h) | h
      · exact base _ _ (by decide) h (hno _ (by decide))
      · revert h
        cases isP <;> cases rm <;>
          simp only [if_true, if_false, Bool.false_eq_true, keysOf_append, keys_keyed, hsk,
            keysOf, List.mem_append, List.mem_singleton, List.not_mem_nil, or_false, false_or]
        · rintro ((h | h) | h) <;> exact base _ _ (by decide) h (hno _ (by decide))
        · rintro (((h | h) | h) | h) <;> exact base _ _ (by decide) h (hno _ (by decide))
        · rintro (h | h) <;> exact base _ _ (by decide) h (hno _ (by decide))
        · rintro (h | h) <;> exact base _ _ (by decide) h (hno _ (by decide))
      · obtain ⟨n, _, hm⟩ := List.mem_flatMap.mp h
        simp at hm
        rcases hm with hm | hm
        · exact Or.inr ⟨n, false, hm⟩
        · exact Or.inr ⟨n, true, hm⟩
      · exact base _ _ (by decide) h (hno _ (by decide))
  | load c =>
    simp only [syncs, keysOf_append, keys_keyed, List.mem_append] at h
    by_cases hsk : c.skips = true
    · simp [hsk] at h
    · simp only [hsk, if_false, Bool.false_eq_true, List.mem_singleton] at h
      rcases h with h | h <;> refine base _ _ (by decide) h ⟨?_, fun hk => absurd hk (by decide)⟩ <;>
        (rintro ⟨_, h⟩; cases h)
  | loadAsync c late =>
    have hl : late = 0 := hpl
    subst hl
    simp only [syncs, keysOf_append, keys_keyed, List.mem_append, Nat.add_zero] at h
    by_cases hsk : c.skips = true
    · simp [hsk] at h
    · simp only [hsk, if_false, Bool.false_eq_true, List.mem_singleton] at h
      rcases h with h | h <;> refine base _ _ (by decide) h ⟨?_, fun hk => absurd hk (by decide)⟩ <;>
        (rintro ⟨_, h⟩; cases h)
  | finalize c =>
    have hcol : keysOf (if c.procs ≤ 1 then [] else [Sync.collective (List.range c.procs)]) = [] := by
      split <;> rfl
    simp only [syncs, keysOf_append, keys_keyed, hcol, List.mem_append, List.append_nil] at h
    by_cases hsk : c.skips = true
    · simp [hsk] at h
    · simp only [hsk, if_false, Bool.false_eq_true, List.mem_singleton] at h
      rcases h with (h | h) | h
      · exact base _ _ (by decide) h ⟨fun _ => by decide, fun _ => ⟨c, rfl⟩⟩
      · exact base _ _ (by decide) h ⟨fun _ => by decide, fun _ => ⟨c, rfl⟩⟩
      · exact base _ _ (by decide) h ⟨fun _ => by decide, fun _ => ⟨c, rfl⟩⟩

theorem base_ne {i : Nat} {k1 k2 : Str} {p : Option Str} (h1 : k1 ∈ baseKeys) (h2 : k2 ∈ baseKeys)
    (h : k1 ≠ k2) : baseKey i k1 p ≠ baseKey i k2 p :=
  fun he => h (baseKey_inj h1 h2 he).2.1

theorem nodup_syncs (i : Nat) (op : Op) (hpl : Plain op) : (keysOf (syncs i op)).Nodup := by
  cases op with
  | save c names isP rm =>
    have ht := nodup_trees i names hpl
    simp only [syncs, keysOf_append, keys_keyed, keys_dir, keys_trees]
    by_cases hsk : c.skips = true
    · simp only [hsk, if_true]
      cases isP <;> cases rm <;> simp [keysOf_append, keys_keyed, hsk, keysOf]
    · have hbt : ∀ k, ∀ x ∈ names.flatMap (fun n => [treeKey i n false, treeKey i n true]),
          baseKey i k c.pfx ≠ x := by
        intro k x hx he
        obtain ⟨n, _, hm⟩ := List.mem_flatMap.mp hx
        simp at hm
        rcases hm with hm | hm <;> exact base_ne_tree (he.trans hm)
      have ne : ∀ k1 k2, k1 ∈ baseKeys → k2 ∈ baseKeys → k1 ≠ k2 →
          baseKey i k1 c.pfx ≠ baseKey i k2 c.pfx := fun _ _ a b d => base_ne a b d
      have hpre : ∀ l : List Str, (∀ k ∈ l, k ∈ baseKeys) → l.Nodup →
          (l.map (fun k => baseKey i k c.pfx)).Nodup := by
        intro l hl hn
        induction l with
        | nil => simp
        | cons a l ih =>
          rw [List.nodup_cons] at hn
          rw [List.map_cons, List.nodup_cons]
          refine ⟨fun hm => ?_, ih (fun k hk => hl k (by simp [hk])) hn.2⟩
          obtain ⟨b, hb, he⟩ := List.mem_map.mp hm
          have := (baseKey_inj (hl b (by simp [hb])) (hl a (by simp)) he).2.1
          exact hn.1 (this ▸ hb)
      have build : ∀ l : List Str, (∀ k ∈ l, k ∈ baseKeys) → l.Nodup → kSaved ∉ l →
          (l.map (fun k => baseKey i k c.pfx) ++
            names.flatMap (fun n => [treeKey i n false, treeKey i n true]) ++
            [baseKey i kSaved c.pfx]).Nodup := by
        intro l hl hn hs
        rw [List.nodup_append]
        refine ⟨?_, by simp, ?_⟩
        · rw [List.nodup_append]
          refine ⟨hpre l hl hn, ht, ?_⟩
          intro a ha b hb
          obtain ⟨k, _, he⟩ := List.mem_map.mp ha
          rw [← he]; exact hbt k b hb
        · intro a ha b hb
          simp at hb; subst hb
          rcases List.mem_append.mp ha with ha | ha
          · obtain ⟨k, hk, he⟩ := List.mem_map.mp ha
            rw [← he]
            intro h
            exact hs ((baseKey_inj (hl k hk) (by decide) h).2.1 ▸ hk)
          · exact fun h => hbt kSaved a ha h.symm
      simp only [hsk, if_false, Bool.false_eq_true]
      cases isP <;> cases rm
      · have := build [kNext, kPre, kPost, kCreate] (by decide) (by decide) (by decide)
        simpa [keysOf_append, keys_keyed, hsk, keysOf] using this
      · have := build [kNext, kPre, kRm, kPost, kCreate] (by decide) (by decide) (by decide)
        simpa [keysOf_append, keys_keyed, hsk, keysOf] using this
      · have := build [kNext, kCreate, kPartial] (by decide) (by decide) (by decide)
        simpa [keysOf_append, keys_keyed, hsk, keysOf] using this
      · have := build [kNext, kCreate, kPartial] (by decide) (by decide) (by decide)
        simpa [keysOf_append, keys_keyed, hsk, keysOf] using this
  | load c =>
    simp only [syncs, keysOf_append, keys_keyed]
    split
    · simp
    · have := base_ne (i := i) (k1 := kNext) (k2 := kLoad) (p := c.pfx) (by decide) (by decide) (by decide)
      simpa using this
  | loadAsync c late =>
    have hl : late = 0 := hpl
    subst hl
    simp only [syncs, keysOf_append, keys_keyed, Nat.add_zero]
    split
    · simp
    · have := base_ne (i := i) (k1 := kNext) (k2 := kLoadAsync) (p := c.pfx) (by decide) (by decide)
        (by decide)
      simpa using this
  | finalize c =>
    have hcol : keysOf (if c.procs ≤ 1 then [] else [Sync.collective (List.range c.procs)]) = [] := by
      split <;> rfl
    simp only [syncs, keysOf_append, keys_keyed, hcol, List.append_nil]
    split
    · simp
    · have h1 := base_ne (i := i) (k1 := kFin1) (k2 := kFin2) (p := c.pfx) (by decide) (by decide)
        (by decide)
      have h2 := base_ne (i := i) (k1 := kFin1) (k2 := kFin3) (p := c.pfx) (by decide) (by decide)
        (by decide)
      have h3 := base_ne (i := i) (k1 := kFin2) (k2 := kFin3) (p := c.pfx) (by decide) (by decide)
        (by decide)
      simp [h1, h2, h3]

/-- The operation id inside a key (proof device). -/
def HasId (x : Str) (i : Nat) : Prop :=
  (∃ k p, k ∈ baseKeys ∧ x = baseKey i k p) ∨ ∃ n f, x = treeKey i n f

theorem hasId_unique {x : Str} {i j : Nat} (hi : HasId x i) (hj : HasId x j) : i = j := by
  rcases hi with ⟨k, p, hk, e⟩ | ⟨n, f, e⟩
  · rcases hj with ⟨k', p', hk', e'⟩ | ⟨n', f', e'⟩
    · exact (baseKey_inj hk hk' (e.symm.trans e')).1
    · exact absurd (e.symm.trans e') base_ne_tree
  · rcases hj with ⟨k', p', hk', e'⟩ | ⟨n', f', e'⟩
    · exact absurd (e'.symm.trans e) base_ne_tree
    · exact (treeKey_inj (e.symm.trans e')).1

theorem history_ids {i : Nat} : ∀ {ops : List Op}, (∀ op ∈ ops, Plain op) → Spaced ops →
    ∀ x, x ∈ keysOf (history i ops) → ∃ j, HasId x j ∧ i ≤ j ∧
      (j = i → (∃ c ops', ops = .finalize c :: ops') ∧
        ∃ k p, (k = kFin1 ∨ k = kFin2 ∨ k = kFin3) ∧ x = baseKey i k p)
  | [], _, _, x, h => by simp [history, keysOf] at h
  | op :: ops, hpl, hsp, x, h => by
    have hop := hpl op (by simp)
    have hrest := fun o ho => hpl o (List.mem_cons_of_mem _ ho)
    simp only [history, keysOf_append, List.mem_append] at h
    have hsp' : Spaced ops := by
      cases op <;> first | exact hsp | exact hsp.2
    by_cases ht : op.takesId = true
    · simp only [ht, if_true] at h
      rcases h with h | h
      · rcases mem_syncs_shape hop h with ⟨k, p, hk, e, _⟩ | ⟨n, f, e⟩
        · exact ⟨i + 1, Or.inl ⟨k, p, hk, e⟩, by omega, by omega⟩
        · exact ⟨i + 1, Or.inr ⟨n, f, e⟩, by omega, by omega⟩
      · obtain ⟨j, h1, h2, _⟩ := history_ids hrest hsp' x h
        exact ⟨j, h1, by omega, by omega⟩
    · have hfin : ∃ c, op = .finalize c := by
        cases op with
        | finalize c => exact ⟨c, rfl⟩
        | _ => simp [Op.takesId] at ht
      obtain ⟨c, hc⟩ := hfin
      subst hc
      simp only [Op.takesId, Bool.false_eq_true, if_false] at h
      rcases h with h | h
      · rcases mem_syncs_shape hop h with ⟨k, p, hk, e, hf⟩ | ⟨n, f, e⟩
        · exact ⟨i, Or.inl ⟨k, p, hk, e⟩, by omega,
            fun _ => ⟨⟨c, ops, rfl⟩, k, p, hf.mp ⟨c, rfl⟩, e⟩⟩
        · exfalso
          have hcol : keysOf (if c.procs ≤ 1 then [] else [Sync.collective (List.range c.procs)])
              = [] := by split <;> rfl
          simp only [syncs, keysOf_append, keys_keyed, hcol, List.append_nil, List.mem_append] at h
          by_cases hsk : c.skips = true
          · simp [hsk] at h
          · simp only [hsk, if_false, Bool.false_eq_true, List.mem_singleton] at h
            rcases h with (h | h) | h <;> exact base_ne_tree (h.symm.trans e)
      · obtain ⟨j, h1, h2, h3⟩ := history_ids hrest hsp' x h
        refine ⟨j, h1, h2, fun he => ?_⟩
        obtain ⟨⟨c', ops', hops⟩, _⟩ := h3 he
        exact absurd hops (hsp.1 c' ops')

/-! ## C115 -/

/-- C115. In a history of operations no two waits use the same key: for saves of
any PyTrees with any options, loads, and finalizations with another operation
between them, when asynchronous loads end before the next operation begins. -/
theorem C115_keys_distinct_partial (i : Nat) (ops : List Op) (hpl : ∀ op ∈ ops, Plain op)
    (hsp : Spaced ops) : (keysOf (history i ops)).Nodup := by
  induction ops generalizing i with
  | nil => simp [history, keysOf]
  | cons op ops ih =>
    have hop := hpl op (by simp)
    have hrest := fun o ho => hpl o (List.mem_cons_of_mem _ ho)
    have hsp' : Spaced ops := by
      cases op <;> first | exact hsp | exact hsp.2
    simp only [history, keysOf_append]
    rw [List.nodup_append]
    refine ⟨nodup_syncs _ _ hop, ih _ hrest hsp', ?_⟩
    intro a ha b hb hab
    subst hab
    obtain ⟨j, h1, h2, h3⟩ := history_ids hrest hsp' a hb
    rcases mem_syncs_shape hop ha with ⟨k, p, hk, e, hf⟩ | ⟨n, f, e⟩
    · have hj := hasId_unique h1 (Or.inl ⟨k, p, hk, e⟩)
      obtain ⟨⟨c', ops', hops⟩, k', p', hk', e'⟩ := h3 hj
      by_cases hfin : ∃ c, op = .finalize c
      · obtain ⟨c, hc⟩ := hfin
        subst hc
        exact hsp.1 c' ops' hops
      · have hkb : k' ∈ baseKeys := by
          rcases hk' with h | h | h <;> rw [h] <;> decide
        have := (baseKey_inj hk hkb (e.symm.trans e')).2.1
        exact hfin (hf.mpr (this ▸ hk'))
    · have hj := hasId_unique h1 (Or.inr ⟨n, f, e⟩)
      obtain ⟨_, k', p', _, e'⟩ := h3 hj
      exact base_ne_tree (e'.symm.trans e)

theorem C115_keys_distinct_nonvacuous :
    let c : Cfg := ⟨2, none, some "m".toList⟩
    let ops := [Op.save c ["a".toList, "b".toList] true false, .save c ["a".toList] true false,
      .finalize c, .load c, .finalize c, .loadAsync c 0]
    (∀ op ∈ ops, Plain op) ∧ Spaced ops ∧ (keysOf (history 0 ops)).length = 24 := by
  refine ⟨?_, ?_, by decide +kernel⟩
  · intro op h
    simp only [List.mem_cons, List.not_mem_nil, or_false] at h
    rcases h with h | h | h | h | h | h <;> subst h <;> simp [Plain]
  · simp [Spaced]

/-- C115 (finding): finalizing two partial saves one after the other, or trying
again after a finalization failed, waits at the same keys a second time. -/
theorem C115_finalize_twice_fails (i : Nat) (c d : Cfg) (h : c.skips = false)
    (h' : d.skips = false) (hp : c.pfx = d.pfx) (ops : List Op) :
    ¬ (keysOf (history i (.finalize c :: .finalize d :: ops))).Nodup := by
  intro hn
  simp only [history, Op.takesId, Bool.false_eq_true, if_false, keysOf_append, syncs,
    keys_keyed, h, h', hp] at hn
  rw [List.nodup_append] at hn
  exact hn.2.2 (baseKey i kFin1 d.pfx) (by simp) (baseKey i kFin1 d.pfx) (by simp) rfl

/-- The waits of the last part of an asynchronous load that reaches its last
barrier after `late` other operations have begun. -/
def lateKeys (i : Nat) (c : Cfg) (late : Nat) : List Str :=
  (keysOf (syncs i (.loadAsync c late))).drop 1

/-- C115 (finding): an asynchronous load takes the operation id that is current
when it reaches its last barrier. If one process has begun more operations by then
than another, they wait at different keys, and the load ends in neither. -/
theorem C115_async_load_timing_fails (i : Nat) (c : Cfg) (h : c.skips = false) (a b : Nat) :
    lateKeys i c a = lateKeys i c b ↔ a = b := by
  simp only [lateKeys, syncs, keysOf_append, keys_keyed, h, Bool.false_eq_true, if_false]
  simp only [List.cons_append, List.nil_append, List.drop_succ_cons, List.drop_zero,
    List.cons.injEq, and_true]
  constructor
  · intro he
    have := (baseKey_inj (by decide) (by decide) he).1
    omega
  · intro he; rw [he]

/-- C115 (finding): two asynchronous loads that are both still running when the
second has begun wait at one key. -/
theorem C115_two_async_loads_fails (i : Nat) (c d : Cfg) (h : c.skips = false)
    (h' : d.skips = false) (hp : c.pfx = d.pfx) :
    ¬ (keysOf (history i [.loadAsync c 1, .loadAsync d 0])).Nodup := by
  intro hn
  simp only [history, Op.takesId, if_true, keysOf_append, syncs,
    keys_keyed, h, h', hp, Bool.false_eq_true, if_false, Nat.add_zero] at hn
  rw [List.nodup_append] at hn
  exact hn.2.2 (baseKey (i + 1 + 1) kLoadAsync d.pfx) (by simp)
    (baseKey (i + 1 + 1) kLoadAsync d.pfx) (by simp) rfl

/-- C115. Groups of processes with different prefixes: apart from the keys of
PyTrees, no key of an operation of one group is a key of an operation of the other. -/
theorem C115_prefix_separates_partial (i j : Nat) (op1 op2 : Op) (c1 c2 : Cfg)
    (h1 : op1 = .load c1 ∨ op1 = .finalize c1 ∨ (∃ late, op1 = .loadAsync c1 late) ∨
      ∃ isP rm, op1 = .save c1 [] isP rm)
    (h2 : op2 = .load c2 ∨ op2 = .finalize c2 ∨ (∃ late, op2 = .loadAsync c2 late) ∨
      ∃ names isP rm, op2 = .save c2 names isP rm)
    (hp : c1.pfx ≠ c2.pfx) (x : Str) (hx1 : x ∈ keysOf (syncs i op1)) :
    x ∉ keysOf (syncs j op2) := by
  intro hx2
  have hcol : ∀ c : Cfg, keysOf (if c.procs ≤ 1 then [] else [Sync.collective (List.range c.procs)])
      = [] := by intro c; split <;> rfl
  have a1 : ∃ i' k, k ∈ baseKeys ∧ x = baseKey i' k c1.pfx := by
    rcases h1 with h | h | ⟨late, h⟩ | ⟨isP, rm, h⟩ <;> subst h
    · simp only [syncs, keysOf_append, keys_keyed, List.mem_append] at hx1
      by_cases hsk : c1.skips = true
      · simp [hsk] at hx1
      · simp only [hsk, if_false, Bool.false_eq_true, List.mem_singleton] at hx1
        rcases hx1 with h | h <;> exact ⟨_, _, by decide, h⟩
    · simp only [syncs, keysOf_append, keys_keyed, hcol, List.append_nil, List.mem_append] at hx1
      by_cases hsk : c1.skips = true
      · simp [hsk] at hx1
      · simp only [hsk, if_false, Bool.false_eq_true, List.mem_singleton] at hx1
        rcases hx1 with (h | h) | h <;> exact ⟨_, _, by decide, h⟩
    · simp only [syncs, keysOf_append, keys_keyed, List.mem_append] at hx1
      by_cases hsk : c1.skips = true
      · simp [hsk] at hx1
      · simp only [hsk, if_false, Bool.false_eq_true, List.mem_singleton] at hx1
        rcases hx1 with h | h <;> exact ⟨_, _, by decide, h⟩
    · simp only [syncs, keysOf_append, keys_keyed, keys_dir, List.append_nil, List.flatMap_nil,
        keysOf, List.mem_append] at hx1
      by_cases hsk : c1.skips = true
      · exfalso
        revert hx1; cases isP <;> cases rm <;> simp [keysOf_append, keys_keyed, hsk, keysOf]
      · simp only [hsk, if_false, Bool.false_eq_true, List.mem_singleton] at hx1
        rcases hx1 with (h | h) | h
        · exact ⟨_, _, by decide, h⟩
        · revert h
          cases isP <;> cases rm <;>
            simp only [if_true, if_false, Bool.false_eq_true, keysOf_append, keys_keyed, hsk,
              keysOf, List.mem_append, List.mem_singleton, List.not_mem_nil, or_false, false_or]
          · rintro ((h | h) | h) <;> exact ⟨_, _, by decide, h⟩
          · rintro (((h | h) | h) | h) <;> exact ⟨_, _, by decide, h⟩
          · rintro (h | h) <;> exact ⟨_, _, by decide, h⟩
          · rintro (h | h) <;> exact ⟨_, _, by decide, h⟩
        · exact ⟨_, _, by decide, h⟩
  obtain ⟨i', k1, hk1, e1⟩ := a1
  have a2 : (∃ j' k, k ∈ baseKeys ∧ x = baseKey j' k c2.pfx) ∨ ∃ j' n f, x = treeKey j' n f := by
    rcases h2 with h | h | ⟨late, h⟩ | ⟨names, isP, rm, h⟩ <;> subst h
    · simp only [syncs, keysOf_append, keys_keyed, List.mem_append] at hx2
      by_cases hsk : c2.skips = true
      · simp [hsk] at hx2
      · simp only [hsk, if_false, Bool.false_eq_true, List.mem_singleton] at hx2
        rcases hx2 with h | h <;> exact Or.inl ⟨_, _, by decide, h⟩
    · simp only [syncs, keysOf_append, keys_keyed, hcol, List.append_nil, List.mem_append] at hx2
      by_cases hsk : c2.skips = true
      · simp [hsk] at hx2
      · simp only [hsk, if_false, Bool.false_eq_true, List.mem_singleton] at hx2
        rcases hx2 with (h | h) | h <;> exact Or.inl ⟨_, _, by decide, h⟩
    · simp only [syncs, keysOf_append, keys_keyed, List.mem_append] at hx2
      by_cases hsk : c2.skips = true
      · simp [hsk] at hx2
      · simp only [hsk, if_false, Bool.false_eq_true, List.mem_singleton] at hx2
        rcases hx2 with h | h <;> exact Or.inl ⟨_, _, by decide, h⟩
    · simp only [syncs, keysOf_append, keys_keyed, keys_dir, keys_trees, List.append_nil,
        List.mem_append] at hx2
      by_cases hsk : c2.skips = true
      · exfalso
        revert hx2; cases isP <;> cases rm <;> simp [keysOf_append, keys_keyed, hsk, keysOf]
      · simp only [hsk, if_false, Bool.false_eq_true, List.mem_singleton] at hx2
        rcases hx2 with ((h | h) | h) | h
        · exact Or.inl ⟨_, _, by decide, h⟩
        · left
          revert h
          cases isP <;> cases rm <;>
            simp only [if_true, if_false, Bool.false_eq_true, keysOf_append, keys_keyed, hsk,
              keysOf, List.mem_append, List.mem_singleton, List.not_mem_nil, or_false, false_or]
          · rintro ((h | h) | h) <;> exact ⟨_, _, by decide, h⟩
          · rintro (((h | h) | h) | h) <;> exact ⟨_, _, by decide, h⟩
          · rintro (h | h) <;> exact ⟨_, _, by decide, h⟩
          · rintro (h | h) <;> exact ⟨_, _, by decide, h⟩
        · obtain ⟨n, _, hm⟩ := List.mem_flatMap.mp h
          simp at hm
          rcases hm with hm | hm
          · exact Or.inr ⟨j, n, false, hm⟩
          · exact Or.inr ⟨j, n, true, hm⟩
        · exact Or.inl ⟨_, _, by decide, h⟩
  rcases a2 with ⟨j', k2, hk2, e2⟩ | ⟨j', n, f, e2⟩
  · exact hp (baseKey_inj hk1 hk2 (e1.symm.trans e2)).2.2
  · exact base_ne_tree (e1.symm.trans e2)

theorem C115_prefix_separates_nonvacuous :
    let c1 : Cfg := ⟨4, some [0, 1], some "a".toList⟩
    (keysOf (syncs 1 (.load c1))).length = 2 := by decide +kernel

/-- C115 (finding): the prefix does not keep groups apart that save PyTrees. Two
disjoint groups of processes with different prefixes that save a PyTree of the
same name with the same operation id wait at the same key, each for other
processes. -/
theorem C115_prefix_ignored_fails (i : Nat) (c1 c2 : Cfg) (n : Str) (names1 names2 : List Str)
    (isP1 rm1 isP2 rm2 : Bool) (h1 : n ∈ names1) (h2 : n ∈ names2)
    (hs1 : c1.skips = false) (hs2 : c2.skips = false) :
    ∃ key, Sync.barrier key c1.members ∈ syncs i (.save c1 names1 isP1 rm1) ∧
      Sync.barrier key c2.members ∈ syncs i (.save c2 names2 isP2 rm2) := by
  refine ⟨treeKey i n false, ?_, ?_⟩
  · simp only [syncs, List.mem_append, List.mem_flatMap]
    exact Or.inl (Or.inr ⟨n, h1, by simp [treeSyncs, sync, hs1, treeKey]⟩)
  · simp only [syncs, List.mem_append, List.mem_flatMap]
    exact Or.inl (Or.inr ⟨n, h2, by simp [treeSyncs, sync, hs2, treeKey]⟩)

/-- C115. Every barrier of an operation is for exactly the processes that take
part in it. -/
theorem C115_barriers_for_members (i : Nat) (c : Cfg) (op : Op)
    (hop : op = .load c ∨ op = .finalize c ∨ (∃ late, op = .loadAsync c late) ∨
      ∃ names isP rm, op = .save c names isP rm)
    (key : Str) (who : List Nat) (h : Sync.barrier key who ∈ syncs i op) :
    who = c.members := by
  have hk : ∀ j k, Sync.barrier key who ∈ keyed c j k → who = c.members := by
    intro j k hm
    unfold keyed sync at hm
    split at hm
    · simp at hm
    · simp at hm; exact hm.2
  have ht : ∀ n, Sync.barrier key who ∈ treeSyncs c i n → who = c.members := by
    intro n hm
    simp only [treeSyncs, sync, List.mem_append] at hm
    rcases hm with hm | hm <;>
      (split at hm
       · simp at hm
       · simp at hm; exact hm.2)
  have hd : Sync.barrier key who ∉ directoryCheck c := by
    unfold directoryCheck; split <;> simp
  rcases hop with e | e | ⟨late, e⟩ | ⟨names, isP, rm, e⟩ <;> subst e
  · simp only [syncs, List.mem_append] at h
    rcases h with h | h <;> exact hk _ _ h
  · simp only [syncs, List.mem_append] at h
    rcases h with ((h | h) | h) | h
    · exact hk _ _ h
    · exact hk _ _ h
    · split at h <;> simp at h
    · exact hk _ _ h
  · simp only [syncs, List.mem_append] at h
    rcases h with h | h <;> exact hk _ _ h
  · simp only [syncs, List.mem_append, List.mem_flatMap] at h
    rcases h with (((h | h) | h) | ⟨n, _, h⟩) | h
    · exact hk _ _ h
    · exact absurd h hd
    · revert h
      cases isP <;> cases rm <;> simp only [if_true, if_false, Bool.false_eq_true,
        List.mem_append, List.not_mem_nil, or_false]
      · rintro ((h | h) | h) <;> exact hk _ _ h
      · rintro (((h | h) | h) | h) <;> exact hk _ _ h
      · rintro (h | h) <;> exact hk _ _ h
      · rintro (h | h) <;> exact hk _ _ h
    · exact ht n h
    · exact hk _ _ h

theorem C115_barriers_for_members_nonvacuous :
    Sync.barrier (baseKey 3 kLoad none) [1, 2] ∈ syncs 3 (.load ⟨4, some [1, 2], none⟩) := by
  decide +kernel

/-- C115 (finding): a save by some of the processes waits for all processes of the
job, also for those that do not take part, when the directories are compared. -/
theorem C115_subset_waits_for_all_fails (i : Nat) (c : Cfg) (names : List Str) (isP rm : Bool)
    (hn : 2 ≤ c.procs) (p : Nat) (hp : p < c.procs) :
    ∃ who, Sync.collective who ∈ syncs i (.save c names isP rm) ∧ p ∈ who := by
  refine ⟨List.range c.procs, ?_, by simp [hp]⟩
  simp only [syncs, List.mem_append]
  exact Or.inl (Or.inl (Or.inl (Or.inr (by
    unfold directoryCheck; rw [if_neg (by omega)]; simp))))

/-- C115. A save or load without partners waits for nobody: with one process in
the job there is no wait at all. -/
theorem C115_single_process_never_waits (i : Nat) (c : Cfg) (h : c.procs = 1) (op : Op)
    (hop : op = .load c ∨ op = .finalize c ∨ (∃ late, op = .loadAsync c late) ∨
      ∃ names isP rm, op = .save c names isP rm) : syncs i op = [] := by
  have hs : c.skips = true := by simp [Cfg.skips, h]
  have hk : ∀ j k, keyed c j k = [] := by intro j k; simp [keyed, sync, hs]
  have ht : ∀ n, treeSyncs c i n = [] := by intro n; simp [treeSyncs, sync, hs]
  have hts : ∀ names : List Str, names.flatMap (treeSyncs c i) = [] := by
    intro names
    induction names with
    | nil => rfl
    | cons n ns ih => rw [List.flatMap_cons, ht, ih]; rfl
  have hd : directoryCheck c = [] := by simp [directoryCheck, h]
  rcases hop with e | e | ⟨late, e⟩ | ⟨names, isP, rm, e⟩ <;> subst e
  · simp [syncs, hk]
  · simp [syncs, hk, h]
  · simp [syncs, hk]
  · simp only [syncs, hk, hts, hd]
    cases isP <;> cases rm <;> rfl

end Verif.V1Keys
