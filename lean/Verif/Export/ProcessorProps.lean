import Verif.Export.Processor

/-!
# C130: a JAX data processor is prepared once, with its own inputs, and its sizes stay independent
-/

namespace Verif.Export.Processor

/-! ## Specification: uses only the types of Processor.lean -/

/-- The named inputs of what is available; the key may be there several times in the list, then the first
counts. -/
def Offers (a : Avail) (key : Str) (v : Leaf) : Prop := ∃ kvs, a = .mapping kvs ∧ kvs.lookup key = some v

/-- Everything that is available. -/
def Everything : Avail → List (Str × Leaf)
  | .mapping kvs => kvs
  | .other leaves => leaves

/-- The dimension at a place: of input `i`, number `j`. -/
def At (inputs : List (Str × Leaf)) (i j : Nat) (d : Dim) : Prop :=
  ∃ key ds, inputs[i]? = some (key, .shape ds) ∧ ds[j]? = some d

/-- The symbol given to a place. -/
def Symbol {P : Type} (f : Fn P) (i j : Nat) (s : Str) : Prop :=
  ∃ key ss, f.inputs[i]? = some (key, ss) ∧ ss[j]? = some s

/-! ## Symbols -/

theorem digits_inj {a b : Nat} (h : Nat.toDigits 10 a = Nat.toDigits 10 b) : a = b := by
  have ha := Nat.ofDigitChars_toDigits (b := 10) (n := a) (by decide) (by decide)
  have hb := Nat.ofDigitChars_toDigits (b := 10) (n := b) (by decide) (by decide)
  rw [← ha, h, hb]

theorem fresh_inj {a b : Nat} (h : fresh a = fresh b) : a = b :=
  digits_inj (List.append_cancel_left h)

theorem symbols_mono (ds : List Dim) : ∀ c first, c ≤ (symbols c first ds).2 := by
  induction ds with
  | nil => intro c first; exact Nat.le_refl c
  | cons d ds ih =>
    intro c first
    cases d with
    | size n => exact ih c false
    | named s => exact ih c false
    | unknown =>
      simp only [symbols]
      split
      · exact ih c false
      · exact Nat.le_trans (Nat.le_succ c) (ih (c + 1) false)

/-- Every place has the symbol of its dimension; new ones are between the counters. -/
theorem symbols_at (ds : List Dim) : ∀ c first j d, ds[j]? = some d →
    (∀ n, d = .size n → (symbols c first ds).1[j]? = some (Nat.toDigits 10 n)) ∧
    (∀ s, d = .named s → (symbols c first ds).1[j]? = some s) ∧
    (d = .unknown → first = true → j = 0 → (symbols c first ds).1[j]? = some "b".toList) ∧
    (d = .unknown → (first = false ∨ 0 < j) → ∃ k, (symbols c first ds).1[j]? = some (fresh k) ∧
      c ≤ k ∧ k < (symbols c first ds).2) := by
  induction ds with
  | nil => intro c first j d h; simp at h
  | cons e ds ih =>
    intro c first j d h
    cases j with
    | zero =>
      simp only [List.getElem?_cons_zero, Option.some.injEq] at h
      subst h
      refine ⟨?_, ?_, ?_, ?_⟩
      · rintro n rfl; rfl
      · rintro s rfl; rfl
      · rintro rfl rfl _; rfl
      · rintro rfl (rfl | h)
        · exact ⟨c, rfl, Nat.le_refl c, symbols_mono ds (c + 1) false⟩
        · exact absurd h (Nat.lt_irrefl 0)
    | succ j =>
      simp only [List.getElem?_cons_succ] at h
      have step : ∃ c', c ≤ c' ∧ (symbols c first (e :: ds)).1[j + 1]? = (symbols c' false ds).1[j]? ∧
          (symbols c first (e :: ds)).2 = (symbols c' false ds).2 := by
        cases e with
        | size n => exact ⟨c, Nat.le_refl c, rfl, rfl⟩
        | named s => exact ⟨c, Nat.le_refl c, rfl, rfl⟩
        | unknown =>
          cases first with
          | true => exact ⟨c, Nat.le_refl c, rfl, rfl⟩
          | false => exact ⟨c + 1, Nat.le_succ c, rfl, rfl⟩
      obtain ⟨c', hc, h1, h2⟩ := step
      rw [h1, h2]
      obtain ⟨i1, i2, _, i4⟩ := ih c' false j d h
      refine ⟨i1, i2, fun _ _ h => (by cases h), fun hd _ => ?_⟩
      obtain ⟨k, hk, hl, hu⟩ := i4 hd (Or.inl rfl)
      exact ⟨k, hk, Nat.le_trans hc hl, hu⟩

/-- Within a shape new symbols grow. -/
theorem symbols_lt (ds : List Dim) : ∀ c first j j' k k', j < j' → ds[j]? = some .unknown → ds[j']? = some .unknown →
    (first = false ∨ 0 < j) → (symbols c first ds).1[j]? = some (fresh k) → (symbols c first ds).1[j']? = some (fresh k') →
    k < k' := by
  induction ds with
  | nil => intro c first j j' k k' _ h; simp at h
  | cons e ds ih =>
    intro c first j j' k k' hj h h' hf hk hk'
    cases j' with
    | zero => exact absurd hj (Nat.not_lt_zero _)
    | succ j' =>
      simp only [List.getElem?_cons_succ] at h'
      cases j with
      | zero =>
        simp only [List.getElem?_cons_zero, Option.some.injEq] at h
        subst h
        rcases hf with rfl | hf
        · simp only [symbols, Bool.false_eq_true, if_false, List.getElem?_cons_zero, Option.some.injEq,
            List.getElem?_cons_succ] at hk hk'
          have := fresh_inj hk
          subst this
          obtain ⟨_, _, _, i4⟩ := symbols_at ds (c + 1) false j' .unknown h'
          obtain ⟨k2, hk2, hl, _⟩ := i4 rfl (Or.inl rfl)
          rw [hk'] at hk2
          rw [fresh_inj (Option.some.inj hk2)]
          exact hl
        · exact absurd hf (Nat.lt_irrefl 0)
      | succ j =>
        simp only [List.getElem?_cons_succ] at h
        have step : ∃ c', ∀ j, (symbols c first (e :: ds)).1[j + 1]? = (symbols c' false ds).1[j]? := by
          cases e with
          | size n => exact ⟨c, fun _ => rfl⟩
          | named s => exact ⟨c, fun _ => rfl⟩
          | unknown =>
            cases first with
            | true => exact ⟨c, fun _ => rfl⟩
            | false => exact ⟨c + 1, fun _ => rfl⟩
        obtain ⟨c', hs⟩ := step
        rw [hs] at hk hk'
        exact ih c' false j j' k k' (Nat.lt_of_succ_lt_succ hj) h h' (Or.inl rfl) hk hk'

/-- Each input is given its symbols from some counter on; later inputs from later counters. -/
theorem all_at (ls : List (Str × List Dim)) : ∀ (c i : Nat) (key : Str) (ds : List Dim), ls[i]? = some (key, ds) →
    ∃ c', c ≤ c' ∧ (allSymbols c ls)[i]? = some (key, (symbols c' true ds).1) ∧
      ∀ (i' : Nat) (key' : Str) (ds' : List Dim), i < i' → ls[i']? = some (key', ds') →
        ∃ c'', (symbols c' true ds).2 ≤ c'' ∧ (allSymbols c ls)[i']? = some (key', (symbols c'' true ds').1) := by
  induction ls with
  | nil => intro c i key ds h; simp at h
  | cons e ls ih =>
    obtain ⟨k0, d0⟩ := e
    intro c i key ds h
    cases i with
    | zero =>
      simp only [List.getElem?_cons_zero, Option.some.injEq, Prod.mk.injEq] at h
      obtain ⟨rfl, rfl⟩ := h
      refine ⟨c, Nat.le_refl c, rfl, ?_⟩
      intro i' key' ds' hi h'
      cases i' with
      | zero => exact absurd hi (Nat.lt_irrefl 0)
      | succ i' =>
        obtain ⟨c'', h1, h2, _⟩ := ih (symbols c true d0).2 i' key' ds' (by simpa using h')
        exact ⟨c'', h1, by simpa [allSymbols] using h2⟩
    | succ i =>
      obtain ⟨c', h1, h2, h3⟩ := ih (symbols c true d0).2 i key ds (by simpa using h)
      refine ⟨c', Nat.le_trans (symbols_mono d0 c true) h1, by simpa [allSymbols] using h2, ?_⟩
      intro i' key' ds' hi h'
      cases i' with
      | zero => exact absurd hi (Nat.not_lt_zero _)
      | succ i' =>
        obtain ⟨c'', h4, h5⟩ := h3 i' key' ds' (Nat.lt_of_succ_lt_succ hi) (by simpa using h')
        exact ⟨c'', h4, by simpa [allSymbols] using h5⟩

theorem shapes_at (sig : List (Str × Leaf)) : ∀ ls, shapes sig = .ok ls →
    ls.length = sig.length ∧
    (∀ (i : Nat) (key : Str) (ds : List Dim), sig[i]? = some (key, .shape ds) → ls[i]? = some (key, ds)) ∧
    (∀ (i : Nat) (key : Str) (l : Leaf), sig[i]? = some (key, l) → ∃ ds, l = .shape ds) := by
  induction sig with
  | nil => intro ls h; injection h with h; subst h; simp
  | cons e sig ih =>
    obtain ⟨k, l⟩ := e
    intro ls h
    cases l with
    | plain => cases h
    | anyRank => cases h
    | shape ds =>
      simp only [shapes] at h
      split at h
      · rename_i r hr
        injection h with h; subst h
        obtain ⟨i0, i1, i2⟩ := ih r hr
        refine ⟨by simp [i0], ?_, ?_⟩
        · intro i key ds' h
          cases i with
          | zero => simp at h ⊢; exact h
          | succ i => simpa using i1 i key ds' (by simpa using h)
        · intro i key l h
          cases i with
          | zero => simp at h; exact ⟨ds, h.2.symm⟩
          | succ i => exact i2 i key l (by simpa using h)
      · cases h

theorem shapes_ok (sig : List (Str × Leaf)) (h : ∀ e ∈ sig, ∃ ds, e.2 = .shape ds) : ∃ ls, shapes sig = .ok ls := by
  induction sig with
  | nil => exact ⟨[], rfl⟩
  | cons e sig ih =>
    obtain ⟨k, l⟩ := e
    obtain ⟨ds, hd⟩ := h (k, l) (by simp)
    dsimp at hd; subst hd
    obtain ⟨ls, hl⟩ := ih (fun e he => h e (by simp [he]))
    exact ⟨(k, ds) :: ls, by simp [shapes, hl]⟩

theorem get_eq (m : List (Str × Leaf)) (key : Str) : get m key = m.lookup key := by
  induction m with
  | nil => rfl
  | cons e rest ih =>
    obtain ⟨k, v⟩ := e
    by_cases h : k = key
    · subst h; simp [get, List.lookup]
    · have h' : (key == k) = false := by simpa using fun h'' => h h''.symm
      simp [get, List.lookup, h, h', ih]

theorem select_ok (m : List (Str × Leaf)) : ∀ ks r, select m ks = .ok r →
    r.map Prod.fst = ks ∧ ∀ e ∈ r, m.lookup e.1 = some e.2 := by
  intro ks
  induction ks with
  | nil => intro r h; injection h with h; subst h; simp
  | cons k ks ih =>
    intro r h
    simp only [select, get_eq] at h
    split at h
    · cases h
    · rename_i v hv
      split at h
      · rename_i r' hr
        injection h with h; subst h
        obtain ⟨h1, h2⟩ := ih r' hr
        refine ⟨by simp [h1], ?_⟩
        intro e he
        rcases List.mem_cons.1 he with rfl | he
        · exact hv
        · exact h2 e he
      · cases h

theorem select_iff (m : List (Str × Leaf)) : ∀ ks, (∃ r, select m ks = .ok r) ↔ ∀ k ∈ ks, ∃ v, m.lookup k = some v := by
  intro ks
  induction ks with
  | nil => simp [select]
  | cons k ks ih =>
    simp only [select, get_eq, List.mem_cons, forall_eq_or_imp]
    rw [← ih]
    cases m.lookup k with
    | none => simp
    | some v => cases select m ks <;> simp

/-! ## The property -/

/-- What a successful preparation leaves. -/
theorem prepare_ok {P : Type} {converts : Fn P → Bool} {p : Proc P} {a : Avail} (h : (prepare converts p a).1 = .ok ()) :
    p.prepared = false ∧ p.name ≠ [] ∧ ∃ sig ds, choose p a = .ok sig ∧ shapes sig = .ok ds ∧
      converts ⟨p.params, allSymbols 0 ds⟩ = true ∧
      (prepare converts p a).2 =
        { p with signature := some sig, function := some ⟨p.params, allSymbols 0 ds⟩, prepared := true } := by
  unfold prepare at h ⊢
  by_cases hp : p.prepared = true
  · rw [if_pos hp] at h; cases h
  · rw [if_neg hp] at h ⊢
    by_cases hn : p.name = []
    · rw [if_pos hn] at h; cases h
    · rw [if_neg hn] at h ⊢
      refine ⟨by simpa using hp, hn, ?_⟩
      cases hc : choose p a with
      | error e => rw [hc] at h; cases h
      | ok sig =>
        rw [hc] at h
        dsimp only at h ⊢
        cases hs : shapes sig with
        | error e => rw [hs] at h; cases h
        | ok ds =>
          rw [hs] at h
          dsimp only at h ⊢
          by_cases hk : converts ⟨p.params, allSymbols 0 ds⟩ = true
          · rw [if_pos hk]; exact ⟨sig, ds, rfl, hs, hk, rfl⟩
          · rw [if_neg hk] at h; cases h

/-- C130: once prepared, a processor is never prepared again: every later call raises and changes nothing. -/
theorem C130_once {P : Type} (c c' : Fn P → Bool) (p : Proc P) (a a' : Avail) (h : (prepare c p a).1 = .ok ()) :
    prepare c' (prepare c p a).2 a' = (.error .runtime, (prepare c p a).2) := by
  obtain ⟨_, _, sig, ds, _, _, _, hr⟩ := prepare_ok h
  rw [hr]
  rfl

/-- C130: a call that raises leaves the processor unprepared, without function, so that it can be tried
again with the same effect as at first. -/
theorem C130_retry {P : Type} (c c' : Fn P → Bool) (p : Proc P) (a a' : Avail) (hp : p.prepared = false)
    (h : (prepare c p a).1 ≠ .ok ()) :
    (prepare c p a).2.prepared = false ∧ (prepare c p a).2.function = p.function ∧
    (prepare c' (prepare c p a).2 a').1 = (prepare c' p a').1 ∧
    ((prepare c' p a').1 = .ok () → (prepare c' (prepare c p a).2 a').2 = (prepare c' p a').2) := by
  have key : ∃ s, (prepare c p a).2 = { p with signature := s } := by
    unfold prepare at h ⊢
    by_cases hp' : p.prepared = true
    · rw [if_pos hp']; exact ⟨p.signature, rfl⟩
    · rw [if_neg hp'] at h ⊢
      by_cases hn : p.name = []
      · rw [if_pos hn]; exact ⟨p.signature, rfl⟩
      · rw [if_neg hn] at h ⊢
        cases hc : choose p a with
        | error e => exact ⟨p.signature, rfl⟩
        | ok sig =>
          rw [hc] at h
          dsimp only at h ⊢
          cases hs : shapes sig with
          | error e => exact ⟨some sig, rfl⟩
          | ok ds =>
            rw [hs] at h
            dsimp only at h ⊢
            by_cases hk : c ⟨p.params, allSymbols 0 ds⟩ = true
            · rw [if_pos hk] at h; exact absurd rfl h
            · rw [if_neg hk]; exact ⟨some sig, rfl⟩
  obtain ⟨s, hs⟩ := key
  rw [hs]
  have hch : ∀ a, choose { p with signature := s } a = choose p a := by intro a; cases a <;> rfl
  have hprep : (prepare c' { p with signature := s } a').1 = (prepare c' p a').1 := by
    unfold prepare
    rw [hch]
    dsimp only
    repeat' split
    all_goals rfl
  refine ⟨hp, rfl, hprep, ?_⟩
  intro hok
  obtain ⟨_, _, sig, ds, h1, h2, _, h4⟩ := prepare_ok hok
  obtain ⟨_, _, sig', ds', h1', h2', _, h4'⟩ := prepare_ok (hprep.trans hok)
  rw [hch, h1] at h1'
  injection h1' with h1'; subst h1'
  rw [h2] at h2'
  injection h2' with h2'; subst h2'
  rw [h4, h4']

/-- C130: the function is prepared with exactly the inputs it names, each as it is available; with
everything if it names none. And with the parameters exactly if it has some. -/
theorem C130_inputs {P : Type} (c : Fn P → Bool) (p : Proc P) (a : Avail) (h : (prepare c p a).1 = .ok ()) :
    ∃ sig f, (prepare c p a).2.signature = some sig ∧ (prepare c p a).2.function = some f ∧ f.params = p.params ∧
      (p.keys = [] → sig = Everything a) ∧
      (p.keys ≠ [] → sig.map Prod.fst = p.keys ∧ ∀ e ∈ sig, Offers a e.1 e.2) := by
  obtain ⟨_, _, sig, ds, hc, _, _, hr⟩ := prepare_ok h
  refine ⟨sig, _, by rw [hr], by rw [hr], rfl, ?_, ?_⟩
  · intro hk
    cases a with
    | mapping kvs => simp only [choose, hk, if_true] at hc; injection hc with hc; exact hc.symm
    | other ls => simp only [choose, hk, if_true] at hc; injection hc with hc; exact hc.symm
  · intro hk
    cases a with
    | mapping kvs =>
      simp only [choose, hk, if_false] at hc
      obtain ⟨h1, h2⟩ := select_ok _ _ _ hc
      exact ⟨h1, fun e he => ⟨kvs, rfl, h2 e he⟩⟩
    | other ls => simp [choose, hk] at hc

/-- C130: preparing succeeds exactly if it is the first time, the processor has a name, the inputs it
names are available, all have shapes, and the conversion succeeds. -/
theorem C130_accepts {P : Type} (p : Proc P) (a : Avail) :
    (∃ c, (prepare c p a).1 = .ok ()) ↔
      p.prepared = false ∧ p.name ≠ [] ∧ (p.keys ≠ [] → ∀ k ∈ p.keys, ∃ v, Offers a k v) ∧
      (p.keys = [] → ∀ e ∈ Everything a, ∃ ds, e.2 = .shape ds) ∧
      (∀ k ∈ p.keys, ∀ v, Offers a k v → ∃ ds, v = .shape ds) := by
  constructor
  · rintro ⟨c, h⟩
    obtain ⟨h1, h2, sig, ds, hc, hs, _, hr⟩ := prepare_ok h
    have hsh := (shapes_at sig ds hs).2.2
    have hall : ∀ e ∈ sig, ∃ ds, e.2 = .shape ds := by
      intro e he
      obtain ⟨i, hi⟩ := List.getElem?_of_mem he
      exact hsh i e.1 e.2 hi
    refine ⟨h1, h2, ?_, ?_, ?_⟩
    · intro hk k hm
      cases a with
      | mapping kvs =>
        simp only [choose, hk, if_false] at hc
        obtain ⟨v, hv⟩ := (select_iff kvs p.keys).1 ⟨_, hc⟩ k hm
        exact ⟨v, kvs, rfl, hv⟩
      | other ls => simp [choose, hk] at hc
    · intro hk
      cases a with
      | mapping kvs => simp only [choose, hk, if_true] at hc; injection hc with hc; subst hc; exact hall
      | other ls => simp only [choose, hk, if_true] at hc; injection hc with hc; subst hc; exact hall
    · rintro k hm v ⟨kvs, rfl, hv⟩
      have hk : p.keys ≠ [] := List.ne_nil_of_mem hm
      simp only [choose, hk, if_false] at hc
      obtain ⟨h3, h4⟩ := select_ok _ _ _ hc
      rw [← h3] at hm
      obtain ⟨e, he, rfl⟩ := List.mem_map.1 hm
      have := h4 e he
      rw [hv] at this
      rw [Option.some.inj this]
      exact hall e he
  · rintro ⟨h1, h2, h3, h4, h5⟩
    refine ⟨fun _ => true, ?_⟩
    have : ∃ sig, choose p a = .ok sig ∧ ∀ e ∈ sig, ∃ ds, e.2 = .shape ds := by
      by_cases hk : p.keys = []
      · cases a with
        | mapping kvs => exact ⟨kvs, by simp [choose, hk], h4 hk⟩
        | other ls => exact ⟨ls, by simp [choose, hk], h4 hk⟩
      · cases a with
        | mapping kvs =>
          obtain ⟨r, hr⟩ := (select_iff kvs p.keys).2 (fun k hm => by
            obtain ⟨v, kvs', he, hv⟩ := h3 hk k hm
            cases he; exact ⟨v, hv⟩)
          refine ⟨r, by simp [choose, hk, hr], ?_⟩
          obtain ⟨h6, h7⟩ := select_ok _ _ _ hr
          intro e he
          exact h5 e.1 (h6 ▸ List.mem_map.2 ⟨e, he, rfl⟩) e.2 ⟨kvs, rfl, h7 e he⟩
        | other ls =>
          obtain ⟨k, hm⟩ := List.exists_mem_of_ne_nil _ hk
          obtain ⟨v, kvs, he, _⟩ := h3 hk k hm
          cases he
    obtain ⟨sig, hc, hsh⟩ := this
    obtain ⟨ds, hds⟩ := shapes_ok sig hsh
    unfold prepare
    rw [if_neg (by simp [h1]), if_neg h2, hc]
    dsimp only
    rw [hds]
    rfl

/-- C130: every input keeps its key and place; known sizes and the user's names stay, an unknown first
size is the batch, and every other unknown size has a symbol. -/
theorem C130_symbols {P : Type} (c : Fn P → Bool) (p : Proc P) (a : Avail) (h : (prepare c p a).1 = .ok ()) :
    ∃ sig f, (prepare c p a).2.signature = some sig ∧ (prepare c p a).2.function = some f ∧
      ∀ i j d, At sig i j d →
        (∀ n, d = .size n → Symbol f i j (Nat.toDigits 10 n)) ∧
        (∀ s, d = .named s → Symbol f i j s) ∧
        (d = .unknown → j = 0 → Symbol f i j "b".toList) ∧
        (d = .unknown → 0 < j → ∃ k, Symbol f i j ("d_".toList ++ Nat.toDigits 10 k)) := by
  obtain ⟨_, _, sig, ls, hc, hs, _, hr⟩ := prepare_ok h
  refine ⟨sig, _, by rw [hr], by rw [hr], ?_⟩
  rintro i j d ⟨key, ds, hi, hj⟩
  obtain ⟨c', _, hc', _⟩ := all_at ls 0 i key ds ((shapes_at sig ls hs).2.1 i key ds hi)
  obtain ⟨s1, s2, s3, s4⟩ := symbols_at ds c' true j d hj
  refine ⟨fun n hd => ⟨key, _, hc', s1 n hd⟩, fun s hd => ⟨key, _, hc', s2 s hd⟩,
    fun hd h0 => ⟨key, _, hc', s3 hd rfl h0⟩, fun hd h0 => ?_⟩
  obtain ⟨k, hk, _⟩ := s4 hd (Or.inr h0)
  exact ⟨k, key, _, hc', hk⟩

/-- C130: unknown sizes at different places, other than first ones, are independent: their symbols
differ, in all inputs, and from the batch and from all numbers. -/
theorem C130_independent {P : Type} (c : Fn P → Bool) (p : Proc P) (a : Avail) (h : (prepare c p a).1 = .ok ()) :
    ∃ sig f, (prepare c p a).2.signature = some sig ∧ (prepare c p a).2.function = some f ∧
      ∀ i j i' j' s s', At sig i j .unknown → At sig i' j' .unknown → 0 < j → 0 < j' → (i, j) ≠ (i', j') →
        Symbol f i j s → Symbol f i' j' s' → s ≠ s' ∧ s ≠ "b".toList ∧ ∀ n, s ≠ Nat.toDigits 10 n := by
  obtain ⟨_, _, sig, ls, hc, hs, _, hr⟩ := prepare_ok h
  refine ⟨sig, _, by rw [hr], by rw [hr], ?_⟩
  have hsh := (shapes_at sig ls hs).2.1
  have main : ∀ i j i' j' s s', At sig i j .unknown → At sig i' j' .unknown → 0 < j → 0 < j' →
      (i < i' ∨ i = i' ∧ j < j') → Symbol ⟨p.params, allSymbols 0 ls⟩ i j s →
      Symbol ⟨p.params, allSymbols 0 ls⟩ i' j' s' → s ≠ s' := by
    rintro i j i' j' s s' ⟨key, ds, hi, hj⟩ ⟨key', ds', hi', hj'⟩ p1 p2 hlt ⟨k1, ss, hS, hs1⟩ ⟨k2, ss', hS', hs2⟩
    obtain ⟨c', _, hc', hlater⟩ := all_at ls 0 i key ds (hsh i key ds hi)
    dsimp only at hS hS'
    rw [hc'] at hS
    cases hS
    obtain ⟨_, _, _, s4⟩ := symbols_at ds c' true j _ hj
    obtain ⟨k, hk, _, hu⟩ := s4 rfl (Or.inr p1)
    rw [hk] at hs1; cases hs1
    rcases hlt with hlt | ⟨rfl, hlt⟩
    · obtain ⟨c'', hle, hc''⟩ := hlater i' key' ds' hlt (hsh i' key' ds' hi')
      rw [hc''] at hS'; cases hS'
      obtain ⟨_, _, _, s4'⟩ := symbols_at ds' c'' true j' _ hj'
      obtain ⟨k', hk', hl', _⟩ := s4' rfl (Or.inr p2)
      rw [hk'] at hs2; cases hs2
      intro he
      have := fresh_inj he
      omega
    · rw [hi] at hi'; cases hi'
      rw [hc'] at hS'; cases hS'
      obtain ⟨_, _, _, s4'⟩ := symbols_at ds c' true j' _ hj'
      obtain ⟨k', hk', _⟩ := s4' rfl (Or.inr p2)
      rw [hk'] at hs2; cases hs2
      intro he
      have := fresh_inj he
      subst this
      exact absurd (symbols_lt ds c' true j j' k k hlt hj hj' (Or.inr p1) hk hk') (Nat.lt_irrefl _)
  intro i j i' j' s s' ha ha' p1 p2 hne hS hS'
  refine ⟨?_, ?_⟩
  · rcases Nat.lt_trichotomy i i' with hl | he | hl
    · exact main i j i' j' s s' ha ha' p1 p2 (Or.inl hl) hS hS'
    · rcases Nat.lt_trichotomy j j' with hl | he' | hl
      · exact main i j i' j' s s' ha ha' p1 p2 (Or.inr ⟨he, hl⟩) hS hS'
      · exact absurd (by rw [he, he']) hne
      · exact (main i' j' i j s' s ha' ha p2 p1 (Or.inr ⟨he.symm, hl⟩) hS' hS).symm
    · exact (main i' j' i j s' s ha' ha p2 p1 (Or.inl hl) hS' hS).symm
  · obtain ⟨key, ds, hi, hj⟩ := ha
    obtain ⟨k1, ss, hS1, hs1⟩ := hS
    obtain ⟨c', _, hc', _⟩ := all_at ls 0 i key ds (hsh i key ds hi)
    dsimp only at hS1
    rw [hc'] at hS1; cases hS1
    obtain ⟨_, _, _, s4⟩ := symbols_at ds c' true j _ hj
    obtain ⟨k, hk, _⟩ := s4 rfl (Or.inr p1)
    rw [hk] at hs1; cases hs1
    refine ⟨by simp [fresh], ?_⟩
    intro n he
    have hd : 'd' ∈ Nat.toDigits 10 n := he ▸ (by simp [fresh])
    exact absurd (Nat.isDigit_of_mem_toDigits (by decide) (by decide) hd) (by decide)

/-! ## Saving the parameters -/

/-- A name that is one path segment. -/
def Segment (s : Str) : Prop := s ≠ [] ∧ '/' ∉ s

theorem join_seg (a n : Str) (h : Segment n) : join a n = a ++ '/' :: n := by
  unfold join
  rw [if_neg]
  intro hh
  cases n with
  | nil => exact absurd rfl h.1
  | cons x n =>
    simp at hh
    exact h.2 (by simp [hh])

theorem last_seg (a a' n n' : Str) (hn : '/' ∉ n) (hn' : '/' ∉ n') (h : a ++ '/' :: n = a' ++ '/' :: n') : n = n' ∧ a = a' := by
  have h' := congrArg List.reverse h
  simp only [List.reverse_append, List.reverse_cons, List.append_assoc, List.singleton_append] at h'
  have gen : ∀ (x y u v : Str), '/' ∉ x → '/' ∉ y → x ++ '/' :: u = y ++ '/' :: v → x = y ∧ u = v := by
    intro x
    induction x with
    | nil =>
      intro y u v _ hy he
      cases y with
      | nil => simp at he; exact ⟨rfl, he⟩
      | cons b y =>
        simp only [List.nil_append, List.cons_append, List.cons.injEq] at he
        exact absurd (by rw [he.1]; simp) hy
    | cons b x ih =>
      intro y u v hx hy he
      cases y with
      | nil =>
        simp only [List.nil_append, List.cons_append, List.cons.injEq] at he
        exact absurd (by rw [← he.1]; simp) hx
      | cons b' y =>
        simp only [List.cons_append, List.cons.injEq] at he
        obtain ⟨h1, h2⟩ := ih y u v (fun h => hx (by simp [h])) (fun h => hy (by simp [h])) he.2
        exact ⟨by rw [he.1, h1], h2⟩
  obtain ⟨h1, h2⟩ := gen n.reverse n'.reverse a.reverse a'.reverse (by simpa using hn) (by simpa using hn') h'
  exact ⟨List.reverse_inj.1 h1, List.reverse_inj.1 h2⟩

/-- C130: a processor saves something exactly if it has parameters; then in a directory of its own (other
names give other directories), which is the recorded path inside the model. -/
theorem C130_saved {P : Type} (p q : Proc P) (model : Str) (s t : Saved) (hp : Segment p.name) (hq : Segment q.name)
    (hs : save p model = some s) (ht : save q model = some t) (hne : p.name ≠ q.name) :
    s.written ≠ t.written ∧
    (p.weightsName = none → q.weightsName = none → s.key ≠ t.key) ∧
    ((∀ c, p.checkpointPath = some c → c.head? ≠ some '/') → s.written = model ++ '/' :: s.recorded) := by
  unfold save at hs ht
  cases hP : p.params with
  | none => rw [hP] at hs; cases hs
  | some _ =>
  cases hQ : q.params with
  | none => rw [hQ] at ht; cases ht
  | some _ =>
  rw [hP] at hs; rw [hQ] at ht
  injection hs with hs; injection ht with ht
  subst hs; subst ht
  dsimp only
  refine ⟨?_, ?_, ?_⟩
  · rw [join_seg _ _ hp, join_seg _ _ hq]
    intro h
    exact hne (last_seg _ _ _ _ hp.2 hq.2 h).1
  · intro h1 h2
    rw [h1, h2]
    simp only [orElse]
    intro h
    exact hne (List.append_cancel_left h)
  · intro hrel
    rw [join_seg _ _ hp, join_seg _ _ hp]
    have : join model (orElse p.checkpointPath "processor_checkpoint".toList) =
        model ++ '/' :: orElse p.checkpointPath "processor_checkpoint".toList := by
      unfold join
      rw [if_neg]
      cases hc : p.checkpointPath with
      | none => decide
      | some c =>
        cases c with
        | nil => decide
        | cons x c => exact hrel _ hc
    rw [this]
    simp

/-- C130: the options decide where and under which key parameters are saved; an option that is not given
or empty stands for the documented default. -/
theorem C130_options {P : Type} (p : Proc P) (model : Str) (s : Saved) (hp : Segment p.name) (hs : save p model = some s) :
    (p.checkpointPath = none ∨ p.checkpointPath = some [] →
      s.written = model ++ "/processor_checkpoint/".toList ++ p.name ∧ s.recorded = "processor_checkpoint/".toList ++ p.name) ∧
    (∀ c, p.checkpointPath = some c → c ≠ [] → s.recorded = c ++ '/' :: p.name) ∧
    (p.weightsName = none ∨ p.weightsName = some [] → s.key = "params_".toList ++ p.name) ∧
    (∀ w, p.weightsName = some w → w ≠ [] → s.key = w) := by
  unfold save at hs
  cases hP : p.params with
  | none => rw [hP] at hs; cases hs
  | some _ =>
  rw [hP] at hs
  injection hs with hs
  subst hs
  dsimp only
  rw [join_seg _ _ hp, join_seg _ _ hp]
  refine ⟨?_, ?_, ?_, ?_⟩
  · intro h
    have : orElse p.checkpointPath "processor_checkpoint".toList = "processor_checkpoint".toList := by
      rcases h with h | h <;> rw [h] <;> rfl
    rw [this]
    simp [join]
  · intro c hc hne
    rw [hc]
    cases c with
    | nil => exact absurd rfl hne
    | cons x c => rfl
  · rintro (h | h) <;> rw [h] <;> rfl
  · intro w hw hne
    rw [hw]
    cases w with
    | nil => exact absurd rfl hne
    | cons x c => rfl

/-- C130: without parameters there is nothing to save, and with parameters there is. -/
theorem C130_saves {P : Type} (p : Proc P) (model : Str) : (save p model).isSome = p.params.isSome := by
  unfold save
  cases p.params <;> rfl

/-! ## Findings -/

/-- C130 (finding): the first unknown sizes of all inputs are the same symbol: inputs that are not batched
together cannot have different first sizes. -/
theorem C130_batch_fails {P : Type} (c : Fn P → Bool) (p : Proc P) (a : Avail) (h : (prepare c p a).1 = .ok ()) :
    ∃ sig f, (prepare c p a).2.signature = some sig ∧ (prepare c p a).2.function = some f ∧
      ∀ i i', At sig i 0 .unknown → At sig i' 0 .unknown → ∃ s, Symbol f i 0 s ∧ Symbol f i' 0 s := by
  obtain ⟨sig, f, h1, h2, h3⟩ := C130_symbols c p a h
  exact ⟨sig, f, h1, h2, fun i i' ha ha' => ⟨_, (h3 i 0 _ ha).2.2.1 rfl rfl, (h3 i' 0 _ ha').2.2.1 rfl rfl⟩⟩

/-- C130 (finding): a user's name may be one of the generated ones: an unknown size is then tied to it. -/
theorem C130_collision_fails {P : Type} (params : Option P) (name : Str) (hn : name ≠ []) :
    let p : Proc P := { name, keys := [], params }
    let a : Avail := .other [("x".toList, .shape [.named "d_0".toList, .unknown])]
    ((prepare (fun _ => true) p a).2.function.map (·.inputs)) = some [("x".toList, ["d_0".toList, "d_0".toList])] := by
  simp only [prepare, hn, Bool.false_eq_true, if_false, choose, if_true, shapes, allSymbols, symbols]
  rfl

/-- C130 (finding): an input of unknown rank is foreseen by the generator of symbols, but never gets
there: preparing raises. -/
theorem C130_rank_fails {P : Type} (c : Fn P → Bool) (p : Proc P) (key : Str) (hp : p.prepared = false) (hn : p.name ≠ [])
    (hk : p.keys = []) : (prepare c p (.other [(key, .anyRank)])).1 = .error .type := by
  simp [prepare, hp, hn, choose, hk, shapes]

/-- C130 (finding): with an absolute path the parameters are written outside of the model, at the same
place for every model. -/
theorem C130_outside_fails {P : Type} (p : Proc P) (m m' : Str) (c : Str) (hc : p.checkpointPath = some ('/' :: c)) :
    (save p m).map (·.written) = (save p m').map (·.written) := by
  unfold save
  cases p.params with
  | none => rfl
  | some _ => simp [hc, orElse, join]

/-- C130 (finding): processors that are given the same name for their weights record them under one key. -/
theorem C130_weights_fails {P : Type} (p q : Proc P) (model : Str) (s t : Saved) (w : Str) (hw : w ≠ [])
    (hp : p.weightsName = some w) (hq : q.weightsName = some w) (hs : save p model = some s) (ht : save q model = some t) :
    s.key = t.key := by
  unfold save at hs ht
  cases hP : p.params with
  | none => rw [hP] at hs; cases hs
  | some _ =>
  cases hQ : q.params with
  | none => rw [hQ] at ht; cases ht
  | some _ =>
  rw [hP] at hs; rw [hQ] at ht
  injection hs with hs; injection ht with ht
  subst hs; subst ht
  dsimp only
  rw [hp, hq]
  cases w with
  | nil => exact absurd rfl hw
  | cons x w => rfl

/-! ## The hypotheses are met -/

/-- A processor with parameters and two inputs chosen out of three. -/
theorem C130_nonvacuous :
    let p : Proc Nat := { name := "pre".toList, keys := ["x".toList, "y".toList], params := some 7 }
    let a : Avail := .mapping [("y".toList, .shape [.unknown, .unknown]), ("z".toList, .plain),
      ("x".toList, .shape [.unknown, .size 4, .unknown, .named "n".toList])]
    (match (prepare (fun _ => true) p a).1 with | .ok _ => true | _ => false) = true ∧
    ((prepare (fun _ => true) p a).2.function.map (·.inputs)) =
      some [("x".toList, ["b".toList, "4".toList, "d_0".toList, "n".toList]), ("y".toList, ["b".toList, "d_1".toList])] ∧
    (match (prepare (fun _ => true) { p with keys := ["w".toList] } a).1 with | .ok _ => true | _ => false) = false ∧
    save p "/m".toList = some ⟨"/m/processor_checkpoint/pre".toList, "params_pre".toList, "processor_checkpoint/pre".toList⟩ := by
  decide +kernel

end Verif.Export.Processor
