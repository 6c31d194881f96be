import Verif.Export.Signature
import Verif.Export.SignatureSpec

/-!
# C98: default values of inputs and auto-batching
-/

namespace Verif.Export.SignatureProps
open Verif.Export.Signature Verif.Export.SignatureSpec

/-! ## Default values -/

theorem tensor_iff {X : Type} (l : Spec X) : hasDefault l = false ↔ l = .tensor := by
  cases l <;> simp [hasDefault]

theorem values_spec {X : Type} : ∀ (ls : List (Spec X)), (∀ l ∈ ls, hasDefault l = true) →
    ∃ bs : List Bool, bs.length = (values ls).length ∧
      ls = ((values ls).zip bs).map fun p => .withDefault p.1 p.2 := by
  intro ls
  induction ls with
  | nil => intro _; exact ⟨[], rfl, rfl⟩
  | cons l ls ih =>
    intro h
    cases l with
    | tensor => have := h _ (List.mem_cons_self ..); simp [hasDefault] at this
    | withDefault v b =>
      obtain ⟨bs, h1, h2⟩ := ih fun l hl => h l (List.mem_cons_of_mem _ hl)
      refine ⟨b :: bs, by simp [values, h1], ?_⟩
      simp only [values, List.zip_cons_cons, List.map_cons]
      rw [← h2]

theorem values_zip {X : Type} : ∀ (vs : List X) (bs : List Bool), bs.length = vs.length →
    values ((vs.zip bs).map fun p => (.withDefault p.1 p.2 : Spec X)) = vs := by
  intro vs
  induction vs with
  | nil => intro bs _; rfl
  | cons v vs ih =>
    intro bs h
    cases bs with
    | nil => simp at h
    | cons b bs => simp only [List.zip_cons_cons, List.map_cons, values, ih bs (by simpa using h)]

theorem getDefault_iff {T X : Type} (s : Tree T (Spec X)) (d : Option (Tree T X)) :
    getDefault s = .ok d ↔ DefaultOf s d := by
  by_cases h1 : s.leaves.any hasDefault = true
  · obtain ⟨l, hl, hd⟩ := List.any_eq_true.1 h1
    by_cases h2 : s.leaves.any (fun l => !hasDefault l) = true
    · obtain ⟨l', hl', hd'⟩ := List.any_eq_true.1 h2
      have ht' := (tensor_iff l').1 (by simpa using hd')
      simp only [getDefault, h1, h2, Bool.not_true, Bool.false_eq_true, if_false, if_true, reduceCtorEq,
        false_iff]
      intro hD
      cases d with
      | none =>
        have := hD l hl
        rw [this] at hd
        simp [hasDefault] at hd
      | some t =>
        obtain ⟨_, _, bs, _, h3⟩ := hD
        rw [h3] at hl'
        obtain ⟨p, _, hp⟩ := List.mem_map.1 hl'
        rw [ht'] at hp
        simp at hp
    · have hall : ∀ l ∈ s.leaves, hasDefault l = true := by
        intro l hl
        cases hx : hasDefault l with
        | true => rfl
        | false => exact absurd (List.any_eq_true.2 ⟨l, hl, by simp [hx]⟩) h2
      simp only [getDefault, h1, h2, Bool.not_true, Bool.false_eq_true, if_false, Except.ok.injEq]
      constructor
      · intro e
        subst e
        exact ⟨rfl, fun e => by rw [e] at hl; simp at hl, values_spec _ hall⟩
      · intro hD
        cases d with
        | none =>
          have := hD l hl
          rw [this] at hd
          simp [hasDefault] at hd
        | some t =>
          obtain ⟨h3, _, bs, h4, h5⟩ := hD
          have : values s.leaves = t.leaves := by rw [h5, values_zip _ _ h4]
          rw [this, ← h3]
  · have hall : ∀ l ∈ s.leaves, l = .tensor := by
      intro l hl
      rw [← tensor_iff]
      cases hx : hasDefault l with
      | false => rfl
      | true => exact absurd (List.any_eq_true.2 ⟨l, hl, hx⟩) h1
    have h1' : s.leaves.any hasDefault = false := by simpa using h1
    simp only [getDefault, h1', Bool.not_false, if_true, Except.ok.injEq]
    constructor
    · intro e; subst e; exact hall
    · intro hD
      cases d with
      | none => rfl
      | some t =>
        obtain ⟨_, h3, bs, _, h5⟩ := hD
        cases hs : s.leaves with
        | nil => exact absurd hs h3
        | cons l ls =>
          have hl := hall l (by rw [hs]; exact List.mem_cons_self ..)
          have hm : l ∈ s.leaves := by rw [hs]; exact List.mem_cons_self ..
          rw [h5] at hm
          obtain ⟨p, _, hp⟩ := List.mem_map.1 hm
          rw [hl] at hp
          simp at hp

/-- The parameters of a function with their defaults. -/
inductive Defaults {T X : Type} : List (Param T X) → List (String × Option (Tree T X)) → Prop where
  | nil : Defaults [] []
  | cons (p : Param T X) (ps : List (Param T X)) (d : Option (Tree T X))
      (ds : List (String × Option (Tree T X))) (h : DefaultOf p.spec d) (ht : Defaults ps ds) :
      Defaults (p :: ps) ((p.name, d) :: ds)

theorem getDefaults_iff {T X : Type} : ∀ (ps : List (Param T X)) ds,
    getDefaults ps = .ok ds ↔ Defaults ps ds := by
  intro ps
  induction ps with
  | nil =>
    intro ds
    simp only [getDefaults, Except.ok.injEq]
    constructor
    · intro h; subst h; exact .nil
    · intro h; cases h; rfl
  | cons p ps ih =>
    intro ds
    simp only [getDefaults]
    cases h1 : getDefault p.spec with
    | error e =>
      simp only [reduceCtorEq, false_iff]
      intro h
      cases h with
      | cons _ _ d ds h ht => rw [(getDefault_iff _ _).2 h] at h1; simp at h1
    | ok d =>
      cases h2 : getDefaults ps with
      | error e =>
        simp only [reduceCtorEq, false_iff]
        intro h
        cases h with
        | cons _ _ d ds h ht => rw [(ih _).2 ht] at h2; simp at h2
      | ok ds' =>
        simp only [Except.ok.injEq]
        constructor
        · intro h; subst h; exact .cons p ps d ds' ((getDefault_iff _ _).1 h1) ((ih _).1 h2)
        · intro h
          cases h with
          | cons _ _ d' ds'' h ht =>
            rw [(ih _).2 ht] at h2
            rw [(getDefault_iff _ _).2 h] at h1
            simp only [Except.ok.injEq] at h1 h2
            rw [h1, h2]

theorem orderOk_iff {D : Type} : ∀ (ds : List (String × Option D)) (seen : Bool),
    orderOk seen ds = true ↔ (seen = true → ∀ d ∈ ds, d.2.isSome = true) ∧
      ds.Pairwise fun a b => a.2.isSome = true → b.2.isSome = true := by
  intro ds
  induction ds with
  | nil => intro seen; simp [orderOk]
  | cons p ds ih =>
    intro seen
    obtain ⟨n, d⟩ := p
    cases d with
    | none =>
      simp only [orderOk, Bool.and_eq_true, ih seen]
      cases seen <;> simp
    | some v =>
      simp only [orderOk, ih true, List.pairwise_cons]
      constructor
      · rintro ⟨h1, h2⟩
        refine ⟨fun _ d hd => ?_, fun d hd _ => h1 trivial d hd, h2⟩
        rcases List.mem_cons.1 hd with e | e
        · subst e; rfl
        · exact h1 trivial d e
      · rintro ⟨_, h2, h3⟩
        exact ⟨fun _ d hd => h2 d hd rfl, h3⟩

theorem withDefaultArgs_iff {T X : Type} (sig : List (Param T X)) (ds) :
    withDefaultArgs sig = .ok ds ↔ Defaults sig ds ∧
      ds.Pairwise fun a b => a.2.isSome = true → b.2.isSome = true := by
  simp only [withDefaultArgs]
  cases h : getDefaults sig with
  | error e =>
    simp only [reduceCtorEq, false_iff, not_and]
    intro hD
    rw [(getDefaults_iff _ _).2 hD] at h
    simp at h
  | ok ds' =>
    have hD := (getDefaults_iff _ _).1 h
    have huniq : ∀ ds, Defaults sig ds → ds = ds' := by
      intro ds hd
      rw [(getDefaults_iff _ _).2 hd] at h
      simpa using h
    simp only
    by_cases ha : ds'.all (fun d => d.2.isNone) = true
    · rw [if_pos ha]
      simp only [Except.ok.injEq]
      constructor
      · intro e
        subst e
        refine ⟨hD, ?_⟩
        rw [List.pairwise_iff_forall_sublist]
        intro a b hab hs
        have : a ∈ ds' := hab.subset (by simp)
        have := List.all_eq_true.1 ha a this
        cases hx : a.2 <;> simp [hx] at hs this
      · rintro ⟨h1, _⟩; exact (huniq _ h1).symm
    · rw [if_neg ha]
      by_cases ho : orderOk false ds' = true
      · rw [if_pos ho]
        simp only [Except.ok.injEq]
        constructor
        · intro e; subst e; exact ⟨hD, ((orderOk_iff _ _).1 ho).2⟩
        · rintro ⟨h1, _⟩; exact (huniq _ h1).symm
      · rw [if_neg ho]
        simp only [reduceCtorEq, false_iff, not_and]
        intro hd hp
        have := huniq _ hd
        subst this
        exact ho ((orderOk_iff _ _).2 ⟨by simp, hp⟩)

theorem default_some {T X : Type} {s : Tree T (Spec X)} {d : Option (Tree T X)}
    (h : DefaultOf s d) : d.isSome = true ↔ ∃ l ∈ s.leaves, l ≠ .tensor := by
  cases d with
  | none =>
    simp only [Option.isSome_none, Bool.false_eq_true, false_iff]
    rintro ⟨l, hl, hne⟩
    exact hne (h l hl)
  | some t =>
    simp only [Option.isSome_some, true_iff]
    obtain ⟨_, h3, bs, _, h5⟩ := h
    cases hs : s.leaves with
    | nil => exact absurd hs h3
    | cons l ls =>
      refine ⟨l, List.mem_cons_self .., ?_⟩
      have hm : l ∈ s.leaves := by rw [hs]; exact List.mem_cons_self ..
      rw [h5] at hm
      obtain ⟨p, _, hp⟩ := List.mem_map.1 hm
      rw [← hp]; simp

/-- C98: a signature is accepted exactly when each parameter has default values
for all of its tensors or for none, and no parameter without default values comes
after one with them. -/
theorem C98_accepts {T X : Type} (sig : List (Param T X)) :
    (∃ ds, withDefaultArgs sig = .ok ds) ↔
      (∀ p ∈ sig, (∀ l ∈ p.spec.leaves, l = .tensor) ∨ ∀ l ∈ p.spec.leaves, l ≠ .tensor) ∧
      sig.Pairwise fun p q =>
        (∃ l ∈ p.spec.leaves, l ≠ .tensor) → ∃ l ∈ q.spec.leaves, l ≠ .tensor := by
  have hpair : ∀ (sig : List (Param T X)) ds, Defaults sig ds →
      ((ds.Pairwise fun a b => a.2.isSome = true → b.2.isSome = true) ↔
        sig.Pairwise fun p q =>
          (∃ l ∈ p.spec.leaves, l ≠ .tensor) → ∃ l ∈ q.spec.leaves, l ≠ .tensor) := by
    intro sig ds h
    induction h with
    | nil => simp
    | cons p ps d ds h ht ih =>
      rw [List.pairwise_cons, List.pairwise_cons, ih]
      have hh : (∀ a' ∈ ds, d.isSome = true → a'.2.isSome = true) ↔
          ∀ a' ∈ ps, (∃ l ∈ p.spec.leaves, l ≠ .tensor) → ∃ l ∈ a'.spec.leaves, l ≠ .tensor := by
        rw [default_some h]
        clear ih h
        induction ht with
        | nil => simp
        | cons q qs d' ds' h' _ ih' =>
          simp only [List.forall_mem_cons, default_some h', ih']
      exact and_congr hh Iff.rfl
  constructor
  · rintro ⟨ds, h⟩
    obtain ⟨h1, h2⟩ := (withDefaultArgs_iff sig ds).1 h
    refine ⟨?_, (hpair sig ds h1).1 h2⟩
    clear h h2
    induction h1 with
    | nil => simp
    | cons p ps d ds h _ ih =>
      intro q hq
      rcases List.mem_cons.1 hq with e | e
      · subst e
        cases d with
        | none => exact .inl h
        | some t =>
          obtain ⟨_, _, bs, _, h5⟩ := h
          refine .inr fun l hl => ?_
          rw [h5] at hl
          obtain ⟨p, _, hp⟩ := List.mem_map.1 hl
          rw [← hp]; simp
      · exact ih q e
  · rintro ⟨h1, h2⟩
    have : ∃ ds, Defaults sig ds := by
      clear h2
      induction sig with
      | nil => exact ⟨[], .nil⟩
      | cons p ps ih =>
        obtain ⟨ds, hds⟩ := ih fun q hq => h1 q (List.mem_cons_of_mem _ hq)
        rcases h1 p (List.mem_cons_self ..) with h | h
        · exact ⟨_, .cons p ps none ds h hds⟩
        · by_cases hl : p.spec.leaves = []
          · exact ⟨_, .cons p ps none ds (by simp [DefaultOf, hl]) hds⟩
          · refine ⟨_, .cons p ps (some ⟨p.spec.td, values p.spec.leaves⟩) ds ⟨rfl, hl, values_spec _ ?_⟩ hds⟩
            intro l hl
            cases hx : hasDefault l with
            | true => rfl
            | false => exact absurd ((tensor_iff l).1 hx) (h l hl)
    obtain ⟨ds, hds⟩ := this
    exact ⟨ds, (withDefaultArgs_iff sig ds).2 ⟨hds, (hpair sig ds hds).2 h2⟩⟩

/-! ## Calls -/

theorem lookup_some {X : Type} : ∀ (c : List (String × X)), (c.map (·.1)).Nodup → ∀ k y,
    (c.lookup k = some y ↔ (k, y) ∈ c) := by
  intro c
  induction c with
  | nil => intro _ k y; simp
  | cons p c ih =>
    intro hn k y
    obtain ⟨k', y'⟩ := p
    simp only [List.map_cons, List.nodup_cons] at hn
    by_cases hk : k = k'
    · subst hk
      simp only [List.lookup_cons, BEq.rfl, Option.some.injEq, List.mem_cons, Prod.mk.injEq,
        true_and]
      constructor
      · intro h; exact .inl h.symm
      · rintro (h | h)
        · exact h.symm
        · exact absurd (List.mem_map.2 ⟨_, h, rfl⟩) hn.1
    · have hne : (k == k') = false := by simpa using hk
      simp only [List.lookup_cons, hne, ih hn.2 k y, List.mem_cons, Prod.mk.injEq]
      constructor
      · intro h; exact .inr h
      · rintro (h | h)
        · exact absurd h.1 hk
        · exact h

theorem lookup_none {X : Type} (l : List (String × X)) (k : String) :
    l.lookup k = none ↔ ∀ v, (k, v) ∉ l := by
  induction l with
  | nil => simp
  | cons p l ih =>
    obtain ⟨k', x⟩ := p
    by_cases h : k = k'
    · subst h
      simp only [List.lookup_cons, BEq.rfl, reduceCtorEq, false_iff]
      intro h; exact h x (List.mem_cons_self ..)
    · have hne : (k == k') = false := by simpa using h
      simp only [List.lookup_cons, hne, ih, List.mem_cons, Prod.mk.injEq, h, false_and, false_or]

theorem binds_nil {D : Type} (args : List D) (kw : List (String × D)) (vals : List D) :
    Binds [] args kw vals ↔ args = [] ∧ kw = [] ∧ vals = [] := by
  constructor
  · intro h
    refine ⟨List.eq_nil_of_length_eq_zero (by have := h.few; simpa using this), ?_,
      List.eq_nil_of_length_eq_zero (by have := h.count; simpa using this)⟩
    cases kw with
    | nil => rfl
    | cons p kw =>
      obtain ⟨i, d, _, hd⟩ := h.named p.1 p.2 (List.mem_cons_self ..)
      simp at hd
  · rintro ⟨rfl, rfl, rfl⟩
    exact ⟨by simp, by simp, rfl, by simp⟩

theorem binds_pos {D : Type} (n : String) (d : Option D) (ps : List (String × Option D)) (x : D)
    (xs : List D) (kw : List (String × D)) (vals : List D)
    (hn : n ∉ ps.map (·.1)) :
    Binds ((n, d) :: ps) (x :: xs) kw vals ↔
      (∀ v, (n, v) ∉ kw) ∧ ∃ vs, vals = x :: vs ∧ Binds ps xs kw vs := by
  constructor
  · intro h
    have hno : ∀ v, (n, v) ∉ kw := by
      intro v hv
      obtain ⟨i, d', hi, hd⟩ := h.named n v hv
      cases i with
      | zero => simp at hi
      | succ i =>
        simp only [List.getElem?_cons_succ] at hd
        exact hn (List.mem_map.2 ⟨_, List.mem_of_getElem? hd, rfl⟩)
    refine ⟨hno, ?_⟩
    cases vals with
    | nil => have := h.count; simp at this
    | cons v vs =>
      have hv := h.given 0 n d v rfl rfl
      have hx : v = x := by
        cases hv with
        | positional h => simpa using h.symm
        | keyword h => simp at h
        | default h => simp at h
      refine ⟨vs, by rw [hx], ?_, ?_, ?_, ?_⟩
      · have := h.few; simpa using this
      · intro k w hw
        obtain ⟨i, d', hi, hd⟩ := h.named k w hw
        cases i with
        | zero => simp at hi
        | succ i =>
          simp only [List.getElem?_cons_succ, List.length_cons] at hd hi
          exact ⟨i, d', by omega, hd⟩
      · have := h.count; simpa using this
      · intro i k d' w hk hw
        have := h.given (i + 1) k d' w (by simpa using hk) (by simpa using hw)
        cases this with
        | positional h => exact .positional _ (by simpa using h)
        | keyword h hk => exact .keyword _ (by simpa using h) hk
        | default h hk hd => exact .default _ (by simpa using h) hk hd
  · rintro ⟨hno, vs, rfl, h⟩
    refine ⟨?_, ?_, ?_, ?_⟩
    · have := h.few; simpa using this
    · intro k w hw
      obtain ⟨i, d', hi, hd⟩ := h.named k w hw
      exact ⟨i + 1, d', by simpa using hi, by simpa using hd⟩
    · have := h.count; simpa using this
    · intro i k d' w hk hw
      cases i with
      | zero => exact .positional _ (by simpa using hw)
      | succ i =>
        have := h.given i k d' w (by simpa using hk) (by simpa using hw)
        cases this with
        | positional h => exact .positional _ (by simpa using h)
        | keyword h hk => exact .keyword _ (by simpa using h) hk
        | default h hk hd => exact .default _ (by simpa using h) hk hd

/-- With the positional arguments used up. -/
theorem binds_rest {D : Type} (n : String) (d : Option D) (ps : List (String × Option D))
    (kw : List (String × D)) (vals : List D) (hn : n ∉ ps.map (·.1))
    (kw' : List (String × D)) (hkw : ∀ k v, k ≠ n → ((k, v) ∈ kw' ↔ (k, v) ∈ kw))
    (hkw' : ∀ v, (n, v) ∉ kw') :
    Binds ((n, d) :: ps) [] kw vals ↔
      ∃ v vs, vals = v :: vs ∧ Given [] kw 0 n d v ∧ Binds ps [] kw' vs := by
  have hne : ∀ (i : Nat) k d', ps[i]? = some (k, d') → k ≠ n := by
    intro i k d' h e
    subst e
    exact hn (List.mem_map.2 ⟨_, List.mem_of_getElem? h, rfl⟩)
  constructor
  · intro h
    cases vals with
    | nil => have := h.count; simp at this
    | cons v vs =>
      refine ⟨v, vs, rfl, h.given 0 n d v rfl rfl, by simp, ?_, ?_, ?_⟩
      · intro k w hw
        have hk : k ≠ n := fun e => by subst e; exact hkw' w hw
        obtain ⟨i, d', hi, hd⟩ := h.named k w ((hkw k w hk).1 hw)
        cases i with
        | zero => simp at hd; exact absurd hd.1.symm hk
        | succ i => exact ⟨i, d', by simp, by simpa using hd⟩
      · have := h.count; simpa using this
      · intro i k d' w hk hw
        have hkn := hne i k d' hk
        have := h.given (i + 1) k d' w (by simpa using hk) (by simpa using hw)
        cases this with
        | positional h => simp at h
        | keyword h hk => exact .keyword _ (by simp) ((hkw k w hkn).2 hk)
        | default h hk hd => exact .default _ (by simp) (fun w hw => hk w ((hkw k w hkn).1 hw)) hd
  · rintro ⟨v, vs, rfl, hg, h⟩
    refine ⟨by simp, ?_, ?_, ?_⟩
    · intro k w hw
      by_cases hk : k = n
      · subst hk; exact ⟨0, d, by simp, rfl⟩
      · obtain ⟨i, d', hi, hd⟩ := h.named k w ((hkw k w hk).2 hw)
        exact ⟨i + 1, d', by simp, by simpa using hd⟩
    · have := h.count; simpa using this
    · intro i k d' w hk hw
      cases i with
      | zero =>
        simp only [List.getElem?_cons_zero, Option.some.injEq, Prod.mk.injEq] at hk hw
        obtain ⟨rfl, rfl⟩ := hk
        subst hw
        exact hg
      | succ i =>
        simp only [List.getElem?_cons_succ] at hk hw
        have hkn := hne i k d' hk
        have := h.given i k d' w hk hw
        cases this with
        | positional h => simp at h
        | keyword h hk => exact .keyword _ (by simp) ((hkw k w hkn).1 hk)
        | default h hk hd => exact .default _ (by simp) (fun w hw => hk w ((hkw k w hkn).2 hw)) hd

/-- C98: a call succeeds exactly when no argument is given twice, none is for an
unknown parameter, and every parameter without default values is given; the
function then gets the given values, and the default values for the rest. -/
theorem C98_call {D : Type} : ∀ (ps : List (String × Option D)) (args : List D)
    (kwargs : List (String × D)) (vals : List D), (ps.map (·.1)).Nodup →
    (kwargs.map (·.1)).Nodup →
    (bindArgs ps args kwargs = .ok vals ↔ Binds ps args kwargs vals) := by
  intro ps
  induction ps with
  | nil =>
    intro args kw vals _ _
    rw [binds_nil]
    cases args with
    | cons => simp [bindArgs]
    | nil =>
      cases kw with
      | cons => simp [bindArgs]
      | nil =>
        simp only [bindArgs, Except.ok.injEq, true_and]
        exact ⟨fun h => h.symm, fun h => h.symm⟩
  | cons p ps ih =>
    intro args kw vals hn hk
    obtain ⟨n, d⟩ := p
    simp only [List.map_cons, List.nodup_cons] at hn
    cases args with
    | cons x xs =>
      rw [binds_pos n d ps x xs kw vals hn.1]
      simp only [bindArgs]
      cases hl : kw.lookup n with
      | some v =>
        simp only [Option.isSome_some, if_true, reduceCtorEq, false_iff, not_and]
        intro h
        exact absurd ((lookup_some kw hk n v).1 hl) (h v)
      | none =>
        simp only [Option.isSome_none, Bool.false_eq_true, if_false]
        have hno := (lookup_none kw n).1 hl
        cases hb : bindArgs ps xs kw with
        | error e =>
          simp only [reduceCtorEq, false_iff]
          rintro ⟨_, vs, _, h⟩
          rw [(ih xs kw vs hn.2 hk).2 h] at hb
          simp at hb
        | ok vs =>
          simp only [Except.ok.injEq]
          constructor
          · intro e; exact ⟨hno, vs, e.symm, (ih xs kw vs hn.2 hk).1 hb⟩
          · rintro ⟨_, vs', e, h⟩
            rw [(ih xs kw vs' hn.2 hk).2 h] at hb
            simp only [Except.ok.injEq] at hb
            rw [e, hb]
    | nil =>
      simp only [bindArgs]
      cases hl : kw.lookup n with
      | some x =>
        have hx := (lookup_some kw hk n x).1 hl
        have hk' : ((kw.filter fun p => p.1 != n).map (·.1)).Nodup :=
          hk.sublist (List.Sublist.map _ List.filter_sublist)
        rw [binds_rest n d ps kw vals hn.1 (kw.filter fun p => p.1 != n)
          (fun k v hkn => by simp [hkn]) (fun v => by simp)]
        simp only
        cases hb : bindArgs ps [] (kw.filter fun p => p.1 != n) with
        | error e =>
          simp only [reduceCtorEq, false_iff]
          rintro ⟨_, vs, _, _, h⟩
          rw [(ih [] _ vs hn.2 hk').2 h] at hb
          simp at hb
        | ok vs =>
          simp only [Except.ok.injEq]
          constructor
          · intro e; exact ⟨x, vs, e.symm, .keyword x (by simp) hx, (ih [] _ vs hn.2 hk').1 hb⟩
          · rintro ⟨v, vs', e, hg, h⟩
            rw [(ih [] _ vs' hn.2 hk').2 h] at hb
            simp only [Except.ok.injEq] at hb
            rw [e, hb]
            cases hg with
            | positional h => simp at h
            | keyword _ hv =>
              have := (lookup_some kw hk n v).2 hv
              rw [hl] at this
              simp at this
              rw [this]
            | default _ hno => exact absurd hx (hno x)
      | none =>
        have hno := (lookup_none kw n).1 hl
        rw [binds_rest n d ps kw vals hn.1 kw (fun k v _ => Iff.rfl) hno]
        simp only
        cases d with
        | none =>
          simp only [reduceCtorEq, false_iff]
          rintro ⟨v, vs, _, hg, _⟩
          cases hg with
          | positional h => simp at h
          | keyword _ hv => exact hno v hv
          | default _ _ hd => simp at hd
        | some w =>
          simp only
          cases hb : bindArgs ps [] kw with
          | error e =>
            simp only [reduceCtorEq, false_iff]
            rintro ⟨_, vs, _, _, h⟩
            rw [(ih [] _ vs hn.2 hk).2 h] at hb
            simp at hb
          | ok vs =>
            simp only [Except.ok.injEq]
            constructor
            · intro e
              exact ⟨w, vs, e.symm, .default w (by simp) hno rfl, (ih [] _ vs hn.2 hk).1 hb⟩
            · rintro ⟨v, vs', e, hg, h⟩
              rw [(ih [] _ vs' hn.2 hk).2 h] at hb
              simp only [Except.ok.injEq] at hb
              rw [e, hb]
              cases hg with
              | positional h => simp at h
              | keyword _ hv => exact absurd hv (hno v)
              | default _ _ hd => simp at hd; rw [hd]

/-! ## Auto-batching -/

/-- Tensors and results, one by one. -/
inductive AllIn {R : Type} (b : Nat) : List Bool → List (List R) → List (List R) → Prop where
  | nil : AllIn b [] [] []
  | cons (p : Bool) (x y : List R) (ps : List Bool) (xs ys : List (List R)) (h : InBatch b p x y)
      (ht : AllIn b ps xs ys) : AllIn b (p :: ps) (x :: xs) (y :: ys)

theorem repeat_iff {R : Type} (x : List R) (b : Nat) (y : List R) :
    repeatToBatch x b = .ok y ↔ InBatch b false x y := by
  simp only [repeatToBatch]
  by_cases h1 : x.length = 1
  · rw [if_pos h1]
    match x, h1 with
    | [r], _ =>
      simp only [List.flatMap_cons, List.flatMap_nil, List.append_nil, Except.ok.injEq]
      constructor
      · intro e; subst e; exact .repeated r
      · intro h
        cases h with
        | same _ _ h => simp at h; subst h; rfl
        | repeated => rfl
  · rw [if_neg h1]
    by_cases h2 : x.length = b
    · rw [if_pos h2]
      simp only [Except.ok.injEq]
      constructor
      · intro e; subst e; exact .same false x h2
      · intro h
        cases h with
        | same => rfl
        | repeated r => simp at h1
    · rw [if_neg h2]
      simp only [reduceCtorEq, false_iff]
      intro h
      cases h with
      | same _ _ h => exact h2 h
      | repeated r => simp at h1

theorem inBatch_true {R : Type} {b : Nat} {x y : List R} :
    InBatch b true x y ↔ x.length = b ∧ y = x := by
  constructor
  · intro h
    cases h with
    | same _ _ h => exact ⟨h, rfl⟩
  · rintro ⟨h, rfl⟩; exact .same true _ h

theorem batched_iff {R : Type} (b : Nat) : ∀ (ps : List Bool) (xs ys : List (List R)),
    ps.length = xs.length → (batched b ps xs = .ok ys ↔ AllIn b ps xs ys) := by
  intro ps
  induction ps with
  | nil =>
    intro xs ys h
    cases xs with
    | cons => simp at h
    | nil =>
      simp only [batched, Except.ok.injEq]
      constructor
      · intro e; subst e; exact .nil
      · intro h; cases h; rfl
  | cons p ps ih =>
    intro xs ys h
    cases xs with
    | nil => simp at h
    | cons x xs =>
      simp only [List.length_cons, Nat.add_right_cancel_iff] at h
      have hy : ∀ y, (if p then if b = x.length then .ok x else .error .primarySize
          else repeatToBatch x b : Except Err (List R)) = .ok y ↔ InBatch b p x y := by
        intro y
        cases p with
        | false => simpa using repeat_iff x b y
        | true =>
          rw [inBatch_true]
          simp only [if_true]
          by_cases hb : b = x.length
          · simp [hb, eq_comm]
          · have hb' : ¬ x.length = b := fun e => hb e.symm
            simp [hb, hb']
      simp only [batched]
      generalize hyy : (if p then if b = x.length then .ok x else .error .primarySize
          else repeatToBatch x b : Except Err (List R)) = yy at hy
      cases yy with
      | error e =>
        simp only [reduceCtorEq, false_iff]
        intro h
        cases h with
        | cons _ _ y _ _ ys h ht =>
          have := (hy y).2 h
          simp at this
      | ok y =>
        cases hb : batched b ps xs with
        | error e =>
          simp only [reduceCtorEq, false_iff]
          intro hA
          cases hA with
          | cons _ _ y _ _ ys h' ht => rw [(ih xs ys h).2 ht] at hb; simp at hb
        | ok ys' =>
          simp only [Except.ok.injEq]
          constructor
          · intro e
            subst e
            exact .cons p x y ps xs ys' ((hy y).1 rfl) ((ih xs ys' h).1 hb)
          · intro hA
            cases hA with
            | cons _ _ y' _ _ ys h' ht =>
              rw [(ih xs ys h).2 ht] at hb
              have := (hy y').2 h'
              simp only [Except.ok.injEq] at this hb
              rw [this, hb]

theorem batchSize_in {R : Type} {b : Nat} {ps : List Bool} {xs ys : List (List R)}
    (h : AllIn b ps xs ys) (hp : true ∈ ps) : batchSize ps xs = some b := by
  induction h with
  | nil => simp at hp
  | cons p x y ps xs ys h _ ih =>
    cases p with
    | true => rw [inBatch_true] at h; simp [batchSize, h.1]
    | false =>
      simp only [batchSize]
      exact ih (by simpa using hp)

theorem batchSize_none {R : Type} : ∀ (ps : List Bool) (xs : List (List R)), ps.length = xs.length →
    true ∈ ps → ∃ b, batchSize ps xs = some b := by
  intro ps
  induction ps with
  | nil => intro xs _ h; simp at h
  | cons p ps ih =>
    intro xs h hp
    cases xs with
    | nil => simp at h
    | cons x xs =>
      cases p with
      | true => exact ⟨_, rfl⟩
      | false => exact ih xs (by simpa using h) (by simpa using hp)

theorem allIn_iff {R : Type} {b : Nat} : ∀ {ps : List Bool} {xs ys : List (List R)},
    AllIn b ps xs ys ↔ ps.length = xs.length ∧ ys.length = xs.length ∧
      ∀ (i : Nat) p x y, ps[i]? = some p → xs[i]? = some x → ys[i]? = some y → InBatch b p x y := by
  intro ps
  induction ps with
  | nil =>
    intro xs ys
    constructor
    · intro h; cases h; simp
    · rintro ⟨h1, h2, _⟩
      simp only [List.length_nil] at h1
      have e1 := List.eq_nil_of_length_eq_zero h1.symm
      subst e1
      have e2 := List.eq_nil_of_length_eq_zero h2
      subst e2
      exact .nil
  | cons p ps ih =>
    intro xs ys
    constructor
    · intro h
      cases h with
      | cons _ x y _ xs ys h ht =>
        obtain ⟨h1, h2, h3⟩ := ih.1 ht
        refine ⟨by simp [h1], by simp [h2], ?_⟩
        intro i p' x' y' hp hx hy
        cases i with
        | zero => simp at hp hx hy; subst hp hx hy; exact h
        | succ i => exact h3 i p' x' y' (by simpa using hp) (by simpa using hx) (by simpa using hy)
    · rintro ⟨h1, h2, h3⟩
      cases xs with
      | nil => simp at h1
      | cons x xs =>
        cases ys with
        | nil => simp at h2
        | cons y ys =>
          exact .cons p x y ps xs ys (h3 0 p x y rfl rfl rfl)
            (ih.2 ⟨by simpa using h1, by simpa using h2, fun i p' x' y' hp hx hy =>
              h3 (i + 1) p' x' y' (by simpa using hp) (by simpa using hx) (by simpa using hy)⟩)

/-- C98: auto-batching of arguments that have the structure of the signature
succeeds exactly when, for some number of rows, all primary tensors have that
many and each other tensor has that many or one; all results then have that many:
a single row is repeated, everything else is unchanged. -/
theorem C98_batching {T R : Type} [DecidableEq T] (sig : List (Tree T (Spec (List R))))
    (args : List (Tree T (List R)))
    (hs : args.map (fun a => (a.td, a.leaves.length)) = sig.map fun s => (s.td, s.leaves.length))
    (hp : ∃ l ∈ sig.flatMap (·.leaves), l = .tensor ∨ ∃ v, l = .withDefault v true)
    (ys : List (List R)) :
    autoBatch sig args = .ok ys ↔
      ys.length = (args.flatMap (·.leaves)).length ∧
      ∃ b, ∀ (i : Nat) l x y, (sig.flatMap (·.leaves))[i]? = some l →
        (args.flatMap (·.leaves))[i]? = some x → ys[i]? = some y →
        InBatch b (l matches .tensor | .withDefault _ true) x y := by
  have hlen : (sig.flatMap (·.leaves)).length = (args.flatMap (·.leaves)).length := by
    rw [List.length_flatMap, List.length_flatMap]
    have := congrArg (fun l => (l.map Prod.snd).sum) hs
    simpa [Function.comp_def] using this.symm
  have hprim : ∀ l : Spec (List R), isPrimary l = (l matches .tensor | .withDefault _ true) := by
    intro l
    cases l with
    | tensor => rfl
    | withDefault v p => cases p <;> rfl
  have hmem : true ∈ (sig.flatMap (·.leaves)).map isPrimary := by
    obtain ⟨l, hl, h⟩ := hp
    refine List.mem_map.2 ⟨l, hl, ?_⟩
    rcases h with rfl | ⟨v, rfl⟩ <;> rfl
  have hplen : ((sig.flatMap (·.leaves)).map isPrimary).length = (args.flatMap (·.leaves)).length := by
    rw [List.length_map, hlen]
  simp only [autoBatch, hs, ne_eq, not_true_eq_false, if_false]
  obtain ⟨b0, hb0⟩ := batchSize_none _ _ hplen hmem
  rw [hb0]
  simp only
  rw [batched_iff _ _ _ _ hplen]
  constructor
  · intro h
    obtain ⟨_, h2, h3⟩ := allIn_iff.1 h
    refine ⟨h2, b0, ?_⟩
    intro i l x y hl hx hy
    have := h3 i (isPrimary l) x y (by rw [List.getElem?_map, hl]; rfl) hx hy
    rw [hprim] at this
    exact this
  · rintro ⟨h2, b, h3⟩
    have hA : AllIn b ((sig.flatMap (·.leaves)).map isPrimary) (args.flatMap (·.leaves)) ys := by
      refine allIn_iff.2 ⟨hplen, h2, ?_⟩
      intro i p x y hp hx hy
      rw [List.getElem?_map] at hp
      cases hl : (sig.flatMap (·.leaves))[i]? with
      | none => simp [hl] at hp
      | some l =>
        simp [hl] at hp
        subst hp
        rw [hprim]
        exact h3 i l x y hl hx hy
    have := batchSize_in hA hmem
    rw [hb0] at this
    simp at this
    rw [this]
    exact hA

/-- C98: every result of auto-batching has the same number of rows. -/
theorem C98_rows {T R : Type} [DecidableEq T] (sig : List (Tree T (Spec (List R))))
    (args : List (Tree T (List R))) (ys : List (List R)) (h : autoBatch sig args = .ok ys) :
    ∃ b, ∀ y ∈ ys, y.length = b := by
  simp only [autoBatch] at h
  by_cases hs : args.map (fun a => (a.td, a.leaves.length)) = sig.map fun s => (s.td, s.leaves.length)
  · simp only [hs, ne_eq, not_true_eq_false, if_false] at h
    have hplen : ((sig.flatMap (·.leaves)).map isPrimary).length = (args.flatMap (·.leaves)).length := by
      rw [List.length_map, List.length_flatMap, List.length_flatMap]
      have := congrArg (fun l => (l.map Prod.snd).sum) hs
      simpa [Function.comp_def] using this.symm
    cases hb : batchSize ((sig.flatMap (·.leaves)).map isPrimary) (args.flatMap (·.leaves)) with
    | none => rw [hb] at h; simp at h
    | some b =>
      rw [hb] at h
      simp only at h
      rw [batched_iff _ _ _ _ hplen] at h
      refine ⟨b, ?_⟩
      clear hb hs hplen
      generalize (sig.flatMap (·.leaves)).map isPrimary = ps at h
      generalize args.flatMap (·.leaves) = xs at h
      induction h with
      | nil => simp
      | cons p x y ps xs ys h _ ih =>
        intro z hz
        rcases List.mem_cons.1 hz with e | e
        · subst e
          cases h with
          | same _ _ h => exact h
          | repeated r => simp
        · exact ih z e
  · simp [hs] at h

/-! ## Findings -/

/-- C98 (finding): the documentation says that parameters with default values
should be ordered before the others; a signature ordered so, with both kinds, is
never accepted. -/
theorem C98_documented_order_fails {T X : Type} (before after : List (Param T X))
    (p q : Param T X) (v : X) (b : Bool) (hp : (.withDefault v b) ∈ p.spec.leaves)
    (hq : ∀ l ∈ q.spec.leaves, l = .tensor) :
    ¬ ∃ ds, withDefaultArgs (before ++ p :: after ++ [q]) = .ok ds := by
  rw [C98_accepts]
  rintro ⟨_, h⟩
  rw [List.pairwise_append] at h
  obtain ⟨l, hl, hne⟩ := h.2.2 p (by simp) q (by simp) ⟨_, hp, by simp⟩
  exact hne (hq l hl)

/-- C98 (finding): a primary tensor whose default value has one row is not tiled:
when it is omitted, every batch of another size is refused. -/
theorem C98_primary_default_fails {T R : Type} [DecidableEq T] (td : T) (r : R)
    (x : List R) (hx : x.length ≠ 1) :
    autoBatchingCall [⟨"x", ⟨td, [.tensor]⟩⟩, ⟨"y", ⟨td, [.withDefault [r] true]⟩⟩]
      [⟨td, [x]⟩] [] = .error .primarySize := by
  simp [autoBatchingCall, withDefaultArgs, getDefaults, getDefault, hasDefault, values, orderOk,
    callWithDefaults, bindArgs, autoBatch, batchSize, batched, isPrimary, hx]

/-! ## The hypotheses can be met -/

/-- A required parameter and one with a default: the call with one argument
repeats the default row. -/
theorem C98_nonvacuous :
    autoBatchingCall (T := Nat) (R := Nat)
      [⟨"x", ⟨0, [.tensor]⟩⟩, ⟨"y", ⟨1, [.withDefault [7] false]⟩⟩]
      [⟨0, [[1, 2, 3]]⟩] [] = .ok [[1, 2, 3], [7, 7, 7]] ∧
    autoBatchingCall (T := Nat) (R := Nat)
      [⟨"x", ⟨0, [.tensor]⟩⟩, ⟨"y", ⟨1, [.withDefault [7] false]⟩⟩]
      [] [("y", ⟨1, [[8, 9]]⟩), ("x", ⟨0, [[1, 2]]⟩)] = .ok [[1, 2], [8, 9]] := by
  refine ⟨by rfl, by rfl⟩

end Verif.Export.SignatureProps
