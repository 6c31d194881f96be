import Verif.NameFormat.Lemmas

/-! # Properties of step names: C16, C17 -/

namespace Verif.NameFormat.Props

open Verif.NameFormat
open scoped List

/-! ## C16 -/

/-- **C16** round trip: for every prefix without regular-expression metacharacters, every width and
every step number `≥ 0`, the name built for the step is recognised, as that step. -/
theorem C16_round_trip (f : Format) (hl : Literal f.pfx) (s : Nat) :
    parseName f (buildName f s) = some (some s) := by
  rw [parseName_lit f hl, buildName_eq]
  have : (prefixU f.pfx).isPrefixOf (prefixU f.pfx ++ numStr f.width s) = true := by simp
  rw [if_pos this, List.drop_left, matchGroup_numStr f.width (by omega)]
  simp

/-- **C16** canonical: a plain (ASCII, no newline) name is recognised as step `k` only if it is the
name built for `k`. -/
theorem C16_recognised_iff (f : Format) (hl : Literal f.pfx) (name : Name) (hp : Plain name) (k : Nat) :
    parseName f name = some (some k) ↔ name = buildName f k := by
  constructor
  · intro h
    rw [parseName_lit f hl] at h
    simp only [Option.some.injEq] at h
    split at h
    · rename_i hpre
      rw [List.isPrefixOf_iff_prefix] at hpre
      obtain ⟨r, hr⟩ := hpre
      subst hr
      rw [List.drop_left] at h
      rw [buildName_eq]
      congr 1
      exact matchGroup_plain f.width (fun c hc => hp c (by simp [hc])) h
    · simp at h
  · rintro rfl; exact C16_round_trip f hl k

/-- **C16** distinct steps have distinct names: every prefix whatsoever, every width, every integer. -/
theorem C16_injective (f : Format) (s t : Int) (h : buildName f s = buildName f t) : s = t := by
  rw [buildName_eq, buildName_eq] at h
  exact numStr_inj f.width (List.append_cancel_left h)

/-- Non-vacuity: `step_0023`. -/
example : buildName ⟨some "step".toList, some 4⟩ 23 = "step_0023".toList ∧
    Literal (some "step".toList) ∧ Plain "step_0023".toList := by
  refine ⟨?_, ?_, ?_⟩
  · simp [buildName, prefixU, padInt, dec, digit]
  · intro s h; simp at h; subst h; decide
  · unfold Plain; decide

/-- Finding (C16): a negative step gets a name, but the name is never recognised, so the checkpoint is
invisible to `find_all`. -/
theorem C16_negative_step_fails (f : Format) (hl : Literal f.pfx) (s : Int) (hs : s < 0) :
    parseName f (buildName f s) = some none := by
  rw [parseName_lit f hl, buildName_eq]
  have : (prefixU f.pfx).isPrefixOf (prefixU f.pfx ++ numStr f.width s) = true := by simp
  rw [if_pos this, List.drop_left]
  obtain ⟨k, hk⟩ := numStr_neg f.width hs
  rw [hk]
  congr 1
  have hg : ∀ r, groupOk f.width ('-' :: r) = false := by
    intro r
    have h1 : (('-' : Char) == '0') = false := by decide
    have h2 : decide (49 ≤ ('-' : Char).toNat ∧ ('-' : Char).toNat < 58) = false := by decide
    match f.width with
    | none => simp only [groupOk, h1, h2]; rfl
    | some 0 => simp only [groupOk, h1, h2]; rfl
    | some (w+1) => simp only [groupOk, h1, h2]; rfl
  unfold matchGroup
  rw [hg]
  simp only [Bool.false_eq_true, if_false]
  split
  · rename_i h
    rw [Bool.and_eq_true] at h
    cases hr : (List.replicate k '0' ++ dec s.natAbs) with
    | nil => exact absurd (List.append_eq_nil_iff.mp hr).2 (dec_ne_nil _)
    | cons x xs => rw [hr, List.dropLast_cons_cons, hg] at h; simp at h
  · rfl

/-- Finding (C16): the prefix is interpolated into the pattern unescaped, so with prefix `a+b` the
manager does not recognise any name it builds. -/
theorem C16_metacharacter_prefix_fails (w : Option Nat) (s : Nat) :
    parseName ⟨some "a+b".toList, w⟩ (buildName ⟨some "a+b".toList, w⟩ s) = some none := by
  have hp : parsePrefix (prefixU (some "a+b".toList)) =
      some [⟨.lit 'a', .plus⟩, ⟨.lit 'b', .one⟩, ⟨.lit '_', .one⟩] := by decide
  have hb : buildName ⟨some "a+b".toList, w⟩ s = 'a' :: '+' :: 'b' :: '_' :: numStr w s := rfl
  unfold parseName
  simp only [hp, hb, Option.map_some]
  simp [seqRest, itemRest, atomMatches, starRest]

/-- Finding (C16): `\d` and `int` accept non-ASCII digits and `$` accepts a final newline, so names
other than the canonical one are reported as a step. -/
theorem C16_foreign_names_fails :
    parseName ⟨none, none⟩ ['1', Char.ofNat 0x662] = some (some 12) ∧
    parseName ⟨none, none⟩ ['1', '2', '\n'] = some (some 12) ∧
    buildName ⟨none, none⟩ 12 = ['1', '2'] := by
  refine ⟨by decide, by decide, ?_⟩
  simp [buildName, prefixU, showInt, dec, digit]

theorem not_digit_underscore : isDigit '_' = false := by decide

theorem takeWhile_append_stop {α : Type} (p : α → Bool) (a : List α) (x : α) (b : List α)
    (ha : ∀ y ∈ a, p y = true) (hx : p x = false) :
    (a ++ x :: b).takeWhile p = a ∧ (a ++ x :: b).dropWhile p = x :: b := by
  induction a with
  | nil => simp [hx]
  | cons y a ih =>
    have := ih (fun z hz => ha z (by simp [hz]))
    simp [ha y (by simp), this]

theorem digit_ne_underscore : ∀ n, n < 10 → digit n ≠ '_' := by decide

/-- **C16** the legacy recogniser `step_from_checkpoint_name` also inverts `build_name`, for no prefix
or any non-empty prefix without newline. -/
theorem C16_legacy_round_trip (f : Format)
    (hp : ∀ p, f.pfx = some p → p ≠ [] ∧ ∀ c ∈ p, c ≠ '\n') (s : Nat) :
    stepFromName (buildName f s) = some s := by
  have hd : Digits (numStr f.width s) := numStr_digits _ (by omega)
  have hne := numStr_ne_nil f.width s
  have hv : intOf (numStr f.width s) = s := by rw [intOf_numStr _ (by omega)]; simp
  have hemp : (numStr f.width (s : Int)).isEmpty = false := by simpa using hne
  rw [buildName_eq]
  cases hpf : f.pfx with
  | none =>
    unfold stepFromName
    simp only [prefixU, List.nil_append, digits_isDigit hd, hemp]
    simp [hv]
  | some p =>
    obtain ⟨hpne, hpn⟩ := hp p hpf
    have hall : (p ++ ['_'] ++ numStr f.width (s : Int)).all isDigit = false := by
      simp [not_digit_underscore]
    unfold stepFromName
    simp only [prefixU, hall, Bool.and_false, Bool.false_eq_true, if_false]
    have hrev : (p ++ ['_'] ++ numStr f.width (s : Int)).reverse =
        (numStr f.width (s : Int)).reverse ++ '_' :: p.reverse := by simp
    have htw := takeWhile_append_stop (fun c => c != '_') (numStr f.width (s : Int)).reverse '_' p.reverse
      (by
        intro y hy
        obtain ⟨d, hd', rfl⟩ := hd y (by simpa using hy)
        simpa using digit_ne_underscore d hd') (by simp)
    have hm : matchAllowed (p ++ ['_'] ++ numStr f.width (s : Int)) = some s := by
      unfold matchAllowed
      simp only [hrev, htw]
      cases hpr : p.reverse with
      | nil => simp at hpr; exact absurd hpr hpne
      | cons c q =>
        simp only
        have h1 : ((numStr f.width (s : Int)).reverse).all isDigit = true := by
          rw [List.all_reverse]; exact digits_isDigit hd
        have h2 : (c :: q).all (fun c => c != '\n') = true := by
          rw [← hpr, List.all_reverse, List.all_eq_true]
          intro x hx; simpa using hpn x hx
        rw [h1, h2]
        simp [hne, hv]
    rw [hm]

/-- Non-vacuity. -/
example : stepFromName "a_b_007".toList = some 7 := by decide

/-- Finding (C16): with an empty prefix (accepted, giving names like `_5`) the legacy recogniser raises
`ValueError`, and with it `checkpoint_steps`. -/
theorem C16_legacy_empty_prefix_fails (s : Nat) : stepFromName (buildName ⟨some [], none⟩ s) = none := by
  have hd : Digits (numStr none (s : Int)) := numStr_digits _ (by omega)
  have hb : buildName ⟨some [], none⟩ s = '_' :: numStr none s := rfl
  have hu : isDigit '_' = false := by decide
  rw [hb]
  have htw := takeWhile_append_stop (fun c => c != '_') (numStr none (s : Int)).reverse '_' []
    (by
      intro y hy
      obtain ⟨d, hd', rfl⟩ := hd y (by simpa using hy)
      simpa using digit_ne_underscore d hd') (by simp)
  have hm : matchAllowed ('_' :: numStr none (s : Int)) = none := by
    unfold matchAllowed
    simp only [List.reverse_cons, htw]
  have hdg : ∀ g : Name, Digits g → matchTmp g = none := by
    intro g hg
    induction g with
    | nil => rfl
    | cons c g ih =>
      have hc : ∀ x ∈ c :: g, isDigit x = true := by
        intro x hx; obtain ⟨d, h1, rfl⟩ := hg x hx; exact isDigit_digit h1
      have : ∀ l : Name, (∀ x ∈ l, isDigit x = true) → l.dropWhile isDigit = [] := by
        intro l hl
        induction l with
        | nil => rfl
        | cons y l ihl => rw [List.dropWhile_cons, hl y (by simp)]; exact ihl fun x hx => hl x (by simp [hx])
      have := this _ hc
      rw [matchTmp]
      simp only [this]
      have h0 : tmpSuffix.isPrefixOf ([] : Name) = false := by decide
      rw [h0]
      simp only [Bool.and_false, Bool.false_eq_true, if_false]
      split
      · rfl
      · exact ih (fun x hx => hg x (by simp [hx]))
  unfold stepFromName
  simp only [List.all_cons, hu, Bool.false_and, Bool.and_false, Bool.false_eq_true, if_false, hm]
  rw [matchTmp]
  simp only [List.takeWhile_cons, hu, Bool.false_eq_true, if_false, List.isEmpty_nil, Bool.not_true,
    Bool.false_and]
  rw [if_neg (by decide)]
  exact hdg _ hd

/-- **C16** the step of a temporary directory `<name>.orbax-checkpoint-tmp` is the step of the
checkpoint it is for (prefix without `.` and newline). -/
theorem C16_tmp_step (f : Format) (hp : ∀ p, f.pfx = some p → ∀ c ∈ p, c ≠ '.' ∧ c ≠ '\n') (s : Nat) :
    stepFromName (buildName f s ++ tmpSuffix) = some s := by
  have hd : Digits (numStr f.width s) := numStr_digits _ (by omega)
  have hne := numStr_ne_nil f.width s
  have hv : intOf (numStr f.width s) = s := by rw [intOf_numStr _ (by omega)]; simp
  -- the name is `q ++ digits ++ suffix` where `q` has neither `.` nor newline and does not end in a digit
  have hq : ∀ c ∈ prefixU f.pfx, c ≠ '.' ∧ c ≠ '\n' := by
    cases hpf : f.pfx with
    | none => simp [prefixU]
    | some p =>
      intro c hc
      simp only [prefixU, List.mem_append, List.mem_singleton] at hc
      rcases hc with hc | rfl
      · exact hp p hpf c hc
      · decide
  have hlast : ∀ q, q <:+ prefixU f.pfx → q ≠ [] → ∃ a, q = a ++ ['_'] := by
    intro q hq' hne
    cases hpf : f.pfx with
    | none => rw [hpf] at hq'; simp [prefixU] at hq'; exact absurd hq' hne
    | some p =>
      rw [hpf] at hq'
      obtain ⟨t, ht⟩ := hq'
      rcases snoc_cases q with h | ⟨a, x, h⟩
      · exact absurd h hne
      · subst h
        simp only [prefixU] at ht
        rw [← List.append_assoc] at ht
        have := List.append_inj_right' ht rfl
        exact ⟨a, by rw [this]⟩
  have hdot : isDigit '.' = false := by decide
  have hsuf : tmpSuffix = '.' :: "orbax-checkpoint-tmp".toList := by decide
  -- the tmp pattern
  have key : ∀ q, q <:+ prefixU f.pfx → matchTmp (q ++ (numStr f.width s ++ tmpSuffix)) = some s := by
    intro q hsq
    induction q with
    | nil =>
      cases hn : numStr f.width (s : Int) with
      | nil => exact absurd hn hne
      | cons c g =>
        have htw := takeWhile_append_stop isDigit (c :: g) '.' "orbax-checkpoint-tmp".toList
          (by rw [← hn]; exact List.all_eq_true.mp (digits_isDigit hd)) hdot
        rw [hsuf, List.nil_append, List.cons_append, matchTmp, ← List.cons_append]
        rw [htw.1, htw.2, ← hsuf]
        have : tmpSuffix.isPrefixOf tmpSuffix = true := by decide
        rw [this]
        rw [← hn, hv]
        have : (numStr f.width (s : Int)).isEmpty = false := by simpa using hne
        simp [this]
    | cons c q ih =>
      have ih := ih (List.IsSuffix.trans (List.suffix_cons c q) hsq)
      obtain ⟨a, ha⟩ := hlast (c :: q) hsq (by simp)
      rw [List.cons_append, matchTmp, ← List.cons_append]
      have hmem : ∀ x ∈ c :: q, x ≠ '.' ∧ x ≠ '\n' := fun x hx => hq x (hsq.subset hx)
      -- the digit run stops inside the prefix
      have hstop : tmpSuffix.isPrefixOf (((c :: q) ++ (numStr f.width s ++ tmpSuffix)).dropWhile isDigit)
          = false := by
        have : ∀ (b r : Name), (∀ x ∈ b, x ≠ '.') → ∀ t, tmpSuffix.isPrefixOf
            (((b ++ ['_']) ++ t).dropWhile isDigit) = false := by
          intro b r hb t
          induction b with
          | nil =>
            rw [List.nil_append, List.singleton_append, List.dropWhile_cons, not_digit_underscore, hsuf]
            rfl
          | cons x b ihb =>
            simp only [List.cons_append]
            rw [List.dropWhile_cons]
            split
            · exact ihb (fun y hy => hb y (by simp [hy]))
            · rw [hsuf, List.isPrefixOf_cons_cons]
              have := hb x (by simp)
              have : (('.' : Char) == x) = false := by simpa using fun e => this e.symm
              rw [this]; rfl
        rw [ha]
        exact this a [] (fun x hx => (hmem x (by rw [ha]; simp [hx])).1) _
      rw [hstop]
      simp only [Bool.and_false, Bool.false_eq_true, if_false]
      rw [if_neg (hmem c (by simp)).2]
      exact ih
  have hall : (buildName f s ++ tmpSuffix).all isDigit = false := by
    rw [List.all_append, hsuf, List.all_cons, hdot]; simp
  -- the digits-after-underscore pattern does not apply
  have hma : matchAllowed (buildName f s ++ tmpSuffix) = none := by
    unfold matchAllowed
    have hg : ∃ g, (buildName f s ++ tmpSuffix).reverse.takeWhile (fun c => c != '_') =
        tmpSuffix.reverse ++ g := by
      rw [List.reverse_append]
      have : ∀ c ∈ tmpSuffix.reverse, (c != '_') = true := by decide
      rw [List.takeWhile_append_of_pos this]
      exact ⟨_, rfl⟩
    obtain ⟨g, hg⟩ := hg
    have hbad : ((buildName f s ++ tmpSuffix).reverse.takeWhile (fun c => c != '_')).all isDigit = false := by
      rw [hg, List.all_append]
      have : tmpSuffix.reverse.all isDigit = false := by decide
      rw [this]; rfl
    simp only [hbad]
    split <;> simp
  unfold stepFromName
  rw [hall, hma]
  simp only [Bool.and_false, Bool.false_eq_true, if_false]
  have := key (prefixU f.pfx) (List.suffix_refl _)
  rwa [← List.append_assoc, ← buildName_eq] at this

/-! ## C17 -/

/-- Specification: the directory holds a finalized checkpoint directory under the step's own name. -/
def Committed (f : Format) (dir : List Entry) (s : Int) : Prop :=
  ∃ e ∈ dir, e.name = buildName f s ∧ e.finalized = true

/-- Every name in the listing is ASCII without newline. -/
def PlainDir (dir : List Entry) : Prop := ∀ e ∈ dir, Plain e.name

theorem mem_findAll (f : Format) (hl : Literal f.pfx) (dir : List Entry) (hp : PlainDir dir) (m : Meta) :
    m ∈ findAll f dir ↔ ∃ s : Nat, m = ⟨s, buildName f s⟩ ∧ Committed f dir s := by
  unfold findAll
  simp only [List.mem_filterMap, List.mem_filter]
  constructor
  · rintro ⟨e, ⟨he, _⟩, hb⟩
    unfold buildMetadata at hb
    split at hb
    · simp at hb
    · rename_i hf
      split at hb
      · rename_i k hk
        simp at hb; subst hb
        have := (C16_recognised_iff f hl e.name (hp e he) k).mp hk
        exact ⟨k, by rw [this], e, he, this, by simpa using hf⟩
      · simp at hb
  · rintro ⟨s, rfl, e, he, hn, hf⟩
    refine ⟨e, ⟨he, ?_⟩, ?_⟩
    · rw [hn, buildName_eq]; simp
    · unfold buildMetadata
      rw [hf, hn, C16_round_trip f hl s]
      simp

/-- **C17** `find_all` lists exactly the steps `≥ 0` whose canonical directory exists and is finalized. -/
theorem C17_find_all (f : Format) (hl : Literal f.pfx) (dir : List Entry) (hp : PlainDir dir) (s : Int) :
    s ∈ (findAll f dir).map (·.step) ↔ 0 ≤ s ∧ Committed f dir s := by
  simp only [List.mem_map]
  constructor
  · rintro ⟨m, hm, rfl⟩
    obtain ⟨k, rfl, hc⟩ := (mem_findAll f hl dir hp m).mp hm
    exact ⟨by simp, hc⟩
  · rintro ⟨h0, hc⟩
    obtain ⟨k, rfl⟩ := Int.eq_ofNat_of_zero_le h0
    exact ⟨⟨k, buildName f k⟩, (mem_findAll f hl dir hp _).mpr ⟨k, rfl, hc⟩, rfl⟩

/-- **C17** each step is listed once (directory entries have distinct names). -/
theorem C17_find_all_nodup (f : Format) (hl : Literal f.pfx) (dir : List Entry) (hp : PlainDir dir)
    (hn : (dir.map (·.name)).Nodup) : ((findAll f dir).map (·.step)).Nodup := by
  have h1 : ((findAll f dir).map (·.name)) <+ dir.map (·.name) := by
    unfold findAll
    generalize hd : dir.filter _ = d
    have hs : d <+ dir := hd ▸ List.filter_sublist
    refine List.Sublist.trans ?_ (hs.map _)
    clear hd hs
    induction d with
    | nil => simp
    | cons e d ih =>
      rw [List.filterMap_cons]
      split
      · exact ih.cons _
      · rename_i m hm
        have : m.name = e.name := by
          unfold buildMetadata at hm
          split at hm
          · simp at hm
          · split at hm
            · simp at hm; rw [← hm]
            · simp at hm
        simp only [List.map_cons, this]
        exact ih.cons_cons _
  have h2 := hn.sublist h1
  have h3 : ∀ m ∈ findAll f dir, m.name = buildName f m.step := by
    intro m hm
    obtain ⟨s, rfl, _⟩ := (mem_findAll f hl dir hp m).mp hm
    rfl
  unfold List.Nodup at h2 ⊢
  rw [List.pairwise_map] at h2 ⊢
  refine h2.imp_of_mem ?_
  intro a b ha hb hab e
  exact hab (by rw [h3 a ha, h3 b hb, e])

/-- **C17** `find_step` finds a step iff it is committed; so for steps `≥ 0` it succeeds exactly on the
steps `find_all` lists. -/
theorem C17_find_step (f : Format) (dir : List Entry) (s : Int) (m : Meta) :
    findStep f dir s = some m ↔ Committed f dir s ∧ m = ⟨s, buildName f s⟩ := by
  unfold findStep Committed
  constructor
  · intro hm
    split at hm
    · rename_i h
      rw [List.any_eq_true] at h
      obtain ⟨e, he, h⟩ := h
      simp at h
      simp only [Option.some.injEq] at hm
      exact ⟨⟨e, he, h.1, h.2⟩, hm.symm⟩
    · simp at hm
  · rintro ⟨⟨e, he, h1, h2⟩, rfl⟩
    refine if_pos ?_
    rw [List.any_eq_true]
    exact ⟨e, he, by simp [h1, h2]⟩

theorem dedup_mem (g : Int → Name) (l : List Int) (acc : List Meta) (m : Meta) :
    m ∈ l.foldl (fun acc s => if acc.any fun m => m.name == g s then acc else acc ++ [⟨s, g s⟩]) acc →
      m ∈ acc ∨ ∃ s ∈ l, m = ⟨s, g s⟩ := by
  induction l generalizing acc with
  | nil => intro h; exact .inl h
  | cons x l ih =>
    intro h
    rw [List.foldl_cons] at h
    rcases ih _ h with h | ⟨s, hs, rfl⟩
    · split at h
      · exact .inl h
      · rw [List.mem_append] at h
        rcases h with h | h
        · exact .inl h
        · simp at h; exact .inr ⟨x, by simp, h⟩
    · exact .inr ⟨s, by simp [hs], rfl⟩

theorem dedup_complete (g : Int → Name) (hg : ∀ a b, g a = g b → a = b) (l : List Int) (acc : List Meta)
    (hacc : ∀ m ∈ acc, m.name = g m.step) (s : Int) (h : (⟨s, g s⟩ : Meta) ∈ acc ∨ s ∈ l) :
    (⟨s, g s⟩ : Meta) ∈
      l.foldl (fun acc s => if acc.any fun m => m.name == g s then acc else acc ++ [⟨s, g s⟩]) acc := by
  induction l generalizing acc with
  | nil => simpa using h
  | cons x l ih =>
    rw [List.foldl_cons]
    have hin : (⟨x, g x⟩ : Meta) ∈
        (if acc.any fun m => m.name == g x then acc else acc ++ [⟨x, g x⟩]) := by
      split
      · rename_i hany
        rw [List.any_eq_true] at hany
        obtain ⟨m, hm, he⟩ := hany
        have he : m.name = g x := by simpa using he
        have := hg _ _ ((hacc m hm).symm.trans he)
        have : m = ⟨x, g x⟩ := by cases m; simp at this he; simp [this, he]
        rwa [← this]
      · simp
    refine ih _ ?_ ?_
    · intro m hm
      split at hm
      · exact hacc m hm
      · rw [List.mem_append] at hm
        rcases hm with hm | hm
        · exact hacc m hm
        · simp at hm; rw [hm]
    · rcases h with h | h
      · left; split
        · exact h
        · simp [h]
      · rcases List.mem_cons.mp h with rfl | h
        · exact .inl hin
        · exact .inr h

/-- **C17** the single-host-load-and-broadcast listing gives every host exactly the same set of
checkpoints as listing storage itself. -/
theorem C17_broadcast (f : Format) (hl : Literal f.pfx) (dir : List Entry) (hp : PlainDir dir) (m : Meta) :
    m ∈ findAllBroadcast f dir ↔ m ∈ findAll f dir := by
  have hkept : ∀ s : Int, s ∈ (broadcastSteps f dir).filter (fun s => decide (s ≥ 0)) ↔
      0 ≤ s ∧ Committed f dir s := by
    intro s
    unfold broadcastSteps
    simp only
    rw [List.mem_filter, List.mem_append, (List.mergeSort_perm _ _).mem_iff]
    have := C17_find_all f hl dir hp s
    unfold findAll at this
    unfold globStepPaths
    rw [this]
    constructor
    · rintro ⟨h | h, h0⟩
      · exact h
      · have := (List.mem_replicate.mp h).2
        subst this; simp at h0
    · intro h; exact ⟨.inl h, by simpa using h.1⟩
  rw [mem_findAll f hl dir hp]
  constructor
  · intro h
    rcases dedup_mem (buildName f) _ [] m h with h | ⟨s, hs, rfl⟩
    · simp at h
    · obtain ⟨h0, hc⟩ := (hkept s).mp hs
      obtain ⟨k, rfl⟩ := Int.eq_ofNat_of_zero_le h0
      exact ⟨k, rfl, hc⟩
  · rintro ⟨s, rfl, hc⟩
    exact dedup_complete (buildName f) (C16_injective f) _ [] (by simp) s
      (.inr ((hkept s).mpr ⟨by omega, hc⟩))

/-- Non-vacuity: a directory with two committed steps, an uncommitted one and a foreign entry. -/
example : (findAll ⟨none, none⟩ [⟨['3'], true⟩, ⟨['7'], false⟩, ⟨['0','5'], true⟩, ⟨['8'], true⟩]).map
    (·.step) = [3, 8] := by decide

theorem keepFirst_mem (l : List Meta) (acc : List Meta) (n : Name) :
    (∃ m ∈ l.foldl (fun acc m => if acc.any fun m' => m'.name == m.name then acc else acc ++ [m]) acc,
      m.name = n) ↔ (∃ m ∈ acc, m.name = n) ∨ ∃ m ∈ l, m.name = n := by
  induction l generalizing acc with
  | nil => simp
  | cons x l ih =>
    rw [List.foldl_cons, ih]
    split
    · rename_i h
      rw [List.any_eq_true] at h
      obtain ⟨y, hy, he⟩ := h
      have he : y.name = x.name := by simpa using he
      constructor
      · rintro (h | ⟨m, hm, h⟩)
        · exact .inl h
        · exact .inr ⟨m, by simp [hm], h⟩
      · rintro (h | ⟨m, hm, h⟩)
        · exact .inl h
        · rcases List.mem_cons.mp hm with rfl | hm
          · exact .inl ⟨y, hy, he.trans h⟩
          · exact .inr ⟨m, hm, h⟩
    · constructor
      · rintro (⟨m, hm, h⟩ | ⟨m, hm, h⟩)
        · rw [List.mem_append] at hm
          rcases hm with hm | hm
          · exact .inl ⟨m, hm, h⟩
          · simp at hm; exact .inr ⟨x, by simp, hm ▸ h⟩
        · exact .inr ⟨m, by simp [hm], h⟩
      · rintro (⟨m, hm, h⟩ | ⟨m, hm, h⟩)
        · exact .inl ⟨m, by simp [hm], h⟩
        · rcases List.mem_cons.mp hm with rfl | hm
          · exact .inl ⟨m, by simp, h⟩
          · exact .inr ⟨m, hm, h⟩

theorem keepFirst_nodup (l : List Meta) (acc : List Meta) (h : (acc.map (·.name)).Nodup) :
    ((l.foldl (fun acc m => if acc.any fun m' => m'.name == m.name then acc else acc ++ [m]) acc).map
      (·.name)).Nodup := by
  induction l generalizing acc with
  | nil => exact h
  | cons x l ih =>
    rw [List.foldl_cons]
    apply ih
    split
    · exact h
    · rename_i hx
      rw [List.map_append, List.nodup_append]
      refine ⟨h, by simp, ?_⟩
      intro a ha b hb
      simp at hb; subst hb
      intro e; subst e
      apply hx
      rw [List.any_eq_true]
      rw [List.mem_map] at ha
      obtain ⟨y, hy, he⟩ := ha
      exact ⟨y, hy, by simp [he]⟩

/-- **C17** a composite format lists every path that one of its read formats lists, each once. -/
theorem C17_composite_find_all (fs : List Format) (dir : List Entry) :
    (∀ n, n ∈ (compositeFindAll fs dir).map (·.name) ↔ ∃ f ∈ fs, n ∈ (findAll f dir).map (·.name)) ∧
    ((compositeFindAll fs dir).map (·.name)).Nodup := by
  refine ⟨fun n => ?_, keepFirst_nodup _ [] (by simp)⟩
  have := keepFirst_mem (fs.flatMap fun f => findAll f dir) [] n
  rw [List.mem_map]
  unfold compositeFindAll
  rw [this]
  simp only [List.not_mem_nil, false_and, exists_false, false_or, List.mem_flatMap, List.mem_map]
  constructor
  · rintro ⟨m, ⟨f, hf, hm⟩, he⟩; exact ⟨f, hf, m, hm, he⟩
  · rintro ⟨f, hf, m, hm, he⟩; exact ⟨m, ⟨f, hf, hm⟩, he⟩

/-- **C17** a composite `find_step` succeeds iff the step is committed under some read format, and then
returns the path of the first such format. -/
theorem C17_composite_find_step (fs : List Format) (dir : List Entry) (s : Int) (m : Meta) :
    compositeFindStep fs dir s = some m ↔
      ∃ as f bs, fs = as ++ f :: bs ∧ (∀ g ∈ as, ¬ Committed g dir s) ∧ Committed f dir s ∧
        m = ⟨s, buildName f s⟩ := by
  have hnone : ∀ g, findStep g dir s = none ↔ ¬ Committed g dir s := by
    intro g
    have h := C17_find_step g dir s
    cases hf : findStep g dir s with
    | none =>
      simp only [true_iff]
      intro hc
      have := (h ⟨s, buildName g s⟩).mpr ⟨hc, rfl⟩
      rw [hf] at this; cases this
    | some x =>
      simp only [reduceCtorEq, false_iff, Classical.not_not]
      exact ((h x).mp hf).1
  have hsome : ∀ g, findStep g dir s = some m ↔ Committed g dir s ∧ m = ⟨s, buildName g s⟩ := by
    intro g
    exact C17_find_step g dir s m
  unfold compositeFindStep
  rw [List.findSome?_eq_some_iff]
  constructor
  · rintro ⟨as, f, bs, h1, h2, h3⟩
    exact ⟨as, f, bs, h1, fun g hg => (hnone g).mp (h3 g hg), ((hsome f).mp h2).1, ((hsome f).mp h2).2⟩
  · rintro ⟨as, f, bs, h1, h2, h3, h4⟩
    exact ⟨as, f, bs, h1, (hsome f).mpr ⟨h3, h4⟩, fun g hg => (hnone g).mpr (h2 g hg)⟩

theorem foldl_max (ms : List Meta) (acc : Option Meta) :
    (∀ m, ms.foldl (fun acc m => match acc with
      | none => some m
      | some a => if m.step > a.step then some m else some a) acc = some m →
        (m ∈ ms ∨ acc = some m) ∧ (∀ x ∈ ms, x.step ≤ m.step) ∧ ∀ a, acc = some a → a.step ≤ m.step) ∧
    (ms.foldl (fun acc m => match acc with
      | none => some m
      | some a => if m.step > a.step then some m else some a) acc = none → ms = [] ∧ acc = none) := by
  induction ms generalizing acc with
  | nil =>
    refine ⟨fun m h => ?_, fun h => ⟨rfl, h⟩⟩
    simp only [List.foldl_nil] at h
    exact ⟨.inr h, by simp, fun a ha => by rw [h] at ha; simp at ha; rw [ha]; exact Int.le_refl _⟩
  | cons x ms ih =>
    rw [List.foldl_cons]
    cases acc with
    | none =>
      simp only
      obtain ⟨h1, h2⟩ := ih (some x)
      refine ⟨fun m h => ?_, fun h => absurd (h2 h).2 (by simp)⟩
      obtain ⟨ha, hb, hc⟩ := h1 m h
      refine ⟨?_, ?_, by simp⟩
      · rcases ha with ha | ha
        · exact .inl (by simp [ha])
        · simp at ha; exact .inl (by simp [ha])
      · intro y hy
        rcases List.mem_cons.mp hy with rfl | hy
        · exact hc _ rfl
        · exact hb y hy
    | some a =>
      simp only
      obtain ⟨h1, h2⟩ := ih (if x.step > a.step then some x else some a)
      refine ⟨fun m h => ?_, fun h => ?_⟩
      · obtain ⟨ha, hb, hc⟩ := h1 m h
        split at ha
        · rename_i hgt
          simp only [hgt, if_true] at hc
          have hx := hc x rfl
          refine ⟨?_, ?_, ?_⟩
          · rcases ha with ha | ha
            · exact .inl (by simp [ha])
            · simp at ha; exact .inl (by simp [ha])
          · intro y hy
            rcases List.mem_cons.mp hy with rfl | hy
            · exact hx
            · exact hb y hy
          · intro b hb'; simp at hb'; subst hb'; omega
        · rename_i hgt
          simp only [hgt, if_false] at hc
          have hx := hc a rfl
          refine ⟨?_, ?_, ?_⟩
          · rcases ha with ha | ha
            · exact .inl (by simp [ha])
            · exact .inr ha
          · intro y hy
            rcases List.mem_cons.mp hy with rfl | hy
            · omega
            · exact hb y hy
          · intro b hb'; simp at hb'; subst hb'; exact hx
      · have := (h2 h).2
        split at this <;> simp at this

/-- **C17** `latest_step_metadata` returns a found checkpoint with the largest step, and nothing only
if there is none. -/
theorem C17_latest (nameLe : Name → Name → Bool) (ms : List Meta) :
    (∀ m, latestMetadata nameLe ms = some m → m ∈ ms ∧ ∀ x ∈ ms, x.step ≤ m.step) ∧
    (latestMetadata nameLe ms = none ↔ ms = []) := by
  have hp := List.mergeSort_perm ms (fun a b => nameLe b.name a.name)
  obtain ⟨h1, h2⟩ := foldl_max (ms.mergeSort fun a b => nameLe b.name a.name) none
  refine ⟨fun m h => ?_, ?_, ?_⟩
  · obtain ⟨ha, hb, _⟩ := h1 m h
    refine ⟨?_, fun x hx => hb x (hp.mem_iff.mpr hx)⟩
    rcases ha with ha | ha
    · exact hp.mem_iff.mp ha
    · simp at ha
  · intro h
    have := (h2 h).1
    rw [this] at hp
    exact hp.symm.eq_nil
  · rintro rfl; simp [latestMetadata]

/-- Finding (C17): `find_step` finds a checkpoint saved under a negative step, which `find_all` does not
list. -/
theorem C17_negative_step_fails :
    let dir : List Entry := [⟨['-', '5'], true⟩]
    findStep ⟨none, none⟩ dir (-5) = some ⟨-5, ['-', '5']⟩ ∧ findAll ⟨none, none⟩ dir = [] := by
  have hb : buildName ⟨none, none⟩ (-5) = ['-', '5'] := by
    simp [buildName, prefixU, showInt, dec, digit]
  refine ⟨?_, by decide⟩
  simp only [findStep, hb]; decide

end Verif.NameFormat.Props
