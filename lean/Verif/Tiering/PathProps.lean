import Verif.Tiering.RoutingProps

/-!
# Tiering service: storage paths and the removal of data (C68)
-/
namespace Verif.Tiering.Routing

/-- Specification: the components of a path (Python `split("/")`). -/
def comps : Str → List Str
  | [] => [[]]
  | c :: cs => if c = '/' then [] :: comps cs else
      match comps cs with
      | w :: ws => (c :: w) :: ws
      | [] => [[c]]

theorem comps_ne_nil : ∀ s, comps s ≠ []
  | [] => by simp [comps]
  | c :: cs => by
    unfold comps
    split
    · simp
    · split <;> simp

theorem comps_append : ∀ a b, comps (a ++ '/' :: b) = comps a ++ comps b
  | [], b => by simp [comps]
  | c :: cs, b => by
    simp only [List.cons_append, comps]
    split
    · simp [comps_append cs b]
    · rw [comps_append cs b]
      cases h : comps cs with
      | nil => exact absurd h (comps_ne_nil cs)
      | cons w ws => simp

theorem comps_of_not_mem : ∀ {u : Str}, '/' ∉ u → comps u = [u]
  | [], _ => rfl
  | c :: cs, h => by
    simp only [List.mem_cons, not_or] at h
    unfold comps
    rw [if_neg (Ne.symm h.1), comps_of_not_mem h.2]

/-- `rstrip` removes slashes at the end and leaves none. -/
theorem rstrip_spec (s : Str) : ∃ n, s = rstrip s ++ List.replicate n '/' := by
  have h := List.takeWhile_append_dropWhile (p := fun c : Char => decide (c = '/')) (l := s.reverse)
  refine ⟨(s.reverse.takeWhile fun c => decide (c = '/')).length, ?_⟩
  have ht : s.reverse.takeWhile (fun c => decide (c = '/')) =
      List.replicate (s.reverse.takeWhile fun c => decide (c = '/')).length '/' := by
    rw [List.eq_replicate_iff]
    refine ⟨rfl, fun b hb => ?_⟩
    have := List.all_takeWhile (p := fun c : Char => decide (c = '/')) (l := s.reverse)
    simpa using List.all_eq_true.1 this b hb
  have e := congrArg List.reverse h
  rw [ht] at e
  simp only [List.reverse_append, List.reverse_replicate, List.reverse_reverse] at e
  exact e.symm

theorem rstrip_last (s : Str) : ¬ ∃ t, rstrip s = t ++ ['/'] := by
  rintro ⟨t, ht⟩
  have e : s.reverse.dropWhile (fun c => decide (c = '/')) = '/' :: t.reverse := by
    have := congrArg List.reverse ht
    simpa [rstrip] using this
  have := List.head?_dropWhile_not (p := fun c : Char => decide (c = '/')) (l := s.reverse)
  rw [e] at this
  simp at this

theorem lstrip_spec (s : Str) : ∃ n, s = List.replicate n '/' ++ lstrip s := by
  have h := List.takeWhile_append_dropWhile (p := fun c : Char => decide (c = '/')) (l := s)
  refine ⟨(s.takeWhile fun c => decide (c = '/')).length, ?_⟩
  have ht : s.takeWhile (fun c => decide (c = '/')) =
      List.replicate (s.takeWhile fun c => decide (c = '/')).length '/' := by
    rw [List.eq_replicate_iff]
    refine ⟨rfl, fun b hb => ?_⟩
    have := List.all_takeWhile (p := fun c : Char => decide (c = '/')) (l := s)
    simpa using List.all_eq_true.1 this b hb
  rw [ht] at h
  exact h.symm

theorem comps_rstrip (s : Str) : ∀ w ∈ comps (rstrip s), w ∈ comps s := by
  obtain ⟨n, hn⟩ := rstrip_spec s
  intro w hw
  rw [hn]
  cases n with
  | zero => simpa using hw
  | succ n => rw [List.replicate_succ, comps_append]; simp [hw]

theorem comps_lstrip (s : Str) : ∀ w ∈ comps (lstrip s), w ∈ comps s := by
  obtain ⟨n, hn⟩ := lstrip_spec s
  intro w hw
  rw [hn]
  cases n with
  | zero => simpa using hw
  | succ n =>
    rw [List.replicate_succ', List.append_assoc, List.singleton_append, comps_append]; simp [hw]

theorem comps_base (b : Backend) (rel : Str) : ∀ w ∈ comps (basePath b rel), w ∈ comps b.pfx ∨ w ∈ comps rel := by
  intro w hw
  unfold basePath at hw
  dsimp only at hw
  split at hw
  · exact Or.inr hw
  · rw [comps_append] at hw
    rcases List.mem_append.1 hw with h | h
    · exact Or.inl (comps_rstrip _ w h)
    · exact Or.inr (comps_lstrip _ w h)

theorem storagePath_ends (b : Backend) (rel u : Str) : ∃ a, storagePath b rel u = a ++ '/' :: u := by
  unfold storagePath
  dsimp only
  split
  · next h =>
    rw [List.isSuffixOf_iff_suffix] at h
    obtain ⟨a, ha⟩ := h
    exact ⟨a, ha.symm⟩
  · exact ⟨_, rfl⟩

theorem comps_storagePath (b : Backend) (rel u : Str) (hu : '/' ∉ u) :
    ∀ w ∈ comps (storagePath b rel u), w ∈ comps b.pfx ∨ w ∈ comps rel ∨ w = u := by
  intro w hw
  unfold storagePath at hw
  dsimp only at hw
  split at hw
  · rcases comps_base b rel w hw with h | h
    · exact Or.inl h
    · exact Or.inr (Or.inl h)
  · rw [comps_append, comps_of_not_mem hu] at hw
    rcases List.mem_append.1 hw with h | h
    · rcases comps_base b rel w (comps_rstrip _ w h) with h | h
      · exact Or.inl h
      · exact Or.inr (Or.inl h)
    · exact Or.inr (Or.inr (by simpa using h))

/-- C68: tier paths with different identifiers have different storage paths, whatever the backends and
the paths of the assets. -/
theorem C68_paths_distinct (b b' : Backend) (rel rel' u u' : Str) (hu : '/' ∉ u) (hu' : '/' ∉ u') (hne : u ≠ u') :
    storagePath b rel u ≠ storagePath b' rel' u' := by
  intro e
  obtain ⟨a, ha⟩ := storagePath_ends b rel u
  obtain ⟨a', ha'⟩ := storagePath_ends b' rel' u'
  rw [ha, ha'] at e
  exact hne (last_split_unique e hu hu').2

theorem rstrip_replicate {p : Str} (hl : ¬ ∃ t, p = t ++ ['/']) (n : Nat) : rstrip (p ++ List.replicate n '/') = p := by
  have h0 : p.reverse.dropWhile (fun c => decide (c = '/')) = p.reverse := by
    cases h : p.reverse with
    | nil => rfl
    | cons c cs =>
      rw [List.dropWhile_cons_of_neg]
      simp only [decide_eq_true_eq]
      rintro rfl
      exact hl ⟨cs.reverse, by have := congrArg List.reverse h; simpa using this⟩
  have h1 : ∀ n, (List.replicate n '/' ++ p.reverse).dropWhile (fun c => decide (c = '/')) = p.reverse := by
    intro n
    induction n with
    | zero => simpa using h0
    | succ n ih => rw [List.replicate_succ, List.cons_append, List.dropWhile_cons_of_pos (by simp)]; exact ih
  unfold rstrip
  rw [List.reverse_append, List.reverse_replicate, h1, List.reverse_reverse]

theorem prefix_rstrip {p s : Str} (hl : ¬ ∃ t, p = t ++ ['/']) (h : p <+: s) : p <+: rstrip s := by
  obtain ⟨n, hn⟩ := rstrip_spec s
  rw [hn] at h
  rcases List.prefix_or_prefix_of_prefix h (List.prefix_append (rstrip s) (List.replicate n '/')) with h' | h'
  · exact h'
  · obtain ⟨t, ht⟩ := h'
    rw [← ht] at h
    rw [List.prefix_append_right_inj] at h
    obtain ⟨t', ht'⟩ := h
    have hall : ∀ c ∈ t, c = '/' := by
      intro c hc
      have : c ∈ List.replicate n '/' := by rw [← ht']; simp [hc]
      exact List.eq_of_mem_replicate this
    have : t = [] := by
      rcases List.eq_nil_or_concat t with e | ⟨t0, c, e⟩
      · exact e
      · exfalso
        rw [List.concat_eq_append] at e
        have := hall c (by rw [e]; simp)
        subst this
        exact hl ⟨rstrip s ++ t0, by rw [← ht, e, List.append_assoc]⟩
    subst this
    rw [← ht]; simp

/-- C68: a storage path lies below the prefix of its backend (taken without the slashes at its end),
provided the prefix does not itself end in the identifier. -/
theorem C68_path_below_prefix (b : Backend) (rel u p : Str) (n : Nat) (hp : b.pfx = p ++ List.replicate n '/')
    (hl : ¬ ∃ t, p = t ++ ['/']) (hu : ¬ ('/' :: u) <:+ p) : (p ++ ['/']) <+: storagePath b rel u := by
  have hr : rstrip b.pfx = p := by rw [hp]; exact rstrip_replicate hl n
  have hb : basePath b rel = p ∨ (p ++ ['/']) <+: basePath b rel := by
    unfold basePath
    dsimp only
    rw [hr]
    split
    · next h =>
      rcases h with h | h
      · exact Or.inl h
      · exact Or.inr ((startsWith_iff _ _).1 h)
    · exact Or.inr ⟨lstrip rel, by simp⟩
  unfold storagePath
  dsimp only
  split
  · next h =>
    rw [List.isSuffixOf_iff_suffix] at h
    rcases hb with hb | hb
    · rw [hb] at h; exact absurd h hu
    · exact hb
  · have hpb : p <+: basePath b rel := by
      rcases hb with hb | hb
      · rw [hb]; exact List.prefix_refl _
      · exact List.IsPrefix.trans (List.prefix_append _ _) hb
    obtain ⟨t, ht⟩ := prefix_rstrip hl hpb
    rw [← ht]
    cases t with
    | nil => exact ⟨u, by simp⟩
    | cons c cs =>
      have hc : c = '/' := by
        rcases hb with hb | hb
        · exfalso
          obtain ⟨m, hm⟩ := rstrip_spec (basePath b rel)
          rw [← ht, hb] at hm
          have := congrArg List.length hm
          simp at this
        · obtain ⟨m, hm⟩ := rstrip_spec (basePath b rel)
          rw [← ht] at hm
          rw [hm] at hb
          obtain ⟨q, hq⟩ := hb
          simp only [List.append_assoc, List.append_cancel_left_eq, List.cons_append, List.nil_append,
            List.cons.injEq] at hq
          exact hq.1.symm
      subst hc
      exact ⟨cs ++ '/' :: u, by simp⟩

/-! ## Removal -/

/-- Specification: an object is at or below a path (without a slash at its end). -/
def Below (pre name : Str) : Prop := name = pre ∨ (pre ++ ['/']) <+: name

theorem dropScheme_id : ∀ {s : Str}, ¬ ['g', 's', ':', '/', '/'] <:+: s → dropScheme s = s
  | [], _ => rfl
  | c :: cs, h => by
    have ih : dropScheme cs = cs := dropScheme_id fun h' => h (List.IsInfix.trans h' (List.infix_cons (List.infix_refl cs)))
    rw [dropScheme.eq_def]
    split
    · next rest heq =>
      rw [heq] at h
      exact absurd ⟨[], rest, by simp⟩ h
    · next c' rest _ heq => cases heq; rw [ih]
    · next heq => cases heq

theorem takeWhile_stop {p : Char → Bool} : ∀ {a : Str} {c : Char} {b : Str}, (∀ x ∈ a, p x = true) → p c = false →
    (a ++ c :: b).takeWhile p = a
  | [], c, b, _, h => by simp [h]
  | x :: xs, c, b, ha, h => by
    simp only [List.cons_append]
    rw [List.takeWhile_cons_of_pos (ha x (by simp)), takeWhile_stop (fun y hy => ha y (by simp [hy])) h]

/-- C68: a path of a bucket is taken apart into the bucket and the name, provided the scheme does not
occur a second time. -/
theorem C68_parse (bucket name : Str) (hb : '/' ∉ bucket)
    (hs : ¬ ['g', 's', ':', '/', '/'] <:+: (bucket ++ '/' :: name)) :
    parseGcs (['g', 's', ':', '/', '/'] ++ bucket ++ '/' :: name) = (bucket, name) := by
  have e : dropScheme (['g', 's', ':', '/', '/'] ++ bucket ++ '/' :: name) = bucket ++ '/' :: name := by
    show dropScheme ('g' :: 's' :: ':' :: '/' :: '/' :: (bucket ++ '/' :: name)) = _
    rw [dropScheme, dropScheme_id hs]
  have hall : ∀ x ∈ bucket, decide (x ≠ '/') = true := by
    intro x hx; simp only [decide_eq_true_eq]; rintro rfl; exact hb hx
  unfold parseGcs
  rw [e]
  dsimp only
  rw [takeWhile_stop (p := fun c => decide (c ≠ '/')) hall (by simp),
    dropWhile_append_stop (p := fun c => decide (c ≠ '/')) hall (by simp)]
  rfl

theorem under_iff {pre : Str} (hl : ¬ ∃ t, pre = t ++ ['/']) (name : Str) : under pre name = true ↔ Below pre name := by
  have : rstrip pre = pre := by simpa using rstrip_replicate hl 0
  unfold under Below
  rw [this, Bool.or_eq_true, decide_eq_true_eq, startsWith_iff]

theorem chunks_flatten {α : Type} (n : Nat) (hn : n ≠ 0) (l : List α) : (chunks n l).flatten = l := by
  induction l using chunks.induct n with
  | case1 l h =>
    rw [chunks, dif_pos h]
    rcases h with h | h
    · exact absurd h hn
    · simp [h]
  | case2 l h ih =>
    rw [chunks, dif_neg h, List.flatten_cons, ih, List.take_append_drop]

theorem batches_spec (bucket : Str) (fate : Str → Bool) : ∀ (cs : List (List Str)) (store : List Obj),
    (∀ o, o ∈ (batches bucket fate cs store).1 → o ∈ store) ∧
    (batches bucket fate cs store).1.Sublist store ∧
    (∀ o ∈ store, ¬ (o.1 = bucket ∧ o.2 ∈ cs.flatten) → o ∈ (batches bucket fate cs store).1) ∧
    ((batches bucket fate cs store).2 = true → (batches bucket fate cs store).1 =
      store.filter fun o => !(decide (o.1 = bucket) && cs.flatten.contains o.2)) ∧
    ((∀ n, fate n = true) → (batches bucket fate cs store).2 = true)
  | [], store => by
    simp only [batches, List.flatten_nil, List.contains_nil, Bool.and_false, Bool.not_false]
    refine ⟨fun o h => h, List.Sublist.refl _, fun o h _ => h, fun _ => (List.filter_eq_self.2 fun _ _ => rfl).symm, fun _ => trivial⟩
  | c :: cs, store => by
    have ih := batches_spec bucket fate cs (batch bucket fate c store).1
    have hsub : (batch bucket fate c store).1.Sublist store := List.filter_sublist
    have hkeep : ∀ o ∈ store, ¬ (o.1 = bucket ∧ o.2 ∈ c) → o ∈ (batch bucket fate c store).1 := by
      intro o ho hn
      refine List.mem_filter.2 ⟨ho, ?_⟩
      cases h : decide (o.1 = bucket) && c.contains o.2 && fate o.2 with
      | false => rfl
      | true =>
        simp only [Bool.and_eq_true, decide_eq_true_eq, List.contains_iff_mem] at h
        exact absurd h.1 hn
    unfold batches
    dsimp only
    cases hr : (batch bucket fate c store).2 with
    | true =>
      rw [if_pos rfl]
      refine ⟨fun o ho => hsub.subset (ih.1 o ho), ih.2.1.trans hsub, ?_, ?_, ih.2.2.2.2⟩
      · intro o ho hn
        simp only [List.flatten_cons, List.mem_append, not_and, not_or] at hn
        exact ih.2.2.1 o (hkeep o ho (fun h => (hn h.1).1 h.2)) (fun h => (hn h.1).2 h.2)
      · intro h
        rw [ih.2.2.2.1 h]
        have hall : ∀ n ∈ c, fate n = true := List.all_eq_true.1 hr
        show List.filter _ (List.filter _ store) = _
        rw [List.filter_filter]
        refine List.filter_congr fun o _ => ?_
        have : (c.contains o.2 && fate o.2) = c.contains o.2 := by
          cases hc : c.contains o.2 with
          | false => rfl
          | true => rw [hall _ (List.contains_iff_mem.1 hc)]; rfl
        rw [Bool.and_assoc, this]
        have hf : (c :: cs).flatten.contains o.2 = (c.contains o.2 || cs.flatten.contains o.2) := by
          rw [Bool.eq_iff_iff]
          simp only [List.contains_iff_mem, Bool.or_eq_true, List.flatten_cons, List.mem_append]
        rw [hf]
        cases decide (o.1 = bucket) <;> cases c.contains o.2 <;> cases cs.flatten.contains o.2 <;> rfl
    | false =>
      rw [if_neg (by simp)]
      refine ⟨fun o ho => hsub.subset ho, hsub, ?_, fun h => (by cases h), fun h => ?_⟩
      · intro o ho hn
        exact hkeep o ho (fun h => hn ⟨h.1, by simp [h.2]⟩)
      · exfalso
        have : (batch bucket fate c store).2 = true := List.all_eq_true.2 fun n _ => h n
        rw [hr] at this; cases this

theorem listed_iff {store : List Obj} {bucket pre : Str} {pages : List (List Str)} (hl : ¬ ∃ t, pre = t ++ ['/'])
    (hp : ∀ n, n ∈ pages.flatten ↔ (bucket, n) ∈ store ∧ pre <+: n) (n : Str) :
    n ∈ listObjects pages pre ↔ (bucket, n) ∈ store ∧ Below pre n := by
  unfold listObjects
  simp only [List.mem_flatten, List.mem_map]
  constructor
  · rintro ⟨l, ⟨pg, hpg, rfl⟩, hn⟩
    obtain ⟨h1, h2⟩ := List.mem_filter.1 hn
    exact ⟨((hp n).1 (List.mem_flatten.2 ⟨pg, hpg, h1⟩)).1, (under_iff hl n).1 h2⟩
  · rintro ⟨h1, h2⟩
    have hpre : pre <+: n := by
      rcases h2 with rfl | h2
      · exact List.prefix_refl _
      · exact List.IsPrefix.trans (List.prefix_append _ _) h2
    obtain ⟨pg, hpg, hn⟩ := List.mem_flatten.1 ((hp n).2 ⟨h1, hpre⟩)
    exact ⟨_, ⟨pg, hpg, rfl⟩, List.mem_filter.2 ⟨hn, (under_iff hl n).2 h2⟩⟩

/-- C68: the removal of a path of a bucket, however the listing is divided into pages, however many
batches it takes and whichever requests fail, removes only objects at or below the path, and if it
reports success it has removed exactly all of these. -/
theorem C68_delete_exact (bucket pre : Str) (hb : '/' ∉ bucket) (hl : ¬ ∃ t, pre = t ++ ['/'])
    (hs : ¬ ['g', 's', ':', '/', '/'] <:+: (bucket ++ '/' :: pre)) (store : List Obj) (pages : List (List Str))
    (hp : ∀ n, n ∈ pages.flatten ↔ (bucket, n) ∈ store ∧ pre <+: n) (fate : Str → Bool) :
    let r := deletePath fate pages (['g', 's', ':', '/', '/'] ++ bucket ++ '/' :: pre) store
    r.1.Sublist store ∧
    (∀ o ∈ store, ¬ (o.1 = bucket ∧ Below pre o.2) → o ∈ r.1) ∧
    (r.2 = true → ∀ o, o ∈ r.1 ↔ o ∈ store ∧ ¬ (o.1 = bucket ∧ Below pre o.2)) ∧
    ((∀ n, fate n = true) → r.2 = true) := by
  intro r
  have hr : r = batches bucket fate (chunks 100 (listObjects pages pre)) store := by
    show deletePath _ _ _ _ = _
    unfold deletePath
    rw [C68_parse bucket pre hb hs]
  have hspec := batches_spec bucket fate (chunks 100 (listObjects pages pre)) store
  rw [chunks_flatten 100 (by decide)] at hspec
  rw [← hr] at hspec
  obtain ⟨_, h2, h3, h4, h5⟩ := hspec
  refine ⟨h2, ?_, ?_, h5⟩
  · intro o ho hn
    refine h3 o ho fun h => hn ⟨h.1, ((listed_iff hl hp o.2).1 h.2).2⟩
  · intro hok o
    rw [h4 hok, List.mem_filter]
    refine and_congr_right fun ho => ?_
    have : (decide (o.1 = bucket) && (listObjects pages pre).contains o.2) = true ↔ (o.1 = bucket ∧ Below pre o.2) := by
      simp only [Bool.and_eq_true, decide_eq_true_eq, List.contains_iff_mem]
      refine and_congr_right fun hob => ?_
      rw [listed_iff hl hp]
      constructor
      · exact fun h => h.2
      · refine fun h => ⟨?_, h⟩
        rw [← hob]; exact ho
    rw [← this]
    cases decide (o.1 = bucket) && (listObjects pages pre).contains o.2 <;> simp

theorem below_comps {pre name u a : Str} (h : Below pre name) (hp : pre = a ++ '/' :: u) (hu : '/' ∉ u) : u ∈ comps name := by
  subst hp
  rcases h with rfl | ⟨t, rfl⟩
  · rw [comps_append, comps_of_not_mem hu]; simp
  · rw [List.append_assoc, List.singleton_append, comps_append, comps_append, comps_of_not_mem hu]; simp

/-- C68: the storage path of one tier path is not at or below that of another, so that removing the
data of the one does not touch the other, provided the identifier of the one does not occur as a
component of the other's backend prefix or asset path. -/
theorem C68_paths_apart_partial (b b' : Backend) (rel rel' u u' : Str) (hu : '/' ∉ u) (hu' : '/' ∉ u') (hne : u ≠ u')
    (h1 : u ∉ comps b'.pfx) (h2 : u ∉ comps rel') (file : Str)
    (hfile : file = storagePath b' rel' u' ∨ ∃ t, u ∉ comps t ∧ file = storagePath b' rel' u' ++ '/' :: t) :
    ¬ Below (storagePath b rel u) file := by
  intro h
  obtain ⟨a, ha⟩ := storagePath_ends b rel u
  have hc := below_comps h ha hu
  have key : u ∉ comps (storagePath b' rel' u') := by
    intro hm
    rcases comps_storagePath b' rel' u' hu' u hm with h | h | h
    · exact h1 h
    · exact h2 h
    · exact hne h
  rcases hfile with rfl | ⟨t, ht, rfl⟩
  · exact key hc
  · rw [comps_append] at hc
    rcases List.mem_append.1 hc with h | h
    · exact key h
    · exact ht h

def gs : Str := ['g', 's', ':', '/', '/']

theorem C68_delete_nonvacuous :
    storagePath { pfx := gs ++ ['b', '/'] } ['/', 'x'] ['1'] = gs ++ ['b'] ++ '/' :: ['x', '/', '1'] ∧
    storagePath { pfx := gs ++ ['b', '/'] } (gs ++ ['b', '/', 'x']) ['1'] = gs ++ ['b'] ++ '/' :: ['x', '/', '1'] ∧
    (let store : List Obj := [(['b'], ['x', '/', '1', '/', 'd']), (['b'], ['x', '/', '1', '2']), (['c'], ['x', '/', '1'])]
     let pages : List (List Str) := [[['x', '/', '1', '/', 'd']], [['x', '/', '1', '2']]]
     ∀ n, n ∈ pages.flatten ↔ (['b'], n) ∈ store ∧ ['x', '/', '1'] <+: n) ∧
    ¬ gs <:+: (['b'] ++ '/' :: ['x', '/', '1']) := by
  refine ⟨by decide, by decide, ?_, ?_⟩
  · intro store pages n
    simp only [store, pages, List.flatten_cons, List.flatten_nil, List.append_nil, List.cons_append, List.nil_append,
      List.mem_cons, List.not_mem_nil, or_false, Prod.mk.injEq, true_and]
    constructor
    · rintro (rfl | rfl) <;> decide
    · rintro ⟨h | h | h, _⟩
      · exact Or.inl h
      · exact Or.inr h
      · exact absurd h.1 (by decide)
  · rintro ⟨s, t, h⟩
    have hm : ':' ∈ (['b'] ++ '/' :: ['x', '/', '1'] : Str) := by rw [← h]; simp [gs]
    revert hm; decide

/-- C68 (finding): a path that is an address in a different bucket is stored below the backend's prefix,
scheme and all; the client writes objects under a name that contains the scheme, but the removal
drops every occurrence of it, so it looks for objects under another name, removes nothing and
reports success. -/
theorem C68_foreign_address_fails :
    let path := storagePath { pfx := gs ++ ['b'] } (gs ++ ['o', '/', 'x']) ['1']
    path = gs ++ ['b'] ++ '/' :: (gs ++ ['o', '/', 'x', '/', '1']) ∧
    parseGcs path = (['b'], ['o', '/', 'x', '/', '1']) ∧
    (let name : Str := gs ++ ['o', '/', 'x', '/', '1', '/', 'd']
     deletePath (fun _ => true) [] path [(['b'], name)] = ([(['b'], name)], true) ∧
     ∀ n, n ∈ ([] : List (List Str)).flatten ↔ (['b'], n) ∈ [(['b'], name)] ∧ ['o', '/', 'x', '/', '1'] <+: n) := by
  refine ⟨by decide, by decide, ?_, ?_⟩
  · have h : parseGcs (storagePath { pfx := gs ++ ['b'] } (gs ++ ['o', '/', 'x']) ['1']) = (['b'], ['o', '/', 'x', '/', '1']) := by
      decide
    unfold deletePath
    rw [h]
    simp [listObjects, chunks, batches]
  · intro n
    simp only [List.flatten_nil, List.not_mem_nil, List.mem_singleton, Prod.mk.injEq, true_and, false_iff]
    rintro ⟨rfl, h⟩
    revert h; decide

/-- C68 (finding): an asset may be reserved inside another one: a reserved path that begins with the
backend's prefix is taken as it is, also if it leads into the storage path of another asset, and
removing that asset removes the data of both. -/
theorem C68_nested_asset_fails :
    let b : Backend := { pfx := gs ++ ['b'] }
    let first := storagePath b ['x'] ['1']
    let second := storagePath b (first ++ ['/', 'y']) ['2']
    Below first second ∧ first ≠ second := by
  refine ⟨Or.inr ?_, by decide⟩
  rw [← startsWith_iff]
  decide

end Verif.Tiering.Routing
