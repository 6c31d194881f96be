/-
Helper lemmas for C110 (strings, names of folders, the deletion loop).
-/
import Verif.Path.Hns

namespace Verif.Hns

/-- A name: not empty, without a slash. -/
def Plain (c : Str) : Prop := c ≠ [] ∧ '/' ∉ c

/-- A folder with plain names. -/
def Good (f : Folder) : Prop := f ≠ [] ∧ ∀ c ∈ f, Plain c

/-! ### Strings -/

theorem dropWhile_none {p : Char → Bool} {l : Str} (h : ∀ a ∈ l.head?, p a = false) :
    l.dropWhile p = l := by
  cases l with
  | nil => rfl
  | cons a l => simp [List.dropWhile, h a (by simp)]

theorem rstrip_slash {v : Str} (h : ∀ a ∈ v.getLast?, a ≠ '/') :
    rstrip (v ++ ['/']) = v := by
  simp only [rstrip, List.reverse_append, List.reverse_cons, List.reverse_nil,
    List.nil_append, List.singleton_append]
  simp only [List.dropWhile, beq_self_eq_true]
  rw [dropWhile_none, List.reverse_reverse]
  intro a ha
  rw [List.head?_reverse] at ha
  simpa using h a ha

theorem rstrip_none {v : Str} (h : ∀ a ∈ v.getLast?, a ≠ '/') : rstrip v = v := by
  simp only [rstrip]
  rw [dropWhile_none, List.reverse_reverse]
  intro a ha
  rw [List.head?_reverse] at ha
  simpa using h a ha

theorem dropWhile_skip {p : Char → Bool} {a b : Str} (h : ∀ x ∈ a, p x = true) :
    (a ++ b).dropWhile p = b.dropWhile p := by
  induction a with
  | nil => rfl
  | cons x a ih =>
    simp [List.dropWhile, h x (by simp), ih (fun y hy => h y (List.mem_cons_of_mem _ hy))]

theorem takeWhile_skip {p : Char → Bool} {a b : Str} (h : ∀ x ∈ a, p x = true)
    (hb : ∀ x ∈ b.head?, p x = false) : (a ++ b).takeWhile p = a := by
  induction a with
  | nil =>
    cases b with
    | nil => rfl
    | cons x b => simp [List.takeWhile, hb x (by simp)]
  | cons x a ih =>
    simp [List.takeWhile, h x (by simp), ih (fun y hy => h y (List.mem_cons_of_mem _ hy))]

theorem plain_last {c : Str} (h : Plain c) (x : Str) :
    ∀ a ∈ (x ++ c).getLast?, a ≠ '/' := by
  intro a ha
  rw [List.getLast?_append] at ha
  cases hc : c.getLast? with
  | none => exact absurd (List.getLast?_eq_none_iff.mp hc) h.1
  | some d =>
    rw [hc] at ha
    simp at ha
    subst ha
    intro e
    exact h.2 (e ▸ List.mem_of_getLast? hc)

theorem render_append (f g : Folder) : render (f ++ g) = render f ++ render g := by
  induction f with
  | nil => rfl
  | cons c f ih => simp [render, ih]

theorem render_snoc (f : Folder) (c : Str) : render (f ++ [c]) = render f ++ c ++ ['/'] := by
  rw [render_append]; simp [render]

theorem snoc_of {f : Folder} (h : f ≠ []) : ∃ g c, f = g ++ [c] :=
  ⟨f.dropLast, f.getLast h, (List.dropLast_concat_getLast h).symm⟩

/-- `render f` without its last slash. -/
theorem render_cut {f : Folder} (h : Good f) :
    ∃ v, render f = v ++ ['/'] ∧ v ≠ [] ∧ (∀ x : Str, ∀ a ∈ (x ++ v).getLast?, a ≠ '/') := by
  obtain ⟨g, c, rfl⟩ := snoc_of h.1
  have hc := h.2 c (by simp)
  refine ⟨render g ++ c, by rw [render_snoc], ?_, ?_⟩
  · intro e
    exact hc.1 (List.append_eq_nil_iff.mp e).2
  · intro x
    rw [← List.append_assoc]
    exact plain_last hc _

theorem base_cut (b : Str) : ∃ v, base b = v ++ ['/'] ∧ v ≠ [] ∧
    (∀ x : Str, ∀ a ∈ (x ++ v).getLast?, a ≠ '/') := by
  refine ⟨"projects/_/buckets/".toList ++ b ++ "/folders".toList, rfl, by simp, ?_⟩
  intro x a ha
  rw [List.getLast?_append, List.getLast?_append] at ha
  have : ("/folders".toList).getLast? = some 's' := by decide
  rw [this] at ha
  simp at ha
  subst ha
  decide

theorem top_cut {f : Folder} (b : Str) (h : ∀ c ∈ f, Plain c) :
    ∃ v, base b ++ render f = v ++ ['/'] ∧ v ≠ [] ∧ ∀ a ∈ v.getLast?, a ≠ '/' := by
  cases f with
  | nil =>
    obtain ⟨v, h1, h2, h3⟩ := base_cut b
    refine ⟨v, by simp [render, h1], h2, ?_⟩
    have := h3 []
    simpa using this
  | cons c f =>
    obtain ⟨v, h1, h2, h3⟩ := render_cut (f := c :: f) ⟨by simp, h⟩
    refine ⟨base b ++ v, by rw [h1]; simp, ?_, h3 (base b)⟩
    intro e
    exact h2 (List.append_eq_nil_iff.mp e).2

/-- The parent of the name of a folder. -/
theorem parentName_snoc {f : Folder} {c : Str} (b : Str) (h : ∀ d ∈ f, Plain d)
    (hc : Plain c) : parentName (base b ++ render (f ++ [c])) = base b ++ render f := by
  have h1 : rstrip (base b ++ render (f ++ [c])) = base b ++ render f ++ c := by
    rw [render_snoc, ← List.append_assoc, ← List.append_assoc]
    exact rstrip_slash (plain_last hc _)
  obtain ⟨v, hv, hne, hl⟩ := top_cut b h
  have h2 : ((base b ++ render f ++ c).reverse.dropWhile (· != '/')).reverse =
      base b ++ render f := by
    rw [List.reverse_append, dropWhile_skip]
    · rw [hv]; simp [List.dropWhile]
    · intro x hx
      simp only [List.mem_reverse] at hx
      have : x ≠ '/' := fun e => hc.2 (e ▸ hx)
      simpa using this
  have h3 : (base b ++ render f).all (· == '/') = false := by
    rw [hv, List.all_eq_false]
    cases hlast : v.getLast? with
    | none => exact absurd (List.getLast?_eq_none_iff.mp hlast) hne
    | some a =>
      refine ⟨a, List.mem_append_left _ (List.mem_of_getLast? hlast), ?_⟩
      simpa using hl a (by simp [hlast])
  simp only [parentName, dirname, h1, h2, h3]
  rw [hv, if_neg (by simp), rstrip_slash hl]

/-- Splitting at the first slash. -/
theorem slash_prefix {p q x y : Str} (hp : '/' ∉ p) (hq : '/' ∉ q) :
    (p ++ '/' :: x <+: q ++ '/' :: y) ↔ p = q ∧ x <+: y := by
  induction p generalizing q with
  | nil =>
    cases q with
    | nil => simp
    | cons b q =>
      have : b ≠ '/' := fun e => hq (by simp [e])
      simp [this.symm]
  | cons a p ih =>
    have ha : a ≠ '/' := fun e => hp (by simp [e])
    cases q with
    | nil => simp [ha]
    | cons b q =>
      have := ih (q := q) (fun h => hp (List.mem_cons_of_mem _ h))
        (fun h => hq (List.mem_cons_of_mem _ h))
      simp only [List.cons_append, List.cons_prefix_cons, this, List.cons.injEq, and_assoc]

theorem render_prefix {f g : Folder} (hf : ∀ c ∈ f, Plain c) (hg : ∀ c ∈ g, Plain c) :
    render f <+: render g ↔ f <+: g := by
  induction f generalizing g with
  | nil => simp [render]
  | cons c f ih =>
    cases g with
    | nil => simp [render]
    | cons d g =>
      simp only [render, List.cons_prefix_cons]
      rw [slash_prefix (hf c (by simp)).2 (hg d (by simp)).2,
        ih (fun c h => hf c (List.mem_cons_of_mem _ h))
          (fun c h => hg c (List.mem_cons_of_mem _ h))]

theorem render_inj {f g : Folder} (hf : ∀ c ∈ f, Plain c) (hg : ∀ c ∈ g, Plain c)
    (h : render f = render g) : f = g := by
  have h1 := (render_prefix hf hg).mp (h ▸ List.prefix_rfl)
  have h2 := (render_prefix hg hf).mp (h ▸ List.prefix_rfl)
  exact h1.eq_of_length (Nat.le_antisymm h1.length_le h2.length_le)

/-! ### Paths -/

/-- Names that have a meaning in a URL. -/
def Clean (c : Str) : Prop := '?' ∉ c ∧ '#' ∉ c

theorem flat_render {f : Folder} (h : f ≠ []) :
    f.flatMap ('/' :: ·) ++ ['/'] = '/' :: render f := by
  induction f with
  | nil => exact absurd rfl h
  | cons c f ih =>
    cases f with
    | nil => simp [render]
    | cons d f =>
      have := ih (by simp)
      simp only [List.flatMap_cons, render, List.append_assoc, List.cons_append] at this ⊢
      rw [this]

theorem urlparse_pathOf {b : Str} {f : Folder} (hb : '/' ∉ b ∧ Clean b)
    (hf : ∀ c ∈ f, Clean c) : urlparse (pathOf b f) = (b, f.flatMap ('/' :: ·)) := by
  have hd : (pathOf b f).drop gs.length = b ++ f.flatMap ('/' :: ·) := by
    simp [pathOf, gs]
  have hb' : ∀ x ∈ b, (x != '/' && x != '?' && x != '#') = true := by
    intro x hx
    have h1 : x ≠ '/' := fun e => hb.1 (e ▸ hx)
    have h2 : x ≠ '?' := fun e => hb.2.1 (e ▸ hx)
    have h3 : x ≠ '#' := fun e => hb.2.2 (e ▸ hx)
    simp [h1, h2, h3]
  have hh : ∀ x ∈ (f.flatMap ('/' :: ·)).head?, (x != '/' && x != '?' && x != '#') = false := by
    cases f with
    | nil => simp
    | cons c f => simp
  simp only [urlparse, hd]
  rw [takeWhile_skip hb' hh, dropWhile_skip hb', dropWhile_none hh]
  congr 1
  have : ∀ x ∈ f.flatMap ('/' :: ·), (x != '?' && x != '#') = true := by
    intro x hx
    simp only [List.mem_flatMap, List.mem_cons] at hx
    obtain ⟨c, hc, rfl | hx⟩ := hx
    · decide
    · have h2 : x ≠ '?' := fun e => (hf c hc).1 (e ▸ hx)
      have h3 : x ≠ '#' := fun e => (hf c hc).2 (e ▸ hx)
      simp [h2, h3]
  have := takeWhile_skip (p := fun c => c != '?' && c != '#') (b := []) this (by simp)
  simpa using this

theorem parse_pathOf {b : Str} {f : Folder} (hb : '/' ∉ b ∧ Clean b)
    (hf : ∀ c ∈ f, Clean c) (hg : Good f) : parse (pathOf b f) = (b, render f) := by
  simp only [parse, urlparse_pathOf hb hf]
  congr 1
  have h := flat_render hg.1
  obtain ⟨v, hv, hne, hl⟩ := render_cut hg
  cases hfl : f.flatMap ('/' :: ·) with
  | nil =>
    rw [hfl, hv] at h
    simp at h
  | cons x r =>
    rw [hfl] at h
    simp only [List.cons_append, List.cons.injEq] at h
    obtain ⟨rfl, h⟩ := h
    have hr : r = v := by
      rw [hv] at h
      exact List.append_cancel_right h
    simp only
    rw [if_neg, h]
    have := hl []
    simp only [List.nil_append] at this
    subst hr
    cases hx : r.getLast? with
    | none => simp
    | some a => simpa using this a (by simp [hx])

theorem strip_render {f : Folder} (hg : Good f) : strip (render f) ++ ['/'] = render f := by
  obtain ⟨v, hv, hne, hl⟩ := render_cut hg
  have h1 : lstrip (render f) = render f := by
    obtain ⟨hne', hp⟩ := hg
    cases f with
    | nil => exact absurd rfl hne'
    | cons c f =>
      have hc := hp c (by simp)
      apply dropWhile_none
      intro a ha
      cases c with
      | nil => exact absurd rfl hc.1
      | cons x c =>
        simp [render] at ha
        subst ha
        have : x ≠ '/' := fun e => hc.2 (by simp [e])
        simpa using this
  rw [strip, h1, hv, rstrip_slash]
  simpa using hl []

/-! ### One round -/

/-- All folders of a bucket have plain names. -/
def WF (s : Bucket) : Prop := s.folders.Nodup ∧ ∀ f ∈ s.folders, Good f

def nm (b : Str) (f : Folder) : Str := base b ++ render f

theorem nm_inj {b : Str} {f g : Folder} (hf : Good f) (hg : Good g) (h : nm b f = nm b g) :
    f = g :=
  render_inj hf.2 hg.2 (List.append_cancel_left h)

theorem find_nm {b : Str} {s : Bucket} (hw : WF s) {f : Folder} (hf : f ∈ s.folders) :
    s.folders.find? (fun g => base b ++ render g == nm b f) = some f := by
  cases h : s.folders.find? (fun g => base b ++ render g == nm b f) with
  | none =>
    rw [List.find?_eq_none] at h
    exact absurd (h f hf) (by simp [nm])
  | some g =>
    have h1 := List.find?_some h
    have h2 := List.mem_of_find?_eq_some h
    have h1 : nm b g = nm b f := by simpa [nm] using h1
    rw [nm_inj (hw.2 g h2) (hw.2 f hf) h1]

theorem wf_filter {s : Bucket} (h : WF s) (q : Folder → Bool) :
    WF { s with folders := s.folders.filter q } :=
  ⟨h.1.sublist List.filter_sublist, fun f hf => h.2 f (List.mem_filter.mp hf).1⟩

/-- What a deletion, a round and the loop do to a bucket, when the names `ns` are to
be deleted. -/
structure Effect (b : Str) (s : Bucket) (ns : List Str) (r : Bucket) : Prop where
  objects : r.objects = s.objects
  folders : ∃ q : Folder → Bool, r.folders = s.folders.filter q ∧
    ∀ f, nm b f ∉ ns → q f = true

theorem Effect.refl (b : Str) (s : Bucket) (ns : List Str) : Effect b s ns s :=
  ⟨rfl, fun _ => true, (List.filter_eq_self.mpr (fun _ _ => rfl)).symm, fun _ _ => rfl⟩

theorem Effect.trans {b : Str} {s r t : Bucket} {ns ms : List Str} (h : Effect b s ns r)
    (hs : ∀ n ∈ ms, n ∈ ns) (h' : Effect b r ms t) : Effect b s ns t := by
  obtain ⟨h1, q, h2, h3⟩ := h
  obtain ⟨k1, p, k2, k3⟩ := h'
  refine ⟨k1.trans h1, fun f => q f && p f, ?_, ?_⟩
  · rw [k2, h2, List.filter_filter]
    congr 1
    funext f
    exact Bool.and_comm _ _
  · intro f hf
    simp [h3 f hf, k3 f (fun h => hf (hs _ h))]

theorem Effect.mono {b : Str} {s r : Bucket} {ns ms : List Str} (h : Effect b s ns r)
    (hs : ∀ n ∈ ns, n ∈ ms) : Effect b s ms r := by
  obtain ⟨h1, q, h2, h3⟩ := h
  exact ⟨h1, q, h2, fun f hf => h3 f (fun h => hf (hs _ h))⟩

theorem Effect.wf {b : Str} {s r : Bucket} {ns : List Str} (h : Effect b s ns r)
    (hw : WF s) : WF r := by
  obtain ⟨_, q, h2, _⟩ := h
  refine ⟨?_, ?_⟩
  · rw [h2]; exact hw.1.sublist List.filter_sublist
  · intro f hf
    rw [h2] at hf
    exact hw.2 f (List.mem_filter.mp hf).1

theorem delete_effect {b : Str} {s r : Bucket} {n : Str} (h : deleteFolder b s n = some r) :
    ∃ f ∈ s.folders, nm b f = n ∧ isEmpty s f = true ∧
      r = { s with folders := s.folders.filter (· != f) } := by
  unfold deleteFolder at h
  split at h
  · cases h
  next f hf =>
    have h1 := List.find?_some hf
    have h2 := List.mem_of_find?_eq_some hf
    split at h
    next he =>
      cases h
      exact ⟨f, h2, by simpa [nm] using h1, he, rfl⟩
    · cases h

theorem deleteAll_effect {b : Str} (ns : List Str) : ∀ (s : Bucket), WF s →
    (Effect b s ns (deleteAll b s ns).bucket) ∧
    (∀ r, deleteAll b s ns ≠ .spins r) ∧
    (∀ r, deleteAll b s ns = .done r → ∀ f ∈ r.folders, nm b f ∉ ns) := by
  induction ns with
  | nil =>
    intro s _
    simp only [deleteAll, Result.bucket]
    exact ⟨Effect.refl b s [], by simp, by simp⟩
  | cons n ns ih =>
    intro s hw
    simp only [deleteAll]
    cases h : deleteFolder b s n with
    | none => exact ⟨Effect.refl b s _, by simp, by simp⟩
    | some s1 =>
      obtain ⟨f, hf, hn, _, rfl⟩ := delete_effect h
      have hw1 := wf_filter hw (· != f)
      have he : Effect b s (n :: ns) { s with folders := s.folders.filter (· != f) } := by
        refine ⟨rfl, (· != f), rfl, ?_⟩
        intro g hg
        simp only [bne_iff_ne, ne_eq]
        rintro rfl
        exact hg (by simp [hn])
      obtain ⟨i1, i2, i3⟩ := ih _ hw1
      refine ⟨he.trans (fun m hm => List.mem_cons_of_mem _ hm) i1, i2, ?_⟩
      intro r hr g hg
      have hgi := i3 r hr g hg
      simp only [List.mem_cons, not_or]
      refine ⟨?_, hgi⟩
      intro e
      have hi1 := i1
      simp only at hr
      rw [hr] at hi1
      simp only [Result.bucket] at hi1
      obtain ⟨_, q, hq, _⟩ := hi1
      rw [hq] at hg
      have hg1 := (List.mem_filter.mp hg).1
      have hg2 := List.mem_filter.mp hg1
      have := nm_inj (hw.2 g hg2.1) (hw.2 f hf) (e.trans hn.symm)
      subst this
      simp at hg2

/-- A round succeeds if all folders in it are empty. -/
theorem deleteAll_done {b : Str} (ns : List Str) : ∀ (s : Bucket), WF s → ns.Nodup →
    (∀ n ∈ ns, ∃ f ∈ s.folders, nm b f = n ∧ isEmpty s f = true) →
    ∃ r, deleteAll b s ns = .done r := by
  induction ns with
  | nil => intro s _ _ _; exact ⟨s, rfl⟩
  | cons n ns ih =>
    intro s hw hnd h
    obtain ⟨f, hf, hn, he⟩ := h n (by simp)
    have hd : deleteFolder b s n = some { s with folders := s.folders.filter (· != f) } := by
      unfold deleteFolder
      rw [← hn, find_nm hw hf]
      simp [he]
    simp only [deleteAll, hd]
    rw [List.nodup_cons] at hnd
    apply ih _ (wf_filter hw _) hnd.2
    intro m hm
    obtain ⟨g, hg, hgn, hge⟩ := h m (List.mem_cons_of_mem _ hm)
    refine ⟨g, ?_, hgn, ?_⟩
    · simp only [List.mem_filter, bne_iff_ne, ne_eq]
      refine ⟨hg, ?_⟩
      rintro rfl
      rw [hn] at hgn
      exact hnd.1 (hgn ▸ hm)
    · simp only [isEmpty, Bool.and_eq_true, List.all_eq_true] at hge ⊢
      exact ⟨fun x hx => hge.1 x (List.mem_filter.mp hx).1, hge.2⟩

/-! ### The loop -/

theorem parent_shorter {b : Str} {f : Folder} (h : Good f) :
    (parentName (nm b f)).length < (nm b f).length := by
  obtain ⟨g, c, rfl⟩ := snoc_of h.1
  have hc := h.2 c (by simp)
  rw [nm, parentName_snoc b (fun d hd => h.2 d (by simp [hd])) hc, render_snoc]
  simp only [List.length_append, List.length_singleton]
  omega

theorem exists_longest (ns : List Str) (h : ns ≠ []) :
    ∃ n ∈ ns, ∀ m ∈ ns, m.length ≤ n.length := by
  induction ns with
  | nil => exact absurd rfl h
  | cons a ns ih =>
    cases ns with
    | nil => exact ⟨a, by simp, by simp⟩
    | cons c ns =>
      obtain ⟨n, hn, hm⟩ := ih (by simp)
      by_cases hl : a.length ≤ n.length
      · refine ⟨n, List.mem_cons_of_mem _ hn, ?_⟩
        intro m hm'
        rcases List.mem_cons.mp hm' with rfl | hm'
        · exact hl
        · exact hm m hm'
      · refine ⟨a, by simp, ?_⟩
        intro m hm'
        rcases List.mem_cons.mp hm' with rfl | hm'
        · exact Nat.le_refl _
        · have := hm m hm'
          omega

theorem leaves_ne {b : Str} {ns : List Str} (h : ns ≠ [])
    (hg : ∀ n ∈ ns, ∃ f, Good f ∧ nm b f = n) : ∃ n ∈ ns, n ∈ leaves ns := by
  obtain ⟨n, hn, hm⟩ := exists_longest ns h
  refine ⟨n, hn, ?_⟩
  simp only [leaves, List.mem_filter, hn, true_and, Bool.not_eq_eq_eq_not, Bool.not_true]
  rw [← Bool.not_eq_true, List.contains_iff_mem, List.mem_map]
  rintro ⟨m, hm1, hm2⟩
  obtain ⟨f, hf, rfl⟩ := hg m hm1
  have h1 := parent_shorter (b := b) hf
  have h2 := hm _ hm1
  rw [hm2] at h1
  omega

theorem filter_lt {ns : List Str} {q : Str → Bool} (h : ∃ n ∈ ns, q n = false) :
    (ns.filter q).length < ns.length := by
  induction ns with
  | nil => obtain ⟨n, hn, _⟩ := h; cases hn
  | cons a ns ih =>
    obtain ⟨n, hn, hq⟩ := h
    have hle := List.length_filter_le q ns
    rcases List.mem_cons.mp hn with rfl | hn
    · simp [hq]; omega
    · have := ih ⟨n, hn, hq⟩
      simp only [List.filter_cons]
      split
      · simp only [List.length_cons]; omega
      · simp only [List.length_cons]; omega

theorem loop_effect {b : Str} {ord : List Str → List Str} (ho : ∀ l, (ord l).Perm l)
    (fuel : Nat) : ∀ (s : Bucket) (ns : List Str), WF s →
    (∀ n ∈ ns, ∃ f, Good f ∧ nm b f = n) → ns.length ≤ fuel →
    Effect b s ns (loop b ord fuel s ns).bucket ∧
    (∀ r, loop b ord fuel s ns ≠ .spins r) ∧
    (∀ r, loop b ord fuel s ns = .done r → ∀ f ∈ r.folders, nm b f ∉ ns) := by
  induction fuel with
  | zero =>
    intro s ns hw _ hl
    have : ns = [] := List.length_eq_zero_iff.mp (by omega)
    subst this
    simp only [loop, Result.bucket]
    exact ⟨Effect.refl b s [], by simp, by simp⟩
  | succ fuel ih =>
    intro s ns hw hg hl
    cases ns with
    | nil =>
      simp only [loop, Result.bucket]
      exact ⟨Effect.refl b s [], by simp, by simp⟩
    | cons n ns =>
      have hmem : ∀ m, m ∈ ord (leaves (n :: ns)) ↔ m ∈ leaves (n :: ns) :=
        fun m => (ho _).mem_iff
      have hsub : ∀ m ∈ ord (leaves (n :: ns)), m ∈ n :: ns :=
        fun m hm => (List.mem_filter.mp ((hmem m).mp hm)).1
      obtain ⟨d1, d2, d3⟩ := deleteAll_effect (b := b) (ord (leaves (n :: ns))) s hw
      simp only [loop]
      cases hd : deleteAll b s (ord (leaves (n :: ns))) with
      | spins r => exact absurd hd (d2 r)
      | raised r =>
        rw [hd] at d1
        exact ⟨d1.mono hsub, by simp, by simp⟩
      | done s1 =>
        rw [hd] at d1
        have d1' : Effect b s (n :: ns) s1 := d1.mono hsub
        simp only
        have hlt : ((n :: ns).filter fun x => !(leaves (n :: ns)).contains x).length ≤ fuel := by
          have := filter_lt (ns := n :: ns) (q := fun x => !(leaves (n :: ns)).contains x) (by
            obtain ⟨m, hm, hm'⟩ := leaves_ne (b := b) (by simp) hg
            exact ⟨m, hm, by simpa using hm'⟩)
          omega
        obtain ⟨i1, i2, i3⟩ := ih s1 ((n :: ns).filter fun x => !(leaves (n :: ns)).contains x)
          (d1'.wf hw) (fun m hm => hg m (List.mem_filter.mp hm).1) hlt
        refine ⟨d1'.trans (fun m hm => (List.mem_filter.mp hm).1) i1, i2, ?_⟩
        intro r hr f hf hn
        have h2 := i3 r hr f hf
        have hf1 : f ∈ s1.folders := by
          have := i1
          rw [hr] at this
          obtain ⟨_, q, hq, _⟩ := this
          simp only [Result.bucket] at hq
          rw [hq] at hf
          exact (List.mem_filter.mp hf).1
        have h3 := d3 s1 hd f hf1
        apply h2
        rw [List.mem_filter]
        refine ⟨hn, ?_⟩
        rw [hmem] at h3
        simpa using h3

end Verif.Hns
