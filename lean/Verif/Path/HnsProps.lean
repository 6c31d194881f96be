/-
Deleting and listing in Google Cloud Storage (C110).

The specification talks about folders as lists of names, not about strings: a
bucket is well formed if its names are not empty and have no slash, and if the
folder above each folder exists (the service makes them).
-/
import Verif.Path.HnsLemmas

namespace Verif.Hns.Props

open Verif.Hns

/-! ## Specification -/

/-- A name of a file or directory. -/
def Name (c : Str) : Prop := c ≠ [] ∧ '/' ∉ c

/-- A name without the characters `?` and `#`. -/
def UrlName (c : Str) : Prop := Name c ∧ '?' ∉ c ∧ '#' ∉ c

/-- A bucket as the service keeps it. -/
structure Stored (s : Bucket) : Prop where
  once : s.folders.Nodup
  names : ∀ f ∈ s.folders, f ≠ [] ∧ ∀ c ∈ f, Name c
  above : ∀ f c, f ++ [c] ∈ s.folders → f ≠ [] → f ∈ s.folders

/-- `g` is the folder `f`, or below it. -/
def Below (f g : Folder) : Prop := ∃ rest, g = f ++ rest

/-- The order in which a set is gone through. -/
def AnyOrder (ord : List Str → List Str) : Prop := ∀ l, (ord l).Perm l

/-- The directory to be deleted. -/
structure Target (b : Str) (f : Folder) : Prop where
  bucket : '/' ∉ b ∧ '?' ∉ b ∧ '#' ∉ b
  some : f ≠ []
  names : ∀ c ∈ f, UrlName c

theorem target_good {b : Str} {f : Folder} (h : Target b f) : Good f :=
  ⟨h.some, fun c hc => (h.names c hc).1⟩

theorem stored_wf {s : Bucket} (h : Stored s) : WF s := ⟨h.once, h.names⟩

theorem below_iff {f g : Folder} : Below f g ↔ f <+: g := by
  constructor
  · rintro ⟨r, rfl⟩; exact List.prefix_append _ _
  · rintro ⟨r, rfl⟩; exact ⟨r, rfl⟩

/-- The folders that the loop begins with. -/
theorem names_eq {b : Str} {f : Folder} {s : Bucket} (ht : Target b f) (ord : List Str → List Str) :
    cleanup ord s (pathOf b f) =
      loop b ord (listFolders b s (render f)).length s (listFolders b s (render f)) := by
  have h := parse_pathOf (b := b) (f := f) ⟨ht.bucket.1, ht.bucket.2⟩
    (fun c hc => (ht.names c hc).2) (target_good ht)
  simp only [cleanup, h, strip_render (target_good ht)]

theorem mem_names {b : Str} {f : Folder} {s : Bucket} (ht : Target b f) (hs : WF s) {g : Folder}
    (hg : Good g) : nm b g ∈ listFolders b s (render f) ↔ g ∈ s.folders ∧ Below f g := by
  simp only [listFolders, List.mem_map, List.mem_filter, List.isPrefixOf_iff_prefix]
  constructor
  · rintro ⟨k, ⟨hk, hp⟩, e⟩
    have : k = g := nm_inj (hs.2 k hk) hg e
    subst this
    exact ⟨hk, below_iff.mpr ((render_prefix (target_good ht).2 hg.2).mp hp)⟩
  · rintro ⟨hk, hp⟩
    exact ⟨g, ⟨hk, (render_prefix (target_good ht).2 hg.2).mpr (below_iff.mp hp)⟩, rfl⟩

theorem names_good {b : Str} {s : Bucket} (hs : WF s) (pre : Str) :
    ∀ n ∈ listFolders b s pre, ∃ f, Good f ∧ nm b f = n := by
  intro n hn
  simp only [listFolders, List.mem_map, List.mem_filter] at hn
  obtain ⟨g, ⟨hg, _⟩, rfl⟩ := hn
  exact ⟨g, hs.2 g hg, rfl⟩

/-! ## Theorems -/

/-- C110: cleaning up ends, whatever the bucket holds. -/
theorem C110_ends {ord : List Str → List Str} (ho : AnyOrder ord) {s : Bucket} (hs : Stored s)
    (path : Str) (r : Bucket) : cleanup ord s path ≠ .spins r :=
  (loop_effect ho _ s _ (stored_wf hs) (names_good (stored_wf hs) _) (Nat.le_refl _)).2.1 r

/-- C110: nothing but folders at or below the directory is ever deleted, even if
the deletion fails half way: objects stay, and all other folders stay. -/
theorem C110_only {ord : List Str → List Str} (ho : AnyOrder ord) {s : Bucket} (hs : Stored s)
    {b : Str} {f : Folder} (ht : Target b f) :
    (cleanup ord s (pathOf b f)).bucket.objects = s.objects ∧
    (∀ g ∈ (cleanup ord s (pathOf b f)).bucket.folders, g ∈ s.folders) ∧
    ∀ g ∈ s.folders, ¬ Below f g → g ∈ (cleanup ord s (pathOf b f)).bucket.folders := by
  rw [names_eq ht]
  have hw := stored_wf hs
  obtain ⟨⟨h1, q, h2, h3⟩, _, _⟩ := loop_effect ho _ s _ hw (names_good hw (render f))
    (Nat.le_refl _)
  refine ⟨h1, ?_, ?_⟩
  · intro g hg
    rw [h2] at hg
    exact (List.mem_filter.mp hg).1
  · intro g hg hb
    rw [h2, List.mem_filter]
    refine ⟨hg, h3 g ?_⟩
    rw [mem_names ht hw (hw.2 g hg)]
    exact fun h => hb h.2

/-- C110: when cleaning up returns, no folder at or below the directory is left. -/
theorem C110_gone {ord : List Str → List Str} (ho : AnyOrder ord) {s r : Bucket} (hs : Stored s)
    {b : Str} {f : Folder} (ht : Target b f) (h : cleanup ord s (pathOf b f) = .done r) :
    ∀ g ∈ r.folders, ¬ Below f g := by
  rw [names_eq ht] at h
  have hw := stored_wf hs
  obtain ⟨⟨h1, q, h2, h3⟩, _, h4⟩ := loop_effect ho _ s _ hw (names_good hw (render f))
    (Nat.le_refl _)
  intro g hg hb
  have h5 := h4 r h g hg
  rw [h] at h2
  simp only [Result.bucket] at h2
  rw [h2] at hg
  have hgs := (List.mem_filter.mp hg).1
  exact h5 ((mem_names ht hw (hw.2 g hgs)).mpr ⟨hgs, hb⟩)

/-- The state between rounds of a deletion without objects. -/
structure Round (b : Str) (f : Folder) (s : Bucket) (ns : List Str) : Prop where
  stored : Stored s
  objects : ∀ o ∈ s.objects, ¬ Below f o.1
  nodup : ns.Nodup
  mem : ∀ g, Good g → (nm b g ∈ ns ↔ g ∈ s.folders ∧ Below f g)
  good : ∀ n ∈ ns, ∃ g, Good g ∧ nm b g = n

theorem leaf_iff {b : Str} {f : Folder} {s : Bucket} {ns : List Str} (h : Round b f s ns)
    {g : Folder} (hg : Good g) : nm b g ∈ leaves ns ↔
      (g ∈ s.folders ∧ Below f g) ∧ ∀ c, g ++ [c] ∉ s.folders := by
  simp only [leaves, List.mem_filter, h.mem g hg, Bool.not_eq_eq_eq_not, Bool.not_true]
  rw [← Bool.not_eq_true, List.contains_iff_mem, List.mem_map]
  constructor
  · rintro ⟨h1, h2⟩
    refine ⟨h1, fun c hc => h2 ⟨nm b (g ++ [c]), ?_, ?_⟩⟩
    · rw [h.mem _ (h.stored.names _ hc)]
      obtain ⟨r, hr⟩ := h1.2
      exact ⟨hc, r ++ [c], by rw [hr]; simp⟩
    · exact parentName_snoc b hg.2 ((h.stored.names _ hc).2 c (by simp))
  · rintro ⟨h1, h2⟩
    refine ⟨h1, ?_⟩
    rintro ⟨m, hm, hm'⟩
    obtain ⟨k, hk, rfl⟩ := h.good m hm
    have hks := ((h.mem k hk).mp hm).1
    obtain ⟨k0, c, rfl⟩ := snoc_of hk.1
    have hk0 : ∀ d ∈ k0, Plain d := fun d hd => hk.2 d (by simp [hd])
    rw [nm, parentName_snoc b hk0 (hk.2 c (by simp))] at hm'
    have : k0 = g := render_inj hk0 hg.2 (List.append_cancel_left hm')
    subst this
    exact h2 c hks

/-- The folders on the way down to a folder exist. -/
theorem way_down {s : Bucket} (h : Stored s) {g : Folder} (hg : g ≠ []) : ∀ (r : Folder),
    g ++ r ∈ s.folders → g ∈ s.folders := by
  intro r
  induction hn : r.length generalizing r with
  | zero =>
    have := List.length_eq_zero_iff.mp hn
    subst this
    simp
  | succ n ih =>
    intro hr
    have hne : r ≠ [] := by intro e; simp [e] at hn
    obtain ⟨r0, c, rfl⟩ := snoc_of hne
    rw [← List.append_assoc] at hr
    exact ih r0 (by simp at hn; omega) (h.above _ c hr (by simp [hg]))

theorem leaf_empty {b : Str} {f : Folder} {s : Bucket} {ns : List Str} (h : Round b f s ns)
    {g : Folder} (hg : Good g) (hl : nm b g ∈ leaves ns) : isEmpty s g = true := by
  obtain ⟨⟨h1, h2⟩, h3⟩ := (leaf_iff h hg).mp hl
  simp only [isEmpty, Bool.and_eq_true, List.all_eq_true, Bool.or_eq_true, beq_iff_eq,
    Bool.not_eq_eq_eq_not, Bool.not_true]
  refine ⟨?_, ?_⟩
  · intro k hk
    by_cases hp : g <+: k
    · left
      obtain ⟨r, rfl⟩ := hp
      cases r with
      | nil => simp
      | cons c r =>
        have : g ++ [c] ∈ s.folders :=
          way_down h.stored (by simp) r (by simpa using hk)
        exact absurd this (h3 c)
    · right
      rw [← Bool.not_eq_true, List.isPrefixOf_iff_prefix]
      exact hp
  · intro o ho
    rw [← Bool.not_eq_true, List.isPrefixOf_iff_prefix]
    intro hp
    obtain ⟨r, hr⟩ := hp
    obtain ⟨r', hr'⟩ := h2
    exact h.objects o ho ⟨r' ++ r, by rw [← hr, hr']; simp⟩

theorem loop_done {b : Str} {f : Folder} {ord : List Str → List Str} (ho : AnyOrder ord)
    (hf : f ≠ []) (fuel : Nat) : ∀ (s : Bucket) (ns : List Str), Round b f s ns →
    ns.length ≤ fuel → ∃ r, loop b ord fuel s ns = .done r := by
  induction fuel with
  | zero =>
    intro s ns _ hl
    have : ns = [] := List.length_eq_zero_iff.mp (by omega)
    subst this
    exact ⟨s, by simp [loop]⟩
  | succ fuel ih =>
    intro s ns h hl
    cases hns : ns with
    | nil => exact ⟨s, by simp [loop]⟩
    | cons n ms =>
      simp only [loop]
      rw [← hns]
      have hw := stored_wf h.stored
      have hmem : ∀ m, m ∈ ord (leaves ns) ↔ m ∈ leaves ns := fun m => (ho _).mem_iff
      have hnd : (ord (leaves ns)).Nodup :=
        (ho _).nodup_iff.mpr (h.nodup.sublist List.filter_sublist)
      obtain ⟨s1, hd⟩ := deleteAll_done (b := b) (ord (leaves ns)) s hw hnd (by
        intro m hm
        have hm' := (hmem m).mp hm
        obtain ⟨g, hg, rfl⟩ := h.good m (List.mem_filter.mp hm').1
        exact ⟨g, ((leaf_iff h hg).mp hm').1.1, rfl, leaf_empty h hg hm'⟩)
      obtain ⟨d1, _, d3⟩ := deleteAll_effect (b := b) (ord (leaves ns)) s hw
      rw [hd] at d1
      have d3' := d3 s1 hd
      simp only [Result.bucket] at d1
      have hkept : ∀ g, g ∈ s1.folders ↔ g ∈ s.folders ∧ nm b g ∉ leaves ns := by
        intro g
        constructor
        · intro hg
          refine ⟨?_, fun hl => d3' g hg ((hmem _).mpr hl)⟩
          obtain ⟨_, q, hq, _⟩ := d1
          rw [hq] at hg
          exact (List.mem_filter.mp hg).1
        · rintro ⟨hg, hl⟩
          obtain ⟨_, q, hq, hq'⟩ := d1
          rw [hq, List.mem_filter]
          exact ⟨hg, hq' g (fun hm => hl ((hmem _).mp hm))⟩
      simp only [hd]
      apply ih
      · refine ⟨⟨(d1.wf hw).1, (d1.wf hw).2, ?_⟩, ?_, ?_, ?_, ?_⟩
        · intro g c hg hne
          obtain ⟨hg1, hg2⟩ := (hkept _).mp hg
          refine (hkept g).mpr ⟨h.stored.above g c hg1 hne, ?_⟩
          intro hl
          have hgg := h.stored.names g (h.stored.above g c hg1 hne)
          exact ((leaf_iff h hgg).mp hl).2 c hg1
        · rw [d1.objects]; exact h.objects
        · exact h.nodup.sublist List.filter_sublist
        · intro g hg
          rw [List.mem_filter, h.mem g hg, hkept]
          simp only [Bool.not_eq_eq_eq_not, Bool.not_true]
          rw [← Bool.not_eq_true, List.contains_iff_mem]
          constructor
          · rintro ⟨⟨h1, h2⟩, h3⟩; exact ⟨⟨h1, h3⟩, h2⟩
          · rintro ⟨⟨h1, h3⟩, h2⟩; exact ⟨⟨h1, h2⟩, h3⟩
        · intro m hm
          exact h.good m (List.mem_filter.mp hm).1
      · have hlt := filter_lt (ns := ns) (q := fun x => !(leaves ns).contains x) (by
          obtain ⟨m, hm, hm'⟩ := leaves_ne (b := b) (by rw [hns]; simp) h.good
          exact ⟨m, hm, by simpa using hm'⟩)
        omega

theorem nodup_names {b : Str} {s : Bucket} (hs : WF s) (pre : Str) :
    (listFolders b s pre).Nodup := by
  have hgood : ∀ g ∈ s.folders.filter (fun f => pre.isPrefixOf (render f)), Good g :=
    fun g hg => hs.2 g (List.mem_filter.mp hg).1
  have hnd : (s.folders.filter fun f => pre.isPrefixOf (render f)).Nodup :=
    hs.1.sublist List.filter_sublist
  unfold listFolders
  generalize s.folders.filter (fun f => pre.isPrefixOf (render f)) = l at hgood hnd
  induction l with
  | nil => simp
  | cons g l ih =>
    rw [List.nodup_cons] at hnd
    rw [List.map_cons, List.nodup_cons]
    refine ⟨?_, ih (fun k hk => hgood k (List.mem_cons_of_mem _ hk)) hnd.2⟩
    rw [List.mem_map]
    rintro ⟨k, hk, e⟩
    have : k = g := nm_inj (hgood k (List.mem_cons_of_mem _ hk)) (hgood g (by simp)) e
    exact hnd.1 (this ▸ hk)

/-- C110: if no objects are left in the directory, cleaning up succeeds: folders
are deleted only after everything below them, so that no request is refused,
whatever the depth of the tree and the order within a round; exactly the folders at
or below the directory are gone. -/
theorem C110_cleanup {ord : List Str → List Str} (ho : AnyOrder ord) {s : Bucket} (hs : Stored s)
    {b : Str} {f : Folder} (ht : Target b f) (hobj : ∀ o ∈ s.objects, ¬ Below f o.1) :
    ∃ r, cleanup ord s (pathOf b f) = .done r ∧ r.objects = s.objects ∧
      ∀ g, g ∈ r.folders ↔ g ∈ s.folders ∧ ¬ Below f g := by
  have hw := stored_wf hs
  obtain ⟨r, hr⟩ : ∃ r, cleanup ord s (pathOf b f) = .done r := by
    rw [names_eq ht]
    exact loop_done ho ht.some _ s _ ⟨hs, hobj, nodup_names hw _,
      fun g hg => mem_names ht hw hg, names_good hw _⟩ (Nat.le_refl _)
  obtain ⟨h1, h2, h3⟩ := C110_only ho hs ht
  rw [hr] at h1 h2 h3
  exact ⟨r, hr, h1, fun g => ⟨fun hg => ⟨h2 g hg, C110_gone ho hs ht hr g hg⟩,
    fun hg => h3 g hg.1 hg.2⟩⟩

theorem not_empty_above {s : Bucket} {o : Folder × Str} (ho : o ∈ s.objects) {g : Folder}
    (hg : Below g o.1) : isEmpty s g = false := by
  simp only [isEmpty, Bool.and_eq_false_iff]
  right
  rw [List.all_eq_false]
  exact ⟨o, ho, by simpa [List.isPrefixOf_iff_prefix] using below_iff.mp hg⟩

theorem deleteAll_keeps {b : Str} {o : Folder × Str} {g : Folder} (hg : Below g o.1)
    (ns : List Str) : ∀ (s : Bucket), WF s → o ∈ s.objects → g ∈ s.folders →
    g ∈ (deleteAll b s ns).bucket.folders := by
  induction ns with
  | nil => intro s _ _ h; exact h
  | cons n ns ih =>
    intro s hw ho h
    simp only [deleteAll]
    cases hd : deleteFolder b s n with
    | none => exact h
    | some s1 =>
      obtain ⟨k, hk, hn, he, rfl⟩ := delete_effect hd
      refine ih _ (wf_filter hw _) ho ?_
      simp only [List.mem_filter, bne_iff_ne, ne_eq]
      refine ⟨h, ?_⟩
      rintro rfl
      rw [not_empty_above ho hg] at he
      cases he

theorem loop_keeps {b : Str} {ord : List Str → List Str} {o : Folder × Str}
    {g : Folder} (hg : Below g o.1) (fuel : Nat) : ∀ (s : Bucket) (ns : List Str), WF s →
    o ∈ s.objects → g ∈ s.folders → g ∈ (loop b ord fuel s ns).bucket.folders := by
  induction fuel with
  | zero => intro s ns _ _ h; cases ns <;> exact h
  | succ fuel ih =>
    intro s ns hw ho h
    cases ns with
    | nil => exact h
    | cons n ns =>
      simp only [loop]
      have hk := deleteAll_keeps (b := b) hg (ord (leaves (n :: ns))) s hw ho h
      obtain ⟨d1, _, _⟩ := deleteAll_effect (b := b) (ord (leaves (n :: ns))) s hw
      cases hd : deleteAll b s (ord (leaves (n :: ns))) with
      | raised r => rw [hd] at hk; exact hk
      | spins r => rw [hd] at hk; exact hk
      | done s1 =>
        rw [hd] at hk d1
        simp only [Result.bucket] at d1
        exact ih s1 _ (d1.wf hw) (by rw [d1.objects]; exact ho) hk

/-- C110: an object that is still there, or was written meanwhile, is not lost: the
folders it lies in stay, and an error is raised. -/
theorem C110_objects_safe {ord : List Str → List Str} (ho : AnyOrder ord) {s : Bucket}
    (hs : Stored s) {b : Str} {f : Folder} (ht : Target b f) {o : Folder × Str}
    (hobj : o ∈ s.objects) (hin : o.1 ∈ s.folders) :
    (∀ g ∈ s.folders, Below g o.1 → g ∈ (cleanup ord s (pathOf b f)).bucket.folders) ∧
    o ∈ (cleanup ord s (pathOf b f)).bucket.objects ∧
    (Below f o.1 → ∃ r, cleanup ord s (pathOf b f) = .raised r) := by
  have hkeep : ∀ g ∈ s.folders, Below g o.1 →
      g ∈ (cleanup ord s (pathOf b f)).bucket.folders := by
    intro g hg hb
    rw [names_eq ht]
    exact loop_keeps hb _ s _ (stored_wf hs) hobj hg
  refine ⟨hkeep, (C110_only ho hs ht).1 ▸ hobj, ?_⟩
  intro hb
  cases hr : cleanup ord s (pathOf b f) with
  | raised r => exact ⟨r, rfl⟩
  | spins r => exact absurd hr (C110_ends ho hs _ r)
  | done r =>
    have h1 := hkeep o.1 hin ⟨[], by simp⟩
    rw [hr] at h1
    exact absurd hb (C110_gone ho hs ht hr o.1 h1)

/-- C110: `rmtree` of a directory removes the objects and the folders at or below
it, in a bucket with a hierarchical namespace, and nothing else. -/
theorem C110_rmtree {ord : List Str → List Str} (ho : AnyOrder ord) {s : Bucket} (hs : Stored s)
    {b : Str} {f : Folder} (ht : Target b f) :
    ∃ r, rmtree ord true s b f = .done r ∧
      (∀ g, g ∈ r.folders ↔ g ∈ s.folders ∧ ¬ Below f g) ∧
      (∀ o, o ∈ r.objects ↔ o ∈ s.objects ∧ ¬ Below f o.1) := by
  have hmem : ∀ o, o ∈ (rmObjects s f).objects ↔ o ∈ s.objects ∧ ¬ Below f o.1 := by
    intro o
    simp only [rmObjects, List.mem_filter, Bool.not_eq_eq_eq_not, Bool.not_true]
    rw [← Bool.not_eq_true, List.isPrefixOf_iff_prefix, below_iff]
  obtain ⟨r, h1, h2, h3⟩ := C110_cleanup ho (s := rmObjects s f)
    ⟨hs.once, hs.names, hs.above⟩ ht (fun o h => ((hmem o).mp h).2)
  exact ⟨r, by simpa [rmtree] using h1, h3, fun o => by rw [h2]; exact hmem o⟩

/-- C110: deleting one step does not touch another, even if the name of the one
begins with the name of the other (`step_1` and `step_10`). -/
theorem C110_sibling {ord : List Str → List Str} (ho : AnyOrder ord) {s : Bucket} (hs : Stored s)
    {b : Str} {d : Folder} {c c' : Str} (ht : Target b (d ++ [c])) (hne : c' ≠ c)
    {rest : Folder} (hin : d ++ c' :: rest ∈ s.folders) :
    d ++ c' :: rest ∈ (cleanup ord s (pathOf b (d ++ [c]))).bucket.folders := by
  refine (C110_only ho hs ht).2.2 _ hin ?_
  rintro ⟨r, hr⟩
  rw [List.append_assoc] at hr
  have := List.append_cancel_left hr
  simp at this
  exact hne this.1

/-! ### Listing -/

theorem takeWhile_plain {c rest : Str} (h : '/' ∉ c) :
    (c ++ '/' :: rest).takeWhile (· != '/') = c :=
  takeWhile_skip (fun x hx => by
    have : x ≠ '/' := fun e => h (e ▸ hx)
    simpa using this) (by simp)

/-- C110: the possible steps found by listing a bucket with a hierarchical
namespace are the directories directly in the given one whose names begin with the
prefix: those that exist as folders, or hold something. -/
theorem C110_listing {s : Bucket} (hs : Stored s)
    (hobj : ∀ o ∈ s.objects, (∀ c ∈ o.1, Name c) ∧ '/' ∉ o.2) {b : Str} {f : Folder}
    (ht : Target b f) {stepPrefix : Str} (hp : '/' ∉ stepPrefix) (x : Str) :
    x ∈ globHns s (pathOf b f) stepPrefix ↔ ∃ c rest, Name c ∧ x = render (f ++ [c]) ∧
      stepPrefix <+: c ∧ (f ++ c :: rest ∈ s.folders ∨ ∃ o ∈ s.objects, o.1 = f ++ c :: rest) := by
  have hparse := parse_pathOf (b := b) (f := f) ⟨ht.bucket.1, ht.bucket.2⟩
    (fun c hc => (ht.names c hc).2) (target_good ht)
  have hjoin : join (render f) stepPrefix = render f ++ stepPrefix := by
    unfold join
    rw [if_neg]
    cases stepPrefix with
    | nil => simp
    | cons a l =>
      have : a ≠ '/' := fun e => hp (by simp [e])
      simpa using this
  have hf := (target_good ht).2
  -- what one id contributes
  have hone : ∀ (g : Folder) (t : Str), (∀ c ∈ g, Plain c) → '/' ∉ t → ∀ x,
      ((render f).isPrefixOf (render g ++ t) = true ∧
        (if ((render g ++ t).drop (render f).length).contains '/' then
          some (render f ++ ((render g ++ t).drop (render f).length).takeWhile (· != '/') ++ ['/'])
          else none) = some x) ↔
      ∃ c rest, g = f ++ c :: rest ∧ x = render (f ++ [c]) := by
    intro g t hg ht' x
    constructor
    · rintro ⟨h1, h2⟩
      rw [List.isPrefixOf_iff_prefix] at h1
      have hpre : ∀ (f g : Folder), (∀ c ∈ f, Plain c) → (∀ c ∈ g, Plain c) →
          render f <+: render g ++ t → f <+: g := by
        intro f
        induction f with
        | nil => intro g _ _ _; simp
        | cons c f ih =>
          intro g hf hg h
          cases g with
          | nil =>
            simp only [render, List.nil_append] at h
            obtain ⟨r, hr⟩ := h
            exact absurd (show '/' ∈ t by rw [← hr]; simp) ht'
          | cons d g =>
            simp only [render, List.append_assoc, List.cons_append] at h
            rw [slash_prefix (hf c (by simp)).2 (hg d (by simp)).2] at h
            rw [List.cons_prefix_cons]
            exact ⟨h.1, ih g (fun c hc => hf c (List.mem_cons_of_mem _ hc))
              (fun c hc => hg c (List.mem_cons_of_mem _ hc)) h.2⟩
      obtain ⟨r, rfl⟩ := hpre f g hf hg h1
      rw [render_append] at h2
      simp only [List.append_assoc, List.drop_left] at h2
      cases r with
      | nil =>
        rw [if_neg] at h2
        · cases h2
        · simpa [render] using ht'
      | cons c rest =>
        refine ⟨c, rest, rfl, ?_⟩
        have hc : '/' ∉ c := (hg c (by simp)).2
        rw [if_pos (by simp [render])] at h2
        simp only [render, List.append_assoc, List.cons_append, takeWhile_plain hc,
          Option.some.injEq] at h2
        rw [render_snoc, ← h2]
        simp
    · rintro ⟨c, rest, rfl, rfl⟩
      have hc : '/' ∉ c := (hg c (by simp)).2
      rw [render_append]
      refine ⟨by rw [List.isPrefixOf_iff_prefix]; simp, ?_⟩
      simp only [List.append_assoc, List.drop_left]
      rw [if_pos (by simp [render])]
      simp only [render, List.append_assoc, List.cons_append, takeWhile_plain hc,
        Option.some.injEq]
      rw [render_append]; simp [render]
  have hids : ∀ i, i ∈ s.folders.map render ++ s.objects.map (fun o => render o.1 ++ o.2) ↔
      (∃ g ∈ s.folders, i = render g ++ []) ∨ ∃ o ∈ s.objects, i = render o.1 ++ o.2 := by
    intro i
    simp only [List.mem_append, List.mem_map, List.append_nil]
    constructor
    · rintro (⟨g, hg, rfl⟩ | ⟨o, ho, rfl⟩)
      · exact Or.inl ⟨g, hg, rfl⟩
      · exact Or.inr ⟨o, ho, rfl⟩
    · rintro (⟨g, hg, rfl⟩ | ⟨o, ho, rfl⟩)
      · exact Or.inl ⟨g, hg, rfl⟩
      · exact Or.inr ⟨o, ho, rfl⟩
  have hstep : ∀ c, '/' ∉ c → (render f ++ stepPrefix <+: render (f ++ [c]) ↔
      stepPrefix <+: c) := by
    intro c hc
    rw [render_snoc, List.append_assoc, List.prefix_append_right_inj]
    constructor
    · rintro ⟨r, hr⟩
      rcases List.eq_nil_or_concat r with rfl | ⟨r', a, rfl⟩
      · simp only [List.append_nil] at hr
        exact absurd (show '/' ∈ stepPrefix by rw [hr]; simp) hp
      · rw [List.concat_eq_append, ← List.append_assoc] at hr
        have := List.append_inj' hr rfl
        exact ⟨r', this.1⟩
    · rintro ⟨r, rfl⟩
      simp
  simp only [globHns, hparse, hjoin, List.mem_filter, prefixes, List.mem_eraseDups,
    List.mem_filterMap, List.isPrefixOf_iff_prefix]
  constructor
  · rintro ⟨⟨i, ⟨hi, hpi⟩, hx⟩, hxp⟩
    rcases (hids i).mp hi with ⟨g, hg, rfl⟩ | ⟨o, ho', rfl⟩
    · obtain ⟨c, rest, rfl, rfl⟩ := (hone g [] (hs.names g hg).2 (by simp) x).mp
        ⟨List.isPrefixOf_iff_prefix.mpr hpi, hx⟩
      have hc := (hs.names _ hg).2 c (by simp)
      exact ⟨c, rest, hc, rfl, (hstep c hc.2).mp hxp, Or.inl hg⟩
    · obtain ⟨c, rest, hg, rfl⟩ := (hone o.1 o.2 (hobj o ho').1 (hobj o ho').2 x).mp
        ⟨List.isPrefixOf_iff_prefix.mpr hpi, hx⟩
      have hc := (hobj o ho').1 c (by rw [hg]; simp)
      exact ⟨c, rest, hc, rfl, (hstep c hc.2).mp hxp, Or.inr ⟨o, ho', hg⟩⟩
  · rintro ⟨c, rest, hc, rfl, hsp, hg | ⟨o, ho', hg⟩⟩
    · obtain ⟨h1, h2⟩ := (hone _ [] (hs.names _ hg).2 (by simp) _).mpr ⟨c, rest, rfl, rfl⟩
      exact ⟨⟨_, ⟨(hids _).mpr (Or.inl ⟨_, hg, rfl⟩), List.isPrefixOf_iff_prefix.mp h1⟩, h2⟩,
        (hstep c hc.2).mpr hsp⟩
    · obtain ⟨h1, h2⟩ := (hone o.1 o.2 (hobj o ho').1 (hobj o ho').2 _).mpr ⟨c, rest, hg, rfl⟩
      exact ⟨⟨_, ⟨(hids _).mpr (Or.inr ⟨_, ho', rfl⟩), List.isPrefixOf_iff_prefix.mp h1⟩, h2⟩,
        (hstep c hc.2).mpr hsp⟩

/-! ## Findings -/

theorem root_parse {b : Str} (hb : '/' ∉ b ∧ '?' ∉ b ∧ '#' ∉ b) :
    parse (pathOf b []) = (b, ['/']) := by
  have := urlparse_pathOf (b := b) (f := []) ⟨hb.1, hb.2⟩ (by simp)
  simp [parse, this]

theorem no_slash_first {f : Folder} (h : Good f) (t : Str) : ¬ ['/'] <+: render f ++ t := by
  obtain ⟨hne, hp⟩ := h
  cases f with
  | nil => exact absurd rfl hne
  | cons c f =>
    have hc := hp c (by simp)
    cases c with
    | nil => exact absurd rfl hc.1
    | cons x c =>
      have : x ≠ '/' := fun e => hc.2 (by simp [e])
      simp [render, this.symm]

/-- C110 (finding): in the root of a bucket nothing is found and nothing is cleaned
up: the prefix becomes `/`, with which no id begins.  A manager for `gs://bucket`
sees no steps, whatever is stored. -/
theorem C110_root_fails {ord : List Str → List Str} {s : Bucket} (hs : Stored s)
    (hobj : ∀ o ∈ s.objects, o.1 ≠ [] ∧ ∀ c ∈ o.1, Name c) {b : Str}
    (hb : '/' ∉ b ∧ '?' ∉ b ∧ '#' ∉ b) (stepPrefix : Str) :
    globHns s (pathOf b []) stepPrefix = [] ∧ cleanup ord s (pathOf b []) = .done s := by
  constructor
  · rw [List.eq_nil_iff_forall_not_mem]
    intro x hx
    simp only [globHns, root_parse hb, List.mem_filter, prefixes, List.mem_eraseDups,
      List.mem_filterMap, List.isPrefixOf_iff_prefix, List.mem_append, List.mem_map] at hx
    obtain ⟨⟨i, ⟨hi, hp⟩, _⟩, _⟩ := hx
    rcases hi with ⟨g, hg, rfl⟩ | ⟨o, ho, rfl⟩
    · have := no_slash_first (hs.names g hg) []
      simp only [List.append_nil] at this
      exact this hp
    · exact no_slash_first (hobj o ho) _ hp
  · have hl : listFolders b s ['/'] = [] := by
      simp only [listFolders, List.map_eq_nil_iff, List.filter_eq_nil_iff,
        List.isPrefixOf_iff_prefix]
      intro g hg
      have := no_slash_first (hs.names g hg) []
      simpa using this
    have hst : strip ['/'] ++ ['/'] = ['/'] := by decide
    simp only [cleanup, root_parse hb, hst, hl]
    rfl

/-- C110 (finding): a path is parsed as a URL, so that what follows a `?` or `#` in a
name is lost.  Deleting the directory `run#2` (which is empty) leaves it as it is
and deletes the folders of the directory `run`, another one. -/
theorem C110_special_fails : ∃ (s r : Bucket) (b : Str) (f g : Folder), Stored s ∧
    f ∈ s.folders ∧ g ∈ s.folders ∧ ¬ Below f g ∧
    rmtree id true s b f = .done r ∧ f ∈ r.folders ∧ g ∉ r.folders := by
  refine ⟨⟨[["run".toList], ["run#2".toList]], []⟩, ⟨[["run#2".toList]], []⟩, "b".toList,
    ["run#2".toList], ["run".toList], ⟨by decide, ?_, ?_⟩, by decide, by decide, ?_,
    by decide, by decide, by decide⟩
  · intro f hf
    simp only [List.mem_cons, List.not_mem_nil, or_false] at hf
    rcases hf with rfl | rfl
    · exact ⟨by simp, by intro c hc; simp at hc; subst hc; exact ⟨by decide, by decide⟩⟩
    · exact ⟨by simp, by intro c hc; simp at hc; subst hc; exact ⟨by decide, by decide⟩⟩
  · intro f c hf hne
    simp only [List.mem_cons, List.not_mem_nil, or_false] at hf
    rcases hf with hf | hf
    · have : (f ++ [c]).length = 1 := by rw [hf]; rfl
      simp at this
      exact absurd this hne
    · have : (f ++ [c]).length = 1 := by rw [hf]; rfl
      simp at this
      exact absurd this hne
  · rintro ⟨r, hr⟩
    simp at hr

/-- C110 (finding), and it is worse if that other directory holds something: then
the deletion of `run#2` fails, although the objects of `run#2` are gone. -/
theorem C110_special_raises_fails : ∃ (s r : Bucket) (b : Str) (f : Folder),
    rmtree id true s b f = .raised r ∧ f ∈ s.folders ∧ f ∈ r.folders ∧
    (∃ o ∈ s.objects, Below f o.1) ∧ ∀ o ∈ r.objects, ¬ Below f o.1 := by
  refine ⟨⟨[["run".toList], ["run#2".toList]],
      [(["run".toList], "x".toList), (["run#2".toList], "x".toList)]⟩,
    ⟨[["run".toList], ["run#2".toList]], [(["run".toList], "x".toList)]⟩, "b".toList,
    ["run#2".toList], by decide, by decide, by decide,
    ⟨(["run#2".toList], "x".toList), by decide, [], by simp⟩, ?_⟩
  intro o ho
  simp at ho
  subst ho
  rintro ⟨r, hr⟩
  simp at hr

/-- A bucket with two runs; one step with two levels of folders is deleted. -/
theorem C110_nonvacuous : ∃ (s r : Bucket) (b : Str) (f : Folder), Stored s ∧ Target b f ∧
    rmtree List.reverse true s b f = .done r ∧
    s.folders.length = 5 ∧ r.folders = [["run".toList], ["run".toList, "10".toList]] ∧
    r.objects = [(["run".toList, "10".toList], "x".toList)] := by
  refine ⟨⟨[["run".toList], ["run".toList, "1".toList], ["run".toList, "10".toList],
      ["run".toList, "1".toList, "d".toList], ["run".toList, "1".toList, "state".toList]],
      [(["run".toList, "10".toList], "x".toList),
       (["run".toList, "1".toList, "d".toList], "y".toList)]⟩,
    ⟨[["run".toList], ["run".toList, "10".toList]],
      [(["run".toList, "10".toList], "x".toList)]⟩,
    "b".toList, ["run".toList, "1".toList], ⟨by decide, ?_, ?_⟩, ⟨by decide, by decide, ?_⟩,
    by decide, by decide, by decide, by decide⟩
  · intro f hf
    simp only [List.mem_cons, List.not_mem_nil, or_false] at hf
    rcases hf with rfl | rfl | rfl | rfl | rfl <;>
      (refine ⟨by simp, ?_⟩
       intro c hc
       simp only [List.mem_cons, List.not_mem_nil, or_false] at hc
       rcases hc with rfl | rfl | rfl <;> exact ⟨by decide, by decide⟩)
  · intro f c hf hne
    have hd : f = (f ++ [c]).dropLast := by simp
    simp only [List.mem_cons, List.not_mem_nil, or_false] at hf
    rcases hf with hf | hf | hf | hf | hf <;> (rw [hf] at hd; rw [hd] at hne ⊢; revert hne; decide)
  · intro c hc
    simp only [List.mem_cons, List.not_mem_nil, or_false] at hc
    rcases hc with rfl | rfl <;> exact ⟨⟨by decide, by decide⟩, by decide, by decide⟩

end Verif.Hns.Props
