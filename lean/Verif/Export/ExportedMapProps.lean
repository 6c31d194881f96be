import Verif.Export.ExportedMap

/-!
# C99: a saved map of exported functions is loaded as it was
-/

namespace Verif.Export.ExportedMapProps
open Verif.Export.ExportedMap

/-- A file system: what contains a file or a directory is a directory. -/
structure WF {B : Type} (fs : FS B) : Prop where
  files : ∀ f ∈ fs.files, f.1.parts ≠ [] ∧ (⟨f.1.isAbs, f.1.parts.dropLast⟩ : Path) ∈ fs.dirs
  dirs : ∀ d ∈ fs.dirs, d.parts ≠ [] → (⟨d.isAbs, d.parts.dropLast⟩ : Path) ∈ fs.dirs

theorem keyOf_append (k : String) : keyOf (k ++ suffix) = k := by
  simp [keyOf, String.toList_append]

theorem suffix_append (k : String) : suffix.toList <:+ (k ++ suffix).toList := by
  rw [String.toList_append]
  exact List.suffix_append _ _

theorem append_inj {a b : String} (h : a ++ suffix = b ++ suffix) : a = b := by
  have := congrArg keyOf h
  rwa [keyOf_append, keyOf_append] at this

/-- Where the function of a key is saved in an absolute directory. -/
def at_ (dir : Path) (k : String) : Path := ⟨true, dir.parts ++ [k ++ suffix]⟩

theorem path_abs (dir : Path) (h : dir.isAbs = true) (k : String) :
    join dir (join dir (fileOf [k])) = at_ dir k := by
  simp [join, fileOf, at_, h]

theorem parent_at (dir : Path) (h : dir.isAbs = true) (k : String) : parent (at_ dir k) = dir := by
  cases dir with
  | mk a ps => simp [parent, at_] at h ⊢; exact h

theorem below {B : Type} {fs : FS B} (wf : WF fs) (a : Bool) (ps : List String) :
    ∀ (qs : List String), (⟨a, ps ++ qs⟩ : Path) ∈ fs.dirs → (⟨a, ps⟩ : Path) ∈ fs.dirs := by
  intro qs
  generalize hn : qs.length = n
  induction n generalizing qs with
  | zero =>
    intro h
    have := List.eq_nil_of_length_eq_zero hn
    subst this
    simpa using h
  | succ n ih =>
    intro h
    have hne : qs ≠ [] := by intro e; subst e; simp at hn
    have h1 := wf.dirs _ h (by simp [hne])
    simp only [List.dropLast_append_of_ne_nil hne] at h1
    exact ih qs.dropLast (by simp [hn]) h1

theorem ancestors_length {p q : Path} (h : q ∈ ancestors p) : q.parts.length ≤ p.parts.length := by
  simp only [ancestors, List.mem_map, List.mem_range] at h
  obtain ⟨n, _, rfl⟩ := h
  simp
  omega

theorem self_ancestor (p : Path) : p ∈ ancestors p := by
  simp only [ancestors, List.mem_map, List.mem_range]
  exact ⟨p.parts.length, by omega, by simp⟩

theorem mem_contains {α : Type} [DecidableEq α] (a : α) (l : List α) :
    l.contains a = true ↔ a ∈ l := by simp

/-- What the loop does in an absolute directory that is new. -/
theorem saveAll_ok {B X : Type} (ser : X → B) (dir : Path) (ha : dir.isAbs = true) :
    ∀ (m : List (String × X)) (fs : FS B), dir ∈ fs.dirs →
      (∀ k, at_ dir k ∉ fs.dirs) → (m.map (·.1)).Nodup →
      (∀ k ∈ m.map (·.1), at_ dir k ∉ fs.files.map (·.1)) →
      saveAll ser dir (m.map fun p => ([p.1], p.2)) fs =
        ({ fs with files := (m.map fun p => (at_ dir p.1, ser p.2)).reverse ++ fs.files }, none) := by
  intro m
  induction m with
  | nil => intro fs _ _ _ _; rfl
  | cons p m ih =>
    intro fs h1 h2 h3 h4
    obtain ⟨k, x⟩ := p
    simp only [List.map_cons, List.nodup_cons] at h3
    have he : pathExists fs (at_ dir k) = false := by
      simp only [pathExists, Bool.or_eq_false_iff]
      constructor
      · rw [Bool.eq_false_iff]; intro h; exact h2 k ((mem_contains _ _).1 h)
      · rw [Bool.eq_false_iff]; intro h
        exact h4 k (by simp) ((mem_contains _ _).1 h)
    have hp : fs.dirs.contains (parent (at_ dir k)) = true := by
      rw [parent_at dir ha]; exact (mem_contains _ _).2 h1
    simp only [List.map_cons, saveAll, path_abs dir ha, saveOne, he, hp, if_true, Bool.false_eq_true,
      if_false]
    rw [ih]
    · simp
    · exact h1
    · exact h2
    · exact h3.2
    · intro k' hk' hm
      simp only [List.map_cons, List.mem_cons] at hm
      rcases hm with e | e
      · simp only [at_, Path.mk.injEq, true_and] at e
        have := List.append_cancel_left e
        simp only [List.cons.injEq, and_true] at this
        have := append_inj this
        subst this
        exact h3.1 hk'
      · exact h4 k' (by simp only [List.map_cons]; exact List.mem_cons_of_mem _ hk') e

theorem readAll_ok {B X : Type} (ser : X → B) (de : B → Option X)
    (hs : ∀ x, de (ser x) = some x) : ∀ (m : List (String × X)),
    readAll de (m.map fun p => (p.1 ++ suffix, ser p.2)) = .ok m := by
  intro m
  induction m with
  | nil => rfl
  | cons p m ih =>
    obtain ⟨k, x⟩ := p
    simp only [List.map_cons, readAll, hs, ih, keyOf_append]

theorem listed_ok {B X : Type} (ser : X → B) (dir : Path) (ha : dir.isAbs = true)
    (dirs : List Path) (old : List (Path × B)) (ho : ∀ f ∈ old, parent f.1 ≠ dir) :
    ∀ (m : List (String × X)),
    listed ⟨dirs, m.map (fun p => (at_ dir p.1, ser p.2)) ++ old⟩ dir =
      m.map fun p => (p.1 ++ suffix, ser p.2) := by
  intro m
  simp only [listed, List.filterMap_append]
  have h1 : old.filterMap (fun f =>
      if parent f.1 = dir ∧ f.1.parts ≠ [] then
        let n := f.1.parts.getLastD ""
        if suffix.toList <:+ n.toList then some (n, f.2) else none
      else none) = [] := by
    rw [List.filterMap_eq_nil_iff]
    intro f hf
    rw [if_neg (fun h => ho f hf h.1)]
  rw [h1, List.append_nil]
  induction m with
  | nil => rfl
  | cons p m ih =>
    obtain ⟨k, x⟩ := p
    have hlast : (at_ dir k).parts.getLastD "" = k ++ suffix := by simp [at_]
    have hne : (at_ dir k).parts ≠ [] := by simp [at_]
    simp only [List.map_cons]
    rw [List.filterMap_cons]
    simp only [parent_at dir ha, hlast, suffix_append, if_true, hne, ne_eq, not_false_eq_true,
      and_self, ih]

/-- C99: a map of functions with distinct keys without slashes, saved in a new
directory with an absolute path, is loaded as it was: the same functions under the
same keys. -/
theorem C99_round_trip_partial {B X : Type} (ser : X → B) (de : B → Option X)
    (hs : ∀ x, de (ser x) = some x) (fs : FS B) (wf : WF fs) (dir : Path)
    (ha : dir.isAbs = true) (hnew : pathExists fs dir = false)
    (m : List (String × X)) (hm : (m.map (·.1)).Nodup) (hne : m ≠ []) :
    ∃ fs' m', save ser dir (m.map fun p => ([p.1], p.2)) fs = (fs', none) ∧
      load de dir fs' = .ok m' ∧ (∀ p, p ∈ m' ↔ p ∈ m) ∧ m'.length = m.length := by
  simp only [pathExists, Bool.or_eq_false_iff] at hnew
  have hd : dir ∉ fs.dirs := fun h => by rw [(mem_contains _ _).2 h] at hnew; simp at hnew
  have heta : (⟨true, dir.parts⟩ : Path) = dir := by cases dir; simp at ha; simp [ha]
  have hat : ∀ k, at_ dir k ∉ fs.dirs := by
    intro k h
    have := below wf true dir.parts [k ++ suffix] h
    rw [heta] at this
    exact hd this
  have hfiles : ∀ f ∈ fs.files, parent f.1 ≠ dir := by
    intro f hf e
    have := (wf.files f hf).2
    simp only [parent] at e
    rw [e] at this
    exact hd this
  have hsave := saveAll_ok ser dir ha m { fs with dirs := ancestors dir ++ fs.dirs }
    (List.mem_append.2 (.inl (self_ancestor dir)))
    (by
      intro k h
      rcases List.mem_append.1 h with h | h
      · have := ancestors_length h
        simp [at_] at this
        omega
      · exact hat k h)
    hm
    (by
      intro k _ h
      obtain ⟨f, hf, e⟩ := List.mem_map.1 h
      have := hfiles f hf
      rw [e, parent_at dir ha] at this
      exact this rfl)
  refine ⟨⟨ancestors dir ++ fs.dirs,
    (m.map fun p => (at_ dir p.1, ser p.2)).reverse ++ fs.files⟩, m.reverse, ?_, ?_, by simp, by simp⟩
  · simp only [save, pathExists, hnew.1, hnew.2, Bool.or_false, Bool.false_eq_true, if_false]
    exact hsave
  · have hex : pathExists (⟨ancestors dir ++ fs.dirs,
        (m.map fun p => (at_ dir p.1, ser p.2)).reverse ++ fs.files⟩ : FS B) dir = true := by
      simp only [pathExists, Bool.or_eq_true]
      exact .inl ((mem_contains _ _).2 (List.mem_append.2 (.inl (self_ancestor dir))))
    have hl := listed_ok ser dir ha (ancestors dir ++ fs.dirs) fs.files hfiles m.reverse
    simp only [load, hex, Bool.not_true, Bool.false_eq_true, if_false]
    rw [← List.map_reverse, hl, readAll_ok ser de hs]
    cases hr : m.reverse with
    | nil => exact absurd (List.reverse_eq_nil_iff.1 hr) hne
    | cons => rfl

/-- C99: nothing that was there before is changed or overwritten: a directory that
exists is refused. -/
theorem C99_no_overwrite {B X : Type} (ser : X → B) (fs : FS B) (dir : Path)
    (m : List (List String × X)) (h : pathExists fs dir = true) :
    save ser dir m fs = (fs, some .exists) := by
  simp [save, h]

/-- C99: saving, successful or not, leaves all files that were there. -/
theorem C99_keeps {B X : Type} (ser : X → B) (dir : Path) (m : List (List String × X))
    (fs : FS B) (f : Path × B) (h : f ∈ fs.files) : f ∈ (save ser dir m fs).1.files := by
  have key : ∀ (m : List (List String × X)) (fs : FS B), f ∈ fs.files →
      f ∈ (saveAll ser dir m fs).1.files := by
    intro m
    induction m with
    | nil => intro fs h; exact h
    | cons p m ih =>
      intro fs h
      obtain ⟨k, x⟩ := p
      simp only [saveAll, saveOne]
      by_cases h1 : pathExists fs (join dir (join dir (fileOf k))) = true
      · simp only [h1, if_true]; exact h
      · simp only [h1, Bool.false_eq_true, if_false]
        by_cases h2 : fs.dirs.contains (parent (join dir (join dir (fileOf k)))) = true
        · simp only [h2, if_true]
          exact ih _ (List.mem_cons_of_mem _ h)
        · simp only [h2, Bool.false_eq_true, if_false]; exact h
  simp only [save]
  by_cases h1 : pathExists fs dir = true
  · simp only [h1, if_true]; exact h
  · simp only [h1, Bool.false_eq_true, if_false]; exact key _ _ h

/-! ## Findings -/

theorem not_below {B : Type} {fs : FS B} (wf : WF fs) (dir : Path) (hnew : pathExists fs dir = false)
    (q : List String) (hq : q ≠ []) :
    (ancestors dir ++ fs.dirs).contains (⟨dir.isAbs, dir.parts ++ q⟩ : Path) = false := by
  rw [Bool.eq_false_iff]
  intro h
  rcases List.mem_append.1 ((mem_contains _ _).1 h) with h | h
  · have := ancestors_length h
    simp at this
    exact hq (List.eq_nil_of_length_eq_zero (by omega))
  · have := below wf dir.isAbs dir.parts q h
    simp only [pathExists, Bool.or_eq_false_iff] at hnew
    rw [(mem_contains _ _).2 this] at hnew
    simp at hnew

theorem no_file {B : Type} {fs : FS B} (wf : WF fs) (dir : Path) (hnew : pathExists fs dir = false)
    (q : List String) (hq : q ≠ []) :
    (fs.files.map (·.1)).contains (⟨dir.isAbs, dir.parts ++ q⟩ : Path) = false := by
  rw [Bool.eq_false_iff]
  intro h
  obtain ⟨f, hf, e⟩ := List.mem_map.1 ((mem_contains _ _).1 h)
  have h1 := (wf.files f hf).2
  rw [e] at h1
  simp only [List.dropLast_append_of_ne_nil hq] at h1
  have := below wf dir.isAbs dir.parts _ h1
  simp only [pathExists, Bool.or_eq_false_iff] at hnew
  rw [(mem_contains _ _).2 this] at hnew
  simp at hnew

/-- C99 (finding): with a relative path nothing is ever saved: the directory is
joined twice, and `dir/dir` does not exist.  The empty directory is left. -/
theorem C99_relative_fails {B X : Type} (ser : X → B) (fs : FS B) (wf : WF fs) (dir : Path)
    (hr : dir.isAbs = false) (hd : dir.parts ≠ []) (hnew : pathExists fs dir = false)
    (k : String) (x : X) (m : List (List String × X)) :
    save ser dir (([k], x) :: m) fs =
      ({ fs with dirs := ancestors dir ++ fs.dirs }, some .noParent) := by
  have hp : join dir (join dir (fileOf [k])) =
      ⟨dir.isAbs, dir.parts ++ (dir.parts ++ [k ++ suffix])⟩ := by
    simp [join, fileOf, hr]
  have hpar : parent ⟨dir.isAbs, dir.parts ++ (dir.parts ++ [k ++ suffix])⟩ =
      ⟨dir.isAbs, dir.parts ++ dir.parts⟩ := by
    simp only [parent, ← List.append_assoc, List.dropLast_concat]
  have h1 := not_below wf dir hnew (dir.parts ++ [k ++ suffix]) (by simp)
  have h2 := no_file wf dir hnew (dir.parts ++ [k ++ suffix]) (by simp)
  have h3 := not_below wf dir hnew dir.parts hd
  have h4 : pathExists ({ fs with dirs := ancestors dir ++ fs.dirs } : FS B) ⟨dir.isAbs, dir.parts ++ (dir.parts ++ [k ++ suffix])⟩ = false := by
    simp only [pathExists, h1, h2, Bool.or_false]
  simp only [save, hnew, Bool.false_eq_true, if_false, saveAll, hp, saveOne, h4, hpar, h3]

/-- C99 (finding): a method key with a slash cannot be saved. -/
theorem C99_slash_fails {B X : Type} (ser : X → B) (fs : FS B) (wf : WF fs) (dir : Path)
    (ha : dir.isAbs = true) (hnew : pathExists fs dir = false) (k k' : String) (x : X)
    (m : List (List String × X)) :
    (save ser dir (([k, k'], x) :: m) fs).2 = some .noParent := by
  have hp : join dir (join dir (fileOf [k, k'])) =
      ⟨dir.isAbs, dir.parts ++ ([k] ++ [k' ++ suffix])⟩ := by
    simp [join, fileOf, ha]
  have hpar : parent ⟨dir.isAbs, dir.parts ++ ([k] ++ [k' ++ suffix])⟩ =
      ⟨dir.isAbs, dir.parts ++ [k]⟩ := by
    simp only [parent, ← List.append_assoc, List.dropLast_concat]
  have h1 := not_below wf dir hnew ([k] ++ [k' ++ suffix]) (by simp)
  have h2 := no_file wf dir hnew ([k] ++ [k' ++ suffix]) (by simp)
  have h3 := not_below wf dir hnew [k] (by simp)
  have h4 : pathExists ({ fs with dirs := ancestors dir ++ fs.dirs } : FS B) ⟨dir.isAbs, dir.parts ++ ([k] ++ [k' ++ suffix])⟩ = false := by
    simp only [pathExists, h1, h2, Bool.or_false]
  simp only [save, hnew, Bool.false_eq_true, if_false, saveAll, hp, saveOne, h4, hpar, h3]

/-- C99 (finding): a save interrupted between two functions leaves a directory that
is loaded without an error, with some functions missing; and the save cannot be
repeated. -/
theorem C99_interrupted_fails {B X : Type} (ser : X → B) (de : B → Option X)
    (hs : ∀ x, de (ser x) = some x) (fs : FS B) (wf : WF fs) (dir : Path)
    (ha : dir.isAbs = true) (hnew : pathExists fs dir = false)
    (done left : List (String × X)) (hm : ((done ++ left).map (·.1)).Nodup) (hne : done ≠ []) :
    ∃ fs' m', save ser dir (done.map fun p => ([p.1], p.2)) fs = (fs', none) ∧
      load de dir fs' = .ok m' ∧ (∀ p ∈ left, p ∉ m') ∧
      save ser dir ((done ++ left).map fun p => ([p.1], p.2)) fs' = (fs', some .exists) := by
  rw [List.map_append, List.nodup_append] at hm
  obtain ⟨fs', m', h1, h2, h3, _⟩ := C99_round_trip_partial ser de hs fs wf dir ha hnew done hm.1 hne
  refine ⟨fs', m', h1, h2, ?_, ?_⟩
  · intro p hp hp'
    exact hm.2.2 p.1 (List.mem_map.2 ⟨p, (h3 p).1 hp', rfl⟩) p.1 (List.mem_map.2 ⟨p, hp, rfl⟩) rfl
  · apply C99_no_overwrite
    cases he : pathExists fs' dir with
    | true => rfl
    | false => simp [load, he] at h2

/-- C99 (finding): an empty map is saved and cannot be loaded. -/
theorem C99_empty_fails {B X : Type} (ser : X → B) (de : B → Option X) (fs : FS B) (wf : WF fs)
    (dir : Path) (hnew : pathExists fs dir = false) :
    ∃ fs', save ser dir ([] : List (List String × X)) fs = (fs', none) ∧
      load de dir fs' = .error .empty := by
  refine ⟨{ fs with dirs := ancestors dir ++ fs.dirs }, by simp [save, hnew, saveAll], ?_⟩
  have hl : listed ({ fs with dirs := ancestors dir ++ fs.dirs } : FS B) dir = [] := by
    simp only [listed]
    rw [List.filterMap_eq_nil_iff]
    intro f hf
    have : parent f.1 ≠ dir := by
      intro e
      have := (wf.files f hf).2
      simp only [parent] at e
      rw [e] at this
      simp only [pathExists, Bool.or_eq_false_iff] at hnew
      rw [(mem_contains _ _).2 this] at hnew
      simp at hnew
    rw [if_neg (fun h => this h.1)]
  have hex : pathExists ({ fs with dirs := ancestors dir ++ fs.dirs } : FS B) dir = true := by
    simp only [pathExists, Bool.or_eq_true]
    exact .inl ((mem_contains _ _).2 (List.mem_append.2 (.inl (self_ancestor dir))))
  simp only [load, hex, Bool.not_true, Bool.false_eq_true, if_false, hl, readAll]

/-! ## The hypotheses can be met -/

/-- A file system with a directory and a file. -/
def exFS : FS Nat := ⟨[⟨true, []⟩, ⟨true, ["a"]⟩, ⟨false, []⟩], [(⟨true, ["a", "f"]⟩, 9)]⟩

theorem C99_nonvacuous :
    WF exFS ∧ pathExists exFS ⟨true, ["a", "b"]⟩ = false ∧
    pathExists exFS ⟨false, ["b"]⟩ = false ∧
    load some ⟨true, ["a", "b"]⟩ (save id ⟨true, ["a", "b"]⟩ [(["f"], 1), (["g"], 2)] exFS).1 =
      .ok [("g", 2), ("f", 1)] := by
  refine ⟨⟨?_, ?_⟩, by decide, by decide, by rfl⟩
  · intro f hf
    simp only [exFS, List.mem_singleton] at hf
    subst hf
    decide
  · intro d hd
    simp only [exFS, List.mem_cons, List.not_mem_nil, or_false] at hd
    rcases hd with rfl | rfl | rfl <;> decide

end Verif.Export.ExportedMapProps
