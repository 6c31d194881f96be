import Verif.Path.Format

/-!
# C128: checkpoints are recognized
-/

namespace Verif.Path.Format

/-! ## Specification: uses only the types of Format.lean -/

/-- The directory has an entry of this name. -/
def Has (n : Node) (name : String) : Prop := ∃ es c, n = .dir es ∧ (name, c) ∈ es

/-- An array stored by itself lies in the directory. -/
def HasArray (n : Node) : Prop := ∃ es name fs c, n = .dir es ∧ (name, .dir fs) ∈ es ∧ (".zarray", c) ∈ fs

/-- A tree: metadata and data of arrays; or the old format, one file and no arrays beside it. -/
def TreeLike (n : Node) : Prop :=
  ((Has n "_METADATA" ∨ Has n "checkpoint") ∧ (Has n "manifest.ocdbt" ∨ HasArray n)) ∨
  (Has n "checkpoint" ∧ ¬ HasArray n)

/-- A step with readable metadata. -/
def StepLike (n : Node) : Prop := ∃ es, n = .dir es ∧ ("_CHECKPOINT_METADATA", .file true) ∈ es

/-- What is recognized: steps, trees, and directories that contain a tree. -/
def Recognized (n : Node) : Prop := StepLike n ∨ TreeLike n ∨ ∃ es name c, n = .dir es ∧ (name, c) ∈ es ∧ TreeLike c

/-! ## What the function computes -/

theorem has_iff (n : Node) (name : String) : n.has name = true ↔ Has n name := by
  unfold Node.has Has
  cases n with
  | file j => simp [Node.entries]
  | dir es => simp [Node.entries]

theorem zarray_iff (n : Node) : (zarrayFiles n).any id = true ↔ HasArray n := by
  unfold zarrayFiles HasArray
  cases n with
  | file j => simp [Node.entries]
  | dir es =>
    simp only [Node.entries, List.any_eq_true, List.mem_map, List.mem_filter, id_eq]
    constructor
    · rintro ⟨b, ⟨⟨name, c⟩, ⟨hm, hd⟩, rfl⟩, hb⟩
      cases c with
      | file j => simp [Node.isDir] at hd
      | dir fs =>
        obtain ⟨fs', c, h1, h2⟩ := (has_iff _ _).1 hb
        cases h1
        exact ⟨es, name, fs, c, rfl, hm, h2⟩
    · rintro ⟨es', name, fs, c, h, hm, hc⟩
      cases h
      exact ⟨_, ⟨(name, .dir fs), ⟨hm, rfl⟩, rfl⟩, (has_iff _ _).2 ⟨fs, c, rfl, hc⟩⟩

theorem zarray_all (n : Node) : (zarrayFiles n).all (fun x => !x) = true ↔ ¬ HasArray n := by
  rw [← zarray_iff]
  simp

theorem isPytree_iff (n : Node) : isPytree n = true ↔ TreeLike n := by
  unfold isPytree TreeLike hasPytreeMetadata hasTensorstore hasMsgpack isOcdbt
  simp only [Bool.or_eq_true, Bool.and_eq_true, has_iff, zarray_iff, zarray_all]

theorem readsStep_iff (n : Node) : readsStepMetadata n = true ↔ StepLike n := by
  unfold readsStepMetadata StepLike
  cases n with
  | file j => simp [Node.entries]
  | dir es =>
    simp only [Node.entries, List.any_eq_true, Bool.and_eq_true, decide_eq_true_eq, Node.dir.injEq, exists_eq_left']
    constructor
    · rintro ⟨⟨name, c⟩, hm, rfl, hj⟩
      cases c with
      | file j => cases hj; exact hm
      | dir _ => cases hj
    · intro h; exact ⟨_, h, rfl, rfl⟩

/-- C128: asking about a directory answers exactly whether it is recognized; asking about nothing, or
about a file, raises. -/
theorem C128_exact (p : Option Node) :
    (isOrbax p = .error .notFound ↔ p = none) ∧
    (isOrbax p = .error .notADirectory ↔ ∃ j, p = some (.file j)) ∧
    (isOrbax p = .ok true ↔ ∃ es, p = some (.dir es) ∧ Recognized (.dir es)) ∧
    (isOrbax p = .ok false ↔ ∃ es, p = some (.dir es) ∧ ¬ Recognized (.dir es)) := by
  cases p with
  | none => simp [isOrbax]
  | some n =>
    cases n with
    | file j => simp [isOrbax, Node.isDir]
    | dir es =>
      have hr : ∀ b, isOrbax (some (.dir es)) = .ok b ↔ (b = true ↔ Recognized (.dir es)) := by
        intro b
        have hany : ((es.any fun e => isPytree e.2) = true) ↔
            ∃ es' name c, Node.dir es = .dir es' ∧ (name, c) ∈ es' ∧ TreeLike c := by
          simp only [List.any_eq_true, isPytree_iff]
          constructor
          · rintro ⟨⟨name, c⟩, hm, ht⟩; exact ⟨es, name, c, rfl, hm, ht⟩
          · rintro ⟨es', name, c, h, hm, ht⟩; cases h; exact ⟨_, hm, ht⟩
        simp only [isOrbax, Node.isDir, Bool.not_true, Bool.false_eq_true, if_false]
        unfold Recognized
        rw [← hany, ← isPytree_iff, ← readsStep_iff]
        cases readsStepMetadata (.dir es) <;> cases isPytree (.dir es) <;> cases b <;>
          simp [Node.entries]
      refine ⟨?_, ?_, ?_, ?_⟩
      · simp only [reduceCtorEq, iff_false]
        intro h
        simp only [isOrbax, Node.isDir, Bool.not_true, Bool.false_eq_true, if_false] at h
        repeat' split at h
        all_goals cases h
      · simp only [Option.some.injEq, reduceCtorEq, exists_false, iff_false]
        intro h
        simp only [isOrbax, Node.isDir, Bool.not_true, Bool.false_eq_true, if_false] at h
        repeat' split at h
        all_goals cases h
      · rw [hr]; simp
      · rw [hr]; simp

/-! ## What Orbax writes -/

/-- C128: a step of a manager is recognized, whatever its items are. -/
theorem C128_step (items : List (String × Node)) : isOrbax (some (stepDir true items)) = .ok true := by
  rw [(C128_exact _).2.2.1]
  exact ⟨_, rfl, Or.inl ⟨_, rfl, by simp⟩⟩

/-- C128: a directory written by a plain checkpointer is recognized, whatever the tree. -/
theorem C128_plain (o : Opts) (leaves : List (String × Leaf)) : isOrbax (some (plainDir o leaves)) = .ok true := by
  rw [(C128_exact _).2.2.1]
  exact ⟨_, rfl, Or.inl ⟨_, rfl, by simp⟩⟩

/-- Specification: the arrays of a tree can be seen: there are some, in one database or with files of
the older array format. -/
def Visible (o : Opts) (leaves : List (String × Leaf)) : Prop :=
  (∃ name, (name, Leaf.array) ∈ leaves) ∧ (o.ocdbt = true ∨ o.zarr3 = false)

theorem mem_tree (o : Opts) (leaves : List (String × Leaf)) (name : String) (c : Node) :
    (name, c) ∈ treeEntries o leaves ↔
      (name = "_METADATA" ∧ c = .file true) ∨
      ((∃ n, (n, Leaf.text) ∈ leaves) ∧ name = "_strings.json" ∧ c = .file true) ∨
      (o.ocdbt = true ∧ (∃ n, (n, Leaf.array) ∈ leaves) ∧
        ((name = "manifest.ocdbt" ∧ c = .file false) ∨ (name = "d" ∧ c = .dir []))) ∨
      (o.ocdbt = false ∧ (name, Leaf.array) ∈ leaves ∧ c = arrayDir o.zarr3) := by
  have hany : ∀ k, leaves.any (fun l => decide (l.2 = k)) = true ↔ ∃ n, (n, k) ∈ leaves := by
    intro k
    simp only [List.any_eq_true, decide_eq_true_eq]
    constructor
    · rintro ⟨⟨n, k'⟩, hm, rfl⟩; exact ⟨n, hm⟩
    · rintro ⟨n, hm⟩; exact ⟨_, hm, rfl⟩
  unfold treeEntries
  rw [List.mem_append, List.mem_append, or_assoc]
  refine or_congr (by simp) (or_congr ?_ ?_)
  · by_cases h : leaves.any (fun l => decide (l.2 = .text)) = true
    · rw [if_pos h]; simp [(hany _).1 h]
    · rw [if_neg h]
      simp only [List.not_mem_nil, false_iff]
      rintro ⟨h', _⟩
      exact h ((hany _).2 h')
  · cases o.ocdbt with
    | true =>
      simp only [if_true, true_and, Bool.true_eq_false, false_and, or_false]
      by_cases h : leaves.any (fun l => decide (l.2 = .array)) = true
      · rw [if_pos h]; simp [(hany _).1 h]
      · rw [if_neg h]
        simp only [List.not_mem_nil, false_iff]
        rintro ⟨h', _⟩
        exact h ((hany _).2 h')
    | false =>
      simp only [Bool.false_eq_true, if_false, false_and, false_or, true_and, List.mem_map, List.mem_filter,
        decide_eq_true_eq, Prod.mk.injEq]
      constructor
      · rintro ⟨⟨n, k⟩, ⟨hm, hk⟩, rfl, rfl⟩; dsimp at hk; subst hk; exact ⟨hm, rfl⟩
      · rintro ⟨hm, rfl⟩; exact ⟨_, ⟨hm, rfl⟩, rfl, rfl⟩

theorem has_dir {es : List (String × Node)} {name : String} : Has (.dir es) name ↔ ∃ c, (name, c) ∈ es := by
  constructor
  · rintro ⟨es', c, h, hm⟩; cases h; exact ⟨c, hm⟩
  · rintro ⟨c, hm⟩; exact ⟨es, c, rfl, hm⟩

theorem not_treeLike_of {n : Node} (h1 : ¬ Has n "_METADATA") (h2 : ¬ Has n "checkpoint") : ¬ TreeLike n := by
  rintro (⟨h | h, _⟩ | ⟨h, _⟩)
  · exact h1 h
  · exact h2 h
  · exact h2 h

theorem arrayDir_not (z : Bool) : ¬ TreeLike (arrayDir z) := by
  refine not_treeLike_of ?_ ?_ <;> rw [arrayDir, has_dir] <;> cases z <;> simp

theorem arrayDir_zarray (z : Bool) : (∃ fs c, arrayDir z = .dir fs ∧ (".zarray", c) ∈ fs) ↔ z = false := by
  unfold arrayDir
  cases z <;> simp

theorem tree_like (o : Opts) (leaves : List (String × Leaf))
    (h1 : ("checkpoint", Leaf.array) ∉ leaves) (h2 : ("manifest.ocdbt", Leaf.array) ∉ leaves) :
    TreeLike (treeDir o leaves) ↔ Visible o leaves := by
  have hm : Has (treeDir o leaves) "_METADATA" := has_dir.2 ⟨_, (mem_tree _ _ _ _).2 (Or.inl ⟨rfl, rfl⟩)⟩
  have hc : ¬ Has (treeDir o leaves) "checkpoint" := by
    rw [treeDir, has_dir]
    rintro ⟨c, h⟩
    rw [mem_tree] at h
    simp [h1] at h
  have hman : Has (treeDir o leaves) "manifest.ocdbt" ↔ o.ocdbt = true ∧ ∃ n, (n, Leaf.array) ∈ leaves := by
    rw [treeDir, has_dir]
    constructor
    · rintro ⟨c, h⟩
      rw [mem_tree] at h
      simp [h2] at h
      exact ⟨h.1, h.2.1⟩
    · rintro ⟨ho, hn⟩
      exact ⟨_, (mem_tree _ _ _ _).2 (Or.inr (Or.inr (Or.inl ⟨ho, hn, Or.inl ⟨rfl, rfl⟩⟩)))⟩
  have harr : HasArray (treeDir o leaves) ↔ o.ocdbt = false ∧ o.zarr3 = false ∧ ∃ n, (n, Leaf.array) ∈ leaves := by
    constructor
    · rintro ⟨es, name, fs, c, h, hm, hz⟩
      cases h
      rw [mem_tree] at hm
      rcases hm with ⟨_, h⟩ | ⟨_, _, h⟩ | ⟨_, _, ⟨_, h⟩ | ⟨_, h⟩⟩ | ⟨ho, hm, h⟩
      · cases h
      · cases h
      · cases h
      · cases h; cases hz
      · exact ⟨ho, (arrayDir_zarray o.zarr3).1 ⟨fs, c, h.symm, hz⟩, name, hm⟩
    · rintro ⟨ho, hz, n, hn⟩
      obtain ⟨fs, c, h, hm⟩ := (arrayDir_zarray o.zarr3).2 hz
      exact ⟨_, n, fs, c, rfl, (mem_tree _ _ _ _).2 (Or.inr (Or.inr (Or.inr ⟨ho, hn, h.symm⟩))), hm⟩
  unfold TreeLike Visible
  simp only [hm, hc, hman, harr, true_and, false_and, or_false]
  cases o.ocdbt <;> cases o.zarr3 <;> simp

/-- C128: the directory of a tree alone (an item of a step) is recognized exactly if its arrays can be
seen. -/
theorem C128_item (o : Opts) (leaves : List (String × Leaf))
    (h1 : ("checkpoint", Leaf.array) ∉ leaves) (h2 : ("manifest.ocdbt", Leaf.array) ∉ leaves) :
    isOrbax (some (treeDir o leaves)) = .ok true ↔ Visible o leaves := by
  rw [(C128_exact _).2.2.1, ← tree_like o leaves h1 h2]
  constructor
  · rintro ⟨es, h, hr⟩
    have h : treeDir o leaves = .dir es := Option.some.inj h
    rw [h]
    rcases hr with ⟨es', he, hs⟩ | hr | ⟨es', name, c, he, hm, ht⟩
    · exfalso
      cases he
      rw [← (Node.dir.inj h), mem_tree] at hs
      simp at hs
      obtain ⟨_, _, hs⟩ := hs
      simp [arrayDir] at hs
    · exact hr
    · exfalso
      cases he
      rw [← (Node.dir.inj h), mem_tree] at hm
      rcases hm with ⟨_, rfl⟩ | ⟨_, _, rfl⟩ | ⟨_, _, ⟨_, rfl⟩ | ⟨_, rfl⟩⟩ | ⟨_, _, rfl⟩
      · exact not_treeLike_of (fun ⟨_, _, h, _⟩ => (by cases h)) (fun ⟨_, _, h, _⟩ => (by cases h)) ht
      · exact not_treeLike_of (fun ⟨_, _, h, _⟩ => (by cases h)) (fun ⟨_, _, h, _⟩ => (by cases h)) ht
      · exact not_treeLike_of (fun ⟨_, _, h, _⟩ => (by cases h)) (fun ⟨_, _, h, _⟩ => (by cases h)) ht
      · exact not_treeLike_of (fun ⟨_, _, h, hm⟩ => (by cases h; cases hm)) (fun ⟨_, _, h, hm⟩ => (by cases h; cases hm)) ht
      · exact arrayDir_not _ ht
  · intro h
    exact ⟨_, rfl, Or.inr (Or.inl h)⟩

/-- C128: a step without metadata (of older versions), or with metadata that cannot be read, is
recognized as soon as the arrays of one of its items can be seen. -/
theorem C128_old_step (o : Opts) (leaves : List (String × Leaf)) (name : String) (es : List (String × Node))
    (h1 : ("checkpoint", Leaf.array) ∉ leaves) (h2 : ("manifest.ocdbt", Leaf.array) ∉ leaves)
    (hv : Visible o leaves) (hm : (name, treeDir o leaves) ∈ es) : isOrbax (some (.dir es)) = .ok true := by
  rw [(C128_exact _).2.2.1]
  exact ⟨_, rfl, Or.inr (Or.inr ⟨_, name, _, rfl, hm, (tree_like o leaves h1 h2).2 hv⟩)⟩

/-- C128: the root directory of a manager, with any steps (finished or not) and any other files, is not
taken for a checkpoint, provided no item is called like a file of a tree. -/
theorem C128_root (es : List (String × Node))
    (hs : ∀ e ∈ es, (∃ j, e.2 = .file j) ∨ ∃ j items, e.2 = stepDir j items ∧
      ∀ i ∈ items, i.1 ≠ "_METADATA" ∧ i.1 ≠ "checkpoint")
    (hn : ∀ e ∈ es, e.1 ≠ "_CHECKPOINT_METADATA" ∧ e.1 ≠ "_METADATA" ∧ e.1 ≠ "checkpoint") :
    isOrbax (some (.dir es)) = .ok false := by
  rw [(C128_exact _).2.2.2]
  refine ⟨es, rfl, ?_⟩
  rintro (⟨es', he, hm⟩ | ht | ⟨es', name, c, he, hm, ht⟩)
  · cases he; exact (hn _ hm).1 rfl
  · refine not_treeLike_of ?_ ?_ ht
    · rw [has_dir]; rintro ⟨c, h⟩; exact (hn _ h).2.1 rfl
    · rw [has_dir]; rintro ⟨c, h⟩; exact (hn _ h).2.2 rfl
  · cases he
    rcases hs _ hm with ⟨j, h⟩ | ⟨j, items, h, hi⟩
    · dsimp at h; subst h
      exact not_treeLike_of (fun ⟨_, _, h, _⟩ => (by cases h)) (fun ⟨_, _, h, _⟩ => (by cases h)) ht
    · dsimp at h; subst h
      refine not_treeLike_of ?_ ?_ ht
      · rw [stepDir, has_dir]
        rintro ⟨c, h⟩
        rcases List.mem_cons.1 h with h | h
        · simp at h
        · exact (hi _ h).1 rfl
      · rw [stepDir, has_dir]
        rintro ⟨c, h⟩
        rcases List.mem_cons.1 h with h | h
        · simp at h
        · exact (hi _ h).2 rfl

/-! ## Findings -/

/-- C128 (finding): a tree whose arrays are stored one by one in the newer array format is not
recognized. -/
theorem C128_zarr3_fails (leaves : List (String × Leaf))
    (h1 : ("checkpoint", Leaf.array) ∉ leaves) (h2 : ("manifest.ocdbt", Leaf.array) ∉ leaves) :
    isOrbax (some (treeDir ⟨false, true⟩ leaves)) ≠ .ok true := by
  rw [Ne, C128_item _ _ h1 h2]
  rintro ⟨_, h | h⟩ <;> cases h

/-- C128 (finding): a tree of strings only is not recognized. -/
theorem C128_strings_fails (o : Opts) (leaves : List (String × Leaf)) (h : ∀ l ∈ leaves, l.2 = .text) :
    isOrbax (some (treeDir o leaves)) ≠ .ok true := by
  have ha : ∀ n, (n, Leaf.array) ∉ leaves := by
    intro n hn; cases h _ hn
  rw [Ne, C128_item _ _ (ha _) (ha _)]
  rintro ⟨⟨n, hn⟩, _⟩
  exact ha n hn

/-- C128 (finding): against the documentation, a root directory that contains a directory written by a
plain checkpointer is recognized. -/
theorem C128_root_fails (o : Opts) (leaves : List (String × Leaf)) (name : String) (es : List (String × Node))
    (h1 : ("checkpoint", Leaf.array) ∉ leaves) (h2 : ("manifest.ocdbt", Leaf.array) ∉ leaves)
    (hv : Visible o leaves) (hm : (name, plainDir o leaves) ∈ es) : isOrbax (some (.dir es)) = .ok true := by
  rw [(C128_exact _).2.2.1]
  refine ⟨_, rfl, Or.inr (Or.inr ⟨_, name, _, rfl, hm, ?_⟩)⟩
  have ht := (tree_like o leaves h1 h2).2 hv
  have mono : ∀ n, Has (treeDir o leaves) n → Has (plainDir o leaves) n := by
    intro n h
    obtain ⟨c, hc⟩ := has_dir.1 h
    exact has_dir.2 ⟨c, by simp [hc]⟩
  have marr : HasArray (treeDir o leaves) → HasArray (plainDir o leaves) := by
    rintro ⟨es', n, fs, c, h, hm, hz⟩
    cases h
    exact ⟨_, n, fs, c, rfl, by simp [hm], hz⟩
  rcases ht with ⟨ha, hb⟩ | ⟨ha, _⟩
  · exact Or.inl ⟨ha.imp (mono _) (mono _), hb.imp (mono _) marr⟩
  · exfalso
    rw [treeDir, has_dir] at ha
    obtain ⟨c, h⟩ := ha
    rw [mem_tree] at h
    simp [h1] at h

/-- C128 (finding): so is the root of a manager that has an item called `checkpoint`, whatever it is. -/
theorem C128_item_name_fails (step : String) (j : Bool) (item : Node) (es : List (String × Node))
    (hi : ¬ Has item ".zarray") (hm : (step, stepDir j [("checkpoint", item)]) ∈ es) :
    isOrbax (some (.dir es)) = .ok true := by
  rw [(C128_exact _).2.2.1]
  refine ⟨_, rfl, Or.inr (Or.inr ⟨_, step, _, rfl, hm, Or.inr ⟨?_, ?_⟩⟩)⟩
  · rw [stepDir, has_dir]; exact ⟨item, by simp⟩
  · rintro ⟨es', n, fs, c, h, hm, hz⟩
    cases h
    rcases List.mem_cons.1 hm with h | h
    · cases h
    · simp only [List.mem_cons, Prod.mk.injEq, List.not_mem_nil, or_false] at h
      exact hi (h.2 ▸ has_dir.2 ⟨c, hz⟩)

/-- C128 (finding): the name of the directory and whether it was finished play no part: a save that was
interrupted after the directory was made is recognized, with no item in it. -/
theorem C128_unfinished_fails : isOrbax (some (stepDir true [])) = .ok true := C128_step []

/-- C128 (finding): any directory of files with one called `checkpoint` is recognized, such as a
TensorFlow checkpoint. -/
theorem C128_foreign_fails (es : List (String × Node)) (j : Bool) (hf : ∀ e ∈ es, ∃ j, e.2 = .file j)
    (hm : ("checkpoint", .file j) ∈ es) : isOrbax (some (.dir es)) = .ok true := by
  rw [(C128_exact _).2.2.1]
  refine ⟨_, rfl, Or.inr (Or.inl (Or.inr ⟨has_dir.2 ⟨_, hm⟩, ?_⟩))⟩
  rintro ⟨es', n, fs, c, h, hm, _⟩
  cases h
  obtain ⟨j, hj⟩ := hf _ hm
  cases hj

/-! ## The hypotheses are met -/

/-- A tree with an array and a string, the root of a manager with a finished step, an unfinished one and
a file, and a root written by a plain checkpointer. -/
theorem C128_nonvacuous :
    let leaves : List (String × Leaf) := [("a.w", .array), ("name", .text)]
    let step := stepDir true [("state", treeDir ⟨true, false⟩ leaves), ("metrics", .dir [("metrics", .file true)])]
    let root : List (String × Node) := [("10", step), ("20.orbax-checkpoint-tmp", stepDir true []), ("descriptor", .file true)]
    (match isOrbax (some (treeDir ⟨true, false⟩ leaves)) with | .ok b => b | _ => false) = true ∧
    (match isOrbax (some (treeDir ⟨false, false⟩ leaves)) with | .ok b => b | _ => false) = true ∧
    (match isOrbax (some (treeDir ⟨false, true⟩ leaves)) with | .ok b => b | _ => true) = false ∧
    (match isOrbax (some (.dir root)) with | .ok b => b | _ => true) = false ∧
    isOrbax (some step) = .ok true ∧
    (match isOrbax (some (.dir [("c", plainDir ⟨true, true⟩ leaves)])) with | .ok b => b | _ => false) = true := by
  refine ⟨by decide +kernel, by decide +kernel, by decide +kernel, by decide +kernel, rfl, by decide +kernel⟩

end Verif.Path.Format
