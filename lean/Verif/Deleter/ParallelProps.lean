import Verif.Deleter.Parallel

/-!
# Properties of deleting a directory with several threads (C123)
-/

namespace Verif.Deleter.Parallel

/-! ### Specification -/

/-- A tree: one entry per path, and what contains something is a directory. -/
structure Tree (fs : FS) : Prop where
  nodup : (fs.map (·.1)).Nodup
  parent : ∀ (p : Path) (n : String) (k : Kind), (p ++ [n], k) ∈ fs → p ≠ [] → (p, Kind.dir) ∈ fs

/-- Nothing at or below the path is in the way of its removal. -/
def Free (env : Env) (root : Path) (fs : FS) : Prop :=
  ∀ e ∈ fs, root <+: e.1 → env.deny e.1 = false ∧ (e.2 = .dir → env.noscan e.1 = false)

/-- `delete` has ended. -/
def Ended (s : State) : Prop := s.phase = .returned ∨ s.phase = .raised

/-! ### Lemmas -/

theorem mem_below {p : Path} {fs : FS} {e : Path × Kind} : e ∈ below p fs ↔ e ∈ fs ∧ p <+: e.1 := by
  simp [below, List.isPrefixOf_iff_prefix]

theorem mem_without {p : Path} {fs : FS} {e : Path × Kind} : e ∈ without p fs ↔ e ∈ fs ∧ ¬ p <+: e.1 := by
  simp only [without, List.mem_filter, Bool.not_eq_true', ← Bool.not_eq_true, List.isPrefixOf_iff_prefix]

theorem mem_entries {p : Path} {fs : FS} {e : Path × Kind} :
    e ∈ entries fs p ↔ e ∈ fs ∧ p <+: e.1 ∧ e.1.length = p.length + 1 := by
  simp [entries, List.isPrefixOf_iff_prefix]

theorem kindAt_mem {fs : FS} {p : Path} {k : Kind} (h : kindAt fs p = some k) : (p, k) ∈ fs := by
  unfold kindAt at h
  cases hf : fs.find? (fun e => e.1 == p) with
  | none => rw [hf] at h; cases h
  | some e =>
    rw [hf] at h
    have h1 := List.mem_of_find?_eq_some hf
    have h2 := List.find?_some hf
    simp only [Option.map_some, Option.some.injEq] at h
    have h3 : e.1 = p := by simpa using h2
    subst h; subst h3; exact h1

theorem unique {fs : FS} (hn : (fs.map (·.1)).Nodup) {p : Path} {k k' : Kind} (h : (p, k) ∈ fs)
    (h' : (p, k') ∈ fs) : k = k' := by
  induction fs with
  | nil => cases h
  | cons a fs ih =>
    rw [List.map_cons, List.nodup_cons] at hn
    rcases List.mem_cons.mp h with e | h
    · rcases List.mem_cons.mp h' with e' | h'
      · rw [← e'] at e; exact (Prod.mk.inj e).2
      · exact absurd (List.mem_map.mpr ⟨_, h', rfl⟩) (by rw [← e] at hn; exact hn.1)
    · rcases List.mem_cons.mp h' with e' | h'
      · exact absurd (List.mem_map.mpr ⟨_, h, rfl⟩) (by rw [← e'] at hn; exact hn.1)
      · exact ih hn.2 h h'

theorem kindAt_of_mem {fs : FS} (hn : (fs.map (·.1)).Nodup) {p : Path} {k : Kind} (h : (p, k) ∈ fs) :
    kindAt fs p = some k := by
  cases hk : kindAt fs p with
  | none =>
    unfold kindAt at hk
    rw [Option.map_eq_none_iff, List.find?_eq_none] at hk
    exact absurd (by simp) (hk _ h)
  | some k' => rw [unique hn h (kindAt_mem hk)]

theorem kindAt_unlink {env : Env} {fs : FS} {p f : Path} {k : Kind}
    (h : kindAt (unlink env f fs) p = some k) : kindAt fs p = some k := by
  unfold unlink at h
  split at h
  · exact h
  · by_cases e : p = f
    · have := kindAt_mem h
      simp [e] at this
    · rw [← h]
      unfold kindAt
      congr 1
      rw [List.find?_filter]
      congr 1
      funext a
      by_cases ha : a.1 = p
      · simp [ha, e]
      · simp [ha]

theorem mem_unlink {env : Env} {fs : FS} {f : Path} {e : Path × Kind} :
    e ∈ unlink env f fs ↔ e ∈ fs ∧ (env.deny f = true ∨ e.1 ≠ f) := by
  unfold unlink
  split <;> rename_i h
  · simp [h]
  · simp [h]

theorem unlink_sublist {env : Env} {fs : FS} {f : Path} : (unlink env f fs).Sublist fs := by
  unfold unlink
  split
  · exact List.Sublist.refl _
  · exact List.filter_sublist

theorem without_unlink {env : Env} {fs : FS} {f p : Path} (h : p <+: f) :
    without p (unlink env f fs) = without p fs := by
  unfold unlink
  split
  · rfl
  · unfold without
    rw [List.filter_filter]
    apply List.filter_congr
    intro e _
    by_cases ha : e.1 = f
    · have : p.isPrefixOf e.1 = true := by rw [ha]; exact List.isPrefixOf_iff_prefix.mpr h
      simp [this]
    · simp [ha]

/-- What contains an entry is a directory. -/
theorem Tree.above {fs : FS} (ht : Tree fs) {c : Path} (hc : c ≠ []) : ∀ (r : Path) (k : Kind), r ≠ [] →
    (c ++ r, k) ∈ fs → (c, Kind.dir) ∈ fs := by
  intro r
  generalize hn : r.length = n
  induction n generalizing r with
  | zero => intro k h; exact absurd (List.eq_nil_of_length_eq_zero hn) h
  | succ n ih =>
    intro k hr hm
    rw [← List.dropLast_concat_getLast hr, ← List.append_assoc] at hm
    have h1 := ht.parent _ _ _ hm (by simp [hc])
    by_cases hd : r.dropLast = []
    · rw [hd, List.append_nil] at h1; exact h1
    · exact ih _ (by simp [hn]) _ hd h1

theorem Tree.above' {fs : FS} (ht : Tree fs) {c q : Path} {k : Kind} (hc : c ≠ []) (hp : c <+: q) (hne : c ≠ q)
    (hm : (q, k) ∈ fs) : (c, Kind.dir) ∈ fs := by
  obtain ⟨r, rfl⟩ := hp
  exact ht.above hc r k (fun e => hne (by rw [e, List.append_nil])) hm

/-- The next directory on the way down. -/
theorem next_below {p q : Path} (h : p <+: q) (hne : p ≠ q) :
    ∃ c, p <+: c ∧ c <+: q ∧ c.length = p.length + 1 ∧ c ≠ [] := by
  obtain ⟨r, rfl⟩ := h
  cases r with
  | nil => exact absurd (by simp) hne
  | cons a r => exact ⟨p ++ [a], List.prefix_append _ _, ⟨r, by simp⟩, by simp, by simp⟩

theorem prefix_antisymm' {p q : Path} (h : p <+: q) (hl : q.length ≤ p.length) : p = q :=
  h.eq_of_length_le hl

theorem isDir_iff {k : Kind} : isDir k = true ↔ k = .dir := by cases k <;> simp [isDir]

/-! ### The invariant -/

/-- `f` is about to be removed by a thread of the pool. -/
def Queued (s : State) (f : Path) : Prop := (∃ n ∈ s.queue, f ∈ n) ∨ ∃ j ∈ s.pool, f ∈ j.files

structure Inv (env : Env) (fs : FS) (h : Path) (s : State) : Prop where
  sub : s.fs.Sublist fs
  outs : without h s.fs = without h fs
  kind : ∀ (p : Path) (k : Kind), kindAt s.fs p = some k → kindAt fs p = some k
  files : ∀ f, Queued s f → h <+: f ∧ ∃ k, (f, k) ∈ fs ∧ isDir k = false
  kept : ∀ e ∈ fs, e.2 = .dir ∨ env.deny e.1 = true ∨ ¬ h <+: e.1 → e ∈ s.fs
  stackHome : ∀ p ∈ s.stack, h <+: p
  stackDir : kindAt fs h = some .dir → ∀ p ∈ s.stack, (p, Kind.dir) ∈ fs
  active : s.active = running s.pool
  doneStack : s.scanDone = true → s.alive = true ∧ s.stack = []
  seen : s.phase = .sawDone ∨ s.phase = .sawIdle → s.scanDone = true
  late : s.phase = .closing ∨ s.phase = .joining ∨ s.phase = .removing → s.scanDone = true ∧ s.queue = []
  quiet : s.phase = .joining ∨ s.phase = .removing → s.pool = []
  cover : kindAt fs h = some .dir → ∀ e ∈ s.fs, h <+: e.1 → e.2 ≠ .dir →
    env.deny e.1 = true ∨ Queued s e.1 ∨ (∃ p ∈ s.stack, p <+: e.1 ∧ p ≠ e.1) ∨
      ∃ p, env.noscan p = true ∧ p <+: e.1
  reach : kindAt fs h = some .dir → ∀ q, (q, Kind.dir) ∈ fs → h <+: q → env.fragile q = true →
    (∀ p, p <+: q → env.noscan p = false) → ∃ p ∈ s.stack, p <+: q

theorem running_app (l r : List Job) : running (l ++ r) = running l + running r := by
  simp [running]

theorem inv_init {env : Env} {fs : FS} {root : Path} (ht : Tree fs) : Inv env fs (home fs root) (init fs root) where
  sub := List.Sublist.refl _
  outs := rfl
  kind := fun _ _ h => h
  files := by rintro f (⟨n, hn, _⟩ | ⟨n, hn, _⟩) <;> cases hn
  kept := fun e he _ => he
  stackHome := by intro p hp; rw [List.mem_singleton.mp hp]; exact List.prefix_rfl
  stackDir := by intro hk p hp; rw [List.mem_singleton.mp hp]; exact kindAt_mem hk
  active := rfl
  doneStack := nofun
  seen := by rintro (h | h) <;> cases h
  late := by rintro (h | h | h) <;> cases h
  quiet := by rintro (h | h) <;> cases h
  cover := by
    intro hk e he hp hd
    refine .inr (.inr (.inl ⟨_, List.mem_singleton.mpr rfl, hp, fun e' => hd ?_⟩))
    have := kindAt_mem hk
    rw [e'] at this
    exact unique ht.nodup he this
  reach := by
    intro _ q _ hp _ _
    exact ⟨_, List.mem_singleton.mpr rfl, hp⟩

theorem inv_step {env : Env} {fs : FS} {root h : Path} (ht : Tree fs) {s t : State} (hi : Inv env fs h s)
    (hst : Step env root s t) (hne : t.phase ≠ .returned) (hne' : t.phase ≠ .raised) : Inv env fs h t := by
  cases hst with
  | @scan p st ha hs hk hn hf =>
    have hsp : h <+: p := hi.stackHome p (by rw [hs]; exact List.mem_cons_self ..)
    have hpd : (p, Kind.dir) ∈ fs := hi.sub.subset (kindAt_mem hk)
    have hnd : s.scanDone ≠ true := fun hd => by have := (hi.doneStack hd).2; rw [hs] at this; cases this
    have hsub : ∀ q, q ∈ ((entries s.fs p).filter fun e => isDir e.2).map (·.1) ↔
        (q, Kind.dir) ∈ s.fs ∧ p <+: q ∧ q.length = p.length + 1 := by
      intro q
      simp only [List.mem_map, List.mem_filter, mem_entries, isDir_iff]
      constructor
      · rintro ⟨⟨a, k⟩, ⟨⟨h1, h2⟩, rfl⟩, rfl⟩; exact ⟨h1, h2⟩
      · rintro ⟨h1, h2⟩; exact ⟨(q, .dir), ⟨⟨h1, h2⟩, rfl⟩, rfl⟩
    refine { hi with files := ?_, stackHome := ?_, stackDir := ?_, doneStack := ?_, late := ?_, cover := ?_, reach := ?_ }
    · rintro f (⟨n, hn', hfn⟩ | hq)
      · rcases List.mem_append.mp hn' with h1 | h1
        · exact hi.files f (.inl ⟨n, h1, hfn⟩)
        · rw [List.mem_singleton.mp h1] at hfn
          simp only [List.mem_map, List.mem_filter, mem_entries, Bool.not_eq_true'] at hfn
          obtain ⟨⟨a, k⟩, ⟨⟨h1, h2, _⟩, hd⟩, rfl⟩ := hfn
          exact ⟨hsp.trans h2, k, hi.sub.subset h1, hd⟩
      · exact hi.files f (.inr hq)
    · intro q hq
      rcases List.mem_append.mp hq with h1 | h1
      · exact hsp.trans ((hsub q).mp h1).2.1
      · exact hi.stackHome q (by rw [hs]; exact List.mem_cons_of_mem _ h1)
    · intro hkd q hq
      rcases List.mem_append.mp hq with h1 | h1
      · exact hi.sub.subset ((hsub q).mp h1).1
      · exact hi.stackDir hkd q (by rw [hs]; exact List.mem_cons_of_mem _ h1)
    · intro hd; exact absurd hd hnd
    · intro hl; exact absurd (hi.late hl).1 hnd
    · intro hkd e he hp hd
      rcases hi.cover hkd e he hp hd with h1 | h1 | ⟨q, hq, hqp, hqe⟩ | h1
      · exact .inl h1
      · rcases h1 with ⟨n, h1, h2⟩ | h1
        · exact .inr (.inl (.inl ⟨n, List.mem_append_left _ h1, h2⟩))
        · exact .inr (.inl (.inr h1))
      · rw [hs] at hq
        rcases List.mem_cons.mp hq with e1 | h1
        · subst e1
          obtain ⟨c, hc1, hc2, hc3, hc4⟩ := next_below hqp hqe
          by_cases hce : c = e.1
          · refine .inr (.inl (.inl ⟨_, List.mem_append_right _ (List.mem_singleton.mpr rfl), ?_⟩))
            rw [List.mem_map]
            refine ⟨e, List.mem_filter.mpr ⟨mem_entries.mpr ⟨he, hqp, hce ▸ hc3⟩, ?_⟩, rfl⟩
            cases hk' : isDir e.2 with
            | false => rfl
            | true => exact absurd (isDir_iff.mp hk') hd
          · have hcd := ht.above' hc4 hc2 hce (hi.sub.subset (show (e.1, e.2) ∈ s.fs from he))
            exact .inr (.inr (.inl ⟨c, List.mem_append_left _ ((hsub c).mpr
              ⟨hi.kept _ hcd (.inl rfl), hc1, hc3⟩), hc2, hce⟩))
        · exact .inr (.inr (.inl ⟨q, List.mem_append_right _ h1, hqp, hqe⟩))
      · exact .inr (.inr (.inr h1))
    · intro hkd q hq hp hfr hns
      obtain ⟨c, hc, hcq⟩ := hi.reach hkd q hq hp hfr hns
      rw [hs] at hc
      rcases List.mem_cons.mp hc with e1 | h1
      · subst e1
        by_cases hce : c = q
        · rw [hce] at hf; rw [hf] at hfr; cases hfr
        · obtain ⟨d, hd1, hd2, hd3, hd4⟩ := next_below hcq hce
          have hdd : (d, Kind.dir) ∈ fs := by
            by_cases hdq : d = q
            · rw [hdq]; exact hq
            · exact ht.above' hd4 hd2 hdq hq
          exact ⟨d, List.mem_append_left _ ((hsub d).mpr ⟨hi.kept _ hdd (.inl rfl), hd1, hd3⟩), hd2⟩
      · exact ⟨c, List.mem_append_right _ h1, hcq⟩
  | @skip p st ha hs hk =>
    have hnd : s.scanDone ≠ true := fun hd => by have := (hi.doneStack hd).2; rw [hs] at this; cases this
    have hno : kindAt fs h = some .dir → env.noscan p = true := by
      intro hkd
      rcases hk with hk | hk
      · have h1 := hi.stackDir hkd p (by rw [hs]; exact List.mem_cons_self ..)
        have h2 := hi.kept _ h1 (.inl rfl)
        exact absurd (kindAt_of_mem (ht.nodup.sublist (hi.sub.map _)) h2) hk
      · exact hk
    refine { hi with stackHome := ?_, stackDir := ?_, doneStack := ?_, late := ?_, cover := ?_, reach := ?_ }
    · exact fun q hq => hi.stackHome q (by rw [hs]; exact List.mem_cons_of_mem _ hq)
    · exact fun hkd q hq => hi.stackDir hkd q (by rw [hs]; exact List.mem_cons_of_mem _ hq)
    · intro hd; exact absurd hd hnd
    · intro hl; exact absurd (hi.late hl).1 hnd
    · intro hkd e he hp hd
      rcases hi.cover hkd e he hp hd with h1 | h1 | ⟨q, hq, hqp, hqe⟩ | h1
      · exact .inl h1
      · exact .inr (.inl h1)
      · rw [hs] at hq
        rcases List.mem_cons.mp hq with e1 | h1
        · exact .inr (.inr (.inr ⟨p, hno hkd, e1 ▸ hqp⟩))
        · exact .inr (.inr (.inl ⟨q, h1, hqp, hqe⟩))
      · exact .inr (.inr (.inr h1))
    · intro hkd q hq hp hfr hns
      obtain ⟨c, hc, hcq⟩ := hi.reach hkd q hq hp hfr hns
      rw [hs] at hc
      rcases List.mem_cons.mp hc with e1 | h1
      · have := hns c hcq; rw [e1, hno hkd] at this; cases this
      · exact ⟨c, h1, hcq⟩
  | @die p st ha hs hk hn hf =>
    have hnd : s.scanDone ≠ true := fun hd => by have := (hi.doneStack hd).2; rw [hs] at this; cases this
    exact { hi with doneStack := fun hd => absurd hd hnd }
  | done ha hs =>
    exact { hi with
      doneStack := fun _ => ⟨ha, hs⟩
      seen := fun _ => rfl
      late := fun hl => ⟨rfl, (hi.late hl).2⟩ }
  | @take n q hp hq =>
    have hqd : ∀ f, Queued { s with queue := q, pool := s.pool ++ [⟨false, n⟩] } f ↔ Queued s f := by
      intro f
      unfold Queued
      simp only [hq, List.mem_append, List.mem_cons, List.not_mem_nil, or_false]
      constructor
      · rintro (⟨m, h1, h2⟩ | ⟨j, h1 | h1, h2⟩)
        · exact .inl ⟨m, .inr h1, h2⟩
        · exact .inr ⟨j, h1, h2⟩
        · subst h1; exact .inl ⟨n, .inl rfl, h2⟩
      · rintro (⟨m, h1 | h1, h2⟩ | ⟨j, h1, h2⟩)
        · subst h1; exact .inr ⟨_, .inr rfl, h2⟩
        · exact .inl ⟨m, h1, h2⟩
        · exact .inr ⟨j, .inl h1, h2⟩
    refine { hi with files := ?_, active := ?_, late := ?_, quiet := ?_, cover := ?_ }
    · exact fun f hf => hi.files f ((hqd f).mp hf)
    · rw [hi.active, running_app]; simp [running]
    · intro hl; simp [hp] at hl
    · intro hl; simp [hp] at hl
    · intro hkd e he hp hd
      rcases hi.cover hkd e he hp hd with h1 | h1 | h1 | h1
      · exact .inl h1
      · exact .inr (.inl ((hqd _).mpr h1))
      · exact .inr (.inr (.inl h1))
      · exact .inr (.inr (.inr h1))
  | @start l r n hp _ =>
    have hqd : ∀ f, Queued { s with pool := l ++ ⟨true, n⟩ :: r, active := s.active + 1 } f ↔ Queued s f := by
      intro f
      unfold Queued
      simp only [hp, List.mem_append, List.mem_cons]
      constructor
      · rintro (h1 | ⟨j, h1 | h1 | h1, h2⟩)
        · exact .inl h1
        · exact .inr ⟨j, .inl h1, h2⟩
        · subst h1; exact .inr ⟨_, .inr (.inl rfl), h2⟩
        · exact .inr ⟨j, .inr (.inr h1), h2⟩
      · rintro (h1 | ⟨j, h1 | h1 | h1, h2⟩)
        · exact .inl h1
        · exact .inr ⟨j, .inl h1, h2⟩
        · subst h1; exact .inr ⟨_, .inr (.inl rfl), h2⟩
        · exact .inr ⟨j, .inr (.inr h1), h2⟩
    refine { hi with files := ?_, active := ?_, quiet := ?_, cover := ?_ }
    · exact fun f hf => hi.files f ((hqd f).mp hf)
    · have := hi.active
      rw [hp, running_app] at this
      rw [running_app]
      simp only [this, running, List.filter_cons]
      simp [Nat.add_assoc]
    · intro hl
      have := hi.quiet hl
      rw [hp] at this
      simp at this
    · intro hkd e he hp hd
      rcases hi.cover hkd e he hp hd with h1 | h1 | h1 | h1
      · exact .inl h1
      · exact .inr (.inl ((hqd _).mpr h1))
      · exact .inr (.inr (.inl h1))
      · exact .inr (.inr (.inr h1))
  | @unlink l r f n hp =>
    have hqf : Queued s f := .inr ⟨⟨true, f :: n⟩, by simp [hp], by simp⟩
    obtain ⟨hhf, k, hkf, hkd⟩ := hi.files f hqf
    have hq1 : ∀ g, Queued { s with pool := l ++ ⟨true, n⟩ :: r, fs := Parallel.unlink env f s.fs } g →
        Queued s g := by
      intro g
      unfold Queued
      simp only [hp, List.mem_append, List.mem_cons]
      rintro (h1 | ⟨j, h1 | h1 | h1, h2⟩)
      · exact .inl h1
      · exact .inr ⟨j, .inl h1, h2⟩
      · subst h1; exact .inr ⟨_, .inr (.inl rfl), List.mem_cons_of_mem _ h2⟩
      · exact .inr ⟨j, .inr (.inr h1), h2⟩
    have hq2 : ∀ g, Queued s g → g = f ∨
        Queued { s with pool := l ++ ⟨true, n⟩ :: r, fs := Parallel.unlink env f s.fs } g := by
      intro g
      unfold Queued
      simp only [hp, List.mem_append, List.mem_cons]
      rintro (h1 | ⟨j, h1 | h1 | h1, h2⟩)
      · exact .inr (.inl h1)
      · exact .inr (.inr ⟨j, .inl h1, h2⟩)
      · subst h1
        rcases List.mem_cons.mp h2 with h2 | h2
        · exact .inl h2
        · exact .inr (.inr ⟨_, .inr (.inl rfl), h2⟩)
      · exact .inr (.inr ⟨j, .inr (.inr h1), h2⟩)
    refine { hi with sub := ?_, outs := ?_, kind := ?_, files := ?_, kept := ?_, active := ?_, quiet := ?_, cover := ?_ }
    · exact unlink_sublist.trans hi.sub
    · exact (without_unlink hhf).trans hi.outs
    · exact fun p k hpk => hi.kind p k (kindAt_unlink hpk)
    · exact fun g hg => hi.files g (hq1 g hg)
    · intro e he hc
      refine mem_unlink.mpr ⟨hi.kept e he hc, ?_⟩
      by_cases hef : e.1 = f
      · rcases hc with h1 | h1 | h1
        · subst hef
          have := unique ht.nodup (show (e.1, e.2) ∈ fs from he) hkf
          rw [← this, h1] at hkd
          cases hkd
        · rw [hef] at h1; exact .inl h1
        · rw [hef] at h1; exact absurd hhf h1
      · exact .inr hef
    · have := hi.active
      rw [hp, running_app] at this
      rw [running_app]
      simp only [this, running, List.filter_cons]
      simp
    · intro hl
      have := hi.quiet hl
      rw [hp] at this
      simp at this
    · intro hkd e he hp hd
      obtain ⟨he, hef⟩ := mem_unlink.mp he
      rcases hi.cover hkd e he hp hd with h1 | h1 | h1 | h1
      · exact .inl h1
      · rcases hq2 _ h1 with h2 | h2
        · rcases hef with h3 | h3
          · rw [← h2] at h3; exact .inl h3
          · exact absurd h2 h3
        · exact .inr (.inl h2)
      · exact .inr (.inr (.inl h1))
      · exact .inr (.inr (.inr h1))
  | @finish l r hp =>
    have hqd : ∀ f, Queued { s with pool := l ++ r, active := s.active - 1 } f ↔ Queued s f := by
      intro f
      unfold Queued
      simp only [hp, List.mem_append, List.mem_cons]
      constructor
      · rintro (h1 | ⟨j, h1 | h1, h2⟩)
        · exact .inl h1
        · exact .inr ⟨j, .inl h1, h2⟩
        · exact .inr ⟨j, .inr (.inr h1), h2⟩
      · rintro (h1 | ⟨j, h1 | h1 | h1, h2⟩)
        · exact .inl h1
        · exact .inr ⟨j, .inl h1, h2⟩
        · subst h1; cases h2
        · exact .inr ⟨j, .inr h1, h2⟩
    refine { hi with files := ?_, active := ?_, quiet := ?_, cover := ?_ }
    · exact fun f hf => hi.files f ((hqd f).mp hf)
    · have := hi.active
      rw [hp, running_app] at this
      rw [running_app]
      simp only [this, running, List.filter_cons]
      simp [← Nat.add_assoc]
    · intro hl
      have := hi.quiet hl
      rw [hp] at this
      simp at this
    · intro hkd e he hp hd
      rcases hi.cover hkd e he hp hd with h1 | h1 | h1 | h1
      · exact .inl h1
      · exact .inr (.inl ((hqd _).mpr h1))
      · exact .inr (.inr (.inl h1))
      · exact .inr (.inr (.inr h1))
  | timeout hp hq =>
    exact { hi with
      seen := by rintro (h1 | h1) <;> cases h1
      late := by rintro (h1 | h1 | h1) <;> cases h1
      quiet := by rintro (h1 | h1) <;> cases h1 }
  | @seeDone hp =>
    exact { hi with
      seen := by
        dsimp only
        split <;> rename_i hd
        · exact fun _ => hd
        · rintro (h1 | h1) <;> cases h1
      late := by dsimp only; split <;> rintro (h1 | h1 | h1) <;> cases h1
      quiet := by dsimp only; split <;> rintro (h1 | h1) <;> cases h1 }
  | @seeIdle hp =>
    have hd := hi.seen (.inl hp)
    exact { hi with
      seen := fun _ => hd
      late := by dsimp only; split <;> rintro (h1 | h1 | h1) <;> cases h1
      quiet := by dsimp only; split <;> rintro (h1 | h1) <;> cases h1 }
  | @seeQueue hp =>
    have hd := hi.seen (.inr hp)
    exact { hi with
      seen := fun _ => hd
      late := by
        dsimp only
        split <;> rename_i hq
        · exact fun _ => ⟨hd, List.isEmpty_iff.mp hq⟩
        · rintro (h1 | h1 | h1) <;> cases h1
      quiet := by dsimp only; split <;> rintro (h1 | h1) <;> cases h1 }
  | @close hp hq =>
    exact { hi with
      seen := by rintro (h1 | h1) <;> cases h1
      late := fun _ => hi.late (.inl hp)
      quiet := fun _ => hq }
  | @join hp hd =>
    exact { hi with
      seen := by rintro (h1 | h1) <;> cases h1
      late := fun _ => hi.late (.inr (.inl hp))
      quiet := fun _ => hi.quiet (.inl hp) }
  | rmtree hp h =>
    cases h with
    | refused => exact absurd rfl hne'
    | removed => exact absurd rfl hne
    | stopped => exact absurd rfl hne'

/-- Once `delete` has ended, it does nothing more; before, the invariant holds. -/
theorem inv_steps {env : Env} {fs : FS} {root : Path} (ht : Tree fs) {s : State}
    (h : Steps env root (init fs root) s) :
    (¬ Ended s ∧ Inv env fs (home fs root) s) ∨
      ∃ t fs', Steps env root (init fs root) t ∧ t.phase = .removing ∧ Inv env fs (home fs root) t ∧
        s.pool = [] ∧ s.active = 0 ∧ s.stack = [] ∧ s.scanDone = true ∧ s.queue = [] ∧ s.fs = fs' ∧
        Rmtree env root t.fs fs' s.phase := by
  induction h with
  | refl => exact .inl ⟨(by rintro (h | h) <;> cases h), inv_init ht⟩
  | @tail t u h h' ih =>
    rcases ih with ⟨hne, hi⟩ | ⟨t', fs', h1, h2, h3, h4, h5, h6, h6', h7, h8, h9⟩
    · by_cases hp : t.phase = .removing
      · cases h' with
        | rmtree _ hr =>
          refine .inr ⟨t, _, h, hp, hi, hi.quiet (.inr hp), ?_, (hi.doneStack (hi.late (.inr (.inr hp))).1).2,
            (hi.late (.inr (.inr hp))).1, (hi.late (.inr (.inr hp))).2, rfl, hr⟩
          show t.active = 0
          rw [hi.active, hi.quiet (.inr hp)]; rfl
        | scan ha hs =>
          rw [(hi.doneStack (hi.late (.inr (.inr hp))).1).2] at hs; cases hs
        | skip ha hs =>
          rw [(hi.doneStack (hi.late (.inr (.inr hp))).1).2] at hs; cases hs
        | die ha hs =>
          rw [(hi.doneStack (hi.late (.inr (.inr hp))).1).2] at hs; cases hs
        | done ha hs =>
          refine .inl ⟨by rintro (e | e) <;> exact absurd (hp.symm.trans e) (by decide), ?_⟩
          exact inv_step (root := root) ht hi (.done ha hs) (by simp [hp]) (by simp [hp])
        | start hq => rw [hi.quiet (.inr hp)] at hq; simp at hq
        | unlink hq => rw [hi.quiet (.inr hp)] at hq; simp at hq
        | finish hq => rw [hi.quiet (.inr hp)] at hq; simp at hq
        | _ hp' => rw [hp] at hp'; cases hp'
      · have hnu : ¬ Ended u := by
          cases h' with
          | rmtree hp' => exact absurd hp' hp
          | seeDone => unfold Ended; dsimp only; split <;> simp
          | seeIdle => unfold Ended; dsimp only; split <;> simp
          | seeQueue => unfold Ended; dsimp only; split <;> simp
          | timeout => simp [Ended]
          | close => simp [Ended]
          | join => simp [Ended]
          | _ => exact hne
        exact .inl ⟨hnu, inv_step ht hi h' (fun e => hnu (.inl e)) (fun e => hnu (.inr e))⟩
    · have hph : t.phase = .returned ∨ t.phase = .raised := by
        generalize t.phase = ph at h9
        cases h9 <;> simp
      cases h' with
      | scan ha hs => rw [h6] at hs; cases hs
      | skip ha hs => rw [h6] at hs; cases hs
      | die ha hs => rw [h6] at hs; cases hs
      | done ha hs => exact .inr ⟨t', fs', h1, h2, h3, h4, h5, h6, rfl, h7, h8, h9⟩
      | start hq => rw [h4] at hq; simp at hq
      | unlink hq => rw [h4] at hq; simp at hq
      | finish hq => rw [h4] at hq; simp at hq
      | _ hp' => rw [hp'] at hph; simp at hph

theorem home_dir {fs : FS} (ht : Tree fs) {root : Path} (h : (root, Kind.dir) ∈ fs) : home fs root = root := by
  unfold home; rw [kindAt_of_mem ht.nodup h]

theorem home_link {fs : FS} (ht : Tree fs) {root t : Path} (h : (root, Kind.link t) ∈ fs) : home fs root = t := by
  unfold home; rw [kindAt_of_mem ht.nodup h]

theorem home_other {fs : FS} {root : Path} (h : ∀ t, (root, Kind.link t) ∉ fs) : home fs root = root := by
  unfold home
  split
  · exact absurd (kindAt_mem (by assumption)) (h _)
  · rfl

theorem outs_iff {h : Path} {fs fs' : FS} (hw : without h fs' = without h fs) (e : Path × Kind) (hp : ¬ h <+: e.1) :
    e ∈ fs' ↔ e ∈ fs := by
  have := congrArg (e ∈ ·) hw
  simp only [mem_without, hp, not_false_eq_true, and_true, eq_iff_iff] at this
  exact this

/-! ### What deleting does -/

/-- C123: When `delete` returns, the path was a directory in which nothing was in the way, nothing is left at or below
it, and everything else is as it was: whatever the threads did in whatever order. -/
theorem C123_gone {env : Env} {fs : FS} {root : Path} {s : State} (ht : Tree fs)
    (h : Steps env root (init fs root) s) (hr : s.phase = .returned) :
    (root, Kind.dir) ∈ fs ∧ Free env root fs ∧ ∀ e, e ∈ s.fs ↔ e ∈ fs ∧ ¬ root <+: e.1 := by
  rcases inv_steps ht h with ⟨hne, _⟩ | ⟨t, fs', _, _, hi, _, _, _, _, _, hfs, hrm⟩
  · exact absurd (.inl hr) hne
  · rw [hr] at hrm
    cases hrm with
    | removed hk hb =>
      have hd := kindAt_mem (hi.kind _ _ hk)
      rw [home_dir ht hd] at hi
      refine ⟨hd, ?_, ?_⟩
      · intro e he hp
        have key : e ∈ t.fs → env.deny e.1 = false ∧ (e.2 = .dir → env.noscan e.1 = false) := by
          intro h1
          have h2 := hb e (mem_below.mpr ⟨h1, hp⟩)
          unfold blocked at h2
          rw [Bool.or_eq_false_iff] at h2
          refine ⟨h2.1, fun hed => ?_⟩
          have h3 := h2.2
          rw [hed] at h3
          simpa [isDir] using h3
        refine ⟨?_, fun hed => (key (hi.kept e he (.inl hed))).2 hed⟩
        cases hdn : env.deny e.1 with
        | false => rfl
        | true => rw [← hdn]; exact (key (hi.kept e he (.inr (.inl hdn)))).1
      · intro e
        rw [hfs, mem_without]
        constructor
        · rintro ⟨h1, h2⟩; exact ⟨hi.sub.subset h1, h2⟩
        · rintro ⟨h1, h2⟩; exact ⟨hi.kept e h1 (.inr (.inr h2)), h2⟩

/-- C123: At any moment of deleting a path that is not a symbolic link, finished, failed or running, everything that is
not below the path is untouched: links in the directory are not followed. -/
theorem C123_outside {env : Env} {fs : FS} {root : Path} {s : State} (ht : Tree fs)
    (hl : ∀ t, (root, Kind.link t) ∉ fs) (h : Steps env root (init fs root) s) (e : Path × Kind)
    (hp : ¬ root <+: e.1) : e ∈ s.fs ↔ e ∈ fs := by
  rcases inv_steps ht h with ⟨_, hi⟩ | ⟨t, fs', _, _, hi, _, _, _, _, _, hfs, hrm⟩
  · rw [home_other hl] at hi
    exact outs_iff hi.outs e hp
  · rw [home_other hl] at hi
    rw [hfs, ← outs_iff hi.outs e hp]
    generalize s.phase = ph at hrm
    cases hrm with
    | refused => rfl
    | removed => simp [mem_without, hp]
    | stopped _ _ _ _ ho => exact outs_iff ho e hp

/-- C123: When the last step, `rmtree`, begins, no thread of the pool is at work any more and all files of the
directory have been removed already, but those that cannot be and those in directories that cannot be read. -/
theorem C123_parallel {env : Env} {fs : FS} {root : Path} {s : State} (ht : Tree fs)
    (hd : (root, Kind.dir) ∈ fs) (h : Steps env root (init fs root) s) (hp : s.phase = .removing) :
    s.pool = [] ∧ s.queue = [] ∧ ∀ e ∈ s.fs, root <+: e.1 →
      e.2 = .dir ∨ env.deny e.1 = true ∨ ∃ p, env.noscan p = true ∧ p <+: e.1 := by
  rcases inv_steps ht h with ⟨_, hi⟩ | ⟨t, fs', _, _, hi, _, _, _, _, _, hfs, hrm⟩
  · rw [home_dir ht hd] at hi
    refine ⟨hi.quiet (.inr hp), (hi.late (.inr (.inr hp))).2, ?_⟩
    intro e he hpre
    by_cases hed : e.2 = .dir
    · exact .inl hed
    · rcases hi.cover (kindAt_of_mem ht.nodup hd) e he hpre hed with h1 | h1 | ⟨q, h1, _⟩ | h1
      · exact .inr (.inl h1)
      · rcases h1 with ⟨n, h1, _⟩ | ⟨j, h1, _⟩
        · rw [(hi.late (.inr (.inr hp))).2] at h1; cases h1
        · rw [hi.quiet (.inr hp)] at h1; cases h1
      · rw [(hi.doneStack (hi.late (.inr (.inr hp))).1).2] at h1; cases h1
      · exact .inr (.inr h1)
  · rw [hp] at hrm; cases hrm

/-- C123: When `delete` has ended, by returning or raising, none of its threads does anything any more. -/
theorem C123_idle {env : Env} {fs : FS} {root : Path} {s : State} (ht : Tree fs)
    (h : Steps env root (init fs root) s) (he : s.phase = .returned ∨ s.phase = .raised) :
    s.pool = [] ∧ s.queue = [] ∧ s.stack = [] ∧ ∀ t, Step env root s t → t.fs = s.fs := by
  rcases inv_steps ht h with ⟨hne, _⟩ | ⟨_, _, _, _, _, h1, _, h3, _, h5, _, _⟩
  · exact absurd he hne
  · refine ⟨h1, h5, h3, ?_⟩
    intro t hst
    cases hst with
    | unlink hq => rw [h1] at hq; simp at hq
    | rmtree hp => rw [hp] at he; simp at he
    | _ => rfl

/-- C123: A directory in which nothing is in the way is never reported as an error. -/
theorem C123_no_false_alarm {env : Env} {fs : FS} {root : Path} {s : State} (ht : Tree fs)
    (hd : (root, Kind.dir) ∈ fs) (hf : Free env root fs) (h : Steps env root (init fs root) s) :
    s.phase ≠ .raised := by
  intro hr
  rcases inv_steps ht h with ⟨hne, _⟩ | ⟨t, fs', _, _, hi, _, _, _, _, _, hfs, hrm⟩
  · exact hne (.inr hr)
  · have hk : kindAt t.fs root = some .dir :=
      kindAt_of_mem (ht.nodup.sublist (hi.sub.map _)) (hi.kept _ hd (.inl rfl))
    rw [hr] at hrm
    cases hrm with
    | refused h1 => exact h1 hk
    | stopped _ _ h1 _ _ =>
      obtain ⟨e, he, hb⟩ := h1
      obtain ⟨he1, he2⟩ := mem_below.mp he
      obtain ⟨hd1, hd2⟩ := hf e (hi.sub.subset he1) he2
      unfold blocked at hb
      rw [hd1, Bool.false_or, Bool.and_eq_true, isDir_iff] at hb
      rw [hd2 hb.1] at hb
      exact absurd hb.2 (by decide)

/-- C123: Never more than `num_threads` nodes are worked on. -/
theorem C123_threads {env : Env} {fs : FS} {root : Path} {s : State} (h : Steps env root (init fs root) s) :
    (s.pool.filter (·.started)).length ≤ env.threads := by
  induction h with
  | refl => exact Nat.zero_le _
  | @tail t u h h' ih =>
    cases h' with
    | @start l r n hp ht =>
      have : running (l ++ ⟨true, n⟩ :: r) = running t.pool + 1 := by
        rw [hp, running_app, running_app]; simp [running, Nat.add_assoc]
      show running (l ++ ⟨true, n⟩ :: r) ≤ _
      omega
    | @take n q _ _ => simpa using ih
    | @unlink l r f n hp => rw [hp] at ih; simpa using ih
    | @finish l r hp =>
      rw [hp] at ih
      simp only [List.filter_append, List.filter_cons, List.length_append, if_true, List.length_cons] at ih ⊢
      omega
    | _ => exact ih

/-! ### Deleting ends -/

theorem Steps.trans {env : Env} {root : Path} {s t u : State} (h : Steps env root s t) (h' : Steps env root t u) :
    Steps env root s u := by
  induction h' with
  | refl => exact h
  | tail _ h2 ih => exact .tail ih h2

theorem Steps.head {env : Env} {root : Path} {s t u : State} (h : Step env root s t) (h' : Steps env root t u) :
    Steps env root s u := Steps.trans (.tail (.refl _) h) h'

theorem step_then {env : Env} {root : Path} {s u : State} {P : State → Prop} (h : Step env root s u)
    (h' : ∃ t, Steps env root u t ∧ P t) : ∃ t, Steps env root s t ∧ P t := by
  obtain ⟨t, h1, h2⟩ := h'
  exact ⟨t, .head h h1, h2⟩

/-- The number of entries strictly below a path. -/
def weight (fs : FS) (p : Path) : Nat := fs.countP fun e => p.isPrefixOf e.1 && !(p == e.1)

/-- The number of entries at or below a path. -/
def weight1 (fs : FS) (p : Path) : Nat := fs.countP fun e => p.isPrefixOf e.1

theorem weight_lt {fs : FS} {p : Path} {k : Kind} (h : (p, k) ∈ fs) : weight fs p + 1 ≤ weight1 fs p := by
  induction fs with
  | nil => cases h
  | cons a fs ih =>
    simp only [weight, weight1, List.countP_cons] at ih ⊢
    rcases List.mem_cons.mp h with e | h1
    · subst e
      have : List.countP (fun e : Path × Kind => p.isPrefixOf e.1 && !(p == e.1)) fs ≤
          List.countP (fun e : Path × Kind => p.isPrefixOf e.1) fs :=
        List.countP_mono_left (fun x _ hx => by simp only [Bool.and_eq_true] at hx; exact hx.1)
      simp
      omega
    · have := ih h1
      by_cases h2 : p.isPrefixOf a.1 = true <;> simp only [h2] <;> simp <;> (try split) <;> omega

theorem prefix_same_length {c d q : Path} (h : c <+: q) (h' : d <+: q) (hl : c.length = d.length) : c = d := by
  obtain ⟨r, rfl⟩ := h
  obtain ⟨r', h'⟩ := h'
  exact (List.append_inj h' hl.symm).1.symm

theorem count_children {p q : Path} {cs : List Path} (hn : cs.Nodup)
    (hc : ∀ c ∈ cs, p <+: c ∧ c.length = p.length + 1) :
    cs.countP (fun c => c.isPrefixOf q) ≤ if p.isPrefixOf q && !(p == q) then 1 else 0 := by
  induction cs with
  | nil => exact Nat.zero_le _
  | cons c cs ih =>
    rw [List.nodup_cons] at hn
    rw [List.countP_cons]
    by_cases hcq : c <+: q
    · have h0 : cs.countP (fun c => c.isPrefixOf q) = 0 := by
        rw [List.countP_eq_zero]
        intro d hd hdq
        have := prefix_same_length (List.isPrefixOf_iff_prefix.mp hdq) hcq
          ((hc d (List.mem_cons_of_mem _ hd)).2.trans (hc c (List.mem_cons_self ..)).2.symm)
        exact hn.1 (this ▸ hd)
      have h1 := hc c (List.mem_cons_self ..)
      have h2 : p.isPrefixOf q = true := List.isPrefixOf_iff_prefix.mpr (h1.1.trans hcq)
      have h3 : (p == q) = false := by
        rw [beq_eq_false_iff_ne]
        intro e
        have := hcq.length_le
        rw [← e] at this
        omega
      rw [h0, h2, h3]
      split <;> simp
    · have : c.isPrefixOf q = false := by
        rw [← Bool.not_eq_true, List.isPrefixOf_iff_prefix]; exact hcq
      rw [this]
      exact ih hn.2 (fun d hd => hc d (List.mem_cons_of_mem _ hd))

theorem sum_children {p : Path} {cs : List Path} (hn : cs.Nodup)
    (hc : ∀ c ∈ cs, p <+: c ∧ c.length = p.length + 1) (fs : FS) :
    (cs.map (weight1 fs)).sum ≤ weight fs p := by
  induction fs with
  | nil =>
    have : ∀ cs : List Path, (cs.map (weight1 [])).sum = 0 := by
      intro cs; induction cs with
      | nil => rfl
      | cons c cs ih => rw [List.map_cons, List.sum_cons, ih]; rfl
    rw [this]; exact Nat.zero_le _
  | cons a fs ih =>
    have key : ∀ cs : List Path, (cs.map (weight1 (a :: fs))).sum =
        (cs.map (weight1 fs)).sum + cs.countP (fun c => c.isPrefixOf a.1) := by
      intro cs; induction cs with
      | nil => rfl
      | cons c cs ih =>
        rw [List.map_cons, List.sum_cons, List.map_cons, List.sum_cons, ih, List.countP_cons]
        simp only [weight1, List.countP_cons]
        omega
    have h1 := count_children (q := a.1) hn hc
    rw [key]
    simp only [weight, List.countP_cons] at ih ⊢
    omega

theorem sum_lt {fs : FS} {cs : List Path} (hm : ∀ c ∈ cs, ∃ k, (c, k) ∈ fs) :
    (cs.map fun c => weight fs c + 1).sum ≤ (cs.map (weight1 fs)).sum := by
  induction cs with
  | nil => exact Nat.le_refl _
  | cons c cs ih =>
    rw [List.map_cons, List.sum_cons, List.map_cons, List.sum_cons]
    obtain ⟨k, hk⟩ := hm c (List.mem_cons_self ..)
    have := weight_lt hk
    have := ih (fun d hd => hm d (List.mem_cons_of_mem _ hd))
    omega

/-- The scanning thread can finish. -/
theorem scan_ends {env : Env} {root : Path} (hfr : ∀ p, env.fragile p = false) :
    ∀ (n : Nat) (s : State), (s.fs.map (·.1)).Nodup → s.alive = true →
      (s.stack.map fun c => weight s.fs c + 1).sum ≤ n →
      ∃ t, Steps env root s t ∧ t.scanDone = true ∧ t.phase = s.phase := by
  intro n
  induction n with
  | zero =>
    intro s hn ha hm
    cases hs : s.stack with
    | nil => exact ⟨_, .tail (.refl _) (.done ha hs), rfl, rfl⟩
    | cons p st => rw [hs, List.map_cons, List.sum_cons] at hm; omega
  | succ n ih =>
    intro s hn ha hm
    cases hs : s.stack with
    | nil => exact ⟨_, .tail (.refl _) (.done ha hs), rfl, rfl⟩
    | cons p st =>
      rw [hs, List.map_cons, List.sum_cons] at hm
      by_cases hk : kindAt s.fs p = some .dir ∧ env.noscan p = false
      · refine step_then (Step.scan (root := root) ha hs hk.1 hk.2 (hfr p)) (ih _ (show (s.fs.map (·.1)).Nodup from hn) ha (by
          show (List.map (fun c => weight s.fs c + 1) (List.map (·.1) (List.filter _ (entries s.fs p)) ++ st)).sum ≤ n
          rw [List.map_append, List.sum_append]
          have hsub : (List.map (fun e : Path × Kind => e.1)
              (List.filter (fun e => isDir e.2) (entries s.fs p))).Sublist (s.fs.map (·.1)) :=
            (List.filter_sublist.trans List.filter_sublist).map _
          have hc := sum_children (p := p) (hn.sublist hsub) (by
            intro c hc
            simp only [List.mem_map, List.mem_filter, mem_entries] at hc
            obtain ⟨e, ⟨⟨_, h1⟩, _⟩, rfl⟩ := hc
            exact h1) s.fs
          have hl := sum_lt (fs := s.fs) (cs := List.map (fun e : Path × Kind => e.1)
            (List.filter (fun e => isDir e.2) (entries s.fs p))) (by
              intro c hc
              simp only [List.mem_map, List.mem_filter, mem_entries] at hc
              obtain ⟨e, ⟨⟨h0, _⟩, _⟩, rfl⟩ := hc
              exact ⟨e.2, h0⟩)
          omega))
      · have hst := Step.skip (env := env) (root := root) ha hs (by
          by_cases h1 : kindAt s.fs p = some .dir
          · right
            cases h2 : env.noscan p with
            | true => rfl
            | false => exact absurd ⟨h1, h2⟩ hk
          · exact .inl h1)
        have h0 := ih { s with stack := st } (show (s.fs.map (·.1)).Nodup from hn) ha (by
          show (List.map (fun c => weight s.fs c + 1) st).sum ≤ n
          omega)
        exact step_then hst h0

/-- The steps a node still needs. -/
def cost (j : Job) : Nat := j.files.length + if j.started then 1 else 2

theorem exists_started {pool : List Job} (h : running pool ≠ 0) : ∃ l n r, pool = l ++ ⟨true, n⟩ :: r := by
  unfold running at h
  obtain ⟨j, hj⟩ := List.exists_mem_of_length_pos (Nat.pos_of_ne_zero h)
  obtain ⟨h1, h2⟩ := List.mem_filter.mp hj
  obtain ⟨l, r, h3⟩ := List.append_of_mem h1
  cases j with
  | mk b n => simp only at h2; subst h2; exact ⟨l, n, r, h3⟩

/-- The submitted nodes can finish. -/
theorem pool_ends {env : Env} {root : Path} (hth : 0 < env.threads) :
    ∀ (n : Nat) (s : State), (s.pool.map cost).sum ≤ n →
      ∃ t, Steps env root s t ∧ t.pool = [] ∧ t.phase = s.phase ∧ t.scanDone = s.scanDone ∧ t.queue = s.queue := by
  intro n
  induction n with
  | zero =>
    intro s hm
    cases hs : s.pool with
    | nil => exact ⟨s, .refl _, hs, rfl, rfl, rfl⟩
    | cons j l =>
      rw [hs, List.map_cons, List.sum_cons] at hm
      unfold cost at hm
      split at hm <;> omega
  | succ n ih =>
    intro s hm
    by_cases hs : s.pool = []
    · exact ⟨s, .refl _, hs, rfl, rfl, rfl⟩
    · by_cases hr : running s.pool = 0
      · have : ∃ m l, s.pool = ⟨false, m⟩ :: l := by
          cases hp : s.pool with
          | nil => exact absurd hp hs
          | cons j l =>
            rcases j with ⟨b, m⟩
            cases b with
            | false => exact ⟨m, l, rfl⟩
            | true => rw [hp] at hr; simp [running] at hr
        obtain ⟨m, l, hp⟩ := this
        refine step_then (Step.start (env := env) (root := root) (l := []) (n := m) (r := l) hp (by omega)) (ih _ (by
          show (List.map cost ([] ++ ⟨true, m⟩ :: l)).sum ≤ n
          rw [hp] at hm
          simp only [List.nil_append, List.map_cons, List.sum_cons, cost] at hm ⊢
          simp at hm ⊢
          omega))
      · obtain ⟨l, m, r, hp⟩ := exists_started hr
        cases m with
        | nil =>
          refine step_then (Step.finish (env := env) (root := root) hp) (ih _ (by
            show (List.map cost (l ++ r)).sum ≤ n
            rw [hp] at hm
            simp only [List.map_append, List.map_cons, List.sum_append, List.sum_cons, cost] at hm ⊢
            simp at hm
            omega))
        | cons f m =>
          refine step_then (Step.unlink (env := env) (root := root) hp) (ih _ (by
            show (List.map cost (l ++ ⟨true, m⟩ :: r)).sum ≤ n
            rw [hp] at hm
            simp only [List.map_append, List.map_cons, List.sum_append, List.sum_cons, cost] at hm ⊢
            simp at hm ⊢
            omega))

/-- The scheduler can empty the queue. -/
theorem queue_ends {env : Env} {root : Path} : ∀ (n : Nat) (s : State), s.queue.length = n → s.phase = .waiting →
    ∃ t, Steps env root s t ∧ t.queue = [] ∧ t.phase = .waiting ∧ t.scanDone = s.scanDone := by
  intro n
  induction n with
  | zero => intro s hn hp; exact ⟨s, .refl _, List.eq_nil_of_length_eq_zero hn, hp, rfl⟩
  | succ n ih =>
    intro s hn hp
    cases hq : s.queue with
    | nil => rw [hq] at hn; cases hn
    | cons a q =>
      refine step_then (Step.take (env := env) (root := root) hp hq) (ih _ (by show q.length = n; rw [hq] at hn; simpa using hn) hp)

theorem rmtree_some (env : Env) (root : Path) (fs : FS) :
    ∃ fs' ph, Rmtree env root fs fs' ph ∧ (ph = .returned ∨ ph = .raised) := by
  by_cases hk : kindAt fs root = some .dir
  · by_cases hb : ∃ e ∈ below root fs, blocked env e = true
    · exact ⟨fs, .raised, .stopped fs hk hb (List.Sublist.refl _) rfl, .inr rfl⟩
    · refine ⟨_, _, .removed hk ?_, .inl rfl⟩
      intro e he
      cases hbe : blocked env e with
      | false => rfl
      | true => exact absurd ⟨e, he, hbe⟩ hb
  · exact ⟨fs, .raised, .refused hk, .inr rfl⟩

theorem end_closing {env : Env} {root : Path} (hth : 0 < env.threads) {s : State} (hp : s.phase = .closing)
    (hd : s.scanDone = true) : ∃ t, Steps env root s t ∧ Ended t := by
  obtain ⟨t, h1, h2, h3, h4, _⟩ := pool_ends (root := root) hth _ s (Nat.le_refl _)
  obtain ⟨fs', ph, h5, h6⟩ := rmtree_some env root t.fs
  refine ⟨_, .tail (.tail (.tail h1 (.close (h3.trans hp) h2)) (.join rfl (.inl (h4.trans hd)))) (.rmtree rfl h5), h6⟩

theorem end_waiting {env : Env} {root : Path} (hth : 0 < env.threads) {fs : FS} (ht : Tree fs) {s : State}
    (hr : Steps env root (init fs root) s) (hp : s.phase = .waiting) (hd : s.scanDone = true) :
    ∃ t, Steps env root s t ∧ Ended t := by
  obtain ⟨t, h1, h2, h3, h4⟩ := queue_ends (env := env) (root := root) _ s rfl hp
  obtain ⟨u, k1, k2, k3, k4, k5⟩ := pool_ends (root := root) hth _ t (Nat.le_refl _)
  have hu : u.phase = .waiting := k3.trans h3
  have hact : u.active = 0 := by
    rcases inv_steps ht (hr.trans (h1.trans k1)) with ⟨_, hi⟩ | ⟨_, _, _, _, _, _, h7, _⟩
    · rw [hi.active, k2]; rfl
    · exact h7
  have e1 := Step.timeout (env := env) (root := root) hu (k5.trans h2)
  have e2 := Step.seeDone (env := env) (root := root) (s := { u with phase := .sawEmpty }) rfl
  have hdu : u.scanDone = true := k4.trans (h4.trans hd)
  simp only [hdu, if_true] at e2
  have e3 := Step.seeIdle (env := env) (root := root) (s := { u with phase := .sawDone, scanDone := true }) rfl
  simp only [hact, if_true] at e3
  have e4 := Step.seeQueue (env := env) (root := root)
    (s := { u with phase := .sawIdle, scanDone := true, active := 0 }) rfl
  simp only [k5.trans h2, List.isEmpty_nil, if_true] at e4
  obtain ⟨v, f1, f2⟩ := end_closing (root := root) hth
    (s := { u with phase := .closing, scanDone := true, active := 0, queue := [] }) rfl rfl
  refine ⟨v, (h1.trans k1).trans ?_, f2⟩
  rcases u with ⟨a, b, c, d, e, f, g, i⟩
  dsimp only at *
  subst hdu hact hu
  have hq : e = [] := k5.trans h2
  subst hq
  exact .head e1 (.head e2 (.head e3 (.head e4 f1)))

/-- C123: Whatever has happened so far, a call of `delete` can still end, provided that scanning raises nothing but
OSErrors: no thread waits for something that cannot happen. -/
theorem C123_can_finish {env : Env} {fs : FS} {root : Path} {s : State} (ht : Tree fs) (hth : 0 < env.threads)
    (hfr : ∀ p, env.fragile p = false) (h : Steps env root (init fs root) s) :
    ∃ t, Steps env root s t ∧ (t.phase = .returned ∨ t.phase = .raised) := by
  have halive : ∀ {s}, Steps env root (init fs root) s → s.alive = true := by
    intro s h
    induction h with
    | refl => rfl
    | @tail t u _ h' ih =>
      cases h' with
      | die _ _ _ _ hf => rw [hfr] at hf; cases hf
      | _ => exact ih
  rcases inv_steps ht h with ⟨_, hi⟩ | ⟨t, fs', _, _, _, _, _, _, _, _, _, hrm⟩
  · obtain ⟨t, h1, h2, h3⟩ := scan_ends (root := root) hfr _ s (ht.nodup.sublist (hi.sub.map _)) (halive h)
      (Nat.le_refl _)
    suffices hs : ∃ u, Steps env root t u ∧ Ended u by
      obtain ⟨u, k1, k2⟩ := hs; exact ⟨u, h1.trans k1, k2⟩
    have ht' := h.trans h1
    have idle : ∀ u, Steps env root (init fs root) u → u.scanDone = true → u.phase = .sawIdle →
        ∃ v, Steps env root u v ∧ Ended v := by
      intro u hu hd hp
      refine step_then (.seeQueue hp) ?_
      by_cases hq : u.queue.isEmpty = true
      · rw [if_pos hq]
        exact end_closing hth rfl hd
      · have hu' := hu.tail (.seeQueue hp)
        rw [if_neg hq] at hu' ⊢
        exact end_waiting hth ht hu' rfl hd
    have done : ∀ u, Steps env root (init fs root) u → u.scanDone = true → u.phase = .sawDone →
        ∃ v, Steps env root u v ∧ Ended v := by
      intro u hu hd hp
      refine step_then (.seeIdle hp) ?_
      have hu' := hu.tail (.seeIdle hp)
      by_cases hq : u.active = 0
      · rw [if_pos hq] at hu' ⊢
        exact idle _ hu' hd rfl
      · rw [if_neg hq] at hu' ⊢
        exact end_waiting hth ht hu' rfl hd
    cases hp : t.phase with
    | waiting => exact end_waiting hth ht ht' hp h2
    | sawEmpty =>
      refine step_then (.seeDone hp) ?_
      have hu' := ht'.tail (.seeDone hp)
      rw [if_pos h2] at hu' ⊢
      exact done _ hu' h2 rfl
    | sawDone => exact done _ ht' h2 hp
    | sawIdle => exact idle _ ht' h2 hp
    | closing => exact end_closing hth hp h2
    | joining =>
      obtain ⟨fs', ph, h5, h6⟩ := rmtree_some env root t.fs
      exact ⟨_, .tail (.tail (.refl _) (.join hp (.inl h2))) (.rmtree rfl h5), h6⟩
    | removing =>
      obtain ⟨fs', ph, h5, h6⟩ := rmtree_some env root t.fs
      exact ⟨_, .tail (.refl _) (.rmtree hp h5), h6⟩
    | returned => exact ⟨t, .refl _, .inl hp⟩
    | raised => exact ⟨t, .refl _, .inr hp⟩
  · refine ⟨s, .refl _, ?_⟩
    generalize s.phase = ph at hrm
    cases hrm <;> simp

/-- C123: A directory in which nothing is in the way can always still be deleted completely, and is not reported as an
error: deleting it by several threads leaves what deleting it by one leaves. -/
theorem C123_deletes {env : Env} {fs : FS} {root : Path} {s : State} (ht : Tree fs) (hth : 0 < env.threads)
    (hfr : ∀ p, env.fragile p = false) (hd : (root, Kind.dir) ∈ fs) (hf : Free env root fs)
    (h : Steps env root (init fs root) s) :
    ∃ t, Steps env root s t ∧ t.phase = .returned ∧ ∀ e, e ∈ t.fs ↔ e ∈ fs ∧ ¬ root <+: e.1 := by
  obtain ⟨t, h1, h2⟩ := C123_can_finish ht hth hfr h
  rcases h2 with h2 | h2
  · exact ⟨t, h1, h2, (C123_gone ht (h.trans h1) h2).2.2⟩
  · exact absurd h2 (C123_no_false_alarm ht hd hf (h.trans h1))

/-- C123: Deleting a step directory permanently, with or without threads, does not return unless the directory is gone
and nothing else is; and it does not raise if nothing is in the way. -/
theorem C123_permanently {env : Env} {threads : Option Nat} {fs fs' : FS} {root : Path} {ph : Phase} (ht : Tree fs)
    (h : Permanently env threads root fs fs' ph) :
    (ph = .returned → ∀ e, e ∈ fs' ↔ e ∈ fs ∧ ¬ root <+: e.1) ∧
      ((root, Kind.dir) ∈ fs → Free env root fs → ph = .returned) := by
  cases h with
  | @parallel n s hn h hp =>
    refine ⟨fun hr => (C123_gone ht h hr).2.2, fun hd hf => ?_⟩
    rcases hp with hp | hp
    · exact hp
    · exact absurd hp (C123_no_false_alarm (env := { env with threads := n }) ht hd hf h)
  | plain hn h =>
    cases h with
    | refused hk => exact ⟨nofun, fun hd => absurd (kindAt_of_mem ht.nodup hd) hk⟩
    | removed hk hb => exact ⟨fun _ e => mem_without, fun _ _ => rfl⟩
    | stopped _ hk hb _ _ =>
      refine ⟨nofun, fun _ hf => ?_⟩
      obtain ⟨e, he, hb⟩ := hb
      obtain ⟨he1, he2⟩ := mem_below.mp he
      obtain ⟨hd1, hd2⟩ := hf e he1 he2
      unfold blocked at hb
      rw [hd1, Bool.false_or, Bool.and_eq_true, isDir_iff] at hb
      rw [hd2 hb.1] at hb
      exact absurd hb.2 (by decide)

/-- C123: Several threads are used exactly for local paths and more than one thread; without a number, half of the
processors and at most sixteen. -/
theorem C123_choice (given : Option Nat) (gcs : Bool) (scheme : String) (cpus n : Nat) :
    parallelThreads given gcs scheme cpus = some n ↔
      gcs = false ∧ scheme.length ≤ 1 ∧ 1 < n ∧
        (given = some n ∨ given = none ∧ n = min 16 (cpus / 2)) := by
  have hl : isLocal gcs scheme = true ↔ gcs = false ∧ scheme.length ≤ 1 := by
    unfold isLocal
    cases gcs
    · simp only [Bool.false_eq_true, if_false, Bool.or_eq_true, decide_eq_true_eq, true_and]
      constructor
      · rintro (h | h)
        · have : scheme = "" := by simpa using h
          rw [this]; decide
        · exact h
      · exact .inr
    · simp
  unfold parallelThreads
  by_cases hloc : isLocal gcs scheme = true
  · obtain ⟨h1, h2⟩ := hl.mp hloc
    subst h1
    cases given with
    | none =>
      simp only [hloc, if_true, Bool.and_true, decide_eq_true_eq, h2, true_and]
      split <;> rename_i h3
      · simp only [Option.some.injEq]
        constructor
        · rintro rfl; exact ⟨h3, .inr rfl⟩
        · rintro ⟨_, h | h⟩
          · cases h
          · exact h.symm
      · constructor
        · nofun
        · rintro ⟨h4, h | h⟩
          · cases h
          · omega
    | some m =>
      simp only [hloc, Bool.and_true, decide_eq_true_eq, h2, true_and]
      split <;> rename_i h3
      · simp only [Option.some.injEq]
        constructor
        · rintro rfl; exact ⟨h3, .inl rfl⟩
        · rintro ⟨_, h | h⟩
          · exact h
          · cases h.1
      · constructor
        · nofun
        · rintro ⟨h4, h | h⟩
          · simp only [Option.some.injEq] at h; omega
          · cases h.1
  · have hf : isLocal gcs scheme = false := by simpa using hloc
    simp only [hf, Bool.and_false, Bool.false_eq_true, if_false]
    constructor
    · nofun
    · rintro ⟨h1, h2, _⟩; exact absurd (hl.mpr ⟨h1, h2⟩) hloc

/-! ### Findings -/

/-- C123 (finding): If the path to delete is a symbolic link to a directory, `delete` with several threads always ends
with an error, and yet the files of the directory to which the link points are gone.  With one thread the error is the
same and nothing is removed. -/
theorem C123_link_fails {env : Env} {fs : FS} {root t : Path} (ht : Tree fs) (hl : (root, Kind.link t) ∈ fs)
    (hd : (t, Kind.dir) ∈ fs) (hf : Free env t fs) :
    (∀ s, Steps env root (init fs root) s → Ended s → s.phase = .raised ∧
      ∀ e ∈ s.fs, t <+: e.1 → e.2 = .dir ∨ ∃ p, env.noscan p = true ∧ p <+: e.1) ∧
    (∀ fs' ph, Permanently env none root fs fs' ph → ph = .raised ∧ fs' = fs) := by
  constructor
  · intro s h he
    rcases inv_steps ht h with ⟨hne, _⟩ | ⟨u, fs', hu, hup, hi, _, _, _, _, _, hfs, hrm⟩
    · exact absurd he hne
    · rw [home_link ht hl] at hi
      have hk : kindAt u.fs root ≠ some .dir := by
        intro hk
        have := unique ht.nodup (kindAt_mem (hi.kind _ _ hk)) hl
        cases this
      have key : s.phase = .raised ∧ fs' = u.fs := by
        generalize s.phase = ph at hrm
        cases hrm with
        | refused => exact ⟨rfl, rfl⟩
        | removed h1 => exact absurd h1 hk
        | stopped _ h1 => exact absurd h1 hk
      refine ⟨key.1, ?_⟩
      rw [hfs, key.2]
      intro e he hp
      by_cases hed : e.2 = .dir
      · exact .inl hed
      · rcases hi.cover (kindAt_of_mem ht.nodup hd) e he hp hed with h1 | h1 | ⟨q, h1, _⟩ | h1
        · rw [(hf e (hi.sub.subset he) hp).1] at h1; cases h1
        · rcases h1 with ⟨n, h1, _⟩ | ⟨j, h1, _⟩
          · rw [(hi.late (.inr (.inr hup))).2] at h1; cases h1
          · rw [hi.quiet (.inr hup)] at h1; cases h1
        · rw [(hi.doneStack (hi.late (.inr (.inr hup))).1).2] at h1; cases h1
        · exact .inr h1
  · intro fs' ph h
    cases h with
    | parallel hn => cases hn
    | plain _ h =>
      have hk : kindAt fs root ≠ some .dir := by
        rw [kindAt_of_mem ht.nodup hl]; simp
      cases h with
      | refused => exact ⟨rfl, rfl⟩
      | removed h1 => exact absurd h1 hk
      | stopped _ h1 => exact absurd h1 hk

/-- C123 (finding): If scanning one directory below the path raises anything but an OSError of `scandir` (the
directories are nested deeper than Python recurses, or the kind of an entry cannot be found out), `delete` never ends:
the flag for which the scheduler waits is never set, and nothing is raised. -/
theorem C123_hang_fails {env : Env} {fs : FS} {root q : Path} (ht : Tree fs) (hd : (root, Kind.dir) ∈ fs)
    (hq : (q, Kind.dir) ∈ fs) (hp : root <+: q) (hf : env.fragile q = true)
    (hn : ∀ p, p <+: q → env.noscan p = false) (s : State) (h : Steps env root (init fs root) s) :
    s.phase ≠ .returned ∧ s.phase ≠ .raised ∧ s.scanDone = false := by
  have hkd := kindAt_of_mem ht.nodup hd
  rcases inv_steps ht h with ⟨hne, hi⟩ | ⟨u, fs', hu, hup, hi, _⟩
  · rw [home_dir ht hd] at hi
    obtain ⟨p, h1, _⟩ := hi.reach hkd q hq hp hf hn
    refine ⟨fun e => hne (.inl e), fun e => hne (.inr e), ?_⟩
    cases hs : s.scanDone with
    | false => rfl
    | true => rw [(hi.doneStack hs).2] at h1; cases h1
  · rw [home_dir ht hd] at hi
    obtain ⟨p, h1, _⟩ := hi.reach hkd q hq hp hf hn
    rw [(hi.doneStack (hi.late (.inr (.inr hup))).1).2] at h1; cases h1

/-- C123 (finding): A number of threads asked for is ignored without a word for paths in a remote file system. -/
theorem C123_remote_fails (n cpus : Nat) (gcs : Bool) (scheme : String) (h : gcs = true ∨ 1 < scheme.length) :
    parallelThreads (some n) gcs scheme cpus = none := by
  cases hp : parallelThreads (some n) gcs scheme cpus with
  | none => rfl
  | some m =>
    obtain ⟨h1, h2, _⟩ := (C123_choice _ _ _ _ _).mp hp
    rcases h with h | h
    · rw [h1] at h; cases h
    · omega

/-! ### The hypotheses can be met -/

/-- A step with two files and a link to a directory outside, and the directory outside. -/
def exampleFS : FS :=
  [(["r"], .dir), (["r", "1"], .dir), (["r", "1", "a"], .file), (["r", "1", "d"], .dir), (["r", "1", "d", "b"], .file),
   (["r", "1", "l"], .link ["x"]), (["x"], .dir), (["x", "f"], .file), (["r", "2"], .link ["x"])]

theorem exampleTree : Tree exampleFS where
  nodup := by decide
  parent := by
    intro p n k h hp
    have h' : ∃ e ∈ exampleFS, e.1 = p ++ [n] := ⟨_, h, rfl⟩
    obtain ⟨e, he, hpe⟩ := h'
    have key : ∀ e ∈ exampleFS, e.1.dropLast = [] ∨ (e.1.dropLast, Kind.dir) ∈ exampleFS := by decide
    have := key e he
    rw [hpe, List.dropLast_concat] at this
    exact this.resolve_left hp

/-- Nothing goes wrong. -/
def exampleEnv : Env := ⟨fun _ => false, fun _ => false, fun _ => false, 2⟩

/-- C123: the directory of the example can be deleted, and only it; the link "r/2" meets the hypotheses of
`C123_link_fails`; with a limit on the depth the example meets those of `C123_hang_fails`. -/
theorem C123_nonvacuous :
    (∃ t, Steps exampleEnv ["r", "1"] (init exampleFS ["r", "1"]) t ∧ t.phase = .returned ∧
      (["x", "f"], Kind.file) ∈ t.fs ∧ (["r", "1", "a"], Kind.file) ∉ t.fs) ∧
    (∃ s, Steps exampleEnv ["r", "2"] (init exampleFS ["r", "2"]) s ∧ s.phase = .raised ∧
      (["x", "f"], Kind.file) ∉ s.fs) ∧
    (∀ s, Steps { exampleEnv with fragile := fun p => decide (2 < p.length) } ["r", "1"] (init exampleFS ["r", "1"]) s →
      s.scanDone = false) ∧
    parallelThreads none false "" 64 = some 16 := by
  have hfree : ∀ p, Free exampleEnv p exampleFS := fun _ _ _ _ => ⟨rfl, fun _ => rfl⟩
  refine ⟨?_, ?_, ?_, by decide⟩
  · obtain ⟨t, h1, h2, h3⟩ := C123_deletes exampleTree (env := exampleEnv) (root := ["r", "1"]) (by decide)
      (fun _ => rfl) (by decide) (hfree _) (.refl _)
    refine ⟨t, h1, h2, (h3 _).mpr (by decide), fun h => ?_⟩
    exact absurd ((h3 _).mp h).2 (by decide)
  · obtain ⟨t, h1, h2⟩ := C123_can_finish exampleTree (env := exampleEnv) (root := ["r", "2"]) (by decide)
      (fun _ => rfl) (.refl _)
    obtain ⟨h3, h4⟩ := (C123_link_fails exampleTree (root := ["r", "2"]) (t := ["x"]) (by decide) (by decide)
      (hfree _)).1 t h1 h2
    refine ⟨t, h1, h3, fun h => ?_⟩
    rcases h4 _ h (by decide) with h | ⟨p, h, _⟩
    · cases h
    · cases h
  · intro s h
    exact (C123_hang_fails (q := ["r", "1", "d"]) exampleTree (by decide) (by decide) (by decide) (by decide)
      (fun _ _ => rfl) s h).2.2

end Verif.Deleter.Parallel
