import Verif.Manager.Metrics
import Verif.Policies.Props

/-!
# C102: checkpoints are ranked by the metrics they were saved with
-/

namespace Verif.Manager.MetricsProps

open Verif.Policies Verif.Policies.Props Verif.Manager.Metrics

/-! ### Specification -/

/-- What an object holds after some actions: the last value assigned to it. -/
def holds (heap : Nat → Int) (r : Nat) : List Act → Int
  | [] => heap r
  | .assign q x :: l => holds (fun t => if t = q then x else heap t) r l
  | _ :: l => holds heap r l

/-- The program gives a new object to every save, or at least does not change one it has given to a save. -/
def NotReused (acts : List Act) : Prop :=
  ∀ pre post r x, acts = pre ++ .assign r x :: post → ∀ step, Act.save step r ∉ pre

/-- In the course of the actions a checkpoint was saved (and not refused) when its metrics were `m`. -/
def SavedWith (cfg : Cfg) (heap : Nat → Int) (acts : List Act) (m : Int) : Prop :=
  ∃ pre post step r, acts = pre ++ .save step r :: post ∧ (∀ q, (step, q) ∉ (run cfg (init heap) pre).infos) ∧
    m = holds heap r pre

/-! ### Lemmas -/

theorem commit_heap (s : State) : (commit s).heap = s.heap := by
  unfold commit; split <;> rfl

theorem commit_infos (s : State) : (commit s).infos = s.infos := by
  unfold commit; split <;> rfl

theorem commit_pending (s : State) : (commit s).pending = none := by
  unfold commit; split
  · assumption
  · rfl

theorem commit_commit (s : State) : commit (commit s) = commit s := by
  have h := commit_pending s
  generalize commit s = t at h
  simp [commit, h]

theorem save_heap (cfg : Cfg) (s : State) (step : Int) (r : Nat) : (save cfg s step r).heap = s.heap := by
  unfold save; simp only; split <;> exact commit_heap s

theorem run_append (cfg : Cfg) (s : State) (a b : List Act) : run cfg s (a ++ b) = run cfg (run cfg s a) b := by
  simp [run, List.foldl_append]

theorem heap_holds (cfg : Cfg) (acts : List Act) (s : State) (r : Nat) : (run cfg s acts).heap r = holds s.heap r acts := by
  induction acts generalizing s with
  | nil => rfl
  | cons a l ih =>
    have hr : run cfg s (a :: l) = run cfg (exec cfg s a) l := rfl
    rw [hr, ih]
    cases a with
    | assign q x => rfl
    | save step q => simp only [exec, save_heap, holds]
    | commit => simp only [exec, commit_heap, holds]

/-- The objects the manager still refers to. -/
def Refers (s : State) (r : Nat) : Prop := (∃ i ∈ s.infos, i.2 = r) ∨ ∃ p, s.pending = some p ∧ p.ref = r

theorem toRemove_iff (cfg : Cfg) (heap : Nat → Int) (infos : List (Int × Nat)) (t : Int) :
    t ∈ toRemove cfg heap infos ↔ ∃ (i : Nat) (r : Nat), infos[i]? = some (t, r) ∧
      ¬ Kept (bestN cfg.reverse (some cfg.n) true (shown heap infos)) i := by
  have hl : (bestN cfg.reverse (some cfg.n) true (shown heap infos)).length = infos.length := by
    rw [(C05_few cfg.reverse true (shown heap infos)).2.2]; simp [shown]
  simp only [toRemove]
  generalize bestN cfg.reverse (some cfg.n) true (shown heap infos) = flags at hl
  rw [List.mem_filterMap]
  constructor
  · rintro ⟨⟨⟨a, r⟩, b⟩, hmem, h⟩
    obtain ⟨i, hi⟩ := List.mem_iff_getElem?.1 hmem
    obtain ⟨h1, h2⟩ := List.getElem?_zip_eq_some.1 hi
    cases b with
    | true => simp at h
    | false =>
      simp at h; subst h
      refine ⟨i, r, h1, ?_⟩
      simp only at h2
      simp [Kept, h2]
  · rintro ⟨i, r, h1, h2⟩
    have hi : i < flags.length := by rw [hl]; exact (List.getElem?_eq_some_iff.1 h1).1
    refine ⟨((t, r), flags[i]), List.mem_iff_getElem?.2 ⟨i, List.getElem?_zip_eq_some.2 ⟨h1, List.getElem?_eq_getElem hi⟩⟩, ?_⟩
    have : flags[i] = false := by
      cases hb : flags[i] with
      | false => rfl
      | true => exact absurd (show flags[i]? = some true by rw [List.getElem?_eq_getElem hi, hb]) h2
    simp [this]

/-- Some checkpoint that is kept is as good as a given one. -/
theorem kept_as_good (reverse : Bool) (n : Int) (hn : 0 < n) (cs : List Ckpt) (hm : ∀ c ∈ cs, c.metric.isSome)
    (j : Nat) (c : Ckpt) (m : Int) (hj : cs[j]? = some c) (hc : c.metric = some m) :
    ∃ i d m', cs[i]? = some d ∧ d.metric = some m' ∧ Kept (bestN reverse (some n) true cs) i ∧ ¬ Worse reverse m' m := by
  have hirr : ¬ Worse reverse m m := by unfold Worse; cases reverse <;> simp
  have hjl : j < cs.length := (List.getElem?_eq_some_iff.1 hj).1
  by_cases hk : Kept (bestN reverse (some n) true cs) j
  · exact ⟨j, c, m, hj, hc, hk, hirr⟩
  by_cases hlt : n < cs.length
  · have hcount := C05_count reverse n hn true cs hlt
    have hpos : 0 < min n.toNat ((cs.filter fun c => c.metric.isSome).length) := by
      have h1 : cs.filter (fun c => c.metric.isSome) = cs := List.filter_eq_self.2 fun c hc => hm c hc
      rw [h1]; omega
    rw [← hcount] at hpos
    obtain ⟨i, hi⟩ := List.exists_mem_of_length_pos hpos
    simp only [List.mem_filter, List.mem_range, Bool.and_eq_true, decide_eq_true_eq] at hi
    obtain ⟨hil, hki, _⟩ := hi
    have hd : cs[i]? = some cs[i] := List.getElem?_eq_getElem hil
    have hs := hm cs[i] (List.getElem_mem hil)
    obtain ⟨m', hm'⟩ := Option.isSome_iff_exists.1 hs
    exact ⟨i, cs[i], m', hd, hm', hki, (C05_kept_are_best reverse n hn true cs hlt i j cs[i] c m' m hd hj hm' hc hki hk).1⟩
  · exact absurd ((C05_few reverse true cs).1 n (by omega) j hjl) hk

theorem notWorse_trans (reverse : Bool) (a b c : Int) (h1 : ¬ Worse reverse a b) (h2 : ¬ Worse reverse b c) :
    ¬ Worse reverse a c := by
  unfold Worse at *; cases reverse <;> simp at * <;> omega

/-- What holds as long as no object is reused. -/
structure Inv (cfg : Cfg) (s : State) (past : List Act) (good : List Int) : Prop where
  same : (commit s).disk = listed s
  refers : ∀ r, Refers s r → ∃ step, Act.save step r ∈ past
  nodup : (s.infos.map (·.1)).Nodup
  best : 0 < cfg.n → ∀ m ∈ good, ∃ e ∈ listed s, ¬ Worse cfg.reverse e.2 m

/-- The values of the accepted saves. -/
def accepted (cfg : Cfg) (s : State) : Act → List Int
  | .save step r => if (s.infos.map (·.1)).contains step then [] else [s.heap r]
  | _ => []

theorem inv_exec (cfg : Cfg) (s : State) (past : List Act) (good : List Int) (a : Act) (h : Inv cfg s past good)
    (ha : ∀ r x, a = .assign r x → ∀ step, Act.save step r ∉ past) :
    Inv cfg (exec cfg s a) (past ++ [a]) (good ++ accepted cfg s a) := by
  cases a with
  | assign q x =>
    have hq : ∀ r, Refers s r → r ≠ q := by
      intro r hr e
      obtain ⟨step, hs⟩ := h.refers r hr
      exact ha q x rfl step (e ▸ hs)
    have hl : listed (exec cfg s (.assign q x)) = listed s := by
      simp only [listed, exec]
      apply List.map_congr_left
      intro i hi
      have := hq i.2 (.inl ⟨i, hi, rfl⟩)
      simp [this]
    refine ⟨?_, ?_, h.nodup, ?_⟩
    · rw [hl, ← h.same]
      simp only [exec, commit]
      cases hp : s.pending with
      | none => simp
      | some p =>
        have := hq p.ref (.inr ⟨p, hp, rfl⟩)
        simp [this]
    · intro r hr
      obtain ⟨step, hs⟩ := h.refers r hr
      exact ⟨step, List.mem_append_left _ hs⟩
    · intro hn m hm
      simp only [accepted, List.append_nil] at hm
      rw [hl]; exact h.best hn m hm
  | commit =>
    have hl : listed (commit s) = listed s := by simp only [listed, commit_heap, commit_infos]
    refine ⟨?_, ?_, ?_, ?_⟩
    · simp only [exec, commit_commit, hl]; exact h.same
    · intro r hr
      simp only [exec, Refers, commit_infos, commit_pending] at hr
      rcases hr with hr | ⟨p, hp, _⟩
      · obtain ⟨step, hs⟩ := h.refers r (.inl hr)
        exact ⟨step, List.mem_append_left _ hs⟩
      · cases hp
    · simp only [exec, commit_infos]; exact h.nodup
    · intro hn m hm
      simp only [accepted, List.append_nil] at hm
      simp only [exec, hl]; exact h.best hn m hm
  | save step q =>
    have hl : listed (commit s) = listed s := by simp only [listed, commit_heap, commit_infos]
    by_cases hin : (s.infos.map (·.1)).contains step = true
    · have he : exec cfg s (.save step q) = commit s := by simp only [exec, save, commit_infos, hin, if_true]
      refine ⟨?_, ?_, ?_, ?_⟩
      · rw [he, commit_commit, hl]; exact h.same
      · intro r hr
        simp only [he, Refers, commit_infos, commit_pending] at hr
        rcases hr with hr | ⟨p, hp, _⟩
        · obtain ⟨t, hs⟩ := h.refers r (.inl hr)
          exact ⟨t, List.mem_append_left _ hs⟩
        · cases hp
      · rw [he, commit_infos]; exact h.nodup
      · intro hn m hm
        simp only [accepted, hin, if_true, List.append_nil] at hm
        rw [he, hl]; exact h.best hn m hm
    · have hin' : (s.infos.map (·.1)).contains step = false := by simpa using hin
      have hnew : step ∉ s.infos.map (·.1) := by simpa using hin
      obtain ⟨L, hL⟩ : ∃ L, L = s.infos ++ [(step, q)] := ⟨_, rfl⟩
      obtain ⟨rm, hrm⟩ : ∃ rm, rm = toRemove cfg s.heap L := ⟨_, rfl⟩
      have he : exec cfg s (.save step q) =
          { commit s with infos := L.filter (fun i => !rm.contains i.1), pending := some ⟨step, q, rm⟩ } := by
        simp only [exec, save, commit_infos, commit_heap, hin', hL, hrm]
        rfl
      have hnd : (L.map (·.1)).Nodup := by
        rw [hL, List.map_append, List.nodup_append]
        refine ⟨h.nodup, by simp, ?_⟩
        intro a ha b hb e
        simp only [List.map_cons, List.map_nil, List.mem_singleton] at hb
        exact hnew (by rw [← hb, ← e]; exact ha)
      have hlist : listed (exec cfg s (.save step q)) =
          (L.filter fun i => !rm.contains i.1).map fun i => (i.1, s.heap i.2) := by
        rw [he]; simp only [listed, commit_heap]
      refine ⟨?_, ?_, ?_, ?_⟩
      · rw [hlist, he]
        have hc : (commit { commit s with infos := L.filter (fun i => !rm.contains i.1), pending := some ⟨step, q, rm⟩ }).disk =
            ((commit s).disk ++ [(step, (commit s).heap q)]).filter fun e => !rm.contains e.1 := rfl
        rw [hc, h.same, commit_heap, hL, listed]
        simp [List.filter_map, Function.comp_def, List.filter_append, List.filter_cons]
        split <;> rfl
      · intro r hr
        simp only [he, Refers] at hr
        rcases hr with ⟨i, hi, rfl⟩ | ⟨p, hp, rfl⟩
        · have hi' := (List.mem_filter.1 hi).1
          rw [hL] at hi'
          rcases List.mem_append.1 hi' with h1 | h1
          · obtain ⟨t, hs⟩ := h.refers i.2 (.inl ⟨i, h1, rfl⟩)
            exact ⟨t, List.mem_append_left _ hs⟩
          · rw [List.mem_singleton.1 h1]
            exact ⟨step, List.mem_append_right _ (List.mem_singleton.2 rfl)⟩
        · cases hp
          exact ⟨step, List.mem_append_right _ (List.mem_singleton.2 rfl)⟩
      · rw [he]
        exact hnd.sublist (List.filter_sublist.map _)
      · intro hn m hm
        rw [hlist]
        -- a member of `L` as good as `m`
        have hmem : ∃ i ∈ L, ¬ Worse cfg.reverse (s.heap i.2) m := by
          rcases List.mem_append.1 hm with hm | hm
          · obtain ⟨e, he', hw⟩ := h.best hn m hm
            obtain ⟨i, hi, rfl⟩ := List.mem_map.1 he'
            exact ⟨i, by rw [hL]; exact List.mem_append_left _ hi, hw⟩
          · simp only [accepted, hin', Bool.false_eq_true, if_false, List.mem_singleton] at hm
            refine ⟨(step, q), by rw [hL]; exact List.mem_append_right _ (List.mem_singleton.2 rfl), ?_⟩
            rw [hm]; unfold Worse; cases cfg.reverse <;> simp
        obtain ⟨i, hi, hw⟩ := hmem
        obtain ⟨j, hj⟩ := List.mem_iff_getElem?.1 hi
        have hc : (shown s.heap L)[j]? = some ⟨i.1, 0, some (s.heap i.2)⟩ := by simp [shown, hj]
        obtain ⟨k, d, m', h1, h2, h3, h4⟩ := kept_as_good cfg.reverse cfg.n hn (shown s.heap L)
          (by intro c hc; obtain ⟨x, _, rfl⟩ := List.mem_map.1 hc; rfl) j _ _ hc rfl
        simp only [shown, List.getElem?_map, Option.map_eq_some_iff] at h1
        obtain ⟨⟨t, r⟩, ht, rfl⟩ := h1
        simp only [Option.some.injEq] at h2
        have hout : t ∉ rm := by
          rw [hrm, toRemove_iff]
          rintro ⟨k', r', hk', hnk⟩
          have : k' = k := by
            have e1 : (L.map (·.1))[k']? = some t := by simp [hk']
            have e2 : (L.map (·.1))[k]? = some t := by simp [ht]
            have hlt : k' < (L.map (·.1)).length := (List.getElem?_eq_some_iff.1 e1).1
            exact (List.getElem?_inj hlt hnd).1 (e1.trans e2.symm)
          exact hnk (this ▸ h3)
        refine ⟨(t, s.heap r), List.mem_map.2 ⟨(t, r), List.mem_filter.2 ⟨List.mem_of_getElem? ht, by simpa using hout⟩, rfl⟩, ?_⟩
        simp only
        rw [h2]
        exact notWorse_trans _ _ _ _ h4 hw

/-- The values of the accepted saves of a run. -/
def allAccepted (cfg : Cfg) (s : State) : List Act → List Int
  | [] => []
  | a :: l => accepted cfg s a ++ allAccepted cfg (exec cfg s a) l

theorem inv_run (cfg : Cfg) (acts : List Act) (s : State) (past : List Act) (good : List Int) (h : Inv cfg s past good)
    (ha : ∀ pre post r x, acts = pre ++ .assign r x :: post → ∀ step, Act.save step r ∉ past ++ pre) :
    Inv cfg (run cfg s acts) (past ++ acts) (good ++ allAccepted cfg s acts) := by
  induction acts generalizing s past good with
  | nil => simpa [run, allAccepted] using h
  | cons a l ih =>
    have h1 := inv_exec cfg s past good a h (by
      intro r x e step hs
      exact ha [] l r x (by simp [e]) step (by simpa using hs))
    have := ih (exec cfg s a) (past ++ [a]) (good ++ accepted cfg s a) h1 (by
      intro pre post r x e step hs
      exact ha (a :: pre) post r x (by simp [e]) step (by simpa [List.append_assoc] using hs))
    simpa [run, allAccepted, List.append_assoc] using this

theorem mem_allAccepted (cfg : Cfg) (pre post : List Act) (s : State) (step : Int) (r : Nat)
    (h : ∀ q, (step, q) ∉ (run cfg s pre).infos) :
    (run cfg s pre).heap r ∈ allAccepted cfg s (pre ++ .save step r :: post) := by
  induction pre generalizing s with
  | nil =>
    have : (s.infos.map (·.1)).contains step = false := by
      rw [← Bool.not_eq_true, List.contains_iff_mem]
      intro hm
      obtain ⟨⟨t, q⟩, hi, e⟩ := List.mem_map.1 hm
      simp only at e; subst e
      exact h q hi
    simp only [List.nil_append, allAccepted, accepted, this, run, List.foldl_nil]
    exact List.mem_append_left _ (List.mem_singleton.2 rfl)
  | cons a l ih =>
    simp only [List.cons_append, allAccepted, List.mem_append]
    exact .inr (ih (exec cfg s a) h)

theorem inv_init (cfg : Cfg) (heap : Nat → Int) : Inv cfg (init heap) [] [] := by
  refine ⟨rfl, ?_, by simp [init], fun _ m hm => by cases hm⟩
  rintro r (⟨i, hi, _⟩ | ⟨p, hp, _⟩)
  · cases hi
  · cases hp

/-! ### Theorems -/

/-- C102 (part): after any program that does not change metrics it has given to a save, the checkpoints and metrics of
the manager are those a manager created anew reads. Missing: programs that keep one metrics dictionary and update it,
see `C102_reused_list_fails`. -/
theorem C102_list_partial (cfg : Cfg) (heap : Nat → Int) (acts : List Act) (h : NotReused acts)
    (hp : (run cfg (init heap) acts).pending = none) :
    listed (run cfg (init heap) acts) = reloaded (run cfg (init heap) acts) := by
  have hi := inv_run cfg acts (init heap) [] [] (inv_init cfg heap) (by simpa [NotReused] using h)
  have := hi.same
  simp only [commit, hp] at this
  exact this.symm

/-- C102 (part): after any program that does not change metrics it has given to a save, with `BestN(n)`, `n ≥ 1`, for
every checkpoint ever saved there is one in storage whose recorded metrics are as good as those it was saved with.
Missing: programs that keep one metrics dictionary and update it, see `C102_reused_deletes_best_fails`. -/
theorem C102_best_partial (cfg : Cfg) (hn : 1 ≤ cfg.n) (heap : Nat → Int) (acts : List Act) (h : NotReused acts)
    (hp : (run cfg (init heap) acts).pending = none) (m : Int) (hm : SavedWith cfg heap acts m) :
    ∃ e ∈ (run cfg (init heap) acts).disk, ¬ Worse cfg.reverse e.2 m := by
  have hi := inv_run cfg acts (init heap) [] [] (inv_init cfg heap) (by simpa [NotReused] using h)
  obtain ⟨pre, post, step, r, he, h1, h2⟩ := hm
  have hmem := mem_allAccepted cfg pre post (init heap) step r h1
  rw [← he, heap_holds] at hmem
  rw [h2]
  have := hi.same
  simp only [commit, hp] at this
  rw [this]
  exact hi.best (by omega) _ (by rw [List.nil_append]; exact hmem)

/-- C102 (finding): a program that keeps one metrics dictionary, updates it and passes it to every save. The manager
holds the dictionary, not its contents: after the update the manager believes that the first checkpoint has the new
value as well. Its storage says otherwise. -/
theorem C102_reused_list_fails (reverse : Bool) (heap : Nat → Int) (r : Nat) (a b : Int) (x y : Int) (hab : a ≠ b)
    (hxy : x ≠ y) :
    let s := run ⟨reverse, 2⟩ (init heap) [.assign r x, .save a r, .commit, .assign r y, .save b r, .commit]
    listed s = [(a, y), (b, y)] ∧ reloaded s = [(a, x), (b, y)] ∧ listed s ≠ reloaded s := by
  have hba : ¬ b = a := fun e => hab e.symm
  have hyx : ¬ y = x := fun e => hxy e.symm
  simp [run, exec, save, commit, init, toRemove, bestN, shown, Py.rep, listed, reloaded, hba, hyx]

/-- C102 (finding): with such a program and `BestN(1)` the best checkpoint is deleted and a worse one is kept: for any
two values, whichever is better. -/
theorem C102_reused_deletes_best_fails (reverse : Bool) (heap : Nat → Int) (r : Nat) (a b : Int) (x y : Int) (hab : a ≠ b)
    (hxy : Worse reverse y x) :
    let acts := [.assign r x, .save a r, .commit, .assign r y, .save b r, .commit]
    SavedWith ⟨reverse, 1⟩ heap acts x ∧ (run ⟨reverse, 1⟩ (init heap) acts).disk = [(b, y)] ∧
      ∀ e ∈ (run ⟨reverse, 1⟩ (init heap) acts).disk, Worse reverse e.2 x := by
  have hba : ¬ b = a := fun e => hab e.symm
  intro acts
  have hd : (run ⟨reverse, 1⟩ (init heap) acts).disk = [(b, y)] := by
    simp [acts, run, exec, save, commit, init, toRemove, bestN, shown, Py.rep, hba, withMetrics, withoutMetrics, Py.sliceFrom,
    List.mergeSort, List.MergeSort.Internal.splitInTwo, metricLe, List.zipIdx, List.range, List.range.loop]
  refine ⟨⟨[.assign r x], _, a, r, rfl, by simp [run, exec, init], by simp [holds]⟩, hd, ?_⟩
  rw [hd]; intro e he; rw [List.mem_singleton.1 he]; exact hxy

/-- C102 (finding): an asynchronous save records the metrics of the moment at which the thread writes them. -/
theorem C102_changed_in_flight_fails (cfg : Cfg) (hn : 1 ≤ cfg.n) (heap : Nat → Int) (r : Nat) (a : Int) (x y : Int) :
    (run cfg (init heap) [.assign r x, .save a r, .assign r y, .commit]).disk = [(a, y)] := by
  have h1 : (1 : Int) ≤ cfg.n := hn
  have : toRemove cfg (fun q => if q = r then x else heap q) [(a, r)] = [] := by
    simp [toRemove, bestN, shown, h1, Py.rep]
  simp [run, exec, save, commit, init, this]

/-- C102: a program with a new object for each of three saves: the best two are in storage, with their metrics. -/
theorem C102_nonvacuous :
    let acts : List Act := [.assign 0 5, .save 10 0, .assign 1 9, .commit, .save 20 1, .assign 2 7, .save 30 2, .commit]
    NotReused acts ∧ (run ⟨false, 2⟩ (init fun _ => 0) acts).disk = [(20, 9), (30, 7)] ∧
    (run ⟨false, 2⟩ (init fun _ => 0) acts).pending.isNone = true ∧ SavedWith ⟨false, 2⟩ (fun _ => 0) acts 5 := by
  refine ⟨?_, ?_, ?_, ?_⟩
  · intro pre post r x e step hs
    match pre, e with
    | [], _ => cases hs
    | [_], e => simp at e
    | [_, _], e => simp at e; obtain ⟨rfl, rfl, ⟨rfl, _⟩, _⟩ := e; simp at hs
    | [_, _, _], e => simp at e
    | [_, _, _, _], e => simp at e
    | [_, _, _, _, _], e => simp at e; obtain ⟨rfl, rfl, rfl, rfl, rfl, ⟨rfl, _⟩, _⟩ := e; simp at hs
    | [_, _, _, _, _, _], e => simp at e
    | [_, _, _, _, _, _, _], e => simp at e
    | _ :: _ :: _ :: _ :: _ :: _ :: _ :: _ :: _, e => simp at e
  · simp [run, exec, save, commit, init, toRemove, bestN, shown, Py.rep, withMetrics, withoutMetrics, Py.sliceFrom,
      List.mergeSort, List.MergeSort.Internal.splitInTwo, metricLe, List.zipIdx, List.range, List.range.loop]
  · rfl
  · exact ⟨[.assign 0 5], _, 10, 0, rfl, by simp [run, exec, init], rfl⟩

end Verif.Manager.MetricsProps
