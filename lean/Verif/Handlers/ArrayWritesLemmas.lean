import Verif.Handlers.ArrayWritesSpec
import Verif.Memory.BatchesProps

/-!
# Lemmas about saving arrays (C120)
-/

namespace Verif.Handlers.ArrayWrites

open Verif

variable {V : Type}

/-! ### Lemmas -/

theorem track_append (p : Param) (a b : List (Kind × Param)) : track p (a ++ b) = track p a ++ track p b := by
  simp [track]

theorem track_nil (p : Param) : track p [] = [] := rfl

theorem track_note (p : Param) (k : Kind) : ∀ (b : List Param), b.Nodup →
    track p (note k b) = if p ∈ b then [k] else []
  | [], _ => by simp [track, note]
  | q :: b, h => by
    have ih := track_note p k b (List.nodup_cons.mp h).2
    have hq := (List.nodup_cons.mp h).1
    have e : note k (q :: b) = [(k, q)] ++ note k b := rfl
    rw [e, track_append, ih]
    by_cases hpq : p = q
    · subst hpq
      simp [track, hq]
    · have hqp : ¬ q = p := fun e => hpq e.symm
      simp [track, hpq, hqp]

theorem split_ok (c : Cfg) : ∀ (l : List Param) (s s' : Split), split c l s = .ok s' →
    s'.sync = s.sync ++ l.filter (wantsSync c) ∧
    s'.asyncPrio = s.asyncPrio ++ l.filter (wantsPrio c) ∧
    s'.asyncDeprio = s.asyncDeprio ++ l.filter (wantsLate c)
  | [], s, s', h => by simp only [split, Except.ok.injEq] at h; subst h; simp
  | p :: l, s, s', h => by
    cases hm : c.maxBytes with
    | none =>
      simp only [split, hm] at h
      have ih := split_ok c l _ s' h
      simp [ih, wantsSync, wantsPrio, wantsLate, hm]
    | some n =>
      cases hp : c.priority p.name with
      | synchronous =>
        simp only [split, hm, hp] at h
        have ih := split_ok c l _ s' h
        simp [ih, wantsSync, wantsPrio, wantsLate, hm, hp]
      | asyncPrioritized =>
        simp only [split, hm, hp] at h
        have ih := split_ok c l _ s' h
        simp [ih, wantsSync, wantsPrio, wantsLate, hm, hp]
      | asyncDeprioritized =>
        simp only [split, hm, hp] at h
        have ih := split_ok c l _ s' h
        simp [ih, wantsSync, wantsPrio, wantsLate, hm, hp]
      | unknown => simp only [split, hm, hp] at h; cases h
      | other =>
        simp only [split, hm, hp] at h
        have ih := split_ok c l _ s' h
        simp [ih, wantsSync, wantsPrio, wantsLate, hm, hp]

theorem split_total (c : Cfg) : ∀ (l : List Param) (s : Split),
    (∃ s', split c l s = .ok s') ↔ (c.maxBytes = none ∨ ∀ p ∈ l, c.priority p.name ≠ .unknown)
  | [], s => by simp [split]
  | p :: l, s => by
    cases hm : c.maxBytes with
    | none =>
      simp only [split, hm]
      rw [split_total c l]
      simp [hm]
    | some n =>
      cases hp : c.priority p.name <;> simp only [split, hm, hp] <;>
        first
          | (rw [split_total c l]; simp [hm, hp])
          | simp [hp]

theorem checkSizes_total (c : Cfg) : ∀ (l : List Param),
    (∃ u, checkSizes c l = .ok u) ↔ (c.dispatcher = true ∨ ∀ p ∈ l, p.size ≠ 0)
  | [] => by simp [checkSizes]
  | p :: l => by
    simp only [checkSizes]
    have ih := checkSizes_total c l
    cases hd : c.dispatcher <;> by_cases hz : p.size = 0 <;> simp_all

theorem gather_total (c : Cfg) : ∀ (l : List Param) (ext),
    (∃ e, gather c l ext = .ok e) ↔ (c.processes ≤ 1 ∨ ∀ p ∈ l, p.hostLocal = false)
  | [], ext => by simp [gather]
  | p :: l, ext => by
    simp only [gather]
    by_cases h : c.processes > 1 ∧ p.hostLocal = true
    · simp only [h, and_self, if_true]
      have : ¬ c.processes ≤ 1 := by omega
      simp [this, h.2]
    · rw [if_neg h]
      have hx : c.processes ≤ 1 ∨ p.hostLocal = false := by
        by_cases h1 : c.processes ≤ 1
        · exact .inl h1
        · right; cases hl : p.hostLocal with
          | false => rfl
          | true => exact absurd ⟨by omega, hl⟩ h
      cases p.impl <;> simp only [] <;> rw [gather_total c l] <;> simp <;> grind

theorem gather_get (c : Cfg) : ∀ (l : List Param) (ext e : List (String × String)), gather c l ext = .ok e →
    (l.map Param.name).Nodup →
    (∀ p ∈ l, p.impl.isSome → Assoc.get e p.name = p.impl) ∧
    (∀ n, (∀ p ∈ l, p.impl.isSome → p.name ≠ n) → Assoc.get e n = Assoc.get ext n)
  | [], ext, e, h, _ => by simp only [gather, Except.ok.injEq] at h; subst h; simp
  | p :: l, ext, e, h, hnd => by
    simp only [List.map_cons, List.nodup_cons] at hnd
    simp only [gather] at h
    split at h
    · cases h
    · cases hi : p.impl with
      | none =>
        simp only [hi] at h
        obtain ⟨h1, h2⟩ := gather_get c l ext e h hnd.2
        constructor
        · intro q hq hs
          rcases List.mem_cons.mp hq with rfl | hq
          · simp [hi] at hs
          · exact h1 q hq hs
        · intro n hn
          exact h2 n fun q hq => hn q (List.mem_cons_of_mem _ hq)
      | some i =>
        simp only [hi] at h
        obtain ⟨h1, h2⟩ := gather_get c l _ e h hnd.2
        have hne : ∀ q ∈ l, q.name ≠ p.name := fun q hq e =>
          hnd.1 (e ▸ List.mem_map.mpr ⟨q, hq, rfl⟩)
        constructor
        · intro q hq hs
          rcases List.mem_cons.mp hq with rfl | hq
          · rw [h2 q.name fun r hr _ => hne r hr]; simp [hi]
          · exact h1 q hq hs
        · intro n hn
          rw [h2 n fun q hq => hn q (List.mem_cons_of_mem _ hq)]
          have := hn p (by simp) (by simp [hi])
          rw [Assoc.get_put, if_neg (fun e => this e.symm)]

theorem gather_ext (c : Cfg) (l : List Param) (e) (h : gather c l [] = .ok e) (hnd : (l.map Param.name).Nodup) :
    ∀ p ∈ l, Assoc.get e p.name = p.impl := by
  intro p hp
  obtain ⟨h1, h2⟩ := gather_get c l [] e h hnd
  cases hi : p.impl with
  | some i => rw [h1 p hp (by simp [hi]), hi]
  | none =>
    rw [h2 p.name]
    · rfl
    · intro q hq hs e
      have : q = p := by
        have := List.pairwise_map.mp hnd
        by_cases hqp : q = p
        · exact hqp
        · exfalso
          rcases List.mem_iff_append.mp hq with ⟨a, b, rfl⟩
          simp only [List.map_append, List.map_cons] at hnd
          rw [List.nodup_append] at hnd
          rcases List.mem_append.mp hp with hpa | hpb
          · exact hnd.2.2 p.name (List.mem_map.mpr ⟨p, hpa, rfl⟩) q.name (by simp) e.symm
          · rcases List.mem_cons.mp hpb with rfl | hpb
            · exact hqp rfl
            · exact (List.nodup_cons.mp hnd.2.1).1 (e ▸ List.mem_map.mpr ⟨p, hpb, rfl⟩)
      subst this
      simp [hi] at hs

/-- All batches in order: that of `serialize` itself, if any, and those of the background. -/
def batchesOf (c : Cfg) (params : List Param) : List (List Param) :=
  (if params.filter (wantsSync c) = [] then [] else [params.filter (wantsSync c)]) ++
    lateBatches c (params.filter (wantsPrio c) ++ params.filter (wantsLate c))

theorem lateBatches_flatten (c : Cfg) (l : List Param) (h : c.maxBytes ≠ none) :
    (lateBatches c l).flatten = l := by
  unfold lateBatches
  cases hm : c.maxBytes with
  | none => exact absurd hm h
  | some n =>
    simp only []
    cases hb : Memory.Batches.batches c.memory n (l.map fun p => (p.arr, p)) with
    | none =>
      have := (Memory.Batches.C31_total _ _ _).mp hb
      simp only [List.map_eq_nil_iff] at this
      simp [this]
    | some bs =>
      have h1 := Memory.Batches.C31_partition _ _ _ _ hb
      have : (bs.map fun b => b.map Prod.snd).flatten = bs.flatten.map Prod.snd := by
        rw [List.map_flatten]
      simp only []
      rw [this, h1, List.map_map]
      simp [Function.comp_def]

theorem batchesOf_flatten (c : Cfg) (params : List Param) : (batchesOf c params).flatten =
    params.filter (wantsSync c) ++ (params.filter (wantsPrio c) ++ params.filter (wantsLate c)) := by
  have h1 : (if params.filter (wantsSync c) = [] then [] else [params.filter (wantsSync c)]).flatten =
      params.filter (wantsSync c) := by
    by_cases h : params.filter (wantsSync c) = []
    · rw [if_pos h, h]; rfl
    · rw [if_neg h]; simp
  rw [batchesOf, List.flatten_append, h1]
  congr 1
  by_cases hm : c.maxBytes = none
  · have e1 : params.filter (wantsPrio c) = [] := by simp [wantsPrio, hm]
    have e2 : params.filter (wantsLate c) = [] := by simp [wantsLate, hm]
    simp [e1, e2, lateBatches, hm]
  · exact lateBatches_flatten c _ hm

theorem batchesOf_mem (c : Cfg) (params : List Param) (p : Param) :
    p ∈ (batchesOf c params).flatten ↔
      p ∈ params ∧ (wantsSync c p = true ∨ wantsPrio c p = true ∨ wantsLate c p = true) := by
  rw [batchesOf_flatten]
  simp only [List.mem_append, List.mem_filter]
  grind

theorem wants_excl (c : Cfg) (p : Param) :
    (wantsSync c p = true → wantsPrio c p = false ∧ wantsLate c p = false) ∧
    (wantsPrio c p = true → wantsLate c p = false) := by
  unfold wantsSync wantsPrio wantsLate
  cases c.maxBytes <;> cases c.priority p.name <;> simp

theorem batchesOf_nodup (c : Cfg) (params : List Param) (h : params.Nodup) :
    (batchesOf c params).flatten.Nodup := by
  rw [batchesOf_flatten, List.nodup_append, List.nodup_append]
  refine ⟨h.filter _, ⟨h.filter _, h.filter _, ?_⟩, ?_⟩
  · intro a ha b hb e
    subst e
    have := wants_excl c a
    grind
  · intro a ha b hb e
    subst e
    have := wants_excl c a
    grind

/-- With known priorities every array is in exactly one batch. -/
theorem batchesOf_perm (c : Cfg) (params : List Param)
    (hk : ∀ p ∈ params, wantsSync c p = true ∨ wantsPrio c p = true ∨ wantsLate c p = true) :
    (batchesOf c params).flatten.Perm params := by
  rw [batchesOf_flatten]
  induction params with
  | nil => simp
  | cons p l ih =>
    have ih := ih fun q hq => hk q (List.mem_cons_of_mem _ hq)
    have hp := hk p (by simp)
    obtain ⟨x1, x2⟩ := wants_excl c p
    rcases hp with h | h | h
    · simp only [List.filter_cons, h, x1 h, if_true, Bool.false_eq_true, if_false, List.cons_append]
      exact ih.cons p
    · have hs : wantsSync c p = false := by
        cases hs : wantsSync c p with
        | false => rfl
        | true => simp [x1 hs] at h
      simp only [List.filter_cons, h, hs, x2 h, if_true, Bool.false_eq_true, if_false, List.cons_append]
      exact List.perm_middle.trans (ih.cons p)
    · have hs : wantsSync c p = false := by
        cases hs : wantsSync c p with
        | false => rfl
        | true => simp [x1 hs] at h
      have hq : wantsPrio c p = false := by
        cases hq : wantsPrio c p with
        | false => rfl
        | true => simp [x2 hq] at h
      simp only [List.filter_cons, h, hs, hq, if_true, Bool.false_eq_true, if_false]
      rw [← List.append_assoc]
      refine List.perm_middle.trans (List.Perm.cons p ?_)
      rw [List.append_assoc]; exact ih

/-- What can have happened to an array of the current batch.  `d`: there is a dispatcher, `f`: it is in the
batch of `serialize` itself. -/
def parts (d f : Bool) : Bool → Work → List (List Kind)
  | false, .moving => if d then [[.enqueued]] else []
  | false, .arrived => [[.enqueued, .arrived]]
  | false, .wrote => if d then [[.enqueued, .arrived, .written]] else []
  | false, .broken => if d then [[.enqueued, .arrived], [.enqueued, .arrived, .written]] else []
  | true, .moving => if d && !f then [[.enqueued, .transferEnd]] else []
  | true, .arrived => [.enqueued, .arrived, .transferEnd] ::
      (if d && !f then [[.enqueued, .transferEnd, .arrived]] else [])
  | true, .wrote => [.enqueued, .arrived, .transferEnd, .written] ::
      ((if d then [[.enqueued, .arrived, .written, .transferEnd]] else []) ++
       (if d && !f then [[.enqueued, .transferEnd, .arrived, .written]] else []))
  | true, .broken => [.enqueued, .arrived, .transferEnd, .written] :: [.enqueued, .arrived, .transferEnd] ::
      ((if d then [[.enqueued, .arrived, .written, .transferEnd]] else []) ++
       (if d && !f then [[.enqueued, .transferEnd, .arrived, .written], [.enqueued, .transferEnd, .arrived]]
        else []))

def key (ext : List (String × String)) (p : Param) : String × Nat × Option String :=
  (p.name, p.arg, Assoc.get ext p.name)

def Entry.key (e : Entry V) : String × Nat × Option String := (e.name, e.arg, e.ext)

theorem entry_key (ext : List (String × String)) (vs : List (Param × V)) :
    (vs.map (entry ext)).map Entry.key = (vs.map Prod.fst).map (key ext) := by
  simp [Function.comp_def, entry, Entry.key, key]

theorem fst_capture (d : Nat → V) (b : List Param) : (capture d b).map Prod.fst = b := by
  simp [capture, Function.comp_def]

/-- The arrays of the finished batches. -/
def Finished (c : Cfg) (log : List (Kind × Param)) (l : List Param) : Prop :=
  ∀ p ∈ l, ∃ t ∈ parts c.dispatcher (wantsSync c p) true .wrote, track p log = t ++ [.writeEnd]

inductive Inv (c : Cfg) (Bs : List (List Param)) (s : State V) : Prop
  | head (done : List (List Param)) (hpc : s.pc = .head) (hall : Bs = done ++ s.todo)
    (hdisk : s.disk.map Entry.key = done.flatten.map (key s.ext))
    (hmeta : s.metas = done.flatten.map (metaOf s.ext))
    (hdone : Finished c s.log done.flatten)
    (hrest : ∀ p, p ∉ done.flatten → track p s.log = []) : Inv c Bs s
  | run (done : List (List Param)) (vs : List (Param × V)) (f t : Bool) (w : Work)
    (hpc : s.pc = .run vs f t w) (hall : Bs = done ++ vs.map Prod.fst :: s.todo)
    (hfirst : ∀ p ∈ vs.map Prod.fst, wantsSync c p = f)
    (keep : Param → Bool) (hkeep : (w = .moving ∨ w = .arrived → ∀ p, keep p = false) ∧
      (w = .wrote → ∀ p, keep p = true) ∧ (c.transaction = true → w = .broken → ∀ p, keep p = false))
    (hdisk : s.disk.map Entry.key = (done.flatten ++ (vs.map Prod.fst).filter keep).map (key s.ext))
    (hmeta : (w = .moving ∨ w = .arrived → s.metas = done.flatten.map (metaOf s.ext)) ∧
      (w = .wrote → s.metas = (done.flatten ++ vs.map Prod.fst).map (metaOf s.ext)))
    (hdone : Finished c s.log done.flatten)
    (hcur : ∀ p ∈ vs.map Prod.fst, track p s.log ∈ parts c.dispatcher f t w)
    (hrest : ∀ p, p ∉ done.flatten → p ∉ vs.map Prod.fst → track p s.log = []) : Inv c Bs s
  | failed (done : List (List Param)) (b : List Param) (f : Bool)
    (hpc : s.pc = .failed) (hall : Bs = done ++ b :: s.todo)
    (hfirst : ∀ p ∈ b, wantsSync c p = f)
    (keep : Param → Bool) (hkeep : c.transaction = true → ∀ p, keep p = false)
    (hdisk : s.disk.map Entry.key = (done.flatten ++ b.filter keep).map (key s.ext))
    (hdone : Finished c s.log done.flatten)
    (hcur : ∀ p ∈ b, track p s.log ∈ parts c.dispatcher f true .broken)
    (hrest : ∀ p, p ∉ done.flatten → p ∉ b → track p s.log = []) : Inv c Bs s

theorem parts_tell {d f : Bool} {w : Work} {x : List Kind} (hw : f = true → w ≠ .moving)
    (h : x ∈ parts d f false w) : x ++ [.transferEnd] ∈ parts d f true w := by
  cases d <;> cases f <;> cases w <;> simp [parts] at hw h ⊢ <;>
    first
      | (rcases h with e | e <;> simp [e])
      | simp [h]

theorem finished_append {c : Cfg} {log : List (Kind × Param)} {l b : List Param} {k : Kind}
    (h : Finished c log l) (hb : b.Nodup) (hd : ∀ p ∈ l, p ∉ b) : Finished c (log ++ note k b) l := by
  intro p hp
  obtain ⟨t, ht, e⟩ := h p hp
  refine ⟨t, ht, ?_⟩
  rw [track_append, e, track_note p k b hb, if_neg (hd p hp)]
  simp

theorem filter_false {α : Type} (l : List α) (keep : α → Bool) (h : ∀ p, keep p = false) :
    l.filter keep = [] := by
  induction l with
  | nil => rfl
  | cons a l ih => simp [h a, ih]

theorem filter_true' {α : Type} (l : List α) (keep : α → Bool) (h : ∀ p, keep p = true) :
    l.filter keep = l := by
  induction l with
  | nil => rfl
  | cons a l ih => simp [h a, ih]

theorem nodup_parts {Bs done rest : List (List Param)} {b : List Param} (hnd : Bs.flatten.Nodup)
    (hall : Bs = done ++ b :: rest) :
    b.Nodup ∧ (∀ p ∈ done.flatten, p ∉ b) ∧ (∀ p ∈ done.flatten, p ∉ rest.flatten) ∧
      ∀ p ∈ b, p ∉ rest.flatten := by
  subst hall
  rw [List.flatten_append, List.flatten_cons, List.nodup_append, List.nodup_append] at hnd
  obtain ⟨_, ⟨h2, _, h4⟩, h5⟩ := hnd
  refine ⟨h2, fun p hp hb => h5 p hp p (by simp [hb]) rfl, fun p hp hb => h5 p hp p (List.mem_append_right _ hb) rfl,
    fun p hp hb => h4 p hp p hb rfl⟩

theorem map_fst_filter (vs : List (Param × V)) (keep : Param → Bool) :
    (vs.filter fun v => keep v.1).map Prod.fst = (vs.map Prod.fst).filter keep := by
  induction vs with
  | nil => rfl
  | cons v vs ih =>
    by_cases h : keep v.1 = true
    · simp [h, ih]
    · simp [h, ih]

theorem inv_step {c : Cfg} {Bs : List (List Param)} (hnd : Bs.flatten.Nodup)
    {s s' : State V} (hlate : ∀ p ∈ s.todo.flatten, wantsSync c p = false)
    (h : Inv c Bs s) (hs : Step c s s') : Inv c Bs s' := by
  cases hs with
  | @next b rest hpc' htodo =>
    cases h with
    | run _ _ _ _ _ hpc => rw [hpc] at hpc'; cases hpc'
    | failed _ _ _ hpc => rw [hpc] at hpc'; cases hpc'
    | head done hpc hall hdisk hmeta hdone hrest =>
      rw [htodo] at hall
      obtain ⟨hb, hdb, _, hbr⟩ := nodup_parts hnd hall
      have hf : ∀ p ∈ b, wantsSync c p = false := fun p hp =>
        hlate p (by rw [htodo]; simp [hp])
      refine .run done (capture s.device b) false false _ rfl (by rw [fst_capture]; exact hall)
        (by rw [fst_capture]; exact hf) (fun _ => false)
        ⟨fun _ _ => rfl, fun e => by cases hd : c.dispatcher <;> simp [hd] at e, fun _ _ _ => rfl⟩ ?_ ?_ ?_ ?_ ?_
      · simp only [filter_false _ _ (fun _ => rfl), List.append_nil]; exact hdisk
      · refine ⟨fun _ => hmeta, fun e => by cases hd : c.dispatcher <;> simp [hd] at e⟩
      · cases hd : c.dispatcher
        · simp only [Bool.false_eq_true, if_false]
          exact finished_append (finished_append hdone hb hdb) hb hdb
        · simp only [if_true, List.append_nil]
          exact finished_append hdone hb hdb
      · rw [fst_capture]
        intro p hp
        have hp' : p ∉ done.flatten := fun h => hdb p h hp
        cases hd : c.dispatcher
        · simp [track_append, hrest p hp', track_note p _ b hb, hp, parts]
        · simp [track_append, hrest p hp', track_note p _ b hb, hp, parts]
      · rw [fst_capture]
        intro p hp hpb
        cases hd : c.dispatcher
        · simp [track_append, hrest p hp, track_note p _ b hb, hpb]
        · simp [track_append, hrest p hp, track_note p _ b hb, hpb]
  | @arrive vs f t hpc' =>
    cases h with
    | head _ hpc => rw [hpc] at hpc'; cases hpc'
    | failed _ _ _ hpc => rw [hpc] at hpc'; cases hpc'
    | run done vs' f' t' w' hpc hall hfirst keep hkeep hdisk hmeta hdone hcur hrest =>
      rw [hpc] at hpc'; cases hpc'
      obtain ⟨hb, hdb, _, hbr⟩ := nodup_parts hnd hall
      refine .run done vs f t _ rfl hall hfirst keep
        ⟨fun _ => hkeep.1 (.inl rfl), fun e => (by cases e), fun _ e => by cases e⟩ hdisk
        ⟨fun _ => hmeta.1 (.inl rfl), fun e => by cases e⟩ (finished_append hdone hb hdb) ?_ ?_
      · intro p hp
        have := hcur p hp
        simp only [track_append, track_note p _ _ hb, if_pos hp]
        revert this
        cases hd : c.dispatcher <;> cases f <;> cases t <;> simp [parts] <;> intro e <;> simp [e]
      · intro p hp hpb
        simp only [track_append, track_note p _ _ hb, if_neg hpb, hrest p hp hpb, List.append_nil]
  | @tell vs f w hpc' hw =>
    cases h with
    | head _ hpc => rw [hpc] at hpc'; cases hpc'
    | failed _ _ _ hpc => rw [hpc] at hpc'; cases hpc'
    | run done vs' f' t' w' hpc hall hfirst keep hkeep hdisk hmeta hdone hcur hrest =>
      rw [hpc] at hpc'; cases hpc'
      obtain ⟨hb, hdb, _, hbr⟩ := nodup_parts hnd hall
      refine .run done vs f true w rfl hall hfirst keep hkeep hdisk hmeta (finished_append hdone hb hdb) ?_ ?_
      · intro p hp
        have := hcur p hp
        simp only [track_append, track_note p _ _ hb, if_pos hp]
        exact parts_tell hw this
      · intro p hp hpb
        simp only [track_append, track_note p _ _ hb, if_neg hpb, hrest p hp hpb, List.append_nil]
  | @write vs f t hpc' ht =>
    cases h with
    | head _ hpc => rw [hpc] at hpc'; cases hpc'
    | failed _ _ _ hpc => rw [hpc] at hpc'; cases hpc'
    | run done vs' f' t' w' hpc hall hfirst keep hkeep hdisk hmeta hdone hcur hrest =>
      rw [hpc] at hpc'; cases hpc'
      obtain ⟨hb, hdb, _, hbr⟩ := nodup_parts hnd hall
      refine .run done vs f t _ rfl hall hfirst (fun _ => true)
        ⟨fun e => (by simp at e), fun _ _ => rfl, fun _ e => by cases e⟩ ?_
        ⟨fun e => (by simp at e), fun _ => ?_⟩ (finished_append hdone hb hdb) ?_ ?_
      · simp only [List.map_append, entry_key, hdisk, filter_true' _ _ (fun _ => rfl),
          filter_false _ _ (hkeep.1 (.inr rfl)), List.map_nil, List.append_nil]
      · simp only [hmeta.1 (.inr rfl), List.map_append]
      · intro p hp
        have := hcur p hp
        simp only [track_append, track_note p _ _ hb, if_pos hp]
        revert this
        cases hd : c.dispatcher <;> cases f <;> cases t <;> simp [parts, hd] at ht ⊢ <;> grind
      · intro p hp hpb
        simp only [track_append, track_note p _ _ hb, if_neg hpb, hrest p hp hpb, List.append_nil]
  | @writeFail vs f t keep' withMeta hpc' ht hk =>
    cases h with
    | head _ hpc => rw [hpc] at hpc'; cases hpc'
    | failed _ _ _ hpc => rw [hpc] at hpc'; cases hpc'
    | run done vs' f' t' w' hpc hall hfirst keep hkeep hdisk hmeta hdone hcur hrest =>
      rw [hpc] at hpc'; cases hpc'
      obtain ⟨hb, hdb, _, hbr⟩ := nodup_parts hnd hall
      have hbf : ((vs.map Prod.fst).filter keep').Nodup := hb.filter _
      refine .run done vs f t _ rfl hall hfirst keep'
        ⟨fun e => (by simp at e), fun e => (by cases e), fun h _ => hk h⟩ ?_
        ⟨fun e => (by simp at e), fun e => by cases e⟩
        (finished_append hdone hbf fun p hp hb => hdb p hp (List.mem_filter.mp hb).1) ?_ ?_
      · simp only [List.map_append, entry_key, hdisk, map_fst_filter,
          filter_false _ _ (hkeep.1 (.inr rfl)), List.map_nil, List.append_nil]
      · intro p hp
        have := hcur p hp
        simp only [track_append, track_note p _ _ hbf]
        revert this
        by_cases hkp : keep' p = true
        · rw [if_pos (List.mem_filter.mpr ⟨hp, hkp⟩)]
          cases hd : c.dispatcher <;> cases f <;> cases t <;> simp [parts, hd] at ht ⊢ <;> grind
        · rw [if_neg (fun h => hkp (List.mem_filter.mp h).2), List.append_nil]
          cases hd : c.dispatcher <;> cases f <;> cases t <;> simp [parts, hd] at ht ⊢ <;> grind
      · intro p hp hpb
        simp only [track_append, track_note p _ _ hbf, hrest p hp hpb]
        rw [if_neg fun h => hpb (List.mem_filter.mp h).1]; rfl
  | @finish vs f hpc' =>
    cases h with
    | head _ hpc => rw [hpc] at hpc'; cases hpc'
    | failed _ _ _ hpc => rw [hpc] at hpc'; cases hpc'
    | run done vs' f' t' w' hpc hall hfirst keep hkeep hdisk hmeta hdone hcur hrest =>
      rw [hpc] at hpc'; cases hpc'
      obtain ⟨hb, hdb, _, hbr⟩ := nodup_parts hnd hall
      have hfl : (done ++ [vs.map Prod.fst]).flatten = done.flatten ++ vs.map Prod.fst := by simp
      refine .head (done ++ [vs.map Prod.fst]) rfl (by simp [hall]) ?_ ?_ ?_ ?_
      · simp only [hfl, hdisk, filter_true' _ _ (hkeep.2.1 rfl)]
      · simp only [hfl, hmeta.2 rfl]
      · rw [hfl]
        intro p hp
        rcases List.mem_append.mp hp with hp | hp
        · exact finished_append hdone hb hdb p hp
        · exact ⟨track p s.log, by rw [hfirst p hp]; exact hcur p hp,
            by simp only [track_append, track_note p _ _ hb, if_pos hp]⟩
      · intro p hp
        rw [hfl, List.mem_append] at hp
        have h1 : p ∉ done.flatten := fun h => hp (.inl h)
        have h2 : p ∉ vs.map Prod.fst := fun h => hp (.inr h)
        simp only [track_append, track_note p _ _ hb, if_neg h2, hrest p h1 h2, List.append_nil]
  | @raise vs f hpc' =>
    cases h with
    | head _ hpc => rw [hpc] at hpc'; cases hpc'
    | failed _ _ _ hpc => rw [hpc] at hpc'; cases hpc'
    | run done vs' f' t' w' hpc hall hfirst keep hkeep hdisk hmeta hdone hcur hrest =>
      rw [hpc] at hpc'; cases hpc'
      exact .failed done (vs.map Prod.fst) f rfl hall hfirst keep (fun h => hkeep.2.2 h rfl) hdisk hdone hcur hrest

theorem inv_caller {c : Cfg} {Bs : List (List Param)} {s : State V} (d : Nat → V) (h : Inv c Bs s) :
    Inv c Bs { s with device := d } := by
  cases h with
  | head done a b c d e f => exact .head done a b c d e f
  | run done vs f t w a b c k d e g h i j => exact .run done vs f t w a b c k d e g h i j
  | failed done b f a c d k e g h i j => exact .failed done b f a c d k e g h i j

theorem step_todo {c : Cfg} {s s' : State V} (h : Step c s s') : ∃ l, s.todo = l ++ s'.todo := by
  cases h with
  | @next b rest _ h => exact ⟨[b], h⟩
  | _ => exact ⟨[], rfl⟩

theorem step_ext {c : Cfg} {s s' : State V} (h : Step c s s') : s'.ext = s.ext := by
  cases h <;> rfl

end Verif.Handlers.ArrayWrites
