import Verif.Handlers.ArrayWritesLemmas

/-!
# Properties of saving arrays (C120)
-/

namespace Verif.Handlers.ArrayWrites

open Verif

variable {V : Type}

/-! ### Lemmas -/

theorem start_ok {c : Cfg} {params : List Param} {d : Nat → V} {s : State V} (h : start c params d = .ok s) :
    gather c params [] = .ok s.ext ∧ s.device = d ∧ s.disk = [] ∧ s.metas = [] ∧
    s.todo = lateBatches c (params.filter (wantsPrio c) ++ params.filter (wantsLate c)) ∧
    ((params.filter (wantsSync c) = [] ∧ s.pc = .head ∧ s.log = []) ∨
     (params.filter (wantsSync c) ≠ [] ∧ c.dispatcher = true ∧
      s.pc = .run (capture d (params.filter (wantsSync c))) true false .moving ∧
      s.log = note .enqueued (params.filter (wantsSync c))) ∨
     (params.filter (wantsSync c) ≠ [] ∧ c.dispatcher = false ∧
      s.pc = .run (capture d (params.filter (wantsSync c))) true true .arrived ∧
      s.log = note .enqueued (params.filter (wantsSync c)) ++ note .arrived (params.filter (wantsSync c)) ++
        note .transferEnd (params.filter (wantsSync c)))) := by
  unfold start at h
  split at h
  · cases h
  · split at h
    · cases h
    · next ext hext =>
      split at h
      · cases h
      · next sp hsp =>
        obtain ⟨h1, h2, h3⟩ := split_ok c params _ sp hsp
        simp only [List.nil_append] at h1 h2 h3
        simp only [h1, h2, h3] at h
        split at h
        · next he => cases h; exact ⟨hext, rfl, rfl, rfl, rfl, .inl ⟨he, rfl, rfl⟩⟩
        · next he =>
          split at h
          · next hd => cases h; exact ⟨hext, rfl, rfl, rfl, rfl, .inr (.inl ⟨he, hd, rfl, rfl⟩)⟩
          · next hd =>
            cases h
            exact ⟨hext, rfl, rfl, rfl, rfl, .inr (.inr ⟨he, by simpa using hd, rfl, rfl⟩)⟩

theorem late_mem {c : Cfg} {params : List Param} {p : Param}
    (h : p ∈ (lateBatches c (params.filter (wantsPrio c) ++ params.filter (wantsLate c))).flatten) :
    p ∈ params ∧ (wantsPrio c p = true ∨ wantsLate c p = true) := by
  by_cases hm : c.maxBytes = none
  · simp [lateBatches, hm] at h
  · rw [lateBatches_flatten c _ hm] at h
    simp only [List.mem_append, List.mem_filter] at h
    grind

theorem late_not_sync {c : Cfg} {p : Param} (h : wantsPrio c p = true ∨ wantsLate c p = true) :
    wantsSync c p = false := by
  have := (wants_excl c p).1
  cases hs : wantsSync c p with
  | false => rfl
  | true => have := this hs; grind

theorem start_inv {c : Cfg} {params : List Param} {d : Nat → V} {s : State V} (hnd : params.Nodup)
    (h : start c params d = .ok s) : Inv c (batchesOf c params) s := by
  obtain ⟨_, _, hdisk, hmeta, htodo, hrest⟩ := start_ok h
  have hb : (params.filter (wantsSync c)).Nodup := hnd.filter _
  rcases hrest with ⟨he, hpc, hlog⟩ | ⟨he, hd, hpc, hlog⟩ | ⟨he, hd, hpc, hlog⟩
  · refine .head [] hpc ?_ (by simp [hdisk]) (by simp [hmeta]) (fun p hp => by simp at hp)
      (fun p _ => by simp [hlog, track])
    rw [batchesOf, if_pos he, htodo]
  · refine .run [] _ _ _ _ hpc ?_ ?_ (fun _ => false) ⟨fun _ _ => rfl, nofun, fun _ _ _ => rfl⟩ ?_
      ⟨fun _ => by simp [hmeta], nofun⟩ (fun p hp => by simp at hp) ?_ ?_
    · rw [batchesOf, if_neg he, htodo, fst_capture]; rfl
    · rw [fst_capture]; intro p hp; exact (List.mem_filter.mp hp).2
    · simp [hdisk]
    · rw [fst_capture]; intro p hp
      rw [hlog, track_note p _ _ hb, if_pos hp, hd]; simp [parts]
    · rw [fst_capture]; intro p _ hp
      rw [hlog, track_note p _ _ hb, if_neg hp]
  · refine .run [] _ _ _ _ hpc ?_ ?_ (fun _ => false) ⟨fun _ _ => rfl, nofun, fun _ _ _ => rfl⟩ ?_
      ⟨fun _ => by simp [hmeta], nofun⟩ (fun p hp => by simp at hp) ?_ ?_
    · rw [batchesOf, if_neg he, htodo, fst_capture]; rfl
    · rw [fst_capture]; intro p hp; exact (List.mem_filter.mp hp).2
    · simp [hdisk]
    · rw [fst_capture]; intro p hp
      simp only [hlog, track_append, track_note p _ _ hb, if_pos hp, hd]; simp [parts]
    · rw [fst_capture]; intro p _ hp
      simp only [hlog, track_append, track_note p _ _ hb, if_neg hp]; rfl

theorem reach_inv {c : Cfg} {params : List Param} {d : Nat → V} {s0 s : State V} {ok} (hnd : params.Nodup)
    (h0 : start c params d = .ok s0) (h : Reach c ok s0 s) :
    Inv c (batchesOf c params) s ∧
      (∀ p ∈ s.todo.flatten, p ∈ params ∧ (wantsPrio c p = true ∨ wantsLate c p = true)) ∧ s.ext = s0.ext := by
  induction h with
  | refl =>
    refine ⟨start_inv hnd h0, fun p hp => ?_, rfl⟩
    rw [(start_ok h0).2.2.2.2.1] at hp
    exact late_mem hp
  | step _ hs ih =>
    refine ⟨inv_step (batchesOf_nodup c params hnd) (fun p hp => late_not_sync (ih.2.1 p hp).2) ih.1 hs, ?_, ?_⟩
    · intro p hp
      obtain ⟨l, hl⟩ := step_todo hs
      exact ih.2.1 p (by rw [hl]; simp only [List.flatten_append]; exact List.mem_append_right _ hp)
    · rw [step_ext hs, ih.2.2]
  | caller _ _ ih => exact ⟨inv_caller _ ih.1, ih.2.1, ih.2.2⟩

theorem nodup_of_names {params : List Param} (h : (params.map Param.name).Nodup) : params.Nodup := by
  induction params with
  | nil => exact List.nodup_nil
  | cons p l ih =>
    simp only [List.map_cons, List.nodup_cons] at h
    refine List.nodup_cons.mpr ⟨fun hp => h.1 (List.mem_map.mpr ⟨p, hp, rfl⟩), ih h.2⟩

theorem eq_of_name : ∀ {params : List Param}, (params.map Param.name).Nodup → ∀ {p q : Param}, p ∈ params →
    q ∈ params → p.name = q.name → p = q
  | [], _, _, _, hp, _, _ => by cases hp
  | r :: l, h, p, q, hp, hq, e => by
    simp only [List.map_cons, List.nodup_cons] at h
    rcases List.mem_cons.mp hp with e1 | hp1 <;> rcases List.mem_cons.mp hq with e2 | hq1
    · rw [e1, e2]
    · exact absurd (List.mem_map.mpr ⟨q, hq1, by rw [← e1, e]⟩) h.1
    · exact absurd (List.mem_map.mpr ⟨p, hp1, by rw [← e2, e]⟩) h.1
    · exact eq_of_name h.2 hp1 hq1 e

theorem inv_cur {c : Cfg} {Bs : List (List Param)} {s : State V} {vs f t w} (h : Inv c Bs s)
    (hpc : s.pc = .run vs f t w) : ∀ p ∈ vs.map Prod.fst, p ∈ Bs.flatten := by
  cases h with
  | head _ h' => rw [h'] at hpc; cases hpc
  | failed _ _ _ h' => rw [h'] at hpc; cases hpc
  | run done vs' f' t' w' h' hall =>
    rw [h'] at hpc; cases hpc
    intro p hp
    rw [hall]
    simp only [List.flatten_append, List.flatten_cons, List.mem_append]
    exact .inr (.inl hp)

theorem inv_todo {c : Cfg} {Bs : List (List Param)} (hnd : Bs.flatten.Nodup) {s : State V} (h : Inv c Bs s) :
    ∀ p ∈ s.todo.flatten, track p s.log = [] := by
  intro p hp
  cases h with
  | head done _ hall _ _ _ hrest =>
    refine hrest p fun hd => ?_
    subst hall
    rw [List.flatten_append, List.nodup_append] at hnd
    exact hnd.2.2 p hd p hp rfl
  | run done vs f t w _ hall _ _ _ _ _ _ _ hrest =>
    obtain ⟨_, _, h3, h4⟩ := nodup_parts hnd hall
    exact hrest p (fun hd => h3 p hd hp) fun hb => h4 p hb hp
  | failed done b f _ hall _ _ _ _ _ _ hrest =>
    obtain ⟨_, _, h3, h4⟩ := nodup_parts hnd hall
    exact hrest p (fun hd => h3 p hd hp) fun hb => h4 p hb hp

/-- The values taken for `p`, written for it or still to be taken are `v0`. -/
structure Keeps (p : Param) (v0 : V) (s : State V) : Prop where
  todo : p ∈ s.todo.flatten → s.device p.cell = v0
  cur : ∀ vs f t w, s.pc = .run vs f t w → ∀ v, (p, v) ∈ vs → v = v0
  disk : ∀ e ∈ s.disk, e.name = p.name → e.value = v0

theorem keeps_entries {p : Param} {v0 : V} {ext : List (String × String)} {vs : List (Param × V)}
    (hv : ∀ v, (p, v) ∈ vs → v = v0) (hn : ∀ q ∈ vs.map Prod.fst, q.name = p.name → q = p) :
    ∀ e ∈ vs.map (entry ext), e.name = p.name → e.value = v0 := by
  intro e he hname
  obtain ⟨⟨q, v⟩, hqv, rfl⟩ := List.mem_map.mp he
  have : q = p := hn q (List.mem_map.mpr ⟨_, hqv, rfl⟩) hname
  subst this
  exact hv v hqv

theorem keeps_step {c : Cfg} {p : Param} {v0 : V} {s s' : State V}
    (hn : ∀ vs f t w, s.pc = .run vs f t w → ∀ q ∈ vs.map Prod.fst, q.name = p.name → q = p)
    (h : Keeps p v0 s) (hs : Step c s s') : Keeps p v0 s' := by
  cases hs with
  | @next b rest hpc htodo =>
    have hb : ∀ v, (p, v) ∈ capture s.device b → v = v0 := by
      intro v hv
      obtain ⟨q, hq, e⟩ := List.mem_map.mp hv
      cases e
      exact h.todo (by rw [htodo]; simp [hq])
    refine ⟨fun hp => h.todo (by rw [htodo]; simp only [List.flatten_cons]; exact List.mem_append_right _ hp), ?_,
      h.disk⟩
    intro vs f t w e v hv
    cases e
    exact hb v hv
  | @arrive vs f t hpc =>
    exact ⟨h.todo, fun vs' f' t' w' e v hv => by cases e; exact h.cur _ _ _ _ hpc v hv, h.disk⟩
  | @tell vs f w hpc _ =>
    exact ⟨h.todo, fun vs' f' t' w' e v hv => by cases e; exact h.cur _ _ _ _ hpc v hv, h.disk⟩
  | @write vs f t hpc _ =>
    refine ⟨h.todo, fun vs' f' t' w' e v hv => by cases e; exact h.cur _ _ _ _ hpc v hv, ?_⟩
    intro e he
    rcases List.mem_append.mp he with he | he
    · exact h.disk e he
    · exact keeps_entries (h.cur _ _ _ _ hpc) (hn _ _ _ _ hpc) e he
  | @writeFail vs f t keep wm hpc _ _ =>
    refine ⟨h.todo, fun vs' f' t' w' e v hv => by cases e; exact h.cur _ _ _ _ hpc v hv, ?_⟩
    intro e he
    rcases List.mem_append.mp he with he | he
    · exact h.disk e he
    · obtain ⟨x, hx, rfl⟩ := List.mem_map.mp he
      exact keeps_entries (ext := s.ext) (h.cur _ _ _ _ hpc) (hn _ _ _ _ hpc) _
        (List.mem_map.mpr ⟨x, (List.mem_filter.mp hx).1, rfl⟩)
  | finish hpc => exact ⟨h.todo, fun _ _ _ _ e => by simp at e, h.disk⟩
  | raise hpc => exact ⟨h.todo, fun _ _ _ _ e => by simp at e, h.disk⟩

theorem reach_keeps {c : Cfg} {params : List Param} {d : Nat → V} {s0 s : State V} {ok} {p : Param}
    (hnames : (params.map Param.name).Nodup) (h0 : start c params d = .ok s0) (hp : p ∈ params)
    (hok : ∀ s d', Reach c ok s0 s → ok s d' → p ∈ s.todo.flatten → d' p.cell = s.device p.cell)
    (h : Reach c ok s0 s) : Keeps p (d p.cell) s := by
  have hnd := nodup_of_names hnames
  induction h with
  | refl =>
    obtain ⟨_, hdev, hdisk, _, _, hr⟩ := start_ok h0
    refine ⟨fun _ => by rw [hdev], ?_, by simp [hdisk]⟩
    intro vs f t w e v hv
    have hcap : vs = capture d (params.filter (wantsSync c)) := by
      rcases hr with ⟨_, hpc, _⟩ | ⟨_, _, hpc, _⟩ | ⟨_, _, hpc, _⟩ <;> rw [hpc] at e <;> cases e <;> rfl
    subst hcap
    obtain ⟨q, _, e⟩ := List.mem_map.mp hv
    cases e; rfl
  | @step s s' hr hs ih =>
    refine keeps_step (fun vs f t w hpc q hq e => ?_) ih hs
    have := inv_cur (reach_inv hnd h0 hr).1 hpc q hq
    exact eq_of_name hnames ((batchesOf_mem c params q).mp this).1 hp e
  | @caller s d' hr hd ih =>
    exact ⟨fun ht => by rw [← ih.todo ht]; exact hok s d' hr hd ht, ih.cur, ih.disk⟩

theorem reach_trans {c : Cfg} {ok} {s0 s1 s2 : State V} (h1 : Reach c ok s0 s1) (h2 : Reach c ok s1 s2) :
    Reach c ok s0 s2 := by
  induction h2 with
  | refl => exact h1
  | step _ hs ih => exact .step ih hs
  | caller _ hd ih => exact .caller ih hd

/-- A batch on the host can be finished. -/
theorem finish_batch {c : Cfg} {ok} (s : State V) (vs f t w) (hpc : s.pc = .run vs f t w)
    (hw : w = .arrived ∨ (w = .moving ∧ t = false)) :
    ∃ s', Reach c ok s s' ∧ s'.pc = .head ∧ s'.todo = s.todo := by
  have main : ∀ (s : State V) t, s.pc = .run vs f t .arrived →
      ∃ s', Reach c ok s s' ∧ s'.pc = .head ∧ s'.todo = s.todo := by
    intro s t hpc
    have told : ∀ (s : State V), s.pc = .run vs f true .arrived →
        ∃ s', Reach c ok s s' ∧ s'.pc = .head ∧ s'.todo = s.todo := by
      intro s hpc
      exact ⟨_, .step (.step .refl (.write hpc fun _ => rfl)) (.finish rfl), rfl, rfl⟩
    cases t with
    | true => exact told s hpc
    | false =>
      obtain ⟨s', h1, h2, h3⟩ := told _ (rfl : ({ s with
        pc := .run vs f true .arrived
        log := s.log ++ note .transferEnd (vs.map Prod.fst) } : State V).pc = .run vs f true .arrived)
      exact ⟨s', reach_trans (.step .refl (.tell hpc fun _ => by simp)) h1, h2, h3⟩
  rcases hw with rfl | ⟨rfl, rfl⟩
  · exact main s t hpc
  · obtain ⟨s', h1, h2, h3⟩ := main _ false (rfl : ({ s with
        pc := .run vs f false .arrived
        log := s.log ++ note .arrived (vs.map Prod.fst) } : State V).pc = .run vs f false .arrived)
    exact ⟨s', reach_trans (.step .refl (.arrive hpc)) h1, h2, h3⟩

theorem finish_all {c : Cfg} {ok} : ∀ (n : Nat) (s : State V), s.todo.length = n → s.pc = .head →
    ∃ s', Reach c ok s s' ∧ Done s'
  | 0, s, hn, hpc => ⟨s, .refl, hpc, List.eq_nil_of_length_eq_zero hn⟩
  | n + 1, s, hn, hpc => by
    cases ht : s.todo with
    | nil => simp [ht] at hn
    | cons b rest =>
      obtain ⟨s1, r1, p1, t1⟩ := finish_batch (c := c) (ok := ok) { s with
        todo := rest
        pc := .run (capture s.device b) false false (if c.dispatcher then .moving else .arrived)
        log := s.log ++ note .enqueued b ++ (if c.dispatcher then [] else note .arrived b) } _ _ _ _ rfl
        (by cases c.dispatcher <;> simp)
      obtain ⟨s2, r2, d2⟩ := finish_all (c := c) (ok := ok) n s1
        (by rw [t1]; simp only [ht, List.length_cons] at hn; show rest.length = n; omega) p1
      exact ⟨s2, reach_trans (reach_trans (.step .refl (.next hpc ht)) r1) r2, d2⟩

/-! ### Theorems -/

/-- C120: `serialize` is refused exactly for empty arrays (without a dispatcher), arrays of this process only
(with several processes) and, under a limit, arrays of unknown priority. -/
theorem C120_refused (c : Cfg) (params : List Param) (d : Nat → V) :
    (∃ s, start c params d = .ok s) ↔
      (c.dispatcher = true ∨ ∀ p ∈ params, p.size ≠ 0) ∧
      (c.processes ≤ 1 ∨ ∀ p ∈ params, p.hostLocal = false) ∧
      (c.maxBytes = none ∨ ∀ p ∈ params, c.priority p.name ≠ .unknown) := by
  rw [← checkSizes_total, ← gather_total c params [],
    ← split_total c params { sync := [], asyncPrio := [], asyncDeprio := [] }]
  unfold start
  cases checkSizes c params with
  | error e => simp
  | ok _ =>
    cases gather c params [] with
    | error e => simp
    | ok ext =>
      cases split c params { sync := [], asyncPrio := [], asyncDeprio := [] } with
      | error e => simp
      | ok sp =>
        simp only []
        constructor
        · intro _; simp
        · intro _
          split
          · exact ⟨_, rfl⟩
          · split <;> exact ⟨_, rfl⟩

/-- C120: a save that ends without error has written every array exactly once, under its own name and with its
own save arguments and key implementation, and has recorded the array metadata of exactly these,
whatever the limit, the priorities and the caller's changes. -/
theorem C120_complete (c : Cfg) (params : List Param) (d : Nat → V) (s0 s : State V) (ok)
    (hnames : (params.map Param.name).Nodup) (h0 : start c params d = .ok s0) (h : Reach c ok s0 s)
    (hdone : Done s)
    (hknown : c.maxBytes = none ∨ ∀ p ∈ params, c.priority p.name ≠ .other) :
    (s.disk.map fun e => (e.name, e.arg, e.ext)).Perm (params.map fun p => (p.name, p.arg, p.impl)) ∧
    s.metas = s.disk.map fun e => (e.name, e.ext) := by
  have hnd := nodup_of_names hnames
  obtain ⟨hinv, _, hext⟩ := reach_inv hnd h0 h
  obtain ⟨hpc, htodo⟩ := hdone
  have hg := gather_ext c params s0.ext (start_ok h0).1 hnames
  have hk : ∀ p ∈ params, wantsSync c p = true ∨ wantsPrio c p = true ∨ wantsLate c p = true := by
    intro p hp
    unfold wantsSync wantsPrio wantsLate
    by_cases hm : c.maxBytes = none
    · simp [hm]
    · have h1 := hknown.resolve_left hm p hp
      have h2 := ((C120_refused c params d).mp ⟨s0, h0⟩).2.2.resolve_left hm p hp
      cases hq : c.priority p.name <;> simp_all
  cases hinv with
  | run _ _ _ _ _ h' => rw [h'] at hpc; cases hpc
  | failed _ _ _ h' => rw [h'] at hpc; cases hpc
  | head done _ hall hdisk hmeta _ _ =>
    rw [htodo, List.append_nil] at hall
    constructor
    · have e1 : (s.disk.map fun e => (e.name, e.arg, e.ext)) = done.flatten.map (key s.ext) := hdisk
      rw [e1, ← hall, hext]
      have e2 : params.map (key s0.ext) = params.map fun p => (p.name, p.arg, p.impl) :=
        List.map_congr_left fun p hp => by rw [key, hg p hp]
      rw [← e2]
      exact (batchesOf_perm c params hk).map _
    · have := congrArg (List.map fun k : String × Nat × Option String => (k.1, k.2.2)) hdisk
      rw [hmeta]
      simp only [List.map_map] at this
      have e1 : (s.disk.map fun e => (e.name, e.ext)) =
          s.disk.map ((fun k : String × Nat × Option String => (k.1, k.2.2)) ∘ Entry.key) := rfl
      rw [e1, this]; rfl

/-- C120: what is written for an array transferred by `serialize` itself is what it contained when `serialize`
was called, whatever the caller does with it afterwards. -/
theorem C120_snapshot (c : Cfg) (params : List Param) (d : Nat → V) (s0 s : State V) (ok)
    (hnames : (params.map Param.name).Nodup) (h0 : start c params d = .ok s0) (h : Reach c ok s0 s)
    (p : Param) (hp : p ∈ params) (hs : wantsSync c p = true) :
    ∀ e ∈ s.disk, e.name = p.name → e.value = d p.cell := by
  refine (reach_keeps hnames h0 hp (fun s d' hr _ ht => ?_) h).disk
  have := late_not_sync ((reach_inv (nodup_of_names hnames) h0 hr).2.1 p ht).2
  simp [hs] at this

/-- C120: for any array, whatever its priority, a caller that leaves it alone until `on_transfer_end` is called
for it gets what it contained when `serialize` was called. -/
theorem C120_contract (c : Cfg) (params : List Param) (d : Nat → V) (s0 s : State V)
    (hnames : (params.map Param.name).Nodup) (h0 : start c params d = .ok s0) (p : Param) (hp : p ∈ params)
    (h : Reach c (fun s d' => .transferEnd ∉ track p s.log → d' p.cell = s.device p.cell) s0 s) :
    ∀ e ∈ s.disk, e.name = p.name → e.value = d p.cell := by
  refine (reach_keeps hnames h0 hp (fun s d' hr hd ht => ?_) h).disk
  have hnd := nodup_of_names hnames
  have := inv_todo (batchesOf_nodup c params hnd) (reach_inv hnd h0 hr).1 p ht
  exact hd (by simp [this])

/-- Every array's history is one of the allowed ones. -/
theorem track_cases {c : Cfg} {params : List Param} {d : Nat → V} {s0 s : State V} {ok} (hnd : params.Nodup)
    (h0 : start c params d = .ok s0) (h : Reach c ok s0 s) (p : Param) :
    track p s.log = [] ∨
    (∃ t w, track p s.log ∈ parts c.dispatcher (wantsSync c p) t w) ∨
    ∃ t ∈ parts c.dispatcher (wantsSync c p) true .wrote, track p s.log = t ++ [.writeEnd] := by
  have hinv := (reach_inv hnd h0 h).1
  cases hinv with
  | head done _ _ _ _ hdone hrest =>
    by_cases hp : p ∈ done.flatten
    · exact .inr (.inr (hdone p hp))
    · exact .inl (hrest p hp)
  | run done vs f t w _ _ hfirst _ _ _ _ hdone hcur hrest =>
    by_cases hp : p ∈ done.flatten
    · exact .inr (.inr (hdone p hp))
    · by_cases hc : p ∈ vs.map Prod.fst
      · exact .inr (.inl ⟨t, w, by rw [hfirst p hc]; exact hcur p hc⟩)
      · exact .inl (hrest p hp hc)
  | failed done b f _ _ hfirst _ _ _ hdone hcur hrest =>
    by_cases hp : p ∈ done.flatten
    · exact .inr (.inr (hdone p hp))
    · by_cases hc : p ∈ b
      · exact .inr (.inl ⟨true, .broken, by rw [hfirst p hc]; exact hcur p hc⟩)
      · exact .inl (hrest p hp hc)

/-- C120: without a dispatcher every array is transferred, announced by `on_transfer_end`, written and announced
by `on_write_end` in this order and at most once, in every state of every run, failed or not. -/
theorem C120_callbacks (c : Cfg) (params : List Param) (d : Nat → V) (s0 s : State V) (ok)
    (hnd : params.Nodup) (h0 : start c params d = .ok s0) (h : Reach c ok s0 s)
    (hd : c.dispatcher = false) (p : Param) :
    track p s.log <+: [.enqueued, .arrived, .transferEnd, .written, .writeEnd] := by
  rcases track_cases hnd h0 h p with e | ⟨t, w, e⟩ | ⟨t, ht, e⟩
  · simp [e]
  · rw [hd] at e
    cases t <;> cases w <;> simp [parts] at e <;>
      first
        | (rcases e with e | e <;> rw [e] <;> decide)
        | (rw [e]; decide)
  · rw [hd] at ht
    simp [parts] at ht
    rw [e, ht]; exact List.prefix_rfl

/-- C120: with or without a dispatcher, `on_write_end` is called at most once, after the array has arrived on the
host and been written, and `on_transfer_end` at most once and before `on_write_end`; an array transferred
by `serialize` itself has arrived when `on_transfer_end` is called. -/
theorem C120_callbacks_dispatched (c : Cfg) (params : List Param) (d : Nat → V) (s0 s : State V) (ok)
    (hnd : params.Nodup) (h0 : start c params d = .ok s0) (h : Reach c ok s0 s) (p : Param) :
    (track p s.log).filter (· ≠ .transferEnd) <+: [.enqueued, .arrived, .written, .writeEnd] ∧
    (track p s.log).filter (fun k => k ≠ .arrived ∧ k ≠ .written) <+: [.enqueued, .transferEnd, .writeEnd] ∧
    (wantsSync c p = true →
      (track p s.log).filter (fun k => k ≠ .written) <+: [.enqueued, .arrived, .transferEnd, .writeEnd]) := by
  rcases track_cases hnd h0 h p with e | ⟨t, w, e⟩ | ⟨t, ht, e⟩
  · simp [e]
  · cases hs : wantsSync c p <;> cases hd : c.dispatcher <;> cases t <;> cases w <;> simp [parts, hs, hd] at e <;>
      first
        | (rcases e with e | e | e | e | e <;> rw [e] <;> decide)
        | (rcases e with e | e | e <;> rw [e] <;> decide)
        | (rcases e with e | e <;> rw [e] <;> decide)
        | (rw [e]; decide)
  · cases hs : wantsSync c p <;> cases hd : c.dispatcher <;> simp [parts, hs, hd] at ht <;>
      first
        | (rcases ht with h | h | h <;> rw [e, h] <;> decide)
        | (rcases ht with h | h <;> rw [e, h] <;> decide)
        | (rw [e, ht]; decide)

/-- C120: when a save has ended without error, both callbacks have been called for every array. -/
theorem C120_all_told (c : Cfg) (params : List Param) (d : Nat → V) (s0 s : State V) (ok)
    (hnd : params.Nodup) (h0 : start c params d = .ok s0) (h : Reach c ok s0 s) (hdone : Done s)
    (hknown : c.maxBytes = none ∨ ∀ p ∈ params, c.priority p.name ≠ .other) (p : Param) (hp : p ∈ params) :
    (track p s.log).count .transferEnd = 1 ∧ (track p s.log).count .written = 1 ∧
      (track p s.log).count .writeEnd = 1 := by
  obtain ⟨hpc, htodo⟩ := hdone
  have hk : p ∈ (batchesOf c params).flatten := by
    rw [batchesOf_mem]
    refine ⟨hp, ?_⟩
    unfold wantsSync wantsPrio wantsLate
    by_cases hm : c.maxBytes = none
    · simp [hm]
    · have h1 := hknown.resolve_left hm p hp
      have h2 := ((C120_refused c params d).mp ⟨s0, h0⟩).2.2.resolve_left hm p hp
      cases hq : c.priority p.name <;> simp_all
  cases (reach_inv hnd h0 h).1 with
  | run _ _ _ _ _ h' => rw [h'] at hpc; cases hpc
  | failed _ _ _ h' => rw [h'] at hpc; cases hpc
  | head done _ hall _ _ hfin _ =>
    rw [htodo, List.append_nil] at hall
    obtain ⟨t, ht, e⟩ := hfin p (hall ▸ hk)
    cases hs : wantsSync c p <;> cases hd : c.dispatcher <;> simp [parts, hs, hd] at ht <;>
      first
        | (rcases ht with h | h | h <;> rw [e, h] <;> decide)
        | (rcases ht with h | h <;> rw [e, h] <;> decide)
        | (rw [e, ht]; decide)

/-- C120: without a dispatcher, the arrays that are to be transferred synchronously are on the host, and their
`on_transfer_end` has been called, when `serialize` returns; nothing else has happened. -/
theorem C120_before_return (c : Cfg) (params : List Param) (d : Nat → V) (s0 : State V) (hnd : params.Nodup)
    (h0 : start c params d = .ok s0) (hd : c.dispatcher = false) (p : Param) :
    track p s0.log = if p ∈ params ∧ wantsSync c p = true then [.enqueued, .arrived, .transferEnd] else [] := by
  have hb : (params.filter (wantsSync c)).Nodup := hnd.filter _
  have e : (p ∈ params ∧ wantsSync c p = true) ↔ p ∈ params.filter (wantsSync c) := by simp
  simp only [e]
  obtain ⟨_, _, _, _, _, ⟨he, _, hl⟩ | ⟨_, hd', _⟩ | ⟨_, _, _, hl⟩⟩ := start_ok h0
  · simp [hl, track, he]
  · rw [hd] at hd'; cases hd'
  · simp only [hl, track_append, track_note p _ _ hb]
    by_cases hp : p ∈ params.filter (wantsSync c) <;> simp [hp]

theorem enqueuedOrder_append (a b : List (Kind × Param)) :
    enqueuedOrder (a ++ b) = enqueuedOrder a ++ enqueuedOrder b := by simp [enqueuedOrder]

theorem enqueuedOrder_note (k : Kind) (b : List Param) :
    enqueuedOrder (note k b) = if k = .enqueued then b else [] := by
  induction b with
  | nil => simp [enqueuedOrder, note]
  | cons p b ih =>
    have e : note k (p :: b) = [(k, p)] ++ note k b := rfl
    rw [e, enqueuedOrder_append, ih]
    cases k <;> simp [enqueuedOrder]

/-- C120: transfers are enqueued in the order of the priorities: first the synchronous arrays, then those
with priority, then the others, each group in the order of the tree. -/
theorem C120_order (c : Cfg) (params : List Param) (d : Nat → V) (s0 s : State V) (ok)
    (h0 : start c params d = .ok s0) (h : Reach c ok s0 s) :
    enqueuedOrder s.log <+:
      params.filter (wantsSync c) ++ (params.filter (wantsPrio c) ++ params.filter (wantsLate c)) ∧
    (Done s → enqueuedOrder s.log =
      params.filter (wantsSync c) ++ (params.filter (wantsPrio c) ++ params.filter (wantsLate c))) := by
  have main : enqueuedOrder s.log ++ s.todo.flatten = (batchesOf c params).flatten := by
    induction h with
    | refl =>
      obtain ⟨_, _, _, _, ht, ⟨he, _, hl⟩ | ⟨he, _, _, hl⟩ | ⟨he, _, _, hl⟩⟩ := start_ok h0
      · rw [hl, ht, batchesOf, if_pos he]; rfl
      · rw [hl, ht, batchesOf, if_neg he, enqueuedOrder_note]; simp
      · rw [hl, ht, batchesOf, if_neg he]
        simp [enqueuedOrder_append, enqueuedOrder_note]
    | caller _ _ ih => exact ih
    | @step s s' _ hs ih =>
      cases hs with
      | @next b rest hpc htodo =>
        rw [← ih, htodo]
        simp only [enqueuedOrder_append, enqueuedOrder_note]
        cases c.dispatcher <;> simp [enqueuedOrder_note] <;> rfl
      | _ => simp only [enqueuedOrder_append, enqueuedOrder_note]; simpa using ih
  rw [batchesOf_flatten] at main
  refine ⟨⟨_, main⟩, fun hd => ?_⟩
  rw [hd.2] at main
  simpa using main

/-- C120: what is counted against the limit: of every array the shards on the worker; only those of the chosen replica, when one is
chosen and neither a dispatcher nor all replicas do the writing, and those of all replicas otherwise. -/
theorem C120_counted (c : Cfg) (b : List Param) (w : Nat) :
    Memory.Batches.total c.memory (b.map fun p => (p.arr, p)) w =
      (b.map fun p => (p.arr.shards.filter fun s => c.worker s.device == w &&
        (c.dispatcher || c.replicaParallel || c.replicaId.isNone || c.replicaId == some s.replica)).length * p.arr.shardBytes).sum := by
  simp only [Memory.Batches.total, List.map_map]
  congr 1
  apply List.map_congr_left
  intro p _
  simp only [Function.comp, Memory.Batches.bytesOn]
  congr 2
  apply List.filter_congr
  intro s _
  simp only [Memory.Batches.countsOn, Cfg.memory]
  cases c.dispatcher <;> cases c.replicaParallel <;> cases c.replicaId <;> simp
  rw [Bool.and_comm, BEq.comm (a := s.replica)]

/-- C120: at any time the arrays transferred in the background and not yet written fit into the limit on every
worker, unless there is only one of them.  As in C31, all workers have to hold a part of every array. -/
theorem C120_budget (c : Cfg) (params : List Param) (d : Nat → V) (s0 s : State V) (ok)
    (hnd : params.Nodup) (h0 : start c params d = .ok s0) (h : Reach c ok s0 s) (n : Int)
    (hm : c.maxBytes = some n)
    (hall : ∀ p ∈ params, ∀ w, Memory.Batches.isWorker c.memory w → Memory.Batches.touches c.memory p.arr w) :
    ∃ b : List Param, (∀ p ∈ params, wantsSync c p = false → inFlight p s.log → p ∈ b) ∧
      (b.length ≤ 1 ∨ ∀ w, Memory.Batches.isWorker c.memory w →
        (Memory.Batches.total c.memory (b.map fun p => (p.arr, p)) w : Int) < n) := by
  have hfin : ∀ l, Finished c s.log l → ∀ p ∈ l, ¬ inFlight p s.log := by
    intro l hf p hp hi
    obtain ⟨t, ht, e⟩ := hf p hp
    apply hi.2
    rw [e]
    cases hs : wantsSync c p <;> cases hd : c.dispatcher <;> simp [parts, hs, hd] at ht <;>
      first
        | (rcases ht with h | h | h <;> rw [h] <;> decide)
        | (rcases ht with h | h <;> rw [h] <;> decide)
        | (rw [ht]; decide)
  have hnil : ∀ p, track p s.log = [] → ¬ inFlight p s.log := fun p e hi => by simp [inFlight, e] at hi
  have hbatch : ∀ b, b ∈ batchesOf c params → (∃ p ∈ b, wantsSync c p = false) →
      (b.length ≤ 1 ∨ ∀ w, Memory.Batches.isWorker c.memory w →
        (Memory.Batches.total c.memory (b.map fun p => (p.arr, p)) w : Int) < n) := by
    intro b hb hp
    obtain ⟨p, hpb, hps⟩ := hp
    rw [batchesOf, List.mem_append] at hb
    rcases hb with hb | hb
    · split at hb
      · cases hb
      · simp only [List.mem_singleton] at hb
        subst hb
        have := (List.mem_filter.mp hpb).2
        simp [hps] at this
    · generalize hl : params.filter (wantsPrio c) ++ params.filter (wantsLate c) = late at hb
      have hlp : ∀ q ∈ late, q ∈ params := by
        intro q hq
        rw [← hl] at hq
        rcases List.mem_append.mp hq with hq | hq <;> exact (List.mem_filter.mp hq).1
      unfold lateBatches at hb
      simp only [hm] at hb
      cases hbs : Memory.Batches.batches c.memory n (late.map fun p => (p.arr, p)) with
      | none => simp [hbs] at hb
      | some bs =>
        simp only [hbs] at hb
        obtain ⟨b', hb', rfl⟩ := List.mem_map.mp hb
        cases hlate : late with
        | nil => rw [hlate] at hbs; simp [Memory.Batches.batches] at hbs
        | cons q rest =>
          rw [hlate] at hbs
          have hpart := Memory.Batches.C31_partition _ _ _ _ hbs
          have := Memory.Batches.C31_budget_if_first_everywhere c.memory n _ _
            (hall q (hlp q (by rw [hlate]; simp))) bs hbs b' hb'
          have hback : (b'.map Prod.snd).map (fun p => (p.arr, p)) = b' := by
            have hmem : ∀ x ∈ b', x.1 = x.2.arr := by
              intro x hx
              have : x ∈ bs.flatten := List.mem_flatten.mpr ⟨b', hb', hx⟩
              rw [hpart] at this
              obtain ⟨y, _, rfl⟩ := List.mem_map.mp this
              rfl
            rw [List.map_map]
            conv => rhs; rw [← List.map_id b']
            refine List.map_congr_left fun x hx => ?_
            simp only [Function.comp, id]
            rw [← hmem x hx]
          rw [hback]
          rcases this with h | h
          · left; rw [List.length_map]; omega
          · exact .inr h
  cases (reach_inv hnd h0 h).1 with
  | head done _ hall' _ _ hdone hrest =>
    refine ⟨[], fun p _ _ hi => ?_, .inl (by simp)⟩
    by_cases hp : p ∈ done.flatten
    · exact absurd hi (hfin _ hdone p hp)
    · exact absurd hi (hnil p (hrest p hp))
  | run done vs f t w _ hall' hfirst _ _ _ _ hdone hcur hrest =>
    by_cases hx : ∃ p ∈ vs.map Prod.fst, wantsSync c p = false
    · refine ⟨vs.map Prod.fst, fun p _ _ hi => ?_, hbatch _ (by rw [hall']; simp) hx⟩
      by_cases hp : p ∈ done.flatten
      · exact absurd hi (hfin _ hdone p hp)
      · by_cases hc : p ∈ vs.map Prod.fst
        · exact hc
        · exact absurd hi (hnil p (hrest p hp hc))
    · refine ⟨[], fun p _ hps hi => ?_, .inl (by simp)⟩
      by_cases hp : p ∈ done.flatten
      · exact absurd hi (hfin _ hdone p hp)
      · by_cases hc : p ∈ vs.map Prod.fst
        · exact absurd ⟨p, hc, hps⟩ hx
        · exact absurd hi (hnil p (hrest p hp hc))
  | failed done b f _ hall' hfirst _ _ _ hdone hcur hrest =>
    by_cases hx : ∃ p ∈ b, wantsSync c p = false
    · refine ⟨b, fun p _ _ hi => ?_, hbatch _ (by rw [hall']; simp) hx⟩
      by_cases hp : p ∈ done.flatten
      · exact absurd hi (hfin _ hdone p hp)
      · by_cases hc : p ∈ b
        · exact hc
        · exact absurd hi (hnil p (hrest p hp hc))
    · refine ⟨[], fun p _ hps hi => ?_, .inl (by simp)⟩
      by_cases hp : p ∈ done.flatten
      · exact absurd hi (hfin _ hdone p hp)
      · by_cases hc : p ∈ b
        · exact absurd ⟨p, hc, hps⟩ hx
        · exact absurd hi (hnil p (hrest p hp hc))

/-- C120: with a transaction, what is in storage at any time is a number of whole batches, the first ones: a batch
whose writing fails leaves nothing. -/
theorem C120_atomic (c : Cfg) (params : List Param) (d : Nat → V) (s0 s : State V) (ok)
    (hnd : params.Nodup) (h0 : start c params d = .ok s0) (h : Reach c ok s0 s) (ht : c.transaction = true) :
    ∃ bs, bs <+: batchesOf c params ∧ (s.disk.map Entry.name) = bs.flatten.map Param.name := by
  have hname : ∀ l : List Param, s.disk.map Entry.key = l.map (key s.ext) →
      s.disk.map Entry.name = l.map Param.name := by
    intro l e
    have := congrArg (List.map Prod.fst) e
    simpa [List.map_map, Function.comp_def, key, Entry.key] using this
  cases (reach_inv hnd h0 h).1 with
  | head done _ hall hdisk _ _ _ => exact ⟨done, ⟨_, hall.symm⟩, hname _ hdisk⟩
  | run done vs f t w _ hall _ keep hkeep hdisk _ _ _ _ =>
    by_cases hw : w = .wrote
    · rw [filter_true' _ _ (hkeep.2.1 hw)] at hdisk
      refine ⟨done ++ [vs.map Prod.fst], ⟨s.todo, by rw [hall]; simp⟩, ?_⟩
      rw [hname _ hdisk]; simp
    · have : ∀ p, keep p = false := by
        cases w with
        | moving => exact hkeep.1 (.inl rfl)
        | arrived => exact hkeep.1 (.inr rfl)
        | wrote => exact absurd rfl hw
        | broken => exact hkeep.2.2 ht rfl
      rw [filter_false _ _ this, List.append_nil] at hdisk
      exact ⟨done, ⟨_, hall.symm⟩, hname _ hdisk⟩
  | failed done b f _ hall _ keep hkeep hdisk _ _ _ =>
    rw [filter_false _ _ (hkeep ht), List.append_nil] at hdisk
    exact ⟨done, ⟨_, hall.symm⟩, hname _ hdisk⟩

/-- C120: every save that is not refused can end without error. -/
theorem C120_can_finish (c : Cfg) (params : List Param) (d : Nat → V) (s0 : State V) (ok)
    (h0 : start c params d = .ok s0) : ∃ s, Reach c ok s0 s ∧ Done s := by
  obtain ⟨_, _, _, _, _, ⟨_, hpc, _⟩ | ⟨_, _, hpc, _⟩ | ⟨_, _, hpc, _⟩⟩ := start_ok h0
  · exact finish_all _ s0 rfl hpc
  · obtain ⟨s1, r1, p1, t1⟩ := finish_batch (c := c) (ok := ok) s0 _ _ _ _ hpc (.inr ⟨rfl, rfl⟩)
    obtain ⟨s2, r2, d2⟩ := finish_all (c := c) (ok := ok) _ s1 rfl p1
    exact ⟨s2, reach_trans r1 r2, d2⟩
  · obtain ⟨s1, r1, p1, t1⟩ := finish_batch (c := c) (ok := ok) s0 _ _ _ _ hpc (.inl rfl)
    obtain ⟨s2, r2, d2⟩ := finish_all (c := c) (ok := ok) _ s1 rfl p1
    exact ⟨s2, reach_trans r1 r2, d2⟩

/-! ### Findings -/

/-- C120 (finding): if a limit is set and the callback's `key_priority` returns anything but a priority, such as
the `None` of the method in `SerializationStatusCallback`, the array is dropped: nothing is ever written
or called for it, and the save succeeds. -/
theorem C120_lost_fails (c : Cfg) (params : List Param) (d : Nat → V) (s0 : State V) (n : Int)
    (hnames : (params.map Param.name).Nodup) (h0 : start c params d = .ok s0) (hm : c.maxBytes = some n)
    (p : Param) (hp : p ∈ params) (ho : c.priority p.name = .other) :
    (∃ s, Reach c (fun _ _ => True) s0 s ∧ Done s) ∧
    ∀ s, Reach c (fun _ _ => True) s0 s → p.name ∉ s.disk.map Entry.name ∧ track p s.log = [] := by
  refine ⟨C120_can_finish c params d s0 _ h0, fun s h => ?_⟩
  have hnd := nodup_of_names hnames
  have hnot : ∀ q ∈ (batchesOf c params).flatten, q ≠ p ∧ q.name ≠ p.name := by
    intro q hq
    obtain ⟨hqp, hw⟩ := (batchesOf_mem c params q).mp hq
    have hne : q ≠ p := by
      rintro rfl
      simp [wantsSync, wantsPrio, wantsLate, hm, ho] at hw
    exact ⟨hne, fun e => hne (eq_of_name hnames hqp hp e)⟩
  have hname : ∀ l : List Param, s.disk.map Entry.key = l.map (key s.ext) →
      s.disk.map Entry.name = l.map Param.name := by
    intro l e
    have := congrArg (List.map Prod.fst) e
    simpa [List.map_map, Function.comp_def, key, Entry.key] using this
  have hout : ∀ l : List Param, (∀ q ∈ l, q ∈ (batchesOf c params).flatten) → p ∉ l ∧ p.name ∉ l.map Param.name := by
    intro l hl
    refine ⟨fun h => (hnot p (hl p h)).1 rfl, fun h => ?_⟩
    obtain ⟨q, hq, e⟩ := List.mem_map.mp h
    exact (hnot q (hl q hq)).2 e
  cases (reach_inv hnd h0 h).1 with
  | head done _ hall hdisk _ _ hrest =>
    have := hout done.flatten (fun q hq => by rw [hall]; simp only [List.flatten_append]; exact List.mem_append_left _ hq)
    exact ⟨by rw [hname _ hdisk]; exact this.2, hrest p this.1⟩
  | run done vs f t w _ hall _ keep _ hdisk _ _ _ hrest =>
    have h1 := hout done.flatten (fun q hq => by rw [hall]; simp only [List.flatten_append]; exact List.mem_append_left _ hq)
    have h2 := hout (vs.map Prod.fst) (fun q hq => by
      rw [hall]; simp only [List.flatten_append, List.flatten_cons, List.mem_append]; exact .inr (.inl hq))
    refine ⟨?_, hrest p h1.1 h2.1⟩
    rw [hname _ hdisk, List.map_append, List.mem_append]
    rintro (h | h)
    · exact h1.2 h
    · obtain ⟨q, hq, e⟩ := List.mem_map.mp h
      exact h2.2 (List.mem_map.mpr ⟨q, (List.mem_filter.mp hq).1, e⟩)
  | failed done b f _ hall _ keep _ hdisk _ _ hrest =>
    have h1 := hout done.flatten (fun q hq => by rw [hall]; simp only [List.flatten_append]; exact List.mem_append_left _ hq)
    have h2 := hout b (fun q hq => by
      rw [hall]; simp only [List.flatten_append, List.flatten_cons, List.mem_append]; exact .inr (.inl hq))
    refine ⟨?_, hrest p h1.1 h2.1⟩
    rw [hname _ hdisk, List.map_append, List.mem_append]
    rintro (h | h)
    · exact h1.2 h
    · obtain ⟨q, hq, e⟩ := List.mem_map.mp h
      exact h2.2 (List.mem_map.mpr ⟨q, (List.mem_filter.mp hq).1, e⟩)

/-- C120 (finding): with a dispatcher no transfer has ended when `serialize` returns, not even those of the
synchronous arrays. -/
theorem C120_sync_not_done_fails (c : Cfg) (params : List Param) (d : Nat → V) (s0 : State V)
    (h0 : start c params d = .ok s0) (hd : c.dispatcher = true) :
    ∀ e ∈ s0.log, e.1 = .enqueued := by
  obtain ⟨_, _, _, _, _, ⟨_, _, hl⟩ | ⟨_, _, _, hl⟩ | ⟨_, hd', _⟩⟩ := start_ok h0
  · simp [hl]
  · intro e he
    rw [hl] at he
    obtain ⟨q, _, rfl⟩ := List.mem_map.mp he
    rfl
  · rw [hd] at hd'; cases hd'

/-- C120 (finding): with a dispatcher `on_transfer_end` may be called for an array transferred in the background
while its transfer is still going on. -/
theorem C120_transfer_end_early_fails (c : Cfg) (p : Param) (d : Nat → V) (s0 : State V) (n : Int)
    (h0 : start c [p] d = .ok s0) (hd : c.dispatcher = true) (hm : c.maxBytes = some n)
    (hp : wantsPrio c p = true ∨ wantsLate c p = true) :
    ∃ s, Reach c (fun _ _ => False) s0 s ∧ track p s.log = [.enqueued, .transferEnd] := by
  have hs := late_not_sync hp
  obtain ⟨_, _, _, _, ht, hr⟩ := start_ok h0
  have hf : [p].filter (wantsSync c) = [] := by simp [hs]
  have hlate : [p].filter (wantsPrio c) ++ [p].filter (wantsLate c) = [p] := by
    have := (wants_excl c p).2
    rcases hp with h | h
    · simp [h, this h]
    · cases hq : wantsPrio c p with
      | false => simp [h, hq]
      | true => simp [this hq] at h
  rw [hlate] at ht
  have hb : lateBatches c [p] = [[p]] := by
    simp [lateBatches, hm, Memory.Batches.batches, Memory.Batches.loop]
  rw [hb] at ht
  rcases hr with ⟨_, hpc, hl⟩ | ⟨h, _⟩ | ⟨h, _⟩
  · refine ⟨_, .step (.step .refl (.next hpc ht)) (.tell rfl (by simp)), ?_⟩
    simp [hd, hl, track, note, capture]
  · exact absurd hf h
  · exact absurd hf h

/-- C120 (finding): arrays without priority are not kept back until the transfers with priority have ended: if
both fit into one batch, they are transferred together. -/
theorem C120_together_fails (c : Cfg) (p q : Param) (d : Nat → V) (s0 : State V)
    (h0 : start c [p, q] d = .ok s0) (hd : c.dispatcher = false)
    (hp : wantsPrio c p = true) (hq : wantsLate c q = true) (hb : lateBatches c [p, q] = [[p, q]]) :
    ∃ s, Reach c (fun _ _ => False) s0 s ∧
      s.log = [(.enqueued, p), (.enqueued, q), (.arrived, p), (.arrived, q)] := by
  obtain ⟨_, _, _, _, ht, hr⟩ := start_ok h0
  have e1 : wantsSync c p = false := late_not_sync (.inl hp)
  have e2 : wantsSync c q = false := late_not_sync (.inr hq)
  have e3 : wantsLate c p = false := (wants_excl c p).2 hp
  have e4 : wantsPrio c q = false := by
    cases h : wantsPrio c q with
    | false => rfl
    | true => simp [(wants_excl c q).2 h] at hq
  have hl : [p, q].filter (wantsPrio c) ++ [p, q].filter (wantsLate c) = [p, q] := by simp [hp, hq, e3, e4]
  rw [hl, hb] at ht
  rcases hr with ⟨_, hpc, hlog⟩ | ⟨h, _⟩ | ⟨h, _⟩
  · refine ⟨_, .step .refl (.next hpc ht), ?_⟩
    simp [hd, hlog, note]
  · simp [e1, e2] at h
  · simp [e1, e2] at h

/-- C120: the contract is needed: what is written for an array transferred in the background is what the caller
has put there since `serialize` returned (documented for `TransferPriority`). -/
theorem C120_contract_needed (c : Cfg) (p : Param) (d d' : Nat → V) (s0 : State V) (n : Int)
    (h0 : start c [p] d = .ok s0) (hm : c.maxBytes = some n)
    (hp : wantsPrio c p = true ∨ wantsLate c p = true) :
    ∃ s, Reach c (fun _ _ => True) s0 s ∧ Done s ∧ s.disk.map Entry.value = [d' p.cell] := by
  have hnames : ([p].map Param.name).Nodup := by simp
  obtain ⟨_, hdev, hdisk, _, ht, hr⟩ := start_ok h0
  have hs := late_not_sync hp
  have hf : [p].filter (wantsSync c) = [] := by simp [hs]
  have hlate : [p].filter (wantsPrio c) ++ [p].filter (wantsLate c) = [p] := by
    have := (wants_excl c p).2
    rcases hp with h | h
    · simp [h, this h]
    · cases hq : wantsPrio c p with
      | false => simp [h, hq]
      | true => simp [this hq] at h
  rw [hlate] at ht
  have hb : lateBatches c [p] = [[p]] := by
    simp [lateBatches, hm, Memory.Batches.batches, Memory.Batches.loop]
  rw [hb] at ht
  rcases hr with ⟨_, hpc, hl⟩ | ⟨h, _⟩ | ⟨h, _⟩
  · cases hd : c.dispatcher with
    | false =>
      have r1 : Reach c (fun _ _ => True) s0 { s0 with device := d' } := .caller .refl trivial
      refine ⟨_, .step (.step (.step (.step r1 (.next hpc ht)) (.tell rfl (by simp)))
        (.write (f := false) (t := true) (by simp only [hd]; rfl) (fun _ => rfl))) (.finish rfl), ⟨rfl, rfl⟩, ?_⟩
      simp [hdisk, capture, entry]
    | true =>
      have r1 : Reach c (fun _ _ => True) s0 { s0 with device := d' } := .caller .refl trivial
      refine ⟨_, .step (.step (.step (.step (.step r1 (.next hpc ht)) (.arrive (by simp only [hd]; rfl)))
        (.tell rfl (by simp))) (.write (f := false) (t := true) rfl (fun _ => rfl))) (.finish rfl), ⟨rfl, rfl⟩, ?_⟩
      simp [hdisk, capture, entry]
  · exact absurd hf h
  · exact absurd hf h

/-! ### Non-vacuity -/

/-- Three arrays, one of each priority, the last one a random key. -/
def exampleParams : List Param :=
  [{ name := "a", cell := 0, arr := ⟨[⟨0, 0⟩], 4⟩, impl := none, arg := 1, size := 1, hostLocal := false },
   { name := "b", cell := 1, arr := ⟨[⟨0, 0⟩], 4⟩, impl := none, arg := 2, size := 1, hostLocal := false },
   { name := "k", cell := 2, arr := ⟨[⟨0, 0⟩], 8⟩, impl := some "rbg", arg := 3, size := 2, hostLocal := false }]

def exampleCfg (disp : Bool) : Cfg where
  processes := 2
  dispatcher := disp
  maxBytes := some 10
  priority := fun n => if n = "a" then .synchronous else if n = "b" then .asyncDeprioritized else .asyncPrioritized
  devices := [0]
  worker := fun _ => 0
  replicaId := some 0
  replicaParallel := false
  transaction := true

/-- C120: the hypotheses are met by a save of three arrays of different priorities, with and without a
dispatcher; the two in the background go into two batches, the one with priority first, and everything can be
written. -/
theorem C120_nonvacuous (disp : Bool) :
    (exampleParams.map Param.name).Nodup ∧
    (∃ s0, start (exampleCfg disp) exampleParams (fun i => i * 10) = .ok s0 ∧
      s0.todo.map (List.map Param.name) = [["k"], ["b"]] ∧
      ∃ s, Reach (exampleCfg disp) (fun _ _ => True) s0 s ∧ Done s) ∧
    (∀ p ∈ exampleParams, ∀ w, Memory.Batches.isWorker (exampleCfg disp).memory w →
      Memory.Batches.touches (exampleCfg disp).memory p.arr w) := by
  refine ⟨by decide, ?_, ?_⟩
  · have ⟨s0, h0⟩ : ∃ s0, start (exampleCfg disp) exampleParams (fun i => i * 10) = .ok s0 := by
      rw [C120_refused]
      refine ⟨.inr (by decide), .inr (by decide), .inr ?_⟩
      cases disp <;> decide
    refine ⟨s0, h0, ?_, C120_can_finish _ _ _ _ _ h0⟩
    rw [(start_ok h0).2.2.2.2.1]
    cases disp <;> decide
  · intro p hp w hw
    obtain ⟨x, hx, hxw⟩ := hw
    have : w = 0 := by rw [← hxw]; rfl
    subst this
    cases disp <;> simp [exampleParams] at hp <;> rcases hp with rfl | rfl | rfl <;>
      exact ⟨⟨0, 0⟩, by simp, by decide⟩

end Verif.Handlers.ArrayWrites
