import Verif.Tiering.Client

/-!
# Tiering service: the client object (C70)
-/
namespace Verif.Tiering.Client

/-- Specification: the client is used by one caller at a time: no `reserve` or `prefetch` is begun
while another one is waiting for its answer. -/
def OneAtATime (pathOf : Nat → Nat) : St → List Op → Prop
  | _, [] => True
  | s, o :: os => ((o = .reserve ∨ o = .prefetch) → .reserving ∉ s.calls ∧ .prefetching ∉ s.calls) ∧
      OneAtATime pathOf (step pathOf s o) os

/-- Calls that wait for the server to give them an asset. -/
def starting (c : Call) : Bool :=
  match c with
  | .reserving | .prefetching => true
  | _ => false

structure Inv (pathOf : Nat → Nat) (s : St) : Prop where
  /-- at most one call is waiting for an asset, and then none is active -/
  one : s.calls.countP starting ≤ 1
  idle : s.calls.countP starting = 1 → s.active = none
  /-- a running task is the current one and keeps the active asset alive -/
  run : ∀ (i : Nat) (t : Task), s.tasks[i]? = some t → t.running = true → s.task = some i ∧ s.active = some t.asset
  /-- the active asset has its task, unless the server has ended it -/
  kept : ∀ a, s.active = some a → ∃ (i : Nat) (t : Task), s.task = some i ∧ s.tasks[i]? = some t ∧ t.asset = a ∧
    (t.running = true ∨ t.ended = true)
  /-- the current future belongs to the current prefetch -/
  own : ∀ (i : Nat) (t : Task) (p : Nat), s.tasks[i]? = some t → t.running = true → t.tp = some p →
    ∀ f, s.fut = some f → ∀ (q : Nat), .awaiting q f ∈ s.calls → q = p
  /-- a future resolved for a call holds the path it asked for -/
  val : ∀ p f q, .awaiting p f ∈ s.calls → s.futs[f]? = some (.ok q) → q = pathOf p
  /-- futures of calls exist, and distinct calls have distinct ones -/
  bound : ∀ p f, .awaiting p f ∈ s.calls → f < s.futs.length
  fbound : ∀ f, s.fut = some f → f < s.futs.length
  ret : ∀ p q, (p, q) ∈ s.returned → q = pathOf p

theorem getElem?_modify' {α : Type} (l : List α) (i j : Nat) (f : α → α) :
    (l.modify i f)[j]? = l[j]?.map (fun x => if i = j then f x else x) := by
  rw [List.getElem?_modify]
  cases l[j]? <;> split <;> simp_all

theorem getElem?_snoc {α : Type} {l : List α} {x y : α} {i : Nat} (h : (l ++ [x])[i]? = some y) :
    l[i]? = some y ∨ (i = l.length ∧ y = x) := by
  rcases Nat.lt_trichotomy i l.length with hlt | rfl | hgt
  · rw [List.getElem?_append_left hlt] at h; exact Or.inl h
  · rw [List.getElem?_append_right (Nat.le_refl _)] at h; simp at h; exact Or.inr ⟨rfl, h.symm⟩
  · rw [List.getElem?_append_right (Nat.le_of_lt hgt)] at h
    have : i - l.length ≠ 0 := by omega
    cases hn : i - l.length with
    | zero => exact absurd hn this
    | succ n => rw [hn] at h; simp at h

theorem countP_eraseIdx_le {α : Type} (p : α → Bool) : ∀ (l : List α) (k : Nat), (l.eraseIdx k).countP p ≤ l.countP p := by
  intro l k
  exact List.Sublist.countP_le (List.eraseIdx_sublist ..)

theorem countP_eraseIdx {α : Type} (p : α → Bool) : ∀ (l : List α) (k : Nat) (x : α), l[k]? = some x → p x = true →
    (l.eraseIdx k).countP p + 1 = l.countP p
  | [], k, x, h, _ => by simp at h
  | y :: ys, 0, x, h, hp => by
    simp at h; subst h
    simp [hp]
  | y :: ys, k + 1, x, h, hp => by
    simp at h
    have := countP_eraseIdx p ys k x h hp
    simp only [List.eraseIdx_cons_succ, List.countP_cons]
    omega

theorem countP_set_neg {α : Type} (p : α → Bool) : ∀ (l : List α) (k : Nat) (x y : α), l[k]? = some x → p x = true →
    p y = false → (l.set k y).countP p + 1 = l.countP p
  | [], k, x, y, h, _, _ => by simp at h
  | z :: zs, 0, x, y, h, hp, hy => by
    simp at h; subst h
    simp [hp, hy]
  | z :: zs, k + 1, x, y, h, hp, hy => by
    simp at h
    have := countP_set_neg p zs k x y h hp hy
    simp only [List.set_cons_succ, List.countP_cons]
    omega

theorem mem_eraseIdx {α : Type} {l : List α} {k : Nat} {x : α} (h : x ∈ l.eraseIdx k) : x ∈ l :=
  (List.eraseIdx_sublist ..).subset h

theorem mem_set' {α : Type} {l : List α} {k : Nat} {x y : α} (h : x ∈ l.set k y) : x ∈ l ∨ x = y :=
  List.mem_or_eq_of_mem_set h

theorem starting_pos {l : List Call} {k : Nat} {c : Call} (h : l[k]? = some c) (hc : starting c = true) : 1 ≤ l.countP starting := by
  have := countP_eraseIdx starting l k c h hc
  omega

theorem inv_init (pathOf : Nat → Nat) : Inv pathOf {} := by
  refine ⟨?_, ?_, ?_, ?_, ?_, ?_, ?_, ?_, ?_⟩ <;> simp

/-- Cancelling the task and forgetting the asset. -/
theorem inv_stop {pathOf : Nat → Nat} {s : St} (h : Inv pathOf s) : Inv pathOf (reset (cancelTask s)) := by
  have hr : ∀ (i : Nat) (t : Task), (reset (cancelTask s)).tasks[i]? = some t → t.running = false := by
    intro i t ht
    cases hrun : t.running with
    | false => rfl
    | true =>
      exfalso
      unfold reset cancelTask at ht
      cases hk : s.task with
      | none =>
        rw [hk] at ht
        have := (h.run i t ht hrun).1
        rw [hk] at this; cases this
      | some k =>
        rw [hk] at ht
        have ht : (s.tasks.modify k fun t => { t with running := false })[i]? = some t := ht
        rw [getElem?_modify'] at ht
        cases h0 : s.tasks[i]? with
        | none => rw [h0] at ht; simp at ht
        | some t0 =>
          rw [h0] at ht
          simp only [Option.map_some, Option.some.injEq] at ht
          split at ht
          · subst ht; simp at hrun
          · next hki =>
            subst ht
            have := (h.run i t0 h0 hrun).1
            rw [hk] at this; cases this; exact hki rfl
  have hcalls : (reset (cancelTask s)).calls = s.calls := by unfold reset cancelTask; cases s.task <;> rfl
  have hfuts : (reset (cancelTask s)).futs = s.futs := by unfold reset cancelTask; cases s.task <;> rfl
  have hfut : (reset (cancelTask s)).fut = s.fut := by unfold reset cancelTask; cases s.task <;> rfl
  have hret : (reset (cancelTask s)).returned = s.returned := by unfold reset cancelTask; cases s.task <;> rfl
  refine ⟨by rw [hcalls]; exact h.one, fun _ => rfl, ?_, ?_, ?_, ?_, ?_, ?_, ?_⟩
  · intro i t ht hrun; rw [hr i t ht] at hrun; cases hrun
  · intro a ha; cases ha
  · intro i t p ht hrun; rw [hr i t ht] at hrun; cases hrun
  · rw [hcalls, hfuts]; exact h.val
  · rw [hcalls, hfuts]; exact h.bound
  · rw [hfut, hfuts]; exact h.fbound
  · rw [hret]; exact h.ret

theorem stop_idle (s : St) (pathOf : Nat → Nat) (h : Inv pathOf s) (i : Nat) (t : Task)
    (ht : (reset (cancelTask s)).tasks[i]? = some t) : t.running = false := by
  cases hrun : t.running with
  | false => rfl
  | true => have := ((inv_stop h).run i t ht hrun).2; cases this

/-- Removing calls. -/
theorem inv_calls {pathOf : Nat → Nat} {s : St} (h : Inv pathOf s) {cs : List Call} (hs : cs.Sublist s.calls) :
    Inv pathOf { s with calls := cs } where
  one := Nat.le_trans (hs.countP_le) h.one
  idle := by
    intro e
    have e : cs.countP starting = 1 := e
    have := hs.countP_le (p := starting)
    have := h.one
    exact h.idle (by omega)
  run := h.run
  kept := h.kept
  own := fun i t p ht hr htp f hf q hq => h.own i t p ht hr htp f hf q (hs.subset hq)
  val := fun p f q hq => h.val p f q (hs.subset hq)
  bound := fun p f hq => h.bound p f (hs.subset hq)
  fbound := h.fbound
  ret := h.ret

theorem inv_release {pathOf : Nat → Nat} {s : St} (h : Inv pathOf s) : Inv pathOf (release s) := by
  have h1 := inv_stop h
  unfold release
  dsimp only
  cases hf : (cancelTask s).fut with
  | none => exact h1
  | some f =>
    dsimp only
    split
    · next hp =>
      let s1 := reset (cancelTask s)
      have h1 : Inv pathOf s1 := h1
      have hlt : f < (cancelTask s).futs.length := (List.getElem?_eq_some_iff.1 hp).1
      show Inv pathOf { s1 with futs := s1.futs.set f .cancelled, fut := none,
                                calls := s1.calls.filter fun c => match c with
                                  | .awaiting _ f' => decide (f' ≠ f)
                                  | _ => true }
      have h2 := inv_calls h1 (cs := s1.calls.filter fun c => match c with
                                  | .awaiting _ f' => decide (f' ≠ f)
                                  | _ => true) List.filter_sublist
      exact {
        one := h2.one
        idle := h2.idle
        run := h2.run
        kept := h2.kept
        own := fun i t p ht hr htp f' hf' => by cases hf'
        val := by
          intro p f' q hq he
          have he : (s1.futs.set f .cancelled)[f']? = some (.ok q) := he
          rw [List.getElem?_set] at he
          split at he
          · split at he <;> cases he
          · exact h2.val p f' q hq he
        bound := fun p f' hq => by
          show f' < (s1.futs.set f .cancelled).length
          rw [List.length_set]; exact h2.bound p f' hq
        fbound := fun f' hf' => by cases hf'
        ret := h2.ret }
    · exact h1

theorem inv_settle {pathOf : Nat → Nat} {s : St} (h : Inv pathOf s) (v : Fut)
    (hv : ∀ f, s.fut = some f → ∀ q, v = .ok q → ∀ p, .awaiting p f ∈ s.calls → q = pathOf p) :
    Inv pathOf (settleCurrent s v) := by
  cases hf : s.fut with
  | none => simp only [settleCurrent, hf]; exact h
  | some f =>
    have e : settleCurrent s v = { s with futs := s.futs.modify f (settle v) } := by simp only [settleCurrent, hf]
    rw [e]
    exact {
      one := h.one
      idle := h.idle
      run := h.run
      kept := h.kept
      own := h.own
      val := by
        intro p f' q hq he
        replace he : (s.futs.modify f (settle v))[f']? = some (.ok q) := he
        rw [getElem?_modify'] at he
        cases h0 : s.futs[f']? with
        | none => rw [h0] at he; simp at he
        | some x =>
          rw [h0] at he
          simp only [Option.map_some, Option.some.injEq] at he
          split at he
          · next e =>
            subst e
            simp only [settle] at he
            split at he
            · exact hv f hf q he p hq
            · subst he; exact h.val p f q hq h0
          · subst he; exact h.val p f' q hq h0
      bound := fun p f' hq => by
        show f' < (s.futs.modify f _).length
        rw [List.length_modify]; exact h.bound p f' hq
      fbound := fun f' hf' => by
        show f' < (s.futs.modify f _).length
        rw [List.length_modify]; exact h.fbound f' hf'
      ret := h.ret }

theorem inv_endTask {pathOf : Nat → Nat} {s : St} (h : Inv pathOf s) (i : Nat) : Inv pathOf (endTask s i) := by
  have old : ∀ (k : Nat) (t : Task), (endTask s i).tasks[k]? = some t → t.running = true → s.tasks[k]? = some t := by
    intro k t ht hr
    have ht : (s.tasks.modify i fun t => { t with running := false, ended := true })[k]? = some t := ht
    rw [getElem?_modify'] at ht
    cases h0 : s.tasks[k]? with
    | none => rw [h0] at ht; simp at ht
    | some x =>
      rw [h0] at ht
      simp only [Option.map_some, Option.some.injEq] at ht
      split at ht
      · subst ht; simp at hr
      · rw [ht]
  exact {
    one := h.one
    idle := h.idle
    run := fun k t ht hr => h.run k t (old k t ht hr) hr
    kept := by
      intro a ha
      obtain ⟨k, t, hk, ht, e, hre⟩ := h.kept a ha
      refine ⟨k, if i = k then { t with running := false, ended := true } else t, hk, ?_, ?_, ?_⟩
      · show (s.tasks.modify i _)[k]? = _
        rw [getElem?_modify', ht]; rfl
      · split <;> exact e
      · split
        · exact Or.inr rfl
        · exact hre
    own := fun k t p ht hr => h.own k t p (old k t ht hr) hr
    val := h.val
    bound := h.bound
    fbound := h.fbound
    ret := h.ret }

theorem inv_step {pathOf : Nat → Nat} {s : St} (h : Inv pathOf s) (o : Op)
    (ho : (o = .reserve ∨ o = .prefetch) → .reserving ∉ s.calls ∧ .prefetching ∉ s.calls) :
    Inv pathOf (step pathOf s o) := by
  have start : ∀ c, starting c = true → (∀ p f, c ≠ .awaiting p f) → s.active = none →
      (.reserving ∉ s.calls ∧ .prefetching ∉ s.calls) → Inv pathOf { s with calls := s.calls ++ [c] } := by
    intro c hc hna ha hn
    have h0 : s.calls.countP starting = 0 := by
      rw [List.countP_eq_zero]
      intro c' hc' hs
      cases c' <;> simp [starting] at hs
      · exact hn.1 hc'
      · exact hn.2 hc'
    have hm : ∀ p f, Call.awaiting p f ∈ s.calls ++ [c] → Call.awaiting p f ∈ s.calls := by
      intro p f hmem
      rcases List.mem_append.1 hmem with h | h
      · exact h
      · exact absurd (List.mem_singleton.1 h).symm (hna p f)
    exact {
      one := by
        show (s.calls ++ [c]).countP starting ≤ 1
        rw [List.countP_append, h0]; simp [hc]
      idle := fun _ => ha
      run := h.run
      kept := h.kept
      own := fun i t p ht hr htp f hf q hq => h.own i t p ht hr htp f hf q (hm q f hq)
      val := fun p f q hq => h.val p f q (hm p f hq)
      bound := fun p f hq => h.bound p f (hm p f hq)
      fbound := h.fbound
      ret := h.ret }
  cases o with
  | reserve =>
    simp only [step]
    split
    · exact h
    · next ha => exact start .reserving rfl (by simp) (by simpa using ha) (ho (Or.inl rfl))
  | prefetch =>
    simp only [step]
    split
    · exact h
    · next ha => exact start .prefetching rfl (by simp) (by simpa using ha) (ho (Or.inr rfl))
  | reserved k a p =>
    simp only [step]
    split
    · next hk =>
      have hpos := starting_pos hk rfl
      have hone := h.one
      have hact := h.idle (by omega)
      have hnone : ∀ (i : Nat) (t : Task), s.tasks[i]? = some t → t.running = false := by
        intro i t ht
        cases hr : t.running with
        | false => rfl
        | true => have := (h.run i t ht hr).2; rw [hact] at this; cases this
      have h2 := inv_calls h (cs := s.calls.eraseIdx k) (List.eraseIdx_sublist ..)
      have hc := countP_eraseIdx starting s.calls k _ hk rfl
      exact {
        one := h2.one
        idle := by
          intro e
          have e : (s.calls.eraseIdx k).countP starting = 1 := e
          omega
        run := by
          intro i t ht hr
          rcases getElem?_snoc ht with ht | ⟨rfl, rfl⟩
          · rw [hnone i t ht] at hr; cases hr
          · exact ⟨rfl, rfl⟩
        kept := by
          intro a' ha'
          cases ha'
          exact ⟨s.tasks.length, { asset := a, tp := none }, rfl, by simp, rfl, Or.inl rfl⟩
        own := by
          intro i t p ht hr htp
          rcases getElem?_snoc ht with ht | ⟨rfl, rfl⟩
          · rw [hnone i t ht] at hr; cases hr
          · cases htp
        val := h2.val
        bound := h2.bound
        fbound := h.fbound
        ret := h.ret }
    · exact h
  | prefetched k a p ready =>
    simp only [step]
    split
    · next hk =>
      have hpos := starting_pos hk rfl
      have hone := h.one
      have hact := h.idle (by omega)
      have hnone : ∀ (i : Nat) (t : Task), s.tasks[i]? = some t → t.running = false := by
        intro i t ht
        cases hr : t.running with
        | false => rfl
        | true => have := (h.run i t ht hr).2; rw [hact] at this; cases this
      have hc := countP_set_neg starting s.calls k _ (.awaiting p s.futs.length) hk rfl rfl
      exact {
        one := by
          show (s.calls.set k _).countP starting ≤ 1
          omega
        idle := by
          intro e
          have e : (s.calls.set k (.awaiting p s.futs.length)).countP starting = 1 := e
          omega
        run := by
          intro i t ht hr
          rcases getElem?_snoc ht with ht | ⟨rfl, rfl⟩
          · rw [hnone i t ht] at hr; cases hr
          · exact ⟨rfl, rfl⟩
        kept := by
          intro a' ha'
          cases ha'
          exact ⟨s.tasks.length, { asset := a, tp := some p }, rfl, by simp, rfl, Or.inl rfl⟩
        own := by
          intro i t q ht hr htp f hf q' hq'
          rcases getElem?_snoc ht with ht | ⟨rfl, rfl⟩
          · rw [hnone i t ht] at hr; cases hr
          · cases htp
            cases hf
            rcases mem_set' hq' with hq' | hq'
            · have := h.bound _ _ hq'; omega
            · cases hq'; rfl
        val := by
          intro p' f' q hq he
          rcases mem_set' hq with hq' | hq'
          · have := h.bound _ _ hq'
            have he : (s.futs ++ _)[f']? = some (.ok q) := he
            rw [List.getElem?_append_left this] at he
            exact h.val p' f' q hq' he
          · cases hq'
            have he : (s.futs ++ [if ready = true then Fut.ok (pathOf p) else Fut.pending])[s.futs.length]? = some (.ok q) := he
            rw [List.getElem?_append_right (Nat.le_refl _)] at he
            simp only [Nat.sub_self, List.getElem?_cons_zero, Option.some.injEq] at he
            split at he
            · cases he; rfl
            · cases he
        bound := by
          intro p' f' hq
          show f' < (s.futs ++ [_]).length
          rw [List.length_append]
          rcases mem_set' hq with hq' | hq'
          · have := h.bound _ _ hq'; simp; omega
          · cases hq'; simp
        fbound := by
          intro f' hf'
          cases hf'
          show s.futs.length < (s.futs ++ [_]).length
          simp
        ret := h.ret }
    · exact h
  | error k =>
    simp only [step]
    split
    · exact inv_calls h (List.eraseIdx_sublist ..)
    · exact inv_calls h (List.eraseIdx_sublist ..)
    · exact inv_stop (inv_calls h (List.eraseIdx_sublist ..))
    · exact h
  | finalize a =>
    simp only [step]
    have hm : ∀ p f, Call.awaiting p f ∈ s.calls ++ [.finalizing] → Call.awaiting p f ∈ s.calls := by
      intro p f hmem
      rcases List.mem_append.1 hmem with h | h
      · exact h
      · simp at h
    have hc : (s.calls ++ [Call.finalizing]).countP starting = s.calls.countP starting := by
      rw [List.countP_append]; simp [starting]
    exact {
      one := by show (s.calls ++ [_]).countP starting ≤ 1; rw [hc]; exact h.one
      idle := fun e => h.idle (by rw [← hc]; exact e)
      run := h.run
      kept := h.kept
      own := fun i t p ht hr htp f hf q hq => h.own i t p ht hr htp f hf q (hm q f hq)
      val := fun p f q hq => h.val p f q (hm p f hq)
      bound := fun p f hq => h.bound p f (hm p f hq)
      fbound := h.fbound
      ret := h.ret }
  | finalized k =>
    simp only [step]
    split
    · exact inv_stop (inv_calls h (List.eraseIdx_sublist ..))
    · exact h
  | release => exact inv_release h
  | releasePath p =>
    simp only [step]
    split
    · exact inv_release h
    · exact h
  | keepAlive i a =>
    simp only [step, keepAlive]
    split
    · next t ht =>
      split
      · next hr =>
        split
        · exact inv_endTask h i
        · exact h
        · exact h
        · next p htp =>
          refine inv_settle h _ ?_
          intro f hf q e p' hp'
          cases e
          rw [h.own i t p ht hr htp f hf p' hp']
        · next p htp => exact inv_endTask (inv_settle h _ (fun _ _ _ e => by cases e)) i
      · exact h
    · exact h
  | resume k =>
    simp only [step]
    split
    · next p f hk =>
      split
      · next q hq =>
        have h2 := inv_calls h (cs := s.calls.eraseIdx k) (List.eraseIdx_sublist ..)
        refine ⟨h2.one, h2.idle, h2.run, h2.kept, h2.own, h2.val, h2.bound, h2.fbound, ?_⟩
        intro p' q' hm
        rcases List.mem_append.1 hm with hm | hm
        · exact h.ret p' q' hm
        · simp at hm
          rw [hm.1, hm.2]
          exact h.val p f q (List.mem_of_getElem? hk) hq
      · exact inv_calls h (List.eraseIdx_sublist ..)
      · exact h
    · exact h

theorem inv_run {pathOf : Nat → Nat} : ∀ (ops : List Op) (s : St), Inv pathOf s → OneAtATime pathOf s ops →
    Inv pathOf (run pathOf s ops)
  | [], _, h, _ => h
  | _ :: os, _, h, ho => inv_run os _ (inv_step h _ ho.1) ho.2

/-- C70: while the client manages an asset, a `reserve` or `prefetch` is refused and changes nothing. -/
theorem C70_refused (pathOf : Nat → Nat) (s : St) (a : Nat) (h : s.active = some a) :
    step pathOf s .reserve = s ∧ step pathOf s .prefetch = s := by
  simp [step, h]

/-- C70: used by one caller at a time, the client keeps alive exactly the asset it manages: every
running keep-alive task is for the active asset, and there is only one; and the active asset has its
task, running unless the server has answered that the asset is gone. -/
theorem C70_keep_alive_partial (pathOf : Nat → Nat) (ops : List Op) (ho : OneAtATime pathOf {} ops) :
    let s := run pathOf {} ops
    (∀ (i j : Nat) (t u : Task), s.tasks[i]? = some t → t.running = true → s.tasks[j]? = some u → u.running = true → i = j) ∧
    (∀ t ∈ s.tasks, t.running = true → s.active = some t.asset) ∧
    (∀ a, s.active = some a → ∃ t ∈ s.tasks, t.asset = a ∧ (t.running = true ∨ t.ended = true)) := by
  have h := inv_run ops {} (inv_init pathOf) ho
  intro s
  have h : Inv pathOf s := h
  refine ⟨?_, ?_, ?_⟩
  · intro i j t u ht hr hu hr'
    have e1 := (h.run i t ht hr).1
    have e2 := (h.run j u hu hr').1
    rw [e1] at e2; cases e2; rfl
  · intro t ht hr
    obtain ⟨i, hi⟩ := List.getElem?_of_mem ht
    exact (h.run i t hi hr).2
  · intro a ha
    obtain ⟨i, t, _, ht, e, hre⟩ := h.kept a ha
    exact ⟨t, List.mem_of_getElem? ht, e, hre⟩

/-- C70: used by one caller at a time, a `prefetch` returns only the path of the tier path it asked
for. -/
theorem C70_prefetch_path_partial (pathOf : Nat → Nat) (ops : List Op) (ho : OneAtATime pathOf {} ops) (p q : Nat)
    (h : (p, q) ∈ (run pathOf {} ops).returned) : q = pathOf p :=
  (inv_run ops {} (inv_init pathOf) ho).ret p q h

theorem release_idle (pathOf : Nat → Nat) (s : St) (h : Inv pathOf s) :
    (release s).active = none ∧ ∀ t ∈ (release s).tasks, t.running = false := by
  have ht : (release s).tasks = (reset (cancelTask s)).tasks := by
    unfold release
    dsimp only
    cases (cancelTask s).fut with
    | none => rfl
    | some f => dsimp only; split <;> rfl
  refine ⟨rfl, fun t hm => ?_⟩
  rw [ht] at hm
  obtain ⟨i, hi⟩ := List.getElem?_of_mem hm
  exact stop_idle s pathOf h i t hi

/-- C70: used by one caller at a time, after `release`, and after `finalize` has returned or raised, no
keep-alive runs and a new `reserve` is accepted. -/
theorem C70_released_partial (pathOf : Nat → Nat) (ops : List Op) (ho : OneAtATime pathOf {} ops) (o : Op)
    (h : o = .release ∨ ∃ k, (run pathOf {} ops).calls[k]? = some .finalizing ∧ (o = .finalized k ∨ o = .error k)) :
    let s := step pathOf (run pathOf {} ops) o
    (∀ t ∈ s.tasks, t.running = false) ∧ s.active = none ∧ (step pathOf s .reserve).calls = s.calls ++ [.reserving] := by
  have hi := inv_run ops {} (inv_init pathOf) ho
  intro s
  have key : s.active = none ∧ ∀ t ∈ s.tasks, t.running = false := by
    rcases h with rfl | ⟨k, hk, rfl | rfl⟩
    · exact release_idle pathOf _ hi
    · have e : s = reset (cancelTask { run pathOf {} ops with calls := (run pathOf {} ops).calls.eraseIdx k }) := by
        show step pathOf _ _ = _
        simp only [step, hk]
      rw [e]
      refine ⟨rfl, fun t hm => ?_⟩
      obtain ⟨i, hi'⟩ := List.getElem?_of_mem hm
      exact stop_idle _ pathOf (inv_calls hi (List.eraseIdx_sublist ..)) i t hi'
    · have e : s = reset (cancelTask { run pathOf {} ops with calls := (run pathOf {} ops).calls.eraseIdx k }) := by
        show step pathOf _ _ = _
        simp only [step, hk]
      rw [e]
      refine ⟨rfl, fun t hm => ?_⟩
      obtain ⟨i, hi'⟩ := List.getElem?_of_mem hm
      exact stop_idle _ pathOf (inv_calls hi (List.eraseIdx_sublist ..)) i t hi'
  exact ⟨key.2, key.1, by simp [step, key.1]⟩

/-- C70: from every idle state, a `prefetch` whose copy is ready at once, or is reported ready by its
keep-alive, returns the path. -/
theorem C70_prefetch_returns (pathOf : Nat → Nat) (s : St) (a p : Nat) (ready : Bool) (h : s.active = none) :
    (run pathOf s [.prefetch, .prefetched s.calls.length a p ready, .keepAlive s.tasks.length .ready,
      .resume s.calls.length]).returned = s.returned ++ [(p, pathOf p)] := by
  cases ready <;>
    simp [run, step, h, keepAlive, settleCurrent, settle]

def clientExample : List Op :=
  [.reserve, .reserved 0 1 11, .keepAlive 0 .ok, .finalize 1, .finalized 0, .prefetch, .prefetched 0 2 5 false,
   .keepAlive 1 .ready, .resume 0]

theorem C70_nonvacuous : OneAtATime (· + 100) {} clientExample ∧
    (run (· + 100) {} clientExample).returned = [(5, 105)] ∧ (run (· + 100) {} clientExample).active = some 2 := by
  refine ⟨?_, by decide, by decide⟩
  simp [OneAtATime, clientExample, step, reset, cancelTask, keepAlive]

/-- C70 (finding): the test for an active operation and its registration are separated by the RPC: of two
concurrent `prefetch` calls both pass it, the second replaces the first one's future, and the answer
to the first one's keep-alive resolves the second one's: the call for tier path 6 returns the path of
tier path 5, and the call for 5 waits for ever (no further keep-alive can resolve its future). -/
theorem C70_wrong_path_fails : ∃ ops, (6, 5) ∈ (run id {} ops).returned ∧
    .awaiting 5 0 ∈ (run id {} ops).calls ∧ (run id {} ops).fut ≠ some 0 :=
  ⟨[.prefetch, .prefetch, .prefetched 0 1 5 false, .prefetched 1 2 6 false, .keepAlive 0 .ready, .resume 1],
    by decide, by decide, by decide⟩

/-- C70 (finding): in the same way two concurrent `reserve` calls both succeed; the client forgets the
first asset, whose keep-alive is then stopped by no number of calls of `finalize` and `release`. -/
theorem C70_orphan_fails : ∃ ops : List Op, ∀ n : Nat,
    let s := run id {} (ops ++ (List.replicate n [Op.finalize 1, .finalized 0, .release]).flatten)
    ∃ t ∈ s.tasks, t.asset = 1 ∧ t.running = true := by
  refine ⟨[.reserve, .reserve, .reserved 0 1 11, .reserved 0 2 12], fun n => ?_⟩
  have happ : ∀ (xs ys : List Op) (s : St), run id s (xs ++ ys) = run id (run id s xs) ys := by
    intro xs
    induction xs with
    | nil => intro ys s; rfl
    | cons x xs ih => intro ys s; exact ih ys _
  have e1 : run id {} [.reserve, .reserve, .reserved 0 1 11, .reserved 0 2 12] =
      { active := some 2, path := some 12, task := some 1, tasks := [{ asset := 1, tp := none }, { asset := 2, tp := none }] } := by
    decide
  have e2 : ∀ n : Nat, run id { tasks := [{ asset := 1, tp := none }, { asset := 2, tp := none, running := false }] }
      (List.replicate n [Op.finalize 1, .finalized 0, .release]).flatten =
      { tasks := [{ asset := 1, tp := none }, { asset := 2, tp := none, running := false }] } := by
    intro n
    induction n with
    | zero => rfl
    | succ n ih => rw [List.replicate_succ, List.flatten_cons, happ]; exact ih
  intro s
  have hs : s = run id (run id {} [.reserve, .reserve, .reserved 0 1 11, .reserved 0 2 12])
      (List.replicate n [Op.finalize 1, .finalized 0, .release]).flatten := happ _ _ _
  rw [e1] at hs
  cases n with
  | zero =>
    rw [hs]
    exact ⟨{ asset := 1, tp := none }, by simp [run], rfl, rfl⟩
  | succ n =>
    rw [List.replicate_succ, List.flatten_cons, happ] at hs
    have : s = run id { tasks := [{ asset := 1, tp := none }, { asset := 2, tp := none, running := false }] }
      (List.replicate n [Op.finalize 1, .finalized 0, .release]).flatten := hs
    rw [e2] at this
    rw [this]
    exact ⟨{ asset := 1, tp := none }, by simp, rfl, rfl⟩

/-- C70 (finding): `finalize` does not look at which asset it is given: finalizing another asset, with
whatever result, ends the keep-alive of the one being written. -/
theorem C70_finalize_other_fails (pathOf : Nat → Nat) (other : Nat) :
    let s := run pathOf {} [.reserve, .reserved 0 1 11]
    (∃ t ∈ s.tasks, t.asset = 1 ∧ t.running = true) ∧
    ∀ o ∈ [Op.finalized 0, .error 0], ∀ t ∈ (run pathOf s [.finalize other, o]).tasks, t.running = false := by
  refine ⟨⟨{ asset := 1, tp := none }, by simp [run, step], rfl, rfl⟩, ?_⟩
  intro o ho
  simp only [List.mem_cons, List.not_mem_nil, or_false] at ho
  rcases ho with rfl | rfl
  · intro t ht
    have : t ∈ [({ asset := 1, tp := none, running := false } : Task)] := ht
    simp at this; rw [this]
  · intro t ht
    have : t ∈ [({ asset := 1, tp := none, running := false } : Task)] := ht
    simp at this; rw [this]

/-- C70 (finding): a `finalize` while a `prefetch` waits for its copy stops the keep-alive but leaves the
future alone: nothing that the server can answer makes the `prefetch` return. -/
theorem C70_finalize_hangs_fails (as : List (Nat × Answer)) :
    let s := run id {} [.prefetch, .prefetched 0 1 5 false, .finalize 1, .finalized 1]
    s.active = none ∧ run id s (as.flatMap fun x => [.keepAlive x.1 x.2, .resume 0]) = s ∧ s.calls = [.awaiting 5 0] := by
  intro s
  have e : s = { calls := [.awaiting 5 0], futs := [.pending], fut := some 0,
                 tasks := [{ asset := 1, tp := some 5, running := false }] } := by decide
  rw [e]
  refine ⟨rfl, ?_, rfl⟩
  induction as with
  | nil => rfl
  | cons x xs ih =>
    obtain ⟨i, a⟩ := x
    cases i with
    | zero => exact ih
    | succ i => exact ih

/-- C70 (finding): `release_path` releases whatever asset is active, whatever path it is given. -/
theorem C70_release_path_fails (pathOf : Nat → Nat) (s : St) (a p : Nat) (ha : s.active = some a) :
    step pathOf s (.releasePath p) = step pathOf s .release ∧ (step pathOf s (.releasePath p)).active = none := by
  simp [step, ha, release, reset]

/-- C70 (finding): a `prefetch` that fails leaves its asset registered: every later `reserve` and
`prefetch` is refused until the caller releases an asset that they were never given. -/
theorem C70_failed_prefetch_fails (pathOf : Nat → Nat) :
    let s := run pathOf {} [.prefetch, .prefetched 0 1 5 false, .keepAlive 0 .gone, .resume 0]
    s.calls = [] ∧ s.returned = [] ∧ s.active = some 1 ∧ step pathOf s .prefetch = s := by
  refine ⟨rfl, rfl, rfl, rfl⟩

end Verif.Tiering.Client
