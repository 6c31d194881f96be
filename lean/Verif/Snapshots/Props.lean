import Verif.Snapshots.Spec

/-! Properties of snapshots in host memory (C94). -/

namespace Verif.Snapshots

open Spec

variable {mesh : List Nat} {heap : Nat → Nat} {evs : List Ev} {s : St}

theorem saved_append : ∀ a b : List Ev, saved (a ++ b) = saved a ++ saved b
  | [], _ => rfl
  | e :: a, b => by cases e <;> simp [saved, saved_append a b]

theorem finished_append : ∀ a b : List Ev, finished (a ++ b) = finished a ++ finished b
  | [], _ => rfl
  | e :: a, b => by cases e <;> simp [finished, finished_append a b]

theorem kept_append : ∀ a b : List Ev, kept (a ++ b) = kept a ++ kept b
  | [], _ => rfl
  | e :: a, b => by cases e <;> simp [kept, kept_append a b]

def Snap.content (n : Snap) : Nat × List Leaf := (n.step, n.state)

def St.busy (s : St) : List Snap :=
  match s.worker with
  | .busy n => [n]
  | _ => []

/-- The worker and the queue hold what has been saved and is not finished. -/
structure Flow (evs : List Ev) (s : St) : Prop where
  order : saved evs = finished evs ++ (s.busy ++ s.queue).map Snap.content
  count : s.unfinished = s.busy.length + s.queue.length
  room : s.queue.length ≤ 1

theorem flow (h : Run mesh heap evs s) : Flow evs s := by
  induction h with
  | nil => exact ⟨rfl, rfl, Nat.zero_le _⟩
  | @snoc evs s e s' _ st ih =>
    obtain ⟨ho, hc, hr⟩ := ih
    cases st with
    | skipped => exact ⟨by simpa [saved_append, finished_append, saved, finished, St.busy] using ho, hc, hr⟩
    | accepted => exact ⟨by simpa [saved_append, finished_append, saved, finished, St.busy] using ho, hc, hr⟩
    | put hm hq =>
      have h0 : s.queue = [] := List.length_eq_zero_iff.1 (by omega)
      refine ⟨?_, ?_, ?_⟩
      · simp only [saved_append, finished_append, saved, finished, List.append_nil, ho, h0, List.nil_append]
        simp [St.busy, Snap.content]
      · simp only [hc, h0]; simp [St.busy]
      · simp [h0]
    | taken hw hq =>
      refine ⟨?_, ?_, ?_⟩
      · simp only [saved_append, finished_append, saved, finished, List.append_nil, ho, hq]
        simp [St.busy, hw]
      · rw [hc, hq]; simp [St.busy, hw, Nat.add_comm]
      · rw [hq] at hr; simp at hr ⊢; simp [hr]
    | kept hw =>
      refine ⟨?_, ?_, hr⟩
      · simp only [saved_append, finished_append, saved, finished, List.append_nil, ho]
        simp [St.busy, hw, Snap.content]
      · simp [hc, St.busy, hw]
    | failed hw =>
      refine ⟨?_, ?_, hr⟩
      · simp only [saved_append, finished_append, saved, finished, List.append_nil, ho]
        simp [St.busy, hw, Snap.content]
      · simp [hc, St.busy, hw]
    | died hw =>
      refine ⟨?_, ?_, hr⟩
      · simp only [saved_append, finished_append, saved, finished, List.append_nil, ho]
        simp [St.busy, hw, Snap.content]
      · simp [hc, St.busy, hw]
    | read => exact ⟨by simpa [saved_append, finished_append, saved, finished, St.busy] using ho, hc, hr⟩
    | empty => exact ⟨by simpa [saved_append, finished_append, saved, finished, St.busy] using ho, hc, hr⟩
    | gone => exact ⟨by simpa [saved_append, finished_append, saved, finished, St.busy] using ho, hc, hr⟩
    | loaded => exact ⟨by simpa [saved_append, finished_append, saved, finished, St.busy] using ho, hc, hr⟩
    | joined => exact ⟨by simpa [saved_append, finished_append, saved, finished, St.busy] using ho, hc, hr⟩
    | lose => exact ⟨by simpa [saved_append, finished_append, saved, finished, St.busy] using ho, hc, hr⟩
    | change => exact ⟨by simpa [saved_append, finished_append, saved, finished, St.busy] using ho, hc, hr⟩

/-- C94: states are finished in the order in which they were saved, each once, and at most two are in flight. -/
theorem C94_order (h : Run mesh heap evs s) :
    ∃ rest, saved evs = finished evs ++ rest ∧ rest.length ≤ 2 := by
  obtain ⟨ho, hc, hr⟩ := flow h
  refine ⟨_, ho, ?_⟩
  have : s.busy.length ≤ 1 := by simp only [St.busy]; split <;> simp
  simp only [List.length_map, List.length_append]; omega

/-- C94: when `join` returns, the worker has finished everything that was saved before. -/
theorem C94_join {evs₁ evs₂ : List Ev} (h : Run mesh heap (evs₁ ++ .joined :: evs₂) s) : finished evs₁ = saved evs₁ := by
  have key : ∀ es t, Run mesh heap es t → ∀ a b, es = a ++ Ev.joined :: b → finished a = saved a := by
    intro es t hr
    induction hr with
    | nil => intro a b e; simp at e
    | @snoc es t e t' hr st ih =>
      intro a b he
      rcases List.eq_nil_or_concat b with rfl | ⟨b', x, rfl⟩
      · obtain ⟨rfl, he2⟩ := List.append_inj' he rfl
        cases he2
        cases st with
        | joined h0 =>
          obtain ⟨ho, hc, -⟩ := flow hr
          have h1 : t.busy = [] := List.length_eq_zero_iff.1 (by omega)
          have h2 : t.queue = [] := List.length_eq_zero_iff.1 (by omega)
          rw [ho, h1, h2]; simp
      · have he' : es ++ [e] = (a ++ Ev.joined :: b') ++ [x] := by simpa using he
        obtain ⟨h1, -⟩ := List.append_inj' he' rfl
        exact ih a b' h1
  exact key _ s h _ _ rfl

/-- C94: while no load resets it, the latest snapshot is the last one the worker has kept. -/
theorem C94_latest (h : Run mesh heap evs s) (hn : NoReset evs) : latest s = (kept evs).getLast? := by
  induction h with
  | nil => rfl
  | @snoc evs s e s' _ st ih =>
    have hn' : NoReset evs := fun n l hm => hn n l (List.mem_append_left _ hm)
    have ih := ih hn'
    cases st with
    | kept hw => simp [kept_append, kept, latest, Snap.state]
    | loaded reset =>
      cases reset with
      | false => simpa [kept_append, kept, latest] using ih
      | true => exact absurd (List.mem_append_right _ List.mem_cons_self) (hn _ _)
    | _ => simpa [kept_append, kept, latest] using ih

/-! ### What snapshots hold -/

theorem revive_leaf {lost : List Nat} {p q : Pinned} (h : revive lost mesh p = some q) : q.leaf = p.leaf := by
  simp only [revive] at h
  split at h
  · rename_i v hv
    split at h
    · cases h
    · cases h; exact hv.symm
  · rename_i o ho
    cases h; exact ho.symm

theorem reviveAll_leaf {lost : List Nat} : ∀ {ps qs : List Pinned}, reviveAll lost mesh ps = some qs → qs.map (·.leaf) = ps.map (·.leaf)
  | [], qs, h => by cases h; rfl
  | p :: ps, qs, h => by
    simp only [reviveAll, Option.bind_eq_some_iff, Option.map_eq_some_iff] at h
    obtain ⟨q, hq, rs, hrs, rfl⟩ := h
    simp [revive_leaf hq, reviveAll_leaf hrs]

/-- All arrays are held by all replicas of the mesh. -/
def Full (mesh : List Nat) (n : Snap) : Prop := ∀ p ∈ n.leaves, ∀ v, p.leaf = .array v → p.replicas = mesh

theorem full_pin (step : Nat) (state : List Leaf) : Full mesh ⟨step, state.map (pin mesh)⟩ := by
  intro p hp v hv
  obtain ⟨l, -, rfl⟩ := List.mem_map.1 hp
  cases l with
  | array w => rfl
  | other o => cases hv

theorem state_pin (step : Nat) (state : List Leaf) : (Snap.mk step (state.map (pin mesh))).state = state := by
  simp only [Snap.state, List.map_map]
  conv => rhs; rw [← List.map_id state]
  refine List.map_congr_left fun l _ => ?_
  cases l <;> rfl

theorem full_revive {lost : List Nat} : ∀ {ps qs : List Pinned}, reviveAll lost mesh ps = some qs →
    ∀ q ∈ qs, ∀ v, q.leaf = .array v → q.replicas = mesh
  | [], qs, h => by cases h; intro q hq; cases hq
  | p :: ps, qs, h => by
    simp only [reviveAll, Option.bind_eq_some_iff, Option.map_eq_some_iff] at h
    obtain ⟨q, hq, rs, hrs, rfl⟩ := h
    intro q' hq' v hv
    rcases List.mem_cons.1 hq' with rfl | hq'
    · simp only [revive] at hq
      split at hq
      · split at hq
        · cases hq
        · cases hq; rfl
      · cases hq; cases hv
    · exact full_revive hrs q' hq' v hv

structure Held (mesh : List Nat) (evs : List Ev) (s : St) : Prop where
  pending : ∀ n ∈ s.pending, Full mesh n ∧ .accepted n.step n.state ∈ evs
  queued : ∀ n ∈ s.busy ++ s.queue, Full mesh n
  latest : ∀ n, s.latest = some n → Full mesh n ∧ n.content ∈ kept evs
  loading : ∀ n ∈ s.loading, Full mesh n ∧ n.content ∈ kept evs

theorem kept_mono {e : Ev} {x} (h : x ∈ kept evs) : x ∈ kept (evs ++ [e]) := by
  rw [kept_append]; exact List.mem_append_left _ h

theorem held (h : Run mesh heap evs s) : Held mesh evs s := by
  induction h with
  | nil => exact ⟨(by intro n hn; cases hn), (by intro n hn; cases hn), (by intro n hn; cases hn), (by intro n hn; cases hn)⟩
  | @snoc evs s e s' _ st ih =>
    obtain ⟨hp, hq, hl, hlo⟩ := ih
    have hp' : ∀ n ∈ s.pending, Full mesh n ∧ .accepted n.step n.state ∈ evs ++ [e] := fun n hn =>
      ⟨(hp n hn).1, List.mem_append_left _ (hp n hn).2⟩
    have hl' : ∀ n, s.latest = some n → Full mesh n ∧ n.content ∈ kept (evs ++ [e]) := fun n hn =>
      ⟨(hl n hn).1, kept_mono (hl n hn).2⟩
    have hlo' : ∀ n ∈ s.loading, Full mesh n ∧ n.content ∈ kept (evs ++ [e]) := fun n hn =>
      ⟨(hlo n hn).1, kept_mono (hlo n hn).2⟩
    cases st with
    | skipped => exact ⟨hp', hq, hl', hlo'⟩
    | @accepted step state hqq =>
      refine ⟨?_, hq, hl', hlo'⟩
      intro n hn
      rcases List.mem_cons.1 hn with rfl | hn
      · refine ⟨full_pin _ _, List.mem_append_right _ ?_⟩
        rw [state_pin]; exact List.mem_cons_self
      · exact hp' n hn
    | @put m hm hqq =>
      refine ⟨fun n hn => hp' n (List.mem_of_mem_erase hn), ?_, hl', hlo'⟩
      intro n hn
      have hn' : n ∈ s.busy ++ (s.queue ++ [m]) := hn
      rw [← List.append_assoc] at hn'
      rcases List.mem_append.1 hn' with hn' | hn'
      · exact hq n hn'
      · rw [List.mem_singleton] at hn'; subst hn'; exact (hp _ hm).1
    | @taken m q hw hqq =>
      refine ⟨hp', ?_, hl', hlo'⟩
      intro n hn
      exact hq n (by rw [hqq]; simpa [St.busy, hw] using hn)
    | @kept m hw =>
      refine ⟨hp', ?_, ?_, hlo'⟩
      · intro n hn; exact hq n (by simp [St.busy] at hn; exact List.mem_append_right _ hn)
      · intro n hn
        cases hn
        refine ⟨hq m (by simp [St.busy, hw]), ?_⟩
        rw [kept_append]; exact List.mem_append_right _ List.mem_cons_self
    | @failed m hw =>
      refine ⟨hp', ?_, hl', hlo'⟩
      intro n hn; exact hq n (by simp [St.busy] at hn; exact List.mem_append_right _ hn)
    | @died m hw =>
      refine ⟨hp', ?_, hl', hlo'⟩
      intro n hn; exact hq n (by simp [St.busy] at hn; exact List.mem_append_right _ hn)
    | @read m hm =>
      refine ⟨hp', hq, hl', ?_⟩
      intro n hn
      rcases List.mem_cons.1 hn with rfl | hn
      · exact hl' _ hm
      · exact hlo' n hn
    | empty => exact ⟨hp', hq, hl', hlo'⟩
    | gone => exact ⟨hp', hq, hl', fun n hn => hlo' n (List.mem_of_mem_erase hn)⟩
    | @loaded m ps reset hm hr =>
      refine ⟨hp', hq, ?_, fun n hn => hlo' n (List.mem_of_mem_erase hn)⟩
      intro n hn
      cases reset with
      | false => exact hl' n hn
      | true =>
        cases hn
        refine ⟨full_revive hr, ?_⟩
        have : Snap.content ⟨m.step, ps⟩ = m.content := by
          simp only [Snap.content, Snap.state, reviveAll_leaf hr]
        rw [this]; exact (hlo' m hm).2
    | joined => exact ⟨hp', hq, hl', hlo'⟩
    | lose => exact ⟨hp', hq, hl', hlo'⟩
    | change => exact ⟨hp', hq, hl', hlo'⟩

/-- C94: the latest snapshot is always one the worker has kept, with the step it was saved for, also after loads have reset
it; everything kept was saved, and everything saved is what some call of `save` was given. -/
theorem C94_whole (h : Run mesh heap evs s) :
    (∀ x, latest s = some x → x ∈ kept evs) ∧ (∀ x ∈ kept evs, x ∈ saved evs) ∧ (∀ x ∈ saved evs, Ev.accepted x.1 x.2 ∈ evs) := by
  refine ⟨?_, ?_, ?_⟩
  · intro x hx
    simp only [latest, Option.map_eq_some_iff] at hx
    obtain ⟨n, hn, rfl⟩ := hx
    exact ((held h).latest n hn).2
  · intro x hx
    have hf : x ∈ finished evs := by
      clear h
      induction evs with
      | nil => exact hx
      | cons e evs ih =>
        cases e <;> simp only [kept, finished, List.mem_cons] at hx ⊢ <;>
          first | exact ih hx | exact hx.imp_right ih | exact Or.inr (ih hx)
    rw [(flow h).order]; exact List.mem_append_left _ hf
  · induction h with
    | nil => intro x hx; cases hx
    | @snoc evs s e s' hr st ih =>
      intro x hx
      rw [saved_append, List.mem_append] at hx
      rcases hx with hx | hx
      · exact List.mem_append_left _ (ih x hx)
      · cases st with
        | @put n hm hq =>
          simp only [saved, List.mem_singleton] at hx
          subst hx
          exact List.mem_append_left _ ((held hr).pending n hm).2
        | _ => simp [saved] at hx

/-- C94: what `load` returns for step `n` is a state kept for that step: every array has the value it was saved with. -/
theorem C94_load (h : Run mesh heap evs s) {n : Nat} {shown : List Nat} {reset : Bool} (hl : Ev.loaded n shown reset ∈ evs) :
    ∃ state, (n, state) ∈ kept evs ∧ shown.length = state.length ∧
      ∀ (i v : Nat), state[i]? = some (Leaf.array v) → shown[i]? = some v := by
  induction h with
  | nil => cases hl
  | @snoc evs s e s' hr st ih =>
    rcases List.mem_append.1 hl with hl | hl
    · obtain ⟨state, h1, h2⟩ := ih hl
      exact ⟨state, kept_mono h1, h2⟩
    · rw [List.mem_singleton] at hl
      subst hl
      cases st with
      | @loaded m ps _ hm hrv =>
        refine ⟨m.state, kept_mono ((held hr).loading m hm).2, ?_, ?_⟩
        · have := congrArg List.length (reviveAll_leaf hrv)
          simpa [Snap.state] using this
        · intro i v hi
          have : (ps.map (·.leaf))[i]? = some (Leaf.array v) := by rw [reviveAll_leaf hrv]; exact hi
          simp only [List.getElem?_map, Option.map_eq_some_iff] at this ⊢
          obtain ⟨p, hp, hpl⟩ := this
          exact ⟨p, hp, by rw [hpl]; rfl⟩

theorem reviveAll_some {lost : List Nat} (ha : ∃ r ∈ mesh, r ∉ lost) : ∀ {ps : List Pinned},
    (∀ p ∈ ps, ∀ v, p.leaf = .array v → p.replicas = mesh) → ∃ qs, reviveAll lost mesh ps = some qs
  | [], _ => ⟨_, rfl⟩
  | p :: ps, h => by
    obtain ⟨qs, hqs⟩ := reviveAll_some ha (fun x hx => h x (List.mem_cons_of_mem _ hx))
    have hp : ∃ q, revive lost mesh p = some q := by
      simp only [revive]
      split
      · rename_i v hv
        rw [if_neg]
        · exact ⟨_, rfl⟩
        · rw [h p List.mem_cons_self v hv]
          obtain ⟨r, hr, hrl⟩ := ha
          exact List.ne_nil_of_mem (List.mem_filter.2 ⟨hr, by simpa using hrl⟩)
      · exact ⟨_, rfl⟩
    obtain ⟨q, hq⟩ := hp
    exact ⟨q :: qs, by simp [reviveAll, hq, hqs]⟩

/-- C94: as long as one replica is left, `load` never fails for want of replicas: the call that has read a snapshot can
return. -/
theorem C94_replicas (h : Run mesh heap evs s) (ha : ∃ r ∈ mesh, r ∉ s.lost) :
    (∀ n s', ¬ Step mesh s (.gone n) s') ∧
    ∀ m ∈ s.loading, ∀ reset, ∃ shown s', Step mesh s (.loaded m.step shown reset) s' := by
  refine ⟨?_, ?_⟩
  · intro n s' st
    cases st with
    | gone hm hr =>
      obtain ⟨qs, hqs⟩ := reviveAll_some ha ((held h).loading _ hm).1
      rw [hqs] at hr; cases hr
  · intro m hm reset
    obtain ⟨qs, hqs⟩ := reviveAll_some ha ((held h).loading _ hm).1
    exact ⟨_, _, .loaded reset hm hqs⟩

theorem kept_sublist : ∀ evs : List Ev, (kept evs).Sublist (finished evs)
  | [] => List.Sublist.slnil
  | e :: evs => by
    have := kept_sublist evs
    cases e <;> simp only [kept, finished] <;> first | exact this | exact this.cons_cons _ | exact this.cons _

/-- C94: if states are saved for growing steps and no load resets the snapshot, the latest step never goes back. -/
theorem C94_forward {evs' : List Ev} {s' : St} (h : Run mesh heap evs s) (h' : Run mesh heap (evs ++ evs') s')
    (hn : NoReset (evs ++ evs')) (hg : ((saved (evs ++ evs')).map (·.1)).Pairwise (· ≤ ·)) :
    ∀ x, latest s = some x → ∃ y, latest s' = some y ∧ x.1 ≤ y.1 := by
  intro x hx
  rw [C94_latest h (fun n l hm => hn n l (List.mem_append_left _ hm))] at hx
  rw [C94_latest h' hn]
  obtain ⟨ys, hys⟩ := List.getLast?_eq_some_iff.1 hx
  rw [kept_append, hys]
  rcases List.eq_nil_or_concat (kept evs') with hk | ⟨b, y, hk⟩
  · rw [hk]; exact ⟨x, by simp, Nat.le_refl _⟩
  · rw [hk]
    refine ⟨y, by rw [List.concat_eq_append, ← List.append_assoc, List.getLast?_concat], ?_⟩
    have hsub : (kept (evs ++ evs')).Sublist (saved (evs ++ evs')) := by
      rw [(flow h').order]
      exact (kept_sublist _).trans (List.sublist_append_left _ _)
    have hpw := hg.sublist (hsub.map (·.1))
    rw [kept_append, hys, hk] at hpw
    simp only [List.concat_eq_append, List.map_append, List.pairwise_append (l₁ := List.map _ ys ++ List.map _ [x])] at hpw
    exact hpw.2.2 x.1 (by simp) y.1 (by simp)

/-! ### What does not hold -/

/-- C94 (finding): a load that has read a snapshot and resets it puts that one back, whatever newer snapshot the worker has
kept meanwhile. -/
theorem C94_reset_fails (h : Run mesh heap evs s) (ha : ∃ r ∈ mesh, r ∉ s.lost) (m : Snap) (hm : m ∈ s.loading) :
    ∃ shown s', Run mesh heap (evs ++ [.loaded m.step shown true]) s' ∧ latest s' = some (m.step, m.state) := by
  obtain ⟨qs, hqs⟩ := reviveAll_some ha ((held h).loading _ hm).1
  refine ⟨_, _, .snoc h (.loaded true hm hqs), ?_⟩
  simp [latest, Snap.state, reviveAll_leaf hqs]

theorem dead_forever (h : Run mesh heap evs s) (hd : ∃ n l, Ev.died n l ∈ evs) : s.worker = .dead := by
  induction h with
  | nil => obtain ⟨_, _, h⟩ := hd; cases h
  | @snoc evs s e s' hr st ih =>
    obtain ⟨n, l, hd⟩ := hd
    rcases List.mem_append.1 hd with hd | hd
    · have ih := ih ⟨n, l, hd⟩
      cases st with
      | taken hw hq => rw [ih] at hw; cases hw
      | kept hw => rw [ih] at hw; cases hw
      | failed hw => rw [ih] at hw; cases hw
      | died hw => rfl
      | _ => exact ih
    · rw [List.mem_singleton] at hd
      subst hd
      cases st
      rfl

theorem run_prefix {es : List Ev} {t : St} (h : Run mesh heap es t) : ∀ a b, es = a ++ b → ∃ u, Run mesh heap a u := by
  induction h with
  | nil =>
    intro a b e
    obtain ⟨rfl, rfl⟩ := List.append_eq_nil_iff.1 e.symm
    exact ⟨_, .nil⟩
  | @snoc es t e t' hr st ih =>
    intro a b he
    rcases List.eq_nil_or_concat b with rfl | ⟨b', x, rfl⟩
    · rw [List.append_nil] at he
      subst he
      exact ⟨_, .snoc hr st⟩
    · have he' : es ++ [e] = (a ++ b') ++ [x] := by simpa using he
      obtain ⟨h1, -⟩ := List.append_inj' he' rfl
      exact ih a b' h1

/-- C94 (finding): once the worker has ended with an exception that is not a runtime error, no snapshot is ever kept again,
although saving goes on without an error, and `join` never returns once another state has been saved. -/
theorem C94_worker_fails {evs₁ evs₂ : List Ev} (h : Run mesh heap (evs₁ ++ evs₂) s) (hd : ∃ n l, Ev.died n l ∈ evs₁) :
    kept evs₂ = [] ∧ ∀ a b, evs₂ = a ++ b → saved a ≠ [] → Ev.joined ∉ b := by
  have hfin : ∀ es t, Run mesh heap es t → ∀ b, es = evs₁ ++ b → finished b = [] := by
    intro es t hr
    induction hr with
    | nil =>
      intro b e
      obtain ⟨rfl, rfl⟩ := List.append_eq_nil_iff.1 e.symm
      rfl
    | @snoc es t e t' hr st ih =>
      intro b he
      rcases List.eq_nil_or_concat b with rfl | ⟨b', x, rfl⟩
      · rfl
      · have he' : es ++ [e] = (evs₁ ++ b') ++ [x] := by simpa using he
        obtain ⟨h1, h2⟩ := List.append_inj' he' rfl
        cases h2
        have ih := ih b' h1
        have hw : t.worker = .dead := dead_forever hr (by
          obtain ⟨n, l, hd⟩ := hd
          exact ⟨n, l, by rw [h1]; exact List.mem_append_left _ hd⟩)
        rw [List.concat_eq_append, finished_append, ih]
        cases st with
        | kept h => rw [hw] at h; cases h
        | failed h => rw [hw] at h; cases h
        | died h => rw [hw] at h; cases h
        | _ => rfl
  have hf := hfin _ _ h evs₂ rfl
  refine ⟨List.eq_nil_of_sublist_nil (hf ▸ kept_sublist evs₂), ?_⟩
  intro a b hab hs hj
  obtain ⟨b₁, b₂, rfl⟩ := List.append_of_mem hj
  subst hab
  have h' : Run mesh heap ((evs₁ ++ (a ++ b₁)) ++ Ev.joined :: b₂) s := by simpa using h
  have hjoin := C94_join h'
  obtain ⟨u, hu⟩ := run_prefix h' evs₁ _ (List.append_assoc _ _ _)
  have hord := (flow hu).order
  rw [finished_append, saved_append, hord] at hjoin
  have h0 : finished (a ++ b₁) = [] := by
    rw [← List.append_assoc, finished_append] at hf
    exact (List.append_eq_nil_iff.1 hf).1
  rw [h0, List.append_nil, List.append_assoc] at hjoin
  have := congrArg List.length hjoin
  simp only [List.length_append, saved_append] at this
  have h3 : (saved a).length = 0 := by omega
  exact hs (List.length_eq_zero_iff.1 h3)

/-- Saving a state, keeping it and reading it, from the start. -/
theorem saves (mesh : List Nat) (heap : Nat → Nat) (step : Nat) (state : List Leaf) :
    Run mesh heap [.accepted step state, .put step state, .taken, .kept step state]
      { start heap with latest := some ⟨step, state.map (pin mesh)⟩ } := by
  have h1 := Run.snoc (mesh := mesh) (Run.nil (heap := heap)) (.accepted (step := step) (state := state) (by simp [start]))
  have h2 := Run.snoc h1 (.put (n := ⟨step, state.map (pin mesh)⟩) (by simp [start]) (by simp [start]))
  have h3 := Run.snoc h2 (.taken rfl rfl)
  have h4 := Run.snoc h3 (.kept rfl)
  simpa [start, state_pin] using h4

/-- C94 (finding): a leaf that is not an array is kept by reference: if the user changes it after the save, the load shows
the new contents. -/
theorem C94_objects_fails (mesh : List Nat) (heap : Nat → Nat) (step obj v : Nat) :
    ∃ s, Run mesh heap ([.accepted step [.other obj], .put step [.other obj], .taken, .kept step [.other obj]] ++
      [.change obj v, .read step, .loaded step [v] false]) s := by
  have h4 := saves mesh heap step [.other obj]
  have h5 := Run.snoc h4 (.change (o := obj) (v := v))
  have h6 := Run.snoc h5 (.read rfl)
  have h7 := Run.snoc h6 (.loaded (n := ⟨step, [⟨.other obj, []⟩]⟩) (ps := [⟨.other obj, []⟩]) false (by simp [pin]) rfl)
  exact ⟨_, by simpa [show'] using h7⟩

/-! ### Instances -/

/-- Two replicas, one is lost: the state is loaded. -/
theorem C94_load_nonvacuous : ∃ s, Run [0, 1] (fun _ => 0)
    ([.accepted 5 [.array 7, .other 3], .put 5 [.array 7, .other 3], .taken, .kept 5 [.array 7, .other 3]] ++
      [.joined, .lose 0, .read 5, .loaded 5 [7, 0] true]) s ∧ latest s = some (5, [.array 7, .other 3]) := by
  have h4 := saves [0, 1] (fun _ => 0) 5 [.array 7, .other 3]
  have h5 := Run.snoc h4 (.joined rfl)
  have h6 := Run.snoc h5 (.lose (r := 0))
  have h7 := Run.snoc h6 (.read rfl)
  have h8 := Run.snoc h7 (.loaded (n := ⟨5, [⟨.array 7, [0, 1]⟩, ⟨.other 3, []⟩]⟩) (ps := [⟨.array 7, [0, 1]⟩, ⟨.other 3, []⟩]) true
    (by simp [pin]) (by simp [start, reviveAll, revive]))
  exact ⟨_, by simpa [show', start] using h8, by simp [latest]⟩

/-- A load started before a newer snapshot is kept puts the older one back. -/
theorem C94_reset_nonvacuous : ∃ evs s s', Run [0] (fun _ => 0) evs s ∧ latest s = some (2, [.array 2]) ∧
    (saved evs).map (·.1) = [1, 2] ∧ Run [0] (fun _ => 0) (evs ++ [.loaded 1 [1] true]) s' ∧ latest s' = some (1, [.array 1]) := by
  have h4 := saves [0] (fun _ => 0) 1 [.array 1]
  have h5 := Run.snoc h4 (.read rfl)
  have h6 := Run.snoc h5 (.accepted (step := 2) (state := [.array 2]) (by simp [start]))
  have h7 := Run.snoc h6 (.put (n := ⟨2, [⟨.array 2, [0]⟩]⟩) (by simp [start, pin]) (by simp [start]))
  have h8 := Run.snoc h7 (.taken rfl rfl)
  have h9 := Run.snoc h8 (.kept rfl)
  have h10 := Run.snoc h9 (.loaded (n := ⟨1, [⟨.array 1, [0]⟩]⟩) (ps := [⟨.array 1, [0]⟩]) true
    (by simp [start, pin]) (by simp [start, reviveAll, revive]))
  exact ⟨_, _, _, h9, by simp [latest], by simp [saved, Snap.state], by simpa [show'] using h10, by simp [latest]⟩

/-- The worker ends, and a state is saved afterwards. -/
theorem C94_worker_nonvacuous : ∃ evs₁ evs₂ s, Run [0] (fun _ => 0) (evs₁ ++ evs₂) s ∧ (∃ n l, Ev.died n l ∈ evs₁) ∧
    saved evs₂ = [(2, [.array 2])] ∧ Ev.skipped 3 ∈ evs₂ := by
  have h1 := Run.snoc (mesh := [0]) (Run.nil (heap := fun _ => 0)) (.accepted (step := 1) (state := [.array 1]) (by simp [start]))
  have h2 := Run.snoc h1 (.put (n := ⟨1, [⟨.array 1, [0]⟩]⟩) (by simp [start, pin]) (by simp [start]))
  have h3 := Run.snoc h2 (.taken rfl rfl)
  have h4 := Run.snoc h3 (.died rfl)
  have h5 := Run.snoc h4 (.accepted (step := 2) (state := [.array 2]) (by simp))
  have h6 := Run.snoc h5 (.put (n := ⟨2, [⟨.array 2, [0]⟩]⟩) (by simp [pin]) (by simp))
  have h7 := Run.snoc h6 (.skipped (step := 3) (by simp))
  refine ⟨[.accepted 1 [.array 1], .put 1 [.array 1], .taken, .died 1 [.array 1]],
    [.accepted 2 [.array 2], .put 2 [.array 2], .skipped 3], _, by simpa [Snap.state] using h7, ⟨1, [.array 1], by simp⟩, rfl, by simp⟩

end Verif.Snapshots
