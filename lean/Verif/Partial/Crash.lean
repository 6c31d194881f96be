import Verif.Partial.Lemmas

/-! # Helper lemmas: what an interruption leaves -/

namespace Verif.Partial

open Verif.Assoc

/-- The leaf is in the session or in a pending directory. -/
def Stored (s : Session) (k : Key) (v : Nat) : Prop := Holds s.base k v ∨ ∃ d ∈ s.pend, Holds d.2 k v

/-- Names are unique. -/
structure Names (s : Session) : Prop where
  pend : (keys s.pend).Nodup
  procs : ∀ d ∈ s.pend, ∀ t, d.2.tree = some t → (keys t.procs).Nodup

/-- All pytree directories that are pending have their metadata. -/
def AllInfo (s : Session) : Prop := ∀ d ∈ s.pend, ∀ t, d.2.tree = some t → t.info.isSome = true

def Good (s : Session) : Prop := Names s ∧ (s.base.tree.isSome = true ∨ AllInfo s)

theorem run_take_append (s : Session) (as bs : List Act) (n : Nat) :
    (run s ((as ++ bs).take n)).1 = (run s (as.take n)).1 ∨
    ((run s as).2 = true ∧ (run s ((as ++ bs).take n)).1 = (run (run s as).1 (bs.take (n - as.length))).1) := by
  rw [List.take_append]
  rcases Nat.lt_or_ge n as.length with h | h
  · left
    rw [Nat.sub_eq_zero_of_le (Nat.le_of_lt h), List.take_zero, List.append_nil]
  · rw [List.take_of_length_le h, run_append]
    rcases hr : (run s as).2 with _ | _
    · left; simp
    · right; simp

theorem holds_setTree_procs {s : Session} {t : TreeDir} {k v} (hb : ∀ x ∈ (baseTree s).procs, x ∈ t.procs)
    (h : Holds s.base k v) : Holds (setTree s t).base k v := by
  obtain ⟨t0, ht0, x, hx, hkv⟩ := h
  refine ⟨t, rfl, x, hb x ?_, hkv⟩
  simp [baseTree, ht0, hx]

theorem stored_onPend {s : Session} {p : Nat} {f : Dir → Dir} {k v}
    (hf : ∀ d, Holds d k v → Holds (f d) k v) (h : Stored s k v) : Stored (onPend s p f) k v := by
  rcases h with h | ⟨d, hd, h⟩
  · exact Or.inl h
  · refine Or.inr ⟨if d.1 = p then (d.1, f d.2) else d, List.mem_map.2 ⟨d, hd, rfl⟩, ?_⟩
    split
    · exact hf _ h
    · exact h

theorem keys_onPend (s : Session) (p : Nat) (f : Dir → Dir) : keys (onPend s p f).pend = keys s.pend := by
  simp only [keys, onPend, List.map_map]
  apply List.map_congr_left
  intro x _
  simp only [Function.comp_def]
  split <;> rfl

theorem names_onPend {s : Session} {p : Nat} {f : Dir → Dir} (h : Names s)
    (hf : ∀ d ∈ s.pend, ∀ t, (f d.2).tree = some t → (keys t.procs).Nodup) : Names (onPend s p f) := by
  constructor
  · rw [keys_onPend]; exact h.pend
  · intro d hd t ht
    obtain ⟨x, hx, rfl⟩ := List.mem_map.1 hd
    split at ht
    · exact hf x hx t ht
    · exact h.procs x hx t ht

theorem allInfo_onPend {s : Session} {p : Nat} {f : Dir → Dir} (h : AllInfo s)
    (hf : ∀ d ∈ s.pend, ∀ t, (f d.2).tree = some t → t.info.isSome = true) : AllInfo (onPend s p f) := by
  intro d hd t ht
  obtain ⟨x, hx, rfl⟩ := List.mem_map.1 hd
  split at ht
  · exact hf x hx t ht
  · exact h x hx t ht

/-- Actions that never remove a leaf. -/
def safe : Act → Bool
  | .rmTree _ => false
  | .rmPend _ => false
  | .treeMove _ => false
  | _ => true

theorem names_onPendTree {s : Session} {p : Nat} {f : TreeDir → TreeDir} (h : Names s)
    (hf : ∀ t, (keys t.procs).Nodup → (keys (f t).procs).Nodup) : Names (onPendTree s p f) := by
  refine names_onPend h fun d hd t ht => ?_
  rcases hd' : d.2.tree with _ | t0
  · simp [hd'] at ht
  · simp only [hd', Option.map_some, Option.some.injEq] at ht
    subst ht
    exact hf t0 (h.procs d hd t0 hd')

theorem names_base {s : Session} (b : Dir) (h : Names s) : Names { s with base := b } := ⟨h.pend, h.procs⟩

theorem stored_setTree {s : Session} {t : TreeDir} {k v} (hb : ∀ x ∈ (baseTree s).procs, x ∈ t.procs)
    (h : Stored s k v) : Stored (setTree s t) k v := by
  rcases h with h | h
  · exact Or.inl (holds_setTree_procs hb h)
  · exact Or.inr h

theorem stored_onPendTree {s : Session} {p : Nat} {f : TreeDir → TreeDir} {k v}
    (hf : ∀ t, (f t).procs = t.procs) (h : Stored s k v) : Stored (onPendTree s p f) k v := by
  refine stored_onPend (fun d hd => ?_) h
  obtain ⟨t, ht, x, hx, hkv⟩ := hd
  exact ⟨f t, by simp [ht], x, by rw [hf]; exact hx, hkv⟩

theorem exec_safe {s s' : Session} {a : Act} (hn : Names s) (hs : safe a = true) (he : exec s a = some s') :
    Names s' ∧ (∀ k v, Stored s k v → Stored s' k v) ∧ (s.base.tree.isSome = true → s'.base.tree.isSome = true) := by
  cases a <;> simp only [safe, Bool.false_eq_true, exec, Option.some.injEq, reduceCtorEq] at hs he <;> subst he
  case mkTree => exact ⟨names_base _ hn, fun k v h => stored_setTree (fun x hx => hx) h, fun _ => rfl⟩
  case ckptMove p =>
    refine ⟨names_onPend (names_base _ hn) (fun d hd t ht => hn.procs d hd t ht), fun k v h => ?_, fun h => h⟩
    exact stored_onPend (fun d hd => hd) h
  case ckptUnlink => exact ⟨names_base _ hn, fun k v h => h, fun h => h⟩
  case ckptWrite => exact ⟨names_base _ hn, fun k v h => h, fun h => h⟩
  case ckptDrop =>
    exact ⟨names_onPend hn (fun d hd t ht => hn.procs d hd t ht), fun k v h => stored_onPend (fun d hd => hd) h, fun h => h⟩
  case infoMove =>
    exact ⟨names_onPendTree (names_base _ hn) (fun t h => h),
      fun k v h => stored_onPendTree (fun t => rfl) (stored_setTree (fun x hx => hx) h), fun _ => rfl⟩
  case infoUnlink => exact ⟨names_base _ hn, fun k v h => stored_setTree (fun x hx => hx) h, fun _ => rfl⟩
  case infoWrite => exact ⟨names_base _ hn, fun k v h => stored_setTree (fun x hx => hx) h, fun _ => rfl⟩
  case infoDrop =>
    exact ⟨names_onPendTree hn (fun t h => h), fun k v h => stored_onPendTree (fun t => rfl) h, fun h => h⟩
  case procMove p n m =>
    refine ⟨names_onPendTree (names_base _ hn) (fun t h => nodup_del _ _ h), fun k v h => ?_, fun _ => rfl⟩
    -- the leaf may be in the database that is moved
    have hin : ∀ x : ProcName × List (Key × Nat), x ∈ (baseTree s).procs →
        x ∈ (baseTree s).procs ++ [(m, (Assoc.get (pendTree s p).procs n).getD [])] := fun x hx => List.mem_append_left _ hx
    rcases h with h | ⟨d, hd, t, ht, x, hx, hkv⟩
    · exact Or.inl (holds_setTree_procs hin h)
    · by_cases hdp : d.1 = p
      · by_cases hxn : x.1 = n
        · left
          refine ⟨_, rfl, (m, x.2), List.mem_append_right _ ?_, hkv⟩
          have h1 : Assoc.get s.pend p = some d.2 := by
            apply get_of_mem _ hn.pend
            rw [← hdp]; exact hd
          have h2 : Assoc.get t.procs n = some x.2 := by
            apply get_of_mem _ (hn.procs d hd t ht)
            rw [← hxn]; exact hx
          simp [pendTree, pendDir, h1, ht, h2]
        · right
          refine ⟨_, List.mem_map.2 ⟨d, hd, rfl⟩, ?_⟩
          rw [if_pos hdp]
          refine ⟨{ t with procs := del t.procs n }, by simp [ht], x, ?_, hkv⟩
          simp only [del, List.mem_filter, decide_eq_true_eq]
          exact ⟨hx, hxn⟩
      · right
        refine ⟨_, List.mem_map.2 ⟨d, hd, rfl⟩, ?_⟩
        rw [if_neg hdp]
        exact ⟨t, ht, x, hx, hkv⟩
  case arrMove =>
    exact ⟨names_onPendTree (names_base _ hn) (fun t h => h),
      fun k v h => stored_onPendTree (fun t => rfl) (stored_setTree (fun x hx => hx) h), fun _ => rfl⟩
  case arrUnlink => exact ⟨names_base _ hn, fun k v h => stored_setTree (fun x hx => hx) h, fun _ => rfl⟩
  case arrWrite => exact ⟨names_base _ hn, fun k v h => stored_setTree (fun x hx => hx) h, fun _ => rfl⟩
  case arrDrop =>
    exact ⟨names_onPendTree hn (fun t h => h), fun k v h => stored_onPendTree (fun t => rfl) h, fun h => h⟩
  case mergeDb => exact ⟨names_base _ hn, fun k v h => stored_setTree (fun x hx => hx) h, fun _ => rfl⟩

theorem run_safe (as : List Act) : ∀ (s : Session), Names s → (∀ a ∈ as, safe a = true) →
    Names (run s as).1 ∧ (∀ k v, Stored s k v → Stored (run s as).1 k v) ∧
    (s.base.tree.isSome = true → (run s as).1.base.tree.isSome = true) := by
  induction as with
  | nil => intro s h _; exact ⟨h, fun _ _ h => h, fun h => h⟩
  | cons a as ih =>
    intro s hn hs
    simp only [run]
    rcases he : exec s a with _ | s'
    · exact ⟨hn, fun _ _ h => h, fun h => h⟩
    · obtain ⟨h1, h2, h3⟩ := exec_safe hn (hs a (by simp)) he
      obtain ⟨g1, g2, g3⟩ := ih s' h1 (fun a ha => hs a (List.mem_cons_of_mem _ ha))
      exact ⟨g1, fun k v h => g2 k v (h2 k v h), fun h => g3 (h3 h)⟩

/-- The actions of the merge of the checkpoint metadata change no tree. -/
theorem run_ckpt (as : List Act) (hs : ∀ a ∈ as, a matches .ckptMove _ | .ckptUnlink | .ckptWrite _ | .ckptDrop _) :
    ∀ s : Session, AllInfo s → AllInfo (run s as).1 := by
  induction as with
  | nil => intro s h; exact h
  | cons a as ih =>
    intro s h
    have ha := hs a (by simp)
    simp only [run]
    rcases he : exec s a with _ | s'
    · exact h
    · refine ih (fun a ha => hs a (List.mem_cons_of_mem _ ha)) s' ?_
      cases a <;> simp only [Bool.false_eq_true] at ha <;> simp only [exec, Option.some.injEq] at he <;> subst he
      · exact allInfo_onPend (s := { s with base := _ }) h fun d hd t ht => h d hd t ht
      · exact h
      · exact h
      · exact allInfo_onPend h fun d hd t ht => h d hd t ht

/-- The pending directory `p` has a database named `n`. -/
def InName (s : Session) (p : Nat) (n : ProcName) : Prop :=
  ∃ d ∈ s.pend, d.1 = p ∧ ∃ t, d.2.tree = some t ∧ n ∈ keys t.procs

theorem inName_onPend {s : Session} {p q : Nat} {f : Dir → Dir} {n}
    (hf : ∀ d t, (f d).tree = some t → ∃ t0, d.tree = some t0 ∧ ∀ n ∈ keys t.procs, n ∈ keys t0.procs)
    (h : InName (onPend s q f) p n) : InName s p n := by
  obtain ⟨d, hd, h1, t, ht, hn⟩ := h
  obtain ⟨x, hx, rfl⟩ := List.mem_map.1 hd
  split at ht
  · rename_i hxq
    simp only [hxq, if_true] at h1
    obtain ⟨t0, h0, h2⟩ := hf _ _ ht
    exact ⟨x, hx, by rw [hxq]; exact h1, t0, h0, h2 n hn⟩
  · rename_i hxq
    simp only [hxq, if_false] at h1
    exact ⟨x, hx, h1, t, ht, hn⟩

theorem inName_onPendTree {s : Session} {p q : Nat} {f : TreeDir → TreeDir} {n}
    (hf : ∀ t, ∀ n ∈ keys (f t).procs, n ∈ keys t.procs)
    (h : InName (onPendTree s q f) p n) : InName s p n := by
  refine inName_onPend (fun d t ht => ?_) h
  rcases hd : d.tree with _ | t0
  · simp [hd] at ht
  · simp only [hd, Option.map_some, Option.some.injEq] at ht
    subst ht
    exact ⟨t0, rfl, hf t0⟩

theorem mem_keys_of_del {κ ν : Type} [DecidableEq κ] (m : List (κ × ν)) (k n : κ) (h : n ∈ keys (del m k)) :
    n ∈ keys m ∧ n ≠ k := by
  rw [keys_del, List.mem_filter] at h
  simpa using h

theorem inName_exec {s s' : Session} {a : Act} {p n} (hs : safe a = true) (he : exec s a = some s')
    (h : InName s' p n) : InName s p n := by
  cases a <;> simp only [safe, Bool.false_eq_true, exec, Option.some.injEq, reduceCtorEq] at hs he <;> subst he
  case mkTree => exact h
  case ckptMove => exact inName_onPend (s := { s with base := _ }) (f := fun d => { d with ckpt := none }) (fun d t ht => ⟨t, ht, fun n hn => hn⟩) h
  case ckptUnlink => exact h
  case ckptWrite => exact h
  case ckptDrop => exact inName_onPend (f := fun d => { d with ckpt := none }) (fun d t ht => ⟨t, ht, fun n hn => hn⟩) h
  case infoMove => exact inName_onPendTree (s := setTree s _) (f := fun t => { t with info := none }) (fun t n hn => hn) h
  case infoUnlink => exact h
  case infoWrite => exact h
  case infoDrop => exact inName_onPendTree (f := fun t => { t with info := none }) (fun t n hn => hn) h
  case procMove => exact inName_onPendTree (s := setTree s _) (fun t n hn => (mem_keys_of_del _ _ _ hn).1) h
  case arrMove p k => exact inName_onPendTree (s := setTree s _) (f := fun t => { t with arrays := del t.arrays k }) (fun t n hn => hn) h
  case arrUnlink => exact h
  case arrWrite => exact h
  case arrDrop p k => exact inName_onPendTree (f := fun t => { t with arrays := del t.arrays k }) (fun t n hn => hn) h
  case mergeDb => exact h

theorem inName_procMove {s s' : Session} {p n m} (he : exec s (.procMove p n m) = some s') : ¬ InName s' p n := by
  simp only [exec, Option.some.injEq] at he
  subst he
  rintro ⟨d, hd, h1, t, ht, hn⟩
  obtain ⟨x, hx, rfl⟩ := List.mem_map.1 hd
  split at ht
  · rcases hx' : x.2.tree with _ | t0
    · simp [hx'] at ht
    · simp only [hx', Option.map_some, Option.some.injEq] at ht
      subst ht
      exact (mem_keys_of_del _ _ _ hn).2 rfl
  · rename_i hxq
    simp only [hxq, if_false] at h1

theorem inName_run (as : List Act) : ∀ (s : Session), (∀ a ∈ as, safe a = true) → (run s as).2 = true → ∀ p n,
    InName (run s as).1 p n → InName s p n ∧ ∀ m, .procMove p n m ∉ as := by
  induction as with
  | nil => intro s _ _ p n h; exact ⟨h, by simp⟩
  | cons a as ih =>
    intro s hs hok p n h
    simp only [run] at hok h
    rcases he : exec s a with _ | s'
    · simp [he] at hok
    · simp only [he] at hok h
      obtain ⟨h1, h2⟩ := ih s' (fun a ha => hs a (List.mem_cons_of_mem _ ha)) hok p n h
      refine ⟨inName_exec (hs a (by simp)) he h1, fun m hm => ?_⟩
      rcases List.mem_cons.1 hm with rfl | hm
      · exact inName_procMove he h1
      · exact h2 m hm

theorem run_no_collision (as : List Act) : ∀ s, (run s as).2 = true → .collision ∉ as := by
  induction as with
  | nil => intro s _; simp
  | cons a as ih =>
    intro s h
    simp only [run] at h
    rcases he : exec s a with _ | s'
    · simp [he] at h
    · simp only [he] at h
      simp only [List.mem_cons, not_or]
      exact ⟨fun e => by subst e; simp [exec] at he, ih s' h⟩

/-- Removing a pending directory without databases. -/
theorem run_rm (bs : List Act) : ∀ (s : Session) (p : Nat), (∀ a ∈ bs, a = .rmTree p ∨ a = .rmPend p) → Good s →
    (∀ n, ¬ InName s p n) → Good (run s bs).1 ∧ (∀ k v, Stored s k v → Stored (run s bs).1 k v) ∧ (run s bs).2 = true := by
  induction bs with
  | nil => intro s p _ h _; exact ⟨h, fun _ _ h => h, rfl⟩
  | cons a bs ih =>
    intro s p hb hg hn
    have hno : ∀ d ∈ s.pend, d.1 = p → ∀ k v, ¬ Holds d.2 k v := by
      rintro d hd h1 k v ⟨t, ht, x, hx, _⟩
      exact hn x.1 ⟨d, hd, h1, t, ht, List.mem_map.2 ⟨x, hx, rfl⟩⟩
    rcases hb a (by simp) with rfl | rfl
    · simp only [run, exec]
      have h1 : Good (onPend s p fun d => { d with tree := none }) := by
        refine ⟨names_onPend hg.1 (fun d hd t ht => by simp at ht), hg.2.elim Or.inl fun h => Or.inr ?_⟩
        exact allInfo_onPend h (fun d hd t ht => by simp at ht)
      have h2 : ∀ n, ¬ InName (onPend s p fun d => { d with tree := none }) p n := fun n h =>
        hn n (inName_onPend (fun d t ht => by simp at ht) h)
      obtain ⟨g1, g2, g3⟩ := ih _ p (fun a ha => hb a (List.mem_cons_of_mem _ ha)) h1 h2
      refine ⟨g1, fun k v h => g2 k v ?_, g3⟩
      rcases h with h | ⟨d, hd, h⟩
      · exact Or.inl h
      · by_cases hdp : d.1 = p
        · exact absurd h (hno d hd hdp k v)
        · refine Or.inr ⟨_, List.mem_map.2 ⟨d, hd, rfl⟩, ?_⟩
          rw [if_neg hdp]; exact h
    · simp only [run, exec]
      have hsub : ∀ d ∈ del s.pend p, d ∈ s.pend := fun d hd => (List.mem_filter.1 hd).1
      have h1 : Good { s with pend := del s.pend p } :=
        ⟨⟨nodup_del _ _ hg.1.pend, fun d hd => hg.1.procs d (hsub d hd)⟩, hg.2.elim Or.inl fun h => Or.inr fun d hd => h d (hsub d hd)⟩
      have h2 : ∀ n, ¬ InName { s with pend := del s.pend p } p n := by
        rintro n ⟨d, hd, hr⟩
        exact hn n ⟨d, hsub d hd, hr⟩
      obtain ⟨g1, g2, g3⟩ := ih _ p (fun a ha => hb a (List.mem_cons_of_mem _ ha)) h1 h2
      refine ⟨g1, fun k v h => g2 k v ?_, g3⟩
      rcases h with h | ⟨d, hd, h⟩
      · exact Or.inl h
      · by_cases hdp : d.1 = p
        · exact absurd h (hno d hd hdp k v)
        · exact Or.inr ⟨d, List.mem_filter.2 ⟨hd, by simpa using hdp⟩, h⟩

/-- What every prefix of a list of actions guarantees. -/
def Keeps (s : Session) (as : List Act) : Prop :=
  ∀ n, Good (run s (as.take n)).1 ∧ ∀ k v, Stored s k v → Stored (run s (as.take n)).1 k v

theorem keeps_full {s as} (h : Keeps s as) : Good (run s as).1 ∧ ∀ k v, Stored s k v → Stored (run s as).1 k v := by
  have := h as.length
  rwa [List.take_length] at this

theorem keeps_append {s as bs} (h : Keeps s as) (h' : (run s as).2 = true → Keeps (run s as).1 bs) : Keeps s (as ++ bs) := by
  intro n
  rcases run_take_append s as bs n with e | ⟨hok, e⟩
  · rw [e]; exact h n
  · rw [e]
    obtain ⟨g1, g2⟩ := h' hok (n - as.length)
    exact ⟨g1, fun k v hkv => g2 k v ((keeps_full h).2 k v hkv)⟩

theorem keeps_isSome {s as} (hn : Names s) (hb : s.base.tree.isSome = true) (hs : ∀ a ∈ as, safe a = true) : Keeps s as := by
  intro n
  obtain ⟨h1, h2, h3⟩ := run_safe (as.take n) s hn (fun a ha => hs a (List.mem_of_mem_take ha))
  exact ⟨⟨h1, Or.inl (h3 hb)⟩, h2⟩

theorem keeps_ckpt {s as} (hg : Good s)
    (hs : ∀ a ∈ as, a matches .ckptMove _ | .ckptUnlink | .ckptWrite _ | .ckptDrop _) : Keeps s as := by
  intro n
  have hsafe : ∀ a ∈ as, safe a = true := by
    intro a ha
    have := hs a ha
    cases a <;> simp only [Bool.false_eq_true] at this <;> rfl
  obtain ⟨h1, h2, h3⟩ := run_safe (as.take n) s hg.1 (fun a ha => hsafe a (List.mem_of_mem_take ha))
  refine ⟨⟨h1, hg.2.elim (fun h => Or.inl (h3 h)) fun h => Or.inr ?_⟩, h2⟩
  exact run_ckpt _ (fun a ha => hs a (List.mem_of_mem_take ha)) s h

theorem keeps_mkTree {s as} (hg : Good s) (hs : ∀ a ∈ as, safe a = true) : Keeps s ([.mkTree] ++ as) := by
  have h1 : exec s .mkTree = some (setTree s (baseTree s)) := rfl
  obtain ⟨g1, g2, _⟩ := exec_safe hg.1 rfl h1
  apply keeps_append
  · intro n
    cases n with
    | zero => exact ⟨hg, fun _ _ h => h⟩
    | succ n =>
      have : (run s (List.take (n+1) [Act.mkTree])).1 = setTree s (baseTree s) := by simp [run, exec]
      rw [this]
      exact ⟨⟨g1, Or.inl rfl⟩, g2⟩
  · intro _
    exact keeps_isSome g1 rfl hs

theorem safe_ckpt (s : Session) (p : Nat) (d : Dir) : ∀ a ∈ ckptActs s p d, a matches .ckptMove _ | .ckptUnlink | .ckptWrite _ | .ckptDrop _ := by
  simp only [ckptActs]
  split
  · simp
  · split <;> simp

theorem safe_of_ckpt {s : Session} {p : Nat} {d : Dir} : ∀ a ∈ ckptActs s p d, safe a = true := by
  intro a ha
  have := safe_ckpt s p d a ha
  cases a <;> simp only [Bool.false_eq_true] at this <;> rfl

theorem safe_info (s : Session) (p : Nat) (i : Info) : ∀ a ∈ infoActs s p i, safe a = true := by
  simp only [infoActs]
  split <;> simp [safe]

theorem safe_procs (p : Nat) (t : TreeDir) : ∀ a ∈ procActs p t, safe a = true := by
  simp only [procActs, List.mem_map]
  rintro a ⟨x, _, rfl⟩
  rfl

theorem safe_arr (s : Session) (p : Nat) (t : TreeDir) : ∀ a ∈ arrActs s p t, safe a = true := by
  simp only [arrActs, List.mem_flatMap]
  rintro a ⟨x, _, ha⟩
  split at ha
  · simp only [List.mem_singleton] at ha; subst ha; rfl
  · simp only [List.mem_cons, List.not_mem_nil, or_false] at ha
    rcases ha with rfl | rfl | rfl <;> rfl

theorem inName_pendDir {s : Session} (hn : Names s) {p : Nat} {n : ProcName} (h : InName s p n) :
    ∃ t, (pendDir s p).tree = some t ∧ n ∈ keys t.procs := by
  obtain ⟨d, hd, rfl, t, ht, hk⟩ := h
  have : Assoc.get s.pend d.1 = some d.2 := get_of_mem _ hn.pend _ _ hd
  exact ⟨t, by simp [pendDir, this, ht], hk⟩

/-- Merging one pending directory, up to any action. -/
theorem keeps_dirActs (s : Session) (p : Nat) (hg : Good s) : Keeps s (dirActs s p) := by
  simp only [dirActs, List.append_assoc]
  have hck := keeps_ckpt (as := ckptActs s p (pendDir s p)) hg (safe_ckpt s p _)
  apply keeps_append hck
  intro hokC
  obtain ⟨hgC, hstC⟩ := keeps_full hck
  have hbC := (run_safe (ckptActs s p (pendDir s p)) s hg.1 safe_of_ckpt).2.2
  have hnC : ∀ n, InName (run s (ckptActs s p (pendDir s p))).1 p n → InName s p n :=
    fun n h => (inName_run _ s safe_of_ckpt hokC p n h).1
  generalize (run s (ckptActs s p (pendDir s p))).1 = s1 at hgC hbC hnC
  have hrm : ∀ bs : List Act, (∀ a ∈ bs, a = .rmTree p ∨ a = .rmPend p) → ∀ s2, Good s2 → (∀ n, ¬ InName s2 p n) → Keeps s2 bs := by
    intro bs hbs s2 h2 hn2 n
    obtain ⟨g1, g2, _⟩ := run_rm (bs.take n) s2 p (fun a ha => hbs a (List.mem_of_mem_take ha)) h2 hn2
    exact ⟨g1, g2⟩
  rcases ht : (pendDir s p).tree with _ | t
  · simp only [treeActs, ht, List.nil_append]
    refine hrm _ (by simp) s1 hgC fun n h => ?_
    obtain ⟨t, ht', _⟩ := inName_pendDir hg.1 (hnC n h)
    rw [ht] at ht'; cases ht'
  · rcases hi : t.info with _ | i
    · simp only [treeActs, ht, hi, recursiveActs]
      rcases hb : s.base.tree with _ | b
      · exfalso
        rcases hg.2 with h | h
        · simp [hb] at h
        · simp only [pendDir] at ht
          rcases hd : Assoc.get s.pend p with _ | d
          · simp [hd, emptyDir] at ht
          · simp only [hd, Option.getD_some] at ht
            have := h (p, d) (mem_of_get _ _ _ hd) t ht
            simp [hi] at this
      · simp only [List.append_assoc]
        have hsafe : ∀ a ∈ (t.procs.map fun x => if (Assoc.get b.procs x.1).isSome then Act.collision else .procMove p x.1 x.1) ++
            (t.arrays.map fun x => if (Assoc.get b.arrays x.1).isSome then Act.collision else .arrMove p x.1), safe a = true := by
          intro a ha
          rcases List.mem_append.1 ha with ha | ha <;> obtain ⟨x, _, rfl⟩ := List.mem_map.1 ha <;> split <;> rfl
        rw [← List.append_assoc]
        have hk := keeps_isSome hgC.1 (hbC (by simp [hb])) hsafe
        apply keeps_append hk
        intro hok
        refine hrm _ (by simp) _ (keeps_full hk).1 fun n h => ?_
        obtain ⟨h1, h2⟩ := inName_run _ s1 hsafe hok p n h
        obtain ⟨t', ht', hkn⟩ := inName_pendDir hg.1 (hnC n h1)
        rw [ht] at ht'
        simp only [Option.some.injEq] at ht'
        subst ht'
        obtain ⟨x, hx, rfl⟩ := List.mem_map.1 hkn
        have hcol := run_no_collision _ _ hok
        apply h2 x.1
        apply List.mem_append_left
        refine List.mem_map.2 ⟨x, hx, ?_⟩
        rw [if_neg]
        intro hc
        apply hcol
        apply List.mem_append_left
        exact List.mem_map.2 ⟨x, hx, by rw [if_pos hc]⟩
    · simp only [treeActs, ht, hi]
      have hsafe : ∀ a ∈ infoActs s p i ++ procActs p t ++ arrActs s p t, safe a = true := by
        intro a ha
        rcases List.mem_append.1 ha with ha | ha
        · rcases List.mem_append.1 ha with ha | ha
          · exact safe_info s p i a ha
          · exact safe_procs p t a ha
        · exact safe_arr s p t a ha
      have hk := keeps_mkTree hgC hsafe
      have e : [Act.mkTree] ++ infoActs s p i ++ procActs p t ++ arrActs s p t ++ [.rmTree p] ++ [.rmPend p] =
          ([.mkTree] ++ (infoActs s p i ++ procActs p t ++ arrActs s p t)) ++ [.rmTree p, .rmPend p] := by simp
      rw [e]
      apply keeps_append hk
      intro hok
      refine hrm _ (by simp) _ (keeps_full hk).1 fun n h => ?_
      have hsafe' : ∀ a ∈ [Act.mkTree] ++ (infoActs s p i ++ procActs p t ++ arrActs s p t), safe a = true := by
        intro a ha
        rcases List.mem_append.1 ha with ha | ha
        · simp only [List.mem_singleton] at ha; subst ha; rfl
        · exact hsafe a ha
      obtain ⟨h1, h2⟩ := inName_run _ s1 hsafe' hok p n h
      obtain ⟨t', ht', hkn⟩ := inName_pendDir hg.1 (hnC n h1)
      rw [ht] at ht'
      simp only [Option.some.injEq] at ht'
      subst ht'
      obtain ⟨x, hx, rfl⟩ := List.mem_map.1 hkn
      apply h2 (x.1.1, some p)
      simp only [List.mem_append]
      exact Or.inr (Or.inl (Or.inr (List.mem_map.2 ⟨x, hx, rfl⟩)))

theorem keeps_mergeActs (ps : List Nat) : ∀ s, Good s → Keeps s (mergeActs s ps) := by
  induction ps with
  | nil => intro s h n; simp only [mergeActs, List.take_nil, run]; exact ⟨h, fun _ _ h => h⟩
  | cons p ps ih =>
    intro s h
    have hk := keeps_dirActs s p h
    exact keeps_append hk fun _ => ih _ (keeps_full hk).1

theorem keeps_finalizeActs (s : Session) (h : Good s) : Keeps s (finalizeActs s) := by
  have hk := keeps_mergeActs (pendingNames s) s h
  refine keeps_append hk fun _ => ?_
  obtain ⟨hg, _⟩ := keeps_full hk
  split
  · intro n
    cases n with
    | zero => exact ⟨hg, fun _ _ h => h⟩
    | succ n =>
      simp only [List.take_succ_cons, List.take_nil, run, exec]
      obtain ⟨g1, g2, _⟩ := exec_safe (a := .mergeDb) hg.1 rfl rfl
      exact ⟨⟨g1, Or.inl rfl⟩, g2⟩
  · intro n
    simp only [List.take_nil, run]
    exact ⟨hg, fun _ _ h => h⟩

/-! ### A completed merge leaves no pending directory -/

theorem pend_exec {s s' : Session} {a : Act} (he : exec s a = some s') : ∀ k ∈ keys s'.pend, k ∈ keys s.pend := by
  cases a <;> simp only [exec, Option.some.injEq, reduceCtorEq] at he <;> subst he
  all_goals first
    | (intro k hk; exact hk)
    | (intro k hk; rw [keys_onPend] at hk; exact hk)
    | (intro k hk; simp only [onPendTree] at hk; rw [keys_onPend] at hk; exact hk)
    | (intro k hk; exact (mem_keys_of_del _ _ _ hk).1)

theorem pend_run (as : List Act) : ∀ s, (run s as).2 = true → ∀ k ∈ keys (run s as).1.pend, k ∈ keys s.pend ∧ .rmPend k ∉ as := by
  induction as with
  | nil => intro s _ k hk; exact ⟨hk, by simp⟩
  | cons a as ih =>
    intro s hok k hk
    simp only [run] at hok hk
    rcases he : exec s a with _ | s'
    · simp [he] at hok
    · simp only [he] at hok hk
      obtain ⟨h1, h2⟩ := ih s' hok k hk
      refine ⟨pend_exec he k h1, ?_⟩
      simp only [List.mem_cons, not_or]
      refine ⟨?_, h2⟩
      rintro rfl
      simp only [exec, Option.some.injEq] at he
      subst he
      exact (mem_keys_of_del _ _ _ h1).2 rfl

theorem rmPend_mem (ps : List Nat) : ∀ s, ∀ p ∈ ps, Act.rmPend p ∈ mergeActs s ps := by
  induction ps with
  | nil => intro s p hp; simp at hp
  | cons q ps ih =>
    intro s p hp
    simp only [mergeActs, List.mem_append]
    rcases List.mem_cons.1 hp with rfl | hp
    · left; simp [dirActs]
    · right; exact ih _ p hp

theorem pend_finalize (s : Session) (h : (run s (finalizeActs s)).2 = true) : (run s (finalizeActs s)).1.pend = [] := by
  rcases hp : (run s (finalizeActs s)).1.pend with _ | ⟨d, l⟩
  · rfl
  · exfalso
    obtain ⟨h1, h2⟩ := pend_run _ s h d.1 (by rw [hp]; simp [keys])
    apply h2
    refine List.mem_append_left _ (rmPend_mem _ _ _ ?_)
    exact (foldr_insert_perm _).mem_iff.2 h1

end Verif.Partial
