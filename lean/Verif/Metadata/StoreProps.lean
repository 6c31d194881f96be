import Verif.Metadata.Store
import Mathlib.Data.List.Induction

/-!
# Property C49: metadata updates are applied in order
-/

namespace Verif.Metadata

open Verif

variable {V : Type}

/-! ## Specification -/

/-- The dictionary a file holds; anything that is no dictionary counts as empty. -/
def File.dict : File V → Data V
  | .obj d => d
  | _ => []

/-- What a call is to do to the files: `write` replaces, `update` changes the keys given and no others. -/
def Does (json : V → Option V) (t : Task V) (fs fs' : Path → File V) : Prop :=
  (∀ q, q ≠ t.path → fs' q = fs q) ∧ ∃ d, fs' t.path = .obj d ∧ match t with
    | .write _ m => ∀ k, Assoc.get d k = (Assoc.get m k).bind json
    | .update p kw => ∀ k, Assoc.get d k = match Assoc.get kw k with
      | some v => json v
      | none => Assoc.get (fs p).dict k

/-- The calls done one after the other; one that raised did nothing, or broke its own file. -/
inductive Done (json : V → Option V) (fs : Path → File V) : List (Task V × Result) → (Path → File V) → Prop where
  | nil : Done json fs [] fs
  | ok {l fs' t fs''} : Done json fs l fs' → Does json t fs' fs'' → Done json fs (l ++ [(t, .ok)]) fs''
  | refused {l fs' t} : Done json fs l fs' → Done json fs (l ++ [(t, .refused)]) fs'
  | broken {l fs' t fs''} : Done json fs l fs' → (∀ q, q ≠ t.path → fs'' q = fs' q) → Done json fs (l ++ [(t, .broken)]) fs''

/-- The values in the files come from JSON, the keys are unique. -/
def Clean (json : V → Option V) (fs : Path → File V) : Prop :=
  ∀ p d, fs p = .obj d → ∀ k v, Assoc.get d k = some v → json v = some v

/-- The keyword arguments of a call are distinct. -/
def Task.Wf : Task V → Prop
  | .write _ _ => True
  | .update _ kw => (Assoc.keys kw).Nodup

/-- Nobody changes a dictionary after having passed it, keyword arguments are distinct. -/
def Fair : Action V → Prop
  | .mutate _ _ => False
  | .submit t => t.Wf
  | _ => True

/-! ## Proofs -/

theorem get_dump {json : V → Option V} {d e : Data V} (h : dump json d = some e) (k : String) : Assoc.get e k = (Assoc.get d k).bind json := by
  induction d generalizing e with
  | nil => simp [dump] at h; subst h; rfl
  | cons a d ih =>
    obtain ⟨k', v⟩ := a
    simp only [dump] at h
    cases hj : json v with
    | none => simp [hj] at h
    | some w =>
      cases hd : dump json d with
      | none => simp [hj, hd] at h
      | some e' =>
        simp only [hj, hd, Option.some.injEq] at h
        subst h
        simp only [Assoc.get]
        split
        · simp [hj]
        · exact ih hd

theorem get_foldl_put (kw d : Data V) (hn : (Assoc.keys kw).Nodup) (k : String) :
    Assoc.get (kw.foldl (fun d kv => Assoc.put d kv.1 kv.2) d) k = match Assoc.get kw k with
      | some v => some v
      | none => Assoc.get d k := by
  induction kw generalizing d with
  | nil => rfl
  | cons a kw ih =>
    simp only [Assoc.keys, List.map_cons, List.nodup_cons] at hn
    simp only [List.foldl_cons, ih _ hn.2, Assoc.get]
    by_cases hk : a.1 = k
    · subst hk
      have := (Assoc.get_eq_none_iff kw a.1).mpr hn.1
      simp [this]
    · simp only [hk, if_false]
      rw [Assoc.get_put_ne _ _ (Ne.symm hk)]

theorem readDict_dict {f : File V} {d : Data V} (h : readDict f = some d) : d = f.dict := by
  cases f with
  | other b => cases b <;> simp [readDict, readFile] at h; rw [h]; rfl
  | _ => simp [readDict, readFile] at h; subst h; rfl

theorem prepare_does {json : V → Option V} {okPath : Path → Bool} {fs : Path → File V} {t : Task V} {d : Data V} (hc : Clean json fs) (hw : t.Wf)
    (h : prepare json okPath fs t = some d) (fs' : Path → File V) (h1 : ∀ q, q ≠ t.path → fs' q = fs q) (h2 : fs' t.path = .obj d) : Does json t fs fs' := by
  refine ⟨h1, d, h2, ?_⟩
  cases t with
  | write p m =>
    simp only [prepare] at h
    split at h
    · exact get_dump h
    · cases h
  | update p kw =>
    simp only [prepare] at h
    cases hr : readDict (fs p) with
    | none => simp [hr] at h
    | some old =>
      simp only [hr] at h
      split at h
      · intro k
        rw [get_dump h, get_foldl_put kw old hw]
        cases hk : Assoc.get kw k with
        | some v => rfl
        | none =>
          simp only
          rw [← readDict_dict hr]
          cases ho : Assoc.get old k with
          | none => rfl
          | some v =>
            simp only [Option.bind_some]
            have hd := readDict_dict hr
            cases hf : fs p with
            | obj d' =>
              rw [hf] at hd
              exact hc p d' hf k v (by rw [← ho, hd]; rfl)
            | _ => rw [hf] at hd; subst hd; cases ho
      · cases h

theorem does_clean {json : V → Option V} (hj : ∀ v w, json v = some w → json w = some w) {t : Task V} {fs fs' : Path → File V} (hc : Clean json fs)
    (h : Does json t fs fs') : Clean json fs' := by
  intro p d hp k v hk
  obtain ⟨h1, e, he, h2⟩ := h
  by_cases hpt : p = t.path
  · subst hpt
    rw [he] at hp
    cases hp
    cases t with
    | write q m =>
      simp only at h2
      rw [h2] at hk
      obtain ⟨w, _, hw⟩ := Option.bind_eq_some_iff.mp hk
      exact hj w v hw
    | update q kw =>
      simp only at h2
      rw [h2] at hk
      split at hk
      · next w _ => exact hj w v hk
      · cases hf : fs q with
        | obj d' => rw [hf] at hk; exact hc q d' hf k v hk
        | _ => rw [hf] at hk; cases hk
  · rw [h1 p hpt] at hp
    exact hc p d hp k v hk

/-- The invariant: the tasks completed have been done in order, and the one under way is prepared. -/
structure Inv (json : V → Option V) (fs0 : Path → File V) (s : State V) : Prop where
  wf : ∀ t ∈ s.tasks, t.Wf
  le : s.results.length ≤ s.tasks.length
  awaited : s.awaited ≤ s.results.length
  failed : (s.results.take s.awaited).countP (· ≠ .ok) = s.log.count .raised
  idle : s.cur = none → Clean json s.fs ∧ Done json fs0 (s.tasks.zip s.results) s.fs
  busy : ∀ p d, s.cur = some (p, d) → ∃ t fs, s.tasks[s.results.length]? = some t ∧ p = t.path ∧ s.fs = set fs p .torn ∧ Clean json fs ∧
    Done json fs0 (s.tasks.zip s.results) fs ∧ ∀ fs', (∀ q, q ≠ p → fs' q = fs q) → fs' p = .obj d → Does json t fs fs'

theorem zip_snoc {α β : Type} (l : List α) (r : List β) (a : α) (b : β) (h : l[r.length]? = some a) : l.zip (r ++ [b]) = l.zip r ++ [(a, b)] := by
  induction r generalizing l with
  | nil =>
    cases l with
    | nil => simp at h
    | cons x l => simp at h; simp [h]
  | cons y r ih =>
    cases l with
    | nil => simp at h
    | cons x l => simp at h; simp [ih l h]

theorem zip_longer {α β : Type} (l l' : List α) (r : List β) (h : r.length ≤ l.length) : (l ++ l').zip r = l.zip r := by
  induction r generalizing l with
  | nil => simp
  | cons y r ih =>
    cases l with
    | nil => simp at h
    | cons x l => simp at h; simp [ih l h]

theorem length_of_getElem? {α : Type} {l : List α} {n : Nat} {a : α} (h : l[n]? = some a) : n < l.length := by
  rw [List.getElem?_eq_some_iff] at h
  exact h.1

theorem countP_take_snoc (l : List Result) (r : Result) (n : Nat) (h : n ≤ l.length) :
    ((l ++ [r]).take n).countP (· ≠ .ok) = (l.take n).countP (· ≠ .ok) := by
  rw [List.take_append_of_le_length h]

theorem act_inv {json : V → Option V} (hj : ∀ v w, json v = some w → json w = some w) {okPath : Path → Bool} {fs0 : Path → File V} {s : State V}
    (i : Inv json fs0 s) {a : Action V} (ha : Fair a) : Inv json fs0 (act json okPath s a) := by
  cases a with
  | mutate _ _ => cases ha
  | submit t =>
    simp only [act]
    split
    · exact i
    · refine ⟨?_, ?_, i.awaited, i.failed, ?_, ?_⟩
      · intro t' ht'
        rcases List.mem_append.mp ht' with h | h
        · exact i.wf t' h
        · rw [List.mem_singleton.mp h]; exact ha
      · have := i.le; simp; omega
      · intro h
        obtain ⟨h1, h2⟩ := i.idle h
        exact ⟨h1, by rw [zip_longer _ _ _ i.le]; exact h2⟩
      · intro p d h
        obtain ⟨t', fs, h1, h2, h3, h4, h5, h6⟩ := i.busy p d h
        exact ⟨t', fs, by rw [List.getElem?_append_left (length_of_getElem? h1)]; exact h1, h2, h3, h4, by rw [zip_longer _ _ _ i.le]; exact h5, h6⟩
  | beginWait => exact ⟨i.wf, i.le, i.awaited, i.failed, i.idle, i.busy⟩
  | await =>
    simp only [act, await]
    split
    · exact i
    · split
      · refine ⟨i.wf, i.le, i.awaited, ?_, i.idle, i.busy⟩
        rw [i.failed]; simp
      · split
        · exact i
        · next h =>
          have hl := length_of_getElem? h
          refine ⟨i.wf, i.le, hl, ?_, i.idle, i.busy⟩
          have : s.results.take (s.awaited + 1) = s.results.take s.awaited ++ [.ok] := by
            rw [List.take_add_one, h]; rfl
          simp only
          rw [this, List.countP_append, i.failed]
          simp
        · next r hr h =>
          have hl := length_of_getElem? h
          refine ⟨i.wf, i.le, hl, ?_, i.idle, i.busy⟩
          have : s.results.take (s.awaited + 1) = s.results.take s.awaited ++ [r] := by
            rw [List.take_add_one, h]; rfl
          simp only
          rw [this, List.countP_append, i.failed]
          cases r <;> simp at hr ⊢
  | work ok =>
    simp only [act, work]
    cases hc : s.cur with
    | none =>
      simp only
      obtain ⟨h1, h2⟩ := i.idle hc
      cases ht : s.tasks[s.results.length]? with
      | none => exact i
      | some t =>
        have hl := length_of_getElem? ht
        simp only
        cases hp : prepare json okPath s.fs t with
        | none =>
          simp only
          refine ⟨i.wf, by simp; omega, by have := i.awaited; simp; omega, ?_, ?_, ?_⟩
          · simp only; rw [countP_take_snoc _ _ _ i.awaited]; exact i.failed
          · intro _
            refine ⟨h1, ?_⟩
            simp only
            rw [zip_snoc _ _ t _ ht]
            exact .refused h2
          · intro p d h
            simp at h
        | some d =>
          simp only
          refine ⟨i.wf, i.le, i.awaited, i.failed, by simp, ?_⟩
          intro p e h
          simp only [Option.some.injEq, Prod.mk.injEq] at h
          obtain ⟨rfl, rfl⟩ := h
          exact ⟨t, s.fs, ht, rfl, rfl, h1, h2, fun fs' hq hd => prepare_does h1 (i.wf t (List.mem_of_getElem? ht)) hp fs' hq hd⟩
    | some pd =>
      obtain ⟨p, d⟩ := pd
      obtain ⟨t, fs, ht, rfl, hfs, h1, h2, h3⟩ := i.busy p d hc
      have hl := length_of_getElem? ht
      simp only
      split
      · have hd := h3 (set s.fs t.path (.obj d)) (by intro q hq; simp [set, hq, hfs]) (by simp [set])
        refine ⟨i.wf, by simp; omega, by have := i.awaited; simp; omega, ?_, ?_, by simp⟩
        · simp only; rw [countP_take_snoc _ _ _ i.awaited]; exact i.failed
        · intro _
          simp only
          refine ⟨does_clean hj h1 hd, ?_⟩
          rw [zip_snoc _ _ t _ ht]
          exact .ok h2 hd
      · refine ⟨i.wf, by simp; omega, by have := i.awaited; simp; omega, ?_, ?_, by simp⟩
        · simp only; rw [countP_take_snoc _ _ _ i.awaited]; exact i.failed
        · intro _
          simp only
          refine ⟨?_, ?_⟩
          · intro q e hq k v hk
            rw [hfs] at hq
            simp only [set] at hq
            split at hq
            · cases hq
            · exact h1 q e hq k v hk
          · rw [zip_snoc _ _ t _ ht]
            exact .broken h2 (by intro q hq; simp [set, hq, hfs])

theorem run_inv {json : V → Option V} (hj : ∀ v w, json v = some w → json w = some w) (okPath : Path → Bool) {fs0 : Path → File V} (hc : Clean json fs0)
    (acts : List (Action V)) (ha : ∀ a ∈ acts, Fair a) : Inv json fs0 (run json okPath fs0 acts) := by
  suffices h : ∀ s, Inv json fs0 s → Inv json fs0 (acts.foldl (act json okPath) s) from
    h _ ⟨by simp, by simp, by simp, by simp, fun _ => ⟨hc, .nil⟩, by simp⟩
  induction acts with
  | nil => intro s h; exact h
  | cons a acts ih =>
    intro s h
    exact ih (fun b hb => ha b (by simp [hb])) _ (act_inv hj h (ha a (by simp)))

/-! ## Properties -/

/-- When `wait_until_finished` returns, all calls submitted have been completed, in the order of submission, and the files
hold the outcome; each one that failed has been reported by an earlier call of `wait_until_finished`, one by each. -/
theorem C49_wait {json : V → Option V} (hj : ∀ v w, json v = some w → json w = some w) (okPath : Path → Bool) {fs0 : Path → File V} (hc : Clean json fs0)
    (acts : List (Action V)) (ha : ∀ a ∈ acts, Fair a)
    (hr : (run json okPath fs0 (acts ++ [.await])).log = (run json okPath fs0 acts).log ++ [.returned]) :
    (run json okPath fs0 acts).results.length = (run json okPath fs0 acts).tasks.length ∧
    Done json fs0 ((run json okPath fs0 acts).tasks.zip (run json okPath fs0 acts).results) (run json okPath fs0 (acts ++ [.await])).fs ∧
    (run json okPath fs0 acts).results.countP (· ≠ .ok) = (run json okPath fs0 acts).log.count .raised := by
  have i := run_inv hj okPath hc acts ha
  have e : run json okPath fs0 (acts ++ [.await]) = await (run json okPath fs0 acts) := by simp [run, act]
  rw [e] at hr ⊢
  generalize run json okPath fs0 acts = s at *
  simp only [await] at hr ⊢
  split at hr
  · simp at hr
  · next hw =>
    rw [if_neg hw]
    split at hr
    · next h =>
      rw [if_pos h]
      have h1 := i.le
      have h2 := i.awaited
      have hl : s.results.length = s.tasks.length := by omega
      have hcur : s.cur = none := by
        cases hcur : s.cur with
        | none => rfl
        | some pd =>
          obtain ⟨p, d⟩ := pd
          obtain ⟨t, fs, ht, _⟩ := i.busy p d hcur
          have := length_of_getElem? ht
          omega
      refine ⟨hl, (i.idle hcur).2, ?_⟩
      have h3 := i.failed
      rw [h, ← hl, List.take_length] at h3
      exact h3
    · split at hr <;> simp at hr

/-- The specification of a list of calls that all succeed. -/
inductive DoneAll (json : V → Option V) (fs : Path → File V) : List (Task V) → (Path → File V) → Prop where
  | nil : DoneAll json fs [] fs
  | snoc {l fs' t fs''} : DoneAll json fs l fs' → Does json t fs' fs'' → DoneAll json fs (l ++ [t]) fs''

theorem doneAll_of_done {json : V → Option V} {fs fs' : Path → File V} {l : List (Task V × Result)} (h : Done json fs l fs') (hl : ∀ x ∈ l, x.2 = .ok) :
    DoneAll json fs (l.map Prod.fst) fs' := by
  induction h with
  | nil => exact .nil
  | ok h d ih => rw [List.map_append]; exact .snoc (ih fun x hx => hl x (by simp [hx])) d
  | @refused l fs' t h ih => have := hl (t, .refused) (by simp); cases this
  | @broken l fs' t fs'' h _ ih => have := hl (t, .broken) (by simp); cases this

/-- If no call of `wait_until_finished` has raised, the files hold the outcome of all calls, in the order of submission. -/
theorem C49_in_order {json : V → Option V} (hj : ∀ v w, json v = some w → json w = some w) (okPath : Path → Bool) {fs0 : Path → File V} (hc : Clean json fs0)
    (acts : List (Action V)) (ha : ∀ a ∈ acts, Fair a)
    (hr : (run json okPath fs0 (acts ++ [.await])).log = (run json okPath fs0 acts).log ++ [.returned]) (hn : .raised ∉ (run json okPath fs0 acts).log) :
    DoneAll json fs0 (run json okPath fs0 acts).tasks (run json okPath fs0 (acts ++ [.await])).fs := by
  obtain ⟨h1, h2, h3⟩ := C49_wait hj okPath hc acts ha hr
  rw [List.count_eq_zero.mpr hn, List.countP_eq_zero] at h3
  have := doneAll_of_done h2 (by
    intro x hx
    have := h3 x.2 (List.of_mem_zip hx).2
    simpa using this)
  rwa [List.map_fst_zip (by omega)] at this

/-- The tasks are those submitted, in order, except for submissions made during a wait, which block. -/
theorem C49_submitted (json : V → Option V) (okPath : Path → Bool) (fs0 : Path → File V) (acts : List (Action V)) (t : Task V)
    (hw : (run json okPath fs0 acts).waiting = false) : (run json okPath fs0 (acts ++ [.submit t])).tasks = (run json okPath fs0 acts).tasks ++ [t] := by
  have e : run json okPath fs0 (acts ++ [.submit t]) = act json okPath (run json okPath fs0 acts) (.submit t) := by simp [run]
  rw [e]
  simp only [act, hw]
  rfl

/-- A reader sees, at any moment, each file as the completed calls left it, or an unreadable file, of which `read` makes `None`. -/
theorem C49_readers {json : V → Option V} (hj : ∀ v w, json v = some w → json w = some w) (okPath : Path → Bool) {fs0 : Path → File V} (hc : Clean json fs0)
    (acts : List (Action V)) (ha : ∀ a ∈ acts, Fair a) (p : Path) :
    ∃ fs, Done json fs0 ((run json okPath fs0 acts).tasks.zip (run json okPath fs0 acts).results) fs ∧
      (readFile ((run json okPath fs0 acts).fs p) = readFile (fs p) ∨ readFile ((run json okPath fs0 acts).fs p) = none) := by
  have i := run_inv hj okPath hc acts ha
  generalize run json okPath fs0 acts = s at *
  cases hcur : s.cur with
  | none => exact ⟨s.fs, (i.idle hcur).2, .inl rfl⟩
  | some pd =>
    obtain ⟨q, d⟩ := pd
    obtain ⟨t, fs, _, _, hfs, _, h, _⟩ := i.busy q d hcur
    refine ⟨fs, h, ?_⟩
    rw [hfs]
    simp only [set]
    split
    · exact .inr rfl
    · exact .inl rfl

/-- The worker gets through: two steps for each call submitted are enough to complete all of them. -/
theorem C49_worker_finishes {json : V → Option V} (hj : ∀ v w, json v = some w → json w = some w) (okPath : Path → Bool) {fs0 : Path → File V} (hc : Clean json fs0)
    (acts : List (Action V)) (ha : ∀ a ∈ acts, Fair a) (oks : List Bool) (ho : 2 * (run json okPath fs0 acts).tasks.length ≤ oks.length) :
    (run json okPath fs0 (acts ++ oks.map .work)).results.length = (run json okPath fs0 acts).tasks.length := by
  have key : ∀ (oks : List Bool) (s : State V), Inv json fs0 s → 2 * s.tasks.length ≤ oks.length + 2 * s.results.length + (if s.cur.isSome then 1 else 0) →
      (oks.map Action.work |>.foldl (act json okPath) s).results.length = s.tasks.length := by
    intro oks
    induction oks with
    | nil =>
      intro s i h
      have := i.le
      simp only [List.map_nil, List.foldl_nil]
      cases hcur : s.cur with
      | none => simp [hcur] at h; omega
      | some pd =>
        obtain ⟨t, _, ht, _⟩ := i.busy pd.1 pd.2 hcur
        have := length_of_getElem? ht
        simp [hcur] at h
        omega
    | cons o oks ih =>
      intro s i h
      simp only [List.map_cons, List.foldl_cons]
      have i' := act_inv hj (okPath := okPath) i (a := .work o) trivial
      have e : (act json okPath s (.work o)).tasks = s.tasks := by
        simp only [act, work]
        repeat' split
        all_goals rfl
      rw [← e]
      apply ih _ i'
      rw [e]
      have hle := i.le
      simp only [List.length_cons] at h
      rcases hcur : s.cur with _ | ⟨p, d⟩
      case some =>
        simp only [act, work, hcur]
        simp [hcur] at h
        split <;> simp <;> omega
      case none =>
        simp [hcur] at h
        rcases ht : s.tasks[s.results.length]? with _ | t
        case none =>
          simp only [act, work, hcur, ht]
          rw [List.getElem?_eq_none_iff] at ht
          simp
          omega
        case some =>
          rcases hp : prepare json okPath s.fs t with _ | d
          all_goals
            simp only [act, work, hcur, ht, hp]
            simp
            omega
  have i := run_inv hj okPath hc acts ha
  have e : run json okPath fs0 (acts ++ oks.map .work) = (oks.map Action.work |>.foldl (act json okPath) (run json okPath fs0 acts)) := by simp [run]
  rw [e]
  exact key oks _ i (by omega)

/-- The blocking store does what is asked before it returns. -/
theorem C49_blocking {json : V → Option V} (okPath : Path → Bool) {fs fs' : Path → File V} (hc : Clean json fs) {t : Task V} (hw : t.Wf)
    (h : blocking json okPath fs t = some fs') : Does json t fs fs' := by
  simp only [blocking] at h
  cases hp : prepare json okPath fs t with
  | none => simp [hp] at h
  | some d =>
    simp only [hp, Option.some.injEq] at h
    subst h
    exact prepare_does hc hw hp _ (by intro q hq; simp [set, hq]) (by simp [set])

theorem dump_isSome {json : V → Option V} {d : Data V} (h : ∀ kv ∈ d, (json kv.2).isSome) : (dump json d).isSome := by
  induction d with
  | nil => rfl
  | cons a d ih =>
    obtain ⟨k, v⟩ := a
    have h1 := h (k, v) (by simp)
    have h2 := ih fun kv hkv => h kv (by simp [hkv])
    obtain ⟨w, hw⟩ := Option.isSome_iff_exists.mp h1
    obtain ⟨e, he⟩ := Option.isSome_iff_exists.mp h2
    simp only at hw
    simp [dump, hw, he]

/-- It refuses nothing it should do: serializable values and a file that is missing, unreadable, empty or holds a dictionary. -/
theorem C49_blocking_accepts {json : V → Option V} (okPath : Path → Bool) {fs : Path → File V} (t : Task V) (hp : okPath t.path = true)
    (hv : match t with
      | .write _ m => ∀ kv ∈ m, (json kv.2).isSome
      | .update p kw => fs p ≠ .other true ∧ (∀ kv ∈ kw, (json kv.2).isSome) ∧ ∀ d, fs p = .obj d → ∀ kv ∈ d, (json kv.2).isSome) :
    (blocking json okPath fs t).isSome := by
  suffices h : (prepare json okPath fs t).isSome by
    obtain ⟨d, hd⟩ := Option.isSome_iff_exists.mp h
    simp [blocking, hd]
  cases t with
  | write p m =>
    simp only [Task.path] at hp
    simp only [prepare, hp, if_true]
    exact dump_isSome hv
  | update p kw =>
    simp only [Task.path] at hp
    obtain ⟨h1, h2, h3⟩ := hv
    have : ∃ d, readDict (fs p) = some d ∧ ∀ kv ∈ d, (json kv.2).isSome := by
      cases hf : fs p with
      | absent => exact ⟨[], rfl, by simp⟩
      | torn => exact ⟨[], rfl, by simp⟩
      | obj d => exact ⟨d, rfl, h3 d hf⟩
      | other b =>
        cases b with
        | true => exact absurd hf h1
        | false => exact ⟨[], rfl, by simp⟩
    obtain ⟨d, hd, hd'⟩ := this
    simp only [prepare, hd, hp, if_true]
    apply dump_isSome
    clear hd h3 h1 hp
    induction kw generalizing d with
    | nil => exact hd'
    | cons a kw ih =>
      simp only [List.foldl_cons]
      apply ih (fun kv hkv => h2 kv (by simp [hkv]))
      intro kv hkv
      have : ∀ (d : Data V), (∀ kv ∈ d, (json kv.2).isSome) → ∀ kv ∈ Assoc.put d a.1 a.2, (json kv.2).isSome := by
        intro d
        induction d with
        | nil => intro _ kv hkv; simp [Assoc.put] at hkv; subst hkv; exact h2 a (by simp)
        | cons b d ihd =>
          intro hb kv hkv
          simp only [Assoc.put] at hkv
          split at hkv
          · rcases List.mem_cons.mp hkv with rfl | hkv
            · exact h2 a (by simp)
            · exact hb kv (by simp [hkv])
          · rcases List.mem_cons.mp hkv with rfl | hkv
            · exact hb _ (by simp)
            · exact ihd (fun kv hkv => hb kv (by simp [hkv])) kv hkv
      exact this d hd' kv hkv

/-! ## Findings -/

/-- A run on one file: the states of the examples. -/
abbrev demo (acts : List (Action Nat)) : State Nat := run some (fun _ => true) (fun p => if p = "m" then .obj [("a", 1)] else .absent) acts

/-- A dictionary that the caller changes after `write` has returned: what is written is the changed one. -/
theorem C49_mutation_fails : (demo [.submit (.write "m" [("a", 5)]), .mutate 0 [("a", 6)], .work true, .work true]).fs "m" = .obj [("a", 6)] := by
  decide

/-- A reader can meet the file in the middle of a write, and is told that there is no metadata, although there was
before and will be after. -/
theorem C49_read_during_write_fails : readFile ((demo []).fs "m") = some (.obj [("a", 1)]) ∧
    readFile ((demo [.submit (.update "m" [("b", 2)]), .work true]).fs "m") = none ∧
    readFile ((demo [.submit (.update "m" [("b", 2)]), .work true, .work true]).fs "m") = some (.obj [("a", 1), ("b", 2)]) := by
  decide

/-- A write that breaks (or a crash in the middle of it) loses the fields that were there: the next update starts from nothing. -/
theorem C49_broken_write_fails : (demo [.submit (.update "m" [("b", 2)]), .submit (.update "m" [("c", 3)]), .work true, .work false, .work true, .work true]).fs "m" =
    .obj [("c", 3)] := by
  decide

/-- Three calls and a wait. -/
example : (demo [.submit (.update "m" [("b", 2)]), .work true, .submit (.update "m" [("a", 3)]), .work true, .submit (.write "n" []), .beginWait, .await,
    .work true, .await, .work true, .await, .work true, .await, .work true, .await, .await]).log = [.returned] ∧
    (demo [.submit (.update "m" [("b", 2)]), .work true, .submit (.update "m" [("a", 3)]), .work true, .submit (.write "n" []), .beginWait, .await,
    .work true, .await, .work true, .await, .work true, .await, .work true, .await, .await]).fs "m" = .obj [("a", 3), ("b", 2)] := by
  decide

end Verif.Metadata
