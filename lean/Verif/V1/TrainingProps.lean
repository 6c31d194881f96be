import Verif.V1.Training

/-!
# C83: the training checkpointer
-/
namespace Verif.V1.Training

/-! ## Specification -/

/-- A condition on each event of a history and the state in which it happens. -/
def Along (cfg : Cfg) (P : St → Ev → Prop) : St → List Ev → Prop
  | _, [] => True
  | st, e :: es => P st e ∧ Along cfg P (exec cfg st e).1 es

/-- No save is called between the start of a finalize thread and its first step. -/
def Prompt (st : St) (e : Ev) : Prop :=
  (∃ s f o, e = .save s f o) → ∀ f, st.fin = some f → f.phase ≠ .started

/-- No save asks for overwriting. -/
def NoOverwrite (_ : St) (e : Ev) : Prop := ∀ s f o, e = .save s f o → o = false

/-- A save that goes on has a step that is not in storage. -/
def FreshStep (st : St) (e : Ev) : Prop :=
  (∃ now ok, e = .proceed now ok) → ∀ s, st.pending = some s → ∀ x ∈ st.disk, x.1 ≠ s

/-- The newest checkpoint is preserved. -/
def KeepsNewest (cfg : Cfg) : Prop :=
  ∀ l i, ∃ flags, cfg.preserve (l ++ [i]) = flags ++ [true] ∧ flags.length = l.length

/-! ## Lemmas -/

theorem any_sort (l : List Info) (le : Info → Info → Bool) (p : Info → Bool) :
    (l.mergeSort le).any p = l.any p := by
  rw [Bool.eq_iff_iff, List.any_eq_true, List.any_eq_true]
  simp only [List.mem_mergeSort]

theorem along_append (cfg : Cfg) (P : St → Ev → Prop) (st : St) (a b : List Ev) :
    Along cfg P st (a ++ b) ↔ Along cfg P st a ∧ Along cfg P (run cfg st a) b := by
  induction a generalizing st with
  | nil => simp [Along, run]
  | cons e a ih =>
    simp only [List.cons_append, Along, ih, run, List.foldl_cons, and_assoc]

theorem along_induct (cfg : Cfg) (P : St → Ev → Prop) (Q : St → Prop)
    (hstep : ∀ st e, Q st → P st e → Q (exec cfg st e).1) :
    ∀ evs st, Q st → Along cfg P st evs → Q (run cfg st evs) := by
  intro evs
  induction evs with
  | nil => intro st h _; exact h
  | cons e es ih =>
    intro st h hp
    exact ih _ (hstep st e h hp.1) hp.2

/-- What is true of the finalize thread in histories without overwriting in which threads start promptly. -/
structure Good (st : St) (f : Fin) : Prop where
  started : f.phase = .started → st.current = f.owner
  waiting : ∀ id, f.phase = .waiting id → id = f.owner
  work : f.phase = .started ∨ (∃ id, f.phase = .waiting id) →
    st.work f.owner = .failed ∨ (∃ g, st.work f.owner = .running f.step g) ∨
      (st.work f.owner = .committed ∧ (f.step, f.owner) ∈ st.disk)
  info : f.phase ≠ .failed → f.step ∉ f.remove → ∃ i ∈ st.infos, i.step = f.step
  done : f.phase = .succeeded →
    st.work f.owner = .committed ∧ (f.step ∉ f.remove → (f.step, f.owner) ∈ st.disk)
  older : st.pending.isSome = true → st.current ≠ f.owner
  below : f.owner < st.next

def Inv (st : St) : Prop := ∀ f, st.fin = some f → Good st f

theorem begin_inv (cfg : Cfg) (st : St) (s : Int) (force : Bool) (h : Inv st)
    (hs : ∀ f, st.fin = some f → f.phase ≠ .started) : Inv (begin cfg st s force).1 := by
  intro f hf
  have hfin : (begin cfg st s force).1.fin = st.fin := by
    simp only [begin]
    split <;> rfl
  rw [hfin] at hf
  have hg := h f hf
  have hcur : (begin cfg st s force).1.current = st.next := by simp only [begin]; split <;> rfl
  have hn : (begin cfg st s force).1.next = st.next + 1 := by simp only [begin]; split <;> rfl
  have hw : (begin cfg st s force).1.work = st.work := by simp only [begin]; split <;> rfl
  have hd : (begin cfg st s force).1.disk = st.disk := by simp only [begin]; split <;> rfl
  have hi : (begin cfg st s force).1.infos = st.infos := by simp only [begin]; split <;> rfl
  have hb := hg.below
  refine ⟨fun hp => absurd hp (hs f hf), hg.waiting, ?_, ?_, ?_, ?_, ?_⟩
  · rw [hw, hd]; exact hg.work
  · rw [hi]; exact hg.info
  · rw [hw, hd]; exact hg.done
  · intro _; rw [hcur]; omega
  · rw [hn]; omega

theorem write_inv (cfg : Cfg) (st : St) (s now : Int) (ok : Bool) (h : Inv st)
    (hlt : st.current < st.next) (halive : finAlive st = false) : Inv (write cfg st s now ok).1 := by
  unfold write
  simp only
  split
  · rename_i hany
    intro f hf
    have hg := h f hf
    exact ⟨hg.started, hg.waiting, hg.work, hg.info, hg.done, fun hp => by simp at hp, hg.below⟩
  · rename_i hany
    split
    · intro f hf
      have hg := h f hf
      have hph : ¬ (f.phase = .started ∨ ∃ id, f.phase = .waiting id) := by
        rintro (hp | ⟨id, hp⟩)
        · simp only at hf
          simp [finAlive, hf, hp] at halive
        · simp only at hf
          simp [finAlive, hf, hp] at halive
      refine ⟨hg.started, hg.waiting, fun hp => absurd hp hph, hg.info, ?_, fun hp => by simp at hp,
        hg.below⟩
      intro hp
      refine ⟨(hg.done hp).1, fun hr => ?_⟩
      obtain ⟨i, hi, hie⟩ := hg.info (by rw [hp]; simp) hr
      have hne : f.step ≠ s := by
        rintro rfl
        exact hany (List.any_eq_true.2 ⟨i, hi, by simp [hie]⟩)
      exact List.mem_filter.2 ⟨(hg.done hp).2 hr, by simp [hne]⟩
    · intro f hf
      simp only [Option.some.injEq] at hf
      subst hf
      refine ⟨fun _ => rfl, by simp, ?_, ?_, by simp, by simp, hlt⟩
      · intro _
        refine Or.inr (Or.inl ⟨false, ?_⟩)
        simp
      · intro _ hr
        simp only at hr ⊢
        exact ⟨⟨s, some now⟩, List.mem_filter.2 ⟨by simp, by simpa using hr⟩, rfl⟩

/-- The current object is an existing one. -/
def Numbered (st : St) : Prop := st.current < st.next

theorem numbered_step (cfg : Cfg) (st : St) (e : Ev) (h : Numbered st) : Numbered (exec cfg st e).1 := by
  have hb : ∀ (st : St) s f, Numbered (begin cfg st s f).1 := by
    intro st s f
    simp only [begin, Numbered]
    split <;> simp
  have hw : ∀ s now ok, Numbered (write cfg st s now ok).1 := by
    intro s now ok
    unfold write
    simp only
    split
    · exact h
    · split <;> exact h
  cases e with
  | save s f o =>
    simp only [exec, save]
    split
    · exact h
    · split
      · exact hb _ _ _
      · split
        · exact h
        · split
          · exact h
          · exact hb _ _ _
  | proceed now ok =>
    simp only [exec, proceed]
    split
    · exact h
    · split
      · exact hw _ _ _
      · split
        · exact h
        · exact h
        · exact hw _ _ _
        · split
          · exact hw _ _ _
          · exact h
  | commitDone id ok =>
    simp only [exec, commitDone]
    split
    · split <;> exact h
    · exact h
  | finStep =>
    simp only [exec, finStep]
    split
    · exact h
    · split
      · exact h
      · split <;> exact h
      · exact h
  | result =>
    simp only [exec, result]
    split
    · exact h
    · split <;> exact h

theorem inv_step (cfg : Cfg) (st : St) (e : Ev) (h : Inv st ∧ Numbered st)
    (hp : Prompt st e ∧ NoOverwrite st e) : Inv (exec cfg st e).1 ∧ Numbered (exec cfg st e).1 := by
  refine ⟨?_, numbered_step cfg st e h.2⟩
  obtain ⟨h, hnum⟩ := h
  cases e with
  | save s f o =>
    have ho : o = false := hp.2 s f o rfl
    subst ho
    have hs : ∀ f, st.fin = some f → f.phase ≠ .started := hp.1 ⟨s, f, false, rfl⟩
    simp only [exec, save]
    split
    · exact h
    · rw [if_neg (by simp)]
      split
      · exact h
      · split
        · exact h
        · exact begin_inv cfg st s f h hs
  | proceed now ok =>
    simp only [exec, proceed]
    split
    · exact h
    · rename_i s hpend
      split
      · rename_i hn
        exact write_inv cfg st s now ok h hnum (by simp [finAlive, hn])
      · rename_i f hf
        split
        · exact h
        · exact h
        · rename_i hph
          exact write_inv cfg st s now ok h hnum (by simp [finAlive, hf, hph])
        · rename_i hph
          split
          · exact write_inv cfg st s now ok h hnum (by simp [finAlive, hf, hph])
          · intro f' hf'
            simp only [Option.some.injEq] at hf'
            subst hf'
            have hg := h f hf
            exact ⟨by simp [hph], by simp [hph], by simp [hph], by simp [hph], by simp [hph],
              by simp, hg.below⟩
  | commitDone id ok =>
    simp only [exec, commitDone]
    split
    · rename_i s gone hw
      split
      · intro f hf
        have hg := h f hf
        refine ⟨hg.started, hg.waiting, ?_, hg.info, ?_, hg.older, hg.below⟩
        · intro hph
          simp only
          by_cases ho : f.owner = id
          · subst ho
            simp only [if_true]
            refine Or.inr (Or.inr ⟨trivial, ?_⟩)
            rcases hg.work hph with h1 | ⟨g, h1⟩ | ⟨h1, _⟩
            · rw [hw] at h1; cases h1
            · rw [hw] at h1; cases h1; simp
            · rw [hw] at h1; cases h1
          · rw [if_neg ho]
            rcases hg.work hph with h1 | h1 | ⟨h1, h2⟩
            · exact Or.inl h1
            · exact Or.inr (Or.inl h1)
            · exact Or.inr (Or.inr ⟨h1, List.mem_append_left _ h2⟩)
        · intro hp
          obtain ⟨h1, h2⟩ := hg.done hp
          have ho : f.owner ≠ id := by
            rintro rfl
            rw [hw] at h1; cases h1
          simp only
          rw [if_neg ho]
          exact ⟨h1, fun hr => List.mem_append_left _ (h2 hr)⟩
      · intro f hf
        have hg := h f hf
        refine ⟨hg.started, hg.waiting, ?_, hg.info, ?_, hg.older, hg.below⟩
        · intro hp
          simp only
          by_cases ho : f.owner = id
          · exact Or.inl (if_pos ho)
          · rw [if_neg ho]
            exact hg.work hp
        · intro hp
          obtain ⟨h1, h2⟩ := hg.done hp
          have ho : f.owner ≠ id := by
            rintro rfl
            rw [hw] at h1; cases h1
          simp only
          rw [if_neg ho]
          exact ⟨h1, h2⟩
    · exact h
  | finStep =>
    simp only [exec, finStep]
    split
    · exact h
    · rename_i f hf
      have hg := h f hf
      split
      · rename_i hph
        intro f' hf'
        simp only [Option.some.injEq] at hf'
        subst hf'
        refine ⟨by simp, ?_, fun _ => hg.work (Or.inl hph), fun _ => hg.info (by simp [hph]), by simp,
          hg.older, hg.below⟩
        intro id hid
        simp only [Phase.waiting.injEq] at hid
        rw [← hid]
        exact hg.started hph
      · rename_i id hph
        have hid := hg.waiting id hph
        subst hid
        split
        · exact h
        · intro f' hf'
          simp only [Option.some.injEq] at hf'
          subst hf'
          exact ⟨by simp, by simp, by simp, by simp, by simp, hg.older, hg.below⟩
        · rename_i hn1 hn2
          intro f' hf'
          simp only [Option.some.injEq] at hf'
          subst hf'
          have hwk := hg.work (Or.inr ⟨_, hph⟩)
          refine ⟨by simp, by simp, by simp, fun _ => hg.info (by simp [hph]), ?_, hg.older, hg.below⟩
          intro _
          rcases hwk with h1 | ⟨g, h1⟩ | ⟨h1, h2⟩
          · exact absurd h1 hn2
          · exact absurd h1 (hn1 _ _)
          · exact ⟨h1, fun hr => List.mem_filter.2 ⟨h2, by simpa using hr⟩⟩
      · exact h
  | result =>
    simp only [exec, result]
    split
    · exact h
    · rename_i f hf
      split
      · exact h
      · rename_i hph
        intro f' hf'
        have : f' = f := by rw [hf] at hf'; cases hf'; rfl
        subst this
        have hg := h f' hf
        exact ⟨hg.started, hg.waiting, hg.work, fun hp => absurd hph hp, hg.done, hg.older, hg.below⟩
      · exact h

theorem init_inv (disk : List (Int × Nat)) (stamps : Int → Option Int) (n : Nat) :
    Inv (init disk stamps n) ∧ Numbered (init disk stamps n) :=
  ⟨fun f hf => by simp [init] at hf, by simp [Numbered, init]⟩

theorem along_and (cfg : Cfg) (P Q : St → Ev → Prop) (st : St) (evs : List Ev)
    (h1 : Along cfg P st evs) (h2 : Along cfg Q st evs) : Along cfg (fun s e => P s e ∧ Q s e) st evs := by
  induction evs generalizing st with
  | nil => trivial
  | cons e es ih => exact ⟨⟨h1.1, h2.1⟩, ih _ h1.2 h2.2⟩

/-! ## Theorems -/

/-- C83: without overwriting, and if finalize threads take their first step before the next save is called,
`result()` reports success only if the save wrote its checkpoint completely, and then the checkpoint is in
storage unless the preservation policy rejected it. -/
theorem C83_result_means_saved (cfg : Cfg) (disk : List (Int × Nat)) (stamps : Int → Option Int) (n : Nat)
    (evs : List Ev) (h1 : Along cfg Prompt (init disk stamps n) evs)
    (h2 : Along cfg NoOverwrite (init disk stamps n) evs) (f : Fin)
    (hf : (run cfg (init disk stamps n) evs).fin = some f)
    (hr : (exec cfg (run cfg (init disk stamps n) evs) .result).2 = .done) :
    (run cfg (init disk stamps n) evs).work f.owner = .committed ∧
    (f.step ∉ f.remove → (f.step, f.owner) ∈ (run cfg (init disk stamps n) evs).disk) := by
  have hinv := (along_induct cfg _ (fun st => Inv st ∧ Numbered st)
    (fun st e h hp => inv_step cfg st e h hp) evs _ (init_inv disk stamps n)
    (along_and cfg _ _ _ _ h1 h2)).1
  have hg := hinv f hf
  apply hg.done
  simp only [exec, result, hf] at hr
  cases hph : f.phase <;> simp [hph] at hr ⊢

theorem keeps_not_removed (cfg : Cfg) (hk : KeepsNewest cfg) (l : List Info) (i : Info)
    (hl : ∀ j ∈ l, j.step ≠ i.step) : i.step ∉ toRemove (l ++ [i]) (cfg.preserve (l ++ [i])) := by
  obtain ⟨flags, h1, h2⟩ := hk l i
  rw [h1]
  unfold toRemove
  rw [List.zip_append h2.symm]
  simp only [List.filterMap_append, List.mem_append, List.mem_filterMap, not_or]
  constructor
  · rintro ⟨p, hp, he⟩
    have := (List.of_mem_zip hp).1
    split at he
    · cases he
    · simp only [Option.some.injEq] at he
      exact hl _ this he
  · simp

/-- C83: under these conditions, if the newest checkpoint is always preserved and saves use new steps, storage
that contains a checkpoint always contains one, at every point of every history: an old checkpoint is deleted
only after a newer one is complete. -/
theorem C83_never_emptied (cfg : Cfg) (hk : KeepsNewest cfg) (disk : List (Int × Nat))
    (stamps : Int → Option Int) (n : Nat) (hne : disk ≠ []) (evs : List Ev)
    (h1 : Along cfg Prompt (init disk stamps n) evs)
    (h2 : Along cfg NoOverwrite (init disk stamps n) evs)
    (h3 : Along cfg FreshStep (init disk stamps n) evs) :
    (run cfg (init disk stamps n) evs).disk ≠ [] := by
  have hkey := along_induct cfg (fun s e => (Prompt s e ∧ NoOverwrite s e) ∧ FreshStep s e)
    (fun st => (Inv st ∧ Numbered st) ∧ st.disk ≠ [] ∧ ∀ f, st.fin = some f → f.step ∉ f.remove) ?_ evs _
    ⟨init_inv disk stamps n, hne, fun f hf => by simp [init] at hf⟩
    (along_and cfg _ _ _ _ (along_and cfg _ _ _ _ h1 h2) h3)
  · exact hkey.2.1
  · intro st e ⟨hi, hd, hr⟩ ⟨hp, hfr⟩
    refine ⟨inv_step cfg st e hi hp, ?_⟩
    have hwrite : ∀ s now ok, st.pending = some s → (∀ x ∈ st.disk, x.1 ≠ s) →
        (write cfg st s now ok).1.disk ≠ [] ∧
        ∀ f, (write cfg st s now ok).1.fin = some f → f.step ∉ f.remove := by
      intro s now ok _ hx
      have hdrop : dropDisk st.disk s = st.disk := by
        unfold dropDisk
        rw [List.filter_eq_self]
        intro x hm
        simpa using hx x hm
      unfold write
      simp only [hdrop]
      split
      · exact ⟨hd, hr⟩
      · rename_i hany
        split
        · exact ⟨hd, hr⟩
        · refine ⟨hd, ?_⟩
          intro f hf
          simp only [Option.some.injEq] at hf
          subst hf
          apply keeps_not_removed cfg hk st.infos ⟨s, some now⟩
          intro j hj he
          exact hany (List.any_eq_true.2 ⟨j, hj, by simp [he]⟩)
    cases e with
    | save s f o =>
      have ho : o = false := hp.2 s f o rfl
      subst ho
      have hb : (begin cfg st s f).1.disk = st.disk ∧ (begin cfg st s f).1.fin = st.fin := by
        simp only [begin]; split <;> exact ⟨rfl, rfl⟩
      simp only [exec, save]
      split
      · exact ⟨hd, hr⟩
      · rw [if_neg (by simp)]
        split
        · exact ⟨hd, hr⟩
        · split
          · exact ⟨hd, hr⟩
          · rw [hb.1, hb.2]; exact ⟨hd, hr⟩
    | proceed now ok =>
      have hfr' := hfr ⟨now, ok, rfl⟩
      simp only [exec, proceed]
      split
      · exact ⟨hd, hr⟩
      · rename_i s hpend
        split
        · exact hwrite s now ok hpend (hfr' s hpend)
        · rename_i f hf
          split
          · exact ⟨hd, hr⟩
          · exact ⟨hd, hr⟩
          · exact hwrite s now ok hpend (hfr' s hpend)
          · split
            · exact hwrite s now ok hpend (hfr' s hpend)
            · refine ⟨hd, ?_⟩
              intro f' hf'
              simp only [Option.some.injEq] at hf'
              subst hf'
              exact hr f hf
    | commitDone id ok =>
      simp only [exec, commitDone]
      split
      · split
        · exact ⟨by simp, hr⟩
        · exact ⟨hd, hr⟩
      · exact ⟨hd, hr⟩
    | finStep =>
      have hnew := (inv_step cfg st .finStep hi hp).1
      simp only [exec, finStep] at hnew ⊢
      split
      · exact ⟨hd, hr⟩
      · rename_i f hf
        simp only [hf] at hnew
        have hrf := hr f hf
        split
        · exact ⟨hd, fun f' hf' => by simp only [Option.some.injEq] at hf'; subst hf'; exact hrf⟩
        · rename_i id hph
          simp only [hph] at hnew
          split
          · exact ⟨hd, hr⟩
          · exact ⟨hd, fun f' hf' => by simp only [Option.some.injEq] at hf'; subst hf'; exact hrf⟩
          · rename_i hn1 hn2
            have hgood : (f.step, f.owner) ∈ st.disk.filter fun e => !f.remove.contains e.1 := by
              have hg := hi.1 f hf
              have hid := hg.waiting id hph
              subst hid
              rcases hg.work (Or.inr ⟨_, hph⟩) with h1 | ⟨g, h1⟩ | ⟨h1, h2⟩
              · exact absurd h1 hn2
              · exact absurd h1 (hn1 _ _)
              · exact List.mem_filter.2 ⟨h2, by simpa using hrf⟩
            refine ⟨List.ne_nil_of_mem hgood, ?_⟩
            intro f' hf'
            simp only [Option.some.injEq] at hf'
            subst hf'
            exact hrf
        · exact ⟨hd, hr⟩
    | result =>
      simp only [exec, result]
      split
      · exact ⟨hd, hr⟩
      · split <;> exact ⟨hd, hr⟩

/-- C83: `latest` is the checkpoint with the greatest step, in whatever order checkpoints were saved, and
there is none exactly if there are no checkpoints. -/
theorem C83_latest (st : St) (hts : ∀ i ∈ st.infos, i.stamp.isSome = true) :
    (∀ i, latest st = some (some i) → i ∈ st.infos ∧ ∀ j ∈ st.infos, j.step ≤ i.step) ∧
    (latest st = some none ↔ st.infos = []) := by
  have hc : checkpoints st = some (st.infos.mergeSort fun a b => decide (a.step ≤ b.step)) := by
    unfold checkpoints
    rw [if_pos (List.all_eq_true.2 hts)]
  simp only [latest, hc, Option.map_some, Option.some.injEq]
  have hsorted : (st.infos.mergeSort fun a b => decide (a.step ≤ b.step)).Pairwise
      (fun a b => decide (a.step ≤ b.step) = true) :=
    List.pairwise_mergeSort (fun a b c h1 h2 => by simp at h1 h2 ⊢; omega)
      (fun a b => by simp; omega) _
  constructor
  · intro i hi
    have hm := List.mem_of_getLast? hi
    refine ⟨List.mem_mergeSort.1 hm, ?_⟩
    intro j hj
    obtain ⟨pre, hpre⟩ := List.getLast?_eq_some_iff.1 hi
    rw [hpre] at hsorted
    have hj' : j ∈ pre ++ [i] := by rw [← hpre]; exact List.mem_mergeSort.2 hj
    rcases List.mem_append.1 hj' with h | h
    · simpa using (List.pairwise_append.1 hsorted).2.2 j h i (by simp)
    · simp at h; subst h; exact Int.le_refl _
  · rw [List.getLast?_eq_none_iff]
    constructor
    · intro h
      have := List.length_mergeSort (le := fun a b : Info => decide (a.step ≤ b.step)) st.infos
      rw [h] at this
      exact List.length_eq_zero_iff.1 this.symm
    · intro h; rw [h]; simp

/-- C83: loading the latest, or a given step, reads the directory of that step: the value written by the save
whose checkpoint is there. -/
theorem C83_load (st : St) (hts : ∀ i ∈ st.infos, i.stamp.isSome = true)
    (hdisk : (st.disk.map Prod.fst).Nodup) (s : Int) (id : Nat) (hm : (s, id) ∈ st.disk)
    (hi : ∃ i ∈ st.infos, i.step = s) :
    load st (some s) = .ok id ∧
    ((∀ j ∈ st.infos, j.step ≤ s) → load st none = .ok id) := by
  have hc : checkpoints st = some (st.infos.mergeSort fun a b => decide (a.step ≤ b.step)) := by
    unfold checkpoints
    rw [if_pos (List.all_eq_true.2 hts)]
  have hfind : st.disk.find? (fun e => decide (e.1 = s)) = some (s, id) := by
    cases hf : st.disk.find? fun e => decide (e.1 = s) with
    | none => simpa using List.find?_eq_none.1 hf _ hm
    | some e =>
      have h1 := List.mem_of_find?_eq_some hf
      have h2 : e.1 = s := by simpa using List.find?_some hf
      have : ∀ (l : List (Int × Nat)), (l.map Prod.fst).Nodup → e ∈ l → (s, id) ∈ l → e = (s, id) := by
        intro l
        induction l with
        | nil => intro _ h; cases h
        | cons a l ih =>
          intro hn ha hb
          simp only [List.map_cons, List.nodup_cons] at hn
          rcases List.mem_cons.1 ha with rfl | ha
          · rcases List.mem_cons.1 hb with hb | hb
            · exact hb.symm
            · exact absurd (List.mem_map.2 ⟨_, hb, h2.symm⟩) hn.1
          · rcases List.mem_cons.1 hb with hb | hb
            · rw [← hb] at hn
              exact absurd (List.mem_map.2 ⟨_, ha, h2⟩) hn.1
            · exact ih hn.2 ha hb
      rw [this _ hdisk h1 hm]
  obtain ⟨i, hi, rfl⟩ := hi
  constructor
  · have : resolve st (some i.step) = .ok i.step := by
      simp only [resolve, hc]
      cases hf : (st.infos.mergeSort fun a b => decide (a.step ≤ b.step)).find?
          fun j => decide (j.step = i.step) with
      | none => simpa using List.find?_eq_none.1 hf i (List.mem_mergeSort.2 hi)
      | some j =>
        have h2 : j.step = i.step := by simpa using List.find?_some hf
        simp [h2]
    simp only [load, this, hfind]
  · intro hmax
    have hl := C83_latest st hts
    cases hlat : (st.infos.mergeSort fun a b => decide (a.step ≤ b.step)).getLast? with
    | none =>
      have : latest st = some none := by simp [latest, hc, hlat]
      have := hl.2.1 this
      rw [this] at hi
      cases hi
    | some j =>
      have hj := hl.1 j (by simp [latest, hc, hlat])
      have h1 := hj.2 i hi
      have h2 := hmax j hj.1
      have he : j.step = i.step := by omega
      have : resolve st none = .ok i.step := by
        simp [resolve, hc, hlat, he]
      simp only [load, this, hfind]

/-- C83: a step that exists is not saved again unless that is asked for, and nothing changes. -/
theorem C83_exists (cfg : Cfg) (st : St) (s : Int) (force : Bool) (hp : st.pending = none)
    (hts : ∀ i ∈ st.infos, i.stamp.isSome = true) (hi : ∃ i ∈ st.infos, i.step = s) :
    save cfg st s force false = (st, .raised .stepAlreadyExists) := by
  have hc : checkpoints st = some (st.infos.mergeSort fun a b => decide (a.step ≤ b.step)) := by
    unfold checkpoints
    rw [if_pos (List.all_eq_true.2 hts)]
  simp only [save, hp, hc, any_sort]
  obtain ⟨i, hi, rfl⟩ := hi
  rw [if_neg (by simp), if_neg (by simp), if_pos (List.any_eq_true.2 ⟨i, hi, by simp⟩)]

/-- C83: a save that is skipped by the policy, without overwriting, changes no checkpoint. -/
theorem C83_skipped (cfg : Cfg) (st st' : St) (s : Int) (h : save cfg st s false false = (st', .skipped)) :
    st'.infos = st.infos ∧ st'.disk = st.disk ∧ st'.work = st.work ∧ st'.fin = st.fin := by
  simp only [save] at h
  split at h
  · simp at h
  · rw [if_neg (by simp)] at h
    split at h
    · simp at h
    · split at h
      · simp at h
      · unfold begin at h
        simp only at h
        split at h
        · simp at h
        · simp only [Prod.mk.injEq] at h
          rw [← h.1]
          exact ⟨rfl, rfl, rfl, rfl⟩

/-- C83: overwriting with `force`, when nothing else is running: after the save is complete the step in
storage is the new one only, and loading the step gives it (if the policy preserves the newest checkpoint). -/
theorem C83_overwrite_replaces (cfg : Cfg) (hk : KeepsNewest cfg) (st : St) (s now : Int)
    (hp : st.pending = none) (hf : ∀ f, st.fin = some f → f.phase = .succeeded)
    (hts : ∀ i ∈ st.infos, i.stamp.isSome = true)
    (hdisk : (st.disk.map Prod.fst).Nodup) (hsub : ∀ e ∈ st.disk, ∃ i ∈ st.infos, i.step = e.1) :
    let st' := run cfg st [.save s true true, .proceed now true, .finStep, .commitDone st.next true, .finStep]
    (∀ id, (s, id) ∈ st'.disk ↔ id = st.next) ∧ load st' (some s) = .ok st.next := by
  intro st'
  obtain ⟨base, hbase⟩ : ∃ b, b = delete st s := ⟨_, rfl⟩
  have hnos : ∀ i ∈ base.infos, i.step ≠ s := by
    rw [hbase]
    unfold delete
    split
    · intro i hi
      simpa using (List.mem_filter.1 hi).2
    · rename_i h
      intro i hi he
      exact h (List.any_eq_true.2 ⟨i, hi, by simp [he]⟩)
  have hbfin : base.fin = st.fin := by rw [hbase]; unfold delete; split <;> rfl
  have hbn : base.next = st.next := by rw [hbase]; unfold delete; split <;> rfl
  have hbts : ∀ i ∈ base.infos, i.stamp.isSome = true := by
    rw [hbase]; unfold delete
    split
    · intro i hi; exact hts i (List.mem_filter.1 hi).1
    · exact hts
  have hbd : ∀ e ∈ base.disk, e ∈ st.disk ∧ e.1 ≠ s := by
    rw [hbase]; unfold delete
    split
    · intro e he
      have := List.mem_filter.1 he
      exact ⟨this.1, by simpa using this.2⟩
    · rename_i h
      intro e he
      refine ⟨he, ?_⟩
      rintro rfl
      obtain ⟨i, hi, hie⟩ := hsub e he
      exact h (List.any_eq_true.2 ⟨i, hi, by simp [hie]⟩)
  have hbsub : base.disk.Sublist st.disk := by
    rw [hbase]; unfold delete
    split
    · exact List.filter_sublist
    · exact List.Sublist.refl _
  -- the save
  let st1 : St := { base with current := st.next, next := st.next + 1, pending := some s }
  have e1 : (exec cfg st (.save s true true)).1 = st1 := by
    simp only [exec, save, hp, Option.isSome_none, Bool.false_eq_true, if_false, if_true, begin, Bool.true_or,
      ← hbase, hbn, st1]
  have hwr : (exec cfg st1 (.proceed now true)).1 = (write cfg st1 s now true).1 := by
    simp only [exec, proceed, st1]
    cases hfn : base.fin with
    | none => rfl
    | some f =>
      have := hf f (by rw [← hbfin]; exact hfn)
      simp only [this]
  have hdrop : dropDisk base.disk s = base.disk := by
    unfold dropDisk
    rw [List.filter_eq_self]
    intro e he
    simpa using (hbd e he).2
  obtain ⟨rm, hrm⟩ : ∃ rm, rm = toRemove (base.infos ++ [(⟨s, some now⟩ : Info)])
    (cfg.preserve (base.infos ++ [(⟨s, some now⟩ : Info)])) := ⟨_, rfl⟩
  have hsrm : s ∉ rm := by
    rw [hrm]
    exact keeps_not_removed cfg hk base.infos ⟨s, some now⟩ hnos
  let st2 : St := { base with
    current := st.next, next := st.next + 1, pending := none, inProgress := true
    work := fun i => if i = st.next then .running s false else base.work i
    infos := (base.infos ++ [(⟨s, some now⟩ : Info)]).filter fun i => !rm.contains i.step
    fin := some ⟨s, rm, st.next, .started, false⟩ }
  have e2 : (write cfg st1 s now true).1 = st2 := by
    have hany : (base.infos.any fun i => i.step == s) = false := by
      rw [List.any_eq_false]
      intro i hi
      simpa using hnos i hi
    simp only [write, st1, hany, Bool.false_eq_true, if_false, Bool.not_true, hdrop, ← hrm, st2]
  have e3 : run cfg st [.save s true true, .proceed now true, .finStep, .commitDone st.next true, .finStep] =
      (exec cfg (exec cfg (exec cfg st2 .finStep).1 (.commitDone st.next true)).1 .finStep).1 := by
    simp only [run, List.foldl_cons, List.foldl_nil, e1, hwr, e2]
  have e4 : st'.disk = (base.disk ++ [(s, st.next)]).filter (fun e => !rm.contains e.1) ∧
      st'.infos = st2.infos := by
    show (run cfg st _).disk = _ ∧ (run cfg st _).infos = _
    rw [e3]
    simp [exec, finStep, commitDone, st2]
  have hmem : ∀ id, (s, id) ∈ st'.disk ↔ id = st.next := by
    intro id
    rw [e4.1, List.mem_filter, List.mem_append]
    constructor
    · rintro ⟨h | h, _⟩
      · exact absurd rfl (hbd _ h).2
      · simpa using h
    · rintro rfl
      exact ⟨Or.inr (by simp), by simpa using hsrm⟩
  refine ⟨hmem, ?_⟩
  refine (C83_load st' ?_ ?_ s st.next ((hmem _).2 rfl) ?_).1
  · rw [e4.2]
    intro i hi
    have := (List.mem_filter.1 hi).1
    rcases List.mem_append.1 this with h | h
    · exact hbts i h
    · simp at h; subst h; rfl
  · rw [e4.1]
    have hnd : ((base.disk ++ [(s, st.next)]).map Prod.fst).Nodup := by
      rw [List.map_append, List.nodup_append]
      refine ⟨(hbsub.map _).nodup hdisk, by simp, ?_⟩
      intro a ha b hb
      simp at hb
      subst hb
      obtain ⟨e, he, rfl⟩ := List.mem_map.1 ha
      exact (hbd e he).2
    exact ((List.filter_sublist).map _).nodup hnd
  · rw [e4.2]
    exact ⟨⟨s, some now⟩, List.mem_filter.2 ⟨by simp, by simpa using hsrm⟩, rfl⟩

/-! ### What goes wrong -/

/-- C83 (finding): `save(step, overwrite=True)` without `force` deletes the existing checkpoint of the step
before it asks whether to save. If a later step exists, it always deletes the checkpoint, saves nothing, and
returns `False`. -/
theorem C83_overwrite_declined_fails (cfg : Cfg) (st : St) (s : Int) (l : List Info) (last : Info)
    (hp : st.pending = none) (hl : st.infos = l ++ [last]) (hlt : s < last.step)
    (hi : ∃ i ∈ st.infos, i.step = s) :
    ∃ st', save cfg st s false true = (st', .skipped) ∧ (∀ e ∈ st'.disk, e.1 ≠ s) ∧
      (∀ i ∈ st'.infos, i.step ≠ s) ∧ st'.fin = st.fin := by
  have hany : (st.infos.any fun i => i.step == s) = true := by
    obtain ⟨i, hi, rfl⟩ := hi
    exact List.any_eq_true.2 ⟨i, hi, by simp⟩
  have hd : (delete st s).infos = dropInfo l s ++ [last] := by
    simp only [delete, hany, if_true, dropInfo]
    rw [hl, List.filter_append]
    congr 1
    have hne : (last.step != s) = true := by simp; omega
    simp [hne]
  have hs : ∀ c n, shouldSave cfg { delete st s with current := c, next := n } s = false := by
    intro c n
    simp only [shouldSave, managerLatest, hd, List.getLast?_append, List.getLast?_singleton, Option.some_or,
      Option.map_some]
    rw [if_pos (by omega)]
  refine ⟨{ delete st s with current := (delete st s).next, next := (delete st s).next + 1 }, ?_, ?_, ?_, ?_⟩
  · simp only [save, hp, begin, hs]
    simp
  · intro e he
    simp only [delete, hany, if_true] at he
    simpa using (List.mem_filter.1 he).2
  · intro i hm
    simp only [delete, hany, if_true] at hm
    simpa using (List.mem_filter.1 hm).2
  · simp only [delete, hany, if_true]

/-- C83 (finding): every save call replaces the checkpointer object that the finalize thread of the previous
save will wait for, even if the call is then skipped by the policy. If the finalize thread has not yet read
it, the thread waits for the wrong object: `result()` of the first save returns `True` and the old
checkpoint is deleted while the new one is still being written; if writing then fails, nothing is left
and nobody is told. -/
theorem C83_replaced_checkpointer_fails (cfg : Cfg) (s0 s1 s2 now t0 : Int) (h01 : s0 < s1) (h12 : s1 < s2)
    (hyes : cfg.savePolicy s1 [⟨s0, some t0⟩] false = true)
    (hno : ∀ l, cfg.savePolicy s2 l true = false)
    (hkeep : cfg.preserve [⟨s0, some t0⟩, ⟨s1, some now⟩] = [false, true]) (n : Nat) :
    let st := run cfg (init [(s0, n)] (fun _ => some t0) (n + 1))
      [.save s1 false false, .proceed now true, .save s2 false false, .finStep, .finStep]
    (exec cfg st .result).2 = .done ∧ st.disk = [] ∧
      (∃ f, st.fin = some f ∧ f.step = s1 ∧ f.owner = n + 2 ∧ st.work (n + 2) = .running s1 false) ∧
      let st' := run cfg st [.commitDone (n + 2) false]
      st'.disk = [] ∧ (exec cfg st' .result).2 = .done := by
  intro st
  have hne : (s0 == s1) = false := by simp; omega
  have hne2 : (s1 == s2) = false := by simp; omega
  have hne3 : (s1 == s0) = false := by simp; omega
  have hi : init [(s0, n)] (fun _ => some t0) (n + 1) =
      ⟨[⟨s0, some t0⟩], [(s0, n)], n + 1, n + 2, fun _ => .idle, none, false, none⟩ := by
    simp [init]
  have e1 : (exec cfg (init [(s0, n)] (fun _ => some t0) (n + 1)) (.save s1 false false)).1 =
      ⟨[⟨s0, some t0⟩], [(s0, n)], n + 2, n + 3, fun _ => .idle, none, false, some s1⟩ := by
    have : ¬ (s0 ≥ s1) := by omega
    rw [hi]
    simp [exec, save, checkpoints, hne, begin, shouldSave, managerLatest, this, hyes]
  let S2 : St := ⟨[⟨s1, some now⟩], [(s0, n)], n + 2, n + 3,
    fun i => if i = n + 2 then .running s1 false else .idle,
    some ⟨s1, [s0], n + 2, .started, false⟩, true, none⟩
  have e2 : (exec cfg ⟨[⟨s0, some t0⟩], [(s0, n)], n + 2, n + 3, fun _ => .idle, none, false, some s1⟩
      (.proceed now true)).1 = S2 := by
    have hb : (s0 != s1) = true := by simp; omega
    have hne' : s0 ≠ s1 := by omega
    simp [exec, proceed, write, hne', dropDisk, toRemove, hkeep, S2, hb]
    omega
  let S3 : St := { S2 with current := n + 3, next := n + 4 }
  have e3 : (exec cfg S2 (.save s2 false false)).1 = S3 := by
    have : ¬ (s1 ≥ s2) := by omega
    have hne' : s1 ≠ s2 := by omega
    have hck : checkpoints S2 = some [⟨s1, some now⟩] := by simp [checkpoints, S2]
    have hss : ∀ c m, shouldSave cfg { S2 with current := c, next := m } s2 = false := by
      intro c m
      simp [shouldSave, managerLatest, S2, hno, this]
    simp only [exec, save, hck, begin, hss]
    simp [S2, S3, hne']
  have e4 : st = (exec cfg (exec cfg S3 .finStep).1 .finStep).1 := by
    show run cfg _ _ = _
    simp only [run, List.foldl_cons, List.foldl_nil, e1, e2, e3]
  have e5 : st = { S3 with fin := some ⟨s1, [s0], n + 2, .succeeded, false⟩, inProgress := false, disk := [] } := by
    rw [e4]
    simp [exec, finStep, S3, S2]
  rw [e5]
  refine ⟨by simp [exec, result], rfl, ⟨_, rfl, rfl, rfl, by simp [S3, S2]⟩, ?_, ?_⟩
  · simp [run, exec, commitDone, S3, S2]
  · simp [run, exec, commitDone, S3, S2, result]

/-- C83 (finding): overwriting a step while it is being saved loses both: the temporary directory of the
first save is removed, so that it fails, and its failure is raised in the second save, which then does not
happen. -/
theorem C83_overwrite_in_flight_fails (cfg : Cfg) (st : St) (f : Fin) (g : Bool) (now : Int) (ok ok' : Bool)
    (hp : st.pending = none) (hf : st.fin = some f) (hph : f.phase = .waiting f.owner) (ht : f.told = false)
    (hw : st.work f.owner = .running f.step g) (hi : ∃ i ∈ st.infos, i.step = f.step) :
    let st' := run cfg st [.save f.step true true, .commitDone f.owner ok, .finStep]
    (exec cfg st' (.proceed now ok')).2 = .raised .background ∧
    (exec cfg st' (.proceed now ok')).1.pending = none ∧
    ∀ e ∈ (exec cfg st' (.proceed now ok')).1.disk, e.1 ≠ f.step := by
  intro st'
  have hany : (st.infos.any fun i => i.step == f.step) = true := by
    obtain ⟨i, hi, he⟩ := hi
    exact List.any_eq_true.2 ⟨i, hi, by simp [he]⟩
  let w : Nat → Work := fun i => match st.work i with
    | .running t g => .running t (g || t == f.step)
    | w => w
  have hwo : w f.owner = .running f.step true := by simp [w, hw]
  have hdel : delete st f.step = { st with
      infos := dropInfo st.infos f.step, disk := dropDisk st.disk f.step, work := w } := by
    simp only [delete, hany, if_true, w] <;> rfl
  let st1 : St := { st with
    infos := dropInfo st.infos f.step, disk := dropDisk st.disk f.step, work := w
    current := st.next, next := st.next + 1, pending := some f.step }
  have e1 : (exec cfg st (.save f.step true true)).1 = st1 := by
    simp only [exec, save, hp, Option.isSome_none, Bool.false_eq_true, if_false, if_true, begin, Bool.true_or,
      hdel, st1]
  let st2 : St := { st1 with work := fun i => if i = f.owner then .failed else w i }
  have e2 : (exec cfg st1 (.commitDone f.owner ok)).1 = st2 := by
    simp only [exec, commitDone, st1, hwo, Bool.not_true, Bool.and_false, Bool.false_eq_true, if_false, st2]
  have e3 : st' = (exec cfg st2 .finStep).1 := by
    show run cfg _ _ = _
    simp only [run, List.foldl_cons, List.foldl_nil, e1, e2]
  have e4 : st'.fin = some { f with phase := .failed } ∧ st'.pending = some f.step ∧
      st'.disk = dropDisk st.disk f.step := by
    rw [e3]
    simp [exec, finStep, st2, st1, hf, hph]
  have e5 : exec cfg st' (.proceed now ok') =
      ({ st' with pending := none, fin := some { f with phase := .failed, told := true },
                  infos := dropInfo st'.infos f.step }, .raised .background) := by
    simp only [exec, proceed, e4.1, e4.2.1, ht]
    simp
  rw [e5]
  refine ⟨rfl, rfl, ?_⟩
  intro e he
  simp only [e4.2.2] at he
  simpa using (List.mem_filter.1 he).2

/-- C83 (finding): while a save is being written, its step is already `latest`: `load()` without a step fails,
although older complete checkpoints exist. -/
theorem C83_load_in_flight_fails (cfg : Cfg) (hk : KeepsNewest cfg) (st : St) (s now : Int)
    (hp : st.pending = none) (hf : ∀ f, st.fin = some f → f.phase = .succeeded)
    (hts : ∀ i ∈ st.infos, i.stamp.isSome = true) (hnew : ∀ i ∈ st.infos, i.step < s) :
    let st' := run cfg st [.save s true false, .proceed now true]
    load st' none = .error .notCommitted ∧
      (∀ e ∈ st.disk, e.1 ≠ s → e ∈ st'.disk) := by
  intro st'
  have hc : checkpoints st = some (st.infos.mergeSort fun a b => decide (a.step ≤ b.step)) := by
    unfold checkpoints
    rw [if_pos (List.all_eq_true.2 hts)]
  have hany : (st.infos.any fun i => i.step == s) = false := by
    rw [List.any_eq_false]
    intro i hi
    have := hnew i hi
    simp; omega
  let st1 : St := { st with current := st.next, next := st.next + 1, pending := some s }
  have e1 : (exec cfg st (.save s true false)).1 = st1 := by
    simp [exec, save, hp, hc, any_sort, hany, begin, st1]
  have hwr : (exec cfg st1 (.proceed now true)).1 = (write cfg st1 s now true).1 := by
    simp only [exec, proceed, st1]
    cases hfn : st.fin with
    | none => rfl
    | some f => simp only [hf f hfn]
  have e2 : st' = (write cfg st1 s now true).1 := by
    show run cfg _ _ = _
    simp only [run, List.foldl_cons, List.foldl_nil, e1, hwr]
  have hsrm := keeps_not_removed cfg hk st.infos ⟨s, some now⟩
    (fun j hj => by have := hnew j hj; simp only; omega)
  have hinf : st'.infos = (st.infos ++ [(⟨s, some now⟩ : Info)]).filter fun i =>
      !(toRemove (st.infos ++ [(⟨s, some now⟩ : Info)])
        (cfg.preserve (st.infos ++ [(⟨s, some now⟩ : Info)]))).contains i.step := by
    rw [e2]
    simp [write, st1, hany]
  have hdk : st'.disk = dropDisk st.disk s := by
    rw [e2]
    simp [write, st1, hany]
  have hmem : (⟨s, some now⟩ : Info) ∈ st'.infos := by
    rw [hinf]
    exact List.mem_filter.2 ⟨by simp, by simpa using hsrm⟩
  have hle : ∀ j ∈ st'.infos, j.step ≤ s := by
    rw [hinf]
    intro j hj
    rcases List.mem_append.1 (List.mem_filter.1 hj).1 with h | h
    · have := hnew j h; omega
    · simp at h; subst h; exact Int.le_refl _
  have hts' : ∀ i ∈ st'.infos, i.stamp.isSome = true := by
    rw [hinf]
    intro j hj
    rcases List.mem_append.1 (List.mem_filter.1 hj).1 with h | h
    · exact hts j h
    · simp at h; subst h; rfl
  have hl := C83_latest st' hts'
  have hc' : checkpoints st' = some (st'.infos.mergeSort fun a b => decide (a.step ≤ b.step)) := by
    unfold checkpoints
    rw [if_pos (List.all_eq_true.2 hts')]
  constructor
  · cases hlat : (st'.infos.mergeSort fun a b => decide (a.step ≤ b.step)).getLast? with
    | none =>
      have := hl.2.1 (by simp [latest, hc', hlat])
      rw [this] at hmem
      cases hmem
    | some j =>
      have hj := hl.1 j (by simp [latest, hc', hlat])
      have h1 := hj.2 _ hmem
      have h2 := hle j hj.1
      simp only at h1
      have he : j.step = s := by omega
      have hres : resolve st' none = .ok s := by simp [resolve, hc', hlat, he]
      have hfind : st'.disk.find? (fun e => decide (e.1 = s)) = none := by
        rw [List.find?_eq_none, hdk]
        intro e hm
        simpa [dropDisk] using (List.mem_filter.1 hm).2
      simp only [load, hres, hfind]
  · intro e he hne
    rw [hdk]
    exact List.mem_filter.2 ⟨he, by simpa using hne⟩

/-- C83 (finding): a checkpointer constructed with `lightweight_initialize` over a directory with checkpoints
can list nothing, load nothing and save nothing (except with `overwrite`): every call raises, because the
placeholder for the unread times has no time stamp. -/
theorem C83_lightweight_fails (cfg : Cfg) (disk : List (Int × Nat)) (n : Nat) (hne : disk ≠ []) :
    let st := init disk (fun _ => none) n
    checkpoints st = none ∧ latest st = none ∧ (∀ step, load st step = .error .badTimestamp) ∧
    ∀ s force, save cfg st s force false = (st, .raised .badTimestamp) := by
  intro st
  have hc : checkpoints st = none := by
    unfold checkpoints
    rw [if_neg]
    intro h
    obtain ⟨e, he⟩ := List.exists_mem_of_ne_nil disk hne
    have := List.all_eq_true.1 h ⟨e.1, none⟩
      (List.mem_mergeSort.2 (List.mem_map.2 ⟨e, he, rfl⟩))
    simp at this
  refine ⟨hc, by simp [latest, hc], ?_, ?_⟩
  · intro step
    simp [load, resolve, hc]
  · intro s force
    simp only [save, hc]
    rw [if_neg (by simp [st, init]), if_neg (by simp)]

/-- The hypotheses are met: saving every step while no save runs, and keeping the latest; a history with a
save that fails and one that succeeds; `result()` is reached. -/
theorem C83_nonvacuous :
    ∃ (cfg : Cfg) (evs : List Ev), KeepsNewest cfg ∧
      let st := init [(0, 0)] (fun _ => some 0) 1
      Along cfg Prompt st evs ∧ Along cfg NoOverwrite st evs ∧ Along cfg FreshStep st evs ∧
      (∃ f, (run cfg st evs).fin = some f ∧ f.step = 2 ∧ f.step ∉ f.remove) ∧
      (exec cfg (run cfg st evs) .result).2 = .done ∧ (run cfg st evs).disk = [(2, 3)] := by
  refine ⟨⟨fun _ _ p => !p, fun l => List.replicate (l.length - 1) false ++ [true]⟩,
    [.save 1 true false, .proceed 1 false, .save 2 true false, .proceed 2 true, .finStep, .finStep,
      .commitDone 3 true, .finStep], ?_, ?_⟩
  · intro l i
    exact ⟨List.replicate l.length false, by simp, by simp⟩
  · simp only [init, List.map_cons, List.map_nil, List.mergeSort_singleton]
    refine ⟨?_, ?_, ?_, ?_, ?_, ?_⟩
    · simp [Along, Prompt, exec, save, checkpoints, begin, proceed, write, dropDisk, finStep, commitDone,
        toRemove]
    · simp [Along, NoOverwrite]
    · simp [Along, FreshStep, exec, save, checkpoints, begin, proceed, write, dropDisk, finStep, commitDone,
        toRemove]
    · simp [run, exec, save, checkpoints, begin, proceed, write, dropDisk, finStep, commitDone, toRemove]
    · simp [run, exec, save, checkpoints, begin, proceed, write, dropDisk, finStep, commitDone, toRemove, result]
    · simp [run, exec, save, checkpoints, begin, proceed, write, dropDisk, finStep, commitDone, toRemove]

end Verif.V1.Training
