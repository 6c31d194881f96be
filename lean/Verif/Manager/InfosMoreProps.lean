import Verif.Manager.InfosProps

/-!
C91: operations of several threads take effect one after the other.
-/

namespace Verif.Manager.Infos

variable {α : Type}

/-- What the next step of a thread relies on. -/
def TopOk (cur : Nat) (l : List α) : List (Instr α) → Prop
  | .scan p i idx kept :: _ => i = cur ∧ kept = (l.take idx).filter fun x => !p x
  | .enter :: .store (.delete p) kept :: r => 2 ≤ opens r ∧ kept = l.filter fun x => !p x
  | .enter :: .store (.set xs) ys :: _ => ys = xs
  | .enter :: .store _ _ :: _ => False
  | .enter :: .scan _ _ _ _ :: _ => False
  | .enter :: .push _ _ :: _ => False
  | .enter :: .enter :: _ => False
  | .store (.delete p) kept :: _ => kept = l.filter fun x => !p x
  | .store (.set xs) ys :: _ => ys = xs
  | .store _ _ :: _ => False
  | .push i _ :: _ => i = cur
  | _ => True

/-- A thread has called `set` or `delete_if`, which has not taken effect. -/
def Writing (c : List (Instr α)) : Prop := ∃ o ∈ pending c, IsWrite o

/-- A thread has called `append`, which has not taken effect. -/
def Appending (c : List (Instr α)) : Prop := ∃ o ∈ pending c, IsAppend o

theorem topOk_pending {cur : Nat} {l : List α} {c : List (Instr α)} (hg : Good c) (h : pending c = []) : TopOk cur l c := by
  cases c with
  | nil => trivial
  | cons i r =>
    cases i with
    | enter => exact absurd h hg.2.1
    | _ => simp_all [pending, TopOk]

/-- Another thread has stored. -/
theorem topOk_store {cur cur' : Nat} {l l' : List α} {c : List (Instr α)} (hg : Good c) (h : TopOk cur l c) (ho : opens c = 0) (ha : ¬ Appending c) :
    TopOk cur' l' c := by
  cases c with
  | nil => trivial
  | cons i r =>
    cases i with
    | enter =>
      cases r with
      | nil => trivial
      | cons j r' =>
        cases j with
        | store op xs =>
          cases op <;> simp_all [TopOk, opens]
          omega
        | scan => exact h.elim
        | push => exact h.elim
        | enter => exact h.elim
        | _ => simp [TopOk]
    | scan => simp only [Good, opens] at hg ho; omega
    | store => simp only [Good, opens] at hg ho; omega
    | push i x => exact absurd ⟨.append x, by simp [pending], trivial⟩ ha
    | _ => simp [TopOk]

/-- Another thread has appended. -/
theorem topOk_push {cur : Nat} {l l' : List α} {c : List (Instr α)} (h : TopOk cur l c) (hw : ¬ Writing c) : TopOk cur l' c := by
  cases c with
  | nil => trivial
  | cons i r =>
    cases i with
    | enter =>
      cases r with
      | nil => trivial
      | cons j r' =>
        cases j with
        | store op xs =>
          cases op with
          | set ys => exact absurd ⟨.set ys, by simp [pending], trivial⟩ hw
          | delete p => exact absurd ⟨.delete p, by simp [pending], trivial⟩ hw
          | _ => exact h
        | scan => exact h.elim
        | push => exact h.elim
        | enter => exact h.elim
        | _ => simp [TopOk]
    | scan p i idx kept => exact absurd ⟨.delete p, by simp [pending], trivial⟩ hw
    | store op xs =>
      cases op with
      | set ys => exact absurd ⟨.set ys, by simp [pending], trivial⟩ hw
      | delete p => exact absurd ⟨.delete p, by simp [pending], trivial⟩ hw
      | _ => exact h
    | push i x => exact h
    | _ => simp [TopOk]

structure Calm (s : State α) : Prop where
  inv : Inv s
  cur : s.cur < s.lists.length
  top : ∀ t, TopOk s.cur (content s) (s.code t)
  cross : ∀ t u, t ≠ u → Writing (s.code t) → ¬ Appending (s.code u)

theorem calm_init (xs : List α) : Calm (init xs) :=
  ⟨inv_init xs, by simp [init], fun _ => trivial, fun _ _ _ ⟨_, h, _⟩ => nomatch h⟩

/-- What one step does to the list is what the operations that take effect in it do. -/
def Fits (s : State α) (r : State α × List (Done α)) : Prop :=
  Calm r.1 ∧ Legal (content s) r.2 ∧ content r.1 = final (content s) r.2

theorem fits_quiet {s s' : State α} (h : Calm s') (hc : content s' = content s) : Fits s (s', []) := ⟨h, trivial, hc⟩

theorem cross_goto {s : State α} (h : Calm s) (s' : State α) (hc : s'.code = s.code) (t : Nat) (c : List (Instr α))
    (hp : pending c = pending (s.code t) ∨ pending c = []) (u v : Nat) (huv : u ≠ v) (hw : Writing ((goto s' t c).code u)) :
    ¬ Appending ((goto s' t c).code v) := by
  intro ha
  have hsub : ∀ o ∈ pending c, o ∈ pending (s.code t) := by
    intro o ho
    rcases hp with hp | hp
    · rwa [hp] at ho
    · rw [hp] at ho; cases ho
  have hw' : Writing (s.code u) := by
    obtain ⟨o, ho, hw⟩ := hw
    rw [goto_code, hc] at ho
    split at ho
    · next e => exact ⟨o, e ▸ hsub o ho, hw⟩
    · exact ⟨o, ho, hw⟩
  have ha' : Appending (s.code v) := by
    obtain ⟨o, ho, ha⟩ := ha
    rw [goto_code, hc] at ho
    split at ho
    · next e => exact ⟨o, e ▸ hsub o ho, ha⟩
    · exact ⟨o, ho, ha⟩
  exact h.cross u v huv hw' ha'

/-- A thread goes on and the list stays. -/
theorem calm_goto {s : State α} (h : Calm s) (s' : State α) (hcur : s'.cur = s.cur) (hl : s'.lists = s.lists) (hc : s'.code = s.code) (t : Nat)
    (c : List (Instr α)) (hi : Inv (goto s' t c)) (htop : TopOk s.cur (content s) c)
    (hp : pending c = pending (s.code t) ∨ pending c = []) : Calm (goto s' t c) := by
  have hcont : content (goto s' t c) = content s := by
    show (s'.lists[s'.cur]?).getD [] = (s.lists[s.cur]?).getD []
    rw [hcur, hl]
  refine ⟨hi, by show s'.cur < s'.lists.length; rw [hcur, hl]; exact h.cur, ?_, cross_goto h s' hc t c hp⟩
  intro u
  rw [hcont]
  show TopOk s'.cur _ _
  rw [goto_code, hcur, hc]
  split
  · exact htop
  · exact h.top u

theorem filter_take_succ (p : α → Bool) (l : List α) (idx : Nat) (x : α) (h : l[idx]? = some x) :
    (if p x then (l.take idx).filter (fun x => !p x) else (l.take idx).filter (fun x => !p x) ++ [x]) = (l.take (idx + 1)).filter fun x => !p x := by
  rw [List.take_add_one, h, List.filter_append]
  cases hp : p x <;> simp [hp]

theorem fits_tick {s : State α} (h : Calm s) (t : Nat) : Fits s (tick s t) := by
  have hi := inv_tick h.inv t
  have hg := h.inv.good t
  have htop := h.top t
  revert hi
  unfold tick
  split
  · exact fun _ => fits_quiet h rfl
  · next r hc =>
    rw [hc] at hg htop
    simp only [Good] at hg
    split
    · refine fun hi => fits_quiet (calm_goto h { s with owner := some t, count := s.count + 1, flag := true } rfl rfl rfl t r hi ?_
        (.inl (by rw [hc]; rfl))) rfl
      cases r with
      | nil => trivial
      | cons j r' =>
        cases j with
        | store op xs =>
          cases op with
          | set ys => exact htop
          | delete p => exact htop.2
          | _ => exact htop.elim
        | scan => exact htop.elim
        | push => exact htop.elim
        | enter => exact htop.elim
        | _ => simp [TopOk]
    · exact fun _ => fits_quiet h rfl
  · next r hc =>
    rw [hc] at hg
    simp only [Good] at hg
    have hp : 0 < opens (s.code t) := by rw [hc]; simp [opens]
    rw [if_pos (h.inv.held t hp)]
    split
    · exact fun hi => fits_quiet (calm_goto h _ (by rfl) (by rfl) (by rfl) t r hi (topOk_pending hg.2 hg.1) (.inr hg.1)) rfl
    · exact fun hi => fits_quiet (calm_goto h s rfl rfl rfl t r hi (topOk_pending hg.2 hg.1) (.inr hg.1)) rfl
  · next p r hc =>
    exact fun hi => fits_quiet (calm_goto h s rfl rfl rfl t _ hi ⟨rfl, by simp⟩ (.inl (by rw [hc]; rfl))) rfl
  · next p i idx kept r hc =>
    rw [hc] at hg htop
    simp only [Good] at hg
    simp only [TopOk] at htop
    obtain ⟨rfl, rfl⟩ := htop
    split
    · next x hx =>
      refine fun hi => fits_quiet (calm_goto h s rfl rfl rfl t _ hi ⟨rfl, ?_⟩ (.inl (by rw [hc]; rfl))) rfl
      exact filter_take_succ p (content s) idx x hx
    · next hx =>
      refine fun hi => fits_quiet (calm_goto h s rfl rfl rfl t _ hi ⟨by simp only [opens]; omega, ?_⟩ (.inl (by rw [hc]; rfl))) rfl
      have hx : (content s)[idx]? = none := hx
      rw [List.take_of_length_le (List.getElem?_eq_none_iff.1 hx)]
  · next op xs r hc =>
    have hown := h.inv.held t (by rw [hc]; rw [hc] at hg; simp only [Good] at hg; simp only [opens]; omega)
    rw [hc] at hg htop
    simp only [Good] at hg
    intro hi
    have hcont : content (goto { s with lists := s.lists ++ [xs], cur := s.lists.length } t r) = xs := by
      show ((s.lists ++ [xs])[s.lists.length]?).getD [] = xs
      simp
    have hwrite : Writing (s.code t) := by
      rw [hc]
      cases op with
      | set ys => exact ⟨_, List.mem_cons_self, trivial⟩
      | delete p => exact ⟨_, List.mem_cons_self, trivial⟩
      | _ => exact htop.elim
    have hafter : xs = after op (content s) ∧ none = answer op (content s) := by
      cases op with
      | set ys => exact ⟨htop, rfl⟩
      | delete p => exact ⟨htop, rfl⟩
      | _ => exact htop.elim
    refine ⟨⟨hi, by show s.lists.length < (s.lists ++ [xs]).length; simp, ?_, ?_⟩, ⟨hafter.2, trivial⟩, hcont.trans hafter.1⟩
    · intro u
      show TopOk s.lists.length (content (goto { s with lists := s.lists ++ [xs], cur := s.lists.length } t r)) _
      rw [goto_code]
      split
      · exact topOk_pending hg.2.2 hg.2.1
      · next hu =>
        refine topOk_store (h.inv.good u) (h.top u) ?_ (h.cross t u (fun e => hu e.symm) hwrite)
        rcases Nat.eq_zero_or_pos (opens (s.code u)) with h0 | h0
        · exact h0
        · have := h.inv.held u h0; rw [hown] at this; exact absurd (Option.some.inj this).symm hu
    · exact cross_goto h _ (by rfl) t r (.inr hg.2.1)
  · next x r hc =>
    exact fun hi => fits_quiet (calm_goto h s rfl rfl rfl t _ hi rfl (.inl (by rw [hc]; rfl))) rfl
  · next i x r hc =>
    rw [hc] at hg htop
    simp only [Good] at hg
    simp only [TopOk] at htop
    subst htop
    intro hi
    have happ : Appending (s.code t) := by rw [hc]; exact ⟨_, List.mem_cons_self, trivial⟩
    have hcont : content (goto { s with lists := s.lists.set s.cur (obj s s.cur ++ [x]) } t r) = content s ++ [x] := by
      show ((s.lists.set s.cur (obj s s.cur ++ [x]))[s.cur]?).getD [] = _
      rw [List.getElem?_set_self h.cur]
      rfl
    refine ⟨⟨hi, by show s.cur < (s.lists.set s.cur _).length; rw [List.length_set]; exact h.cur, ?_, ?_⟩, ⟨rfl, trivial⟩, hcont⟩
    · intro u
      show TopOk s.cur (content (goto { s with lists := s.lists.set s.cur (obj s s.cur ++ [x]) } t r)) _
      rw [goto_code]
      split
      · exact topOk_pending hg.2 hg.1
      · next hu => exact topOk_push (h.top u) (fun hw => h.cross u t hu hw happ)
    · exact cross_goto h _ (by rfl) t r (.inr hg.1)
  · next r hc =>
    rw [hc] at hg
    simp only [Good] at hg
    exact fun hi => ⟨calm_goto h s rfl rfl rfl t r hi (topOk_pending hg.2.2 hg.2.1) (.inr hg.2.1), ⟨rfl, trivial⟩, rfl⟩
  · next r hc =>
    rw [hc] at hg
    simp only [Good] at hg
    exact fun hi => ⟨calm_goto h s rfl rfl rfl t _ hi trivial (.inr hg.2.1), ⟨rfl, trivial⟩, rfl⟩
  · next i idx seen r hc =>
    rw [hc] at hg
    simp only [Good] at hg
    split
    · exact fun hi => fits_quiet (calm_goto h s rfl rfl rfl t _ hi trivial (.inr hg.2.1)) rfl
    · exact fun hi => fits_quiet (calm_goto h s rfl rfl rfl t _ hi (topOk_pending hg.2.2 hg.2.1) (.inr hg.2.1)) rfl

theorem fits_step {s : State α} (h : Calm s) (e : Event α) (hq : QuietEvent s e) : Fits s (step s e) := by
  have hi := inv_step h.inv e
  cases e with
  | tick t => exact fits_tick h t
  | timeout t =>
    revert hi
    simp only [step]
    split
    · split
      · exact fun _ => fits_quiet h rfl
      · exact fun hi => fits_quiet (calm_goto h { s with flag := false } rfl rfl rfl t [] hi trivial (.inr rfl)) rfl
    · exact fun _ => fits_quiet h rfl
  | leave t =>
    have hg := h.inv.good t
    revert hi
    simp only [step]
    split
    · next hc =>
      rw [hc] at hg; simp only [Good] at hg
      exact fun hi => fits_quiet (calm_goto h s rfl rfl rfl t _ hi (topOk_pending hg.2.2 hg.2.1) (.inr hg.2.1)) rfl
    · next hc =>
      rw [hc] at hg; simp only [Good] at hg
      exact fun hi => fits_quiet (calm_goto h s rfl rfl rfl t _ hi (topOk_pending hg.2.2 hg.2.1) (.inr hg.2.1)) rfl
    · exact fun _ => fits_quiet h rfl
  | call t op =>
    revert hi
    simp only [step]
    split
    · next hr =>
      intro hi
      obtain ⟨-, -, hp⟩ := good_compile (h.inv.good t) hr op
      refine fits_quiet ⟨hi, h.cur, ?_, ?_⟩ rfl
      · intro u
        show TopOk s.cur (content s) _
        rw [goto_code]
        split
        · cases op <;> simp [compile, TopOk]
        · exact h.top u
      · intro u v huv hw ha
        obtain ⟨o, ho, hw⟩ := hw
        obtain ⟨o', ho', ha⟩ := ha
        rw [goto_code] at ho ho'
        split at ho
        · next e =>
          subst e
          rw [if_neg (fun e => huv e.symm)] at ho'
          rw [hp, List.mem_singleton] at ho
          subst ho
          cases o with
          | set xs => exact hq v (fun e => huv e.symm) o' ho' ha
          | delete p => exact hq v (fun e => huv e.symm) o' ho' ha
          | _ => exact hw
        · split at ho'
          · next e =>
            subst e
            rw [hp, List.mem_singleton] at ho'
            subst ho'
            cases o' with
            | append x => exact hq u huv o ho hw
            | _ => exact ha
          · exact h.cross u v huv ⟨o, ho, hw⟩ ⟨o', ho', ha⟩
    · exact fun _ => fits_quiet h rfl

theorem legal_append : ∀ (ds ds' : List (Done α)) (l : List α), Legal l ds → Legal (final l ds) ds' → Legal l (ds ++ ds')
  | [], _, _, _, h => h
  | d :: ds, ds', l, h, h' => ⟨h.1, legal_append ds ds' _ h.2 h'⟩

theorem final_append (l : List α) (ds ds' : List (Done α)) : final l (ds ++ ds') = final (final l ds) ds' := List.foldl_append

theorem linear_run : ∀ (evs : List (Event α)) {s : State α}, Calm s → Quiet s evs →
    Calm (run s evs) ∧ Legal (content s) (effects s evs) ∧ content (run s evs) = final (content s) (effects s evs)
  | [], _, h, _ => ⟨h, trivial, rfl⟩
  | e :: es, s, h, hq => by
    obtain ⟨h1, h2, h3⟩ := fits_step h e hq.1
    obtain ⟨k1, k2, k3⟩ := linear_run es h1 hq.2
    refine ⟨k1, legal_append _ _ _ h2 (h3 ▸ k2), ?_⟩
    rw [effects, final_append, ← h3]
    exact k3

/-- C91: unless an `append` overlaps with a `set` or `delete_if` of another thread, whatever the threads do and however
their steps are interleaved, the operations take effect one after the other: each answers as if it were alone at that
moment, and the list is what they make of it in this order. (`C91_order` says that it is an order of the calls.) -/
theorem C91_linear (xs : List α) (evs : List (Event α)) (hq : Quiet (init xs) evs) :
    Legal xs (effects (init xs) evs) ∧ content (run (init xs) evs) = final xs (effects (init xs) evs) :=
  (linear_run evs (calm_init xs) hq).2

/-! ### The order -/

/-- The operations a thread calls. -/
def called (s : State α) (t : Nat) : List (Event α) → List (Op α)
  | [] => []
  | .call u op :: es => (if u = t ∧ ready (s.code t) then [op] else []) ++ called (step s (.call u op)).1 t es
  | e :: es => called (step s e).1 t es

/-- The operations of a thread that took effect. -/
def doneBy (t : Nat) (ds : List (Done α)) : List (Op α) := (ds.filter fun d => d.thread = t).map (·.op)

theorem doneBy_append (t : Nat) (ds ds' : List (Done α)) : doneBy t (ds ++ ds') = doneBy t ds ++ doneBy t ds' := by
  simp [doneBy]

/-- A thread gave up an operation. -/
def GivesUp (t : Nat) : Event α → Prop
  | .timeout u => u = t
  | .leave u => u = t
  | _ => False

theorem tick_done {s : State α} (h : Inv s) (t u : Nat) :
    doneBy t (tick s u).2 ++ pending ((tick s u).1.code t) = pending (s.code t) := by
  have hne : ∀ (s' : State α) (c : List (Instr α)), s'.code = s.code → u ≠ t → pending ((goto s' u c).code t) = pending (s.code t) := by
    intro s' c hc hu
    rw [goto_code, if_neg (fun e => hu e.symm), hc]
  have hg := h.good u
  have hh := h.held u
  by_cases hu : u = t
  · subst hu
    unfold tick
    split
    · rfl
    · next hc => split
                 · rw [goto_self, hc]; rfl
                 · rfl
    · next r hc =>
      rw [if_pos (hh (by rw [hc]; simp [opens]))]
      split <;> (rw [goto_self, hc]; rfl)
    · next hc => rw [goto_self, hc]; rfl
    · next hc =>
      split <;> (rw [goto_self, hc]; rfl)
    · next hc => rw [goto_self, hc]; simp [doneBy, pending]
    · next hc => rw [goto_self, hc]; rfl
    · next hc => rw [goto_self, hc]; simp [doneBy, pending]
    · next hc => rw [goto_self, hc]; simp [doneBy, pending]
    · next hc => rw [goto_self, hc]; simp [doneBy, pending]
    · next hc => split <;> (rw [goto_self, hc]; rfl)
  · unfold tick
    split
    · rfl
    · split
      · exact hne _ _ (by rfl) hu
      · rfl
    · split
      · split
        · exact hne _ _ (by rfl) hu
        · exact hne _ _ (by rfl) hu
      · exact hne _ _ (by rfl) hu
    · exact hne _ _ (by rfl) hu
    · split <;> exact hne _ _ (by rfl) hu
    · simp only [doneBy, hu, decide_false, Bool.false_eq_true, not_false_eq_true, List.filter_cons_of_neg, List.filter_nil, List.map_nil, List.nil_append]
      exact hne _ _ (by rfl) hu
    · exact hne _ _ (by rfl) hu
    · simp only [doneBy, hu, decide_false, Bool.false_eq_true, not_false_eq_true, List.filter_cons_of_neg, List.filter_nil, List.map_nil, List.nil_append]
      exact hne _ _ (by rfl) hu
    · simp only [doneBy, hu, decide_false, Bool.false_eq_true, not_false_eq_true, List.filter_cons_of_neg, List.filter_nil, List.map_nil, List.nil_append]
      exact hne _ _ (by rfl) hu
    · simp only [doneBy, hu, decide_false, Bool.false_eq_true, not_false_eq_true, List.filter_cons_of_neg, List.filter_nil, List.map_nil, List.nil_append]
      exact hne _ _ (by rfl) hu
    · split <;> exact hne _ _ (by rfl) hu

theorem order_run (t : Nat) : ∀ (evs : List (Event α)) {s : State α}, Inv s → (∀ e ∈ evs, ¬ GivesUp t e) →
    doneBy t (effects s evs) ++ pending ((run s evs).code t) = pending (s.code t) ++ called s t evs
  | [], s, _, _ => by simp [effects, run, called, doneBy]
  | e :: es, s, h, hn => by
    have ih := order_run t es (inv_step h e) (fun e' he' => hn e' (by simp [he']))
    have hstep : doneBy t (step s e).2 ++ pending ((step s e).1.code t) ++ called (step s e).1 t es = pending (s.code t) ++ called s t (e :: es) := by
      cases e with
      | tick u => rw [show step s (.tick u) = tick s u from rfl, tick_done h t u]; rfl
      | timeout u =>
        have hu : u ≠ t := fun e => hn (.timeout u) (by simp) e
        have hcode : (step s (.timeout u)).1.code t = s.code t ∧ (step s (.timeout u)).2 = [] := by
          simp only [step]
          split
          · split
            · exact ⟨rfl, rfl⟩
            · exact ⟨by rw [goto_code, if_neg (fun e => hu e.symm)], rfl⟩
          · exact ⟨rfl, rfl⟩
        rw [hcode.1, hcode.2]; rfl
      | leave u =>
        have hu : u ≠ t := fun e => hn (.leave u) (by simp) e
        have hcode : (step s (.leave u)).1.code t = s.code t ∧ (step s (.leave u)).2 = [] := by
          simp only [step]
          split
          · exact ⟨by rw [goto_code, if_neg (fun e => hu e.symm)], rfl⟩
          · exact ⟨by rw [goto_code, if_neg (fun e => hu e.symm)], rfl⟩
          · exact ⟨rfl, rfl⟩
        rw [hcode.1, hcode.2]; rfl
      | call u op =>
        have hd : (step s (.call u op)).2 = [] := by simp only [step]; split <;> rfl
        rw [hd]
        show [] ++ pending ((step s (.call u op)).1.code t) ++ _ = pending (s.code t) ++ ((if u = t ∧ ready (s.code t) then [op] else []) ++ _)
        by_cases hu : u = t
        · subst hu
          by_cases hr : ready (s.code u) = true
          · have hp := good_ready (h.good u) hr
            have hc := (good_compile (h.good u) hr op).2.2
            have : (step s (.call u op)).1.code u = compile op ++ s.code u := by
              simp only [step, hr, if_true]; exact goto_self _ _ _
            rw [this, hc, hp, if_pos ⟨rfl, hr⟩]; rfl
          · have : (step s (.call u op)).1 = s := by simp only [step]; rw [if_neg hr]
            rw [this, if_neg (fun e => hr e.2)]; simp
        · have : (step s (.call u op)).1.code t = s.code t := by
            simp only [step]; split
            · rw [goto_code, if_neg (fun e => hu e.symm)]
            · rfl
          rw [this, if_neg (fun e => hu e.1)]; simp
    rw [← hstep, effects, doneBy_append, List.append_assoc, show run s (e :: es) = run (step s e).1 es from rfl, ih]
    simp

/-- C91: the operations of a thread that did not run into the timeout take effect in the order of its calls, each after
its call and before it returns: those that took effect and the one in progress are those it called, at every moment. -/
theorem C91_order (xs : List α) (evs : List (Event α)) (t : Nat) (hn : ∀ e ∈ evs, ¬ GivesUp t e) :
    doneBy t (effects (init xs) evs) ++ pending ((run (init xs) evs).code t) = called (init xs) t evs := by
  have := order_run t evs (inv_init xs) hn
  simpa [init, pending] using this

/-! ### Loops -/

/-- The list objects of a run without appends do not change. -/
theorem lists_step {s : State α} (h : Inv s) (e : Event α) (hn : ∀ t, ¬ Appending (s.code t)) (i : Nat) (hi : i < s.lists.length) :
    i < (step s e).1.lists.length ∧ obj (step s e).1 i = obj s i := by
  cases e with
  | call t op => simp only [step]; split <;> exact ⟨hi, rfl⟩
  | timeout t => simp only [step]; split <;> try split
                 all_goals exact ⟨hi, rfl⟩
  | leave t => simp only [step]; split <;> exact ⟨hi, rfl⟩
  | tick t =>
    have hg := hn t
    simp only [step, tick]
    split
    · exact ⟨hi, rfl⟩
    · split <;> exact ⟨hi, rfl⟩
    · split
      · split <;> exact ⟨hi, rfl⟩
      · exact ⟨hi, rfl⟩
    · exact ⟨hi, rfl⟩
    · split <;> exact ⟨hi, rfl⟩
    · next op xs r hc =>
      refine ⟨?_, ?_⟩
      · show i < (s.lists ++ [xs]).length; simp; omega
      · show ((s.lists ++ [xs])[i]?).getD [] = (s.lists[i]?).getD []; rw [List.getElem?_append_left hi]
    · exact ⟨hi, rfl⟩
    · next j x r hc => exact absurd ⟨.append x, by rw [hc]; exact List.mem_cons_self, trivial⟩ hg
    · exact ⟨hi, rfl⟩
    · exact ⟨hi, rfl⟩
    · split <;> exact ⟨hi, rfl⟩

/-- No thread calls `append`. -/
def NoAppend (evs : List (Event α)) : Prop := ∀ t x, Event.call t (.append x) ∉ evs

theorem appending_step {s : State α} (h : Inv s) (e : Event α) (he : ∀ t x, e ≠ .call t (.append x)) (hn : ∀ t, ¬ Appending (s.code t)) (t : Nat) :
    ¬ Appending ((step s e).1.code t) := by
  rintro ⟨o, ho, ha⟩
  have hsub : ∀ (c : List (Instr α)), (∀ o ∈ pending c, IsAppend o → o ∈ pending (s.code t)) → o ∈ pending c → False := by
    intro c hc hoc
    exact hn t ⟨o, hc o hoc ha, ha⟩
  cases e with
  | call u op =>
    simp only [step] at ho
    split at ho
    · next hr =>
      rw [goto_code] at ho
      split at ho
      · next e =>
        subst e
        rw [(good_compile (h.good t) hr op).2.2, List.mem_singleton] at ho
        subst ho
        cases o with
        | append x => exact he t x rfl
        | _ => exact ha
      · exact hsub _ (fun o h _ => h) ho
    · exact hsub _ (fun o h _ => h) ho
  | tick u =>
    have := tick_done h t u
    exact hsub _ (fun o h _ => by rw [← this]; exact List.mem_append_right _ h) ho
  | timeout u =>
    simp only [step] at ho
    split at ho
    · split at ho
      · exact hsub _ (fun o h _ => h) ho
      · rw [goto_code] at ho
        split at ho
        · cases ho
        · exact hsub _ (fun o h _ => h) ho
    · exact hsub _ (fun o h _ => h) ho
  | leave u =>
    have hg := h.good u
    simp only [step] at ho
    split at ho
    · next hc =>
      rw [hc] at hg; simp only [Good] at hg
      rw [goto_code] at ho
      split at ho
      · rw [hg.2.1] at ho; cases ho
      · exact hsub _ (fun o h _ => h) ho
    · next hc =>
      rw [hc] at hg; simp only [Good] at hg
      rw [goto_code] at ho
      split at ho
      · rw [hg.2.1] at ho; cases ho
      · exact hsub _ (fun o h _ => h) ho
    · exact hsub _ (fun o h _ => h) ho

/-- What the loops have seen are the first elements of their list objects. -/
def SeenOk (s : State α) : Prop := ∀ t, ∀ i idx seen, Instr.next i idx seen ∈ s.code t → i < s.lists.length ∧ seen = (obj s i).take idx

structure Still (s : State α) : Prop where
  inv : Inv s
  cur : s.cur < s.lists.length
  app : ∀ t, ¬ Appending (s.code t)
  seen : SeenOk s

theorem mem_next_compile (op : Op α) (i idx : Nat) (seen : List α) : Instr.next i idx seen ∉ compile op := by
  cases op <;> simp [compile]

theorem still_step {s : State α} (h : Still s) (e : Event α) (he : ∀ t x, e ≠ .call t (.append x)) : Still (step s e).1 := by
  have hl := lists_step h.inv e h.app
  refine ⟨inv_step h.inv e, ?_, appending_step h.inv e he h.app, ?_⟩
  · cases e with
    | call t op => simp only [step]; split <;> exact h.cur
    | timeout t => simp only [step]; split <;> try split
                   all_goals exact h.cur
    | leave t => simp only [step]; split <;> exact h.cur
    | tick t =>
      simp only [step, tick]
      split
      · exact h.cur
      · split <;> exact h.cur
      · split
        · split <;> exact h.cur
        · exact h.cur
      · exact h.cur
      · split <;> exact h.cur
      · next op xs r hc => show s.lists.length < (s.lists ++ [xs]).length; simp
      · exact h.cur
      · show s.cur < (s.lists.set _ _).length; rw [List.length_set]; exact h.cur
      · exact h.cur
      · exact h.cur
      · split <;> exact h.cur
  · -- the loops that were there
    have old : ∀ t i idx seen, Instr.next i idx seen ∈ s.code t → i < (step s e).1.lists.length ∧ seen = (obj (step s e).1 i).take idx := by
      intro t i idx seen hm
      obtain ⟨h1, h2⟩ := h.seen t i idx seen hm
      obtain ⟨h3, h4⟩ := hl i h1
      exact ⟨h3, by rw [h4]; exact h2⟩
    have key : ∀ t i idx seen, Instr.next i idx seen ∈ (step s e).1.code t → (Instr.next i idx seen ∈ s.code t) ∨
        (i < s.lists.length ∧ seen = (obj s i).take idx) := by
      intro t i idx seen hm
      cases e with
      | call u op =>
        simp only [step] at hm
        split at hm
        · rw [goto_code] at hm
          split at hm
          · next e =>
            subst e
            rcases List.mem_append.1 hm with hm | hm
            · exact absurd hm (mem_next_compile op i idx seen)
            · exact .inl hm
          · exact .inl hm
        · exact .inl hm
      | timeout u =>
        simp only [step] at hm
        split at hm
        · split at hm
          · exact .inl hm
          · rw [goto_code] at hm
            split at hm
            · cases hm
            · exact .inl hm
        · exact .inl hm
      | leave u =>
        simp only [step] at hm
        split at hm
        · next hc =>
          rw [goto_code] at hm
          split at hm
          · next e => subst e; exact .inl (by rw [hc]; exact List.mem_cons_of_mem _ hm)
          · exact .inl hm
        · next hc =>
          rw [goto_code] at hm
          split at hm
          · next e => subst e; exact .inl (by rw [hc]; exact List.mem_cons_of_mem _ hm)
          · exact .inl hm
        · exact .inl hm
      | tick u =>
        have tailcase : ∀ (s' : State α) (j : Instr α) (r c : List (Instr α)), s.code u = j :: r → s'.code = s.code →
            (∀ k ∈ c, (∃ a b d, k = Instr.next a b d) → k ∈ r ∨ ∃ a b d, k = .next a b d ∧ a < s.lists.length ∧ d = (obj s a).take b) →
            Instr.next i idx seen ∈ (goto s' u c).code t →
            (Instr.next i idx seen ∈ s.code t) ∨ (i < s.lists.length ∧ seen = (obj s i).take idx) := by
          clear hm
          intro s' j r c hc hs' hsub hm
          rw [goto_code, hs'] at hm
          split at hm
          · next e =>
            subst e
            rcases hsub _ hm ⟨_, _, _, rfl⟩ with hr | ⟨a, b, d, hk, ha, hd⟩
            · exact .inl (by rw [hc]; exact List.mem_cons_of_mem _ hr)
            · injection hk with h1 h2 h3; subst h1; subst h2; subst h3; exact .inr ⟨ha, hd⟩
          · exact .inl hm
        simp only [step, tick] at hm
        split at hm
        · exact .inl hm
        · next r hc =>
          split at hm
          · exact tailcase _ _ r r hc (by rfl) (fun k hk _ => .inl hk) hm
          · exact .inl hm
        · next r hc =>
          split at hm
          · split at hm
            · exact tailcase _ _ r r hc (by rfl) (fun k hk _ => .inl hk) hm
            · exact tailcase _ _ r [] hc (by rfl) (fun k hk _ => nomatch hk) hm
          · exact tailcase _ _ r r hc (by rfl) (fun k hk _ => .inl hk) hm
        · next p r hc =>
          refine tailcase _ _ r _ hc (by rfl) (fun k hk hn => ?_) hm
          rcases List.mem_cons.1 hk with rfl | hk
          · obtain ⟨_, _, _, hn⟩ := hn; cases hn
          · exact .inl hk
        · next p j idx' kept r hc =>
          split at hm
          · refine tailcase _ _ r _ hc (by rfl) (fun k hk hn => ?_) hm
            rcases List.mem_cons.1 hk with rfl | hk
            · obtain ⟨_, _, _, hn⟩ := hn; cases hn
            · exact .inl hk
          · refine tailcase _ _ r _ hc (by rfl) (fun k hk hn => ?_) hm
            obtain ⟨_, _, _, rfl⟩ := hn
            simp only [List.mem_cons, reduceCtorEq, false_or] at hk
            exact .inl hk
        · next op xs r hc => exact tailcase _ _ r r hc (by rfl) (fun k hk _ => .inl hk) hm
        · next x r hc =>
          refine tailcase _ _ r _ hc (by rfl) (fun k hk hn => ?_) hm
          rcases List.mem_cons.1 hk with rfl | hk
          · obtain ⟨_, _, _, hn⟩ := hn; cases hn
          · exact .inl hk
        · next j x r hc => exact tailcase _ _ r r hc (by rfl) (fun k hk _ => .inl hk) hm
        · next r hc => exact tailcase _ _ r r hc (by rfl) (fun k hk _ => .inl hk) hm
        · next r hc =>
          refine tailcase _ _ r _ hc (by rfl) (fun k hk hn => ?_) hm
          rcases List.mem_cons.1 hk with rfl | hk
          · exact .inr ⟨_, _, _, rfl, h.cur, by simp⟩
          · exact .inl hk
        · next j idx' seen' r hc =>
          have hold := h.seen u j idx' seen' (by rw [hc]; exact List.mem_cons_self)
          split at hm
          · next x hx =>
            refine tailcase _ _ r _ hc (by rfl) (fun k hk hn => ?_) hm
            rcases List.mem_cons.1 hk with rfl | hk
            · refine .inr ⟨_, _, _, rfl, hold.1, ?_⟩
              rw [List.take_add_one, hx, hold.2]; rfl
            · exact .inl hk
          · exact tailcase _ _ r r hc (by rfl) (fun k hk _ => .inl hk) hm
    intro t i idx seen hm
    rcases key t i idx seen hm with hm | ⟨h1, h2⟩
    · exact old t i idx seen hm
    · obtain ⟨h3, h4⟩ := hl i h1
      exact ⟨h3, by rw [h4]; exact h2⟩

theorem still_run : ∀ (evs : List (Event α)) {s : State α}, Still s → NoAppend evs →
    Still (run s evs) ∧ ∀ i < s.lists.length, obj (run s evs) i = obj s i
  | [], _, h, _ => ⟨h, fun _ _ => rfl⟩
  | e :: es, s, h, hn => by
    have he : ∀ t x, e ≠ .call t (.append x) := fun t x he => hn t x (by simp [he])
    have h1 := still_step h e he
    obtain ⟨h2, h3⟩ := still_run es h1 (fun t x hm => hn t x (by simp [hm]))
    refine ⟨h2, fun i hi => ?_⟩
    obtain ⟨h4, h5⟩ := lists_step h.inv e h.app i hi
    rw [← h5]
    exact h3 i h4

theorem run_append : ∀ (a b : List (Event α)) (s : State α), run s (a ++ b) = run (run s a) b
  | [], _, _ => rfl
  | e :: a, b, s => run_append a b (step s e).1

/-- C91: without appends, a loop over the list sees the list as it is when the loop begins, element by element in order,
whatever the threads do meanwhile, and all of it if it is not left early. -/
theorem C91_loop (xs : List α) (evs evs' : List (Event α)) (hn : NoAppend (evs ++ evs')) (t idx : Nat) (seen : List α) (r r' : List (Instr α))
    (hc : (run (init xs) evs).code t = .loop :: r)
    (hc' : (run (run (init xs) evs) (.tick t :: evs')).code t = .next (run (init xs) evs).cur idx seen :: r') :
    seen = (content (run (init xs) evs)).take idx ∧
    ((step (run (run (init xs) evs) (.tick t :: evs')) (.tick t)).1.code t = r' → seen = content (run (init xs) evs)) := by
  have h0 : Still (init xs) := ⟨inv_init xs, by simp [init], (fun _ ⟨_, h, _⟩ => nomatch h), fun _ _ _ _ h => nomatch h⟩
  have h1 := (still_run evs h0 (fun t x hm => hn t x (by simp [hm]))).1
  obtain ⟨h2, h3⟩ := still_run (.tick t :: evs') h1 (fun t x hm => hn t x (by
    simp only [List.mem_cons, reduceCtorEq, false_or] at hm; simp [hm]))
  have hseen := (h2.seen t _ idx seen (by rw [hc']; exact List.mem_cons_self)).2
  have hobj := h3 _ h1.cur
  rw [hobj] at hseen
  refine ⟨hseen, fun hend => ?_⟩
  simp only [step, tick, hc'] at hend
  split at hend
  · rw [goto_self] at hend
    have := congrArg List.length hend
    simp at this
  · next hx =>
    rw [hobj] at hx
    rw [hseen, List.take_of_length_le (List.getElem?_eq_none_iff.1 hx)]
    rfl

end Verif.Manager.Infos
