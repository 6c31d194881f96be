import Verif.Emergency.Markers

/-!
# C106: requests to the replicator and its answers

`layout`: the name of a marker. `Named`: a name is the marker of a step, written with these digits. `StepMarker`: an entry that
announces a checkpoint; `NoCheckpoint`: an empty file that says there is none.
-/

namespace Verif.Emergency.Markers

/-- `{job_name}-s{step}-n{node_rank}-w{worker_rank}.restore` -/
def layout (job step node worker : List Char) : Name :=
  job ++ "-s".toList ++ step ++ "-n".toList ++ node ++ "-w".toList ++ worker ++ ".restore".toList

def Number (s : List Char) : Prop := s ≠ [] ∧ ∀ c ∈ s, c.isDigit = true

def Named (f : Name) (s : List Char) : Prop :=
  ∃ job node worker, job ≠ [] ∧ '\n' ∉ job ∧ Number s ∧ Number node ∧ Number worker ∧ f = layout job s node worker

def IsMarker (f : Name) : Prop := ".restore".toList <:+ f

/-- An empty file for step 0. -/
def NoCheckpoint (d : Dir) (f : Name) : Prop := Named f ['0'] ∧ ∃ x, look d f = some x ∧ x.isFile = true

def StepMarker (d : Dir) (f : Name) (step : Nat) (x : Node) : Prop :=
  look d f = some x ∧ ∃ s, Named f s ∧ toInt s = step ∧ ¬ (s = ['0'] ∧ x.isFile = true)

/-- The replicator reports a failure, with a text that can be read. -/
def Failed (d : Dir) (t : List Char) : Prop := t ≠ [] ∧ look d "replicator.failed".toList = some (.file (some t))

/-! ## Names -/

theorem lit_iff (p l r : List Char) : lit p l = some r ↔ l = p ++ r := by
  induction p generalizing l with
  | nil => simp only [lit, Option.some.injEq, List.nil_append]
  | cons c p ih =>
    cases l with
    | nil => simp [lit]
    | cons x l =>
      simp only [lit]
      by_cases h : c = x
      · subst h; simp only [if_true, ih, List.cons_append, List.cons.injEq, true_and]
      · simp only [if_neg h, List.cons_append, List.cons.injEq]
        constructor
        · intro h'; cases h'
        · intro h'; exact absurd h'.1.symm h

theorem digits_some {l s r : List Char} (h : digits l = some (s, r)) : Number s ∧ l = s ++ r := by
  simp only [digits] at h
  cases ht : l.takeWhile Char.isDigit with
  | nil => simp only [ht] at h; cases h
  | cons c t =>
    simp only [ht, Option.some.injEq, Prod.mk.injEq] at h
    obtain ⟨h1, h2⟩ := h
    subst h1 h2
    refine ⟨⟨by simp, ?_⟩, ?_⟩
    · intro x hx
      rw [← ht] at hx
      have h3 := List.all_takeWhile (p := Char.isDigit) (l := l)
      exact List.all_eq_true.1 h3 x hx
    · rw [← ht, List.takeWhile_append_dropWhile]

theorem digits_append {s : List Char} (hs : Number s) {c : Char} (hc : c.isDigit = false) (r : List Char) :
    digits (s ++ c :: r) = some (s, c :: r) := by
  have h1 : (s ++ c :: r).takeWhile Char.isDigit = s := by
    rw [List.takeWhile_append_of_pos hs.2]
    simp [hc]
  have h2 : (s ++ c :: r).dropWhile Char.isDigit = c :: r := by
    rw [List.dropWhile_append_of_pos hs.2]
    simp [hc]
  simp only [digits, h1, h2]
  cases s with
  | nil => exact absurd rfl hs.1
  | cons a s => rfl

theorem matchTail_iff (l s : List Char) :
    matchTail l = some s ↔ ∃ n w, Number s ∧ Number n ∧ Number w ∧
      l = "-s".toList ++ (s ++ ("-n".toList ++ (n ++ ("-w".toList ++ (w ++ suffix))))) := by
  constructor
  · intro h
    simp only [matchTail] at h
    cases h1 : lit "-s".toList l with
    | none => simp only [h1] at h; cases h
    | some l1 =>
      simp only [h1] at h
      cases h2 : digits l1 with
      | none => simp only [h2] at h; cases h
      | some p2 =>
        obtain ⟨s2, l2⟩ := p2
        simp only [h2] at h
        cases h3 : lit "-n".toList l2 with
        | none => simp only [h3] at h; cases h
        | some l3 =>
          simp only [h3] at h
          cases h4 : digits l3 with
          | none => simp only [h4] at h; cases h
          | some p4 =>
            obtain ⟨n, l4⟩ := p4
            simp only [h4] at h
            cases h5 : lit "-w".toList l4 with
            | none => simp only [h5] at h; cases h
            | some l5 =>
              simp only [h5] at h
              cases h6 : digits l5 with
              | none => simp only [h6] at h; cases h
              | some p6 =>
                obtain ⟨w, l6⟩ := p6
                simp only [h6] at h
                by_cases h7 : l6 = suffix
                · rw [if_pos h7, Option.some.injEq] at h
                  subst h
                  obtain ⟨a1, a2⟩ := digits_some h2
                  obtain ⟨b1, b2⟩ := digits_some h4
                  obtain ⟨c1, c2⟩ := digits_some h6
                  refine ⟨n, w, a1, b1, c1, ?_⟩
                  rw [(lit_iff _ _ _).1 h1, a2, (lit_iff _ _ _).1 h3, b2, (lit_iff _ _ _).1 h5, c2, h7]
                · rw [if_neg h7] at h; cases h
  · rintro ⟨n, w, hs, hn, hw, rfl⟩
    have e1 : digits (s ++ ("-n".toList ++ (n ++ ("-w".toList ++ (w ++ suffix))))) =
        some (s, "-n".toList ++ (n ++ ("-w".toList ++ (w ++ suffix)))) := digits_append hs (by decide) _
    have e2 : digits (n ++ ("-w".toList ++ (w ++ suffix))) = some (n, "-w".toList ++ (w ++ suffix)) :=
      digits_append hn (by decide) _
    have e3 : digits (w ++ suffix) = some (w, suffix) := digits_append hw (by decide) _
    simp only [matchTail, (lit_iff _ _ _).2 rfl, e1, e2, e3, if_true]

theorem split_last {a a' w w' : List Char} {c c' : Char} (hc : c.isDigit = false) (hc' : c'.isDigit = false)
    (hw : ∀ x ∈ w, x.isDigit = true) (hw' : ∀ x ∈ w', x.isDigit = true) (h : a ++ c :: w = a' ++ c' :: w') :
    a = a' ∧ w = w' := by
  rcases List.append_eq_append_iff.1 h with ⟨as, h1, h2⟩ | ⟨as, h1, h2⟩
  · cases as with
    | nil => simp only [List.nil_append, List.cons.injEq] at h2; exact ⟨by simp [h1], h2.2⟩
    | cons y ys =>
      simp only [List.cons_append, List.cons.injEq] at h2
      have := hw c' (by rw [h2.2]; simp)
      rw [hc'] at this; cases this
  · cases as with
    | nil => simp only [List.nil_append, List.cons.injEq] at h2; exact ⟨by simp [h1], h2.2.symm⟩
    | cons y ys =>
      simp only [List.cons_append, List.cons.injEq] at h2
      have := hw' c (by rw [h2.2]; simp)
      rw [hc] at this; cases this

theorem layout_inj {j j' s s' n n' w w' : List Char} (hs : Number s) (hs' : Number s') (hn : Number n) (hn' : Number n')
    (hw : Number w) (hw' : Number w') (h : layout j s n w = layout j' s' n' w') : j = j' ∧ s = s' ∧ n = n' ∧ w = w' := by
  have h1 := List.append_cancel_right h
  have e : ∀ a b : List Char, ∀ c : Char, a ++ ['-', c] ++ b = (a ++ ['-']) ++ c :: b := by intro a b c; simp
  have h2 : (j ++ "-s".toList ++ s ++ "-n".toList ++ n ++ ['-']) ++ 'w' :: w =
      (j' ++ "-s".toList ++ s' ++ "-n".toList ++ n' ++ ['-']) ++ 'w' :: w' := by
    rw [← e, ← e]; exact h1
  obtain ⟨h3, h4⟩ := split_last (by decide) (by decide) hw.2 hw'.2 h2
  have h5 := List.append_cancel_right h3
  have h6 : (j ++ "-s".toList ++ s ++ ['-']) ++ 'n' :: n = (j' ++ "-s".toList ++ s' ++ ['-']) ++ 'n' :: n' := by
    rw [← e, ← e]; exact h5
  obtain ⟨h7, h8⟩ := split_last (by decide) (by decide) hn.2 hn'.2 h6
  have h9 := List.append_cancel_right h7
  have h10 : (j ++ ['-']) ++ 's' :: s = (j' ++ ['-']) ++ 's' :: s' := by
    rw [← e, ← e]; exact h9
  obtain ⟨h11, h12⟩ := split_last (by decide) (by decide) hs.2 hs'.2 h10
  exact ⟨List.append_cancel_right h11, h12, h8, h4⟩

theorem tryPrefix_some {f s : List Char} {k : Nat} (h : tryPrefix f k = some s) :
    ∃ i, 0 < i ∧ i ≤ k ∧ '\n' ∉ f.take i ∧ matchTail (f.drop i) = some s := by
  induction k with
  | zero => cases h
  | succ k ih =>
    simp only [tryPrefix] at h
    by_cases hn : '\n' ∈ f.take (k + 1)
    · rw [if_pos hn] at h
      obtain ⟨i, h1, h2, h3⟩ := ih h
      exact ⟨i, h1, by omega, h3⟩
    · rw [if_neg hn] at h
      cases hm : matchTail (f.drop (k + 1)) with
      | some s' =>
        simp only [hm, Option.some.injEq] at h
        subst h
        exact ⟨k + 1, by omega, by omega, hn, hm⟩
      | none =>
        simp only [hm] at h
        obtain ⟨i, h1, h2, h3⟩ := ih h
        exact ⟨i, h1, by omega, h3⟩

theorem tryPrefix_complete {f s : List Char} {k i : Nat} (h0 : 0 < i) (hk : i ≤ k) (hn : '\n' ∉ f.take i)
    (hm : matchTail (f.drop i) = some s) : ∃ s', tryPrefix f k = some s' := by
  induction k with
  | zero => omega
  | succ k ih =>
    simp only [tryPrefix]
    cases hx : (if '\n' ∈ f.take (k + 1) then none else matchTail (f.drop (k + 1))) with
    | some s' => exact ⟨s', rfl⟩
    | none =>
      by_cases hik : i = k + 1
      · subst hik
        rw [if_neg hn, hm] at hx
        cases hx
      · exact ih (by omega)

/-- **C106** (marker names): the step is read from exactly the names `{job}-s{step}-n{node}-w{worker}.restore`, and there is only
one way to read such a name, whatever the job is called. -/
theorem C106_marker_name (f : Name) (s : List Char) : extract f = some s ↔ Named f s := by
  have hsound : ∀ s, extract f = some s → Named f s := by
    intro s h
    obtain ⟨i, h1, h2, h3, h4⟩ := tryPrefix_some h
    obtain ⟨n, w, hs, hn, hw, hl⟩ := (matchTail_iff _ _).1 h4
    refine ⟨f.take i, n, w, ?_, h3, hs, hn, hw, ?_⟩
    · intro hx
      have : (f.take i).length = 0 := by rw [hx]; rfl
      rw [List.length_take] at this
      omega
    · have : f = f.take i ++ f.drop i := (List.take_append_drop i f).symm
      rw [hl] at this
      simp only [layout, List.append_assoc]
      exact this
  refine ⟨hsound s, ?_⟩
  rintro ⟨job, n, w, hj, hnl, hs, hn, hw, rfl⟩
  have hf : layout job s n w = job ++ ("-s".toList ++ (s ++ ("-n".toList ++ (n ++ ("-w".toList ++ (w ++ suffix)))))) := by
    have key : ∀ a b c d e f g h : List Char,
        a ++ b ++ c ++ d ++ e ++ f ++ g ++ h = a ++ (b ++ (c ++ (d ++ (e ++ (f ++ (g ++ h)))))) := by
      intros; simp only [List.append_assoc]
    exact key _ _ _ _ _ _ _ _
  have hpos : 0 < job.length := List.length_pos_iff.2 hj
  obtain ⟨s', hs'⟩ := tryPrefix_complete (f := layout job s n w) (s := s) (k := (layout job s n w).length) (i := job.length)
    hpos (by rw [hf]; simp) (by rw [hf, List.take_left]; exact hnl)
    (by rw [hf, List.drop_left]; exact (matchTail_iff _ _).2 ⟨n, w, hs, hn, hw, rfl⟩)
  obtain ⟨j', n', w', _, _, h1, h2, h3, h4⟩ := hsound s' hs'
  obtain ⟨_, h5, _⟩ := layout_inj hs h1 hn h2 hw h3 h4
  have h6 : extract (layout job s n w) = some s' := hs'
  rw [h6, h5]

theorem Named.isMarker {f : Name} {s : List Char} (h : Named f s) : IsMarker f := by
  obtain ⟨j, n, w, _, _, _, _, _, rfl⟩ := h
  exact ⟨_, rfl⟩

theorem Named.unique {f : Name} {s s' : List Char} (h : Named f s) (h' : Named f s') : s = s' := by
  have h1 := (C106_marker_name f s).2 h
  have h2 := (C106_marker_name f s').2 h'
  rw [h1] at h2
  exact Option.some.inj h2

/-! ## Directory -/

theorem look_del (d : Dir) (n m : Name) : look (del d n) m = if m = n then none else look d m := by
  simp only [look, del]
  induction d with
  | nil => simp
  | cons e d ih =>
    by_cases h1 : e.1 = n
    · rw [List.filter_cons_of_neg (by simp [h1]), ih]
      by_cases h2 : m = n
      · rw [if_pos h2, if_pos h2]
      · rw [if_neg h2, if_neg h2]
        have : ¬ e.1 = m := by rw [h1]; exact fun h => h2 h.symm
        rw [List.find?_cons_of_neg (by simpa using this)]
    · rw [List.filter_cons_of_pos (by simpa using h1)]
      by_cases h3 : e.1 = m
      · rw [List.find?_cons_of_pos (by simpa using h3), List.find?_cons_of_pos (by simpa using h3)]
        rw [if_neg (by rw [← h3]; exact h1)]
      · rw [List.find?_cons_of_neg (by simpa using h3), List.find?_cons_of_neg (by simpa using h3), ih]

theorem look_put (d : Dir) (n m : Name) (x : Node) : look (put d n x) m = if m = n then some x else look d m := by
  by_cases h : m = n
  · subst h; simp [look, put]
  · rw [if_neg h]
    have h1 : look (put d n x) m = look (del d n) m := by
      simp only [look, put]
      rw [List.find?_cons_of_neg (by simpa using fun h' => h h'.symm)]
    rw [h1, look_del, if_neg h]

theorem look_of_mem {d : Dir} (hd : (d.map (·.1)).Nodup) {n : Name} {x : Node} (h : (n, x) ∈ d) : look d n = some x := by
  simp only [look]
  induction d with
  | nil => cases h
  | cons e d ih =>
    simp only [List.map_cons, List.nodup_cons] at hd
    rcases List.mem_cons.1 h with h1 | h1
    · subst h1; simp
    · have : ¬ e.1 = n := fun hx => hd.1 (List.mem_map.2 ⟨(n, x), h1, hx.symm⟩)
      rw [List.find?_cons_of_neg (by simpa using this)]
      exact ih hd.2 h1

theorem mem_of_look {d : Dir} {n : Name} {x : Node} (h : look d n = some x) : (n, x) ∈ d := by
  simp only [look, Option.map_eq_some_iff] at h
  obtain ⟨e, h1, h2⟩ := h
  have h3 := List.find?_some h1
  simp only [beq_iff_eq] at h3
  have h4 := List.mem_of_find?_eq_some h1
  obtain ⟨a, b⟩ := e
  simp only at h2 h3
  subst h2 h3
  exact h4

/-! ## Error files -/

theorem processError_other (d : Dir) (n m : Name) (h : m ≠ n) : look (processError d n).2 m = look d m := by
  simp only [processError]
  cases hl : look d n with
  | none => rfl
  | some x =>
    cases x with
    | file t => simp only [look_del, if_neg h]
    | dir b => rfl
    | link t => cases t <;> first | rfl | simp only [look_del, if_neg h]

theorem check_other (d : Dir) (m : Name) (h1 : m ≠ errorsName) (h2 : m ≠ failedName) : look (check d).2 m = look d m := by
  simp only [check]
  rw [← processError_other d errorsName m h1, ← processError_other (processError d errorsName).2 failedName m h2]
  cases hp : processError (processError d errorsName).2 failedName with
  | mk t d' =>
    cases t with
    | none => rfl
    | some t => cases t <;> rfl

theorem check_fst (d : Dir) (t : List Char) : (check d).1 = some t ↔ Failed d t := by
  have h0 : look (processError d errorsName).2 failedName = look d failedName :=
    processError_other d errorsName failedName (by decide)
  have hp : (processError (processError d errorsName).2 failedName).1 =
      match look d failedName with
      | some (.file text) => text
      | _ => none := by
    simp only [processError] at h0 ⊢
    rw [h0]
    cases hl : look d failedName with
    | none => rfl
    | some x =>
      cases x with
      | file t => rfl
      | dir b => rfl
      | link t => cases t <;> rfl
  have hf : (check d).1 = match (processError (processError d errorsName).2 failedName).1 with
      | some [] => none
      | x => x := by
    simp only [check]
    cases processError (processError d errorsName).2 failedName with
    | mk t d' =>
      cases t with
      | none => rfl
      | some t => cases t <;> rfl
  rw [hf, hp]
  simp only [Failed]
  rw [show "replicator.failed".toList = failedName from rfl]
  cases look d failedName with
  | none => simp
  | some x =>
    cases x with
    | file u =>
      cases u with
      | none => simp
      | some u =>
        cases u with
        | nil =>
          simp only [Option.some.injEq, Node.file.injEq]
          exact ⟨(fun h => nomatch h), fun h => absurd h.2.symm h.1⟩
        | cons c u =>
          simp only [Option.some.injEq, Node.file.injEq]
          constructor
          · intro h; exact ⟨by rw [← h]; simp, h⟩
          · intro h; exact h.2
    | dir b => simp
    | link u => simp

/-- **C106** (failures): a failure of the replicator is raised, by the wait for the request to be taken and by every look for
markers, exactly when `replicator.failed` has a text that can be read; other files are not touched by looking. -/
theorem C106_failure_raised (d : Dir) (t : List Char) :
    ((check d).1 = some t ↔ Failed d t) ∧
    (Failed d t → (poll d).1 = .raised (.fatal t)) ∧
    (Failed d t → exists? d yamlName = false → ∀ es, (waitGone true (id :: es) d).1 = .error (.fatal t)) ∧
    ∀ m, m ≠ "replicator.errors".toList → m ≠ "replicator.failed".toList → look (check d).2 m = look d m := by
  refine ⟨check_fst d t, ?_, ?_, fun m h1 h2 => check_other d m h1 h2⟩
  · intro h
    have h1 := (check_fst d t).2 h
    simp only [poll]
    cases hc : check d with
    | mk a d' =>
      rw [hc] at h1
      simp only at h1
      subst h1
      rfl
  · intro h he es
    have h1 := (check_fst d t).2 h
    simp only [waitGone, id, he, Bool.false_eq_true, if_false, if_true]
    cases hc : check d with
    | mk a d' =>
      rw [hc] at h1
      simp only at h1
      subst h1
      rfl

/-! ## Polls -/

theorem insertName_perm (x : Name × Node) (l : List (Name × Node)) : (insertName x l).Perm (x :: l) := by
  induction l with
  | nil => exact .refl _
  | cons y l ih =>
    simp only [insertName]
    by_cases h : x.1 ≤ y.1
    · rw [if_pos h]
    · rw [if_neg h]; exact (ih.cons y).trans (.swap x y l)

theorem sortName_perm (l : List (Name × Node)) : (sortName l).Perm l := by
  induction l with
  | nil => exact .refl _
  | cons x l ih => exact (insertName_perm x _).trans (ih.cons x)

theorem mem_markers {d : Dir} {n : Name} {x : Node} : (n, x) ∈ markers d ↔ (n, x) ∈ d ∧ IsMarker n := by
  simp only [markers]
  rw [(sortName_perm _).mem_iff, List.mem_filter]
  simp only [List.isSuffixOf_iff_suffix]
  exact Iff.rfl

theorem classify_ok {l : List (Name × Node)} (h : ∀ n x, (n, x) ∈ l → ∃ s, Named n s) :
    ∃ rs ns, classify l = .ok (rs, ns) ∧
      (∀ k n, (k, n) ∈ rs ↔ ∃ x s, (n, x) ∈ l ∧ Named n s ∧ toInt s = k ∧ ¬ (s = ['0'] ∧ x.isFile = true)) ∧
      (∀ n, n ∈ ns ↔ ∃ x, (n, x) ∈ l ∧ Named n ['0'] ∧ x.isFile = true) := by
  induction l with
  | nil => exact ⟨[], [], rfl, by simp, by simp⟩
  | cons e l ih =>
    obtain ⟨n0, x0⟩ := e
    obtain ⟨rs, ns, h1, h2, h3⟩ := ih (fun n x hx => h n x (List.mem_cons_of_mem _ hx))
    obtain ⟨s0, hs0⟩ := h n0 x0 (by simp)
    have he := (C106_marker_name n0 s0).2 hs0
    by_cases hz : s0 = ['0'] ∧ x0.isFile = true
    · refine ⟨rs, n0 :: ns, by simp only [classify, he, h1, if_pos hz], ?_, ?_⟩
      · intro k n
        rw [h2]
        constructor
        · rintro ⟨x, s, a, b⟩; exact ⟨x, s, List.mem_cons_of_mem _ a, b⟩
        · rintro ⟨x, s, a, b, c, e⟩
          rcases List.mem_cons.1 a with a | a
          · cases a
            have := b.unique hs0
            subst this
            exact absurd hz e
          · exact ⟨x, s, a, b, c, e⟩
      · intro n
        rw [List.mem_cons, h3]
        constructor
        · rintro (a | ⟨x, a, b⟩)
          · subst a; exact ⟨x0, by simp, hz.1 ▸ hs0, hz.2⟩
          · exact ⟨x, List.mem_cons_of_mem _ a, b⟩
        · rintro ⟨x, a, b, c⟩
          rcases List.mem_cons.1 a with a | a
          · cases a; exact .inl rfl
          · exact .inr ⟨x, a, b, c⟩
    · refine ⟨(toInt s0, n0) :: rs, ns, by simp only [classify, he, h1, if_neg hz], ?_, ?_⟩
      · intro k n
        rw [List.mem_cons, h2]
        constructor
        · rintro (a | ⟨x, s, a, b⟩)
          · cases a; exact ⟨x0, s0, by simp, hs0, rfl, hz⟩
          · exact ⟨x, s, List.mem_cons_of_mem _ a, b⟩
        · rintro ⟨x, s, a, b, c, e⟩
          rcases List.mem_cons.1 a with a | a
          · cases a
            have := b.unique hs0
            subst this
            subst c
            exact .inl rfl
          · exact .inr ⟨x, s, a, b, c, e⟩
      · intro n
        rw [h3]
        constructor
        · rintro ⟨x, a, b⟩; exact ⟨x, List.mem_cons_of_mem _ a, b⟩
        · rintro ⟨x, a, b, c⟩
          rcases List.mem_cons.1 a with a | a
          · cases a
            exact absurd ⟨hs0.unique b, c⟩ hz
          · exact ⟨x, a, b, c⟩

theorem classify_error {l : List (Name × Node)} {n : Name} {x : Node} (hm : (n, x) ∈ l) (h : ∀ s, ¬ Named n s) :
    classify l = .error .valueError := by
  induction l with
  | nil => cases hm
  | cons e l ih =>
    obtain ⟨n0, x0⟩ := e
    simp only [classify]
    rcases List.mem_cons.1 hm with hm' | hm'
    · cases hm'
      cases hx : extract n with
      | none => rfl
      | some s => exact absurd ((C106_marker_name n s).1 hx) (h s)
    · cases hx : extract n0 with
      | none => rfl
      | some s => simp only [ih hm']

theorem best_mem (a : Nat × Name) (l : List (Nat × Name)) : best a l ∈ a :: l := by
  induction l generalizing a with
  | nil => simp [best]
  | cons b l ih =>
    simp only [best]
    by_cases h : a.1 < b.1
    · rw [if_pos h]; exact List.mem_cons_of_mem _ (ih b)
    · rw [if_neg h]
      rcases List.mem_cons.1 (ih a) with h1 | h1
      · rw [h1]; simp
      · exact List.mem_cons_of_mem _ (List.mem_cons_of_mem _ h1)

theorem best_max (a : Nat × Name) (l : List (Nat × Name)) : ∀ b ∈ a :: l, b.1 ≤ (best a l).1 := by
  induction l generalizing a with
  | nil => intro b hb; simp only [List.mem_singleton] at hb; subst hb; exact Nat.le_refl _
  | cons c l ih =>
    intro b hb
    simp only [best]
    by_cases h : a.1 < c.1
    · rw [if_pos h]
      rcases List.mem_cons.1 hb with hb | hb
      · subst hb
        have := ih c c (by simp)
        omega
      · exact ih c b hb
    · rw [if_neg h]
      rcases List.mem_cons.1 hb with hb | hb
      · subst hb; exact ih b b (by simp)
      · rcases List.mem_cons.1 hb with hb | hb
        · subst hb
          have := ih a a (by simp)
          omega
        · exact ih a b (List.mem_cons_of_mem _ hb)

theorem removeAll_ok (l : List Name) (d : Dir) (h : ∀ n ∈ l, ∀ b, look d n ≠ some (.dir b)) :
    ∃ d', removeAll l d = (.ok (), d') ∧ ∀ m, look d' m = if m ∈ l then none else look d m := by
  induction l generalizing d with
  | nil => exact ⟨d, rfl, by simp⟩
  | cons n l ih =>
    obtain ⟨d', h1, h2⟩ := ih (del d n) (by
      intro m hm b
      rw [look_del]
      by_cases hmn : m = n
      · rw [if_pos hmn]; simp
      · rw [if_neg hmn]; exact h m (List.mem_cons_of_mem _ hm) b)
    refine ⟨d', ?_, ?_⟩
    · simp only [removeAll]
      cases hl : look d n with
      | none => exact h1
      | some x =>
        cases x with
        | dir b => exact absurd hl (h n (by simp) b)
        | file t => exact h1
        | link t => exact h1
    · intro m
      rw [h2, look_del]
      by_cases hml : m ∈ l
      · rw [if_pos hml, if_pos (List.mem_cons_of_mem _ hml)]
      · rw [if_neg hml]
        by_cases hmn : m = n
        · rw [if_pos hmn, if_pos (by rw [hmn]; simp)]
        · rw [if_neg hmn, if_neg (by simp [hmn, hml])]

theorem rename_ok {d : Dir} {a b : Name} {x : Node} (hx : look d a = some x) (hd : ∀ e, x ≠ .dir e)
    (hb : ∀ e, look d b ≠ some (.dir e)) : rename d a b = .ok (put (del d a) b x) := by
  simp only [rename, hx]
  cases x with
  | dir e => exact absurd rfl (hd e)
  | file t =>
    cases hl : look d b with
    | none => rfl
    | some y =>
      cases y with
      | dir e => exact absurd hl (hb e)
      | file u => rfl
      | link u => rfl
  | link t =>
    cases hl : look d b with
    | none => rfl
    | some y =>
      cases y with
      | dir e => exact absurd hl (hb e)
      | file u => rfl
      | link u => rfl

theorem toStr_ne {k : Nat} {n : Name} {c : Char} (hc : c ∈ n) (hd : c.isDigit = false) : toStr k ≠ n := by
  intro h
  rw [← h] at hc
  have := Nat.isDigit_of_mem_toDigits (by omega) (by omega) hc
  rw [hd] at this
  cases this

theorem toStr_not_marker (k : Nat) : ¬ IsMarker (toStr k) := by
  intro h
  exact toStr_ne (k := k) (n := toStr k) (c := '.') (h.subset (by decide)) (by decide) rfl

theorem check_none {d : Dir} (h : ∀ t, ¬ Failed d t) : ∃ d', check d = (none, d') ∧
    ∀ m, m ≠ errorsName → m ≠ failedName → look d' m = look d m := by
  cases hc : check d with
  | mk a d' =>
    cases a with
    | some t => exact absurd ((check_fst d t).1 (by rw [hc])) (h t)
    | none =>
      refine ⟨d', rfl, ?_⟩
      intro m h1 h2
      have := check_other d m h1 h2
      rw [hc] at this
      exact this

theorem marker_ne {n : Name} (h : IsMarker n) : n ≠ errorsName ∧ n ≠ failedName := by
  constructor
  · intro hx; subst hx; exact absurd (List.isSuffixOf_iff_suffix.2 h) (by decide)
  · intro hx; subst hx; exact absurd (List.isSuffixOf_iff_suffix.2 h) (by decide)

/-- **C106** (restore): if the replicator announces steps, with well-formed names, and reports no failure, the highest step gets its
marker as step directory, all markers are gone, and no other file changes. -/
theorem C106_restore {d : Dir} (hd : (d.map (·.1)).Nodup) (hf : ∀ t, ¬ Failed d t)
    (hw : ∀ n x, look d n = some x → IsMarker n → (∃ s, Named n s) ∧ ∀ e, x ≠ .dir e)
    {n0 : Name} {k0 : Nat} {x0 : Node} (h0 : StepMarker d n0 k0 x0)
    (ht : ∀ n k x, StepMarker d n k x → ∀ e, look d (toStr k) ≠ some (.dir e)) :
    ∃ n k x d', StepMarker d n k x ∧ (∀ n' k' x', StepMarker d n' k' x' → k' ≤ k) ∧
      poll d = (.done, d') ∧ look d' (toStr k) = some x ∧ (∀ m, IsMarker m → look d' m = none) ∧
      ∀ m, ¬ IsMarker m → m ≠ toStr k → m ≠ "replicator.errors".toList → m ≠ "replicator.failed".toList →
        look d' m = look d m := by
  obtain ⟨rs, ns, h1, h2, h3⟩ := classify_ok (l := markers d) (by
    intro n x hx
    obtain ⟨hx1, hx2⟩ := mem_markers.1 hx
    exact (hw n x (look_of_mem hd hx1) hx2).1)
  have hrs : ∀ k n, (k, n) ∈ rs ↔ ∃ x, StepMarker d n k x := by
    intro k n
    rw [h2]
    constructor
    · rintro ⟨x, s, a, b, c, e⟩
      exact ⟨x, look_of_mem hd (mem_markers.1 a).1, s, b, c, e⟩
    · rintro ⟨x, a, s, b, c, e⟩
      exact ⟨x, s, mem_markers.2 ⟨mem_of_look a, b.isMarker⟩, b, c, e⟩
  have hns : ∀ n, n ∈ ns ↔ NoCheckpoint d n := by
    intro n
    rw [h3]
    constructor
    · rintro ⟨x, a, b, c⟩
      exact ⟨b, x, look_of_mem hd (mem_markers.1 a).1, c⟩
    · rintro ⟨b, x, a, c⟩
      exact ⟨x, mem_markers.2 ⟨mem_of_look a, b.isMarker⟩, b, c⟩
  obtain ⟨d1, hc1, hc2⟩ := check_none hf
  cases rs with
  | nil => exact absurd ((hrs k0 n0).2 ⟨x0, h0⟩) (by simp)
  | cons r rs =>
    have hbm := best_mem r rs
    have hbx := best_max r rs
    cases hb : best r rs with
    | mk k n =>
      rw [hb] at hbm
      obtain ⟨x, hx⟩ := (hrs k n).1 hbm
      obtain ⟨hl, s, hs, hk, hnz⟩ := id hx
      have hmn := hs.isMarker
      obtain ⟨hne1, hne2⟩ := marker_ne hmn
      have hl1 : look d1 n = some x := by rw [hc2 n hne1 hne2]; exact hl
      have hs1 : toStr k ≠ errorsName := toStr_ne (c := '.') (by decide) (by decide)
      have hs2 : toStr k ≠ failedName := toStr_ne (c := '.') (by decide) (by decide)
      have hren : rename d1 n (toStr k) = .ok (put (del d1 n) (toStr k) x) := by
        refine rename_ok hl1 (hw n x hl hmn).2 ?_
        intro e
        rw [hc2 _ hs1 hs2]
        exact ht n k x hx e
      have hlist : ∀ m, m ∈ (((r :: rs).map (·.2)).filter (· != n)) ++ ns ↔
          (m ≠ n ∧ ∃ k x, StepMarker d m k x) ∨ NoCheckpoint d m := by
        intro m
        rw [List.mem_append, List.mem_filter, List.mem_map, hns]
        constructor
        · rintro (⟨⟨⟨k', m'⟩, a, b⟩, c⟩ | a)
          · simp only at b
            subst b
            exact .inl ⟨by simpa using c, k', (hrs k' m').1 a⟩
          · exact .inr a
        · rintro (⟨a, k', x', b⟩ | a)
          · exact .inl ⟨⟨(k', m), (hrs k' m).2 ⟨x', b⟩, rfl⟩, by simpa using a⟩
          · exact .inr a
      have hmark : ∀ m, IsMarker m → ∀ y, look d m = some y → (∃ k x, StepMarker d m k x) ∨ NoCheckpoint d m := by
        intro m hm y hy
        obtain ⟨⟨s', hs'⟩, _⟩ := hw m y hy hm
        by_cases hz : s' = ['0'] ∧ y.isFile = true
        · exact .inr ⟨hz.1 ▸ hs', y, hy, hz.2⟩
        · exact .inl ⟨_, y, hy, s', hs', rfl, hz⟩
      have hlook : ∀ m, look (put (del d1 n) (toStr k) x) m =
          if m = toStr k then some x else if m = n then none else look d1 m := by
        intro m; rw [look_put, look_del]
      obtain ⟨d', hr1, hr2⟩ := removeAll_ok ((((r :: rs).map (·.2)).filter (· != n)) ++ ns)
        (put (del d1 n) (toStr k) x) (by
          intro m hm e
          have hmm : IsMarker m ∧ ∃ y, look d m = some y := by
            rcases (hlist m).1 hm with ⟨_, k', x', a, s', b, _⟩ | ⟨b, y, a, _⟩
            · exact ⟨b.isMarker, x', a⟩
            · exact ⟨b.isMarker, y, a⟩
          obtain ⟨hm1, y, hy⟩ := hmm
          have hmk : m ≠ toStr k := fun hx => toStr_not_marker k (hx ▸ hm1)
          rw [hlook, if_neg hmk]
          by_cases hmn' : m = n
          · rw [if_pos hmn']; simp
          · rw [if_neg hmn', hc2 m (marker_ne hm1).1 (marker_ne hm1).2, hy]
            intro hx
            exact (hw m y hy hm1).2 e (Option.some.inj hx))
      refine ⟨n, k, x, d', hx, ?_, ?_, ?_, ?_, ?_⟩
      · intro n' k' x' h'
        have := hbx (k', n') ((hrs k' n').2 ⟨x', h'⟩)
        rw [hb] at this
        exact this
      · simp only [poll, hc1, h1, hb, hren, hr1, finish]
      · rw [hr2, if_neg, hlook, if_pos rfl]
        intro hx'
        rcases (hlist _).1 hx' with ⟨_, k', x', _, s', b, _⟩ | ⟨b, _⟩
        · exact toStr_not_marker k b.isMarker
        · exact toStr_not_marker k b.isMarker
      · intro m hm
        rw [hr2]
        by_cases hml : m ∈ (((r :: rs).map (·.2)).filter (· != n)) ++ ns
        · rw [if_pos hml]
        · rw [if_neg hml, hlook, if_neg (fun hx : m = toStr k => toStr_not_marker k (hx ▸ hm))]
          by_cases hmn' : m = n
          · rw [if_pos hmn']
          · rw [if_neg hmn', hc2 m (marker_ne hm).1 (marker_ne hm).2]
            cases hy : look d m with
            | none => rfl
            | some y =>
              refine absurd ((hlist m).2 ?_) hml
              rcases hmark m hm y hy with a | a
              · exact .inl ⟨hmn', a⟩
              · exact .inr a
      · intro m hm hmk he1 he2
        rw [hr2, if_neg, hlook, if_neg hmk, if_neg (fun hx : m = n => hm (hx ▸ hmn))]
        · exact hc2 m he1 he2
        · intro hx'
          rcases (hlist m).1 hx' with ⟨_, k', x', _, s', b, _⟩ | ⟨b, _⟩
          · exact hm b.isMarker
          · exact hm b.isMarker

/-- **C106** (no checkpoint): if the replicator only says that there is no checkpoint, its markers are removed, no step directory
appears, and no other file changes. -/
theorem C106_no_checkpoint {d : Dir} (hd : (d.map (·.1)).Nodup) (hf : ∀ t, ¬ Failed d t)
    (hw : ∀ n x, look d n = some x → IsMarker n → NoCheckpoint d n)
    {n0 : Name} (h0 : NoCheckpoint d n0) :
    ∃ d', poll d = (.done, d') ∧ (∀ m, IsMarker m → look d' m = none) ∧
      ∀ m, ¬ IsMarker m → m ≠ "replicator.errors".toList → m ≠ "replicator.failed".toList → look d' m = look d m := by
  obtain ⟨rs, ns, h1, h2, h3⟩ := classify_ok (l := markers d) (by
    intro n x hx
    obtain ⟨hx1, hx2⟩ := mem_markers.1 hx
    exact ⟨_, (hw n x (look_of_mem hd hx1) hx2).1⟩)
  have hns : ∀ n, n ∈ ns ↔ NoCheckpoint d n := by
    intro n
    rw [h3]
    constructor
    · rintro ⟨x, a, b, c⟩
      exact ⟨b, x, look_of_mem hd (mem_markers.1 a).1, c⟩
    · rintro ⟨b, x, a, c⟩
      exact ⟨x, mem_markers.2 ⟨mem_of_look a, b.isMarker⟩, b, c⟩
  obtain ⟨d1, hc1, hc2⟩ := check_none hf
  have hrs : rs = [] := by
    cases rs with
    | nil => rfl
    | cons r rs =>
      obtain ⟨k, n⟩ := r
      obtain ⟨x, s, a, b, c, e⟩ := (h2 k n).1 (by simp)
      have hx := look_of_mem hd (mem_markers.1 a).1
      obtain ⟨a1, y, a2, a3⟩ := hw n x hx b.isMarker
      rw [hx] at a2
      cases a2
      exact absurd ⟨b.unique a1, a3⟩ e
  subst hrs
  cases ns with
  | nil => exact absurd ((hns n0).2 h0) (by simp)
  | cons n ns =>
    obtain ⟨d', hr1, hr2⟩ := removeAll_ok (n :: ns) d1 (by
      intro m hm e hx
      obtain ⟨a1, y, a2, a3⟩ := (hns m).1 hm
      obtain ⟨b1, b2⟩ := marker_ne a1.isMarker
      rw [hc2 m b1 b2, a2] at hx
      cases hx
      simp [Node.isFile] at a3)
    refine ⟨d', by simp only [poll, hc1, h1, hr1, finish], ?_, ?_⟩
    · intro m hm
      rw [hr2]
      by_cases hml : m ∈ n :: ns
      · rw [if_pos hml]
      · rw [if_neg hml, hc2 m (marker_ne hm).1 (marker_ne hm).2]
        cases hy : look d m with
        | none => rfl
        | some y => exact absurd ((hns m).2 (hw m y hy hm)) hml
    · intro m hm he1 he2
      rw [hr2, if_neg]
      · exact hc2 m he1 he2
      · intro hx
        exact hm ((hns m).1 hx).1.isMarker

theorem markers_nil {d : Dir} (h : ∀ n x, look d n = some x → ¬ IsMarker n) (hd : (d.map (·.1)).Nodup) : markers d = [] := by
  cases hm : markers d with
  | nil => rfl
  | cons e l =>
    obtain ⟨n, x⟩ := e
    have : (n, x) ∈ markers d := by rw [hm]; simp
    obtain ⟨h1, h2⟩ := mem_markers.1 this
    exact absurd h2 (h n x (look_of_mem hd h1))

/-- **C106** (waiting): without a marker and without a failure the poll goes on waiting and changes no other file. -/
theorem C106_wait {d : Dir} (hd : (d.map (·.1)).Nodup) (hf : ∀ t, ¬ Failed d t)
    (hw : ∀ n x, look d n = some x → ¬ IsMarker n) :
    ∃ d', poll d = (.wait, d') ∧
      ∀ m, m ≠ "replicator.errors".toList → m ≠ "replicator.failed".toList → look d' m = look d m := by
  obtain ⟨d1, hc1, hc2⟩ := check_none hf
  exact ⟨d1, by simp only [poll, hc1, markers_nil hw hd, classify], hc2⟩

/-- **C106** (finding): one file whose name ends in `.restore` and is not a marker makes the poll raise, whatever else is announced;
no marker is taken and none is removed, so every later attempt raises too. -/
theorem C106_foreign_name_fails {d : Dir} (hf : ∀ t, ¬ Failed d t) {n : Name} {x : Node}
    (hl : look d n = some x) (hm : IsMarker n) (hn : ∀ s, ¬ Named n s) :
    ∃ d', poll d = (.raised .valueError, d') ∧
      ∀ m, m ≠ "replicator.errors".toList → m ≠ "replicator.failed".toList → look d' m = look d m := by
  obtain ⟨d1, hc1, hc2⟩ := check_none hf
  refine ⟨d1, ?_, hc2⟩
  simp only [poll, hc1, classify_error (mem_markers.2 ⟨mem_of_look hl, hm⟩) hn]

/-- **C106** (finding): if a directory is in the place of the highest announced step, the poll raises; no marker is taken and none is
removed, so every later attempt raises too. -/
theorem C106_existing_directory_fails {d : Dir} (hd : (d.map (·.1)).Nodup) (hf : ∀ t, ¬ Failed d t)
    (hw : ∀ n x, look d n = some x → IsMarker n → (∃ s, Named n s) ∧ ∀ e, x ≠ .dir e)
    {n0 : Name} {k0 : Nat} {x0 : Node} (h0 : StepMarker d n0 k0 x0) (hmax : ∀ n k x, StepMarker d n k x → k ≤ k0)
    {e : Bool} (ht : look d (toStr k0) = some (.dir e)) :
    ∃ d', poll d = (.raised .osError, d') ∧
      ∀ m, m ≠ "replicator.errors".toList → m ≠ "replicator.failed".toList → look d' m = look d m := by
  obtain ⟨rs, ns, h1, h2, h3⟩ := classify_ok (l := markers d) (by
    intro n x hx
    obtain ⟨hx1, hx2⟩ := mem_markers.1 hx
    exact (hw n x (look_of_mem hd hx1) hx2).1)
  have hrs : ∀ k n, (k, n) ∈ rs ↔ ∃ x, StepMarker d n k x := by
    intro k n
    rw [h2]
    constructor
    · rintro ⟨x, s, a, b, c, e⟩
      exact ⟨x, look_of_mem hd (mem_markers.1 a).1, s, b, c, e⟩
    · rintro ⟨x, a, s, b, c, e⟩
      exact ⟨x, s, mem_markers.2 ⟨mem_of_look a, b.isMarker⟩, b, c, e⟩
  obtain ⟨d1, hc1, hc2⟩ := check_none hf
  refine ⟨d1, ?_, hc2⟩
  cases rs with
  | nil => exact absurd ((hrs k0 n0).2 ⟨x0, h0⟩) (by simp)
  | cons r rs =>
    have hbm := best_mem r rs
    have hbx := best_max r rs _ ((hrs k0 n0).2 ⟨x0, h0⟩)
    cases hb : best r rs with
    | mk k n =>
      rw [hb] at hbm hbx
      obtain ⟨x, hx⟩ := (hrs k n).1 hbm
      have hk : k = k0 := Nat.le_antisymm (hmax n k x hx) hbx
      subst hk
      obtain ⟨hl, s, hs, _, _⟩ := id hx
      obtain ⟨hne1, hne2⟩ := marker_ne hs.isMarker
      have hl1 : look d1 n = some x := by rw [hc2 n hne1 hne2]; exact hl
      have ht1 : look d1 (toStr k) = some (.dir e) := by
        rw [hc2 _ (toStr_ne (c := '.') (by decide) (by decide)) (toStr_ne (c := '.') (by decide) (by decide))]
        exact ht
      have hren : rename d1 n (toStr k) = .error .osError := by
        simp only [rename, hl1, ht1]
        cases x with
        | dir b => exact absurd rfl ((hw n _ hl hs.isMarker).2 b)
        | file t => rfl
        | link t => rfl
      simp only [poll, hc1, h1, hb, hren]

/-- **C106** (finding): the job a marker names is not compared with the job that is starting. A marker that another job left, with a
higher step, is taken, and the marker of the job itself is deleted. -/
theorem C106_other_job_fails {job other s s' n n' w w' : List Char} (hj : job ≠ [] ∧ '\n' ∉ job) (ho : other ≠ [] ∧ '\n' ∉ other)
    (hs : Number s ∧ Number s') (hn : Number n ∧ Number n') (hw : Number w ∧ Number w') (hlt : toInt s < toInt s') :
    ∃ d', poll [(layout job s n w, .link (.dir 1)), (layout other s' n' w', .link (.dir 2))] = (.done, d') ∧
      look d' (toStr (toInt s')) = some (.link (.dir 2)) ∧ look d' (layout job s n w) = none := by
  have hN1 : Named (layout job s n w) s := ⟨job, n, w, hj.1, hj.2, hs.1, hn.1, hw.1, rfl⟩
  have hN2 : Named (layout other s' n' w') s' := ⟨other, n', w', ho.1, ho.2, hs.2, hn.2, hw.2, rfl⟩
  have hne : layout job s n w ≠ layout other s' n' w' := by
    intro h
    have h1 := (layout_inj hs.1 hs.2 hn.1 hn.2 hw.1 hw.2 h).2.1
    rw [h1] at hlt
    omega
  have hlook : ∀ m x, look [(layout job s n w, Node.link (.dir 1)), (layout other s' n' w', .link (.dir 2))] m = some x →
      (m = layout job s n w ∧ x = .link (.dir 1)) ∨ (m = layout other s' n' w' ∧ x = .link (.dir 2)) := by
    intro m x h
    have := mem_of_look h
    simpa [List.mem_cons, Prod.mk.injEq] using this
  have hnd : ([(layout job s n w, Node.link (.dir 1)), (layout other s' n' w', .link (.dir 2))].map (·.1)).Nodup := by
    simpa using hne
  have hl2 := look_of_mem hnd (n := layout other s' n' w') (x := .link (.dir 2)) (by simp)
  have hstep2 : StepMarker [(layout job s n w, Node.link (.dir 1)), (layout other s' n' w', .link (.dir 2))]
      (layout other s' n' w') (toInt s') (.link (.dir 2)) := ⟨hl2, s', hN2, rfl, by simp [Node.isFile]⟩
  obtain ⟨m, k, x, d', h1, h2, h3, h4, h5, _⟩ := C106_restore hnd
    (by
      intro t ht
      rcases hlook _ _ ht.2 with ⟨h, _⟩ | ⟨h, _⟩
      · exact (marker_ne hN1.isMarker).2 h.symm
      · exact (marker_ne hN2.isMarker).2 h.symm)
    (by
      intro m x hx _
      rcases hlook m x hx with ⟨h, h'⟩ | ⟨h, h'⟩
      · subst h; exact ⟨⟨s, hN1⟩, by intro e; rw [h']; simp⟩
      · subst h; exact ⟨⟨s', hN2⟩, by intro e; rw [h']; simp⟩)
    hstep2
    (by
      intro m k x _ e h
      rcases hlook _ _ h with ⟨_, h⟩ | ⟨_, h⟩ <;> cases h)
  have h6 := h2 _ _ _ hstep2
  have h7 : m = layout other s' n' w' ∧ x = .link (.dir 2) := by
    rcases hlook m x h1.1 with ⟨h, _⟩ | h
    · subst h
      obtain ⟨_, s1, a, b, _⟩ := h1
      rw [a.unique hN1] at b
      omega
    · exact h
  obtain ⟨h8, h9⟩ := h7
  subst h8 h9
  obtain ⟨_, s1, a, b, _⟩ := h1
  have hk : k = toInt s' := by rw [← b, a.unique hN2]
  subst hk
  exact ⟨d', h3, h4, h5 _ hN1.isMarker⟩

/-- **C106** (finding): a failure file that is empty, or that cannot be read, is deleted and initialisation goes on. -/
theorem C106_empty_failure_fails {d : Dir} {t : Option (List Char)} (ht : t = none ∨ t = some [])
    (hl : look d "replicator.failed".toList = some (.file t)) (hy : look d yamlName = none) (es : List (Dir → Dir)) :
    ∃ d', waitGone true (id :: es) d = (.ok (), d') ∧ look d' "replicator.failed".toList = none := by
  have hf : ∀ u, ¬ Failed d u := by
    rintro u ⟨h1, h2⟩
    rw [hl] at h2
    simp only [Option.some.injEq, Node.file.injEq] at h2
    rcases ht with ht | ht
    · rw [ht] at h2; cases h2
    · rw [ht] at h2; cases h2; exact h1 rfl
  obtain ⟨d1, hc1, _⟩ := check_none hf
  have he : exists? d yamlName = false := by simp only [exists?, hy]
  refine ⟨d1, by simp only [waitGone, id, he, Bool.false_eq_true, if_false, if_true, hc1], ?_⟩
  have h0 : look (processError d errorsName).2 failedName = some (.file t) :=
    (processError_other d errorsName failedName (by decide)).trans hl
  have h2 : (check d).2 = del (processError d errorsName).2 failedName := by
    simp only [check]
    have h3 : processError (processError d errorsName).2 failedName = (t, del (processError d errorsName).2 failedName) := by
      simp only [processError] at h0 ⊢
      rw [h0]
    rcases ht with ht | ht
    · subst ht; rw [h3]
    · subst ht; rw [h3]
  rw [hc1] at h2
  simp only at h2
  rw [h2]
  exact (look_del _ _ _).trans (if_pos rfl)

/-! ## Waiting -/

/-- The directories that the polls see. -/
def seen : List (Dir → Dir) → Dir → List Dir
  | [], _ => []
  | e :: es, d => e d :: seen es (poll (e d)).2

/-- **C106** (blocking): the call ends with the first poll that does not wait, with its result, and with a timeout exactly when all
polls wait. -/
theorem C106_block (es : List (Dir → Dir)) (d : Dir) :
    ((∀ x ∈ seen es d, (poll x).1 = .wait) ∧ (block es d).1 = .error .timeout) ∨
    ∃ (k : Nat) (x d' : Dir), (seen es d)[k]? = some x ∧ (∀ (j : Nat) y, j < k → (seen es d)[j]? = some y → (poll y).1 = .wait) ∧
      ((poll x = (.done, d') ∧ block es d = (.ok (), d')) ∨
        ∃ e, poll x = (.raised e, d') ∧ block es d = (.error e, d')) := by
  induction es generalizing d with
  | nil => exact .inl ⟨by simp [seen], rfl⟩
  | cons e es ih =>
    simp only [seen, block]
    cases hp : poll (e d) with
    | mk p d1 =>
      cases p with
      | done => exact .inr ⟨0, e d, d1, by simp, fun j y hj => by omega, .inl ⟨hp, rfl⟩⟩
      | raised x => exact .inr ⟨0, e d, d1, by simp, fun j y hj => by omega, .inr ⟨x, hp, rfl⟩⟩
      | wait =>
        simp only
        rcases ih d1 with ⟨h1, h2⟩ | ⟨k, x, d', h1, h2, h3⟩
        · refine .inl ⟨?_, h2⟩
          intro x hx
          rcases List.mem_cons.1 hx with hx | hx
          · rw [hx, hp]
          · exact h1 x hx
        · refine .inr ⟨k + 1, x, d', by simpa using h1, ?_, h3⟩
          intro j y hj hy
          cases j with
          | zero =>
            simp only [List.getElem?_cons_zero, Option.some.injEq] at hy
            rw [← hy, hp]
          | succ j =>
            simp only [List.getElem?_cons_succ] at hy
            exact h2 j y (by omega) hy

/-- The directories that the wait for the request sees. -/
def polled : List (Dir → Dir) → Dir → List Dir
  | [], _ => []
  | e :: es, d => e d :: polled es (e d)

theorem check_exists (d : Dir) : exists? (check d).2 yamlName = exists? d yamlName := by
  simp only [exists?, check_other d yamlName (by decide) (by decide)]

theorem waitGone_ok {c : Bool} {es : List (Dir → Dir)} {d d' : Dir} (h : waitGone c es d = (.ok (), d')) :
    ∃ (k : Nat) (x : Dir), (polled es d)[k]? = some x ∧ exists? x yamlName = false ∧
      (∀ (j : Nat) y, j < k → (polled es d)[j]? = some y → exists? y yamlName = true) ∧
      (c = true → ∀ t, ¬ Failed x t) ∧ exists? d' yamlName = false := by
  induction es generalizing d with
  | nil => simp [waitGone] at h
  | cons e es ih =>
    simp only [waitGone] at h
    cases he : exists? (e d) yamlName with
    | true =>
      rw [he] at h
      simp only [if_true] at h
      obtain ⟨k, x, h1, h2, h3, h4, h5⟩ := ih h
      refine ⟨k + 1, x, by simpa [polled] using h1, h2, ?_, h4, h5⟩
      intro j y hj hy
      cases j with
      | zero => simp only [polled, List.getElem?_cons_zero, Option.some.injEq] at hy; rw [← hy]; exact he
      | succ j => exact h3 j y (by omega) (by simpa [polled] using hy)
    | false =>
      rw [he] at h
      simp only [Bool.false_eq_true, if_false] at h
      refine ⟨0, e d, by simp [polled], he, fun j y hj => by omega, ?_, ?_⟩
      · intro hc t ht
        subst hc
        have h1 := (check_fst (e d) t).2 ht
        cases hcd : check (e d) with
        | mk a d1 =>
          rw [hcd] at h1
          simp only at h1
          subst h1
          simp [hcd] at h
      · cases c with
        | false =>
          simp only [Bool.false_eq_true, if_false, Prod.mk.injEq, true_and] at h
          rw [← h]; exact he
        | true =>
          simp only [if_true] at h
          have h1 := check_exists (e d)
          cases hcd : check (e d) with
          | mk a d1 =>
            rw [hcd] at h1
            cases a with
            | some t => simp [hcd] at h
            | none =>
              simp only [hcd, Prod.mk.injEq, true_and] at h
              rw [← h, h1]; exact he

/-- **C106** (waiting for the request): the wait succeeds at the first poll that does not find the request, if the replicator
reports no failure then, and times out exactly when every poll finds it. -/
theorem C106_request_taken (c : Bool) (es : List (Dir → Dir)) (d : Dir) :
    ((waitGone c es d).1 = .error .timeout ↔ ∀ x ∈ polled es d, exists? x yamlName = true) ∧
    ∀ d', waitGone c es d = (.ok (), d') →
      ∃ (k : Nat) (x : Dir), (polled es d)[k]? = some x ∧ exists? x yamlName = false ∧
        (∀ (j : Nat) y, j < k → (polled es d)[j]? = some y → exists? y yamlName = true) ∧
        (c = true → ∀ t, ¬ Failed x t) ∧ exists? d' yamlName = false := by
  refine ⟨?_, fun d' h => waitGone_ok h⟩
  induction es generalizing d with
  | nil => simp [waitGone, polled]
  | cons e es ih =>
    simp only [waitGone, polled, List.forall_mem_cons]
    cases he : exists? (e d) yamlName with
    | true => simp only [if_true, true_and]; exact ih (e d)
    | false =>
      simp only [Bool.false_eq_true, if_false, false_and, iff_false]
      cases c with
      | false => simp
      | true =>
        simp only [if_true]
        cases check (e d) with
        | mk a d1 => cases a <;> simp

theorem create_ok {d : Dir} (text : List Char) (h : ∀ e, look d yamlName ≠ some (.dir e)) :
    ∃ d', create text d = .ok d' ∧ look d' yamlName = some (.file (some text)) ∧ look d' tempName = none ∧
      ∀ m, m ≠ yamlName → m ≠ tempName → look d' m = look d m := by
  have hne : yamlName ≠ tempName := by decide
  refine ⟨_, rename_ok (x := .file (some text)) ?_ (by simp) ?_, ?_, ?_, ?_⟩
  · rw [look_put, if_pos rfl]
  · intro e; rw [look_put, if_neg hne]; exact h e
  · rw [look_put, if_pos rfl]
  · rw [look_put, if_neg (fun h => hne h.symm), look_del, if_pos rfl]
  · intro m h1 h2; rw [look_put, if_neg h1, look_del, if_neg h2, look_put, if_neg h2]

theorem not_dir_of_not_exists {d : Dir} (h : exists? d yamlName = false) : ∀ e, look d yamlName ≠ some (.dir e) := by
  intro e he
  simp only [exists?, he] at h
  cases h

/-- **C106** (standard path): initialisation succeeds only in this order: a request that was pending is gone; the whole new request is
put in its place at once; it is taken, without a failure; a marker is processed. -/
theorem C106_order {text : List Char} {e1 e2 e3 : List (Dir → Dir)} {d d' : Dir}
    (h : initStandard text e1 e2 e3 d = (.ok (), d')) :
    ∃ d1 d2 d3, waitGone false e1 d = (.ok (), d1) ∧ exists? d1 yamlName = false ∧
      create text d1 = .ok d2 ∧ look d2 yamlName = some (.file (some text)) ∧ look d2 tempName = none ∧
      (∀ m, m ≠ yamlName → m ≠ tempName → look d2 m = look d1 m) ∧
      waitGone true e2 d2 = (.ok (), d3) ∧ exists? d3 yamlName = false ∧ block e3 d3 = (.ok (), d') := by
  simp only [initStandard] at h
  cases h1 : waitGone false e1 d with
  | mk r1 d1 =>
    cases r1 with
    | error e => simp [h1] at h
    | ok u =>
      cases u
      simp only [h1] at h
      obtain ⟨_, _, _, _, _, _, hx1⟩ := waitGone_ok h1
      obtain ⟨d2, hc, hc1, hc2, hc3⟩ := create_ok text (not_dir_of_not_exists hx1)
      simp only [hc] at h
      cases h2 : waitGone true e2 d2 with
      | mk r2 d3 =>
        cases r2 with
        | error e => simp [h2] at h
        | ok u =>
          cases u
          simp only [h2] at h
          obtain ⟨_, _, _, _, _, _, hx2⟩ := waitGone_ok h2
          exact ⟨d1, d2, d3, rfl, hx1, hc, hc1, hc2, hc3, h2, hx2, h⟩

/-- **C106** (worker of a Pathways controller): the same order; a request that was pending is deleted first. -/
theorem C106_colocated_order {text : List Char} {e2 e3 : List (Dir → Dir)} {d d' : Dir}
    (h : initColocated text e2 e3 d = (.ok (), d')) :
    ∃ d2 d3, look d2 yamlName = some (.file (some text)) ∧ look d2 tempName = none ∧
      (∀ m, m ≠ yamlName → m ≠ tempName → look d2 m = look d m) ∧
      waitGone true e2 d2 = (.ok (), d3) ∧ exists? d3 yamlName = false ∧ block e3 d3 = (.ok (), d') := by
  have hdel : look (del d yamlName) yamlName = none := by rw [look_del, if_pos rfl]
  obtain ⟨d2, hc, hc1, hc2, hc3⟩ := create_ok (d := del d yamlName) text (by intro e; rw [hdel]; simp)
  have hrest : ∀ x : Except Err Unit × Dir, x = (match create text (del d yamlName) with
      | .error e => (.error e, del d yamlName)
      | .ok d =>
        match waitGone true e2 d with
        | (.error e, d) => (.error e, d)
        | (.ok (), d) => block e3 d) → x = (.ok (), d') → ∃ d3, waitGone true e2 d2 = (.ok (), d3) ∧ block e3 d3 = (.ok (), d') := by
    intro x hx hx'
    rw [hx'] at hx
    rw [hc] at hx
    cases h2 : waitGone true e2 d2 with
    | mk r2 d3 =>
      cases r2 with
      | error e => simp [h2] at hx
      | ok u =>
        cases u
        simp only [h2] at hx
        exact ⟨d3, rfl, hx.symm⟩
  have hfin : ∃ d3, waitGone true e2 d2 = (.ok (), d3) ∧ block e3 d3 = (.ok (), d') := by
    simp only [initColocated] at h
    cases hl : look d yamlName with
    | none => simp only [hl] at h; exact hrest _ rfl h
    | some x =>
      cases x with
      | dir e => simp [hl] at h
      | file t => simp only [hl] at h; exact hrest _ rfl h
      | link t => simp only [hl] at h; exact hrest _ rfl h
  obtain ⟨d3, h3, h4⟩ := hfin
  obtain ⟨_, _, _, _, _, _, hx2⟩ := waitGone_ok h3
  refine ⟨d2, d3, hc1, hc2, ?_, h3, hx2, h4⟩
  intro m h5 h6
  rw [hc3 m h5 h6, look_del, if_neg h5]

/-- **C106** (decimal numbers): the directory of a step is called by the decimal number of the step, and a marker that has this number
is read as that step. -/
theorem C106_decimal (k : Nat) : toStr k = k.repr.toList ∧ toInt k.repr.toList = k := by
  rw [Nat.toList_repr]
  exact ⟨rfl, Nat.ofDigitChars_toDigits (by omega) (by omega)⟩

/-- **C106** (finding): a failure file left over from before the request is raised as if it were about this request, although the
replicator took the request and touched nothing else. -/
theorem C106_stale_failure_fails {d : Dir} {t : List Char} (hf : Failed d t) (hy : look d yamlName = none) (text : List Char)
    (e1 e2 e3 : List (Dir → Dir)) (take : Dir → Dir) (ht : ∀ d, look (take d) yamlName = none)
    (ht' : ∀ d m, m ≠ yamlName → look (take d) m = look d m) :
    (initStandard text (id :: e1) (take :: e2) e3 d).1 = .error (.fatal t) := by
  have he : exists? d yamlName = false := by simp only [exists?, hy]
  have h1 : waitGone false (id :: e1) d = (.ok (), d) := by
    simp only [waitGone, id, he, Bool.false_eq_true, if_false]
  obtain ⟨d2, hc, _, _, hc3⟩ := create_ok text (not_dir_of_not_exists he)
  have he2 : exists? (take d2) yamlName = false := by simp only [exists?, ht]
  have hf2 : Failed (take d2) t := by
    refine ⟨hf.1, ?_⟩
    rw [ht' _ _ (by decide), hc3 _ (by decide) (by decide)]
    exact hf.2
  have h2 := (check_fst (take d2) t).2 hf2
  simp only [initStandard, h1, hc]
  have h3 : (waitGone true (take :: e2) d2).1 = .error (.fatal t) := by
    simp only [waitGone, he2, Bool.false_eq_true, if_false, if_true]
    cases hcd : check (take d2) with
    | mk a d3 =>
      rw [hcd] at h2
      simp only at h2
      subst h2
      rfl
  cases hw : waitGone true (take :: e2) d2 with
  | mk r d3 =>
    rw [hw] at h3
    simp only at h3
    subst h3
    rfl

/-! ## Settings and the address of the coordinator -/

/-- **C106** (interval): the request has exactly one positive interval, 30 minutes if none is given; anything else is refused. -/
theorem C106_interval (m s : Option Int) (r : Option Int × Option Int) :
    interval m s = .ok r ↔
      (m = none ∧ s = none ∧ r = (some 30, none)) ∨ (∃ k, 0 < k ∧ m = some k ∧ s = none ∧ r = (some k, none)) ∨
      (∃ k, 0 < k ∧ m = none ∧ s = some k ∧ r = (none, some k)) := by
  have e1 : interval none none = .ok (some 30, none) := by rfl
  have e2 : ∀ k, interval none (some k) = if k ≤ 0 then .error .valueError else .ok (none, some k) := by intro k; rfl
  have e3 : ∀ k, interval (some k) none = if k ≤ 0 then .error .valueError else .ok (some k, none) := by intro k; rfl
  have e4 : ∀ k k', interval (some k) (some k') = .error .valueError := by intro k k'; rfl
  constructor
  · intro h
    cases m with
    | none =>
      cases s with
      | none => rw [e1] at h; cases h; exact .inl ⟨rfl, rfl, rfl⟩
      | some k =>
        rw [e2] at h
        by_cases hk : k ≤ 0
        · rw [if_pos hk] at h; cases h
        · rw [if_neg hk] at h; cases h; exact .inr (.inr ⟨k, by omega, rfl, rfl, rfl⟩)
    | some k =>
      cases s with
      | none =>
        rw [e3] at h
        by_cases hk : k ≤ 0
        · rw [if_pos hk] at h; cases h
        · rw [if_neg hk] at h; cases h; exact .inr (.inl ⟨k, by omega, rfl, rfl, rfl⟩)
      | some k' => rw [e4] at h; cases h
  · rintro (⟨rfl, rfl, rfl⟩ | ⟨k, hk, rfl, rfl, rfl⟩ | ⟨k, hk, rfl, rfl, rfl⟩)
    · exact e1
    · rw [e3, if_neg (by omega)]
    · rw [e2, if_neg (by omega)]

theorem splitNl_none {l : List Char} (h : '\n' ∉ l) : splitNl l = (l, []) := by
  induction l with
  | nil => rfl
  | cons c l ih =>
    simp only [List.mem_cons, not_or] at h
    simp only [splitNl, ih h.2]
    rw [if_neg (fun hx => h.1 hx.symm)]

theorem splitNl_append {a : List Char} (h : '\n' ∉ a) (l : List Char) :
    splitNl (a ++ '\n' :: l) = (a, (splitNl l).1 :: (splitNl l).2) := by
  induction a with
  | nil =>
    simp only [List.nil_append, splitNl, if_true]
  | cons c a ih =>
    simp only [List.mem_cons, not_or] at h
    simp only [List.cons_append, splitNl, ih h.2]
    rw [if_neg (fun hx => h.1 hx.symm)]

/-- **C106** (coordinator): the process id and the address are the first two lines of the file, both not empty; other contents are
refused. -/
theorem C106_init_info (a b rest : List Char) (ha : '\n' ∉ a) (hb : '\n' ∉ b) (hr : rest = [] ∨ rest.head? = some '\n') :
    (a ≠ [] → b ≠ [] → initInfo (a ++ '\n' :: (b ++ rest)) = .ok (a, b)) ∧
    (a = [] ∨ b = [] → initInfo (a ++ '\n' :: (b ++ rest)) = .error .valueError) ∧
    initInfo a = .error .valueError := by
  have hsp : ∃ r, splitNl (b ++ rest) = (b, r) := by
    cases rest with
    | nil => rw [List.append_nil, splitNl_none hb]; exact ⟨_, rfl⟩
    | cons c rest =>
      have : c = '\n' := by simpa using hr
      subst this
      exact ⟨_, splitNl_append hb rest⟩
  obtain ⟨r, hsp⟩ := hsp
  refine ⟨?_, ?_, ?_⟩
  · intro h1 h2
    simp only [initInfo, splitNl_append ha, hsp]
    rw [if_neg (by rintro (h | h) <;> contradiction)]
  · intro h
    simp only [initInfo, splitNl_append ha, hsp]
    rw [if_pos h]
  · simp only [initInfo, splitNl_none ha]

/-- **C106** (finding): a file that is being written is read as if it were complete: after any first part of the address, that part is
used as the address. -/
theorem C106_partial_info_fails {a b : List Char} (ha : '\n' ∉ a) (hb : '\n' ∉ b) (ha' : a ≠ []) {k : Nat} (hk : 0 < k)
    (hb' : b ≠ []) : initInfo (a ++ '\n' :: b.take k) = .ok (a, b.take k) := by
  have h1 : '\n' ∉ b.take k := fun h => hb (List.mem_of_mem_take h)
  have h2 : b.take k ≠ [] := by
    intro h
    rcases List.take_eq_nil_iff.1 h with h | h
    · omega
    · exact hb' h
  have := (C106_init_info a (b.take k) [] ha h1 (.inl rfl)).1 ha' h2
  rwa [List.append_nil] at this

/-! ## Non-vacuity -/

/-- Two markers: step 12 is taken, step 7 deleted; no checkpoint; a directory in the place of the step; a foreign name. -/
theorem C106_nonvacuous :
    extract "train-s1-n2-s12-n0-w3.restore".toList = some ['1', '2'] ∧
    extract "train-s12-n0-w3.restore.tmp".toList = none ∧
    initStandard ['y'] [id, fun d => put d "7".toList (.dir false)] [id, fun d => del d yamlName]
      [id, fun d => put (put d "a-s7-n0-w0.restore".toList (.link (.dir 1))) "a-s12-n0-w0.restore".toList (.link (.dir 2))]
      [(errorsName, .file (some ['x']))] =
      (.ok (), [("12".toList, .link (.dir 2))]) ∧
    initStandard ['y'] [id] [fun d => del d yamlName] [fun d => put d "a-s0-n0-w0.restore".toList (.file (some []))]
      [("7".toList, .dir false)] = (.ok (), [("7".toList, .dir false)]) ∧
    (initStandard ['y'] [id] [fun d => del d yamlName] [fun d => put d "a-s7-n0-w0.restore".toList (.link (.dir 1))]
      [("7".toList, .dir false)]).1 = .error .osError ∧
    (initStandard ['y'] [id] [fun d => del d yamlName] [fun d => put d "foo.restore".toList (.file (some []))] []).1 =
      .error .valueError := by
  refine ⟨?_, ?_, ?_, ?_, ?_, ?_⟩ <;> rfl

end Verif.Emergency.Markers
