import Verif.Handlers.JsonSpec

/-!
# C101: a JSON checkpointable is restored as it was saved
-/

namespace Verif.Handlers.JsonProps

open Verif.Handlers.Json Verif.Handlers.Json.Spec

/-! ### Lemmas -/

theorem entry_set (d : Dict) (k : Key) (v : Val) (k' : Key) (w : Val) (h : Entry (d.set k v) k' w) :
    (k' = k ∧ w = v) ∨ (k' ≠ k ∧ Entry d k' w) ∨ (k' = k ∧ ¬ Distinct d) := by
  match d, h with
  | .nil, .head _ _ _ => exact .inl ⟨rfl, rfl⟩
  | .nil, .tail _ _ h => exact nomatch h
  | .cons k0 v0 r, h =>
    simp only [Dict.set] at h
    by_cases hk : k0 = k
    · rw [if_pos hk] at h
      cases h with
      | head => exact .inl ⟨hk, rfl⟩
      | tail _ _ h =>
        by_cases e : k' = k
        · refine .inr (.inr ⟨e, ?_⟩)
          intro hd; cases hd with | cons h1 _ => exact h1 w (by rw [hk, ← e]; exact h)
        · exact .inr (.inl ⟨e, .tail _ _ h⟩)
    · rw [if_neg hk] at h
      cases h with
      | head => exact .inr (.inl ⟨hk, .head _ _ _⟩)
      | tail _ _ h =>
        rcases entry_set r k v k' w h with h | ⟨h1, h2⟩ | ⟨h1, h2⟩
        · exact .inl h
        · exact .inr (.inl ⟨h1, .tail _ _ h2⟩)
        · exact .inr (.inr ⟨h1, fun hd => by cases hd with | cons _ hr => exact h2 hr⟩)

theorem set_entry (d : Dict) (k : Key) (v : Val) : Entry (d.set k v) k v := by
  match d with
  | .nil => exact .head _ _ _
  | .cons k0 v0 r =>
    simp only [Dict.set]
    by_cases hk : k0 = k
    · rw [if_pos hk, hk]; exact .head _ _ _
    · rw [if_neg hk]; exact .tail _ _ (set_entry r k v)

theorem set_keeps (d : Dict) (k : Key) (v : Val) (k' : Key) (w : Val) (h : Entry d k' w) (hne : k' ≠ k) :
    Entry (d.set k v) k' w := by
  match d, h with
  | .cons _ _ r, .head _ _ _ => simp only [Dict.set, if_neg hne]; exact .head _ _ _
  | .cons k0 v0 r, .tail _ _ h =>
    simp only [Dict.set]
    by_cases hk : k0 = k
    · rw [if_pos hk]; exact .tail _ _ h
    · rw [if_neg hk]; exact .tail _ _ (set_keeps r k v k' w h hne)

theorem set_distinct (d : Dict) (k : Key) (v : Val) (h : Distinct d) : Distinct (d.set k v) := by
  match d, h with
  | .nil, _ => exact .cons (fun _ h => nomatch h) .nil
  | .cons k0 v0 r, .cons h1 h2 =>
    simp only [Dict.set]
    by_cases hk : k0 = k
    · rw [if_pos hk]; exact .cons h1 h2
    · rw [if_neg hk]
      refine .cons ?_ (set_distinct r k v h2)
      intro w hw
      rcases entry_set r k v k0 w hw with h | ⟨_, h⟩ | ⟨h, _⟩
      · exact hk h.1
      · exact h1 w h
      · exact hk h

theorem set_native (d : Dict) (s : String) (v : Val) (h : NativeDict d) (hv : Native v) : NativeDict (d.set (.str s) v) := by
  match d, h with
  | .nil, _ => exact .cons s hv .nil
  | .cons _ v0 r, .cons s0 h1 h2 =>
    simp only [Dict.set]
    by_cases hk : Key.str s0 = Key.str s
    · rw [if_pos hk]; exact .cons s0 hv h2
    · rw [if_neg hk]; exact .cons s0 h1 (set_native r s v h2 hv)

mutual
theorem loads_native (j : Doc) : Native (loads j) := by
  match j with
  | .null => exact .none
  | .bool b => exact .bool b
  | .int i => exact .int i
  | .float r => exact .float r
  | .str s => exact .str s
  | .arr xs => simp only [loads]; exact .list (loadsSeq_native xs)
  | .obj o =>
    simp only [loads]
    have h := loadsObj_native o .nil .nil .nil
    exact .dict h.1 h.2
theorem loadsSeq_native (xs : Docs) : NativeSeq (loadsSeq xs) := by
  match xs with
  | .nil => exact .nil
  | .cons j r => simp only [loadsSeq]; exact .cons (loads_native j) (loadsSeq_native r)
theorem loadsObj_native (o : Obj) (acc : Dict) (h1 : Distinct acc) (h2 : NativeDict acc) :
    Distinct (loadsObj o acc) ∧ NativeDict (loadsObj o acc) := by
  match o with
  | .nil => exact ⟨h1, h2⟩
  | .cons s j r =>
    simp only [loadsObj]
    exact loadsObj_native r _ (set_distinct _ _ _ h1) (set_native _ _ _ h2 (loads_native j))
end

/-- One dictionary after another. -/
def app : Dict → Dict → Dict
  | .nil, e => e
  | .cons k v r, e => .cons k v (app r e)

theorem app_nil (d : Dict) : app d .nil = d := by
  match d with
  | .nil => rfl
  | .cons k v r => simp only [app, app_nil r]

theorem app_assoc (d e f : Dict) : app (app d e) f = app d (app e f) := by
  match d with
  | .nil => rfl
  | .cons k v r => simp only [app, app_assoc r]

theorem entry_app (d e : Dict) (k : Key) (w : Val) (h : Entry (app d e) k w) : Entry d k w ∨ Entry e k w := by
  match d, h with
  | .nil, h => exact .inr h
  | .cons _ _ r, .head _ _ _ => exact .inl (.head _ _ _)
  | .cons _ _ r, .tail _ _ h =>
    rcases entry_app r e k w h with h | h
    · exact .inl (.tail _ _ h)
    · exact .inr h

theorem set_fresh (d : Dict) (k : Key) (v : Val) (h : ∀ w, ¬ Entry d k w) : d.set k v = app d (.cons k v .nil) := by
  match d, h with
  | .nil, _ => rfl
  | .cons k0 v0 r, h =>
    have hk : ¬ k0 = k := fun e => h v0 (by rw [← e]; exact .head _ _ _)
    simp only [Dict.set, if_neg hk, app]
    rw [set_fresh r k v fun w hw => h w (.tail _ _ hw)]

mutual
theorem native_same (v : Val) (h : Native v) : ∃ j, dumps v = some j ∧ loads j = v := by
  match v, h with
  | .none, _ => exact ⟨.null, rfl, rfl⟩
  | .bool b, _ => exact ⟨.bool b, rfl, rfl⟩
  | .int i, _ => exact ⟨.int i, rfl, rfl⟩
  | .float r, _ => exact ⟨.float r, rfl, rfl⟩
  | .str s, _ => exact ⟨.str s, rfl, rfl⟩
  | .list xs, .list h =>
    obtain ⟨js, h1, h2⟩ := nativeSeq_same xs h
    exact ⟨.arr js, by simp only [dumps, h1, Option.map], by simp only [loads, h2]⟩
  | .dict d, .dict hd h =>
    obtain ⟨o, h1, h2⟩ := nativeDict_same d hd h
    refine ⟨.obj o, by simp only [dumps, h1, Option.map], ?_⟩
    simp only [loads]
    rw [h2 .nil (fun _ _ _ _ h => nomatch h)]
    rfl
theorem nativeSeq_same (xs : Seq) (h : NativeSeq xs) : ∃ js, dumpsSeq xs = some js ∧ loadsSeq js = xs := by
  match xs, h with
  | .nil, _ => exact ⟨.nil, rfl, rfl⟩
  | .cons v r, .cons hv hr =>
    obtain ⟨j, h1, h2⟩ := native_same v hv
    obtain ⟨js, h3, h4⟩ := nativeSeq_same r hr
    exact ⟨.cons j js, by simp only [dumpsSeq, h1, h3, Option.bind, Option.map], by simp only [loadsSeq, h2, h4]⟩
theorem nativeDict_same (d : Dict) (hd : Distinct d) (h : NativeDict d) :
    ∃ o, dumpsDict d = some o ∧ ∀ acc, (∀ k w w', Entry d k w → ¬ Entry acc k w') → loadsObj o acc = app acc d := by
  match d, hd, h with
  | .nil, _, _ => exact ⟨.nil, rfl, fun acc _ => by simp only [loadsObj, app_nil]⟩
  | .cons (.str s) v r, .cons hd1 hd2, .cons _ hv hr =>
    obtain ⟨j, h1, h2⟩ := native_same v hv
    obtain ⟨o, h3, h4⟩ := nativeDict_same r hd2 hr
    refine ⟨.cons s j o, by simp only [dumpsDict, keyText, h1, h3, Option.bind, Option.map], ?_⟩
    intro acc hacc
    simp only [loadsObj, h2]
    rw [set_fresh acc (.str s) v fun w => hacc (.str s) v w (.head _ _ _)]
    rw [h4]
    · rw [app_assoc]; rfl
    · intro k w w' hk hw'
      rcases entry_app acc _ k w' hw' with h5 | h5
      · exact hacc k w w' (.tail _ _ hk) h5
      · cases h5 with
        | head => exact hd1 w hk
        | tail _ _ h6 => exact nomatch h6
end

theorem named_unique (k : Key) (s : String) : Named k s ↔ keyText k = some s := by
  constructor
  · intro h; cases h <;> rfl
  · intro h
    cases k with
    | str x => simp only [keyText, Option.some.injEq] at h; subst h; exact .str _
    | int i => simp only [keyText, Option.some.injEq] at h; subst h; exact .int i
    | bool b => cases b <;> (simp only [keyText, Option.some.injEq] at h; subst h; constructor)
    | none => simp only [keyText, Option.some.injEq] at h; subst h; exact .none
    | float r => simp only [keyText, Option.some.injEq] at h; subst h; exact .float _
    | other => simp only [keyText] at h; cases h

/-- The last document under a name. -/
def lastDoc (s : String) : Obj → Option Doc
  | .nil => none
  | .cons t j r =>
    match lastDoc s r with
    | some x => some x
    | none => if t = s then some j else none

theorem loadsObj_entry (o : Obj) (acc : Dict) (h1 : Distinct acc) (s : String) (w : Val)
    (h : Entry (loadsObj o acc) (.str s) w) :
    (∃ j, lastDoc s o = some j ∧ w = loads j) ∨ (lastDoc s o = none ∧ Entry acc (.str s) w) := by
  match o with
  | .nil => exact .inr ⟨rfl, h⟩
  | .cons t j r =>
    simp only [loadsObj] at h
    rcases loadsObj_entry r _ (set_distinct _ _ _ h1) s w h with ⟨x, hx, hw⟩ | ⟨hn, he⟩
    · exact .inl ⟨x, by simp only [lastDoc, hx], hw⟩
    · rcases entry_set _ _ _ _ _ he with ⟨e1, e2⟩ | ⟨e1, e2⟩ | ⟨_, e2⟩
      · cases e1
        exact .inl ⟨j, by simp only [lastDoc, hn, if_pos], e2⟩
      · refine .inr ⟨?_, e2⟩
        have : ¬ t = s := fun e => e1 (by rw [e])
        simp only [lastDoc, hn, if_neg this]
      · exact absurd h1 e2

theorem loadsObj_has (o : Obj) (acc : Dict) (s : String) (h : (lastDoc s o).isSome ∨ ∃ w, Entry acc (.str s) w) :
    ∃ w, Entry (loadsObj o acc) (.str s) w := by
  match o with
  | .nil =>
    rcases h with h | h
    · simp [lastDoc] at h
    · exact h
  | .cons t j r =>
    simp only [loadsObj]
    apply loadsObj_has r
    rcases h with h | ⟨w, h⟩
    · simp only [lastDoc] at h
      cases hr : lastDoc s r with
      | some x => exact .inl rfl
      | none =>
        rw [hr] at h
        simp only at h
        by_cases e : t = s
        · subst e; exact .inr ⟨_, set_entry _ _ _⟩
        · rw [if_neg e] at h; cases h
    · by_cases e : s = t
      · subst e; exact .inr ⟨_, set_entry _ _ _⟩
      · exact .inr ⟨w, set_keeps _ _ _ _ _ h (by simpa using e)⟩

theorem lastDoc_none (s : String) (d : Dict) (o : Obj) (h : dumpsDict d = some o) (hn : lastDoc s o = none) :
    ∀ k w, Entry d k w → ¬ Named k s := by
  match d with
  | .nil => intro k w he; exact nomatch he
  | .cons k0 v0 r =>
    cases hk : keyText k0 with
    | none => simp [dumpsDict, hk] at h
    | some t =>
      cases hv : dumps v0 with
      | none => simp [dumpsDict, hk, hv] at h
      | some j =>
        cases hr : dumpsDict r with
        | none => simp [dumpsDict, hk, hv, hr] at h
        | some o' =>
          simp only [dumpsDict, hk, hv, hr, Option.bind, Option.map, Option.some.injEq] at h
          subst h
          cases hl : lastDoc s o' with
          | some x => simp [lastDoc, hl] at hn
          | none =>
            simp only [lastDoc, hl] at hn
            by_cases e : t = s
            · rw [if_pos e] at hn; cases hn
            · intro k w he hname
              cases he with
              | head =>
                rw [named_unique, hk] at hname
                exact e (Option.some.inj hname)
              | tail _ _ he => exact lastDoc_none s r o' hr hl k w he hname

/-- The value under a name, and the document it became. -/
theorem lastDoc_some (s : String) (d : Dict) (o : Obj) (h : dumpsDict d = some o) (j : Doc) (hn : lastDoc s o = some j) :
    ∃ k v, Last d s v ∧ dumps v = some j ∧ Entry d k v := by
  match d with
  | .nil =>
    simp only [dumpsDict, Option.some.injEq] at h
    subst h; simp [lastDoc] at hn
  | .cons k0 v0 r =>
    cases hk : keyText k0 with
    | none => simp [dumpsDict, hk] at h
    | some t =>
      cases hv : dumps v0 with
      | none => simp [dumpsDict, hk, hv] at h
      | some j0 =>
        cases hr : dumpsDict r with
        | none => simp [dumpsDict, hk, hv, hr] at h
        | some o' =>
          simp only [dumpsDict, hk, hv, hr, Option.bind, Option.map, Option.some.injEq] at h
          subst h
          cases hl : lastDoc s o' with
          | some x =>
            simp only [lastDoc, hl, Option.some.injEq] at hn
            subst hn
            obtain ⟨k, v, h1, h2, h3⟩ := lastDoc_some s r o' hr x hl
            exact ⟨k, v, .later _ _ h1, h2, .tail _ _ h3⟩
          | none =>
            simp only [lastDoc, hl] at hn
            by_cases e : t = s
            · rw [if_pos e] at hn
              cases hn
              exact ⟨k0, v0, .here (by rw [named_unique, hk, e]) (lastDoc_none s r o' hr hl), hv, .head _ _ _⟩
            · rw [if_neg e] at hn; cases hn

theorem lastDoc_of_entry (d : Dict) (o : Obj) (h : dumpsDict d = some o) (k : Key) (v : Val) (he : Entry d k v) :
    ∃ s, Named k s ∧ (lastDoc s o).isSome := by
  match d with
  | .nil => exact nomatch he
  | .cons k0 v0 r =>
    cases hk : keyText k0 with
    | none => simp [dumpsDict, hk] at h
    | some t =>
      cases hv : dumps v0 with
      | none => simp [dumpsDict, hk, hv] at h
      | some j0 =>
        cases hr : dumpsDict r with
        | none => simp [dumpsDict, hk, hv, hr] at h
        | some o' =>
          simp only [dumpsDict, hk, hv, hr, Option.bind, Option.map, Option.some.injEq] at h
          subst h
          cases he with
          | head =>
            refine ⟨t, by rw [named_unique, hk], ?_⟩
            cases hl : lastDoc t o' <;> simp [lastDoc, hl]
          | tail _ _ he =>
            obtain ⟨s, h1, h2⟩ := lastDoc_of_entry r o' hr k v he
            refine ⟨s, h1, ?_⟩
            cases hl : lastDoc s o' with
            | some x => simp [lastDoc, hl]
            | none => rw [hl] at h2; cases h2

theorem last_unique (d : Dict) (s : String) (v w : Val) (h1 : Last d s v) (h2 : Last d s w) : v = w := by
  match d, h1, h2 with
  | .cons _ _ _, .here _ _, .here _ _ => rfl
  | .cons _ _ r, .here _ h, .later _ _ h2 => exact absurd h2 (noLast r s w h)
  | .cons _ _ r, .later _ _ h2, .here _ h => exact absurd h2 (noLast r s v h)
  | .cons _ _ r, .later _ _ h1, .later _ _ h2 => exact last_unique r s v w h1 h2
where
  noLast (r : Dict) (s : String) (w : Val) (h : ∀ k' w, Entry r k' w → ¬ Named k' s) : ¬ Last r s w := by
    intro hl
    induction hl with
    | here hn _ => exact h _ _ (.head _ _ _) hn
    | later k' v' _ ih => exact ih fun k w he => h k w (.tail _ _ he)

theorem loadsObj_keys (o : Obj) (k : Key) (w : Val) (h : Entry (loadsObj o .nil) k w) : ∃ s, k = .str s := by
  have : ∀ d k w, NativeDict d → Entry d k w → ∃ s, k = .str s := by
    clear h
    intro d k w hd he
    induction he with
    | head => cases hd with | cons s _ _ => exact ⟨s, rfl⟩
    | tail _ _ _ ih => cases hd with | cons s _ hr => exact ih hr
  exact this _ _ _ (loadsObj_native o .nil .nil .nil).2 h

mutual
theorem reads (v : Val) (j : Doc) (h : dumps v = some j) : Reads v (loads j) := by
  match v with
  | .none => simp only [dumps, Option.some.injEq] at h; subst h; exact .none
  | .bool b => simp only [dumps, Option.some.injEq] at h; subst h; exact .bool b
  | .int i => simp only [dumps, Option.some.injEq] at h; subst h; exact .int i
  | .float r => simp only [dumps, Option.some.injEq] at h; subst h; exact .float r
  | .str s => simp only [dumps, Option.some.injEq] at h; subst h; exact .str s
  | .other => simp [dumps] at h
  | .list xs =>
    cases hx : dumpsSeq xs with
    | none => simp [dumps, hx] at h
    | some js =>
      simp only [dumps, hx, Option.map, Option.some.injEq] at h; subst h
      simp only [loads]; exact .list (readsSeq xs js hx)
  | .tuple xs =>
    cases hx : dumpsSeq xs with
    | none => simp [dumps, hx] at h
    | some js =>
      simp only [dumps, hx, Option.map, Option.some.injEq] at h; subst h
      simp only [loads]; exact .tuple (readsSeq xs js hx)
  | .dict d =>
    cases hx : dumpsDict d with
    | none => simp [dumps, hx] at h
    | some o =>
      simp only [dumps, hx, Option.map, Option.some.injEq] at h; subst h
      simp only [loads]
      have hall := readsDict d
      have hchoice : ∃ f : String → Val, ∀ s j, lastDoc s o = some j → Last d s (f s) ∧ Reads (f s) (loads j) := by
        refine Classical.axiomOfChoice (r := fun s v => ∀ j, lastDoc s o = some j → Last d s v ∧ Reads v (loads j)) ?_
        intro s
        cases hl : lastDoc s o with
        | none => exact ⟨.none, fun j hj => nomatch hj⟩
        | some j =>
          obtain ⟨k, v, h1, h2, h3⟩ := lastDoc_some s d o hx j hl
          exact ⟨v, fun j' hj' => by cases hj'; exact ⟨h1, hall k v h3 j h2⟩⟩
      obtain ⟨f, hf⟩ := hchoice
      refine .dict f (loadsObj_native o .nil .nil .nil).1 ?_ ?_ ?_
      · intro k w he
        obtain ⟨s, rfl⟩ := loadsObj_keys o k w he
        rcases loadsObj_entry o .nil .nil s w he with ⟨j, hj, _⟩ | ⟨_, h⟩
        · exact ⟨s, rfl, (hf s j hj).1⟩
        · exact nomatch h
      · intro s w he
        rcases loadsObj_entry o .nil .nil s w he with ⟨j, hj, hw⟩ | ⟨_, h⟩
        · rw [hw]; exact (hf s j hj).2
        · exact nomatch h
      · intro k v he
        obtain ⟨s, h1, h2⟩ := lastDoc_of_entry d o hx k v he
        obtain ⟨w, hw⟩ := loadsObj_has o .nil s (.inl h2)
        exact ⟨s, w, h1, hw⟩
theorem readsSeq (xs : Seq) (js : Docs) (h : dumpsSeq xs = some js) : ReadsSeq xs (loadsSeq js) := by
  match xs with
  | .nil => simp only [dumpsSeq, Option.some.injEq] at h; subst h; exact .nil
  | .cons v r =>
    cases hv : dumps v with
    | none => simp [dumpsSeq, hv] at h
    | some j =>
      cases hr : dumpsSeq r with
      | none => simp [dumpsSeq, hv, hr] at h
      | some js' =>
        simp only [dumpsSeq, hv, hr, Option.bind, Option.map, Option.some.injEq] at h; subst h
        simp only [loadsSeq]; exact .cons (reads v j hv) (readsSeq r js' hr)
theorem readsDict (d : Dict) : ∀ k v, Entry d k v → ∀ j, dumps v = some j → Reads v (loads j) := by
  match d with
  | .nil => intro k v he; exact nomatch he
  | .cons k0 v0 r =>
    intro k v he
    cases he with
    | head => exact fun j => reads v0 j
    | tail _ _ he => exact readsDict r k v he
end

/-! ### What is read -/

/-- C101: what was saved is what is read, exactly for the values made of `None`, booleans, numbers, strings, lists and
dictionaries with strings as keys. -/
theorem C101_round_trip (v : Val) : (∃ j, dumps v = some j ∧ loads j = v) ↔ Native v := by
  constructor
  · rintro ⟨j, _, h⟩
    rw [← h]; exact loads_native j
  · exact native_same v

/-- C101: for every value that is accepted, what is read is the value with tuples as lists, keys as their names, and
the last of the entries with the same name; and it is accepted again, unchanged. -/
theorem C101_reads (v : Val) (h : isHandleable v = true) :
    ∃ j, dumps v = some j ∧ Reads v (loads j) ∧ Native (loads j) := by
  cases hd : dumps v with
  | none => simp [isHandleable, hd] at h
  | some j => exact ⟨j, rfl, reads v j hd, loads_native j⟩

/-! ### Hosts -/

theorem saveAll_other (name : String) (p : Nat) (l : List (Nat × Val)) (hp : ∀ x ∈ l, x.1 ≠ p) (d : Dir) :
    saveAll name (some p) l d = some d := by
  induction l with
  | nil => rfl
  | cons x r ih =>
    have hx : (p == x.1) = false := by
      have := hp x (List.mem_cons_self ..)
      simp only [beq_eq_false_iff_ne]; exact fun e => this e.symm
    simp only [saveAll, saveFn, isPrimary, hx, Option.bind]
    exact ih fun y hy => hp y (List.mem_cons_of_mem _ hy)

/-- C101: whatever order the hosts write in and whatever the other hosts were given, the file is that of the primary
host and no other file changes. If the primary host's value cannot be written the save fails, otherwise it does not. -/
theorem C101_hosts (name : String) (p : Nat) (v : Val) (l : List (Nat × Val)) (hm : (p, v) ∈ l)
    (hn : (l.map (·.1)).Nodup) (d : Dir) :
    (dumps v = none → saveAll name (some p) l d = none) ∧
    (∀ j, dumps v = some j → ∃ e, saveAll name (some p) l d = some e ∧ e name = some j ∧ ∀ n, n ≠ name → e n = d n) := by
  induction l generalizing d with
  | nil => cases hm
  | cons x r ih =>
    simp only [List.map_cons, List.nodup_cons] at hn
    rcases List.mem_cons.1 hm with e | hr
    · subst e
      have hp : ∀ y ∈ r, y.1 ≠ p := fun y hy e => hn.1 (by rw [← e]; exact List.mem_map_of_mem (f := (·.1)) hy)
      refine ⟨fun h => ?_, fun j h => ⟨d.write name j, ?_, ?_, ?_⟩⟩
      · simp [saveAll, saveFn, isPrimary, h]
      · simp only [saveAll, saveFn, isPrimary, beq_self_eq_true, if_true, h, Option.map, Option.bind]
        exact saveAll_other name p r hp _
      · simp [Dir.write]
      · intro n hn; simp [Dir.write, hn]
    · have hx : (p == x.1) = false := by
        simp only [beq_eq_false_iff_ne]
        intro e; exact hn.1 (by rw [← e]; exact List.mem_map_of_mem (f := (·.1)) hr)
      have := ih hr hn.2 d
      have hs : saveAll name (some p) (x :: r) d = saveAll name (some p) r d := by
        simp [saveAll, saveFn, isPrimary, hx]
      rw [hs]; exact this

/-- C101: without a primary host every host writes, so the file is that of the host that wrote last. -/
theorem C101_every_host (name : String) (h : Nat) (v : Val) (l : List (Nat × Val)) (d e : Dir)
    (hs : saveAll name none (l ++ [(h, v)]) d = some e) : ∃ j, dumps v = some j ∧ e name = some j := by
  induction l generalizing d with
  | nil =>
    cases hd : dumps v with
    | none => simp [saveAll, saveFn, isPrimary, hd] at hs
    | some j =>
      simp only [List.nil_append, saveAll, saveFn, isPrimary, if_true, hd, Option.map, Option.bind, Option.some.injEq] at hs
      subst hs
      exact ⟨j, rfl, by simp [Dir.write]⟩
  | cons x r ih =>
    simp only [List.cons_append, saveAll] at hs
    cases hx : saveFn name none x.1 x.2 d with
    | none => rw [hx] at hs; cases hs
    | some d' => rw [hx] at hs; exact ih d' hs

/-! ### Files -/

/-- C101: the version 0 handler reads the file it wrote, and no other. -/
theorem C101_version0 (filename : Option String) (d : Dir) :
    (∀ j, d (name0 filename) = some j → restore0 filename d = some (loads j)) ∧
    (d (name0 filename) = none → restore0 filename d = none) := by
  constructor
  · intro j h; simp [restore0, h]
  · intro h; simp [restore0, h]

/-- C101: the version 1 handler reads the file it wrote, whatever other files are there; if it is not there it reads
`data.json`, then `metadata`, and it fails only if there is none of the three. -/
theorem C101_version1 (filename : Option String) (d : Dir) :
    (∀ j, d (name1 filename) = some j → load1 filename d = some (loads j)) ∧
    (d (name1 filename) = none → ∀ j, d "data.json" = some j → load1 filename d = some (loads j)) ∧
    (d (name1 filename) = none → d "data.json" = none → ∀ j, d "metadata" = some j →
      load1 filename d = some (loads j)) ∧
    (d (name1 filename) = none → d "data.json" = none → d "metadata" = none → load1 filename d = none) := by
  simp only [load1, names1, name1]
  refine ⟨fun j h => ?_, fun h1 j h => ?_, fun h1 h2 j h => ?_, fun h1 h2 h3 => ?_⟩
  · simp [loadFirst, h]
  · simp [loadFirst, h1, h]
  · simp [loadFirst, h1, h2, h]
  · simp [loadFirst, h1, h2, h3]

/-- C101: a value saved with version 0 under the default name, or under a name given to both, is loaded with version 1. -/
theorem C101_versions (v : Val) (hv : Native v) (d e : Dir) :
    (saveFn (name0 none) (some 0) 0 v (fun _ => none) = some d → load1 none d = some v) ∧
    (∀ s, s ≠ "" → saveFn (name0 (some s)) (some 0) 0 v e = some d → load1 (some s) d = some v) := by
  obtain ⟨j, h1, h2⟩ := native_same v hv
  constructor
  · intro h
    simp only [saveFn, isPrimary, beq_self_eq_true, if_true, h1, Option.map, Option.some.injEq] at h
    subst h
    simp [load1, names1, nameOr, name0, loadFirst, Dir.write, h2]
  · intro s hs h
    simp only [saveFn, isPrimary, beq_self_eq_true, if_true, h1, Option.map, Option.some.injEq] at h
    subst h
    simp [load1, names1, nameOr, name0, hs, loadFirst, Dir.write, h2]

/-! ### In the background -/

theorem run_idle (name : String) (acts : List Act) (s : State) (h : s.pending = false) :
    (run name s acts).dir = s.dir ∧ (run name s acts).failed = s.failed := by
  induction acts generalizing s with
  | nil => exact ⟨rfl, rfl⟩
  | cons a r ih =>
    cases a with
    | mutate v => exact ih { s with obj := v } h
    | background =>
      have : step name s .background = s := by simp [step, h]
      simp only [run, List.foldl_cons, this]
      exact ih s h

/-- C101 (part): if the caller does not change the object before the background thread has written it, what is
restored is what was given, whatever the caller does later; a value that cannot be written fails and changes no file.
Missing: that this holds if the caller changes the object once `save` has returned; it does not, see
`C101_changed_object_fails`. -/
theorem C101_background_partial (name : String) (v : Val) (d : Dir) (later : List Act) :
    (Native v → ((run name (started v d) (.background :: later)).dir name).map loads = some v ∧
      (run name (started v d) (.background :: later)).failed = false) ∧
    (isHandleable v = false → (run name (started v d) (.background :: later)).dir = d ∧
      (run name (started v d) (.background :: later)).failed = true) := by
  constructor
  · intro hv
    obtain ⟨j, h1, h2⟩ := native_same v hv
    have hs : step name (started v d) .background = ⟨v, false, false, d.write name j⟩ := by
      simp [step, started, saveFn, isPrimary, h1]
    simp only [run, List.foldl_cons, hs]
    have := run_idle name later ⟨v, false, false, d.write name j⟩ rfl
    simp only [run] at this
    rw [this.1, this.2]
    simp [Dir.write, h2]
  · intro hv
    have h1 : dumps v = none := by
      cases hd : dumps v with
      | none => rfl
      | some j => simp [isHandleable, hd] at hv
    have hs : step name (started v d) .background = ⟨v, false, true, d⟩ := by
      simp [step, started, saveFn, isPrimary, h1]
    simp only [run, List.foldl_cons, hs]
    have := run_idle name later ⟨v, false, true, d⟩ rfl
    simp only [run] at this
    exact this

/-- C101 (finding): the object is not copied when `save` is called. If the caller changes it after `save` has returned
and before the thread has run, the changed value is what is saved: for any two values. -/
theorem C101_changed_object_fails (name : String) (v w : Val) (hw : Native w) (d : Dir) :
    ((run name (started v d) [.mutate w, .background]).dir name).map loads = some w := by
  obtain ⟨j, h1, h2⟩ := native_same w hw
  simp [run, step, started, saveFn, isPrimary, h1, Dir.write, h2]

/-! ### What is lost -/

/-- C101 (finding): a tuple is accepted and comes back as a list. -/
theorem C101_tuple_fails (xs : Seq) (h : NativeSeq xs) :
    isHandleable (.tuple xs) = true ∧ ∃ j, dumps (.tuple xs) = some j ∧ loads j = .list xs := by
  obtain ⟨js, h1, h2⟩ := nativeSeq_same xs h
  refine ⟨by simp [isHandleable, dumps, h1], .arr js, by simp [dumps, h1], by simp only [loads, h2]⟩

/-- C101 (finding): a dictionary from numbers (a table by step, say) is accepted and comes back with strings as keys. -/
theorem C101_number_keys_fails (i : Int) (v : Val) (h : Native v) :
    isHandleable (.dict (.cons (.int i) v .nil)) = true ∧
    ∃ j, dumps (.dict (.cons (.int i) v .nil)) = some j ∧ loads j = .dict (.cons (.str (toString i)) v .nil) := by
  obtain ⟨j, h1, h2⟩ := native_same v h
  refine ⟨by simp [isHandleable, dumps, dumpsDict, keyText, h1], .obj (.cons (toString i) j .nil), ?_, ?_⟩
  · simp [dumps, dumpsDict, keyText, h1]
  · simp [loads, loadsObj, Dict.set, h2]

/-- C101 (finding): keys that have the same name are accepted, and all values but the last are lost. -/
theorem C101_same_name_fails (i : Int) (v w : Val) (hv : Native v) (hw : Native w) :
    isHandleable (.dict (.cons (.int i) v (.cons (.str (toString i)) w .nil))) = true ∧
    ∃ j, dumps (.dict (.cons (.int i) v (.cons (.str (toString i)) w .nil))) = some j ∧
      loads j = .dict (.cons (.str (toString i)) w .nil) := by
  obtain ⟨j, h1, h2⟩ := native_same v hv
  obtain ⟨k, h3, h4⟩ := native_same w hw
  refine ⟨by simp [isHandleable, dumps, dumpsDict, keyText, h1, h3],
    .obj (.cons (toString i) j (.cons (toString i) k .nil)), ?_, ?_⟩
  · simp [dumps, dumpsDict, keyText, h1, h3]
  · simp [loads, loadsObj, Dict.set, h4]

/-- C101: a nested value meets the hypotheses; another one is accepted and read with its tuple as a list, its numbers
as names and the last of two entries. -/
theorem C101_nonvacuous :
    Native (.dict (.cons (.str "a") (.list (.cons (.int 1) (.cons .none .nil))) (.cons (.str "b") (.dict .nil) .nil))) ∧
    isHandleable (.dict (.cons (.int 7) (.tuple (.cons (.bool true) .nil)) .nil)) = true ∧
    (∃ j, dumps (.dict (.cons (.int 7) (.tuple (.cons (.bool true) .nil)) (.cons .none (.str "x") .nil))) = some j ∧
      loads j = .dict (.cons (.str "7") (.list (.cons (.bool true) .nil)) (.cons (.str "null") (.str "x") .nil))) ∧
    isHandleable (.list (.cons .other .nil)) = false ∧
    ((saveAll "metrics" (some 1) [(0, .int 0), (2, .other), (1, .int 5)] fun _ => none).map fun d => d "metrics") =
      some (some (.int 5)) := by
  refine ⟨?_, by decide, ⟨.obj (.cons "7" (.arr (.cons (.bool true) .nil)) (.cons "null" (.str "x") .nil)), by rfl, ?_⟩,
    by decide, by rfl⟩
  · refine .dict (.cons ?_ (.cons (fun _ h => nomatch h) .nil))
      (.cons "a" (.list (.cons (.int 1) (.cons .none .nil))) (.cons "b" (.dict .nil .nil) .nil))
    intro w h
    have : ∀ d k w, Entry d k w → d = .cons (.str "b") (.dict .nil) .nil → k = .str "b" := by
      intro d k w h e
      cases h with
      | head => cases e; rfl
      | tail _ _ h => cases e; exact nomatch h
    exact absurd (this _ _ _ h rfl) (by decide)
  · simp [loads, loadsSeq, loadsObj, Dict.set]

end Verif.Handlers.JsonProps
