import Verif.Handlers.Pathways

/-!
# Properties of saving and restoring arrays through the Pathways persistence service (C122)
-/

namespace Verif.Handlers.Pathways

/-! ### Specification -/

/-- The element types that a read request can name. -/
def readable : List Elem := [.bf16, .f32, .f64, .s8, .s16, .s32, .s64, .u8, .u16, .u32, .u64]

/-- The service has what was written. -/
def Holds {V : Type} (svc : Service V) (ws : List (Write V)) : Prop :=
  ∀ w ∈ ws, svc.table w.dir w.name = some ⟨w.elem, w.shape, w.data⟩

/-- Reading elements as what they are changes nothing. -/
def CastsSelf {V : Type} (svc : Service V) : Prop := ∀ e v, svc.cast e e v = some v

/-- The elements and shape a file has for an array: keys are stored as words. -/
inductive FileOf (words : Words) {V : Type} (v : Arr V) : List Nat × Elem → Prop
  | raw {e} (h : v.dtype = .raw e) : FileOf words v (v.shape, e)
  | key {i} (h : v.dtype = .key i) : FileOf words v (v.shape ++ words i, .u32)

/-- The argument asks for an array of the type and shape of `v` with sharding `s`, or leaves both to the file. -/
inductive Asks (words : Words) {V : Type} (files : Info → Option (List Nat × Elem)) (info : Info) (v : Arr V)
    (s : Sharding) (a : Arg) : Prop
  | exact (hk : a.isArray = true) (hs : a.sharding = .named s) (hsh : a.shape = some v.shape)
      (hd : a.dtype = some v.dtype)
  | file (hk : a.isArray = true) (hs : a.sharding = .named s) (hsh : a.shape = none) (hd : a.dtype = none)

/-! ### Lemmas about lists -/

theorem mapE_ok {α β : Type} (f : α → Except Err β) : ∀ (l : List α) (r : List β),
    mapE f l = .ok r ↔ l.map f = r.map .ok
  | [], r => by cases r <;> simp [mapE]
  | a :: l, r => by
    simp only [mapE, List.map_cons]
    cases hf : f a with
    | error e => cases r <;> simp
    | ok b =>
      dsimp only
      cases hm : mapE f l with
      | error e =>
        cases r with
        | nil => simp
        | cons c r =>
          simp only [List.map_cons, List.cons.injEq]
          constructor
          · intro h; cases h
          · rintro ⟨_, h⟩
            rw [(mapE_ok f l r).mpr h] at hm
            cases hm
      | ok bs =>
        have ih := (mapE_ok f l bs).mp hm
        cases r with
        | nil => simp
        | cons c r =>
          simp only [List.map_cons, List.cons.injEq, Except.ok.injEq]
          constructor
          · rintro ⟨rfl, rfl⟩; exact ⟨rfl, ih⟩
          · rintro ⟨h1, h2⟩
            have := (mapE_ok f l r).mpr h2
            rw [hm] at this
            cases this
            exact ⟨h1, rfl⟩

theorem mapE_length {α β : Type} {f : α → Except Err β} {l : List α} {r : List β} (h : mapE f l = .ok r) :
    r.length = l.length := by
  have := congrArg List.length ((mapE_ok f l r).mp h)
  simpa using this.symm

theorem mapE_exists {α β : Type} (f : α → Except Err β) : ∀ (l : List α), (∀ a ∈ l, ∃ b, f a = .ok b) →
    ∃ r, mapE f l = .ok r
  | [], _ => ⟨[], rfl⟩
  | a :: l, h => by
    obtain ⟨b, hb⟩ := h a (by simp)
    obtain ⟨r, hr⟩ := mapE_exists f l fun x hx => h x (List.mem_cons_of_mem _ hx)
    exact ⟨b :: r, by simp [mapE, hb, hr]⟩

theorem addTo_mem (g i : Nat) : ∀ (l : List (Nat × List Nat)) (h j : Nat),
    (∃ is, (h, is) ∈ addTo g i l ∧ j ∈ is) ↔ (h = g ∧ j = i) ∨ ∃ is, (h, is) ∈ l ∧ j ∈ is
  | [], h, j => by
    simp only [addTo, List.mem_singleton, Prod.mk.injEq, List.not_mem_nil, false_and, exists_false, or_false]
    constructor
    · rintro ⟨is, ⟨h1, h2⟩, h3⟩
      subst h2
      exact ⟨h1, by simpa using h3⟩
    · rintro ⟨h1, h2⟩
      exact ⟨[i], ⟨h1, rfl⟩, by simp [h2]⟩
  | x :: l, h, j => by
    unfold addTo
    split
    · next hx =>
      constructor
      · rintro ⟨is, hm, hj⟩
        rcases List.mem_cons.mp hm with e | hm
        · injection e with e1 e2
          subst e2
          rcases List.mem_append.mp hj with hj | hj
          · exact .inr ⟨x.2, List.mem_cons.mpr (.inl (by rw [e1])), hj⟩
          · exact .inl ⟨by rw [e1, hx], by simpa using hj⟩
        · exact .inr ⟨is, List.mem_cons_of_mem _ hm, hj⟩
      · rintro (⟨rfl, rfl⟩ | ⟨is, hm, hj⟩)
        · exact ⟨x.2 ++ [j], by simp [hx], by simp⟩
        · rcases List.mem_cons.mp hm with e | hm
          · exact ⟨x.2 ++ [i], by simp [← e], by simp [← e, hj]⟩
          · exact ⟨is, List.mem_cons_of_mem _ hm, hj⟩
    · have ih := addTo_mem g i l h j
      constructor
      · rintro ⟨is, hm, hj⟩
        rcases List.mem_cons.mp hm with e | hm
        · exact .inr ⟨is, List.mem_cons.mpr (.inl e), hj⟩
        · rcases ih.mp ⟨is, hm, hj⟩ with h1 | ⟨is', h1, h2⟩
          · exact .inl h1
          · exact .inr ⟨is', List.mem_cons_of_mem _ h1, h2⟩
      · rintro (h1 | ⟨is, hm, hj⟩)
        · obtain ⟨is, h2, h3⟩ := ih.mpr (.inl h1)
          exact ⟨is, List.mem_cons_of_mem _ h2, h3⟩
        · rcases List.mem_cons.mp hm with e | hm
          · exact ⟨is, List.mem_cons.mpr (.inl e), hj⟩
          · obtain ⟨is', h2, h3⟩ := ih.mpr (.inr ⟨is, hm, hj⟩)
            exact ⟨is', List.mem_cons_of_mem _ h2, h3⟩

theorem addTo_keys (g i : Nat) : ∀ (l : List (Nat × List Nat)),
    (addTo g i l).map Prod.fst = if g ∈ l.map Prod.fst then l.map Prod.fst else l.map Prod.fst ++ [g]
  | [] => by simp [addTo]
  | x :: l => by
    unfold addTo
    split
    · next h => simp [h]
    · next h =>
      have h' : ¬ g = x.1 := fun e => h e.symm
      simp only [List.map_cons, addTo_keys g i l, List.mem_cons, h', false_or]
      split <;> simp

theorem addTo_nonempty (g i : Nat) : ∀ (l : List (Nat × List Nat)), (∀ x ∈ l, x.2 ≠ []) →
    ∀ x ∈ addTo g i l, x.2 ≠ []
  | [], _, x, hx => by
    simp only [addTo, List.mem_singleton] at hx
    simp [hx]
  | y :: l, h, x, hx => by
    unfold addTo at hx
    split at hx
    · rcases List.mem_cons.mp hx with e | hx
      · simp [e]
      · exact h x (List.mem_cons_of_mem _ hx)
    · rcases List.mem_cons.mp hx with e | hx
      · rw [e]; exact h y (by simp)
      · exact addTo_nonempty g i l (fun z hz => h z (List.mem_cons_of_mem _ hz)) x hx

theorem groupsFrom_mem : ∀ (ms : List Nat) (k : Nat) (acc : List (Nat × List Nat)) (h j : Nat),
    (∃ is, (h, is) ∈ groupsFrom ms k acc ∧ j ∈ is) ↔
      (k ≤ j ∧ ms[j - k]? = some h) ∨ ∃ is, (h, is) ∈ acc ∧ j ∈ is
  | [], k, acc, h, j => by simp [groupsFrom]
  | g :: ms, k, acc, h, j => by
    rw [groupsFrom, groupsFrom_mem ms (k + 1), addTo_mem]
    constructor
    · rintro (⟨h1, h2⟩ | (⟨rfl, rfl⟩ | h3))
      · refine .inl ⟨by omega, ?_⟩
        have : j - k = (j - (k + 1)) + 1 := by omega
        rw [this, List.getElem?_cons_succ]
        exact h2
      · exact .inl ⟨Nat.le_refl _, by simp⟩
      · exact .inr h3
    · rintro (⟨h1, h2⟩ | h3)
      · by_cases e : j = k
        · subst e
          simp only [Nat.sub_self, List.getElem?_cons_zero, Option.some.injEq] at h2
          exact .inr (.inl ⟨h2.symm, rfl⟩)
        · refine .inl ⟨by omega, ?_⟩
          have : j - k = (j - (k + 1)) + 1 := by omega
          rw [this, List.getElem?_cons_succ] at h2
          exact h2
      · exact .inr (.inr h3)

theorem groupsFrom_keys : ∀ (ms : List Nat) (k : Nat) (acc : List (Nat × List Nat)),
    (acc.map Prod.fst).Nodup → ((groupsFrom ms k acc).map Prod.fst).Nodup
  | [], _, _, h => h
  | g :: ms, k, acc, h => by
    refine groupsFrom_keys ms (k + 1) _ ?_
    rw [addTo_keys]
    split
    · exact h
    · next hg =>
      rw [List.nodup_append]
      refine ⟨h, by simp, ?_⟩
      intro a ha b hb e
      simp only [List.mem_singleton] at hb
      exact hg (by rw [← hb, ← e]; exact ha)

theorem place_length {A : Type} : ∀ (is : List Nat) (as : List A) (rs : List (Option A)),
    (place is as rs).length = rs.length
  | [], _, _ => by simp [place]
  | _ :: _, [], _ => by simp [place]
  | i :: is, a :: as, rs => by rw [place, place_length is as]; simp

/-- Position `i` has the right array. -/
def Good {A : Type} (one : Nat → Except Err A) (rs : List (Option A)) (i : Nat) : Prop :=
  ∃ a, rs[i]? = some (some a) ∧ one i = .ok a

theorem place_good {A : Type} (one : Nat → Except Err A) : ∀ (is : List Nat) (as : List A) (rs : List (Option A)),
    is.map one = as.map .ok → (∀ i, Good one rs i → Good one (place is as rs) i) ∧
      (∀ i ∈ is, i < rs.length → Good one (place is as rs) i)
  | [], as, rs, _ => by simp [place]
  | i :: is, [], rs, h => by simp at h
  | i :: is, a :: as, rs, h => by
    simp only [List.map_cons, List.cons.injEq] at h
    have ih := place_good one is as (rs.set i (some a)) h.2
    have keep : ∀ j, Good one rs j → Good one (rs.set i (some a)) j := by
      intro j ⟨b, h1, h2⟩
      by_cases e : i = j
      · subst e
        have hlt : i < rs.length := by
          have := (List.getElem?_eq_some_iff.mp h1).1
          exact this
        exact ⟨a, by simp [hlt], h.1⟩
      · exact ⟨b, by rw [List.getElem?_set_ne e]; exact h1, h2⟩
    refine ⟨fun j hj => ih.1 j (keep j hj), fun j hj hlt => ?_⟩
    rcases List.mem_cons.mp hj with e | hj
    · rw [e]
      rw [e] at hlt
      exact ih.1 i ⟨a, by simp [hlt], h.1⟩
    · exact ih.2 j hj (by simpa using hlt)

/-! ### One array -/

/-- Reading one array by itself, after the checks. -/
def one (words : Words) {V : Type} (svc : Service V) (metas : List Entry) (info : Info) (w : Want) :
    Except Err (Arr V) :=
  match request words info w with
  | .error e => .error e
  | .ok r =>
    match serve svc info.dir r with
    | .error e => .error e
    | .ok a => finish words metas info w a

theorem one_ok {words : Words} {V : Type} {svc : Service V} {metas info w} {a : Arr V} :
    one words svc metas info w = .ok a ↔
      ∃ r b, request words info w = .ok r ∧ serve svc info.dir r = .ok b ∧ finish words metas info w b = .ok a := by
  unfold one
  cases h1 : request words info w with
  | error e => simp
  | ok r =>
    cases h2 : serve svc info.dir r with
    | error e => simp [h2]
    | ok b => simp [h2]

theorem stages {words : Words} {V : Type} {svc : Service V} {metas : List Entry} {infos : Nat → Info}
    {wants : Nat → Want} {dir : String} : ∀ (idxs : List Nat), (∀ i ∈ idxs, (infos i).dir = dir) →
    ∀ arrs : List (Arr V),
    ((∃ reqs bs, mapE (fun i => request words (infos i) (wants i)) idxs = .ok reqs ∧ mapE (serve svc dir) reqs = .ok bs ∧
        mapE (fun x => finish words metas (infos x.1) (wants x.1) x.2) (idxs.zip bs) = .ok arrs) ↔
      idxs.map (fun i => one words svc metas (infos i) (wants i)) = arrs.map .ok)
  | [], _, arrs => by
    constructor
    · rintro ⟨reqs, bs, h1, h2, h3⟩
      simp [mapE] at h3
      simp [← h3]
    · intro h
      cases arrs with
      | nil => exact ⟨[], [], rfl, rfl, rfl⟩
      | cons a l => simp at h
  | i :: is, hd, arrs => by
    have ih := stages (words := words) (svc := svc) (metas := metas) (wants := wants) (dir := dir) is
      fun j hj => hd j (List.mem_cons_of_mem _ hj)
    have hdi := hd i (by simp)
    constructor
    · rintro ⟨reqs, bs, h1, h2, h3⟩
      have h1 := (mapE_ok _ _ _).mp h1
      cases reqs with
      | nil => simp at h1
      | cons r reqs =>
        have h2 := (mapE_ok _ _ _).mp h2
        cases bs with
        | nil => simp at h2
        | cons b bs =>
          have h3 := (mapE_ok _ _ _).mp h3
          cases arrs with
          | nil => simp at h3
          | cons a arrs =>
            simp only [List.map_cons, List.cons.injEq, List.zip_cons_cons] at h1 h2 h3 ⊢
            refine ⟨one_ok.mpr ⟨r, b, h1.1, by rw [hdi]; exact h2.1, h3.1⟩, (ih arrs).mp
              ⟨reqs, bs, (mapE_ok _ _ _).mpr h1.2, (mapE_ok _ _ _).mpr h2.2, (mapE_ok _ _ _).mpr h3.2⟩⟩
    · intro h
      cases arrs with
      | nil => simp at h
      | cons a arrs =>
        simp only [List.map_cons, List.cons.injEq] at h
        obtain ⟨r, b, h1, h2, h3⟩ := one_ok.mp h.1
        obtain ⟨reqs, bs, g1, g2, g3⟩ := (ih arrs).mpr h.2
        refine ⟨r :: reqs, b :: bs, (mapE_ok _ _ _).mpr ?_, (mapE_ok _ _ _).mpr ?_, (mapE_ok _ _ _).mpr ?_⟩
        · simp [h1, (mapE_ok _ _ _).mp g1]
        · rw [hdi] at h2
          simp [h2, (mapE_ok _ _ _).mp g2]
        · simp [h3, (mapE_ok _ _ _).mp g3]

theorem readGroup_ok {words : Words} {V : Type} {svc : Service V} {metas : List Entry} {infos : Nat → Info}
    {wants : Nat → Want} {dir : String} (idxs : List Nat) (hd : ∀ i ∈ idxs, (infos i).dir = dir)
    (arrs : List (Arr V)) : readGroup words svc metas infos wants idxs = .ok arrs ↔
      idxs.map (fun i => one words svc metas (infos i) (wants i)) = arrs.map .ok := by
  rw [← stages (dir := dir) idxs hd arrs]
  cases idxs with
  | nil =>
    constructor
    · intro h
      simp only [readGroup, Except.ok.injEq] at h
      subst h
      exact ⟨[], [], rfl, rfl, rfl⟩
    · rintro ⟨_, _, h1, h2, h3⟩
      simpa [mapE, readGroup] using h3
  | cons i is =>
    have hdi : (infos i).dir = dir := hd i (by simp)
    simp only [readGroup, hdi]
    cases h1 : mapE (fun i => request words (infos i) (wants i)) (i :: is) with
    | error e => simp
    | ok reqs =>
      dsimp only
      cases h2 : mapE (serve svc dir) reqs with
      | error e => simp [h2]
      | ok bs => simp [h2]

theorem runGroups_good {words : Words} {V : Type} {svc : Service V} {metas : List Entry} {infos : Nat → Info}
    {wants : Nat → Want} {dir : String} : ∀ (gs : List (Nat × List Nat)) (rs out : List (Option (Arr V))),
    (∀ g ∈ gs, ∀ i ∈ g.2, (infos i).dir = dir) → runGroups words svc metas infos wants gs rs = .ok out →
    out.length = rs.length ∧
    (∀ i, Good (fun i => one words svc metas (infos i) (wants i)) rs i →
      Good (fun i => one words svc metas (infos i) (wants i)) out i) ∧
    (∀ g ∈ gs, ∀ i ∈ g.2, i < rs.length → Good (fun i => one words svc metas (infos i) (wants i)) out i)
  | [], rs, out, _, h => by
    simp only [runGroups, Except.ok.injEq] at h
    subst h
    exact ⟨rfl, fun _ h => h, fun g hg => by simp at hg⟩
  | g :: gs, rs, out, hd, h => by
    unfold runGroups at h
    cases hg : readGroup words svc metas infos wants g.2 with
    | error e => simp [hg] at h
    | ok arrs =>
      simp only [hg] at h
      have hp := place_good (fun i => one words svc metas (infos i) (wants i)) g.2 arrs rs
        ((readGroup_ok g.2 (hd g (by simp)) arrs).mp hg)
      have ih := runGroups_good gs _ out (fun x hx => hd x (List.mem_cons_of_mem _ hx)) h
      rw [place_length] at ih
      refine ⟨ih.1, fun i hi => ih.2.1 i (hp.1 i hi), fun x hx i hi hlt => ?_⟩
      rcases List.mem_cons.mp hx with e | hx
      · rw [e] at hi
        exact ih.2.1 i (hp.2 i hi hlt)
      · exact ih.2.2 x hx i hi hlt

theorem runGroups_exists {words : Words} {V : Type} {svc : Service V} {metas : List Entry} {infos : Nat → Info}
    {wants : Nat → Want} {dir : String} : ∀ (gs : List (Nat × List Nat)) (rs : List (Option (Arr V))),
    (∀ g ∈ gs, ∀ i ∈ g.2, (infos i).dir = dir) →
    (∀ g ∈ gs, ∀ i ∈ g.2, ∃ a, one words svc metas (infos i) (wants i) = .ok a) →
    ∃ out, runGroups words svc metas infos wants gs rs = .ok out
  | [], rs, _, _ => ⟨rs, rfl⟩
  | g :: gs, rs, hd, h => by
    obtain ⟨arrs, ha⟩ := mapE_exists (fun i => one words svc metas (infos i) (wants i)) g.2 (h g (by simp))
    have hg := (readGroup_ok g.2 (hd g (by simp)) arrs).mpr ((mapE_ok _ _ _).mp ha)
    obtain ⟨out, ho⟩ := runGroups_exists gs (place g.2 arrs rs) (fun x hx => hd x (List.mem_cons_of_mem _ hx))
      fun x hx => h x (List.mem_cons_of_mem _ hx)
    exact ⟨out, by simp only [runGroups, hg, ho]⟩

theorem fillAll_ok : ∀ (as : List Arg) (ss : List Sharding) (ms : List (Option (List Nat × Elem))) (ws : List Want),
    as.length = ss.length → as.length = ms.length →
    (fillAll as ss ms = .ok ws ↔ ws.length = as.length ∧
      ∀ (i : Nat) a s m w, as[i]? = some a → ss[i]? = some s → ms[i]? = some m → ws[i]? = some w → fill a s m = .ok w)
  | [], ss, ms, ws, h1, h2 => by
    simp only [fillAll, Except.ok.injEq, List.length_nil, List.getElem?_nil, reduceCtorEq, false_implies,
      implies_true, and_true]
    constructor
    · rintro rfl; rfl
    · intro h; exact (List.eq_nil_of_length_eq_zero h).symm
  | a :: as, s :: ss, m :: ms, ws, h1, h2 => by
    simp only [fillAll]
    have ih := fun ws => fillAll_ok as ss ms ws (by simpa using h1) (by simpa using h2)
    cases hf : fill a s m with
    | error e =>
      constructor
      · intro h; cases h
      · rintro ⟨h3, h4⟩
        cases ws with
        | nil => simp at h3
        | cons w ws =>
          have := h4 0 a s m w rfl rfl rfl rfl
          rw [hf] at this; cases this
    | ok w =>
      dsimp only
      constructor
      · intro h
        cases hr : fillAll as ss ms with
        | error e => simp [hr] at h
        | ok ws' =>
          simp only [hr, Except.ok.injEq] at h
          subst h
          have := (ih ws').mp hr
          refine ⟨by simp [this.1], ?_⟩
          intro i a' s' m' w' g1 g2 g3 g4
          cases i with
          | zero =>
            simp only [List.getElem?_cons_zero, Option.some.injEq] at g1 g2 g3 g4
            subst g1 g2 g3 g4
            exact hf
          | succ i =>
            simp only [List.getElem?_cons_succ] at g1 g2 g3 g4
            exact this.2 i _ _ _ _ g1 g2 g3 g4
      · rintro ⟨h3, h4⟩
        cases ws with
        | nil => simp at h3
        | cons w' ws =>
          have e := h4 0 a s m w' rfl rfl rfl rfl
          rw [hf] at e
          cases e
          have := (ih ws).mpr ⟨by simpa using h3, fun i a' s' m' w' g1 g2 g3 g4 =>
            h4 (i + 1) a' s' m' w' (by simpa using g1) (by simpa using g2) (by simpa using g3) (by simpa using g4)⟩
          simp [this]
  | _ :: _, [], _, _, h1, _ => by simp at h1
  | _ :: _, _ :: _, [], _, _, h2 => by simp at h2

/-- What `deserialize` gives, array by array. -/
theorem deserialize_ok {words : Words} {V : Type} {svc : Service V} {files : Info → Option (List Nat × Elem)}
    {metas : List Entry} {infos : List Info} {args : List Arg} {dir : String} (hne : infos ≠ [])
    (hl : args.length = infos.length) (hd : ∀ i ∈ infos, i.dir = dir) (hf : ∀ i ∈ infos, (files i).isSome)
    (out : List (Option (Arr V))) :
    deserialize words svc files metas infos (some args) = .ok out ↔
      out.length = infos.length ∧ ∀ (i : Nat) info arg, infos[i]? = some info → args[i]? = some arg →
        ∃ s w a, shardingOf arg = .ok s ∧ fill arg s (files info) = .ok w ∧
          one words svc metas info w = .ok a ∧ out[i]? = some (some a) := by
  have hlen : checkLengths infos.length args.length = .ok () := by
    have : infos.length ≠ 0 := fun h => hne (List.eq_nil_of_length_eq_zero h)
    simp [checkLengths, this, hl]
  have hany : (infos.any fun i => (files i).isNone) = false := by
    rw [List.any_eq_false]
    intro i hi
    have := hf i hi
    cases h : files i <;> simp_all
  simp only [deserialize, hlen, hany, Bool.and_false, Bool.false_eq_true, if_false]
  -- the common part, once shardings and wants are known
  have core : ∀ ws : List Want, ws.length = infos.length →
      (runGroups words svc metas (fun i => infos.getD i ⟨"", ""⟩) (fun i => ws.getD i ⟨⟨0, []⟩, [], .raw .f32⟩)
        (groups (ws.map fun w => w.sharding.mesh)) (List.replicate infos.length none) = .ok out ↔
      out.length = infos.length ∧ ∀ (i : Nat) info w, infos[i]? = some info → ws[i]? = some w →
        ∃ a, one words svc metas info w = .ok a ∧ out[i]? = some (some a)) := by
    intro ws hw
    have hmem : ∀ i, (∃ g ∈ groups (ws.map fun w => w.sharding.mesh), i ∈ g.2) ↔ i < infos.length := by
      intro i
      constructor
      · rintro ⟨g, hg, hi⟩
        have := (groupsFrom_mem (ws.map fun (w : Want) => w.sharding.mesh) 0 [] g.1 i).mp ⟨g.2, hg, hi⟩
        simp only [Nat.zero_le, Nat.sub_zero, true_and, List.not_mem_nil, false_and, exists_false, or_false] at this
        have := (List.getElem?_eq_some_iff.mp this).1
        simpa [hw] using this
      · intro hi
        have hi' : i < ws.length := by omega
        obtain ⟨is, h1, h2⟩ := (groupsFrom_mem (ws.map fun w => w.sharding.mesh) 0 [] (ws[i].sharding.mesh) i).mpr
          (.inl ⟨Nat.zero_le _, by simp [hi']⟩)
        exact ⟨_, h1, h2⟩
    have hdir : ∀ g ∈ groups (ws.map fun w => w.sharding.mesh), ∀ i ∈ g.2,
        ((fun i => infos.getD i ⟨"", ""⟩) i).dir = dir := by
      intro g hg i hi
      have := (hmem i).mp ⟨g, hg, hi⟩
      have hget : infos.getD i ⟨"", ""⟩ = infos[i] := by simp [List.getD, this]
      dsimp only
      rw [hget]
      exact hd _ (List.getElem_mem _)
    have hgood : ∀ o : List (Option (Arr V)), (∀ i, i < infos.length → Good (fun i => one words svc metas
        (infos.getD i ⟨"", ""⟩) (ws.getD i ⟨⟨0, []⟩, [], .raw .f32⟩)) o i) ↔
        ∀ (i : Nat) info w, infos[i]? = some info → ws[i]? = some w →
          ∃ a, one words svc metas info w = .ok a ∧ o[i]? = some (some a) := by
      intro o
      constructor
      · intro h i info w h1 h2
        have hi := (List.getElem?_eq_some_iff.mp h1).1
        obtain ⟨a, g1, g2⟩ := h i hi
        simp only [List.getD, h1, h2, Option.getD_some] at g2
        exact ⟨a, g2, g1⟩
      · intro h i hi
        have hi' : i < ws.length := by omega
        obtain ⟨a, g1, g2⟩ := h i infos[i] ws[i] (by simp [hi]) (by simp [hi'])
        exact ⟨a, g2, by simp only [List.getD, List.getElem?_eq_getElem hi, List.getElem?_eq_getElem hi',
          Option.getD_some]; exact g1⟩
    constructor
    · intro h
      have := runGroups_good _ _ _ hdir h
      refine ⟨by simpa using this.1, (hgood out).mp fun i hi => ?_⟩
      obtain ⟨g, hg, hgi⟩ := (hmem i).mpr hi
      exact this.2.2 g hg i hgi (by simpa using hi)
    · rintro ⟨h1, h2⟩
      have h2' := (hgood out).mpr h2
      obtain ⟨o, ho⟩ := runGroups_exists (words := words) (svc := svc) (metas := metas)
        (groups (ws.map fun w => w.sharding.mesh)) (List.replicate infos.length none) hdir (by
          intro g hg i hi
          obtain ⟨a, _, ha⟩ := h2' i ((hmem i).mp ⟨g, hg, hi⟩)
          exact ⟨a, ha⟩)
      have := runGroups_good _ _ _ hdir ho
      have e : o = out := by
        apply List.ext_getElem?
        intro i
        by_cases hi : i < infos.length
        · obtain ⟨g, hg, hgi⟩ := (hmem i).mpr hi
          obtain ⟨a, g1, g2⟩ := this.2.2 g hg i hgi (by simpa using hi)
          obtain ⟨b, g3, g4⟩ := h2' i hi
          dsimp only at g2 g4
          rw [g2] at g4
          cases g4
          rw [g1, g3]
        · rw [List.getElem?_eq_none (by have := this.1; simp at this; omega), List.getElem?_eq_none (by omega)]
      rw [ho, e]
  constructor
  · intro h
    cases hs : mapE shardingOf args with
    | error e => simp [hs] at h
    | ok ss =>
      simp only [hs] at h
      cases hw : fillAll args ss (infos.map files) with
      | error e => simp [hw] at h
      | ok ws =>
        simp only [hw] at h
        have hsl := mapE_length hs
        have hfa := (fillAll_ok args ss (infos.map files) ws hsl.symm (by simpa using hl)).mp hw
        have hc := (core ws (by omega)).mp h
        refine ⟨hc.1, fun i info arg h1 h2 => ?_⟩
        have hi := (List.getElem?_eq_some_iff.mp h1).1
        have hi1 : i < ss.length := by omega
        have hi2 : i < ws.length := by omega
        have hso : shardingOf arg = .ok ss[i] := by
          have := congrArg (fun l => l[i]?) ((mapE_ok _ _ _).mp hs)
          simpa [h2, hi1] using this
        obtain ⟨a, g1, g2⟩ := hc.2 i info ws[i] h1 (by simp [hi2])
        exact ⟨ss[i], ws[i], a, hso, hfa.2 i arg ss[i] (files info) ws[i] h2 (by simp [hi1]) (by simp [h1])
          (by simp [hi2]), g1, g2⟩
  · rintro ⟨h1, h2⟩
    have hex : ∀ arg ∈ args, ∃ s, shardingOf arg = .ok s := by
      intro arg harg
      obtain ⟨i, hi, e⟩ := List.mem_iff_getElem.mp harg
      obtain ⟨s, w, a, h, _⟩ := h2 i infos[i] arg (by simp) (by simp [← e])
      exact ⟨s, h⟩
    obtain ⟨ss, hs⟩ := mapE_exists shardingOf args hex
    have hsl := mapE_length hs
    have hss : ∀ (i : Nat) arg s, args[i]? = some arg → shardingOf arg = .ok s → ss[i]? = some s := by
      intro i arg s g1 g2
      have hi := (List.getElem?_eq_some_iff.mp g1).1
      have hi1 : i < ss.length := by omega
      have := congrArg (fun l => l[i]?) ((mapE_ok _ _ _).mp hs)
      simp only [List.getElem?_map, g1, Option.map_some, List.getElem?_eq_getElem hi1, g2, Option.some.injEq,
        Except.ok.injEq] at this
      rw [List.getElem?_eq_getElem hi1, this]
    have hwex : ∃ ws, fillAll args ss (infos.map files) = .ok ws := by
      have aux : ∀ (as : List Arg) (ss : List Sharding) (ms : List (Option (List Nat × Elem))),
          (∀ (i : Nat) a s m, as[i]? = some a → ss[i]? = some s → ms[i]? = some m → ∃ w, fill a s m = .ok w) →
          ∃ ws, fillAll as ss ms = .ok ws := by
        intro as
        induction as with
        | nil => intro ss ms _; exact ⟨[], by simp [fillAll]⟩
        | cons a as ih =>
          intro ss ms h
          cases ss with
          | nil => exact ⟨[], by simp [fillAll]⟩
          | cons s ss =>
            cases ms with
            | nil => exact ⟨[], by simp [fillAll]⟩
            | cons m ms =>
              obtain ⟨w, hw⟩ := h 0 a s m rfl rfl rfl
              obtain ⟨ws, hws⟩ := ih ss ms fun i a' s' m' g1 g2 g3 =>
                h (i + 1) a' s' m' (by simpa using g1) (by simpa using g2) (by simpa using g3)
              exact ⟨w :: ws, by simp [fillAll, hw, hws]⟩
      refine aux _ _ _ ?_
      intro i arg s m g1 g2 g3
      have hi : i < infos.length := by
        have := (List.getElem?_eq_some_iff.mp g1).1; omega
      obtain ⟨s', w, a, k1, k2, _⟩ := h2 i infos[i] arg (by simp [hi]) g1
      have e := hss i arg s' g1 k1
      rw [g2] at e
      cases e
      simp only [List.getElem?_map, List.getElem?_eq_getElem hi, Option.map_some, Option.some.injEq] at g3
      subst g3
      exact ⟨w, k2⟩
    obtain ⟨ws, hw⟩ := hwex
    simp only [hs, hw]
    have hfa := (fillAll_ok args ss (infos.map files) ws hsl.symm (by simpa using hl)).mp hw
    refine (core ws (by omega)).mpr ⟨h1, fun i info w g1 g2 => ?_⟩
    have hi := (List.getElem?_eq_some_iff.mp g1).1
    have hi1 : i < args.length := by omega
    obtain ⟨s, w', a, k1, k2, k3, k4⟩ := h2 i info args[i] g1 (by simp [hi1])
    have e := hfa.2 i args[i] s (files info) w (by simp [hi1]) (hss i args[i] s (by simp [hi1]) k1) (by simp [g1]) g2
    rw [k2] at e
    cases e
    exact ⟨a, k3, k4⟩

/-! ### Theorems -/

/-- C122: restoring many arrays of a checkpoint at once gives exactly what restoring each by itself gives, in the
order in which they were asked for, whatever their meshes: it succeeds if and only if each of them does. -/
theorem C122_each {V : Type} (words : Words) (svc : Service V) (files : Info → Option (List Nat × Elem))
    (metas : List Entry) (infos : List Info) (args : List Arg) (dir : String) (hne : infos ≠ [])
    (hl : args.length = infos.length) (hd : ∀ i ∈ infos, i.dir = dir) (hf : ∀ i ∈ infos, (files i).isSome)
    (out : List (Option (Arr V))) :
    deserialize words svc files metas infos (some args) = .ok out ↔
      out.length = infos.length ∧ ∀ (i : Nat) info arg, infos[i]? = some info → args[i]? = some arg →
        ∃ a, out[i]? = some (some a) ∧ deserialize words svc files metas [info] (some [arg]) = .ok [some a] := by
  rw [deserialize_ok hne hl hd hf]
  refine and_congr_right fun _ => ?_
  have single : ∀ info ∈ infos, ∀ arg (a : Arr V),
      deserialize words svc files metas [info] (some [arg]) = .ok [some a] ↔
        ∃ s w, shardingOf arg = .ok s ∧ fill arg s (files info) = .ok w ∧ one words svc metas info w = .ok a := by
    intro info hi arg a
    rw [deserialize_ok (dir := info.dir) (by simp) rfl (by simp) (by simpa using hf info hi)]
    constructor
    · rintro ⟨_, h⟩
      obtain ⟨s, w, a', h1, h2, h3, h4⟩ := h 0 info arg rfl rfl
      simp only [List.getElem?_cons_zero, Option.some.injEq] at h4
      exact ⟨s, w, h1, h2, by rw [h4]; exact h3⟩
    · rintro ⟨s, w, h1, h2, h3⟩
      refine ⟨rfl, fun i info' arg' g1 g2 => ?_⟩
      cases i with
      | succ i => simp at g1
      | zero =>
        simp only [List.getElem?_cons_zero, Option.some.injEq] at g1 g2
        subst g1 g2
        exact ⟨s, w, a, h1, h2, h3, rfl⟩
  constructor
  · intro h i info arg h1 h2
    obtain ⟨s, w, a, g1, g2, g3, g4⟩ := h i info arg h1 h2
    exact ⟨a, g4, (single info (List.mem_of_getElem? h1) arg a).mpr ⟨s, w, g1, g2, g3⟩⟩
  · intro h i info arg h1 h2
    obtain ⟨a, g1, g2⟩ := h i info arg h1 h2
    obtain ⟨s, w, k1, k2, k3⟩ := (single info (List.mem_of_getElem? h1) arg a).mp g2
    exact ⟨s, w, a, k1, k2, k3, g1⟩

/-- C122: one request is made for every mesh that occurs, and it has exactly the arrays on that mesh. -/
theorem C122_one_request_per_mesh (meshes : List Nat) :
    ((groups meshes).map Prod.fst).Nodup ∧
    ∀ g i, (∃ is, (g, is) ∈ groups meshes ∧ i ∈ is) ↔ meshes[i]? = some g := by
  refine ⟨groupsFrom_keys meshes 0 [] (by simp), fun g i => ?_⟩
  have := groupsFrom_mem meshes 0 [] g i
  simpa [groups] using this

/-- C122: exactly these types can be read. -/
theorem C122_types (words : Words) (info : Info) (s : Sharding) (shape : List Nat) (e : Elem) :
    (∃ r, request words info ⟨s, shape, .raw e⟩ = .ok r) ↔ e ∈ readable := by
  cases e <;> simp [request, xlaType, readable]

theorem launch_true {V : Type} {bad : Write V → Bool} : ∀ (l : List (Write V)), (launch bad l).2 = true →
    (launch bad l).1 = l
  | [], _ => rfl
  | w :: l, h => by
    unfold launch at h ⊢
    split at h
    · simp at h
    · next hb => rw [if_neg hb]; simp [launch_true l h]

/-- C122: a save that is accepted starts one write for every array, under its own name and directory, with its own
content; keys are written as their words, and the metadata has one entry for every array with its
implementation. -/
theorem C122_written {V : Type} (words : Words) (store : Bool) (bad : Write V → Bool) (vals : List (Arr V))
    (infos : List Info) (args : Option (List (Option DType))) (m : Option (String × List Entry))
    (ws : List (Write V)) (h : (serialize words store bad vals infos args).out = .ok (m, ws)) :
    vals ≠ [] ∧ vals.length = infos.length ∧ ws.length = vals.length ∧
    (serialize words store bad vals infos args).running = ws ∧
    (∀ (i : Nat) v info w, vals[i]? = some v → infos[i]? = some info → ws[i]? = some w →
      w.dir = info.dir ∧ w.name = info.name ∧ w.data = v.data ∧ FileOf words v (w.shape, w.elem)) ∧
    (store = true → ∃ d es, m = some (d, es) ∧ es.length = vals.length ∧ (∀ i ∈ infos.head?, d = i.dir) ∧
      ∀ (i : Nat) v info e, vals[i]? = some v → infos[i]? = some info → es[i]? = some e →
        e.name = info.name ∧ (∀ k, e.impl = some k ↔ v.dtype = .key k)) ∧
    (store = false → m = none ∧ ∀ v ∈ vals, ∀ k, v.dtype ≠ .key k) := by
  unfold serialize at h ⊢
  cases hc : checkLengths vals.length infos.length with
  | error e => simp [hc] at h
  | ok u =>
    simp only [hc] at h ⊢
    have hl : vals ≠ [] ∧ infos.length = vals.length := by
      unfold checkLengths at hc
      split at hc
      · cases hc
      · next h0 =>
        split at hc
        · cases hc
        · next h1 =>
          refine ⟨fun e => h0 (by simp [e]), ?_⟩
          simpa using h1
    cases args with
    | none => simp at h
    | some as =>
      dsimp only at h ⊢
      split at h
      · cases h
      next hal =>
      split at h
      · cases h
      next hany =>
      split at h
      · cases h
      next hst =>
      split at h
      case isFalse => cases h
      next hrun =>
      rw [if_neg hal, if_neg hany, if_neg hst, if_pos hrun]
      have hrun' := launch_true _ hrun
      simp only [Except.ok.injEq, Prod.mk.injEq] at h
      obtain ⟨hm, hws⟩ := h
      rw [hrun'] at hws
      dsimp only
      rw [hrun']
      have hwl : ∀ (vals : List (Arr V)) (infos : List Info), infos.length = vals.length →
          (writes words vals infos).length = vals.length ∧
          ∀ (i : Nat) v info w, vals[i]? = some v → infos[i]? = some info → (writes words vals infos)[i]? = some w →
            w.dir = info.dir ∧ w.name = info.name ∧ w.data = v.data ∧ FileOf words v (w.shape, w.elem) := by
        intro vals
        induction vals with
        | nil => intro infos hl; cases infos <;> simp [writes]
        | cons v vals ih =>
          intro infos hl
          cases infos with
          | nil => simp at hl
          | cons info infos =>
            have ih := ih infos (by simpa using hl)
            refine ⟨by simp [writes, ih.1], ?_⟩
            intro i v' info' w' g1 g2 g3
            cases i with
            | zero =>
              simp only [writes, List.getElem?_cons_zero, Option.some.injEq] at g1 g2 g3
              subst g1 g2 g3
              refine ⟨rfl, rfl, rfl, ?_⟩
              unfold physical
              split
              · next e => exact .raw e
              · next k e => exact .key e
            | succ i =>
              simp only [writes, List.getElem?_cons_succ] at g1 g2 g3
              exact ih.2 i v' info' w' g1 g2 g3
      have hel : ∀ (vals : List (Arr V)) (infos : List Info) (as : List (Option DType)),
          infos.length = vals.length → as.length = vals.length →
          (entries words vals infos as).length = vals.length ∧
          ∀ (i : Nat) v info e, vals[i]? = some v → infos[i]? = some info → (entries words vals infos as)[i]? = some e →
            e.name = info.name ∧ (∀ k, e.impl = some k ↔ v.dtype = .key k) := by
        intro vals
        induction vals with
        | nil => intro infos as _ _; cases infos <;> simp [entries]
        | cons v vals ih =>
          intro infos as hl ha
          cases infos with
          | nil => simp at hl
          | cons info infos =>
            cases as with
            | nil => simp at ha
            | cons a as =>
              have ih := ih infos as (by simpa using hl) (by simpa using ha)
              refine ⟨by simp [entries, ih.1], ?_⟩
              intro i v' info' e' g1 g2 g3
              cases i with
              | zero =>
                simp only [entries, List.getElem?_cons_zero, Option.some.injEq] at g1 g2 g3
                subst g1 g2 g3
                refine ⟨rfl, fun k => ?_⟩
                unfold implOf
                cases hdt : v.dtype <;> simp [hdt]
              | succ i =>
                simp only [entries, List.getElem?_cons_succ] at g1 g2 g3
                exact ih.2 i v' info' e' g1 g2 g3
      have hw := hwl vals infos hl.2
      rw [hws] at hw
      refine ⟨hl.1, hl.2.symm, hw.1, hws, hw.2, ?_, ?_⟩
      · intro hs
        subst hs
        have he := hel vals infos as hl.2 (by simpa using hal)
        cases infos with
        | nil =>
          have := hl.2
          simp only [List.length_nil] at this
          exact absurd (List.eq_nil_of_length_eq_zero this.symm) hl.1
        | cons info infos =>
          simp only [if_true, List.head?_cons, Option.map_some] at hm
          exact ⟨_, _, hm.symm, he.1, by simp, he.2⟩
      · intro hs
        subst hs
        refine ⟨by simpa using hm.symm, fun v hv k hk => hst ?_⟩
        simp only [Bool.not_false, Bool.and_true, List.any_eq_true]
        exact ⟨v, hv, by simp [implOf, hk]⟩

theorem take_append_words (shape w : List Nat) :
    (shape ++ w).take ((shape ++ w).length - w.length) = shape := by
  have : (shape ++ w).length - w.length = shape.length := by simp
  rw [this, List.take_left]

theorem wrap_key (words : Words) {V : Type} (i : String) (shape : List Nat) (d : V) (s : Sharding) (k : Nat)
    (_hs : s.spec.length ≤ shape.length) :
    wrap words i ⟨.raw .u32, shape ++ words i, d, { s with spec := s.spec ++ List.replicate k none }⟩ =
      .ok ⟨.key i, shape, d, { s with spec := (s.spec ++ List.replicate k none).take shape.length }⟩ := by
  have e : (shape ++ words i).length - (words i).length = shape.length := by simp
  simp only [wrap, take_append_words, e]
  simp

theorem cached_some {metas : List Entry} {i : Nat} {e : Entry} (hn : (metas.map Entry.name).Nodup)
    (h : metas[i]? = some e) : cached metas e.name = some e := by
  unfold cached
  have hm : e ∈ metas.reverse := List.mem_reverse.mpr (List.mem_of_getElem? h)
  cases hf : metas.reverse.find? fun x => x.name == e.name with
  | none =>
    have := List.find?_eq_none.mp hf e hm
    simp at this
  | some x =>
    have hx := List.mem_reverse.mp (List.mem_of_find?_eq_some hf)
    have hxn := List.find?_some hf
    simp only [beq_iff_eq] at hxn
    have he := List.mem_of_getElem? h
    have : x = e := by
      clear hf hm h
      induction metas with
      | nil => simp at hx
      | cons y l ih =>
        simp only [List.map_cons, List.nodup_cons] at hn
        rcases List.mem_cons.mp hx with e1 | hx1
        · rcases List.mem_cons.mp he with e2 | he1
          · rw [e1, e2]
          · exact absurd (List.mem_map.mpr ⟨e, he1, by rw [← hxn, e1]⟩) hn.1
        · rcases List.mem_cons.mp he with e2 | he1
          · exact absurd (List.mem_map.mpr ⟨x, hx1, by rw [hxn, e2]⟩) hn.1
          · exact ih hn.2 hx1 he1
    rw [this]

/-- The spec of a sharding without what is not partitioned at its end: `PartitionSpec` up to the meaning. -/
def sameSpec (a b : Sharding) : Prop :=
  a.mesh = b.mesh ∧ ∀ i : Nat, (a.spec[i]?).getD none = (b.spec[i]?).getD none

theorem one_saved {V : Type} {words : Words} {svc : Service V} {metas : List Entry} {info : Info} {v : Arr V}
    {s : Sharding} {arg : Arg} {w : Write V} {me : Entry} {f : List Nat × Elem}
    {files : Info → Option (List Nat × Elem)} (hcast : CastsSelf svc)
    (htab : svc.table info.dir info.name = some ⟨w.elem, w.shape, v.data⟩) (w4 : FileOf words v (w.shape, w.elem))
    (hf : files info = some f) (hfo : FileOf words v f) (hca : cached metas info.name = some me)
    (hem : ∀ k, me.impl = some k ↔ v.dtype = .key k) (hread : ∀ e, v.dtype = .raw e → e ∈ readable)
    (hask : Asks words files info v s arg) (hspec : s.spec.length ≤ v.shape.length) :
    ∃ w' a, shardingOf arg = .ok s ∧ fill arg s (files info) = .ok w' ∧
      one words svc metas info w' = .ok a ∧ a.dtype = v.dtype ∧ a.shape = v.shape ∧
      a.data = v.data ∧ sameSpec a.sharding s := by
  have hshard : shardingOf arg = .ok s := by
    cases hask with
    | exact hk hs hsh hdt => simp [shardingOf, hk, hs]
    | file hk hs hsh hdt => simp [shardingOf, hk, hs]
  cases hv : v.dtype with
  | raw e =>
    have hfe : f = (v.shape, e) := by
      cases hfo with
      | raw h => rw [hv] at h; cases h; rfl
      | key h => rw [hv] at h; cases h
    have hwe : (w.shape, w.elem) = (v.shape, e) := by
      generalize (w.shape, w.elem) = p at w4
      cases w4 with
      | raw h => rw [hv] at h; cases h; rfl
      | key h => rw [hv] at h; cases h
    simp only [Prod.mk.injEq] at hwe
    have hfill : fill arg s (files info) = .ok ⟨s, v.shape, .raw e⟩ := by
      cases hask with
      | exact hk hs hsh hdt => rw [hv] at hdt; simp [fill, hsh, hdt]
      | file hk hs hsh hdt => simp [fill, hsh, hdt, hf, hfe]
    refine ⟨_, ⟨.raw e, v.shape, v.data, s⟩, hshard, hfill, one_ok.mpr
      ⟨⟨info.name, e, v.shape, s⟩, ⟨.raw e, v.shape, v.data, s⟩, ?_, ?_, ?_⟩, rfl, rfl, rfl, rfl, fun _ => rfl⟩
    · have hr := hread e hv
      revert hr
      cases e <;> simp [request, xlaType, readable]
    · simp [serve, htab, hwe.1, hwe.2, hcast e v.data]
    · have : me.impl = none := by
        cases hi' : me.impl with
        | none => rfl
        | some k => have := (hem k).mp hi'; rw [hv] at this; cases this
      simp [finish, hca, this]
  | key k =>
    have hfe : f = (v.shape ++ words k, .u32) := by
      cases hfo with
      | raw h => rw [hv] at h; cases h
      | key h => rw [hv] at h; cases h; rfl
    have hwe : (w.shape, w.elem) = (v.shape ++ words k, Elem.u32) := by
      generalize (w.shape, w.elem) = p at w4
      cases w4 with
      | raw h => rw [hv] at h; cases h
      | key h => rw [hv] at h; cases h; rfl
    simp only [Prod.mk.injEq] at hwe
    have hk := (hem k).mpr hv
    have same : ∀ n : Nat, sameSpec { s with spec := (s.spec ++ List.replicate n none).take v.shape.length } s := by
      intro n
      refine ⟨rfl, fun i => ?_⟩
      simp only [List.getElem?_take, List.getElem?_append, List.getElem?_replicate]
      by_cases h1 : i < s.spec.length
      · have : i < v.shape.length := by omega
        simp [h1, this]
      · have e : s.spec[i]? = none := List.getElem?_eq_none (by omega)
        simp only [h1, if_false, e, Option.getD_none]
        split
        · split <;> rfl
        · rfl
    cases hask with
    | exact hkk hs hsh hdt =>
      rw [hv] at hdt
      have hfill : fill arg s (files info) = .ok ⟨s, v.shape, .key k⟩ := by simp [fill, hsh, hdt]
      refine ⟨_, _, hshard, hfill, one_ok.mpr ⟨_, _, rfl, ?_, wrap_key words k v.shape v.data s
        (words k).length hspec⟩, rfl, rfl, rfl, same _⟩
      simp [serve, htab, hwe.1, hwe.2, hcast .u32 v.data]
    | file hkk hs hsh hdt =>
      have hfill : fill arg s (files info) = .ok ⟨s, v.shape ++ words k, .raw .u32⟩ := by
        simp [fill, hsh, hdt, hf, hfe]
      have hw := wrap_key words k v.shape v.data s 0 hspec
      simp only [List.replicate_zero, List.append_nil] at hw
      refine ⟨_, ⟨.key k, v.shape, v.data, { s with spec := s.spec.take v.shape.length }⟩, hshard, hfill,
        one_ok.mpr ⟨_, ⟨.raw .u32, v.shape ++ words k, v.data, s⟩, rfl, ?_, ?_⟩,
        rfl, rfl, rfl, ?_⟩
      · simp [serve, htab, hwe.1, hwe.2, hcast .u32 v.data]
      · simp only [finish, hca, hk]
        exact hw
      · have := same 0
        simpa using this

/-- C122: arrays and keys that were saved are restored with their types, shapes and contents, in order and with the
shardings that are asked for, when they are asked for by type and shape or when both are left to the files. -/
theorem C122_roundtrip {V : Type} (words : Words) (bad : Write V → Bool) (vals : List (Arr V)) (infos : List Info)
    (sargs : Option (List (Option DType))) (mdir : String) (metas : List Entry) (ws : List (Write V))
    (hsave : (serialize words true bad vals infos sargs).out = .ok (some (mdir, metas), ws))
    (svc : Service V) (hold : Holds svc ws) (hcast : CastsSelf svc)
    (dir : String) (hd : ∀ i ∈ infos, i.dir = dir) (hnames : (infos.map Info.name).Nodup)
    (hread : ∀ v ∈ vals, ∀ e, v.dtype = .raw e → e ∈ readable)
    (files : Info → Option (List Nat × Elem))
    (hfiles : ∀ (i : Nat) v info, vals[i]? = some v → infos[i]? = some info →
      ∃ f, files info = some f ∧ FileOf words v f)
    (ss : List Sharding) (args : List Arg) (hss : ss.length = vals.length) (hal : args.length = vals.length)
    (hasks : ∀ (i : Nat) v info s a, vals[i]? = some v → infos[i]? = some info → ss[i]? = some s →
      args[i]? = some a → Asks words files info v s a ∧ s.spec.length ≤ v.shape.length) :
    ∃ out, deserialize words svc files metas infos (some args) = .ok out ∧ out.length = vals.length ∧
      ∀ (i : Nat) v s, vals[i]? = some v → ss[i]? = some s →
        ∃ a, out[i]? = some (some a) ∧ a.dtype = v.dtype ∧ a.shape = v.shape ∧ a.data = v.data ∧
          sameSpec a.sharding s := by
  obtain ⟨hne, hlen, hwlen, _, hws, hmeta, _⟩ := C122_written words true bad vals infos sargs _ ws hsave
  obtain ⟨d, es, hde, hel, _, hes⟩ := hmeta rfl
  simp only [Option.some.injEq, Prod.mk.injEq] at hde
  obtain ⟨rfl, rfl⟩ := hde
  have hmn : (metas.map Entry.name).Nodup := by
    have : metas.map Entry.name = infos.map Info.name := by
      apply List.ext_getElem (by simp; omega)
      intro i h1 h2
      simp only [List.length_map] at h1 h2
      simp only [List.getElem_map]
      have hi : i < vals.length := by omega
      exact (hes i vals[i] infos[i] metas[i] (by simp [hi]) (by simp [h2]) (by simp [h1])).1
    rw [this]; exact hnames
  have hone : ∀ (i : Nat) v info s arg, vals[i]? = some v → infos[i]? = some info → ss[i]? = some s →
      args[i]? = some arg → ∃ w' a, shardingOf arg = .ok s ∧ fill arg s (files info) = .ok w' ∧
      one words svc metas info w' = .ok a ∧ a.dtype = v.dtype ∧ a.shape = v.shape ∧
      a.data = v.data ∧ sameSpec a.sharding s := by
    intro i v info s arg h1 h2 h3 h4
    have hi := (List.getElem?_eq_some_iff.mp h1).1
    have h5 : ws[i]? = some (ws[i]'(by omega)) := by simp
    have h6 : metas[i]? = some (metas[i]'(by omega)) := by simp
    generalize ws[i]'(by omega) = w at h5
    generalize metas[i]'(by omega) = me at h6
    obtain ⟨hask, hspec⟩ := hasks i v info s arg h1 h2 h3 h4
    obtain ⟨f, hf, hfo⟩ := hfiles i v info h1 h2
    obtain ⟨w1, w2, w3, w4⟩ := hws i v info w h1 h2 h5
    have hem := hes i v info me h1 h2 h6
    have htab := hold w (List.mem_of_getElem? h5)
    rw [w1, w2, w3] at htab
    have hca : cached metas info.name = some me := by
      rw [← hem.1]
      exact cached_some hmn h6
    exact one_saved hcast htab w4 hf hfo hca hem.2 (hread v (List.mem_of_getElem? h1)) hask hspec
  have hfs : ∀ i ∈ infos, (files i).isSome := by
    intro info hm
    obtain ⟨i, hi, e⟩ := List.mem_iff_getElem.mp hm
    have hi' : i < vals.length := by omega
    obtain ⟨f, hf, _⟩ := hfiles i vals[i] info (by simp) (by simp [hi, e])
    simp [hf]
  have hex : ∀ i : Fin vals.length, ∃ a : Arr V, (∃ w', shardingOf (args[i.1]'(by omega)) = .ok (ss[i.1]'(by omega)) ∧
      fill (args[i.1]'(by omega)) (ss[i.1]'(by omega)) (files (infos[i.1]'(by omega))) = .ok w' ∧
      one words svc metas (infos[i.1]'(by omega)) w' = .ok a) ∧ a.dtype = vals[i].dtype ∧ a.shape = vals[i].shape ∧
      a.data = vals[i].data ∧ sameSpec a.sharding (ss[i.1]'(by omega)) := by
    intro i
    obtain ⟨w', a, k1, k2, k3, k4⟩ := hone i.1 vals[i] (infos[i.1]'(by omega)) (ss[i.1]'(by omega))
      (args[i.1]'(by omega)) (by simp) (by simp) (by simp) (by simp)
    exact ⟨a, ⟨w', k1, k2, k3⟩, k4⟩
  let g : Fin vals.length → Arr V := fun i => Classical.choose (hex i)
  have hg := fun i => Classical.choose_spec (hex i)
  refine ⟨List.ofFn fun i => some (g i), ?_, by simp, ?_⟩
  · rw [deserialize_ok (dir := dir) (by intro e; simp [e] at hlen; exact hne hlen) (by omega) hd hfs]
    refine ⟨by simpa using hlen, fun i info arg h1 h2 => ?_⟩
    obtain ⟨hi, e1⟩ := List.getElem?_eq_some_iff.mp h1
    obtain ⟨hi2, e2⟩ := List.getElem?_eq_some_iff.mp h2
    subst e1 e2
    have hv : i < vals.length := by omega
    obtain ⟨w', k1, k2, k3⟩ := (hg ⟨i, hv⟩).1
    exact ⟨_, w', g ⟨i, hv⟩, k1, k2, k3, by simp [hv]⟩
  · intro i v s h1 h2
    obtain ⟨hi, e1⟩ := List.getElem?_eq_some_iff.mp h1
    obtain ⟨hi2, e2⟩ := List.getElem?_eq_some_iff.mp h2
    subst e1 e2
    exact ⟨g ⟨i, hi⟩, by simp [hi], (hg ⟨i, hi⟩).2⟩

/-! ### The background part of a save -/

theorem reach_inv {n : Nat} {c : Commit} (h : Reach n c) : c.status.length = n ∧
    (∀ i, c.waiter = .at i → c.metaOk = true ∧ i ≤ n ∧ ∀ j, j < i → c.status[j]? = some .ok) ∧
    (c.waiter = .done → c.metaOk = true ∧ ∀ j, j < n → c.status[j]? = some .ok) := by
  induction h with
  | init => simp
  | step hr hs ih =>
    cases hs with
    | serve hrun good =>
      next c k =>
      have key : ∀ j : Nat, c.status[j]? = some .ok →
          (c.status.set k (if good then Status.ok else Status.failed))[j]? = some Status.ok := by
        intro j hj
        have : k ≠ j := fun e => by rw [e, hj] at hrun; cases hrun
        rw [List.getElem?_set_ne this]; exact hj
      refine ⟨by simpa using ih.1, fun i hi => ?_, fun hd => ?_⟩
      · obtain ⟨h1, h2, h3⟩ := ih.2.1 i hi
        exact ⟨h1, h2, fun j hj => key j (h3 j hj)⟩
      · obtain ⟨h1, h2⟩ := ih.2.2 hd
        exact ⟨h1, fun j hj => key j (h2 j hj)⟩
    | metaDone hw =>
      refine ⟨ih.1, fun i hi => ?_, fun hd => by simp at hd⟩
      simp only [Waiter.at.injEq] at hi
      subst hi
      exact ⟨rfl, Nat.zero_le _, fun j hj => by omega⟩
    | metaFail hw => exact ⟨ih.1, fun i hi => by simp at hi, fun hd => by simp at hd⟩
    | next hw hst =>
      next c k =>
      refine ⟨ih.1, fun i hi => ?_, fun hd => by simp at hd⟩
      simp only [Waiter.at.injEq] at hi
      subst hi
      obtain ⟨h1, h2, h3⟩ := ih.2.1 k hw
      have hk := (List.getElem?_eq_some_iff.mp hst).1
      have := ih.1
      refine ⟨h1, by omega, fun j hj => ?_⟩
      by_cases e : j = k
      · rw [e]; exact hst
      · exact h3 j (by omega)
    | raise hw hst => exact ⟨ih.1, fun i hi => by simp at hi, fun hd => by simp at hd⟩
    | finish hw hst =>
      next c k =>
      refine ⟨ih.1, fun i hi => by simp at hi, fun _ => ?_⟩
      obtain ⟨h1, h2, h3⟩ := ih.2.1 k hw
      have := ih.1
      exact ⟨h1, fun j hj => h3 j (by omega)⟩

/-- C122: the future of a save ends without an error only after the metadata and every array have been written. -/
theorem C122_done (n : Nat) (c : Commit) (h : Reach n c) (hd : c.waiter = .done) :
    c.metaOk = true ∧ c.status = List.replicate n .ok := by
  obtain ⟨h1, _, h3⟩ := reach_inv h
  refine ⟨(h3 hd).1, List.eq_replicate_iff.mpr ⟨h1, fun b hb => ?_⟩⟩
  obtain ⟨i, hi, e⟩ := List.mem_iff_getElem.mp hb
  have := (h3 hd).2 i (by omega)
  rw [List.getElem?_eq_getElem hi, e] at this
  simpa using this

/-- C122: a failed write is never passed over: once the coroutine has been there, the save does not end well. -/
theorem C122_failure_raised (n : Nat) (c : Commit) (h : Reach n c) (j : Nat) (hj : c.status[j]? = some .failed) :
    c.waiter ≠ .done := by
  intro hd
  have h1 := (reach_inv h).1
  have := ((reach_inv h).2.2 hd).2 j (by have := (List.getElem?_eq_some_iff.mp hj).1; omega)
  rw [hj] at this
  cases this

theorem run_all : ∀ (n k : Nat), k ≤ n → ∃ c, Reach n c ∧ c.waiter = .metadata ∧
    c.status = List.replicate k Status.ok ++ List.replicate (n - k) Status.running
  | n, 0, _ => ⟨_, .init, rfl, by simp⟩
  | n, k + 1, hk => by
    obtain ⟨c, h1, h2, h3⟩ := run_all n k (by omega)
    refine ⟨_, .step h1 (.serve (i := k) ?_ true), h2, ?_⟩
    · rw [h3, List.getElem?_append_right (by simp)]
      simp only [List.length_replicate, Nat.sub_self, List.getElem?_replicate]
      rw [if_pos (by omega)]
    · simp only [h3, if_true]
      have e : n - k = (n - (k + 1)) + 1 := by omega
      rw [e, List.replicate_succ, List.set_append_right _ _ (by simp)]
      simp only [List.length_replicate, Nat.sub_self, List.set_cons_zero]
      rw [List.replicate_succ' (n := k)]
      simp

/-- C122: a save whose writes all succeed can end without an error, for any number of arrays. -/
theorem C122_can_finish (n : Nat) : ∃ c, Reach n c ∧ c.waiter = .done := by
  obtain ⟨c, h1, h2, h3⟩ := run_all n n (Nat.le_refl n)
  simp only [Nat.sub_self, List.replicate_zero, List.append_nil] at h3
  have walk : ∀ k, k ≤ n → ∃ c, Reach n c ∧ c.waiter = .at k ∧ c.status = List.replicate n .ok := by
    intro k
    induction k with
    | zero => intro _; exact ⟨_, .step h1 (.metaDone h2), rfl, h3⟩
    | succ k ih =>
      intro hk
      obtain ⟨d, g1, g2, g3⟩ := ih (by omega)
      refine ⟨_, .step g1 (.next g2 ?_), rfl, g3⟩
      rw [g3, List.getElem?_replicate, if_pos (by omega)]
  obtain ⟨d, g1, g2, g3⟩ := walk n (Nat.le_refl n)
  exact ⟨_, .step g1 (.finish g2 (by simp [g3])), rfl⟩

/-! ### Choice of the handler -/

/-- C122: the service is used exactly if it is asked for on a proxy backend with persistence enabled; a dispatcher
exactly if colocated Python is asked for or nothing is said; asking for the service on another backend is the
only error. -/
theorem C122_handler (impl : Option Impl) (single : Bool) (store : Option Bool) (proxy enabled : Bool) :
    (getHandler impl single store proxy enabled = .error .notImplemented ↔ impl = some .persistence ∧ proxy = false) ∧
    ∀ h, getHandler impl single store proxy enabled = .ok h →
      (h.service = true ↔ impl = some .persistence ∧ proxy = true ∧ enabled = true) ∧
      (h.dispatcher = true ↔ impl = none ∨ impl = some .colocatedPython) := by
  rcases impl with _ | i
  · refine ⟨by simp [getHandler, fromOptions], fun h hh => ?_⟩
    simp only [getHandler, fromOptions, Option.getD_none, if_true, Except.ok.injEq] at hh
    subst hh
    simp
  · cases i with
    | colocatedPython =>
      refine ⟨by simp [getHandler], fun h hh => ?_⟩
      simp only [getHandler, Option.getD_some, Except.ok.injEq] at hh
      subst hh
      simp
    | noDispatcher =>
      refine ⟨by simp [getHandler], fun h hh => ?_⟩
      simp only [getHandler, Option.getD_some, Except.ok.injEq] at hh
      subst hh
      simp
    | persistence =>
      cases proxy <;> cases enabled
      · exact ⟨by simp [getHandler], fun h hh => by simp [getHandler] at hh⟩
      · exact ⟨by simp [getHandler], fun h hh => by simp [getHandler] at hh⟩
      · refine ⟨by simp [getHandler], fun h hh => ?_⟩
        simp only [getHandler, Option.getD_some, if_true, Bool.false_eq_true, if_false, Except.ok.injEq] at hh
        subst hh
        simp
      · refine ⟨by simp [getHandler], fun h hh => ?_⟩
        simp only [getHandler, Option.getD_some, if_true, Except.ok.injEq] at hh
        subst hh
        simp

/-! ### Findings -/

/-- C122 (finding): types that cannot be read are written without an error: the save of one array of such a type is
accepted, and restoring it as what it was fails for every service, every sharding and whatever the files say. -/
theorem C122_unreadable_fails {V : Type} (words : Words) (store : Bool) (v : Arr V) (info : Info) (e : Elem)
    (hv : v.dtype = .raw e) (he : e ∉ readable) (svc : Service V) (files : Info → Option (List Nat × Elem))
    (metas : List Entry) (s : Sharding) (a : Arg) (ha : a.isArray = true) (hs : a.sharding = .named s)
    (hsh : a.shape = some v.shape) (hd : a.dtype = some v.dtype) :
    (∃ o, (serialize words store (fun _ => false) [v] [info] (some [none])).out = .ok o) ∧
    deserialize words svc files metas [info] (some [a]) = .error .unsupportedType := by
  have hx : xlaType e = none := by
    revert he
    cases e <;> simp [readable, xlaType]
  constructor
  · refine ⟨(if store then some (info.dir, entries words [v] [info] [none]) else none,
      writes words [v] [info]), ?_⟩
    simp [serialize, checkLengths, implOf, hv, launch, writes]
  · rw [hv] at hd
    simp [deserialize, checkLengths, mapE, shardingOf, ha, hs, hsh, hd, fillAll, fill, runGroups, groups, groupsFrom,
      addTo, readGroup, request, hx]

/-- C122 (finding): all arrays of one mesh are read from the directory of the first of them, so an array of another
directory is replaced by the one of the same name there, or not found. -/
theorem C122_location_fails {V : Type} (words : Words) (svc : Service V) (files : Info → Option (List Nat × Elem))
    (d1 d2 n1 n2 : String) (s : Sharding) (b1 b2 : Blob V) (hcast : CastsSelf svc)
    (h1 : svc.table d1 n1 = some b1) (h2 : svc.table d1 n2 = some b2) (e1 : b1.elem ∈ readable)
    (e2 : b2.elem ∈ readable) :
    deserialize words svc files [] [⟨d1, n1⟩, ⟨d2, n2⟩]
      (some [⟨true, .named s, none, some b1.shape, some (.raw b1.elem)⟩,
        ⟨true, .named s, none, some b2.shape, some (.raw b2.elem)⟩]) =
      .ok [some ⟨.raw b1.elem, b1.shape, b1.data, s⟩, some ⟨.raw b2.elem, b2.shape, b2.data, s⟩] := by
  have x1 : (xlaType b1.elem).isNone = false := by
    revert e1; cases b1.elem <;> simp [readable, xlaType]
  have x2 : (xlaType b2.elem).isNone = false := by
    revert e2; cases b2.elem <;> simp [readable, xlaType]
  simp [deserialize, checkLengths, mapE, shardingOf, fillAll, fill, runGroups, groups, groupsFrom, addTo, readGroup,
    request, x1, x2, serve, h1, h2, hcast b1.elem b1.data, hcast b2.elem b2.data, finish, cached, place]

/-- C122 (finding): a key that is asked for as a key of another implementation with words of the same shape is
restored as such a key, without an error, whatever implementation is recorded. -/
theorem C122_other_impl_fails {V : Type} (words : Words) (svc : Service V) (files : Info → Option (List Nat × Elem))
    (info : Info) (i j : String) (hij : words i = words j) (shape : List Nat) (d : V) (s : Sharding)
    (hspec : s.spec = []) (hcast : CastsSelf svc)
    (hsvc : svc.table info.dir info.name = some ⟨.u32, shape ++ words i, d⟩) :
    ∃ s', deserialize words svc files [⟨info.name, shape ++ words i, none, some i⟩] [info]
      (some [⟨true, .named s, none, some shape, some (.key j)⟩]) = .ok [some ⟨.key j, shape, d, s'⟩] := by
  have hw := wrap_key words j shape d s (words j).length (by simp [hspec])
  refine ⟨{ s with spec := (s.spec ++ List.replicate (words j).length none).take shape.length }, ?_⟩
  simp [deserialize, checkLengths, mapE, shardingOf, fillAll, fill, runGroups, groups, groupsFrom, addTo, readGroup,
    request, serve, hsvc, hij, hcast .u32 d, finish, hw, place]

/-- C122 (finding): a key whose type is given without its shape is not restored: the shape of the file, which has
the words, is taken for that of the key. -/
theorem C122_key_without_shape_fails {V : Type} (words : Words) (svc : Service V)
    (files : Info → Option (List Nat × Elem)) (metas : List Entry) (info : Info) (i : String)
    (hi : words i ≠ []) (shape : List Nat) (d : V) (s : Sharding) (hf : files info = some (shape ++ words i, .u32))
    (hsvc : svc.table info.dir info.name = some ⟨.u32, shape ++ words i, d⟩) :
    deserialize words svc files metas [info]
      (some [⟨true, .named s, none, none, some (.key i)⟩]) = .error .otherShape := by
  have hne : ¬ shape ++ words i = shape ++ words i ++ words i := by
    intro e
    have := congrArg List.length e
    simp at this
    exact hi this
  simp [deserialize, checkLengths, mapE, shardingOf, fillAll, fill, runGroups, groups, groupsFrom, addTo, readGroup,
    request, serve, hsvc, hf, hi]

/-- C122 (finding): without array metadata a key is restored as an array of words, without an error. -/
theorem C122_key_as_words_fails {V : Type} (words : Words) (svc : Service V)
    (files : Info → Option (List Nat × Elem)) (info : Info) (i : String) (shape : List Nat) (d : V) (s : Sharding)
    (hcast : CastsSelf svc) (hf : files info = some (shape ++ words i, .u32))
    (hsvc : svc.table info.dir info.name = some ⟨.u32, shape ++ words i, d⟩) :
    deserialize words svc files [] [info] (some [⟨true, .named s, none, none, none⟩]) =
      .ok [some ⟨.raw .u32, shape ++ words i, d, s⟩] := by
  simp [deserialize, checkLengths, mapE, shardingOf, fillAll, fill, runGroups, groups, groupsFrom, addTo, readGroup,
    request, xlaType, serve, hsvc, hf, hcast .u32 d, finish, cached, place]

/-- C122 (finding): one argument that leaves its shape or type open makes the restore of all arrays depend on the
metadata of all files: it fails if that of any array, also of one asked for completely, cannot be read. -/
theorem C122_metadata_of_all_fails {V : Type} (words : Words) (svc : Service V)
    (files : Info → Option (List Nat × Elem)) (metas : List Entry) (infos : List Info) (args : List Arg)
    (hne : infos ≠ []) (hl : args.length = infos.length)
    (hs : ∀ a ∈ args, a.isArray = true ∧ ∃ s, a.sharding = .named s)
    (a : Arg) (ha : a ∈ args) (hopen : a.shape = none ∨ a.dtype = none)
    (i : Info) (hi : i ∈ infos) (hf : files i = none) :
    deserialize words svc files metas infos (some args) = .error .metadata := by
  have hlen : checkLengths infos.length args.length = .ok () := by
    have : infos.length ≠ 0 := fun h => hne (List.eq_nil_of_length_eq_zero h)
    simp [checkLengths, this, hl]
  obtain ⟨ss, hss⟩ := mapE_exists shardingOf args fun b hb => by
    obtain ⟨h1, s, h2⟩ := hs b hb
    exact ⟨s, by simp [shardingOf, h1, h2]⟩
  have h1 : (args.any fun a => a.shape.isNone || a.dtype.isNone) = true := by
    rw [List.any_eq_true]
    refine ⟨a, ha, ?_⟩
    rcases hopen with h | h <;> simp [h]
  have h2 : (infos.any fun i => (files i).isNone) = true := by
    rw [List.any_eq_true]
    exact ⟨i, hi, by simp [hf]⟩
  simp only [deserialize, hlen, hss, h1, h2, Bool.and_self, if_true]

/-- C122 (finding): if a write cannot be started, those before it are running already and nothing waits for them. -/
theorem C122_started_fails {V : Type} (words : Words) (store : Bool) (v1 v2 : Arr V) (i1 i2 : Info)
    (hn : i1.name ≠ i2.name) (h1 : ∀ k, v1.dtype ≠ .key k) (h2 : ∀ k, v2.dtype ≠ .key k) :
    let r := serialize words store (fun w => decide (w.name = i2.name)) [v1, v2] [i1, i2] (some [none, none])
    r.out = .error .startFailed ∧ r.running.map Write.name = [i1.name] := by
  have k1 : implOf v1 = none := by
    cases h : v1.dtype with
    | raw e => simp [implOf, h]
    | key k => exact absurd h (h1 k)
  have k2 : implOf v2 = none := by
    cases h : v2.dtype with
    | raw e => simp [implOf, h]
    | key k => exact absurd h (h2 k)
  simp [serialize, checkLengths, k1, k2, launch, writes, hn]

/-- C122 (finding): the failure of one write is reported while others are still running, which may end later. -/
theorem C122_late_writes_fails : ∃ c d, Reach 2 c ∧ c.waiter = .raised ∧ c.status = [.failed, .running] ∧
    Step c d ∧ d.waiter = .raised ∧ d.status = [.failed, .ok] := by
  have r0 := Reach.init (n := 2)
  have r1 := Reach.step r0 (Step.serve (i := 0) rfl false)
  have r2 := Reach.step r1 (Step.metaDone rfl)
  have r3 := Reach.step r2 (Step.raise (i := 0) rfl rfl)
  exact ⟨_, _, r3, rfl, rfl, Step.serve (i := 1) rfl true, rfl, rfl⟩

/-- C122 (finding): with the service the request for a single-replica handler is ignored, and array metadata is not
kept unless it is asked for, so that the same registration refuses keys that it saves with a dispatcher. -/
theorem C122_registration_fails (single : Bool) :
    getHandler (some .persistence) single none true true = .ok ⟨true, false, false, false⟩ ∧
    getHandler (some .colocatedPython) single none true true = .ok ⟨false, true, single, true⟩ ∧
    ∀ {V : Type} (words : Words) (bad : Write V → Bool) (v : Arr V) (info : Info) (k : String), v.dtype = .key k →
      (serialize words false bad [v] [info] (some [none])).out = .error .noStore := by
  refine ⟨rfl, rfl, ?_⟩
  intro V words bad v info k hv
  simp [serialize, checkLengths, implOf, hv]

/-- C122 (finding): the array metadata never says the type of an array: saves that would convert are refused, and
for all others the type of the (empty) save argument is recorded. -/
theorem C122_meta_type_fails {V : Type} (words : Words) (bad : Write V → Bool) (vals : List (Arr V))
    (infos : List Info) (args : Option (List (Option DType))) (d : String) (es : List Entry) (ws : List (Write V))
    (h : (serialize words true bad vals infos args).out = .ok (some (d, es), ws)) : ∀ e ∈ es, e.dtype = none := by
  have hel : ∀ (vals : List (Arr V)) (infos : List Info) (as : List (Option DType)), as.any Option.isSome = false →
      ∀ e ∈ entries words vals infos as, e.dtype = none := by
    intro vals
    induction vals with
    | nil => intro infos as _ e he; simp [entries] at he
    | cons v vals ih =>
      intro infos as ha e he
      cases infos with
      | nil => simp [entries] at he
      | cons info infos =>
        cases as with
        | nil => simp [entries] at he
        | cons a as =>
          simp only [List.any_cons, Bool.or_eq_false_iff] at ha
          rcases List.mem_cons.mp he with e1 | he
          · rw [e1]
            simpa using ha.1
          · exact ih infos as ha.2 e he
  unfold serialize at h
  cases hc : checkLengths vals.length infos.length with
  | error e => simp [hc] at h
  | ok u =>
    simp only [hc] at h
    cases args with
    | none => simp at h
    | some as =>
      dsimp only at h
      split at h
      · cases h
      split at h
      · cases h
      next hany =>
      split at h
      · cases h
      split at h
      case isFalse => cases h
      simp only [Except.ok.injEq, Prod.mk.injEq, if_true] at h
      cases infos with
      | nil => simp at h
      | cons info infos =>
        simp only [List.head?_cons, Option.map_some, Option.some.injEq, Prod.mk.injEq] at h
        rw [← h.1.2]
        exact hel _ _ _ (by simpa using hany)

/-! ### Non-vacuity -/

/-- Three arrays on two meshes, the second a key. -/
def exampleVals : List (Arr Nat) :=
  [⟨.raw .f32, [4, 2], 10, ⟨0, []⟩⟩, ⟨.key "threefry2x32", [3], 20, ⟨1, []⟩⟩, ⟨.raw .s32, [], 30, ⟨0, []⟩⟩]

def exampleInfos : List Info := [⟨"/c", "a"⟩, ⟨"/c", "k"⟩, ⟨"/c", "n"⟩]

def exampleWords : Words := fun i => if i = "threefry2x32" then [2] else [4]

/-- The service after the save. -/
def exampleService : Service Nat where
  table := fun d n =>
    if d = "/c" then
      if n = "a" then some ⟨.f32, [4, 2], 10⟩ else if n = "k" then some ⟨.u32, [3, 2], 20⟩
      else if n = "n" then some ⟨.s32, [], 30⟩ else none
    else none
  cast := fun _ _ v => some v

def exampleFiles : Info → Option (List Nat × Elem) := fun i =>
  if i.name = "a" then some ([4, 2], .f32) else if i.name = "k" then some ([3, 2], .u32)
  else if i.name = "n" then some ([], .s32) else none

/-- C122: the hypotheses of the round trip are met by three arrays on two meshes, one of them a key that is asked
for by its type, another array that is left to the files; the result is what was saved. -/
theorem C122_nonvacuous :
    let o := (serialize exampleWords true (fun _ => false) exampleVals exampleInfos (some [none, none, none])).out
    ∃ metas ws, o = .ok (some ("/c", metas), ws) ∧ Holds exampleService ws ∧ CastsSelf exampleService ∧
      (exampleInfos.map Info.name).Nodup ∧ (∀ i ∈ exampleInfos, i.dir = "/c") ∧
      (∀ (i : Nat) v info, exampleVals[i]? = some v → exampleInfos[i]? = some info →
        ∃ f, exampleFiles info = some f ∧ FileOf exampleWords v f) ∧
      deserialize exampleWords exampleService exampleFiles metas exampleInfos
        (some [⟨true, .named ⟨7, [some "x"]⟩, none, some [4, 2], some (.raw .f32)⟩,
          ⟨true, .named ⟨8, []⟩, none, some [3], some (.key "threefry2x32")⟩,
          ⟨true, .named ⟨7, []⟩, none, none, none⟩]) =
        .ok [some ⟨.raw .f32, [4, 2], 10, ⟨7, [some "x"]⟩⟩, some ⟨.key "threefry2x32", [3], 20, ⟨8, [none]⟩⟩,
          some ⟨.raw .s32, [], 30, ⟨7, []⟩⟩] := by
  refine ⟨_, _, rfl, ?_, fun _ _ => rfl, by decide, ?_, ?_, by rfl⟩
  · intro w hw
    simp only [launch, writes, exampleVals, exampleInfos, Bool.false_eq_true, if_false, List.mem_cons,
      List.not_mem_nil, or_false] at hw
    rcases hw with e | e | e <;> subst e <;> rfl
  · intro i hi
    simp only [exampleInfos, List.mem_cons, List.not_mem_nil, or_false] at hi
    rcases hi with e | e | e <;> subst e <;> rfl
  · intro i v info h1 h2
    match i, h1, h2 with
    | 0, h1, h2 => cases h1; cases h2; exact ⟨_, rfl, .raw rfl⟩
    | 1, h1, h2 => cases h1; cases h2; exact ⟨_, rfl, .key (i := "threefry2x32") rfl⟩
    | 2, h1, h2 => cases h1; cases h2; exact ⟨_, rfl, .raw rfl⟩
    | n + 3, h1, h2 => simp [exampleVals] at h1

end Verif.Handlers.Pathways
