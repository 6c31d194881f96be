import Verif.Tiering.RoutingProps
import Mathlib.Data.List.Perm.Subperm
import Mathlib.Data.List.Nodup

/-!
# Tiering service: the table of backends agrees with the configuration (C69)
-/
namespace Verif.Tiering.Routing

/-- Specification: the same level and location; multi-regions are compared as multisets, and an empty
list counts as none. -/
def SameLoc (b c : Backend) : Prop :=
  b.level = c.level ∧ b.zone = c.zone ∧ b.region = c.region ∧ (b.multi.getD []).Perm (c.multi.getD [])

/-- Specification: a row agrees with an entry of the configuration. -/
def Agrees (b c : Backend) : Prop := SameLoc b c ∧ b.btype = c.btype ∧ b.pfx = c.pfx

theorem insertStr_perm (x : Str) : ∀ l, (insertStr x l).Perm (x :: l)
  | [] => List.Perm.refl _
  | y :: ys => by
    unfold insertStr
    split
    · exact List.Perm.refl _
    · exact ((insertStr_perm x ys).cons y).trans (List.Perm.swap x y ys)

theorem sortStr_perm : ∀ l, (sortStr l).Perm l
  | [] => List.Perm.refl _
  | x :: xs => (insertStr_perm x _).trans ((sortStr_perm xs).cons x)

theorem strLe_total (a b : Str) : strLe a b = true ∨ strLe b a = true := by
  simp only [strLe, decide_eq_true_eq]
  exact List.le_total _ _

theorem strLe_trans {a b c : Str} (h : strLe a b = true) (h' : strLe b c = true) : strLe a c = true := by
  simp only [strLe, decide_eq_true_eq] at *
  exact List.le_trans h h'

theorem toNat_inj : ∀ {a b : Str}, a.map Char.toNat = b.map Char.toNat → a = b
  | [], [], _ => rfl
  | [], _ :: _, h => by simp at h
  | _ :: _, [], h => by simp at h
  | x :: xs, y :: ys, h => by
    simp only [List.map_cons, List.cons.injEq] at h
    rw [Char.toNat_inj.1 h.1, toNat_inj h.2]

theorem strLe_antisymm {a b : Str} (h : strLe a b = true) (h' : strLe b a = true) : a = b := by
  simp only [strLe, decide_eq_true_eq] at *
  exact toNat_inj (List.le_antisymm h h')

theorem insertStr_sorted (x : Str) : ∀ l, l.Pairwise (fun a b => strLe a b = true) →
    (insertStr x l).Pairwise (fun a b => strLe a b = true)
  | [], _ => by simp [insertStr]
  | y :: ys, h => by
    rw [List.pairwise_cons] at h
    unfold insertStr
    split
    · next hxy =>
      rw [List.pairwise_cons]
      refine ⟨fun z hz => ?_, List.pairwise_cons.2 h⟩
      rcases List.mem_cons.1 hz with rfl | hz
      · exact hxy
      · exact strLe_trans hxy (h.1 z hz)
    · next hxy =>
      have hyx : strLe y x = true := (strLe_total x y).resolve_left hxy
      rw [List.pairwise_cons]
      refine ⟨fun z hz => ?_, insertStr_sorted x ys h.2⟩
      rcases List.mem_cons.1 ((insertStr_perm x ys).mem_iff.1 hz) with rfl | hz
      · exact hyx
      · exact h.1 z hz

theorem sortStr_sorted : ∀ l, (sortStr l).Pairwise (fun a b => strLe a b = true)
  | [] => by simp [sortStr]
  | x :: xs => insertStr_sorted x _ (sortStr_sorted xs)

theorem sorted_unique : ∀ {l l' : List Str}, l.Pairwise (fun a b => strLe a b = true) →
    l'.Pairwise (fun a b => strLe a b = true) → l.Perm l' → l = l'
  | [], l', _, _, hp => by rw [List.nil_perm] at hp; exact hp.symm
  | x :: xs, l', h, h', hp => by
    cases l' with
    | nil => simp at hp
    | cons y ys =>
      have hxy : x = y := by
        rw [List.pairwise_cons] at h h'
        have hx : x ∈ y :: ys := hp.mem_iff.1 (by simp)
        have hy : y ∈ x :: xs := hp.mem_iff.2 (by simp)
        rcases List.mem_cons.1 hx with e | hx
        · exact e
        · rcases List.mem_cons.1 hy with e | hy
          · exact e.symm
          · exact strLe_antisymm (h.1 y hy) (h'.1 x hx)
      subst hxy
      rw [List.pairwise_cons] at h h'
      rw [sorted_unique h.2 h'.2 (List.Perm.cons_inv hp)]

theorem sortStr_eq_iff (l l' : List Str) : sortStr l = sortStr l' ↔ l.Perm l' :=
  ⟨fun h => (sortStr_perm l).symm.trans (h ▸ sortStr_perm l'),
    fun h => sorted_unique (sortStr_sorted l) (sortStr_sorted l') ((sortStr_perm l).trans (h.trans (sortStr_perm l').symm))⟩

theorem key_eq_iff (b c : Backend) : key b = key c ↔ SameLoc b c := by
  have hm : (truthy b.multi).map sortStr = (truthy c.multi).map sortStr ↔ (b.multi.getD []).Perm (c.multi.getD []) := by
    cases hb : b.multi with
    | none =>
      cases hc : c.multi with
      | none => simp [truthy]
      | some m => cases m <;> simp [truthy, List.nil_perm]
    | some l =>
      cases hc : c.multi with
      | none => cases l <;> simp [truthy, List.perm_nil]
      | some m =>
        cases l with
        | nil => cases m <;> simp [truthy, List.nil_perm]
        | cons x xs =>
          cases m with
          | nil => simp [truthy, List.perm_nil]
          | cons y ys => simp [truthy, sortStr_eq_iff]
  unfold key SameLoc
  simp only [Prod.mk.injEq, hm]

theorem lastWith_some {k : Nat × Option Str × Option Str × Option (List Str)} {db : List Backend} {b : Backend}
    (h : lastWith k db = some b) : b ∈ db ∧ key b = k := by
  unfold lastWith at h
  have := List.find?_some h
  exact ⟨by simpa using List.mem_of_find?_eq_some h, by simpa using this⟩

theorem lastWith_mem {db : List Backend} (hn : (db.map key).Nodup) {b : Backend} (hb : b ∈ db) :
    lastWith (key b) db = some b := by
  cases h : lastWith (key b) db with
  | none =>
    unfold lastWith at h
    rw [List.find?_eq_none] at h
    exact absurd (by simp) (h b (by simpa using hb))
  | some c =>
    obtain ⟨hc, hk⟩ := lastWith_some h
    rw [List.inj_on_of_nodup_map hn hc hb hk]

/-- C69: a server starts only on a table that agrees with its configuration: if no two entries of the
configuration have the same level and location, verification succeeds exactly when no entry has
an unknown type and the rows and the entries correspond to each other one to one. -/
theorem C69_verify (cfg db : List Backend) (hd : cfg.Pairwise fun b c => ¬ SameLoc b c) :
    verifyDb cfg db = true ↔ (∀ c ∈ cfg, c.btype ≠ .unspecified) ∧ db.length = cfg.length ∧
      (∀ c ∈ cfg, ∃ b ∈ db, Agrees b c) ∧ (∀ b ∈ db, ∃ c ∈ cfg, Agrees b c) := by
  have hn : (cfg.map key).Nodup := by
    rw [List.Nodup, List.pairwise_map]
    exact hd.imp fun h e => h ((key_eq_iff _ _).1 e)
  have hperm : db.length = cfg.length → (∀ c ∈ cfg, ∃ b ∈ db, key b = key c) → (cfg.map key).Perm (db.map key) := by
    intro hl h
    have hsub : cfg.map key ⊆ db.map key := by
      intro k hk
      obtain ⟨c, hc, rfl⟩ := List.mem_map.1 hk
      obtain ⟨b, hb, e⟩ := h c hc
      exact List.mem_map.2 ⟨b, hb, e⟩
    exact (List.subperm_of_subset hn hsub).perm_of_length_le (by simp [hl])
  unfold verifyDb
  simp only [Bool.and_eq_true, decide_eq_true_eq, List.all_eq_true]
  constructor
  · rintro ⟨hl, hall⟩
    have h1 : ∀ c ∈ cfg, ∃ b ∈ db, Agrees b c := by
      intro c hc
      have := (hall c hc).2
      split at this
      · cases this
      · next b hb =>
        obtain ⟨hm, hk⟩ := lastWith_some hb
        simp only [Bool.and_eq_true, decide_eq_true_eq] at this
        exact ⟨b, hm, (key_eq_iff _ _).1 hk, this.1, this.2⟩
    refine ⟨fun c hc => (hall c hc).1, hl, h1, fun b hb => ?_⟩
    have hp := hperm hl fun c hc => by
      obtain ⟨b, hb, ha⟩ := h1 c hc
      exact ⟨b, hb, (key_eq_iff _ _).2 ha.1⟩
    have hk : key b ∈ cfg.map key := hp.mem_iff.2 (List.mem_map.2 ⟨b, hb, rfl⟩)
    obtain ⟨c, hc, e⟩ := List.mem_map.1 hk
    obtain ⟨b', hb', ha⟩ := h1 c hc
    have hb2 : b' = b := List.inj_on_of_nodup_map (hp.nodup_iff.1 hn) hb' hb (by rw [(key_eq_iff _ _).2 ha.1, e])
    exact ⟨c, hc, hb2 ▸ ha⟩
  · rintro ⟨ht, hl, h1, _⟩
    refine ⟨hl, fun c hc => ⟨ht c hc, ?_⟩⟩
    have hp := hperm hl fun c hc => by
      obtain ⟨b, hb, ha⟩ := h1 c hc
      exact ⟨b, hb, (key_eq_iff _ _).2 ha.1⟩
    obtain ⟨b, hb, ha⟩ := h1 c hc
    have : lastWith (key c) db = some b := by
      rw [← (key_eq_iff _ _).2 ha.1]; exact lastWith_mem (hp.nodup_iff.1 hn) hb
    rw [this]
    simp [ha.2.1, ha.2.2]

theorem Agrees.refl (b : Backend) : Agrees b b := ⟨⟨rfl, rfl, rfl, List.Perm.refl _⟩, rfl, rfl⟩

/-- C69: initialisation writes the configuration into an empty table and never changes a table that has
rows; after initialising an empty table verification succeeds. -/
theorem C69_initialize (cfg db db' : List Backend) (h : initDb cfg db = some db') :
    (db ≠ [] → db' = db) ∧
    (db = [] → db' = cfg ∧ (cfg.Pairwise (fun b c => ¬ SameLoc b c) → verifyDb cfg db' = true)) := by
  unfold initDb at h
  split at h
  · next hne => cases h; exact ⟨fun _ => rfl, fun e => absurd e hne⟩
  · next he =>
    split at h
    · cases h
    · next hu =>
      split at h
      · cases h
        refine ⟨fun h => absurd h he, fun _ => ⟨rfl, fun hd => ?_⟩⟩
        rw [C69_verify _ _ hd]
        refine ⟨fun c hc e => hu (List.any_eq_true.2 ⟨c, hc, by simp [e]⟩), rfl, fun c hc => ⟨c, hc, Agrees.refl c⟩,
          fun b hb => ⟨b, hb, Agrees.refl b⟩⟩
      · cases h

/-- C69: an initialised table has no location with a name twice at a level, one type of storage per
level, and exactly one location per row. -/
theorem C69_initialized_valid (cfg db : List Backend) (h : initDb cfg [] = some db) :
    (∀ b ∈ db, OneLoc b) ∧ (∀ b ∈ db, ∀ c ∈ db, b.level = c.level → b.btype = c.btype) ∧
    db.Pairwise (fun b c => b.level = c.level → (∀ z, z ≠ [] → b.zone = some z → c.zone ≠ some z) ∧
      (∀ r, r ≠ [] → b.region = some r → c.region ≠ some r) ∧
      (∀ m, m ≠ [] → b.multi = some m → ∀ m', c.multi = some m' → ¬ m.Perm m')) := by
  unfold initDb at h
  simp only [ne_eq, not_true_eq_false, if_false] at h
  split at h
  · cases h
  split at h
  · next hv =>
    cases h
    simp only [validTable, Bool.and_eq_true, List.all_eq_true] at hv
    obtain ⟨h1, h2⟩ := hv
    have hlev : ∀ b ∈ cfg, ∀ c ∈ cfg, b.level = c.level → b.btype = c.btype := by
      intro b hb c hc e
      have := h2 b hb
      simp only [validLevel, Bool.and_eq_true, List.all_eq_true, decide_eq_true_eq] at this
      exact this.1.1.1 b (List.mem_filter.2 ⟨hb, by simp⟩) c (List.mem_filter.2 ⟨hc, by simp [e]⟩)
    refine ⟨?_, hlev, ?_⟩
    · intro b hb
      have := h1 b hb
      unfold oneLocation at this
      unfold OneLoc
      cases hz : b.zone <;> cases hr : b.region <;> cases hm : b.multi <;> simp_all
    · rw [List.pairwise_iff_forall_sublist]
      intro b c hs he
      have hb : b ∈ cfg := hs.subset (by simp)
      have := h2 b hb
      simp only [validLevel, dup, Bool.and_eq_true, Bool.not_not, decide_eq_true_eq] at this
      obtain ⟨⟨⟨_, hz⟩, hr⟩, hm⟩ := this
      have hsub : [b, c].Sublist (cfg.filter fun x => decide (x.level = b.level)) := by
        have := hs.filter (fun x => decide (x.level = b.level))
        simpa [he] using this
      refine ⟨fun z hzn e1 e2 => ?_, fun r hrn e1 e2 => ?_, fun m hmn e1 m' e2 hp => ?_⟩
      · have := (hsub.filterMap fun b => truthy b.zone).nodup hz
        rw [List.filterMap_cons_some (f := fun b : Backend => truthy b.zone) (truthy_some.2 ⟨e1, hzn⟩),
          List.filterMap_cons_some (f := fun b : Backend => truthy b.zone) (truthy_some.2 ⟨e2, hzn⟩)] at this
        simp at this
      · have := (hsub.filterMap fun b => truthy b.region).nodup hr
        rw [List.filterMap_cons_some (f := fun b : Backend => truthy b.region) (truthy_some.2 ⟨e1, hrn⟩),
          List.filterMap_cons_some (f := fun b : Backend => truthy b.region) (truthy_some.2 ⟨e2, hrn⟩)] at this
        simp at this
      · have := (hsub.filterMap fun b => (truthy b.multi).map sortStr).nodup hm
        have hm'n : m' ≠ [] := by rintro rfl; exact hmn (List.perm_nil.1 hp)
        rw [List.filterMap_cons_some (b := sortStr m) (by rw [truthy_some.2 ⟨e1, hmn⟩]; rfl),
          List.filterMap_cons_some (b := sortStr m') (by rw [truthy_some.2 ⟨e2, hm'n⟩]; rfl),
          (sortStr_eq_iff m m').2 hp] at this
        simp at this
  · cases h

theorem C69_nonvacuous : initDb exampleBackends [] = some exampleBackends ∧
    exampleBackends.Pairwise (fun b c => ¬ SameLoc b c) ∧ verifyDb exampleBackends exampleBackends.reverse = true ∧
    verifyDb exampleBackends (exampleBackends.drop 1) = false := by
  refine ⟨by decide, ?_, by decide, by decide⟩
  have : (exampleBackends.map key).Nodup := by simp [exampleBackends, key, truthy, usA, us]
  rw [List.Nodup, List.pairwise_map] at this
  exact this.imp fun h e => h ((key_eq_iff _ _).2 e)

/-- C69 (finding): verification does not notice a row that is not configured if the configuration names
another backend twice: it compares the numbers and looks up every entry, but never asks for the
entry of a row. -/
theorem C69_repeated_entry_fails : ∃ cfg db, verifyDb cfg db = true ∧ ∃ b ∈ db, ∀ c ∈ cfg, ¬ Agrees b c := by
  refine ⟨[{ zone := some usA, pfx := ['p'] }, { zone := some usA, pfx := ['p'] }],
    [{ zone := some usA, pfx := ['p'] }, { zone := some usB, pfx := ['q'] }], by decide,
    { zone := some usB, pfx := ['q'] }, by simp, ?_⟩
  intro c hc h
  have h2 := h.2.2
  clear h
  revert c; decide

/-- C69 (finding): two servers that start on an empty database at the same time both fill the table,
which nothing forbids since a session only checks its own rows; from then on no server with that
configuration starts, as verification fails and a table with rows is never changed. -/
theorem C69_concurrent_init_fails (cfg rows : List Backend) (hne : cfg ≠ []) (h : initTwice cfg = some rows) :
    verifyDb cfg rows = false ∧ initDb cfg rows = some rows := by
  unfold initTwice at h
  split at h
  · next r hr =>
    cases h
    have e := ((C69_initialize cfg [] r hr).2 rfl).1
    subst e
    constructor
    · have : (r ++ r).length ≠ r.length := by
        have := List.length_pos_iff.2 hne
        simp only [List.length_append]; omega
      simp only [verifyDb, this, decide_false, Bool.false_and]
    · unfold initDb
      rw [if_pos (by simp [hne])]
  · cases h

theorem C69_concurrent_nonvacuous : initTwice exampleBackends = some (exampleBackends ++ exampleBackends) := by decide

end Verif.Tiering.Routing
