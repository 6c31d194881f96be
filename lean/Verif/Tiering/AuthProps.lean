import Verif.Tiering.Auth

/-!
# C126: no change at the tiering service without permission
-/

namespace Verif.Tiering.Auth

/-! ## Specification: uses only the types of Auth.lean -/

/-- The call carries the token `t`: its last authorization header is `Bearer t`. -/
def Presents (md : Metadata) (t : String) : Prop :=
  ∃ pre post, md = pre ++ ("authorization", "Bearer " ++ t) :: post ∧ ∀ e ∈ post, e.1 ≠ "authorization"

/-- The token of a call, or none. -/
def TokenOf (md : Metadata) : Option String → Prop
  | some t => Presents md t
  | none => ∀ t, ¬ Presents md t

/-- The caller may read: the storage system of the backend says so. -/
def MayRead (v : Verifier) (md : Metadata) (b : Backend) (path : String) : Prop :=
  ∃ o, TokenOf md o ∧ (b.kind = .gcs ∧ v.gcs o path ["storage.objects.get"] = true ∨
    b.kind = .lustre ∧ v.lustre o path = true)

/-- The caller may write. -/
def MayWrite (v : Verifier) (md : Metadata) (b : Backend) (path : String) : Prop :=
  ∃ o, TokenOf md o ∧ (b.kind = .gcs ∧ v.gcs o path ["storage.objects.create"] = true ∨
    b.kind = .lustre ∧ v.lustre o path = true)

/-- The storage systems refuse callers without a token. -/
def RefusesAnonymous (v : Verifier) : Prop :=
  (∀ p q, v.gcs none p q = false) ∧ ∀ p, v.lustre none p = false

/-! ## Lemmas -/

theorem header_some (md : Metadata) (name h : String) :
    header md name = some h ↔
      ∃ pre post, md = pre ++ (name, h) :: post ∧ ∀ e ∈ post, e.1 ≠ name := by
  unfold header
  constructor
  · intro he
    cases hf : md.reverse.find? (fun e => e.1 == name) with
    | none =>
      rw [hf] at he
      cases he
    | some e =>
      rw [hf] at he
      simp only [Option.map_some, Option.some.injEq] at he
      obtain ⟨h1, as, bs, h2, h3⟩ := List.find?_eq_some_iff_append.1 hf
      simp only [beq_iff_eq] at h1
      refine ⟨bs.reverse, as.reverse, ?_, ?_⟩
      · have := congrArg List.reverse h2
        rw [List.reverse_reverse] at this
        rw [this]
        simp [← h1, ← he]
      · intro x hx
        have := h3 x (List.mem_reverse.1 hx)
        simpa using this
  · rintro ⟨pre, post, rfl, hp⟩
    have : (pre ++ (name, h) :: post).reverse.find? (fun e => e.1 == name) = some (name, h) := by
      refine List.find?_eq_some_iff_append.2 ⟨by simp, post.reverse, pre.reverse, by simp, ?_⟩
      intro x hx
      simpa using hp x (List.mem_reverse.1 hx)
    rw [this]
    rfl

theorem bearer (h t : String) :
    ("Bearer ".toList.isPrefixOf h.toList = true ∧ String.ofList (h.toList.drop 7) = t) ↔ h = "Bearer " ++ t := by
  have hl : "Bearer ".toList.length = 7 := by decide
  constructor
  · rintro ⟨h1, rfl⟩
    rw [List.isPrefixOf_iff_prefix] at h1
    obtain ⟨r, hr⟩ := h1
    apply String.toList_inj.1
    rw [String.toList_append, String.toList_ofList, ← hr]
    rw [List.drop_append_of_le_length (by omega), List.drop_of_length_le (by omega)]
    simp
  · rintro rfl
    rw [String.toList_append]
    refine ⟨?_, ?_⟩
    · rw [List.isPrefixOf_iff_prefix]
      exact List.prefix_append _ _
    · rw [List.drop_append_of_le_length (by omega), List.drop_of_length_le (by omega)]
      simp

theorem getToken_some (md : Metadata) (t : String) : getToken md = some t ↔ Presents md t := by
  unfold getToken
  constructor
  · intro h
    split at h
    · cases h
    · rename_i hd he
      split at h
      · rename_i hp
        simp only [Option.some.injEq] at h
        obtain rfl := (bearer hd t).1 ⟨hp, h⟩
        exact (header_some _ _ _).1 he
      · cases h
  · intro h
    have he : header md "authorization" = some ("Bearer " ++ t) := (header_some _ _ _).2 h
    obtain ⟨h1, h2⟩ := (bearer _ t).2 rfl
    simp only [he, h1, if_true, h2]

/-- C126: the token of a call is what follows `Bearer ` in the last authorization header;
any other header counts as no token. -/
theorem C126_token (md : Metadata) (o : Option String) : getToken md = o ↔ TokenOf md o := by
  cases o with
  | some t => exact getToken_some md t
  | none =>
    constructor
    · intro h t ht
      rw [(getToken_some md t).2 ht] at h
      cases h
    · intro h
      cases hg : getToken md with
      | none => rfl
      | some t => exact absurd ((getToken_some md t).1 hg) (h t)

theorem hasRead_iff (v : Verifier) (md : Metadata) (b : Backend) (p : String) :
    hasRead v (getToken md) b p = true ↔ MayRead v md b p := by
  unfold hasRead MayRead
  constructor
  · intro h
    refine ⟨_, (C126_token md _).1 rfl, ?_⟩
    cases hb : b.kind <;> rw [hb] at h <;> simp_all
  · rintro ⟨o, ho, h⟩
    rw [(C126_token md o).2 ho]
    rcases h with ⟨hk, h⟩ | ⟨hk, h⟩ <;> rw [hk] <;> exact h

theorem hasWrite_iff (v : Verifier) (md : Metadata) (b : Backend) (p : String) :
    hasWrite v (getToken md) b p = true ↔ MayWrite v md b p := by
  unfold hasWrite MayWrite
  constructor
  · intro h
    refine ⟨_, (C126_token md _).1 rfl, ?_⟩
    cases hb : b.kind <;> rw [hb] at h <;> simp_all
  · rintro ⟨o, ho, h⟩
    rw [(C126_token md o).2 ho]
    rcases h with ⟨hk, h⟩ | ⟨hk, h⟩ <;> rw [hk] <;> exact h

theorem anon_read {v : Verifier} (hv : RefusesAnonymous v) {md : Metadata} (hm : ∀ t, ¬ Presents md t)
    (b : Backend) (p : String) : ¬ MayRead v md b p := by
  rintro ⟨o, ho, h⟩
  cases o with
  | some t => exact hm t ho
  | none =>
    rcases h with ⟨_, h⟩ | ⟨_, h⟩
    · rw [hv.1] at h; cases h
    · rw [hv.2] at h; cases h

theorem anon_write {v : Verifier} (hv : RefusesAnonymous v) {md : Metadata} (hm : ∀ t, ¬ Presents md t)
    (b : Backend) (p : String) : ¬ MayWrite v md b p := by
  rintro ⟨o, ho, h⟩
  cases o with
  | some t => exact hm t ho
  | none =>
    rcases h with ⟨_, h⟩ | ⟨_, h⟩
    · rw [hv.1] at h; cases h
    · rw [hv.2] at h; cases h

/-! ## Theorems -/

/-- C126: a reservation changes the database, or returns an asset, only if the caller may
write to the new storage path; and a caller that may is not turned away for lack of
permission. -/
theorem C126_reserve (v : Verifier) (ops : Ops) (md : Metadata) (path : String) (loc : Bool)
    (closest : Option Backend) (fresh : String) (db : DB) :
    ((reserve v ops md path loc closest fresh db).1 ≠ db ∨
      (∃ as, (reserve v ops md path loc closest fresh db).2 = .ok as) →
      ∃ b, closest = some b ∧ MayWrite v md b (ops.storagePath b path fresh)) ∧
    ((reserve v ops md path loc closest fresh db).2 = .denied ↔
      loc = true ∧ ∃ b, closest = some b ∧ ¬ MayWrite v md b (ops.storagePath b path fresh)) := by
  unfold reserve
  cases loc with
  | false => simp
  | true =>
    cases closest with
    | none => simp
    | some b =>
      simp only [Bool.true_eq_false, if_false, Option.some.injEq, exists_eq_left', true_and]
      by_cases h : hasWrite v (getToken md) b (ops.storagePath b path fresh) = true
      · have hw := (hasWrite_iff _ _ _ _).1 h
        simp only [h, if_true, hw, not_true_eq_false, iff_false]
        refine ⟨fun _ => trivial, ?_⟩
        cases ops.create db path b (ops.storagePath b path fresh) fresh with
        | none => simp
        | some r => simp
      · have hw : ¬ MayWrite v md b (ops.storagePath b path fresh) := fun x => h ((hasWrite_iff _ _ _ _).2 x)
        simp [h, hw]

/-- C126: finalizing changes the database, or returns an asset, only if that asset is being
written and the caller may write where it is written. -/
theorem C126_finalize (v : Verifier) (ops : Ops) (md : Metadata) (uuid : String) (db : DB)
    (h : (finalize v ops md uuid db).1 ≠ db ∨ ∃ as, (finalize v ops md uuid db).2 = .ok as) :
    ∃ a ∈ db, a.uuid = uuid ∧ a.state = .writing ∧
      ∃ tp, a.tiers.head? = some tp ∧ MayWrite v md tp.backend tp.path := by
  unfold finalize at h
  split at h
  · simp at h
  · rename_i a ha
    split at h
    · rename_i hs
      split at h
      · simp at h
      · rename_i tp tps ht
        split at h
        · rename_i hw
          refine ⟨a, List.mem_of_find?_eq_some ha, ?_, hs, tp, by rw [ht]; rfl, (hasWrite_iff _ _ _ _).1 hw⟩
          have := List.find?_some ha
          simpa using this
        · simp at h
    · simp at h

theorem fetch_head (db : DB) (i : Ident) (states : List AState) (a : Asset) (as : List Asset)
    (h : fetch db i states = a :: as) :
    a ∈ db ∧ a.state ∈ states ∧ (∀ u, i = .uuid u → a.uuid = u) ∧ (∀ p, i = .path p → a.path = p) := by
  have hm : a ∈ fetch db i states := by rw [h]; exact List.mem_cons_self
  unfold fetch at hm
  simp only [List.mem_filter, Bool.and_eq_true, List.contains_iff_mem] at hm
  obtain ⟨h1, h2, h3⟩ := hm
  refine ⟨h1, h3, ?_, ?_⟩
  · rintro u rfl
    simpa using h2
  · rintro p rfl
    simpa using h2

/-- C126: a prefetch changes the database only if the caller may read the asset (on its
first tier path) and the place it is copied to. -/
theorem C126_prefetch (v : Verifier) (ops : Ops) (md : Metadata) (i : Ident) (loc : Bool)
    (closest : Option Backend) (fresh : String) (db : DB)
    (h : (prefetch v ops md i loc closest fresh db).1 ≠ db) :
    ∃ b, closest = some b ∧ ∃ a ∈ db, a.state = .stored ∧ (∀ u, i = .uuid u → a.uuid = u) ∧
      (∀ p, i = .path p → a.path = p) ∧
      (∀ tp, a.tiers.head? = some tp → MayRead v md tp.backend tp.path) ∧
      MayRead v md b (ops.storagePath b a.path fresh) := by
  unfold prefetch at h
  split at h
  · simp at h
  · split at h
    · simp at h
    · rename_i b
      split at h
      · simp at h
      · rename_i a as hf
        obtain ⟨f1, f2, f3, f4⟩ := fetch_head _ _ _ _ _ hf
        split at h
        · simp at h
        · simp only at h
          split at h
          · rename_i hp
            simp only [prefetchAllowed, Bool.and_eq_true] at hp
            refine ⟨b, rfl, a, f1, by simpa using f2, f3, f4, ?_, (hasRead_iff _ _ _ _).1 hp.2⟩
            intro tp htp
            cases ht : a.tiers with
            | nil =>
              rw [ht] at htp
              cases htp
            | cons t ts =>
              rw [ht] at htp
              cases htp
              have := hp.1
              rw [ht] at this
              exact (hasRead_iff _ _ _ _).1 this
          · simp at h

/-- C126: a delete changes the database only if the caller may write to every tier path of
the asset. -/
theorem C126_delete (v : Verifier) (ops : Ops) (md : Metadata) (i : Ident) (db : DB)
    (h : (delete v ops md i db).1 ≠ db ∨ ∃ as, (delete v ops md i db).2 = .ok as) :
    ∃ a ∈ db, (a.state = .writing ∨ a.state = .stored) ∧ (∀ u, i = .uuid u → a.uuid = u) ∧
      (∀ p, i = .path p → a.path = p) ∧ ∀ tp ∈ a.tiers, MayWrite v md tp.backend tp.path := by
  unfold delete at h
  split at h
  · simp at h
  · rename_i a as hf
    obtain ⟨f1, f2, f3, f4⟩ := fetch_head _ _ _ _ _ hf
    split at h
    · rename_i hp
      simp only [List.all_eq_true] at hp
      refine ⟨a, f1, by simpa using f2, f3, f4, ?_⟩
      intro tp htp
      exact (hasWrite_iff _ _ _ _).1 (hp tp htp)
    · simp at h

/-- C126: nobody who has the permissions is turned away for lack of them: a call is denied
only if a permission on the asset it names is missing. -/
theorem C126_denied (v : Verifier) (ops : Ops) (md : Metadata) (db : DB) :
    (∀ uuid, (finalize v ops md uuid db).2 = .denied →
      ∃ a ∈ db, a.uuid = uuid ∧ ∃ tp ∈ a.tiers, ¬ MayWrite v md tp.backend tp.path) ∧
    (∀ i loc b fresh, (∀ d a b p u, ops.prefetch d a b p u ≠ .error .denied) →
      (prefetch v ops md i loc (some b) fresh db).2 = .denied →
      ∃ a ∈ db, (∀ u, i = .uuid u → a.uuid = u) ∧ (∀ p, i = .path p → a.path = p) ∧
        ((∃ tp ∈ a.tiers, ¬ MayRead v md tp.backend tp.path) ∨
          ¬ MayRead v md b (ops.storagePath b a.path fresh))) ∧
    (∀ i, (delete v ops md i db).2 = .denied →
      ∃ a ∈ db, (∀ u, i = .uuid u → a.uuid = u) ∧ (∀ p, i = .path p → a.path = p) ∧
        ∃ tp ∈ a.tiers, ¬ MayWrite v md tp.backend tp.path) := by
  refine ⟨?_, ?_, ?_⟩
  · intro uuid h
    unfold finalize at h
    split at h
    · cases h
    · rename_i a ha
      split at h
      · split at h
        · cases h
        · rename_i tp tps ht
          split at h
          · split at h <;> cases h
          · rename_i hw
            refine ⟨a, List.mem_of_find?_eq_some ha, by simpa using List.find?_some ha, tp,
              by rw [ht]; exact List.mem_cons_self, fun x => hw ((hasWrite_iff _ _ _ _).2 x)⟩
      · cases h
  · intro i loc b fresh hp h
    simp only [prefetch] at h
    split at h
    · cases h
    · split at h
      · cases h
      · rename_i a as hf
        obtain ⟨f1, f2, f3, f4⟩ := fetch_head _ _ _ _ _ hf
        split at h
        · cases h
        · split at h
          · split at h
            · cases h
            · rename_i r hr
              simp only at h
              subst h
              exact absurd hr (hp _ _ _ _ _)
          · rename_i hw
            refine ⟨a, f1, f3, f4, ?_⟩
            simp only [prefetchAllowed, Bool.and_eq_true, not_and] at hw
            refine Classical.byContradiction fun hn => ?_
            have h1 : ∀ tp ∈ a.tiers, MayRead v md tp.backend tp.path := by
              intro tp htp
              exact Classical.byContradiction fun hx => hn (Or.inl ⟨tp, htp, hx⟩)
            have h2 : MayRead v md b (ops.storagePath b a.path fresh) :=
              Classical.byContradiction fun hx => hn (Or.inr hx)
            refine hw ?_ ((hasRead_iff _ _ _ _).2 h2)
            cases ht : a.tiers with
            | nil => rfl
            | cons tp tps => exact (hasRead_iff _ _ _ _).2 (h1 tp (by rw [ht]; exact List.mem_cons_self))
  · intro i h
    unfold delete at h
    split at h
    · cases h
    · rename_i a as hf
      obtain ⟨f1, f2, f3, f4⟩ := fetch_head _ _ _ _ _ hf
      split at h
      · split at h <;> cases h
      · rename_i hw
        refine ⟨a, f1, f3, f4, ?_⟩
        refine Classical.byContradiction fun hn => hw ?_
        simp only [List.all_eq_true]
        intro tp htp
        exact (hasWrite_iff _ _ _ _).2 (Classical.byContradiction fun hx => hn ⟨tp, htp, hx⟩)

/-- C126: if the storage systems refuse callers without a token, such a caller can reserve,
finalize, prefetch and delete nothing. (An asset has a tier path from the time it is
reserved.) -/
theorem C126_anonymous (v : Verifier) (ops : Ops) (md : Metadata) (hv : RefusesAnonymous v)
    (hm : ∀ t, ¬ Presents md t) (db : DB) :
    (∀ path loc closest fresh, (reserve v ops md path loc closest fresh db).1 = db ∧
      ∀ as, (reserve v ops md path loc closest fresh db).2 ≠ .ok as) ∧
    (∀ uuid, (finalize v ops md uuid db).1 = db ∧ ∀ as, (finalize v ops md uuid db).2 ≠ .ok as) ∧
    (∀ i loc closest fresh, (prefetch v ops md i loc closest fresh db).1 = db) ∧
    ((∀ a ∈ db, a.tiers ≠ []) → ∀ i, (delete v ops md i db).1 = db ∧ ∀ as, (delete v ops md i db).2 ≠ .ok as) := by
  refine ⟨?_, ?_, ?_, ?_⟩
  · intro path loc closest fresh
    have := (C126_reserve v ops md path loc closest fresh db).1
    have hn : ¬ ∃ b, closest = some b ∧ MayWrite v md b (ops.storagePath b path fresh) := by
      rintro ⟨b, _, h⟩
      exact anon_write hv hm _ _ h
    refine ⟨Classical.byContradiction fun h => hn (this (Or.inl h)), fun as h => hn (this (Or.inr ⟨as, h⟩))⟩
  · intro uuid
    have hn : ¬ ∃ a ∈ db, a.uuid = uuid ∧ a.state = .writing ∧
        ∃ tp, a.tiers.head? = some tp ∧ MayWrite v md tp.backend tp.path := by
      rintro ⟨a, _, _, _, tp, _, h⟩
      exact anon_write hv hm _ _ h
    refine ⟨Classical.byContradiction fun h => hn (C126_finalize v ops md uuid db (Or.inl h)),
      fun as h => hn (C126_finalize v ops md uuid db (Or.inr ⟨as, h⟩))⟩
  · intro i loc closest fresh
    refine Classical.byContradiction fun h => ?_
    obtain ⟨b, _, a, _, _, _, _, _, h⟩ := C126_prefetch v ops md i loc closest fresh db h
    exact anon_read hv hm _ _ h
  · intro ht i
    have hn : ¬ ∃ a ∈ db, (a.state = .writing ∨ a.state = .stored) ∧ (∀ u, i = .uuid u → a.uuid = u) ∧
        (∀ p, i = .path p → a.path = p) ∧ ∀ tp ∈ a.tiers, MayWrite v md tp.backend tp.path := by
      rintro ⟨a, ha, _, _, _, h⟩
      cases hc : a.tiers with
      | nil => exact ht a ha hc
      | cons tp tps => exact anon_write hv hm _ _ (h tp (by rw [hc]; exact List.mem_cons_self))
    refine ⟨Classical.byContradiction fun h => hn (C126_delete v ops md i db (Or.inl h)),
      fun as h => hn (C126_delete v ops md i db (Or.inr ⟨as, h⟩))⟩

/-- C126: a refused call, or any that ends with an error, changes nothing. -/
theorem C126_error_no_change (v : Verifier) (ops : Ops) (md : Metadata) (db : DB) :
    (∀ path loc closest fresh, (∀ as, (reserve v ops md path loc closest fresh db).2 ≠ .ok as) →
      (reserve v ops md path loc closest fresh db).1 = db) ∧
    (∀ uuid, (∀ as, (finalize v ops md uuid db).2 ≠ .ok as) → (finalize v ops md uuid db).1 = db) ∧
    (∀ i loc closest fresh, (∀ as, (prefetch v ops md i loc closest fresh db).2 ≠ .ok as) →
      (prefetch v ops md i loc closest fresh db).1 = db) ∧
    (∀ i, (∀ as, (delete v ops md i db).2 ≠ .ok as) → (delete v ops md i db).1 = db) := by
  refine ⟨?_, ?_, ?_, ?_⟩
  · intro path loc closest fresh h
    revert h
    simp only [reserve]
    repeat' split
    all_goals (intro h; first | rfl | exact absurd rfl (h _))
  · intro uuid h
    revert h
    unfold finalize
    repeat' split
    all_goals (intro h; first | rfl | exact absurd rfl (h _))
  · intro i loc closest fresh h
    revert h
    simp only [prefetch]
    repeat' split
    all_goals (intro h; first | rfl | exact absurd rfl (h _))
  · intro i h
    revert h
    unfold delete
    repeat' split
    all_goals (intro h; first | rfl | exact absurd rfl (h _))

/-- C126 (finding): the permission checks of this commit accept every token: a caller that
sends `Bearer ` and anything after it, or nothing, may read and write every path on
every GCS and Lustre backend. -/
theorem C126_any_token_fails (t : String) (md : Metadata) (b : Backend) (path : String) (hb : b.kind ≠ .unknown) :
    MayRead stub (md ++ [("authorization", "Bearer " ++ t)]) b path ∧
    MayWrite stub (md ++ [("authorization", "Bearer " ++ t)]) b path := by
  have ht : TokenOf (md ++ [("authorization", "Bearer " ++ t)]) (some t) := ⟨md, [], rfl, by simp⟩
  refine ⟨⟨some t, ht, ?_⟩, ⟨some t, ht, ?_⟩⟩ <;>
    (cases hk : b.kind with
     | gcs => exact Or.inl ⟨rfl, rfl⟩
     | lustre => exact Or.inr ⟨rfl, rfl⟩
     | unknown => exact absurd hk hb)

/-- C126 (finding): keeping a reservation or a prefetched copy alive needs no permission:
whoever knows the uuid, with any headers or none, gets the same effect. -/
theorem C126_keep_alive_fails (ops : Ops) (md md' : Metadata) (uuid : String) (db : DB) :
    reserveKeepAlive ops md uuid db = reserveKeepAlive ops md' uuid db ∧
    prefetchKeepAlive ops md uuid db = prefetchKeepAlive ops md' uuid db := ⟨rfl, rfl⟩

/-- C126 (finding): everything about an asset can be read without permission: through
`Info`, and through `Prefetch` if the asset is on the closest backend already. -/
theorem C126_info_fails (v : Verifier) (ops : Ops) (a : Asset) (db : DB) (hs : a.state = .stored)
    (ha : a ∈ db) (hu : ∀ x ∈ db, x.uuid = a.uuid → x = a) :
    (∃ as, (info [] (.uuid a.uuid) db).2 = .ok as ∧ a ∈ as) ∧
    ∀ tp ∈ a.tiers, tp.live = true → ∀ fresh,
      (prefetch v ops [] (.uuid a.uuid) true (some tp.backend) fresh db).2 = .ok [a] := by
  have hm : ∀ st : List AState, AState.stored ∈ st → a ∈ fetch db (.uuid a.uuid) st := by
    intro st hst
    simp [fetch, ha, hs, hst]
  refine ⟨?_, ?_⟩
  · unfold info
    split
    · rename_i h
      have := hm [.writing, .stored] (by simp)
      rw [h] at this
      cases this
    · exact ⟨_, rfl, hm _ (by simp)⟩
  · intro tp htp hl fresh
    unfold prefetch
    simp only [Bool.true_eq_false, if_false]
    split
    · rename_i h
      have := hm [.stored] (by simp)
      rw [h] at this
      cases this
    · rename_i x xs h
      obtain ⟨h1, _, h3, _⟩ := fetch_head _ _ _ _ _ h
      obtain rfl := hu x h1 (h3 _ rfl)
      rw [if_pos]
      simp only [List.any_eq_true, Bool.and_eq_true, beq_iff_eq]
      exact ⟨tp, htp, hl, rfl⟩

/-- C126 (finding): a caller that may do nothing can tell whether an asset exists: the
lookup comes before the check. -/
theorem C126_existence_fails (v : Verifier) (ops : Ops) (md : Metadata) (hv : RefusesAnonymous v)
    (hm : ∀ t, ¬ Presents md t) (i : Ident) (db : DB) (ht : ∀ a ∈ db, a.tiers ≠ []) :
    ((delete v ops md i db).2 = .notFound ↔ fetch db i [.writing, .stored] = []) ∧
    ((delete v ops md i db).2 = .denied ↔ fetch db i [.writing, .stored] ≠ []) := by
  unfold delete
  split
  · rename_i h
    simp [h]
  · rename_i a as h
    have ha := (fetch_head _ _ _ _ _ h).1
    rw [if_neg]
    · simp [h]
    · intro hp
      simp only [List.all_eq_true] at hp
      cases hc : a.tiers with
      | nil => exact ht a ha hc
      | cons tp tps =>
        exact anon_write hv hm _ _ ((hasWrite_iff _ _ _ _).1 (hp tp (by rw [hc]; exact List.mem_cons_self)))

/-- C126 (finding): a prefetch makes the service write to the target backend although the
caller may not write there. -/
theorem C126_prefetch_write_fails :
    ∃ (v : Verifier) (ops : Ops) (md : Metadata) (b : Backend) (db : DB),
      RefusesAnonymous v ∧ (∀ p, ¬ MayWrite v md b p) ∧
      (prefetch v ops md (.uuid "u") true (some b) "n" db).1 ≠ db := by
  refine ⟨⟨fun o _ q => o == some "t" && q == ["storage.objects.get"], fun _ _ => false⟩,
    ⟨fun _ _ _ _ _ => none, fun _ _ => none, fun _ a _ _ _ => .ok ([], a), fun _ _ => none, fun _ _ => none,
      fun _ _ => .error .notFound, fun _ p u => p ++ u⟩,
    [("authorization", "Bearer t")], ⟨1, .gcs⟩,
    [⟨"u", "p", .stored, [⟨"x", ⟨2, .gcs⟩, "q", true⟩]⟩], ⟨?_, ?_⟩, ?_, ?_⟩
  · intro p q
    rfl
  · intro p
    rfl
  · rintro p ⟨o, _, h⟩
    rcases h with ⟨_, h⟩ | ⟨h, _⟩
    · simp at h
    · cases h
  · decide +kernel

/-- C126: a case: with a verifier that knows one token and one path, its holder reserves,
anybody else does not. -/
theorem C126_nonvacuous :
    ∃ (v : Verifier) (ops : Ops) (b : Backend) (md md' : Metadata),
      RefusesAnonymous v ∧ (∀ t, ¬ Presents md' t) ∧ Presents md "t" ∧
      MayWrite v md b (ops.storagePath b "p" "n") ∧
      (reserve v ops md "p" true (some b) "n" []).1 ≠ [] ∧
      (reserve v ops md' "p" true (some b) "n" []) = ([], .denied) ∧
      (reserve v ops md "other" true (some b) "n" []) = ([], .denied) := by
  refine ⟨⟨fun o p _ => o == some "t" && p == "pn", fun _ _ => false⟩,
    ⟨fun db p b sp u => some (⟨u, p, .writing, [⟨u, b, sp, true⟩]⟩ :: db, ⟨u, p, .writing, [⟨u, b, sp, true⟩]⟩),
      fun _ _ => none, fun _ a _ _ _ => .ok ([], a), fun _ _ => none, fun _ _ => none,
      fun _ _ => .error .notFound, fun _ p u => p ++ u⟩,
    ⟨1, .gcs⟩, [("authorization", "Bearer x"), ("authorization", "Bearer t")],
    [("authorization", "Bearer t"), ("authorization", "basic t")], ⟨?_, ?_⟩, ?_, ?_, ?_, ?_, ?_, ?_⟩
  · intro p q
    rfl
  · intro p
    rfl
  · refine (C126_token _ none).1 ?_
    decide +kernel
  · exact ⟨[("authorization", "Bearer x")], [], rfl, by simp⟩
  · refine ⟨some "t", ⟨[("authorization", "Bearer x")], [], rfl, by simp⟩, Or.inl ⟨rfl, ?_⟩⟩
    decide +kernel
  · decide +kernel
  · decide +kernel
  · decide +kernel

end Verif.Tiering.Auth
