import Verif.Tiering.Config

/-!
# C129: a server runs with the configuration that its file gives
-/

namespace Verif.Tiering.Config

/-! ## Specification: uses only the types of Config.lean -/

/-- What counts as a whole number. -/
inductive Number (lib : Lib) : Y → Int → Prop
  | no : Number lib (.bool false) 0
  | yes : Number lib (.bool true) 1
  | int (i) : Number lib (.int i) i
  | float (t z) : Number lib (.float t z) t
  | text (s i) : lib.int s = some i → Number lib (.text s) i

/-- What is written for a value. -/
inductive Written (lib : Lib) : Y → String → Prop
  | text (s) : Written lib (.text s) s
  | other (v) : (∀ s, v ≠ .text s) → Written lib v (lib.str v)

def Fits64 (i : Int) : Prop := -2^63 ≤ i ∧ i < 2^63
def Fits32 (i : Int) : Prop := -2^31 ≤ i ∧ i < 2^31

/-- The interval in which clients report: in seconds; or a number, or a duration, under the other key;
or half an hour. -/
inductive KeepAlive (lib : Lib) (m : List (String × Y)) : Int → Prop
  | seconds (v i) : m.lookup "client_keep_alive_interval_seconds" = some v → Number lib v i → Fits64 i → KeepAlive lib m i
  | number (v i) : m.lookup "client_keep_alive_interval_seconds" = none → m.lookup "client_keep_alive_interval" = some v →
      (∀ s, v ≠ .text s) → Number lib v i → Fits64 i → KeepAlive lib m i
  | duration (v s i) : m.lookup "client_keep_alive_interval_seconds" = none →
      m.lookup "client_keep_alive_interval" = some v → (∀ i, Number lib v i → ∃ s, v = .text s) → Written lib v s →
      lib.duration s = some i → Fits64 i → KeepAlive lib m i
  | default : m.lookup "client_keep_alive_interval_seconds" = none → m.lookup "client_keep_alive_interval" = none →
      KeepAlive lib m 1800

/-- False values: nothing, no, zero, and everything empty. -/
inductive Falsy : Y → Prop
  | null : Falsy .null
  | no : Falsy (.bool false)
  | zero : Falsy (.int 0)
  | fzero (t) : Falsy (.float t true)
  | text : Falsy (.text "")
  | list : Falsy (.list [])
  | map : Falsy (.map [])

/-- The key is given, with something. -/
def Given (m : List (String × Y)) (key : String) (v : Y) : Prop := m.lookup key = some v ∧ ¬ Falsy v

/-- The types of storage, by name in any case, or by number. -/
inductive TypeOf : Y → Int → Prop
  | lustre (s) : s.toList.map Char.toUpper = "LUSTRE".toList ∨ s.toList.map Char.toUpper = "BACKEND_TYPE_LUSTRE".toList → TypeOf (.text s) 1
  | gcs (s) : s.toList.map Char.toUpper = "GCS".toList ∨ s.toList.map Char.toUpper = "BACKEND_TYPE_GCS".toList → TypeOf (.text s) 2
  | yes : TypeOf (.bool true) 1
  | num (i) : Fits32 i → TypeOf (.int i) i

/-- The regions of a list, a text or a mapping. -/
inductive Regions : Y → List String → Prop
  | list (rs : List String) : Regions (.list (rs.map .text)) rs
  | text (s) : Regions (.text s) (s.toList.map fun c => String.ofList [c])
  | map (kvs) : Regions (.map kvs) (kvs.map Prod.fst)

/-- Zone before region before several regions. -/
inductive Place (lib : Lib) (m : List (String × Y)) : Location → Prop
  | zone (v s) : Given m "zone" v → Written lib v s → Place lib m (.zone s)
  | region (v s) : (∀ v, ¬ Given m "zone" v) → Given m "region" v → Written lib v s → Place lib m (.region s)
  | multi (v rs) : (∀ v, ¬ Given m "zone" v) → (∀ v, ¬ Given m "region" v) → Given m "multi_regions" v →
      ((∃ xs, v = .list xs) ∧ Regions v rs ∨ ∃ kvs w, v = .map kvs ∧ kvs.lookup "regions" = some w ∧ Regions w rs) →
      Place lib m (.multi rs)
  | nowhere : (∀ v, ¬ Given m "zone" v) → (∀ v, ¬ Given m "region" v) → (∀ v, ¬ Given m "multi_regions" v) →
      Place lib m .nowhere

/-- What a backend is read from. -/
structure BackendOf (lib : Lib) (y : Y) (b : Backend) : Prop where
  out : ∃ m, y = .map m ∧
    (∃ v, m.lookup "level" = some v ∧ Number lib v b.level ∧ Fits32 b.level) ∧
    (∃ v, Given m "backend_type" v ∧ TypeOf v b.type) ∧
    (∃ v, m.lookup "prefix" = some v ∧ v ≠ .null ∧ Written lib v b.pfx) ∧
    Place lib m b.location

/-- One backend for each entry, in order. -/
inductive BackendsOf (lib : Lib) : List Y → List Backend → Prop
  | nil : BackendsOf lib [] []
  | cons (y b ys bs) : BackendOf lib y b → BackendsOf lib ys bs → BackendsOf lib (y :: ys) (b :: bs)

/-- A text that may be missing or null. -/
inductive OptText (lib : Lib) (m : List (String × Y)) (key : String) : String → Prop
  | given (v s) : m.lookup key = some v → v ≠ .null → Written lib v s → OptText lib m key s
  | null : m.lookup key = some .null → OptText lib m key ""
  | missing : m.lookup key = none → OptText lib m key ""

/-- What a configuration is read from. -/
structure ConfigOf (lib : Lib) (y : Y) (c : Cfg) : Prop where
  out : ∃ m, y = .map m ∧ KeepAlive lib m c.keepAlive ∧
    ((m.lookup "db_connection_str" = none ∧ c.db = "sqlite+aiosqlite:///:memory:") ∨
      ∃ v, m.lookup "db_connection_str" = some v ∧ Written lib v c.db) ∧
    ((∃ xs, m.lookup "storage_backends" = some (.list xs) ∧ BackendsOf lib xs c.backends) ∨
      (c.backends = [] ∧ (m.lookup "storage_backends" = none ∨ m.lookup "storage_backends" = some (.text "") ∨
        m.lookup "storage_backends" = some (.map [])))) ∧
    ((m.lookup "max_active_jobs_per_backend" = none ∧ c.maxActive = 1) ∨
      ∃ v, m.lookup "max_active_jobs_per_backend" = some v ∧ Number lib v c.maxActive ∧ Fits64 c.maxActive) ∧
    OptText lib m "gcp_project" c.project ∧ OptText lib m "service_account" c.account

/-! ## The parts -/

theorem get_eq (m : List (String × Y)) (key : String) : get m key = m.lookup key := by
  induction m with
  | nil => rfl
  | cons e rest ih =>
    obtain ⟨k, v⟩ := e
    by_cases h : k = key
    · subst h; simp [get, List.lookup]
    · have h' : (key == k) = false := by simpa using fun h'' => h h''.symm
      simp [get, List.lookup, h, h', ih]

theorem toInt_iff (lib : Lib) (v : Y) (i : Int) : toInt lib v = .ok i ↔ Number lib v i := by
  constructor
  · intro h
    cases v with
    | bool b => cases b <;> (simp [toInt] at h; subst h; constructor)
    | int j => simp [toInt] at h; subst h; constructor
    | float t z => simp [toInt] at h; subst h; constructor
    | text s =>
      simp only [toInt] at h
      split at h
      · rename_i j hj; injection h with h; subst h; exact .text _ _ hj
      · cases h
    | null => cases h
    | list _ => cases h
    | map _ => cases h
  · intro h
    cases h <;> simp_all [toInt]

theorem toStr_iff (lib : Lib) (v : Y) (s : String) : toStr lib v = s ↔ Written lib v s := by
  constructor
  · rintro rfl
    cases v with
    | text s => exact .text s
    | null => exact .other _ (by simp)
    | bool _ => exact .other _ (by simp)
    | int _ => exact .other _ (by simp)
    | float _ _ => exact .other _ (by simp)
    | list _ => exact .other _ (by simp)
    | map _ => exact .other _ (by simp)
  · intro h
    cases h with
    | text => rfl
    | other _ hv => cases v <;> first | rfl | exact absurd rfl (hv _)

theorem int64_iff (i j : Int) : int64 i = .ok j ↔ j = i ∧ Fits64 i := by
  unfold int64 Fits64
  by_cases h : -2^63 ≤ i ∧ i < 2^63
  · rw [if_pos h]
    constructor
    · intro h'; injection h' with h'; exact ⟨h'.symm, h⟩
    · rintro ⟨rfl, _⟩; rfl
  · rw [if_neg h]
    constructor
    · intro h'; cases h'
    · rintro ⟨_, h'⟩; exact absurd h' h

theorem int32_iff (i j : Int) : int32 i = .ok j ↔ j = i ∧ Fits32 i := by
  unfold int32 Fits32
  by_cases h : -2^31 ≤ i ∧ i < 2^31
  · rw [if_pos h]
    constructor
    · intro h'; injection h' with h'; exact ⟨h'.symm, h⟩
    · rintro ⟨rfl, _⟩; rfl
  · rw [if_neg h]
    constructor
    · intro h'; cases h'
    · rintro ⟨_, h'⟩; exact absurd h' h

theorem num64_iff (lib : Lib) (v : Y) (i : Int) :
    num64 lib v = .ok i ↔ Number lib v i ∧ Fits64 i := by
  unfold num64
  cases h : toInt lib v with
  | ok j =>
    rw [toInt_iff] at h
    simp only [int64_iff]
    constructor
    · rintro ⟨rfl, h2⟩; exact ⟨h, h2⟩
    · rintro ⟨h1, h2⟩
      have := (toInt_iff _ _ _).2 h
      rw [(toInt_iff _ _ _).2 h1] at this
      injection this with this
      subst this; exact ⟨rfl, h2⟩
  | error e =>
    simp only [reduceCtorEq, false_iff]
    rintro ⟨h1, _⟩
    rw [(toInt_iff _ _ _).2 h1] at h; cases h

theorem num32_iff (lib : Lib) (v : Y) (i : Int) :
    num32 lib v = .ok i ↔ Number lib v i ∧ Fits32 i := by
  unfold num32
  cases h : toInt lib v with
  | ok j =>
    rw [toInt_iff] at h
    simp only [int32_iff]
    constructor
    · rintro ⟨rfl, h2⟩; exact ⟨h, h2⟩
    · rintro ⟨h1, h2⟩
      have := (toInt_iff _ _ _).2 h
      rw [(toInt_iff _ _ _).2 h1] at this
      injection this with this
      subst this; exact ⟨rfl, h2⟩
  | error e =>
    simp only [reduceCtorEq, false_iff]
    rintro ⟨h1, _⟩
    rw [(toInt_iff _ _ _).2 h1] at h; cases h

theorem keepAlive_dur (lib : Lib) (m : List (String × Y)) (v : Y) (i : Int)
    (h1 : m.lookup "client_keep_alive_interval_seconds" = none) (h2 : m.lookup "client_keep_alive_interval" = some v)
    (hn : ∀ i, Number lib v i → ∃ s, v = .text s) :
    (match lib.duration (toStr lib v) with | some s => int64 s | none => .error .value) = .ok i ↔ KeepAlive lib m i := by
  constructor
  · intro h
    split at h
    · rename_i s hs
      obtain ⟨rfl, hf⟩ := (int64_iff _ _).1 h
      exact .duration v _ _ h1 h2 hn ((toStr_iff _ _ _).1 rfl) hs hf
    · cases h
  · intro h
    cases h with
    | seconds v i h _ _ => rw [h1] at h; cases h
    | number v' _ _ h3 hv hnum _ =>
      rw [h2] at h3; cases h3
      obtain ⟨s, hs⟩ := hn _ hnum
      exact absurd hs (hv s)
    | duration v' s _ _ h3 _ hw hd hf =>
      rw [h2] at h3; cases h3
      rw [(toStr_iff _ _ _).2 hw, hd]
      exact (int64_iff _ _).2 ⟨rfl, hf⟩
    | default _ h3 => rw [h2] at h3; cases h3

theorem keepAlive_num (lib : Lib) (m : List (String × Y)) (v : Y) (i j : Int)
    (h1 : m.lookup "client_keep_alive_interval_seconds" = none) (h2 : m.lookup "client_keep_alive_interval" = some v)
    (hv : ∀ s, v ≠ .text s) (hn : Number lib v j) : int64 j = .ok i ↔ KeepAlive lib m i := by
  rw [int64_iff]
  constructor
  · rintro ⟨rfl, hf⟩; exact .number v _ h1 h2 hv hn hf
  · intro h
    cases h with
    | seconds v i h _ _ => rw [h1] at h; cases h
    | number v' _ _ h3 _ hnum hf =>
      rw [h2] at h3; cases h3
      have := (toInt_iff _ _ _).2 hn
      rw [(toInt_iff _ _ _).2 hnum] at this
      injection this with this
      subst this; exact ⟨rfl, hf⟩
    | duration v' s _ _ h3 hnt _ _ _ =>
      rw [h2] at h3; cases h3
      obtain ⟨s, hs⟩ := hnt _ hn
      exact absurd hs (hv s)
    | default _ h3 => rw [h2] at h3; cases h3

theorem keepAlive_iff (lib : Lib) (m : List (String × Y)) (i : Int) : parseKeepAlive lib m = .ok i ↔ KeepAlive lib m i := by
  unfold parseKeepAlive
  rw [get_eq, get_eq]
  cases h1 : m.lookup "client_keep_alive_interval_seconds" with
  | some v =>
    simp only []
    rw [num64_iff]
    constructor
    · rintro ⟨hn, hf⟩; exact .seconds v i h1 hn hf
    · intro h
      cases h with
      | seconds v' _ h hn hf => rw [h1] at h; cases h; exact ⟨hn, hf⟩
      | number _ _ h => rw [h1] at h; cases h
      | duration _ _ _ h => rw [h1] at h; cases h
      | default h => rw [h1] at h; cases h
  | none =>
    simp only []
    cases h2 : m.lookup "client_keep_alive_interval" with
    | none =>
      simp only [Except.ok.injEq]
      constructor
      · rintro rfl; exact .default h1 h2
      · intro h
        cases h with
        | seconds v' _ h hn hf => rw [h1] at h; cases h
        | number _ _ _ h => rw [h2] at h; cases h
        | duration _ _ _ _ h => rw [h2] at h; cases h
        | default => rfl
    | some v =>
      cases v with
      | bool b =>
        refine keepAlive_num lib m (.bool b) i _ h1 h2 (by simp) ?_
        cases b <;> constructor
      | int j => exact keepAlive_num lib m (.int j) i _ h1 h2 (by simp) (.int j)
      | float t z => exact keepAlive_num lib m (.float t z) i _ h1 h2 (by simp) (.float t z)
      | text s => exact keepAlive_dur lib m (.text s) i h1 h2 (fun _ _ => ⟨s, rfl⟩)
      | null => exact keepAlive_dur lib m .null i h1 h2 (fun _ h => (by cases h))
      | list xs => exact keepAlive_dur lib m (.list xs) i h1 h2 (fun _ h => (by cases h))
      | map xs => exact keepAlive_dur lib m (.map xs) i h1 h2 (fun _ h => (by cases h))

theorem falsy_iff (v : Y) : v.truthy = true ↔ ¬ Falsy v := by
  constructor
  · intro h hf
    cases hf <;> simp [Y.truthy] at h
  · intro h
    apply Classical.byContradiction
    intro ht
    apply h
    cases v with
    | null => exact .null
    | bool b => cases b with | false => exact .no | true => simp [Y.truthy] at ht
    | int i => simp [Y.truthy] at ht; subst ht; exact .zero
    | float t z => simp [Y.truthy] at ht; subst ht; exact .fzero t
    | text s => simp [Y.truthy] at ht; subst ht; exact .text
    | list xs => simp [Y.truthy] at ht; subst ht; exact .list
    | map xs => simp [Y.truthy] at ht; subst ht; exact .map

theorem getTrue_some (m : List (String × Y)) (key : String) (v : Y) : getTrue m key = some v ↔ Given m key v := by
  unfold getTrue Given
  rw [get_eq]
  cases m.lookup key with
  | none => simp
  | some w =>
    simp only [Option.some.injEq]
    by_cases h : w.truthy = true
    · rw [if_pos h]
      simp only [Option.some.injEq]
      constructor
      · rintro rfl; exact ⟨rfl, (falsy_iff _).1 h⟩
      · exact And.left
    · rw [if_neg h]
      simp only [reduceCtorEq, false_iff]
      rintro ⟨rfl, hf⟩
      exact h ((falsy_iff _).2 hf)

theorem getTrue_none (m : List (String × Y)) (key : String) : getTrue m key = none ↔ ∀ v, ¬ Given m key v := by
  constructor
  · intro h v hg
    rw [(getTrue_some _ _ _).2 hg] at h; cases h
  · intro h
    cases hg : getTrue m key with
    | none => rfl
    | some v => exact absurd ((getTrue_some _ _ _).1 hg) (h v)

theorem type_iff (m : List (String × Y)) (t : Int) :
    parseType m = .ok t ↔ ∃ v, Given m "backend_type" v ∧ TypeOf v t := by
  unfold parseType
  rw [get_eq]
  cases h1 : m.lookup "backend_type" with
  | none =>
    simp only [reduceCtorEq, false_iff]
    rintro ⟨v, ⟨h, _⟩, _⟩
    rw [h1] at h; cases h
  | some v =>
    simp only []
    by_cases ht : v.truthy = true
    · rw [if_pos ht]
      have hg : Given m "backend_type" v := ⟨h1, (falsy_iff _).1 ht⟩
      have hv : ∀ (P : Y → Prop), (∃ v, Given m "backend_type" v ∧ P v) ↔ P v := by
        intro P
        constructor
        · rintro ⟨w, ⟨hw, _⟩, hp⟩; rw [h1] at hw; cases hw; exact hp
        · intro hp; exact ⟨v, hg, hp⟩
      rw [hv (fun v => TypeOf v t)]
      cases v with
      | text s =>
        constructor
        · intro h
          replace h : (if upper s = "LUSTRE".toList ∨ upper s = "BACKEND_TYPE_LUSTRE".toList then .ok 1
            else if upper s = "GCS".toList ∨ upper s = "BACKEND_TYPE_GCS".toList then .ok 2
            else .error .value : Except Err Int) = .ok t := h
          split at h
          · rename_i hl; injection h with h; subst h; exact .lustre s hl
          · split at h
            · rename_i hl; injection h with h; subst h; exact .gcs s hl
            · cases h
        · intro h
          cases h with
          | lustre _ hl => exact if_pos hl
          | gcs _ hl =>
            refine (if_neg ?_).trans (if_pos hl)
            change ¬ (s.toList.map Char.toUpper = _ ∨ s.toList.map Char.toUpper = _)
            rintro (hl' | hl') <;> rcases hl with hl | hl <;> rw [hl] at hl' <;> exact absurd hl' (by decide)
      | bool b =>
        cases b with
        | false => simp [Y.truthy] at ht
        | true =>
          simp only [if_true, Except.ok.injEq]
          constructor
          · rintro rfl; exact .yes
          · intro h; cases h; rfl
      | int i =>
        simp only [int32_iff]
        constructor
        · rintro ⟨rfl, hf⟩; exact .num _ hf
        · intro h; cases h with | num _ hf => exact ⟨rfl, hf⟩
      | null => simp [Y.truthy] at ht
      | float _ _ => simp only [reduceCtorEq, false_iff]; intro h; cases h
      | list _ => simp only [reduceCtorEq, false_iff]; intro h; cases h
      | map _ => simp only [reduceCtorEq, false_iff]; intro h; cases h
    · rw [if_neg ht]
      simp only [reduceCtorEq, false_iff]
      rintro ⟨w, ⟨hw, hf⟩, _⟩
      rw [h1] at hw; cases hw
      exact ht ((falsy_iff _).2 hf)

theorem level_iff (lib : Lib) (m : List (String × Y)) (i : Int) :
    parseLevel lib m = .ok i ↔ ∃ v, m.lookup "level" = some v ∧ Number lib v i ∧ Fits32 i := by
  unfold parseLevel
  rw [get_eq]
  cases h1 : m.lookup "level" with
  | none => simp
  | some v =>
    simp only [Option.some.injEq, exists_eq_left']
    rw [← num32_iff]
    cases v <;> simp [num32, toInt]

theorem prefix_iff (lib : Lib) (m : List (String × Y)) (s : String) :
    parsePrefix lib m = .ok s ↔ ∃ v, m.lookup "prefix" = some v ∧ v ≠ .null ∧ Written lib v s := by
  unfold parsePrefix
  rw [get_eq]
  cases h1 : m.lookup "prefix" with
  | none => simp
  | some v =>
    simp only [Option.some.injEq, exists_eq_left']
    rw [← toStr_iff]
    cases v <;> simp

theorem regionTexts_iff (xs : List Y) (rs : List String) : regionTexts xs = .ok rs ↔ xs = rs.map .text := by
  induction xs generalizing rs with
  | nil => cases rs <;> simp [regionTexts]
  | cons x xs ih =>
    cases x with
    | text s =>
      simp only [regionTexts]
      cases h : regionTexts xs with
      | ok r =>
        have := (ih r).1 h
        subst this
        simp only [Except.ok.injEq]
        constructor
        · rintro rfl; rfl
        · intro h'
          cases rs with
          | nil => cases h'
          | cons t ts =>
            simp only [List.map_cons, List.cons.injEq, Y.text.injEq] at h'
            have h2 := (ih ts).2 h'.2
            rw [h] at h2
            injection h2 with h2
            rw [h'.1, h2]
      | error e =>
        simp only [reduceCtorEq, false_iff]
        intro h'
        cases rs with
        | nil => cases h'
        | cons t ts =>
          simp only [List.map_cons, List.cons.injEq, Y.text.injEq] at h'
          rw [(ih ts).2 h'.2] at h; cases h
    | null => cases rs <;> simp [regionTexts]
    | bool _ => cases rs <;> simp [regionTexts]
    | int _ => cases rs <;> simp [regionTexts]
    | float _ _ => cases rs <;> simp [regionTexts]
    | list _ => cases rs <;> simp [regionTexts]
    | map _ => cases rs <;> simp [regionTexts]

theorem extend_iff (v : Y) (rs : List String) : extendRegions v = .ok rs ↔ Regions v rs := by
  constructor
  · intro h
    cases v with
    | list xs => rw [(regionTexts_iff _ _).1 h]; exact .list rs
    | text s => injection h with h; subst h; exact .text s
    | map kvs => injection h with h; subst h; exact .map kvs
    | null => cases h
    | bool _ => cases h
    | int _ => cases h
    | float _ _ => cases h
  · intro h
    cases h with
    | list => exact (regionTexts_iff _ _).2 rfl
    | text s => rfl
    | map kvs => rfl

theorem multi_ok (x : Except Err (List String)) (l : Location) : multi x = .ok l ↔ ∃ rs, x = .ok rs ∧ l = .multi rs := by
  cases x with
  | ok a => simp [multi, eq_comm]
  | error e => simp [multi]

theorem location_iff (lib : Lib) (m : List (String × Y)) (l : Location) : parseLocation lib m = .ok l ↔ Place lib m l := by
  unfold parseLocation
  cases hz : getTrue m "zone" with
  | some z =>
    have hg := (getTrue_some _ _ _).1 hz
    simp only [Except.ok.injEq]
    constructor
    · rintro rfl; exact .zone z _ hg ((toStr_iff _ _ _).1 rfl)
    · intro h
      cases h with
      | zone v s hv hw =>
        have := hv.1; rw [hg.1] at this; cases this
        rw [(toStr_iff _ _ _).2 hw]
      | region _ _ h => exact absurd hg (h _)
      | multi _ _ h => exact absurd hg (h _)
      | nowhere h => exact absurd hg (h _)
  | none =>
    have hnz := (getTrue_none _ _).1 hz
    simp only []
    cases hr : getTrue m "region" with
    | some r =>
      have hg := (getTrue_some _ _ _).1 hr
      simp only [Except.ok.injEq]
      constructor
      · rintro rfl; exact .region r _ hnz hg ((toStr_iff _ _ _).1 rfl)
      · intro h
        cases h with
        | zone _ _ h => exact absurd h (hnz _)
        | region v s _ hv hw =>
          have := hv.1; rw [hg.1] at this; cases this
          rw [(toStr_iff _ _ _).2 hw]
        | multi _ _ _ h => exact absurd hg (h _)
        | nowhere _ h => exact absurd hg (h _)
    | none =>
      have hnr := (getTrue_none _ _).1 hr
      simp only []
      cases hm : getTrue m "multi_regions" with
      | none =>
        have hnm := (getTrue_none _ _).1 hm
        simp only [Except.ok.injEq]
        constructor
        · rintro rfl; exact .nowhere hnz hnr hnm
        · intro h
          cases h with
          | zone _ _ h => exact absurd h (hnz _)
          | region _ _ _ h => exact absurd h (hnr _)
          | multi _ _ _ _ h => exact absurd h (hnm _)
          | nowhere => rfl
      | some w =>
        have hg := (getTrue_some _ _ _).1 hm
        have key : ∀ l, Place lib m l ↔ ∃ rs, l = .multi rs ∧
            ((∃ xs, w = .list xs) ∧ Regions w rs ∨ ∃ kvs u, w = .map kvs ∧ kvs.lookup "regions" = some u ∧ Regions u rs) := by
          intro l
          constructor
          · intro h
            cases h with
            | zone _ _ h => exact absurd h (hnz _)
            | region _ _ _ h => exact absurd h (hnr _)
            | multi v rs _ _ hv hc =>
              have := hv.1; rw [hg.1] at this; cases this
              exact ⟨rs, rfl, hc⟩
            | nowhere _ _ h => exact absurd hg (h _)
          · rintro ⟨rs, rfl, hc⟩; exact .multi w rs hnz hnr hg hc
        rw [key]
        cases w with
        | list xs =>
          simp only []
          rw [multi_ok]
          constructor
          · rintro ⟨rs, h, rfl⟩
            exact ⟨rs, rfl, Or.inl ⟨⟨xs, rfl⟩, (extend_iff _ _).1 h⟩⟩
          · rintro ⟨rs, rfl, ⟨_, h⟩ | ⟨_, _, h, _⟩⟩
            · exact ⟨rs, (extend_iff (.list xs) _).2 h, rfl⟩
            · cases h
        | map kvs =>
          simp only [get_eq]
          cases hk : kvs.lookup "regions" with
          | none =>
            simp only [reduceCtorEq, false_iff]
            rintro ⟨rs, _, ⟨⟨xs, h⟩, _⟩ | ⟨_, _, h, h', _⟩⟩
            · cases h
            · cases h; rw [hk] at h'; cases h'
          | some u =>
            simp only []
            rw [multi_ok]
            constructor
            · rintro ⟨rs, h, rfl⟩
              exact ⟨rs, rfl, Or.inr ⟨kvs, u, rfl, hk, (extend_iff _ _).1 h⟩⟩
            · rintro ⟨rs, rfl, ⟨⟨xs, h⟩, _⟩ | ⟨_, _, h, h', h''⟩⟩
              · cases h
              · cases h; rw [hk] at h'; cases h'
                exact ⟨rs, (extend_iff _ _).2 h'', rfl⟩
        | null => simp
        | bool _ => simp
        | int _ => simp
        | float _ _ => simp
        | text _ => simp

theorem backend_iff (lib : Lib) (y : Y) (b : Backend) : parseBackend lib y = .ok b ↔ BackendOf lib y b := by
  have hm : ∀ m, parseBackend lib (.map m) = .ok b ↔ (parseLevel lib m = .ok b.level ∧ parseType m = .ok b.type ∧
      parsePrefix lib m = .ok b.pfx ∧ parseLocation lib m = .ok b.location) := by
    intro m
    simp only [parseBackend]
    cases parseLevel lib m <;> cases parseType m <;> cases parsePrefix lib m <;> cases parseLocation lib m <;>
      simp [Backend.ext_iff]
  constructor
  · intro h
    cases y with
    | map m =>
      rw [hm, level_iff, type_iff, prefix_iff, location_iff] at h
      exact ⟨m, rfl, h⟩
    | _ => cases h
  · rintro ⟨m, rfl, h⟩
    rw [hm, level_iff, type_iff, prefix_iff, location_iff]
    exact h

theorem list_iff (lib : Lib) (ys : List Y) (bs : List Backend) : parseList lib ys = .ok bs ↔ BackendsOf lib ys bs := by
  induction ys generalizing bs with
  | nil =>
    simp only [parseList, Except.ok.injEq]
    constructor
    · rintro rfl; exact .nil
    · intro h; cases h; rfl
  | cons y ys ih =>
    constructor
    · intro h
      simp only [parseList] at h
      split at h
      · cases h
      · rename_i b hb
        split at h
        · cases h
        · rename_i r hr
          injection h with h; subst h
          exact .cons _ _ _ _ ((backend_iff _ _ _).1 hb) ((ih _).1 hr)
    · intro h
      cases h with
      | cons _ b _ bs hb hr =>
        simp [parseList, (backend_iff _ _ _).2 hb, (ih _).2 hr]

theorem backends_iff (lib : Lib) (m : List (String × Y)) (bs : List Backend) :
    parseBackends lib m = .ok bs ↔
      (∃ xs, m.lookup "storage_backends" = some (.list xs) ∧ BackendsOf lib xs bs) ∨
      (bs = [] ∧ (m.lookup "storage_backends" = none ∨ m.lookup "storage_backends" = some (.text "") ∨
        m.lookup "storage_backends" = some (.map []))) := by
  unfold parseBackends
  rw [get_eq]
  cases h : m.lookup "storage_backends" with
  | none => simp [eq_comm]
  | some v =>
    cases v with
    | list xs => simp [list_iff]
    | text s =>
      by_cases hs : s = ""
      · simp [hs, eq_comm]
      · simp [hs]
    | map kvs =>
      cases kvs with
      | nil => simp [eq_comm]
      | cons e r => simp
    | _ => simp

theorem optText_iff (lib : Lib) (m : List (String × Y)) (key s : String) :
    parseText lib m key = s ↔ OptText lib m key s := by
  unfold parseText
  rw [get_eq]
  cases h : m.lookup key with
  | none =>
    simp only []
    constructor
    · rintro rfl; exact .missing h
    · intro h'
      cases h' with
      | given _ _ h' => rw [h] at h'; cases h'
      | null => rfl
      | missing => rfl
  | some v =>
    by_cases hv : v = .null
    · subst hv
      simp only []
      constructor
      · rintro rfl; exact .null h
      · intro h'
        cases h' with
        | given _ _ h' hn => rw [h] at h'; cases h'; exact absurd rfl hn
        | null => rfl
        | missing => rfl
    · refine Iff.trans (b := toStr lib v = s) ?_ ?_
      · cases v <;> first | exact Iff.rfl | exact absurd rfl hv
      rw [toStr_iff]
      constructor
      · intro hw; exact .given v s h hv hw
      · intro h'
        cases h' with
        | given _ _ h' hn hw => rw [h] at h'; cases h'; exact hw
        | null h' => rw [h] at h'; cases h'; exact absurd rfl hv
        | missing h' => rw [h] at h'; cases h'

theorem db_iff (lib : Lib) (m : List (String × Y)) (s : String) :
    parseDb lib m = s ↔ (m.lookup "db_connection_str" = none ∧ s = "sqlite+aiosqlite:///:memory:") ∨
      ∃ v, m.lookup "db_connection_str" = some v ∧ Written lib v s := by
  unfold parseDb
  rw [get_eq]
  cases h : m.lookup "db_connection_str" with
  | none => simp [eq_comm]
  | some v => simp [toStr_iff]

theorem maxActive_iff (lib : Lib) (m : List (String × Y)) (i : Int) :
    parseMaxActive lib m = .ok i ↔ (m.lookup "max_active_jobs_per_backend" = none ∧ i = 1) ∨
      ∃ v, m.lookup "max_active_jobs_per_backend" = some v ∧ Number lib v i ∧ Fits64 i := by
  unfold parseMaxActive
  rw [get_eq]
  cases h : m.lookup "max_active_jobs_per_backend" with
  | none => simp [eq_comm]
  | some v => simp [num64_iff]

/-! ## The property -/

/-- C129: a configuration is accepted exactly if it can be read as specified, and then it is what was
read: for every value of every key. -/
theorem C129_exact (lib : Lib) (y : Y) (c : Cfg) : parseConfig lib y = .ok c ↔ ConfigOf lib y c := by
  have hm : ∀ m, parseConfig lib (.map m) = .ok c ↔ (parseKeepAlive lib m = .ok c.keepAlive ∧ parseDb lib m = c.db ∧
      parseBackends lib m = .ok c.backends ∧ parseMaxActive lib m = .ok c.maxActive ∧
      parseText lib m "gcp_project" = c.project ∧ parseText lib m "service_account" = c.account) := by
    intro m
    simp only [parseConfig]
    cases parseKeepAlive lib m <;> cases parseBackends lib m <;> cases parseMaxActive lib m <;>
      simp [Cfg.ext_iff]
    all_goals constructor <;> (intro h; simp [h])
  constructor
  · intro h
    cases y with
    | map m =>
      rw [hm, keepAlive_iff, db_iff, backends_iff, maxActive_iff, optText_iff, optText_iff] at h
      exact ⟨m, rfl, h⟩
    | _ => cases h
  · rintro ⟨m, rfl, h⟩
    rw [hm, keepAlive_iff, db_iff, backends_iff, maxActive_iff, optText_iff, optText_iff]
    exact h

/-- C129: an empty file, or one that is not a mapping, is refused. -/
theorem C129_mapping (lib : Lib) (y : Y) (c : Cfg) (h : parseConfig lib y = .ok c) : ∃ m, y = .map m := by
  obtain ⟨m, hm, _⟩ := (C129_exact lib y c).1 h
  exact ⟨m, hm⟩

theorem backendsOf_length {lib : Lib} {ys : List Y} {bs : List Backend} (h : BackendsOf lib ys bs) :
    bs.length = ys.length := by
  induction h with
  | nil => rfl
  | cons _ _ _ _ _ _ ih => simp [ih]

theorem backendsOf_get {lib : Lib} {ys : List Y} {bs : List Backend} (h : BackendsOf lib ys bs) :
    ∀ (i : Nat) (y : Y), ys[i]? = some y → ∃ b, bs[i]? = some b ∧ BackendOf lib y b := by
  induction h with
  | nil => intro i y h; simp at h
  | cons y b ys bs hb _ ih =>
    intro i y' h
    cases i with
    | zero => simp at h; subst h; exact ⟨b, rfl, hb⟩
    | succ i => simpa using ih i y' (by simpa using h)

/-- C129: every backend of the list is in the configuration, at its place, and no other. -/
theorem C129_backends (lib : Lib) (m : List (String × Y)) (xs : List Y) (c : Cfg)
    (hx : m.lookup "storage_backends" = some (.list xs)) (h : parseConfig lib (.map m) = .ok c) :
    c.backends.length = xs.length ∧ ∀ (i : Nat) (y : Y), xs[i]? = some y → ∃ b, c.backends[i]? = some b ∧ BackendOf lib y b := by
  obtain ⟨m', hm, _, _, hb, _⟩ := (C129_exact _ _ _).1 h
  cases hm
  rcases hb with ⟨xs', hx', hb⟩ | ⟨_, h | h | h⟩
  · rw [hx] at hx'; cases hx'
    exact ⟨backendsOf_length hb, backendsOf_get hb⟩
  all_goals rw [hx] at h; cases h

/-- C129: a backend without level, type or prefix (missing or null), or with a type of no known name,
keeps the server from starting. -/
theorem C129_required (lib : Lib) (m : List (String × Y)) (xs : List Y) (b : List (String × Y))
    (hx : m.lookup "storage_backends" = some (.list xs)) (hb : .map b ∈ xs)
    (hbad : (∃ key ∈ ["level", "backend_type", "prefix"], b.lookup key = none ∨ b.lookup key = some .null) ∨
      ∃ s, b.lookup "backend_type" = some (.text s) ∧ s.toList.map Char.toUpper ∉
        ["LUSTRE".toList, "BACKEND_TYPE_LUSTRE".toList, "GCS".toList, "BACKEND_TYPE_GCS".toList]) :
    ∃ e, parseConfig lib (.map m) = .error e := by
  cases h : parseConfig lib (.map m) with
  | error e => exact ⟨e, rfl⟩
  | ok c =>
    exfalso
    obtain ⟨i, hi⟩ := List.getElem?_of_mem hb
    obtain ⟨b', _, ⟨m', hm, ⟨v1, h1, n1, _⟩, ⟨v2, ⟨h2, f2⟩, t2⟩, ⟨v3, h3, n3, _⟩, _⟩⟩ := (C129_backends lib m xs c hx h).2 i _ hi
    cases hm
    rcases hbad with ⟨key, hk, hbad⟩ | ⟨s, hs, hn⟩
    · simp only [List.mem_cons, List.not_mem_nil, or_false] at hk
      rcases hk with rfl | rfl | rfl
      · rw [h1] at hbad; rcases hbad with h | h <;> cases h; cases n1
      · rw [h2] at hbad; rcases hbad with h | h <;> cases h; exact f2 .null
      · rw [h3] at hbad; rcases hbad with h | h <;> cases h; exact n3 rfl
    · rw [h2] at hs; cases hs
      apply hn
      generalize b'.type = t at t2
      cases t2 with
      | lustre _ h => rcases h with h | h <;> simp [h]
      | gcs _ h => rcases h with h | h <;> simp [h]

/-- C129: what is not given has its default. -/
theorem C129_defaults (lib : Lib) : parseConfig lib (.map []) =
    .ok { keepAlive := 1800, db := "sqlite+aiosqlite:///:memory:", backends := [], maxActive := 1, project := "", account := "" } := rfl

/-- The keys that mean something. -/
def known : List String := ["client_keep_alive_interval_seconds", "client_keep_alive_interval", "db_connection_str",
  "storage_backends", "max_active_jobs_per_backend", "gcp_project", "service_account"]

/-- C129: nothing but these keys matters, and not their order. -/
theorem C129_keys (lib : Lib) (m m' : List (String × Y)) (h : ∀ k ∈ known, m.lookup k = m'.lookup k) :
    parseConfig lib (.map m) = parseConfig lib (.map m') := by
  have hk : ∀ k ∈ known, get m k = get m' k := by intro k hk; rw [get_eq, get_eq, h k hk]
  have h1 := hk "client_keep_alive_interval_seconds" (by decide)
  have h2 := hk "client_keep_alive_interval" (by decide)
  have h3 := hk "db_connection_str" (by decide)
  have h4 := hk "storage_backends" (by decide)
  have h5 := hk "max_active_jobs_per_backend" (by decide)
  have h6 := hk "gcp_project" (by decide)
  have h7 := hk "service_account" (by decide)
  simp only [parseConfig, parseKeepAlive, parseBackends, parseMaxActive, parseDb, parseText, h1, h2, h3, h4, h5, h6, h7]

/-! ## Findings -/

/-- C129 (finding): so a key that is misspelled is ignored without notice, and the default used. -/
theorem C129_misspelled_fails (lib : Lib) (m : List (String × Y)) (key : String) (v : Y) (hk : key ∉ known) :
    parseConfig lib (.map ((key, v) :: m)) = parseConfig lib (.map m) := by
  apply C129_keys
  intro k hk'
  have : (k == key) = false := by
    simp only [beq_eq_false_iff_ne]; rintro rfl; exact hk hk'
  simp [List.lookup, this]

/-- C129 (finding): an interval that is zero or negative is accepted (a reservation ends before it begins),
and so is a fraction below one, which becomes zero. -/
theorem C129_interval_fails (lib : Lib) (i : Int) (hi : Fits64 i) :
    parseConfig lib (.map [("client_keep_alive_interval_seconds", .int i)]) = .ok { keepAlive := i } ∧
    parseConfig lib (.map [("client_keep_alive_interval", .float 0 false)]) = .ok { keepAlive := 0 } := by
  refine ⟨?_, rfl⟩
  have : parseKeepAlive lib [("client_keep_alive_interval_seconds", .int i)] = .ok i :=
    (int64_iff i i).2 ⟨rfl, hi⟩
  simp only [parseConfig, this]
  rfl

/-- C129 (finding): no jobs at a time, or a negative number, is accepted: no copy is ever started. -/
theorem C129_no_jobs_fails (lib : Lib) (i : Int) (hi : Fits64 i) :
    parseConfig lib (.map [("max_active_jobs_per_backend", .int i)]) = .ok { maxActive := i } := by
  have : parseMaxActive lib [("max_active_jobs_per_backend", .int i)] = .ok i := (int64_iff i i).2 ⟨rfl, hi⟩
  simp only [parseConfig, this]
  rfl

/-- C129 (finding): both keys of the interval may be given: the second is not even looked at. -/
theorem C129_two_intervals_fails (lib : Lib) (i : Int) (v : Y) :
    parseConfig lib (.map [("client_keep_alive_interval", v), ("client_keep_alive_interval_seconds", .int i)]) =
    parseConfig lib (.map [("client_keep_alive_interval_seconds", .int i)]) := by
  simp [parseConfig, parseKeepAlive, parseBackends, parseMaxActive, parseDb, parseText, get]

/-- C129 (finding): an address of the database that was left empty is the text of `None`, not the
default; the other texts treat it as not given. -/
theorem C129_null_fails (lib : Lib) :
    parseConfig lib (.map [("db_connection_str", .null)]) = .ok { db := lib.str .null } ∧
    parseConfig lib (.map [("gcp_project", .null), ("service_account", .null)]) = .ok {} := ⟨rfl, rfl⟩

/-- C129 (finding): a list of backends that was left empty is refused, though a missing list is accepted
(a server without any storage). -/
theorem C129_empty_list_fails (lib : Lib) :
    parseConfig lib (.map [("storage_backends", .null)]) = .error .type ∧
    parseConfig lib (.map []) = .ok {} := ⟨rfl, rfl⟩

/-- A backend with these further keys. -/
def bucket (more : List (String × Y)) : Y :=
  .map ([("level", .int 1), ("backend_type", .text "gcs"), ("prefix", .text "gs://b")] ++ more)

/-- C129 (finding): a backend may be nowhere; and of several places only the most special is kept. -/
theorem C129_place_fails (lib : Lib) (z r : String) (hz : z ≠ "") (v : Y) :
    parseBackend lib (bucket []) = .ok ⟨1, 2, "gs://b", .nowhere⟩ ∧
    parseBackend lib (bucket [("region", .text r), ("multi_regions", v), ("zone", .text z)]) = .ok ⟨1, 2, "gs://b", .zone z⟩ := by
  refine ⟨by unfold bucket; rfl, ?_⟩
  rw [backend_iff]
  refine ⟨_, rfl, ⟨.int 1, rfl, .int 1, (by decide : (-2:Int)^31 ≤ 1 ∧ (1:Int) < 2^31)⟩, ⟨.text "gcs", ⟨rfl, (falsy_iff _).1 (by decide)⟩, .gcs _ (Or.inl (by decide))⟩,
    ⟨.text "gs://b", rfl, by simp, .text _⟩, ?_⟩
  refine .zone (.text z) z ⟨rfl, ?_⟩ (.text z)
  rw [← falsy_iff]
  simpa [Y.truthy] using hz

/-- C129 (finding): several regions given as one text become one region for each of its letters. -/
theorem C129_letters_fails (lib : Lib) (s : String) :
    parseBackend lib (bucket [("multi_regions", .map [("regions", .text s)])]) =
      .ok ⟨1, 2, "gs://b", .multi (s.toList.map fun c => String.ofList [c])⟩ := by
  unfold bucket; rfl

/-! ## The hypotheses are met -/

/-- A library for the examples: `10m` is a duration, `7` a number. -/
def exLib : Lib where
  int s := if s = "7" then some 7 else none
  str _ := "None"
  duration s := if s = "10m" then some 600 else none

/-- A configuration with a duration, a number as text, and three backends; and one with an entry that
lacks its level. -/
theorem C129_nonvacuous :
    parseConfig exLib (.map [("client_keep_alive_interval", .text "10m"), ("db_connection_str", .text "sqlite:///x"),
        ("max_active_jobs_per_backend", .text "7"), ("gcp_project", .text "p"),
        ("storage_backends", .list [
          .map [("level", .int 0), ("backend_type", .text "Lustre"), ("prefix", .text "/mnt"), ("zone", .text "z")],
          .map [("level", .int 1), ("backend_type", .int 2), ("prefix", .text "gs://b"), ("region", .text "r"), ("zone", .null)],
          .map [("level", .int 2), ("backend_type", .text "backend_type_gcs"), ("prefix", .text "gs://c"),
            ("multi_regions", .list [.text "a", .text "b"])]])]) =
      .ok { keepAlive := 600, db := "sqlite:///x", maxActive := 7, project := "p", account := "",
            backends := [⟨0, 1, "/mnt", .zone "z"⟩, ⟨1, 2, "gs://b", .region "r"⟩, ⟨2, 2, "gs://c", .multi ["a", "b"]⟩] } ∧
    parseConfig exLib (.map [("client_keep_alive_interval", .text "soon")]) = .error .value ∧
    parseConfig exLib (.map [("storage_backends", .list [bucket [], .map [("backend_type", .text "GCS"), ("prefix", .text "gs://b")]])]) = .error .value ∧
    parseConfig exLib .null = .error .type ∧
    Fits64 (-5) ∧ "client_keepalive" ∉ known := by
  refine ⟨rfl, rfl, by unfold bucket; rfl, rfl, by unfold Fits64; decide, by decide⟩

end Verif.Tiering.Config
