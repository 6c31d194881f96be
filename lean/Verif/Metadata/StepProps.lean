import Verif.Metadata.Step

/-!
# Property C50: step metadata is forward compatible and round-trips
-/

namespace Verif.Metadata

open Verif

/-! ## Specification -/

def HasStrKeys (d : List (K × Val)) : Prop := ∀ kv ∈ d, ∃ s, kv.1 = .str s

/-- A dictionary with string keys. -/
def IsDict (v : Val) : Prop := ∃ d, v = .dict d ∧ HasStrKeys d

/-- Metadata of the declared types. -/
structure Meta.Valid (m : Meta) : Prop where
  handlers : m.itemHandlers = .none ∨ (∃ s, m.itemHandlers = .str s) ∨ IsDict m.itemHandlers
  metrics : IsDict m.metrics
  performance : ∃ d, m.performance = .stats d ∧ d.map Prod.fst = statFields.map Prod.fst
  init : m.init = .none ∨ ∃ n, m.init = .int n
  commit : m.commit = .none ∨ ∃ n, m.commit = .int n
  custom : IsDict m.custom

/-- The names of the fields of a metadata file. -/
def Known (k : K) : Prop := k = .str "item_handlers" ∨ k = .str "metrics" ∨ k = .str "performance_metrics" ∨ k = .str "init_timestamp_nsecs" ∨
  k = .str "commit_timestamp_nsecs" ∨ k = .str "custom_metadata"

instance (k : K) : Decidable (Known k) := inferInstanceAs (Decidable (_ ∨ _))

/-- The part of a file this version knows. -/
def knownPart (d : List (K × Val)) : List (K × Val) := d.filter fun kv => Known kv.1

/-! ## Lemmas -/

theorem strKeys_iff (d : List (K × Val)) : strKeys d = true ↔ HasStrKeys d := by
  simp only [strKeys, List.all_eq_true, HasStrKeys]
  constructor
  · intro h kv hkv
    have := h kv hkv
    cases hk : kv.1 with
    | str s => exact ⟨s, rfl⟩
    | other n => rw [hk] at this; cases this
  · intro h kv hkv
    obtain ⟨s, hs⟩ := h kv hkv
    rw [hs]; rfl

theorem mem_fieldNames (k : K) : k ∈ fieldNames ↔ Known k := by simp [fieldNames, Known]

theorem processHandlers_valid {v : Val} (h : v = .none ∨ (∃ s, v = .str s) ∨ IsDict v) : processItemHandlers v = some v := by
  rcases h with rfl | ⟨s, rfl⟩ | ⟨d, rfl, hd⟩
  · rfl
  · rfl
  · simp [processItemHandlers, (strKeys_iff d).mpr hd]

theorem processMetrics_valid {v : Val} (h : IsDict v) : processMetrics v .none = some v := by
  obtain ⟨d, rfl, hd⟩ := h
  cases d with
  | nil => rfl
  | cons a d => simp [processMetrics, Val.falsy, (strKeys_iff _).mpr hd]

theorem processTimestamp_valid {v : Val} (h : v = .none ∨ ∃ n, v = .int n) : processTimestamp v = some v := by
  rcases h with rfl | ⟨n, rfl⟩ <;> rfl

theorem processCustom_valid {v : Val} (h : IsDict v) : processCustom v = some v := by
  obtain ⟨d, rfl, hd⟩ := h
  simp [processCustom, (strKeys_iff d).mpr hd]

/-- The statistics that are floats. -/
def floats (d : List (String × Val)) : List (K × Val) := (d.filter fun kv => kv.2.isFloat).map fun kv => (.str kv.1, kv.2)

theorem floats_known {d : List (String × Val)} (h : d.map Prod.fst = statFields.map Prod.fst) :
    (floats d).all (fun kv => statFields.any fun f => kv.1 = .str f.1) = true := by
  simp only [floats, List.all_eq_true, List.any_eq_true, decide_eq_true_eq, List.mem_map, List.mem_filter]
  rintro _ ⟨kv, ⟨hkv, _⟩, rfl⟩
  have : kv.1 ∈ statFields.map Prod.fst := by rw [← h]; exact List.mem_map_of_mem hkv
  obtain ⟨f, hf, he⟩ := List.mem_map.mp this
  exact ⟨f, hf, by rw [he]⟩

theorem get_floats (d : List (String × Val)) (hn : (d.map Prod.fst).Nodup) (n : String) :
    Assoc.get (floats d) (.str n) = match Assoc.get d n with
      | some (.float x) => some (.float x)
      | _ => none := by
  induction d with
  | nil => rfl
  | cons a d ih =>
    simp only [List.map_cons, List.nodup_cons] at hn
    have ih := ih hn.2
    by_cases ha : a.1 = n
    · have hd : Assoc.get d n = none := (Assoc.get_eq_none_iff d n).mpr (by rw [← ha]; exact hn.1)
      rw [hd] at ih
      cases hv : a.2 with
      | float x => simp [floats, List.filter_cons, hv, Val.isFloat, Assoc.get, ha]
      | _ => simp only [floats, List.filter_cons, hv, Val.isFloat, Assoc.get, ha] at ih ⊢; simpa using ih
    · simp only [Assoc.get, ha, if_false]
      rw [← ih]
      simp only [floats, List.filter_cons]
      split
      · simp [Assoc.get, ha]
      · rfl

theorem processPerformance_valid {d : List (String × Val)} : processPerformance (.stats d) = some (.dict (floats d)) := rfl

theorem floats_strKeys (d : List (String × Val)) : strKeys (floats d) = true := by
  rw [strKeys_iff]
  intro kv hkv
  simp only [floats, List.mem_map] at hkv
  obtain ⟨a, _, rfl⟩ := hkv
  exact ⟨a.1, rfl⟩

theorem floats_filter (d : List (String × Val)) : (floats d).filter (fun kv => kv.2.isFloat) = floats d := by
  rw [List.filter_eq_self]
  intro kv hkv
  simp only [floats, List.mem_map, List.mem_filter] at hkv
  obtain ⟨a, ⟨_, ha⟩, rfl⟩ := hkv
  exact ha

theorem statFields_nodup : (statFields.map Prod.fst).Nodup := by
  simp [statFields]

theorem get_statMap (g : String × Val → Val) (f : String × Val) (hf : f ∈ statFields) :
    Assoc.get (statFields.map fun f => (f.1, g f)) f.1 = some (g f) := by
  apply Assoc.get_of_mem
  · simp only [Assoc.keys, List.map_map]
    exact statFields_nodup
  · exact List.mem_map_of_mem hf

/-- The six entries of a metadata file. -/
def file (h me p i c u : Val) : List (K × Val) := [(.str "item_handlers", h), (.str "metrics", me), (.str "performance_metrics", p),
  (.str "init_timestamp_nsecs", i), (.str "commit_timestamp_nsecs", c), (.str "custom_metadata", u)]

theorem serialize_valid {m : Meta} (v : m.Valid) {d : List (String × Val)} (hp : m.performance = .stats d) :
    m.serialize = some (file m.itemHandlers m.metrics (.dict (floats d)) m.init m.commit m.custom) := by
  simp only [Meta.serialize, processHandlers_valid v.handlers, processMetrics_valid v.metrics, hp, processPerformance_valid,
    processTimestamp_valid v.init, processTimestamp_valid v.commit, processCustom_valid v.custom]
  rfl

/-- What a field reads. -/
def fieldOf (d : List (K × Val)) (name : String) : Val := (Assoc.get d (.str name)).getD .none

/-- What makes `deserialize` succeed: the fields. -/
structure Fields (d : List (K × Val)) (m : Meta) (u : List (K × Val)) : Prop where
  handlers : processItemHandlers (fieldOf d "item_handlers") = some m.itemHandlers
  metrics : processMetrics (fieldOf d "metrics") .none = some m.metrics
  performance : ∃ p, processPerformance (fieldOf d "performance_metrics") = some (.dict p) ∧ mkStats p = some m.performance
  init : processTimestamp (fieldOf d "init_timestamp_nsecs") = some m.init
  commit : processTimestamp (fieldOf d "commit_timestamp_nsecs") = some m.commit
  custom : processCustom (fieldOf d "custom_metadata") = some (.dict u)

theorem deserialize_eq {d : List (K × Val)} {m : Meta} {u : List (K × Val)} (f : Fields d m u) :
    Meta.deserialize (.dict d) = (addUnknown (isAliased (fieldOf d "custom_metadata")) u (d.filter fun kv => kv.1 ∉ fieldNames)).map
      fun u => { m with custom := .dict u } := by
  obtain ⟨p, hp1, hp2⟩ := f.performance
  have h1 := f.handlers
  have h2 := f.metrics
  have h3 := f.init
  have h4 := f.commit
  have h5 := f.custom
  simp only [fieldOf] at h1 h2 h3 h4 h5 hp1
  simp only [Meta.deserialize, h1, h2, h3, h4, h5, hp1, Option.bind_eq_bind, Option.bind_some, hp2, fieldOf]
  cases addUnknown _ u (d.filter fun kv => kv.1 ∉ fieldNames) <;> rfl

theorem addUnknown_free (c l : List (K × Val)) : addUnknown false c l = some (l.foldl (fun c kv => Assoc.put c kv.1 kv.2) c) := by
  induction l generalizing c with
  | nil => rfl
  | cons a l ih => simp [addUnknown, ih]

theorem put_ne_nil (c : List (K × Val)) (k : K) (v : Val) : (Assoc.put c k v).isEmpty = false := by
  cases c with
  | nil => rfl
  | cons a c => simp only [Assoc.put]; split <;> rfl

theorem addUnknown_aliased (c l : List (K × Val)) : addUnknown true c l = match c, l with
    | c, [] => some c
    | [], [(k, v)] => some [(k, v)]
    | _, _ => none := by
  match c, l with
  | [], [] => rfl
  | a :: c, [] => rfl
  | a :: c, b :: l => simp [addUnknown]
  | [], [(k, v)] => rfl
  | [], (k, v) :: b :: l => simp [addUnknown, put_ne_nil]

theorem get_foldl_other (l c : List (K × Val)) (k : K) (hk : k ∉ Assoc.keys l) :
    Assoc.get (l.foldl (fun c kv => Assoc.put c kv.1 kv.2) c) k = Assoc.get c k := by
  induction l generalizing c with
  | nil => rfl
  | cons b l ih =>
    simp only [Assoc.keys, List.map_cons, List.mem_cons, not_or] at hk
    simp only [List.foldl_cons]
    rw [ih _ hk.2, Assoc.get_put_ne _ _ hk.1]

theorem get_foldl (l c : List (K × Val)) (hn : (Assoc.keys l).Nodup) (k : K) (v : Val) (h : (k, v) ∈ l) :
    Assoc.get (l.foldl (fun c kv => Assoc.put c kv.1 kv.2) c) k = some v := by
  induction l generalizing c with
  | nil => cases h
  | cons a l ih =>
    simp only [Assoc.keys, List.map_cons, List.nodup_cons] at hn
    simp only [List.foldl_cons]
    rcases List.mem_cons.mp h with rfl | h
    · rw [get_foldl_other _ _ _ hn.1]
      simp
    · exact ih _ hn.2 h

/-! ## Properties -/

/-- Valid metadata can be serialized and read back: all fields are the same, except that of the statistics only the floats
survive, and the other ones have their default values. -/
theorem C50_roundtrip {m : Meta} (v : m.Valid) : ∃ s m', m.serialize = some s ∧ deserializeWith (.dict s) .none = some m' ∧
    m'.itemHandlers = m.itemHandlers ∧ m'.metrics = m.metrics ∧ m'.init = m.init ∧ m'.commit = m.commit ∧ m'.custom = m.custom ∧
    ∃ d d', m.performance = .stats d ∧ m'.performance = .stats d' ∧ d'.map Prod.fst = statFields.map Prod.fst ∧ ∀ f ∈ statFields,
      Assoc.get d' f.1 = match Assoc.get d f.1 with
        | some (.float x) => some (.float x)
        | _ => some f.2 := by
  obtain ⟨d, hd, hk⟩ := v.performance
  obtain ⟨u, hu, huk⟩ := v.custom
  have hs := serialize_valid v hd
  refine ⟨_, { m with performance := .stats (statFields.map fun f => (f.1, (Assoc.get (floats d) (.str f.1)).getD f.2)) }, hs, ?_, rfl, rfl, rfl, rfl, rfl,
    d, _, hd, rfl, ?_, ?_⟩
  · have f : Fields (file m.itemHandlers m.metrics (.dict (floats d)) m.init m.commit m.custom)
        { m with performance := .stats (statFields.map fun f => (f.1, (Assoc.get (floats d) (.str f.1)).getD f.2)) } u := by
      constructor
      · exact processHandlers_valid v.handlers
      · exact processMetrics_valid v.metrics
      · refine ⟨floats d, ?_, ?_⟩
        · simp [fieldOf, file, Assoc.get, processPerformance, floats_strKeys, floats_filter]
        · simp only [mkStats, floats_known hk, if_true]
      · exact processTimestamp_valid v.init
      · exact processTimestamp_valid v.commit
      · rw [show fieldOf _ "custom_metadata" = m.custom from rfl, processCustom_valid v.custom, hu]
    have e := deserialize_eq f
    have hnil : (file m.itemHandlers m.metrics (.dict (floats d)) m.init m.commit m.custom).filter (fun kv => kv.1 ∉ fieldNames) = [] := by
      simp [file, fieldNames]
    rw [hnil, addUnknown] at e
    simp only [deserializeWith, e, Option.map_some, Option.bind_eq_bind, Option.bind_some, processMetrics_valid v.metrics]
    simp [hu]
  · simp only [List.map_map]; rfl
  · intro f hf
    have hn : (d.map Prod.fst).Nodup := by rw [hk]; exact statFields_nodup
    rw [get_statMap (fun f => (Assoc.get (floats d) (.str f.1)).getD f.2) f hf, get_floats d hn]
    split <;> simp_all

theorem get_knownPart (d : List (K × Val)) {k : K} (hk : Known k) : Assoc.get (knownPart d) k = Assoc.get d k := by
  induction d with
  | nil => rfl
  | cons a d ih =>
    simp only [knownPart, List.filter_cons]
    by_cases ha : a.1 = k
    · simp [ha, hk, Assoc.get]
    · split
      · simp only [Assoc.get, ha, if_false]; exact ih
      · simp only [Assoc.get, ha, if_false]; exact ih

theorem fields_of_known {d : List (K × Val)} {m : Meta} (h : Meta.deserialize (.dict (knownPart d)) = some m) : ∃ u, m.custom = .dict u ∧ Fields d m u := by
  have hf : ∀ n, Known (.str n) → (Assoc.get (knownPart d) (.str n)).getD .none = fieldOf d n := fun n hn => by rw [get_knownPart d hn]; rfl
  have hnil : (knownPart d).filter (fun kv => kv.1 ∉ fieldNames) = [] := by
    rw [List.filter_eq_nil_iff]
    intro kv hkv
    simp only [knownPart, List.mem_filter, decide_eq_true_eq] at hkv
    simp [(mem_fieldNames _).mpr hkv.2]
  simp only [Meta.deserialize, hnil, addUnknown] at h
  rw [hf _ (by simp [Known]), hf _ (by simp [Known]), hf _ (by simp [Known]), hf _ (by simp [Known]), hf _ (by simp [Known]), hf _ (by simp [Known])] at h
  simp only [Option.bind_eq_bind, Option.bind_eq_some_iff] at h
  obtain ⟨hh, h1, me, h2, p, h3, i, h4, c, h5, u, h6, h⟩ := h
  cases p with
  | dict p =>
    cases u with
    | dict u =>
      simp only [Option.pure_def, Option.bind_eq_some_iff, Option.some.injEq] at h
      obtain ⟨q, h7, v, rfl, rfl⟩ := h
      exact ⟨u, rfl, ⟨h1, h2, ⟨p, h3, h7⟩, h4, h5, h6⟩⟩
    | _ => simp at h
  | _ => simp at h

/-- Unknown keys, written by a newer version next to fields this version can read, all arrive in the custom metadata, if
the file holds no custom metadata of its own; the known fields are read as without them. -/
theorem C50_unknown_kept {d : List (K × Val)} (hn : (Assoc.keys d).Nodup) {m : Meta} (hm : Meta.deserialize (.dict (knownPart d)) = some m)
    (hc : Assoc.get d (.str "custom_metadata") = none ∨ Assoc.get d (.str "custom_metadata") = some .none) :
    ∃ m' u', Meta.deserialize (.dict d) = some m' ∧ m'.custom = .dict u' ∧ (∀ k v, (k, v) ∈ d → ¬ Known k → Assoc.get u' k = some v) ∧
      m'.itemHandlers = m.itemHandlers ∧ m'.metrics = m.metrics ∧ m'.performance = m.performance ∧ m'.init = m.init ∧ m'.commit = m.commit := by
  obtain ⟨u, _, f⟩ := fields_of_known hm
  have ha : isAliased (fieldOf d "custom_metadata") = false := by rcases hc with h | h <;> simp [fieldOf, h, isAliased]
  rw [deserialize_eq f, ha, addUnknown_free]
  refine ⟨_, _, rfl, rfl, ?_, rfl, rfl, rfl, rfl, rfl⟩
  intro k v hkv hk
  apply get_foldl
  · exact hn.sublist (List.filter_sublist.map _)
  · simp only [List.mem_filter, decide_eq_true_eq]
    exact ⟨hkv, fun h => hk ((mem_fieldNames k).mp h)⟩

theorem custom_of_fields {d : List (K × Val)} {m : Meta} {u c : List (K × Val)} (f : Fields d m u)
    (hc : Assoc.get d (.str "custom_metadata") = some (.dict c)) : u = c := by
  have := f.custom
  simp only [fieldOf, hc, Option.getD_some, processCustom] at this
  split at this
  · simp only [Option.some.injEq, Val.dict.injEq] at this; exact this.symm
  · cases this

theorem filter_unique {d : List (K × Val)} (hn : (Assoc.keys d).Nodup) {p : K × Val → Bool} {x : K × Val} (hx : x ∈ d) (hp : p x = true)
    (h : ∀ y ∈ d, p y = true → y.1 = x.1) : d.filter p = [x] := by
  induction d with
  | nil => cases hx
  | cons a d ih =>
    simp only [Assoc.keys, List.map_cons, List.nodup_cons] at hn
    rcases List.mem_cons.mp hx with rfl | hx'
    · rw [List.filter_cons_of_pos hp]
      have : d.filter p = [] := by
        rw [List.filter_eq_nil_iff]
        intro y hy hpy
        exact hn.1 (by rw [← h y (by simp [hy]) hpy]; exact List.mem_map_of_mem hy)
      rw [this]
    · have ha : ¬ p a = true := fun hpa => hn.1 (by rw [h a (by simp) hpa]; exact List.mem_map_of_mem hx')
      rw [List.filter_cons_of_neg ha]
      exact ih hn.2 hx' fun y hy => h y (by simp [hy])

/-- One unknown key is also kept next to empty custom metadata. -/
theorem C50_one_unknown_kept {d : List (K × Val)} (hn : (Assoc.keys d).Nodup) {m : Meta} (hm : Meta.deserialize (.dict (knownPart d)) = some m)
    (hc : Assoc.get d (.str "custom_metadata") = some (.dict [])) {k : K} {v : Val} (hk : (k, v) ∈ d) (hu : ¬ Known k)
    (ho : ∀ k' v', (k', v') ∈ d → ¬ Known k' → k' = k) :
    ∃ m', Meta.deserialize (.dict d) = some m' ∧ m'.custom = .dict [(k, v)] ∧
      m'.itemHandlers = m.itemHandlers ∧ m'.metrics = m.metrics ∧ m'.performance = m.performance ∧ m'.init = m.init ∧ m'.commit = m.commit := by
  obtain ⟨u, _, f⟩ := fields_of_known hm
  have hfil : d.filter (fun kv => kv.1 ∉ fieldNames) = [(k, v)] := filter_unique hn hk (by simp [mem_fieldNames, hu])
    (fun y hy hp => ho y.1 y.2 hy (by simpa [mem_fieldNames] using hp))
  rw [deserialize_eq f, hfil, custom_of_fields f hc]
  refine ⟨{ m with custom := .dict [(k, v)] }, ?_, rfl, rfl, rfl, rfl, rfl, rfl⟩
  simp only [fieldOf, hc, Option.getD_some, isAliased, addUnknown_aliased, Option.map_some]

/-- Additional metrics are added to those of the file, and win. -/
theorem C50_additional_metrics {v : Val} {m : Meta} (hm : Meta.deserialize v = some m) (hd : IsDict m.metrics) (a : List (K × Val)) (ha : HasStrKeys a)
    (hn : (Assoc.keys a).Nodup) : ∃ m' d d', deserializeWith v (.dict a) = some m' ∧ m.metrics = .dict d ∧ m'.metrics = .dict d' ∧ m'.custom = m.custom ∧
      (∀ k x, (k, x) ∈ a → Assoc.get d' k = some x) ∧ ∀ k, k ∉ Assoc.keys a → Assoc.get d' k = Assoc.get d k := by
  obtain ⟨d, hd, hk⟩ := hd
  have : processMetrics m.metrics (.dict a) = some (.dict (a.foldl (fun d kv => Assoc.put d kv.1 kv.2) d)) := by
    rw [hd]
    cases d with
    | nil => simp [processMetrics, Val.falsy, (strKeys_iff _).mpr hk, (strKeys_iff a).mpr ha]
    | cons b d => simp [processMetrics, Val.falsy, (strKeys_iff _).mpr hk, (strKeys_iff a).mpr ha]
  refine ⟨{ m with metrics := .dict (a.foldl (fun d kv => Assoc.put d kv.1 kv.2) d) }, d, _, ?_, hd, rfl, rfl, ?_⟩
  · simp [deserializeWith, hm, this]
  · refine ⟨fun k x hx => get_foldl a d hn k x hx, ?_⟩
    intro k hk
    exact get_foldl_other a d k hk

/-- A file with nothing in it is valid metadata. -/
theorem C50_empty : ∃ m, deserializeWith (.dict []) .none = some m ∧ m.Valid :=
  ⟨{ performance := .stats (statFields.map fun f => (f.1, f.2)) }, rfl, ⟨.inl rfl, ⟨[], rfl, by simp [HasStrKeys]⟩, ⟨_, rfl, by simp⟩, .inl rfl, .inl rfl,
    ⟨[], rfl, by simp [HasStrKeys]⟩⟩⟩

/-- Statistics that are not recorded read as those of a save that was neither synchronous nor due to a preemption, and everything else as
unknown. -/
theorem C50_default_statistics : ∃ m d, deserializeWith (.dict []) .none = some m ∧ m.performance = .stats d ∧
    ∀ k v, (k, v) ∈ d → v = if k = "event_type" then .str "save" else if k = "reached_preemption" ∨ k = "synchronous" then .bool false else .none := by
  refine ⟨_, _, rfl, rfl, ?_⟩
  intro k v h
  simp [statFields, Assoc.get] at h
  rcases h with h | h | h | h | h | h | h | h | h | h | h | h | h | h | h <;> obtain ⟨rfl, rfl⟩ := h <;> simp

theorem processFields_keys {kwargs l : List (K × Val)} {ns : List K} (h : processFields kwargs ns = some l) :
    Assoc.keys l = ns.filter fun n => (Assoc.get kwargs n).isSome := by
  induction ns generalizing l with
  | nil => simp [processFields] at h; subst h; rfl
  | cons n ns ih =>
    simp only [processFields] at h
    cases hg : Assoc.get kwargs n with
    | none => simp only [hg] at h; simp [hg, ih h]
    | some v =>
      simp only [hg] at h
      cases hp : processor n with
      | none => simp [hp] at h
      | some f =>
        simp only [hp] at h
        cases hf : f v with
        | none => simp [hf] at h
        | some w =>
          cases hr : processFields kwargs ns with
          | none => simp [hf, hr] at h
          | some l' =>
            simp only [hf, hr, Option.some.injEq] at h
            subst h
            have := ih hr
            simp only [Assoc.keys] at this
            simp [Assoc.keys, hg, this]

/-- An update is refused if it names a field that does not exist, and otherwise speaks of the fields given and no others. -/
theorem C50_update {kwargs l : List (K × Val)} (h : serializeForUpdate kwargs = some l) (k : K) : k ∈ Assoc.keys l ↔ k ∈ Assoc.keys kwargs := by
  simp only [serializeForUpdate] at h
  split at h
  · cases h
  · next hu =>
    rw [processFields_keys h]
    simp only [List.mem_filter, Option.isSome_iff_exists, ← Assoc.mem_keys_iff]
    constructor
    · exact fun h => h.2
    · intro hk
      refine ⟨?_, hk⟩
      obtain ⟨kv, hkv, rfl⟩ := List.mem_map.mp hk
      simp only [List.any_eq_true, decide_eq_true_eq, not_exists, not_and, Classical.not_not] at hu
      exact hu kv hkv

theorem processFields_get {kwargs l : List (K × Val)} {ns : List K} (h : processFields kwargs ns = some l) {n : K} (hn : n ∈ ns) {v : Val}
    (hv : Assoc.get kwargs n = some v) : ∃ f, processor n = some f ∧ Assoc.get l n = f v := by
  induction ns generalizing l with
  | nil => cases hn
  | cons a ns ih =>
    simp only [processFields] at h
    cases hg : Assoc.get kwargs a with
    | none =>
      simp only [hg] at h
      rcases List.mem_cons.mp hn with rfl | hn
      · rw [hv] at hg; cases hg
      · exact ih h hn
    | some x =>
      simp only [hg] at h
      cases hp : processor a with
      | none => simp [hp] at h
      | some f =>
        simp only [hp] at h
        cases hf : f x with
        | none => simp [hf] at h
        | some w =>
          cases hr : processFields kwargs ns with
          | none => simp [hf, hr] at h
          | some l' =>
            simp only [hf, hr, Option.some.injEq] at h
            subst h
            by_cases ha : a = n
            · subst ha
              rw [hv] at hg
              cases hg
              exact ⟨f, hp, by simp [Assoc.get, hf]⟩
            · rcases List.mem_cons.mp hn with rfl | hn
              · exact absurd rfl ha
              · obtain ⟨g, h1, h2⟩ := ih hr hn
                exact ⟨g, h1, by simp [Assoc.get, ha, h2]⟩

/-- Values of the declared types are passed on as they are. -/
theorem C50_update_values {kwargs l : List (K × Val)} (h : serializeForUpdate kwargs = some l) {v : Val} :
    (∀ k, k = .str "custom_metadata" ∨ k = .str "metrics" ∨ k = .str "item_handlers" → Assoc.get kwargs k = some v → IsDict v → Assoc.get l k = some v) ∧
    ∀ k, k = .str "init_timestamp_nsecs" ∨ k = .str "commit_timestamp_nsecs" → Assoc.get kwargs k = some v → (∃ n, v = .int n) → Assoc.get l k = some v := by
  simp only [serializeForUpdate] at h
  split at h
  · cases h
  · constructor
    · rintro k (rfl | rfl | rfl) hk hv <;> obtain ⟨f, h1, h2⟩ := processFields_get h (by simp [fieldNames]) hk <;>
        simp only [processor, K.str.injEq, String.reduceEq, if_false, if_true, Option.some.injEq] at h1 <;> subst h1 <;> rw [h2]
      · exact processCustom_valid hv
      · exact processMetrics_valid hv
      · exact processHandlers_valid (.inr (.inr hv))
    · rintro k (rfl | rfl) hk hv <;> obtain ⟨f, h1, h2⟩ := processFields_get h (by simp [fieldNames]) hk <;>
        simp only [processor, K.str.injEq, String.reduceEq, if_false, if_true, Option.some.injEq] at h1 <;> subst h1 <;> rw [h2] <;>
        exact processTimestamp_valid (.inr hv)

theorem C50_update_unknown {kwargs : List (K × Val)} {k : K} (hk : k ∈ Assoc.keys kwargs) (hu : ¬ Known k) : serializeForUpdate kwargs = none := by
  simp only [serializeForUpdate]
  rw [if_pos]
  simp only [List.any_eq_true, decide_eq_true_eq]
  obtain ⟨kv, hkv, rfl⟩ := List.mem_map.mp hk
  exact ⟨kv, hkv, fun h => hu ((mem_fieldNames _).mp h)⟩

/-- Root metadata can be serialized and read back. -/
theorem C50_root_roundtrip {r : Root} (h1 : IsDict r.internal) (h2 : IsDict r.custom) : ∃ s, r.serialize = some s ∧ Root.deserialize (.dict s) = some r := by
  refine ⟨[(.str "internal_metadata", r.internal), (.str "custom_metadata", r.custom)], ?_, ?_⟩
  · simp [Root.serialize, processCustom_valid h1, processCustom_valid h2]
  · obtain ⟨i, hi, _⟩ := id h1
    obtain ⟨c, hc, _⟩ := id h2
    simp only [Root.deserialize, Assoc.get, if_true, Option.getD_some, K.str.injEq, String.reduceEq, if_false, processCustom_valid h1, processCustom_valid h2,
      Option.bind_eq_bind, Option.bind_some]
    rw [hc]
    simp only [ne_eq]
    simp [addUnknown, ← hc]

theorem isDict_of {d : List (K × Val)} (h : strKeys d = true) : IsDict (.dict d) := ⟨d, rfl, (strKeys_iff d).mp h⟩

/-- Metadata of other types is refused. -/
theorem C50_serialize_checks {m : Meta} {s : List (K × Val)} (h : m.serialize = some s) :
    (m.itemHandlers = .none ∨ (∃ s, m.itemHandlers = .str s) ∨ IsDict m.itemHandlers) ∧ (m.metrics.falsy = true ∨ IsDict m.metrics) ∧
    (m.performance = .none ∨ (∃ d, m.performance = .stats d) ∨ IsDict m.performance) ∧
    (m.init = .none ∨ (∃ n, m.init = .int n) ∨ ∃ b, m.init = .bool b) ∧ (m.commit = .none ∨ (∃ n, m.commit = .int n) ∨ ∃ b, m.commit = .bool b) ∧
    (m.custom = .none ∨ IsDict m.custom) := by
  simp only [Meta.serialize, Option.bind_eq_bind, Option.bind_eq_some_iff] at h
  obtain ⟨_, h1, _, h2, _, h3, _, h4, _, h5, _, h6, _⟩ := h
  have ts : ∀ v w, processTimestamp v = some w → v = .none ∨ (∃ n, v = .int n) ∨ ∃ b, v = .bool b := by
    intro v w h
    cases v <;> simp [processTimestamp] at h ⊢
  refine ⟨?_, ?_, ?_, ts _ _ h4, ts _ _ h5, ?_⟩
  · cases hv : m.itemHandlers <;> simp [hv, processItemHandlers] at h1 ⊢
    exact isDict_of h1.1
  · by_cases hf : m.metrics.falsy = true
    · exact .inl hf
    · right
      simp only [processMetrics, hf] at h2
      cases hv : m.metrics <;> simp [hv] at h2
      exact isDict_of h2.1
  · cases hv : m.performance <;> simp [hv, processPerformance] at h3 ⊢
    exact isDict_of h3.1
  · cases hv : m.custom <;> simp [hv, processCustom] at h6 ⊢
    exact isDict_of h6.1

/-! ## Findings -/

/-- Two unknown keys next to the empty custom metadata that `serialize` itself writes make the file unreadable: the first one
is put into the very dictionary that is looked at for the second one. -/
theorem C50_two_unknown_fails {d : List (K × Val)} {m : Meta} (hm : Meta.deserialize (.dict (knownPart d)) = some m)
    (hc : Assoc.get d (.str "custom_metadata") = some (.dict [])) {a b : K × Val} (ha : a ∈ d) (hb : b ∈ d) (hab : a.1 ≠ b.1)
    (hua : ¬ Known a.1) (hub : ¬ Known b.1) : Meta.deserialize (.dict d) = none := by
  obtain ⟨u, _, f⟩ := fields_of_known hm
  have ha' : a ∈ d.filter (fun kv => kv.1 ∉ fieldNames) := by simp [mem_fieldNames, ha, hua]
  have hb' : b ∈ d.filter (fun kv => kv.1 ∉ fieldNames) := by simp [mem_fieldNames, hb, hub]
  rw [deserialize_eq f, custom_of_fields f hc]
  match hl : d.filter (fun kv => kv.1 ∉ fieldNames) with
  | [] => rw [hl] at ha'; cases ha'
  | [x] =>
    rw [hl] at ha' hb'
    rw [List.mem_singleton.mp ha', List.mem_singleton.mp hb'] at hab
    exact absurd rfl hab
  | x :: y :: l => rw [hl]; simp only [fieldOf, hc, Option.getD_some, isAliased, addUnknown_aliased, Option.map_none]

/-- One unknown key next to custom metadata of the user makes the file unreadable. -/
theorem C50_unknown_with_custom_fails {d : List (K × Val)} {m : Meta} (hm : Meta.deserialize (.dict (knownPart d)) = some m) {x : K × Val} {y : List (K × Val)}
    (hc : Assoc.get d (.str "custom_metadata") = some (.dict (x :: y))) {a : K × Val} (ha : a ∈ d) (hua : ¬ Known a.1) : Meta.deserialize (.dict d) = none := by
  obtain ⟨u, _, f⟩ := fields_of_known hm
  have ha' : a ∈ d.filter (fun kv => kv.1 ∉ fieldNames) := by simp [mem_fieldNames, ha, hua]
  rw [deserialize_eq f, custom_of_fields f hc]
  match hl : d.filter (fun kv => kv.1 ∉ fieldNames) with
  | [] => rw [hl] at ha'; cases ha'
  | x :: l => rw [hl]; simp only [fieldOf, hc, Option.getD_some, isAliased, addUnknown_aliased, Option.map_none]

/-- A performance metric that this version does not know makes the file unreadable, whatever else is in it. -/
theorem C50_new_statistic_fails {d : List (K × Val)} {p : List (K × Val)} (hp : Assoc.get d (.str "performance_metrics") = some (.dict p))
    {k : String} {x : Int} (hk : (.str k, .float x) ∈ p) (hn : ∀ f ∈ statFields, f.1 ≠ k) : Meta.deserialize (.dict d) = none := by
  have hno : mkStats (p.filter fun kv => kv.2.isFloat) = none := by
    simp only [mkStats]
    rw [if_neg]
    simp only [List.all_eq_true, List.any_eq_true, decide_eq_true_eq]
    intro h
    obtain ⟨f, hf, he⟩ := h (.str k, .float x) (by simp [hk, Val.isFloat])
    exact hn f hf (by simpa using he.symm)
  cases hr : Meta.deserialize (.dict d) with
  | none => rfl
  | some m =>
    exfalso
    simp only [Meta.deserialize, hp, Option.getD_some, Option.bind_eq_bind, Option.bind_eq_some_iff] at hr
    obtain ⟨_, _, _, _, q, hq, _, _, _, _, u, _, hr⟩ := hr
    simp only [processPerformance] at hq
    split at hq
    · simp only [Option.some.injEq] at hq
      subst hq
      cases u with
      | dict u => simp [hno] at hr
      | _ => simp at hr
    · cases hq

/-- The step number kept in the statistics does not survive. -/
theorem C50_statistics_fails {m : Meta} (v : m.Valid) {d : List (String × Val)} (hd : m.performance = .stats d) {n : Int} (hs : Assoc.get d "step" = some (.int n)) :
    ∃ s m' d', m.serialize = some s ∧ deserializeWith (.dict s) .none = some m' ∧ m'.performance = .stats d' ∧ Assoc.get d' "step" = some .none := by
  obtain ⟨s, m', h1, h2, _, _, _, _, _, e, e', h3, h4, _, h5⟩ := C50_roundtrip v
  rw [hd] at h3
  cases h3
  have := h5 ("step", .none) (by simp [statFields])
  simp only [hs] at this
  exact ⟨s, m', e', h1, h2, h4, this⟩

/-- Non-trivial metadata. -/
example : Meta.Valid ⟨.dict [(.str "state", .str "PyTreeHandler")], .dict [(.str "loss", .float 3)],
    .stats (statFields.map fun f => (f.1, if f.1 = "get_old_steps_duration_secs" then .float 5 else f.2)), .int 7, .int 9,
    .dict [(.str "user", .list [.int 1])]⟩ :=
  ⟨.inr (.inr ⟨_, rfl, by simp [HasStrKeys]⟩), ⟨_, rfl, by simp [HasStrKeys]⟩, ⟨_, rfl, by simp⟩, .inr ⟨7, rfl⟩, .inr ⟨9, rfl⟩, ⟨_, rfl, by simp [HasStrKeys]⟩⟩

/-- A file of a newer version, without and with custom metadata. -/
example : (∃ m, Meta.deserialize (.dict (knownPart [(.str "metrics", .dict []), (.str "a", .int 1), (.str "b", .int 2)])) = some m) ∧
    ∃ m, Meta.deserialize (.dict (knownPart [(.str "metrics", .dict []), (.str "custom_metadata", .dict []), (.str "a", .int 1), (.str "b", .int 2)])) = some m :=
  ⟨⟨_, rfl⟩, ⟨_, rfl⟩⟩

end Verif.Metadata
