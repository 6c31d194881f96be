import Verif.Tiering.Routing

/-!
# Tiering service: choosing backends and storage paths, removing data (C68)
-/
namespace Verif.Tiering.Routing

/-! ## Choosing a backend -/

/-- Specification: the first element of the list that satisfies a condition. -/
def First (P : Backend → Prop) (bs : List Backend) (b : Backend) : Prop :=
  ∃ pre post, bs = pre ++ b :: post ∧ P b ∧ ∀ x ∈ pre, ¬ P x

/-- Specification: the backend is in the region. -/
def Serves (r : Str) (b : Backend) : Prop := b.region = some r ∨ ∃ m, b.multi = some m ∧ r ∈ m

/-- Specification: the backend's region, or one of its regions, is an initial segment of the name
of the zone. -/
def PrefixServes (z : Str) (b : Backend) : Prop :=
  (∃ r, b.region = some r ∧ r <+: z) ∨ ∃ m, b.multi = some m ∧ ∃ r ∈ m, r <+: z

theorem find_first {p : Backend → Bool} {P : Backend → Prop} (hp : ∀ b, p b = true ↔ P b) (bs : List Backend) :
    (∀ b, bs.find? p = some b ↔ First P bs b) ∧ (bs.find? p = none ↔ ∀ b ∈ bs, ¬ P b) := by
  constructor
  · intro b
    rw [List.find?_eq_some_iff_append]
    constructor
    · rintro ⟨h1, as, cs, h2, h3⟩
      refine ⟨as, cs, h2, (hp b).1 h1, fun x hx hP => ?_⟩
      have := h3 x hx; rw [(hp x).2 hP] at this; simp at this
    · rintro ⟨as, cs, h2, h1, h3⟩
      refine ⟨(hp b).2 h1, as, cs, h2, fun x hx => ?_⟩
      have := h3 x hx; rw [← hp x] at this; simpa using this
  · rw [List.find?_eq_none]
    constructor
    · intro h b hb hP; exact h b hb ((hp b).2 hP)
    · intro h b hb hP; exact h b hb ((hp b).1 hP)

theorem inZone_iff (z : Str) (b : Backend) : inZone z b = true ↔ b.zone = some z := by simp [inZone]

theorem startsWith_iff (s p : Str) : startsWith s p = true ↔ p <+: s := by simp [startsWith]

theorem inRegion_iff (r : Str) (b : Backend) : inRegion r b = true ↔ Serves r b := by
  unfold inRegion Serves
  cases b.multi <;> simp

theorem prefixOfZone_iff (z : Str) (b : Backend) : prefixOfZone z b = true ↔ PrefixServes z b := by
  unfold prefixOfZone PrefixServes
  cases b.region <;> cases b.multi <;> simp [startsWith_iff]

/-- C68: a backend in the client's zone is preferred to every other: if there is one, the first one
is chosen, whatever region is given. -/
theorem C68_locate_zone (bs : List Backend) (z : Str) (region : Option Str) (h : ∃ b ∈ bs, b.zone = some z) :
    ∃ b, locate bs (some z) region = some b ∧ First (fun b => b.zone = some z) bs b := by
  have hf := find_first (inZone_iff z) bs
  cases hz : bs.find? (inZone z) with
  | none => obtain ⟨b, hb, hbz⟩ := h; exact absurd hbz (hf.2.1 hz b hb)
  | some b => exact ⟨b, by simp [locate, hz], (hf.1 b).1 hz⟩

/-- C68: without a backend in the zone, the first backend in the client's region is chosen, and
none if there is none. -/
theorem C68_locate_region (bs : List Backend) (zone : Option Str) (r : Str)
    (h : ∀ z, zone = some z → ∀ b ∈ bs, b.zone ≠ some z) :
    (∀ b, locate bs zone (some r) = some b ↔ First (Serves r) bs b) ∧
    (locate bs zone (some r) = none ↔ ∀ b ∈ bs, ¬ Serves r b) := by
  have hf := find_first (inRegion_iff r) bs
  have e : locate bs zone (some r) = bs.find? (inRegion r) := by
    cases zone with
    | none => rfl
    | some z =>
      have hz : bs.find? (inZone z) = none := (find_first (inZone_iff z) bs).2.2 (h z rfl)
      simp [locate, hz]
  rw [e]; exact hf

/-- C68: with a zone but no region (and no backend in the zone), the first backend with a region
that is an initial segment of the zone's name is chosen, and none if there is none; with neither,
none. -/
theorem C68_locate_no_region (bs : List Backend) (z : Str) (h : ∀ b ∈ bs, b.zone ≠ some z) :
    (∀ b, locate bs (some z) none = some b ↔ First (PrefixServes z) bs b) ∧
    (locate bs (some z) none = none ↔ ∀ b ∈ bs, ¬ PrefixServes z b) ∧ locate bs none none = none := by
  have hf := find_first (prefixOfZone_iff z) bs
  have hz : bs.find? (inZone z) = none := (find_first (inZone_iff z) bs).2.2 h
  have e : locate bs (some z) none = bs.find? (prefixOfZone z) := by
    simp only [locate, hz]
    cases bs.find? (prefixOfZone z) <;> rfl
  rw [e]; exact ⟨hf.1, hf.2, rfl⟩

/-- "us-a" and "us-b", "us". -/
def usA : Str := ['u', 's', '-', 'a']
def usB : Str := ['u', 's', '-', 'b']
def us : Str := ['u', 's']
def exampleBackends : List Backend :=
  [{ region := some us, pfx := ['r'] }, { zone := some usA, pfx := ['z'] }, { multi := some [us], pfx := ['m'] }]

theorem C68_locate_nonvacuous :
    (locate exampleBackends (some usA) (some us)).map Backend.pfx = some ['z'] ∧
    (locate exampleBackends (some usB) (some us)).map Backend.pfx = some ['r'] ∧
    (locate exampleBackends (some usB) none).map Backend.pfx = some ['r'] ∧
    locate exampleBackends (some usB) (some usB) = none := by decide

/-- C68 (finding): the documented choice by the zone's name "when no region is specified" never
happens in the service: a region that a request leaves out arrives as the empty string, not as
`None`.  For every list of backends with non-empty regions, a request with only a zone that no
backend is in is refused, although a backend may be in the zone's region. -/
theorem C68_zone_only_refused_fails :
    (∀ (bs : List Backend) (z : Str), (∀ b ∈ bs, b.zone ≠ some z) → (∀ b ∈ bs, ¬ Serves [] b) →
      serverLocate bs (some z) none = none) ∧
    ∃ (bs : List Backend) (z : Str), (∀ b ∈ bs, b.zone ≠ some z) ∧ (∀ b ∈ bs, ¬ Serves [] b) ∧
      ∃ b, locate bs (some z) none = some b := by
  constructor
  · intro bs z h1 h2
    exact (C68_locate_region bs (some z) [] (fun z' e => by cases e; exact h1)).2.2 h2
  · refine ⟨[{ region := some us, pfx := ['r'] }], usA, by decide, ?_, _, rfl⟩
    intro b hb hs
    rw [← inRegion_iff] at hs
    revert b; decide

/-- "europe-west1" and "europe-west10-a". -/
def ew1 : Str := ['e', 'u', 'r', 'o', 'p', 'e', '-', 'w', 'e', 's', 't', '1']

/-- C68 (finding): the choice by initial segment takes a backend in another region: a client in zone
europe-west10-a is sent to a backend in europe-west1 even if there is one in europe-west10. -/
theorem C68_prefix_other_region_fails :
    (locate [{ region := some ew1, pfx := ['1'] }, { region := some (ew1 ++ ['0']), pfx := ['2'] }]
      (some (ew1 ++ ['0', '-', 'a'])) none).map Backend.region = some (some ew1) := by decide

/-! ## The backend a checkpoint is copied to -/

/-- Specification: the region of a zone is its name up to the last hyphen. -/
def RegionOfZone (z r : Str) : Prop := (∃ s, z = r ++ '-' :: s ∧ '-' ∉ s) ∨ ('-' ∉ z ∧ r = z)

/-- Specification: the regions that a backend is in. -/
def Covers (b : Backend) (r : Str) : Prop :=
  b.region = some r ∨ (∃ z, b.zone = some z ∧ z ≠ [] ∧ RegionOfZone z r) ∨ ∃ m, b.multi = some m ∧ r ∈ m

/-- Specification: exactly one kind of location is given. -/
def OneLoc (b : Backend) : Prop :=
  (b.zone ≠ none ∧ b.region = none ∧ b.multi = none) ∨ (b.zone = none ∧ b.region ≠ none ∧ b.multi = none) ∨
  (b.zone = none ∧ b.region = none ∧ b.multi ≠ none)

theorem last_split {c : Char} {z : Str} (h : c ∈ z) : ∃ r s, z = r ++ c :: s ∧ c ∉ s := by
  induction z with
  | nil => simp at h
  | cons x xs ih =>
    by_cases hx : c ∈ xs
    · obtain ⟨r, s, e, hs⟩ := ih hx
      exact ⟨x :: r, s, by simp [e], hs⟩
    · rcases List.mem_cons.1 h with rfl | h'
      · exact ⟨[], xs, rfl, hx⟩
      · exact absurd h' hx

theorem last_split_unique {c : Char} {r s r' s' : Str} (h : r ++ c :: s = r' ++ c :: s') (hs : c ∉ s) (hs' : c ∉ s') :
    r = r' ∧ s = s' := by
  have e := congrArg List.reverse h
  simp only [List.reverse_append, List.reverse_cons, List.append_assoc, List.singleton_append] at e
  have key : ∀ (a b a' b' : Str), a ++ c :: b = a' ++ c :: b' → c ∉ a → c ∉ a' → a = a' ∧ b = b' := by
    intro a
    induction a with
    | nil =>
      intro b a' b' h _ h'
      cases a' with
      | nil => simpa using h
      | cons y ys => simp at h; simp [h.1] at h'
    | cons x xs ih =>
      intro b a' b' h h1 h'
      cases a' with
      | nil => simp at h; simp [h.1] at h1
      | cons y ys =>
        simp only [List.cons_append, List.cons.injEq] at h
        simp only [List.mem_cons, not_or] at h1 h'
        obtain ⟨e1, e2⟩ := ih b ys b' h.2 h1.2 h'.2
        exact ⟨by rw [h.1, e1], e2⟩
  obtain ⟨e1, e2⟩ := key _ _ _ _ e (by simpa using hs) (by simpa using hs')
  exact ⟨by simpa using e2, by simpa using e1⟩

theorem dropWhile_append_stop {p : Char → Bool} : ∀ {a : Str} {c : Char} {b : Str}, (∀ x ∈ a, p x = true) → p c = false →
    (a ++ c :: b).dropWhile p = c :: b
  | [], c, b, _, h => by simp [h]
  | x :: xs, c, b, ha, h => by
    simp only [List.cons_append]
    rw [List.dropWhile_cons_of_pos (ha x (by simp))]
    exact dropWhile_append_stop (fun y hy => ha y (by simp [hy])) h

theorem regionOfZone_iff (z r : Str) : regionOfZone z = r ↔ RegionOfZone z r := by
  unfold regionOfZone RegionOfZone
  by_cases h : '-' ∈ z
  · obtain ⟨a, s, rfl, hs⟩ := last_split h
    have e : (((a ++ '-' :: s).reverse.dropWhile (fun c => decide (c ≠ '-'))).drop 1).reverse = a := by
      have : (a ++ '-' :: s).reverse = s.reverse ++ '-' :: a.reverse := by simp
      rw [this, dropWhile_append_stop (p := fun c => decide (c ≠ '-')) (fun x hx => by
        simp only [List.mem_reverse] at hx
        simp only [decide_eq_true_eq]; rintro rfl; exact hs hx) (by simp)]
      simp
    rw [if_pos (by simp), e]
    constructor
    · rintro rfl; exact Or.inl ⟨s, rfl, hs⟩
    · rintro (⟨s', e', hs'⟩ | ⟨hn, _⟩)
      · exact (last_split_unique e' hs hs').1
      · exact absurd h hn
  · rw [if_neg (by simpa using h)]
    constructor
    · rintro rfl; exact Or.inr ⟨h, rfl⟩
    · rintro (⟨s, rfl, _⟩ | ⟨_, rfl⟩)
      · simp at h
      · rfl

theorem truthy_some {α : Type} {o : Option (List α)} {l : List α} : truthy o = some l ↔ o = some l ∧ l ≠ [] := by
  cases o with
  | none => simp [truthy]
  | some x => cases x <;> simp [truthy]; intro h; simp [← h]

theorem truthy_none {α : Type} {o : Option (List α)} : truthy o = none ↔ ∀ l, o = some l → l = [] := by
  cases o with
  | none => simp [truthy]
  | some x => cases x <;> simp [truthy]

theorem matchZone_iff (s b : Backend) : matchZone s b = true ↔ ∃ z, z ≠ [] ∧ s.zone = some z ∧ b.zone = some z := by
  unfold matchZone
  cases hs : truthy s.zone with
  | none =>
    simp only [Bool.false_eq_true, false_iff]
    rintro ⟨z, h1, h2, _⟩; exact h1 (truthy_none.1 hs z h2)
  | some z =>
    obtain ⟨e, hz⟩ := truthy_some.1 hs
    cases hb : truthy b.zone with
    | none =>
      simp only [Bool.false_eq_true, false_iff]
      rintro ⟨z, h1, _, h2⟩; exact h1 (truthy_none.1 hb z h2)
    | some z' =>
      obtain ⟨e', hz'⟩ := truthy_some.1 hb
      simp only [decide_eq_true_eq]
      constructor
      · rintro rfl; exact ⟨z', hz, e, e'⟩
      · rintro ⟨y, _, h1, h2⟩; rw [e] at h1; rw [e'] at h2; cases h1; cases h2; rfl

theorem matchRegion_iff (r : Str) (hr : r ≠ []) (b : Backend) : matchRegion r b = true ↔
    b.region = some r ∨ ∃ z, b.zone = some z ∧ z ≠ [] ∧ RegionOfZone z r := by
  unfold matchRegion
  rw [Bool.or_eq_true]
  refine or_congr ?_ ?_
  · cases h : truthy b.region with
    | none =>
      simp only [Bool.false_eq_true, false_iff]
      intro e; exact hr (truthy_none.1 h r e)
    | some r' =>
      obtain ⟨e, _⟩ := truthy_some.1 h
      rw [e]; simp
  · cases h : truthy b.zone with
    | none =>
      simp only [Bool.false_eq_true, false_iff]
      rintro ⟨z, e, hz, _⟩; exact hz (truthy_none.1 h z e)
    | some z =>
      obtain ⟨e, hz⟩ := truthy_some.1 h
      simp only [decide_eq_true_eq, regionOfZone_iff]
      constructor
      · intro h; exact ⟨z, e, hz, h⟩
      · rintro ⟨z', e', _, h⟩; rw [e] at e'; cases e'; exact h

theorem matchMulti_iff (r : Str) (b : Backend) : matchMulti r b = true ↔ ∃ m, b.multi = some m ∧ r ∈ m := by
  unfold matchMulti
  cases h : truthy b.multi with
  | none =>
    simp only [Bool.false_eq_true, false_iff]
    rintro ⟨m, e, hm⟩; rw [truthy_none.1 h m e] at hm; simp at hm
  | some m =>
    obtain ⟨e, _⟩ := truthy_some.1 h
    rw [e]; simp

theorem matchFromMulti_iff (ms : List Str) (hms : [] ∉ ms) (b : Backend) :
    matchFromMulti ms b = true ↔ ∃ r ∈ ms, Covers b r := by
  have key : matchFromMulti ms b = true ↔ ∃ r ∈ ms, matchRegion r b = true ∨ matchMulti r b = true := by
    unfold matchFromMulti matchRegion matchMulti
    cases truthy b.region <;> cases truthy b.zone <;> cases truthy b.multi <;> simp <;> grind
  rw [key]
  constructor
  · rintro ⟨r, hr, h | h⟩
    · refine ⟨r, hr, ?_⟩
      rcases (matchRegion_iff r (by rintro rfl; exact hms hr) b).1 h with h | h
      · exact Or.inl h
      · exact Or.inr (Or.inl h)
    · exact ⟨r, hr, Or.inr (Or.inr ((matchMulti_iff r b).1 h))⟩
  · rintro ⟨r, hr, h | h | h⟩
    · exact ⟨r, hr, Or.inl ((matchRegion_iff r (by rintro rfl; exact hms hr) b).2 (Or.inl h))⟩
    · exact ⟨r, hr, Or.inl ((matchRegion_iff r (by rintro rfl; exact hms hr) b).2 (Or.inr h))⟩
    · exact ⟨r, hr, Or.inr ((matchMulti_iff r b).2 h)⟩

/-- C68: the backend that a finalized checkpoint is copied to is one of the candidates and lies in the
source's zone or in one of the source's regions; a candidate in the source's zone is preferred. -/
theorem C68_match_sound (bs : List Backend) (s b : Backend) (hm : ∀ ms, s.multi = some ms → [] ∉ ms)
    (h : findMatching bs s = some b) :
    b ∈ bs ∧ ((∃ z, s.zone = some z ∧ b.zone = some z) ∨ ∃ r, Covers s r ∧ Covers b r) ∧
    ((∃ z, z ≠ [] ∧ s.zone = some z ∧ ∃ c ∈ bs, c.zone = some z) → b.zone = s.zone) := by
  have hlast : ∀ ms, truthy s.multi = some ms → ∀ b, bs.find? (matchFromMulti ms) = some b →
      b ∈ bs ∧ ∃ r, Covers s r ∧ Covers b r := by
    intro ms hms b hb
    obtain ⟨e, _⟩ := truthy_some.1 hms
    obtain ⟨r, hr, hc⟩ := (matchFromMulti_iff ms (hm ms e) b).1 (List.find?_some hb)
    exact ⟨List.mem_of_find?_eq_some hb, r, Or.inr (Or.inr ⟨ms, e, hr⟩), hc⟩
  have hsrc : ∀ r, truthy (sourceRegion s) = some r → r ≠ [] ∧ Covers s r := by
    intro r hr
    obtain ⟨e, hne⟩ := truthy_some.1 hr
    refine ⟨hne, ?_⟩
    unfold sourceRegion at e
    cases hz : truthy s.zone with
    | none => rw [hz] at e; exact Or.inl (truthy_some.1 e).1
    | some z =>
      rw [hz] at e
      obtain ⟨e1, e2⟩ := truthy_some.1 hz
      simp only [Option.some.injEq] at e
      exact Or.inr (Or.inl ⟨z, e1, e2, (regionOfZone_iff z r).1 e⟩)
  have hbr : ∀ b, (match truthy (sourceRegion s) with
    | some r => match bs.find? (matchRegion r) with
      | some b => some b
      | none => match bs.find? (matchMulti r) with
        | some b => some b
        | none => (match truthy s.multi with | some ms => bs.find? (matchFromMulti ms) | none => none)
    | none => (match truthy s.multi with | some ms => bs.find? (matchFromMulti ms) | none => none)) = some b →
      b ∈ bs ∧ ∃ r, Covers s r ∧ Covers b r := by
    intro b h
    have hl : (match truthy s.multi with | some ms => bs.find? (matchFromMulti ms) | none => none) = some b →
        b ∈ bs ∧ ∃ r, Covers s r ∧ Covers b r := by
      intro h
      split at h
      · next ms hms => exact hlast ms hms b h
      · cases h
    split at h
    · next r hr =>
      obtain ⟨hne, hcs⟩ := hsrc r hr
      split at h
      · next b' hb' =>
        cases h
        refine ⟨List.mem_of_find?_eq_some hb', r, hcs, ?_⟩
        rcases (matchRegion_iff r hne _).1 (List.find?_some hb') with h | h
        · exact Or.inl h
        · exact Or.inr (Or.inl h)
      · split at h
        · next b' hb' =>
          cases h
          exact ⟨List.mem_of_find?_eq_some hb', r, hcs,
            Or.inr (Or.inr ((matchMulti_iff r _).1 (List.find?_some hb')))⟩
        · exact hl h
    · exact hl h
  have hzf := find_first (matchZone_iff s) bs
  unfold findMatching at h
  dsimp only at h
  split at h
  · next z hz =>
    obtain ⟨e1, e2⟩ := truthy_some.1 hz
    split at h
    · next b' hb' =>
      cases h
      obtain ⟨z', hz', h1, h2⟩ := (matchZone_iff s _).1 (List.find?_some hb')
      exact ⟨List.mem_of_find?_eq_some hb', Or.inl ⟨z', h1, h2⟩, fun _ => by rw [h1, h2]⟩
    · next hnone =>
      obtain ⟨hmem, r, h1, h2⟩ := hbr b h
      refine ⟨hmem, Or.inr ⟨r, h1, h2⟩, ?_⟩
      rintro ⟨z', hz', h3, c, hc, h4⟩
      exact absurd ⟨z', hz', h3, h4⟩ (hzf.2.1 hnone c hc)
  · next hz =>
    obtain ⟨hmem, r, h1, h2⟩ := hbr b h
    refine ⟨hmem, Or.inr ⟨r, h1, h2⟩, ?_⟩
    rintro ⟨z', hz', h3, _⟩
    exact absurd (truthy_none.1 hz z' h3) hz'

/-- C68: if no backend is found for the copy, no candidate shares a zone or a (non-empty) region with
the source. -/
theorem C68_match_complete (bs : List Backend) (s : Backend) (h1 : OneLoc s) (hm : ∀ ms, s.multi = some ms → [] ∉ ms)
    (h : findMatching bs s = none) (b : Backend) (hb : b ∈ bs) :
    (∀ r, r ≠ [] → ¬ (Covers s r ∧ Covers b r)) ∧ (∀ z, z ≠ [] → ¬ (s.zone = some z ∧ b.zone = some z)) := by
  have hlast : (match truthy s.multi with | some ms => bs.find? (matchFromMulti ms) | none => none) = none := by
    unfold findMatching at h
    dsimp only at h
    split at h
    · split at h
      · cases h
      · split at h
        · split at h
          · cases h
          · split at h
            · cases h
            · exact h
        · exact h
    · split at h
      · split at h
        · cases h
        · split at h
          · cases h
          · exact h
      · exact h
  have hreg : ∀ r, truthy (sourceRegion s) = some r → ¬ Covers b r := by
    intro r hr
    have hne := (truthy_some.1 hr).2
    have key : bs.find? (matchRegion r) = none ∧ bs.find? (matchMulti r) = none := by
      unfold findMatching at h
      simp only [hr] at h
      split at h
      · split at h
        · cases h
        · split at h
          · cases h
          · next e1 => split at h
                       · cases h
                       · next e2 => exact ⟨e1, e2⟩
      · split at h
        · cases h
        · next e1 => split at h
                     · cases h
                     · next e2 => exact ⟨e1, e2⟩
    rintro (hc | hc | hc)
    · exact List.find?_eq_none.1 key.1 b hb ((matchRegion_iff r hne b).2 (Or.inl hc))
    · exact List.find?_eq_none.1 key.1 b hb ((matchRegion_iff r hne b).2 (Or.inr hc))
    · exact List.find?_eq_none.1 key.2 b hb ((matchMulti_iff r b).2 hc)
  refine ⟨?_, ?_⟩
  · rintro r hr ⟨hs, hcb⟩
    rcases hs with hs | ⟨z, hz, hzn, hrz⟩ | ⟨m, hm', hrm⟩
    · refine hreg r (truthy_some.2 ⟨?_, hr⟩) hcb
      have hzn : s.zone = none := by
        rcases h1 with ⟨_, h, _⟩ | ⟨h, _⟩ | ⟨h, _⟩
        · rw [hs] at h; cases h
        · exact h
        · exact h
      unfold sourceRegion
      rw [hzn]
      exact truthy_some.2 ⟨hs, hr⟩
    · refine hreg r (truthy_some.2 ⟨?_, hr⟩) hcb
      unfold sourceRegion
      rw [truthy_some.2 ⟨hz, hzn⟩]
      simp only [Option.some.injEq]
      exact (regionOfZone_iff z r).2 hrz
    · have : truthy s.multi = some m := truthy_some.2 ⟨hm', by rintro rfl; simp at hrm⟩
      rw [this] at hlast
      exact List.find?_eq_none.1 hlast b hb ((matchFromMulti_iff m (hm m hm') b).2 ⟨r, hrm, hcb⟩)
  · rintro z hz ⟨hsz, hbz⟩
    unfold findMatching at h
    dsimp only at h
    rw [truthy_some.2 ⟨hsz, hz⟩] at h
    dsimp only at h
    split at h
    · cases h
    · next e => exact List.find?_eq_none.1 e b hb ((matchZone_iff s b).2 ⟨z, hz, hsz, hbz⟩)

theorem C68_match_nonvacuous :
    (findMatching exampleBackends { zone := some usB, pfx := [] }).map Backend.pfx = some ['r'] ∧
    (findMatching exampleBackends { zone := some usA, pfx := [] }).map Backend.pfx = some ['z'] ∧
    findMatching exampleBackends { zone := some ew1, pfx := [] } = none ∧
    OneLoc { zone := some usB, pfx := [] } := by
  refine ⟨by decide, by decide, by decide, Or.inl ⟨by simp, rfl, rfl⟩⟩

end Verif.Tiering.Routing
