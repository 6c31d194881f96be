import Verif.V1.Layout
import Verif.V1.RegistryProps

/-!
# C82: what was saved under names is what is loaded by name
-/
namespace Verif.V1

set_option linter.unusedSectionVars false

variable {H V A D : Type} [DecidableEq H]

/-! ## Specification -/

/-- A name that may be given to a checkpointable. -/
def NameOk (n : String) : Prop := n ≠ "" ∧ n ≠ "metrics" ∧ n ≠ "AUTO"

/-- `d'` is the same directory as `d`, listed in any order. -/
structure SameDir (d d' : Dir D) : Prop where
  present : d'.present = d.present
  isDir : d'.isDir = d.isDir
  temporary : d'.temporary = d.temporary
  indicator : d'.indicator = d.indicator
  recorded : d'.recorded = d.recorded
  subs : d'.subs.Perm d.subs

/-- The registration of the handler of a value and the template agree: no other class uses its type string,
it accepts the template, and a value that saves itself has no other handler registered for its name unless
the template loads itself. (The situations excluded are those of C81's findings.) -/
def Fits (W : World H V A) (r : Registry H) (n : String) (v : V) (abs : Option A) : Prop :=
  ∀ h, resolveSave W r n (some v) = .ok h → Distinct W r h ∧
    (∀ a, abs = some a → W.canLoad h a = true) ∧
    (W.statefulV v = true → (∀ h', (h', some n) ∉ r.entries) ∨
      ∃ a, abs = some a ∧ W.statefulA a = true)

/-- The name is that of a tree in the directory, and not reserved. -/
def Eligible (d : Dir D) (n : String) : Prop :=
  (∃ s ∈ d.subs, s.name = n ∧ s.tree = true) ∧ n ≠ "metrics" ∧ n ≠ "AUTO"

/-! ## Helpers -/

theorem nameOk_iff (n : String) : (n != "" && !reserved.contains n) = true ↔ NameOk n := by
  simp [NameOk, reserved]

theorem reserved_iff (n : String) : (!reserved.contains n) = true ↔ n ≠ "metrics" ∧ n ≠ "AUTO" := by
  simp [reserved]

theorem validSave_iff (cs : List (String × V)) :
    validSave cs = true ↔ cs ≠ [] ∧ ∀ e ∈ cs, NameOk e.1 := by
  unfold validSave
  rw [Bool.and_eq_true, List.all_eq_true]
  constructor
  · rintro ⟨h1, h2⟩
    exact ⟨by simpa using h1, fun e he => (nameOk_iff e.1).1 (h2 e he)⟩
  · rintro ⟨h1, h2⟩
    exact ⟨by simpa using h1, fun e he => (nameOk_iff e.1).2 (h2 e he)⟩

theorem handlersFor_spec (W : World H V A) (C : Codec H V A D) (r : Registry H) (cs : List (String × V)) :
    ∀ hs, handlersFor W r cs = .ok hs → (cs.map Prod.fst).Nodup →
    (written C cs hs).map (fun s => s.name) = cs.map Prod.fst ∧
    (∀ s ∈ written C cs hs, s.isDir = true ∧ s.ckpt = false) ∧
    ∀ n v, (n, v) ∈ cs → ∃ h, resolveSave W r n (some v) = .ok h ∧
      (⟨n, true, C.isTree h v, false, C.enc h v⟩ : Sub D) ∈ written C cs hs ∧
      ((hs.map fun e => (e.1, W.typestr e.2)).find? fun e => decide (e.1 = n)) =
        some (n, W.typestr h) := by
  induction cs with
  | nil =>
    intro hs hh _
    cases hh
    exact ⟨rfl, by simp [written], by simp⟩
  | cons c cs ih =>
    obtain ⟨n0, v0⟩ := c
    intro hs hh hnd
    simp only [handlersFor] at hh
    cases hr : resolveSave W r n0 (some v0) with
    | error e => rw [hr] at hh; cases hh
    | ok h0 =>
      rw [hr] at hh
      simp only at hh
      cases hr2 : handlersFor W r cs with
      | error e => rw [hr2] at hh; cases hh
      | ok l =>
        rw [hr2] at hh
        cases hh
        rw [List.map_cons, List.nodup_cons] at hnd
        obtain ⟨i1, i2, i3⟩ := ih l hr2 hnd.2
        refine ⟨?_, ?_, ?_⟩
        · simp only [written, List.zipWith_cons_cons, List.map_cons, List.cons.injEq, true_and]
          exact i1
        · intro s hs
          simp only [written, List.zipWith_cons_cons, List.mem_cons] at hs
          rcases hs with rfl | hs
          · exact ⟨rfl, rfl⟩
          · exact i2 s hs
        · intro n v hm
          rcases List.mem_cons.1 hm with hm | hm
          · cases hm
            refine ⟨h0, hr, ?_, ?_⟩
            · simp [written]
            · simp
          · obtain ⟨h, h1, h2, h3⟩ := i3 n v hm
            refine ⟨h, h1, ?_, ?_⟩
            · simp only [written, List.zipWith_cons_cons, List.mem_cons]
              exact Or.inr h2
            · have hne : n0 ≠ n := by
                rintro rfl
                exact hnd.1 (List.mem_map.2 ⟨_, hm, rfl⟩)
              rw [List.map_cons, List.find?_cons]
              simp only [hne, decide_false]
              exact h3

theorem find_sub (l : List (Sub D)) (s : Sub D) (hnd : (l.map fun s => s.name).Nodup) (hm : s ∈ l) :
    (l.find? fun x => decide (x.name = s.name)) = some s := by
  induction l with
  | nil => cases hm
  | cons x l ih =>
    rw [List.map_cons, List.nodup_cons] at hnd
    rw [List.find?_cons]
    rcases List.mem_cons.1 hm with rfl | hm
    · simp
    · have : x.name ≠ s.name := fun he => hnd.1 (List.mem_map.2 ⟨s, hm, he.symm⟩)
      simp only [this, decide_false]
      exact ih hnd.2 hm

/-- What a successful save leaves behind. -/
theorem save_spec (W : World H V A) (C : Codec H V A D) (r : Registry H) (junk : D) (dn : String)
    (pm : Bool) (cs : List (String × V)) (hnd : (cs.map Prod.fst).Nodup) (d d' : Dir D)
    (hsv : save W C r junk dn pm cs = .ok d) (hp : SameDir d d') :
    (cs ≠ [] ∧ ∀ e ∈ cs, NameOk e.1) ∧ layoutOf d' = .ok .v1 ∧
    (d'.subs.map fun s => s.name).Perm (cs.map Prod.fst) ∧
    (existing d').Perm (cs.map Prod.fst) ∧ (∀ s ∈ d'.subs, s.tree = true → s.isDir = true) ∧
    ∀ n v, (n, v) ∈ cs → ∃ h, resolveSave W r n (some v) = .ok h ∧
      savedTypestr d' n = some (W.typestr h) ∧
      (⟨n, true, C.isTree h v, false, C.enc h v⟩ : Sub D) ∈ d'.subs ∧
      (d'.subs.find? fun s => decide (s.name = n)) =
        some ⟨n, true, C.isTree h v, false, C.enc h v⟩ := by
  unfold save at hsv
  split at hsv
  · rename_i hvs
    cases hh : handlersFor W r cs with
    | error e => rw [hh] at hsv; cases hsv
    | ok hs =>
      rw [hh] at hsv
      simp only [Except.ok.injEq] at hsv
      obtain ⟨s1, s2, s3⟩ := handlersFor_spec W C r cs hs hh hnd
      have hper : d'.subs.Perm (written C cs hs) := by rw [← show d.subs = written C cs hs by rw [← hsv]]; exact hp.subs
      have hnames : (d'.subs.map fun s => s.name).Perm (cs.map Prod.fst) := by
        rw [← s1]; exact hper.map _
      refine ⟨(validSave_iff cs).1 hvs, ?_, hnames, ?_, ?_, ?_⟩
      · have e1 := hp.present; have e2 := hp.isDir; have e3 := hp.temporary
        have e4 := hp.indicator; have e5 := hp.recorded
        rw [← hsv] at e1 e2 e3 e4 e5
        simp only at e1 e2 e3 e4 e5
        simp [layoutOf, version, validV1, e1, e2, e3, e4, e5]
      · have : (d'.subs.filter fun s => s.isDir) = d'.subs := by
          rw [List.filter_eq_self]
          intro s hs
          exact (s2 s (hper.mem_iff.1 hs)).1
        unfold existing
        rw [this]
        exact hnames
      · intro s hs _
        exact (s2 s (hper.mem_iff.1 hs)).1
      · intro n v hm
        obtain ⟨h, h1, h2, h3⟩ := s3 n v hm
        have hm' := hper.mem_iff.2 h2
        refine ⟨h, h1, ?_, hm', ?_⟩
        · have e5 := hp.recorded
          rw [← hsv] at e5
          simp only at e5
          simp only [savedTypestr, e5, h3]
          rfl
        · exact find_sub d'.subs _ (hnames.nodup_iff.2 hnd) hm'
  · cases hsv

theorem loadOne_saved (W : World H V A) (C : Codec H V A D) (r : Registry H) (junk : D) (dn : String)
    (pm : Bool) (cs : List (String × V)) (hnd : (cs.map Prod.fst).Nodup) (d d' : Dir D)
    (hsv : save W C r junk dn pm cs = .ok d) (hp : SameDir d d') (n : String) (v : V)
    (hm : (n, v) ∈ cs) (abs : Option A) (hf : Fits W r n v abs) (h : H)
    (hr : resolveSave W r n (some v) = .ok h) (w : V) (hdec : C.dec h (C.enc h v) abs = some w) :
    loadOne W C r d' n abs = .ok w := by
  obtain ⟨_, _, _, _, _, h6⟩ := save_spec W C r junk dn pm cs hnd d d' hsv hp
  obtain ⟨h', e1, e2, _, e4⟩ := h6 n v hm
  rw [hr] at e1
  cases e1
  obtain ⟨f1, f2, f3⟩ := hf h hr
  have hl := C81_same_handler W r n v h hr f1 abs f2 f3
  have hl' : resolveLoadOrState W r stateKey n abs (savedTypestr d' n) = .ok h := by
    rw [e2]
    simp only [resolveLoadOrState, hl]
  simp only [loadOne, hl', e4, hdec]

theorem loadEach_spec (W : World H V A) (C : Codec H V A D) (r : Registry H) (d : Dir D)
    (req : List (String × Option A)) (hall : ∀ e ∈ req, ∃ v, loadOne W C r d e.1 e.2 = .ok v) :
    ∃ l, loadEach W C r d req = .ok l ∧ l.map Prod.fst = req.map Prod.fst ∧
      ∀ e ∈ l, ∃ a, (e.1, a) ∈ req ∧ loadOne W C r d e.1 a = .ok e.2 := by
  induction req with
  | nil => exact ⟨[], rfl, rfl, by simp⟩
  | cons e req ih =>
    obtain ⟨n, a⟩ := e
    obtain ⟨v, hv⟩ := hall (n, a) (by simp)
    obtain ⟨l, h1, h2, h3⟩ := ih fun e he => hall e (List.mem_cons_of_mem _ he)
    refine ⟨(n, v) :: l, ?_, ?_, ?_⟩
    · simp only at hv
      simp only [loadEach, hv, h1]
    · simp [h2]
    · intro e he
      rcases List.mem_cons.1 he with rfl | he
      · exact ⟨a, by simp, hv⟩
      · obtain ⟨a', ha1, ha2⟩ := h3 e he
        exact ⟨a', List.mem_cons_of_mem _ ha1, ha2⟩

/-! ## Theorems -/

/-- C82: saving succeeds exactly for a non-empty set of properly named checkpointables that all have a
handler. -/
theorem C82_save_iff (W : World H V A) (C : Codec H V A D) (r : Registry H) (junk : D) (dn : String)
    (pm : Bool) (cs : List (String × V)) :
    (∃ d, save W C r junk dn pm cs = .ok d) ↔
      cs ≠ [] ∧ (∀ e ∈ cs, NameOk e.1) ∧ ∀ e ∈ cs, ∃ h, resolveSave W r e.1 (some e.2) = .ok h := by
  have hh : (∃ hs, handlersFor W r cs = .ok hs) ↔
      ∀ e ∈ cs, ∃ h, resolveSave W r e.1 (some e.2) = .ok h := by
    induction cs with
    | nil => simp [handlersFor]
    | cons c cs ih =>
      obtain ⟨n, v⟩ := c
      simp only [handlersFor, List.forall_mem_cons]
      rw [← ih]
      cases resolveSave W r n (some v) with
      | error e => simp
      | ok h => cases handlersFor W r cs <;> simp
  rw [← and_assoc, ← validSave_iff, ← hh]
  unfold save
  cases validSave cs
  · simp
  · cases handlersFor W r cs <;> simp

/-- C82: loading everything returns exactly what was saved, whatever the order in which the directory is
listed, when handlers load what they saved. -/
theorem C82_round_trip (W : World H V A) (C : Codec H V A D) (r : Registry H) (junk : D) (dn : String)
    (pm : Bool) (cs : List (String × V)) (hnd : (cs.map Prod.fst).Nodup) (d d' : Dir D)
    (hsv : save W C r junk dn pm cs = .ok d) (hp : SameDir d d')
    (hf : ∀ n v, (n, v) ∈ cs → Fits W r n v none)
    (hlaw : ∀ n v h, (n, v) ∈ cs → resolveSave W r n (some v) = .ok h →
      C.dec h (C.enc h v) none = some v) :
    ∃ l, loadCheckpointables W C r d' [] = .ok l ∧ l.Perm cs := by
  obtain ⟨⟨_, hn⟩, h2, _, h4, _, h6⟩ := save_spec W C r junk dn pm cs hnd d d' hsv hp
  have hfil : ((existing d').filter fun n => !reserved.contains n) = existing d' := by
    rw [List.filter_eq_self]
    intro n hm
    obtain ⟨e, he, rfl⟩ := List.mem_map.1 (h4.mem_iff.1 hm)
    exact (reserved_iff _).2 (hn e he).2
  have hreq : requested d' ([] : List (String × Option A)) = (existing d').map fun n => (n, none) := by
    simp only [requested, List.isEmpty_nil, if_true, hfil]
  have hone : ∀ n v, (n, v) ∈ cs → loadOne W C r d' n none = .ok v := by
    intro n v hm
    obtain ⟨h, e1, _, _, _⟩ := h6 n v hm
    exact loadOne_saved W C r junk dn pm cs hnd d d' hsv hp n v hm none (hf n v hm) h e1 v
      (hlaw n v h hm e1)
  have hall : ∀ e ∈ requested d' ([] : List (String × Option A)), ∃ v, loadOne W C r d' e.1 e.2 = .ok v := by
    intro e he
    rw [hreq] at he
    obtain ⟨n, hm, rfl⟩ := List.mem_map.1 he
    obtain ⟨⟨n', v⟩, he', rfl⟩ := List.mem_map.1 (h4.mem_iff.1 hm)
    exact ⟨v, hone _ v he'⟩
  obtain ⟨l, l1, l2, l3⟩ := loadEach_spec W C r d' _ hall
  have hl2 : l.map Prod.fst = existing d' := by
    rw [l2, hreq, List.map_map]
    exact List.map_id' _
  have hinj : ∀ n v w, (n, v) ∈ cs → (n, w) ∈ cs → v = w := by
    intro n v w hv hw
    have := hone n v hv
    rw [hone n w hw] at this
    cases this; rfl
  have hmem : ∀ e ∈ l, e ∈ cs := by
    intro e he
    obtain ⟨a, ha1, ha2⟩ := l3 e he
    rw [hreq] at ha1
    obtain ⟨n, hm, hne⟩ := List.mem_map.1 ha1
    cases hne
    obtain ⟨⟨n', v⟩, he', hn'⟩ := List.mem_map.1 (h4.mem_iff.1 hm)
    simp only at hn'
    subst hn'
    rw [hone _ v he'] at ha2
    cases ha2
    exact he'
  refine ⟨l, ?_, ?_⟩
  · simp only [loadCheckpointables, validRequest, List.all_nil, if_true, h2, loadAll]
    rw [if_neg (by simp), if_neg, l1]
    rw [hreq]
    simp
  · have hlnd : (l.map Prod.fst).Nodup := by rw [hl2]; exact h4.nodup_iff.2 hnd
    have nodup_of : ∀ x : List (String × V), (x.map Prod.fst).Nodup → x.Nodup := by
      intro x hx
      unfold List.Nodup at hx ⊢
      rw [List.pairwise_map] at hx
      exact hx.imp fun hne he => hne (congrArg Prod.fst he)
    rw [List.perm_ext_iff_of_nodup (nodup_of l hlnd) (nodup_of cs hnd)]
    rintro ⟨n, v⟩
    refine ⟨hmem _, fun hm => ?_⟩
    have : n ∈ l.map Prod.fst := by
      rw [hl2, h4.mem_iff]
      exact List.mem_map.2 ⟨(n, v), hm, rfl⟩
    obtain ⟨⟨n', w⟩, he, hn'⟩ := List.mem_map.1 this
    simp only at hn'
    subst hn'
    rw [hinj _ v w hm (hmem _ he)]
    exact he

/-- C82: loading some of the names, each with a template or without, returns these and no others, in the
order asked for, each decoded by the handler that saved it. -/
theorem C82_subset (W : World H V A) (C : Codec H V A D) (r : Registry H) (junk : D) (dn : String)
    (pm : Bool) (cs : List (String × V)) (hnd : (cs.map Prod.fst).Nodup) (d d' : Dir D)
    (hsv : save W C r junk dn pm cs = .ok d) (hp : SameDir d d') (req : List (String × Option A))
    (hne : req ≠ []) (hsub : ∀ e ∈ req, ∃ v, (e.1, v) ∈ cs ∧ Fits W r e.1 v e.2 ∧
      ∀ h, resolveSave W r e.1 (some v) = .ok h → ∃ w, C.dec h (C.enc h v) e.2 = some w) :
    ∃ l, loadCheckpointables W C r d' req = .ok l ∧ l.map Prod.fst = req.map Prod.fst ∧
      ∀ n w, (n, w) ∈ l → ∃ a v h, (n, a) ∈ req ∧ (n, v) ∈ cs ∧
        resolveSave W r n (some v) = .ok h ∧ C.dec h (C.enc h v) a = some w := by
  obtain ⟨⟨_, hn⟩, h2, _, h4, _, h6⟩ := save_spec W C r junk dn pm cs hnd d d' hsv hp
  have hone : ∀ e ∈ req, ∃ w v h, loadOne W C r d' e.1 e.2 = .ok w ∧ (e.1, v) ∈ cs ∧
      resolveSave W r e.1 (some v) = .ok h ∧ C.dec h (C.enc h v) e.2 = some w := by
    intro e he
    obtain ⟨v, hm, hf, hd⟩ := hsub e he
    obtain ⟨h, e1, _, _, _⟩ := h6 e.1 v hm
    obtain ⟨w, hw⟩ := hd h e1
    exact ⟨w, v, h, loadOne_saved W C r junk dn pm cs hnd d d' hsv hp e.1 v hm e.2 hf h e1 w hw, hm, e1, hw⟩
  have hreq : requested d' req = req := by
    unfold requested
    rw [if_neg (by simpa using hne)]
  obtain ⟨l, l1, l2, l3⟩ := loadEach_spec W C r d' req fun e he => by
    obtain ⟨w, _, _, hw, _⟩ := hone e he
    exact ⟨w, hw⟩
  refine ⟨l, ?_, l2, ?_⟩
  · have hv : validRequest req = true := by
      unfold validRequest
      rw [List.all_eq_true]
      intro e he
      obtain ⟨v, hm, _⟩ := hsub e he
      exact (nameOk_iff e.1).2 (hn _ hm)
    simp only [loadCheckpointables, hv, if_true, h2, loadAll, hreq]
    rw [if_neg (by simp), if_neg, l1]
    simp only [List.any_eq_true, Bool.not_eq_true', List.contains_eq_mem, decide_eq_false_iff_not]
    rintro ⟨e, he, hc⟩
    obtain ⟨v, hm, _⟩ := hsub e he
    exact hc (h4.mem_iff.2 (List.mem_map.2 ⟨(e.1, v), hm, rfl⟩))
  · intro n w hm
    obtain ⟨a, ha1, ha2⟩ := l3 (n, w) hm
    obtain ⟨w', v, h, hw1, hw2, hw3, hw4⟩ := hone (n, a) ha1
    simp only at ha2 hw1 hw2 hw3 hw4
    rw [ha2] at hw1
    cases hw1
    exact ⟨a, v, h, ha1, hw2, hw3, hw4⟩

/-- C82: asking for a name that was not saved is refused, and nothing is loaded. -/
theorem C82_missing (W : World H V A) (C : Codec H V A D) (r : Registry H) (junk : D) (dn : String)
    (pm : Bool) (cs : List (String × V)) (hnd : (cs.map Prod.fst).Nodup) (d d' : Dir D)
    (hsv : save W C r junk dn pm cs = .ok d) (hp : SameDir d d') (req : List (String × Option A))
    (hok : ∀ e ∈ req, NameOk e.1) (e : String × Option A) (he : e ∈ req) (hno : e.1 ∉ cs.map Prod.fst) :
    loadCheckpointables W C r d' req = .error .key := by
  obtain ⟨_, h2, _, h4, _, _⟩ := save_spec W C r junk dn pm cs hnd d d' hsv hp
  have hv : validRequest req = true := by
    unfold validRequest
    rw [List.all_eq_true]
    exact fun e he => (nameOk_iff e.1).2 (hok e he)
  have hreq : requested d' req = req := by
    unfold requested
    rw [if_neg]
    cases req with
    | nil => cases he
    | cons _ _ => simp
  simp only [loadCheckpointables, hv, if_true, h2, loadAll, hreq]
  rw [if_neg (by simp), if_pos]
  simp only [List.any_eq_true, Bool.not_eq_true', List.contains_eq_mem, decide_eq_false_iff_not]
  exact ⟨e, he, fun hc => hno (h4.mem_iff.1 hc)⟩

/-- C82: reserved and empty names are refused, for saving and for loading. -/
theorem C82_reserved (W : World H V A) (C : Codec H V A D) (r : Registry H) (junk : D) (dn : String)
    (pm : Bool) (d : Dir D) (n : String) (hn : ¬ NameOk n) :
    (∀ cs : List (String × V), n ∈ cs.map Prod.fst → save W C r junk dn pm cs = .error .value) ∧
    (∀ req : List (String × Option A), n ∈ req.map Prod.fst →
      loadCheckpointables W C r d req = .error .value) ∧
    (n ≠ "AUTO" → ∀ abs, load W C r d (some n) abs = .error .value) := by
  refine ⟨?_, ?_, ?_⟩
  · intro cs hm
    obtain ⟨e, he, rfl⟩ := List.mem_map.1 hm
    have : validSave cs = false := by
      cases hc : validSave cs with
      | false => rfl
      | true => exact absurd (((validSave_iff cs).1 hc).2 e he) hn
    simp [save, this]
  · intro req hm
    obtain ⟨e, he, rfl⟩ := List.mem_map.1 hm
    have : validRequest req = false := by
      unfold validRequest
      rw [List.all_eq_false]
      exact ⟨e, he, fun hc => hn ((nameOk_iff e.1).1 hc)⟩
    simp [loadCheckpointables, this]
  · intro ha abs
    have : validStateName (some n) = false := by
      have h1 : (n != "" && !reserved.contains n) = false := by
        cases hc : (n != "" && !reserved.contains n) with
        | false => rfl
        | true => exact absurd ((nameOk_iff n).1 hc) hn
      simp only [validStateName, h1, Bool.or_false, autoKey]
      simpa using ha
    simp [load, this]

/-- C82: a path that does not exist, is not a directory or is temporary, and one that has the indicator
file but no metadata, is not loaded from. -/
theorem C82_incomplete (W : World H V A) (C : Codec H V A D) (r : Registry H) (d : Dir D)
    (hd : d.present = false ∨ d.isDir = false ∨ d.temporary = true ∨
      (d.indicator = true ∧ d.recorded = none)) :
    (d.present = false ∨ d.isDir = false ∨ d.temporary = true → isOrbaxCheckpoint d = false) ∧
    (∀ req l, loadCheckpointables W C r d req ≠ .ok l) ∧
    (∀ name abs v, load W C r d name abs ≠ .ok v) := by
  have hl : layoutOf d = .error .layout := by
    unfold layoutOf version
    rcases hd with h | h | h | ⟨h1, h2⟩
    · cases hi : d.indicator <;> simp [validV1, validV0, h]
    · cases hi : d.indicator <;> simp [validV1, validV0, h]
    · cases hi : d.indicator <;> simp [validV1, validV0, h]
    · simp [validV1, h1, h2]
  refine ⟨?_, ?_, ?_⟩
  · rintro (h | h | h) <;> simp [isOrbaxCheckpoint, validV1, validV0, h]
  · intro req l
    unfold loadCheckpointables
    rw [hl]
    split <;> simp
  · intro name abs v
    unfold load resolveTree
    rw [hl]
    split <;> simp

theorem find_sorted (l : List String) (p : String → Bool) (n : String)
    (hf : (l.mergeSort (fun a b => decide (a ≤ b))).find? p = some n) :
    n ∈ l ∧ p n = true ∧ ∀ m ∈ l, p m = true → n ≤ m := by
  have hsort := List.pairwise_mergeSort (le := fun a b : String => decide (a ≤ b))
    (by intro a b c h1 h2; simp only [decide_eq_true_eq] at *; exact String.le_trans h1 h2)
    (by intro a b; simp only [Bool.or_eq_true, decide_eq_true_eq]; exact String.le_total a b) l
  have hperm := List.mergeSort_perm l (fun a b : String => decide (a ≤ b))
  refine ⟨hperm.mem_iff.1 (List.mem_of_find?_eq_some hf), List.find?_some hf, ?_⟩
  intro m hm hpm
  have hm' := hperm.mem_iff.2 hm
  generalize l.mergeSort (fun a b => decide (a ≤ b)) = s at hf hsort hm'
  clear hm hperm
  induction s with
  | nil => cases hm'
  | cons x s ih =>
    rw [List.pairwise_cons] at hsort
    rw [List.find?_cons] at hf
    cases hpx : p x with
    | true =>
      rw [hpx] at hf
      cases hf
      rcases List.mem_cons.1 hm' with rfl | hm'
      · exact String.le_refl _
      · simpa using hsort.1 m hm'
    | false =>
      rw [hpx] at hf
      rcases List.mem_cons.1 hm' with rfl | hm'
      · rw [hpm] at hpx; cases hpx
      · exact ih hf hsort.2 hm'

theorem eligible_iff (d : Dir D) (ver : Version) (htd : ∀ s ∈ d.subs, s.tree = true → s.isDir = true)
    (n : String) : (n ∈ (existing d).filter fun n => !reserved.contains n) ∧
      validTree ver d (some n) = true ↔ Eligible d n := by
  unfold Eligible validTree existing
  simp only [List.mem_filter, List.mem_map, reserved_iff, List.any_eq_true, Bool.and_eq_true,
    decide_eq_true_eq]
  constructor
  · rintro ⟨⟨_, h2⟩, h3⟩
    exact ⟨h3, h2⟩
  · rintro ⟨⟨s, hs, h1, h2⟩, h3⟩
    exact ⟨⟨⟨s, ⟨hs, htd s hs h2⟩, h1⟩, h3⟩, ⟨s, hs, h1, h2⟩⟩

/-- C82: without a name, the tree called `state` is loaded; if there is none, the alphabetically first
tree; and a version 1 checkpoint without any tree is refused. -/
theorem C82_auto (d : Dir D) (hl : layoutOf d = .ok .v1)
    (htd : ∀ s ∈ d.subs, s.tree = true → s.isDir = true) :
    (∀ n, resolveTree d (some "AUTO") = .ok (.v1, some n) ↔ Eligible d n ∧
      (n ≠ "state" → ¬ Eligible d "state" ∧ ∀ m, Eligible d m → n ≤ m)) ∧
    ((∀ n, ¬ Eligible d n) → resolveTree d (some "AUTO") = .error .layout) := by
  have hres : resolveTree d (some "AUTO") =
      match (candidates d).find? fun n => validTree .v1 d (some n) with
      | some n => .ok (.v1, some n)
      | none => .error .layout := by
    simp only [resolveTree, hl, autoKey, if_true]
    cases (candidates d).find? fun n => validTree .v1 d (some n) <;> simp
  have hel := eligible_iff d .v1 htd
  have key : (∀ n, (candidates d).find? (fun n => validTree .v1 d (some n)) = some n → Eligible d n ∧
      (n ≠ "state" → ¬ Eligible d "state" ∧ ∀ m, Eligible d m → n ≤ m)) ∧
      ((candidates d).find? (fun n => validTree .v1 d (some n)) = none → ∀ n, ¬ Eligible d n) := by
    generalize hnm : ((existing d).filter fun n => !reserved.contains n) = names at hel
    have hcand : candidates d = if names.contains stateKey then
        stateKey :: (names.filter fun n => n != stateKey).mergeSort (fun a b => decide (a ≤ b))
        else names.mergeSort (fun a b => decide (a ≤ b)) := by
      simp only [candidates, hnm]
    rw [hcand]
    by_cases hst : names.contains stateKey
    · rw [if_pos hst, List.find?_cons]
      rw [List.contains_iff_mem] at hst
      cases hvs : validTree .v1 d (some stateKey) with
      | true =>
        have hes := (hel stateKey).1 ⟨hst, hvs⟩
        simp only
        constructor
        · intro n hn
          cases hn
          exact ⟨hes, fun h => absurd rfl h⟩
        · intro h; cases h
      | false =>
        have hns : ¬ Eligible d "state" := fun h => by
          have := ((hel stateKey).2 h).2
          rw [hvs] at this; cases this
        simp only
        constructor
        · intro n hn
          obtain ⟨f1, f2, f3⟩ := find_sorted _ _ _ hn
          rw [List.mem_filter] at f1
          refine ⟨(hel n).1 ⟨f1.1, f2⟩, fun _ => ⟨hns, ?_⟩⟩
          intro m hm
          obtain ⟨m1, m2⟩ := (hel m).2 hm
          refine f3 m (List.mem_filter.2 ⟨m1, ?_⟩) m2
          have : m ≠ stateKey := by rintro rfl; exact hns hm
          simpa using this
        · intro hn n he
          obtain ⟨m1, m2⟩ := (hel n).2 he
          rw [List.find?_eq_none] at hn
          refine hn n ?_ m2
          rw [(List.mergeSort_perm _ _).mem_iff]
          refine List.mem_filter.2 ⟨m1, ?_⟩
          have : n ≠ stateKey := by rintro rfl; exact hns he
          simpa using this
    · rw [if_neg hst]
      rw [List.contains_iff_mem] at hst
      have hns : ¬ Eligible d "state" := fun h => hst ((hel stateKey).2 h).1
      constructor
      · intro n hn
        obtain ⟨f1, f2, f3⟩ := find_sorted _ _ _ hn
        refine ⟨(hel n).1 ⟨f1, f2⟩, fun _ => ⟨hns, ?_⟩⟩
        intro m hm
        obtain ⟨m1, m2⟩ := (hel m).2 hm
        exact f3 m m1 m2
      · intro hn n he
        obtain ⟨m1, m2⟩ := (hel n).2 he
        rw [List.find?_eq_none] at hn
        exact hn n ((List.mergeSort_perm _ _).mem_iff.2 m1) m2
  rw [hres]
  obtain ⟨k1, k2⟩ := key
  constructor
  · intro n
    cases hf : (candidates d).find? fun n => validTree .v1 d (some n) with
    | none =>
      constructor
      · intro h; cases h
      · rintro ⟨h, _⟩; exact absurd h (k2 hf n)
    | some m =>
      constructor
      · intro h
        cases h
        exact k1 _ hf
      · rintro ⟨h1, h2⟩
        obtain ⟨g1, g2⟩ := k1 m hf
        have : m = n := by
          by_cases hm : m = "state"
          · by_cases hn : n = "state"
            · rw [hm, hn]
            · exact absurd (hm ▸ g1) (h2 hn).1
          · by_cases hn : n = "state"
            · exact absurd (hn ▸ h1) (g2 hm).1
            · exact String.le_antisymm ((g2 hm).2 n h1) ((h2 hn).2 m g1)
        rw [this]
  · intro hno
    cases hf : (candidates d).find? fun n => validTree .v1 d (some n) with
    | none => rfl
    | some m => exact absurd (k1 m hf).1 (hno m)

/-- C82: a tree saved on its own is loaded without naming it. -/
theorem C82_state_round_trip (W : World H V A) (C : Codec H V A D) (r : Registry H) (junk : D)
    (dn : String) (pm : Bool) (v : V) (d d' : Dir D) (h : H) (abs : Option A) (w : V)
    (hsv : save W C r junk dn pm [("state", v)] = .ok d) (hp : SameDir d d')
    (hr : resolveSave W r "state" (some v) = .ok h) (htree : C.isTree h v = true)
    (hf : Fits W r "state" v abs) (hdec : C.dec h (C.enc h v) abs = some w) :
    load W C r d' (some "AUTO") abs = .ok w ∧ load W C r d' (some "state") abs = .ok w := by
  have hnd : (([("state", v)] : List (String × V)).map Prod.fst).Nodup := by simp
  obtain ⟨_, h2, _, _, h5, h6⟩ := save_spec W C r junk dn pm _ hnd d d' hsv hp
  obtain ⟨h', e1, e2, e3, e4⟩ := h6 "state" v (by simp)
  rw [hr] at e1
  cases e1
  have hel : Eligible d' "state" := ⟨⟨_, e3, rfl, htree⟩, by decide, by decide⟩
  have h1 := (C82_auto d' h2 h5).1 "state" |>.2 ⟨hel, fun hc => absurd rfl hc⟩
  have hone := loadOne_saved W C r junk dn pm _ hnd d d' hsv hp "state" v (by simp) abs hf h hr w hdec
  have hva : validStateName (some "AUTO") = true := by decide
  have hvs : validStateName (some "state") = true := by decide
  constructor
  · simp only [load, hva, if_true, h1, loadTree, hone]
  · have : resolveTree d' (some "state") = .ok (.v1, some "state") := by
      have ht : validTree .v1 d' (some "state") = true := by
        simp only [validTree, List.any_eq_true, Bool.and_eq_true, decide_eq_true_eq]
        exact ⟨_, e3, rfl, htree⟩
      have hne : ¬ (some "state" = some autoKey) := by decide
      simp only [resolveTree, h2, hne, if_false, ht, if_true]
    simp only [load, hvs, if_true, this, loadTree, hone]

/-- C82: a checkpoint of the older layout whose metadata records one handler is a single tree, and loading items from it is refused, whichever
are asked for and whatever files there are. -/
theorem C82_single_tree_refused (W : World H V A) (C : Codec H V A D) (r : Registry H) (d : Dir D) (t : String)
    (hv : layoutOf d = .ok .v0) (h : d.recorded = some (.single t)) (req : List (String × Option A)) (l : List (String × V)) :
    loadCheckpointables W C r d req ≠ .ok l := by
  simp only [loadCheckpointables, hv, loadAll, directTypestr, h]
  split <;> simp

/-! ### What goes wrong -/

/-- C82 (finding): every directory without subdirectories, without metadata and not inside a checkpoint is
reported to be an Orbax checkpoint, and loading from it succeeds with nothing, although loading an empty
checkpoint is documented to raise an error. -/
theorem C82_empty_directory_fails (W : World H V A) (C : Codec H V A D) (r : Registry H) (d : Dir D)
    (h1 : d.present = true) (h2 : d.isDir = true) (h3 : d.temporary = false) (h4 : d.indicator = false)
    (h5 : d.recorded = none) (h6 : d.rootTree = false) (h7 : d.parentMeta = false)
    (h8 : ∀ s ∈ d.subs, s.isDir = false ∧ s.ckpt = false) :
    isOrbaxCheckpoint d = true ∧ loadCheckpointables W C r d [] = .ok [] := by
  have hany : (d.subs.any fun s => s.ckpt) = false := by
    rw [List.any_eq_false]
    intro s hs
    simp [(h8 s hs).2]
  have hv : validV0 d = true := by
    simp [validV0, h1, h2, h3, h7, hany]
  have hex : existing d = [] := by
    unfold existing
    rw [List.map_eq_nil_iff, List.filter_eq_nil_iff]
    intro s hs
    simp [(h8 s hs).1]
  refine ⟨by simp [isOrbaxCheckpoint, hv], ?_⟩
  have hl : layoutOf d = .ok .v0 := by simp [layoutOf, version, h4, hv]
  simp [loadCheckpointables, validRequest, hl, loadAll, directTypestr, h5, h6, requested, hex, loadEach]

/-- C82 (finding): a directory that has the indicator file but has lost its metadata is reported to be an
Orbax checkpoint, and every attempt to load from it is refused. -/
theorem C82_reported_but_refused_fails (W : World H V A) (C : Codec H V A D) (r : Registry H) (d : Dir D)
    (h1 : d.present = true) (h2 : d.isDir = true) (h3 : d.temporary = false) (h4 : d.indicator = true)
    (h5 : d.recorded = none) (h7 : d.parentMeta = false) (h8 : ∀ s ∈ d.subs, s.ckpt = false) :
    isOrbaxCheckpoint d = true ∧ (∀ req l, loadCheckpointables W C r d req ≠ .ok l) ∧
    (∀ name abs v, load W C r d name abs ≠ .ok v) := by
  have hany : (d.subs.any fun s => s.ckpt) = false := by
    rw [List.any_eq_false]
    intro s hs
    simp [h8 s hs]
  obtain ⟨_, g1, g2⟩ := C82_incomplete W C r d (Or.inr (Or.inr (Or.inr ⟨h4, h5⟩)))
  exact ⟨by simp [isOrbaxCheckpoint, validV0, h1, h2, h3, h7, hany], g1, g2⟩

/-- C82 (finding): one checkpointable whose handler needs a template makes loading everything fail, also
for the others. (`None` is documented to be a valid template for every checkpointable.) -/
theorem C82_one_needs_template_fails (W : World H V A) (C : Codec H V A D) (r : Registry H) (junk : D)
    (dn : String) (pm : Bool) (cs : List (String × V)) (hnd : (cs.map Prod.fst).Nodup) (d d' : Dir D)
    (hsv : save W C r junk dn pm cs = .ok d) (hp : SameDir d d') (n : String) (v : V) (h : H)
    (hm : (n, v) ∈ cs) (hf : Fits W r n v none) (hr : resolveSave W r n (some v) = .ok h)
    (hdec : C.dec h (C.enc h v) none = none) (l : List (String × V)) :
    loadCheckpointables W C r d' [] ≠ .ok l := by
  obtain ⟨⟨_, hn⟩, h2, _, h4, _, h6⟩ := save_spec W C r junk dn pm cs hnd d d' hsv hp
  obtain ⟨h', e1, e2, _, e4⟩ := h6 n v hm
  rw [hr] at e1
  cases e1
  obtain ⟨f1, f2, f3⟩ := hf h hr
  have hres := C81_same_handler W r n v h hr f1 none f2 f3
  have hone : loadOne W C r d' n none = .error .failed := by
    have : resolveLoadOrState W r stateKey n none (savedTypestr d' n) = .ok h := by
      rw [e2]; simp only [resolveLoadOrState, hres]
    simp only [loadOne, this, e4, hdec]
  have heach : ∀ req : List (String × Option A), (n, none) ∈ req → ∀ l, loadEach W C r d' req ≠ .ok l := by
    intro req
    induction req with
    | nil => intro h; cases h
    | cons e req ih =>
      obtain ⟨n', a⟩ := e
      intro hmem l hl
      simp only [loadEach] at hl
      rcases List.mem_cons.1 hmem with hc | hc
      · cases hc
        rw [hone] at hl; cases hl
      · cases h1 : loadOne W C r d' n' a with
        | error e => rw [h1] at hl; cases hl
        | ok w =>
          rw [h1] at hl
          simp only at hl
          cases h3 : loadEach W C r d' req with
          | error e => rw [h3] at hl; cases hl
          | ok l' => exact ih hc l' h3
  have hreq : (n, none) ∈ requested d' ([] : List (String × Option A)) := by
    simp only [requested, List.isEmpty_nil, if_true]
    refine List.mem_map.2 ⟨n, List.mem_filter.2 ⟨h4.mem_iff.2 (List.mem_map.2 ⟨(n, v), hm, rfl⟩), ?_⟩, rfl⟩
    exact (reserved_iff n).2 (hn _ hm).2
  simp only [loadCheckpointables, validRequest, List.all_nil, if_true, h2, loadAll]
  split
  · simp
  · split
    · simp
    · exact heach _ hreq l

/-! ### Fallback and version 0 checkpoints -/

/-- C82: a checkpointable whose name has no handler, and whose recorded handler is not registered, is loaded
by the handler registered for `state`; if there is none, loading fails. -/
theorem C82_fallback (W : World H V A) (C : Codec H V A D) (r : Registry H) (d : Dir D) (n : String)
    (s : Sub D) (hs : s ∈ d.subs) (hn : s.name = n) (hu : ∀ s' ∈ d.subs, s'.name = n → s' = s)
    (hno : ∀ h, (h, some n) ∉ r.entries)
    (ht : ∀ l t, d.recorded = some (.names l) → (n, t) ∈ l → ∀ e ∈ r.entries, W.typestr e.1 ≠ t ∧
      t ∉ r.secondary e.1) :
    (∀ h, r.get "state" = some h → W.constructible h = true →
      ∀ v, loadOne W C r d n none = .ok v ↔ C.dec h s.data none = some v) ∧
    (r.get "state" = none → ∀ v, loadOne W C r d n none ≠ .ok v) := by
  have hg : r.get n = none := (get_none_iff r n).2 hno
  have hby : ∀ t, savedTypestr d n = some t → byTypestr W r t = none := by
    intro t hst
    have hrec : ∃ l, d.recorded = some (.names l) ∧ (n, t) ∈ l := by
      unfold savedTypestr at hst
      split at hst
      · rename_i l hl
        obtain ⟨e, he, rfl⟩ := Option.map_eq_some_iff.1 hst
        have h1 := List.mem_of_find?_eq_some he
        have h2 := List.find?_some he
        simp only [decide_eq_true_eq] at h2
        exact ⟨l, hl, by rw [← h2]; exact h1⟩
      · cases hst
    obtain ⟨l, hl, hm⟩ := hrec
    unfold byTypestr
    rw [Option.map_eq_none_iff, List.find?_eq_none]
    intro e he
    have := ht l t hl hm e (List.mem_reverse.1 he)
    simp [this.1, this.2]
  have hres : resolveLoad W r n none (savedTypestr d n) = .error .noEntry := by
    cases hst : savedTypestr d n with
    | none => simp [resolveLoad, hg, constructOpt, decideLoad]
    | some t => simp [resolveLoad, hg, constructOpt, decideLoad, hby t hst]
  have hfind : d.subs.find? (fun s => decide (s.name = n)) = some s := by
    cases hf : d.subs.find? fun s => decide (s.name = n) with
    | none =>
      have := List.find?_eq_none.1 hf s hs
      simp [hn] at this
    | some s' =>
      have h1 := List.mem_of_find?_eq_some hf
      have h2 := List.find?_some hf
      simp only [decide_eq_true_eq] at h2
      rw [hu s' h1 h2]
  constructor
  · intro h hst hc v
    have : resolveLoadOrState W r stateKey n none (savedTypestr d n) = .ok h := by
      simp only [resolveLoadOrState, hres, stateKey, hst, construct, hc, if_true]
    simp only [loadOne, this, hfind]
    cases C.dec h s.data none <;> simp
  · intro hst v
    have : resolveLoadOrState W r stateKey n none (savedTypestr d n) = .error .noEntry := by
      simp only [resolveLoadOrState, hres, stateKey, hst]
    simp [loadOne, this]

/-- C82: a version 0 checkpoint that is one tree is loaded as a tree, with the recorded handler or else the
one registered for `state`, and refused as named checkpointables; one with named items is the opposite. -/
theorem C82_version0 (W : World H V A) (C : Codec H V A D) (r : Registry H) (d : Dir D)
    (h1 : d.present = true) (h2 : d.isDir = true) (h3 : d.temporary = false) (h4 : d.indicator = false)
    (h5 : d.parentMeta = false) (hrec : d.recorded.isSome = true ∨ d.rootTree = true) :
    (d.rootTree = true → ∀ req : List (String × Option A), ∀ l, loadCheckpointables W C r d req ≠ .ok l) ∧
    (d.rootTree = true → d.recorded = none → (∀ h, (h, some d.dirName) ∉ r.entries) →
      ∀ h, r.get "state" = some h → W.constructible h = true → ∀ v,
        C.dec h d.rootData none = some v → load W C r d none none = .ok v) ∧
    (∀ items, d.recorded = some (.names items) → ∀ abs v, load W C r d none abs ≠ .ok v) := by
  have hl : layoutOf d = .ok .v0 := by
    have hv : validV0 d = true := by
      rcases hrec with h | h <;> simp [validV0, h1, h2, h3, h5, h]
    simp [layoutOf, version, h4, hv]
  refine ⟨?_, ?_, ?_⟩
  · intro ht req l
    simp only [loadCheckpointables, hl, loadAll, ht, or_true, and_self, if_true]
    split <;> simp
  · intro ht hrn hno h hst hc v hdec
    have hres : resolveTree d none = .ok (.v0, none) := by
      simp [resolveTree, hl, validTree, ht]
    have hg : r.get d.dirName = none := (get_none_iff r d.dirName).2 hno
    have hr : resolveLoadOrState W r stateKey d.dirName none (directTypestr d) = .ok h := by
      simp [resolveLoadOrState, resolveLoad, directTypestr, hrn, hg, constructOpt, decideLoad, stateKey, hst,
        construct, hc]
    simp [load, validStateName, hres, loadTree, hrn, hr, hdec]
  · intro items hi abs v
    simp only [load, validStateName, if_true]
    cases hres : resolveTree d none with
    | error e => simp
    | ok p =>
      have : p = (.v0, none) := by
        simp only [resolveTree, hl] at hres
        rw [if_neg (by simp)] at hres
        split at hres
        · cases hres; rfl
        · cases hres
      subst this
      simp [loadTree, hi]

/-- C82: without a request exactly the subdirectories whose names are not reserved are loaded. -/
theorem C82_default_names (W : World H V A) (C : Codec H V A D) (r : Registry H) (d : Dir D)
    (l : List (String × V)) (hl : loadCheckpointables W C r d ([] : List (String × Option A)) = .ok l)
    (n : String) :
    n ∈ l.map Prod.fst ↔ (∃ s ∈ d.subs, s.isDir = true ∧ s.name = n) ∧ n ≠ "metrics" ∧ n ≠ "AUTO" := by
  have heach : ∀ (req : List (String × Option A)) l, loadEach W C r d req = .ok l →
      l.map Prod.fst = req.map Prod.fst := by
    intro req
    induction req with
    | nil => intro l h; cases h; rfl
    | cons e req ih =>
      obtain ⟨m, a⟩ := e
      intro l h
      simp only [loadEach] at h
      cases h1 : loadOne W C r d m a with
      | error e => rw [h1] at h; cases h
      | ok v =>
        rw [h1] at h
        cases h2 : loadEach W C r d req with
        | error e => rw [h2] at h; cases h
        | ok l' =>
          rw [h2] at h
          cases h
          simp [ih l' h2]
  have : ∃ ver, loadAll W C r ver d ([] : List (String × Option A)) = .ok l := by
    simp only [loadCheckpointables, validRequest, List.all_nil, if_true] at hl
    cases h1 : layoutOf d with
    | error e => rw [h1] at hl; cases hl
    | ok ver => rw [h1] at hl; exact ⟨ver, hl⟩
  obtain ⟨ver, hall⟩ := this
  have : loadEach W C r d (requested d []) = .ok l := by
    unfold loadAll at hall
    split at hall
    · cases hall
    · split at hall
      · cases hall
      · exact hall
  rw [heach _ _ this]
  simp only [requested, List.isEmpty_nil, if_true, List.map_map]
  simp only [existing, reserved, List.mem_map, List.mem_filter, Function.comp_def]
  constructor
  · rintro ⟨m, ⟨⟨s, ⟨h1, h2⟩, rfl⟩, h3⟩, rfl⟩
    simp at h3
    exact ⟨⟨s, h1, h2, rfl⟩, h3⟩
  · rintro ⟨⟨s, h1, h2, rfl⟩, h3⟩
    exact ⟨s.name, ⟨⟨s, ⟨h1, h2⟩, rfl⟩, by simp [h3]⟩, rfl⟩

/-- The hypotheses are met: two values saved by two handlers, one registered for its name. -/
theorem C82_nonvacuous :
    ∃ (W : World Bool Nat Nat) (C : Codec Bool Nat Nat Nat) (r : Registry Bool) (d : Dir Nat), Built r ∧
      save W C r 0 "c" false [("state", 1), ("x", 2)] = .ok d ∧ SameDir d d ∧
      Fits W r "state" 1 none ∧ Fits W r "x" 2 none ∧
      (∀ h v, C.dec h (C.enc h v) none = some v) ∧ Eligible d "state" := by
  let W : World Bool Nat Nat := ⟨fun b => if b then "T" else "F", fun _ => true, fun b _ => !b,
    fun b _ => !b, fun _ => false, fun _ => false⟩
  let C : Codec Bool Nat Nat Nat := ⟨fun _ v => v + 1, fun b _ => b, fun _ x _ => some (x - 1)⟩
  let r1 : Registry Bool := ⟨[(false, none)], fun _ => []⟩
  let r2 : Registry Bool := ⟨[(false, none), (true, some "state")], fun _ => []⟩
  have hb1 : Built r1 := Built.add Registry.empty r1 false none none Built.empty rfl
  have hb2 : Built r2 := Built.add r1 r2 true (some "state") none hb1 rfl
  have hdist : ∀ b, Distinct W r2 b := by
    intro b
    refine ⟨by cases b <;> decide, ?_, ?_⟩
    · cases b
      · exact ⟨none, by simp [r2]⟩
      · exact ⟨some "state", by simp [r2]⟩
    · intro e he hne
      refine ⟨?_, by simp [r2]⟩
      simp only [r2, List.mem_cons, List.not_mem_nil, or_false] at he
      rcases he with rfl | rfl <;> cases b
      · exact absurd rfl hne
      · decide
      · decide
      · exact absurd rfl hne
  have hfit : ∀ n v, Fits W r2 n v none := by
    intro n v h _
    exact ⟨hdist h, by simp, by simp [W]⟩
  refine ⟨W, C, r2, _, hb2, rfl, ⟨rfl, rfl, rfl, rfl, rfl, List.Perm.refl _⟩, hfit _ _, hfit _ _, ?_, ?_⟩
  · intro h v
    simp [C]
  · refine ⟨⟨⟨"state", true, true, false, 2⟩, ?_, rfl, rfl⟩, by decide, by decide⟩
    simp [written, C]

end Verif.V1
