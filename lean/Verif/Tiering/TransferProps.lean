import Verif.Tiering.Transfer
import Verif.Tiering.PathProps

/-!
# C127: a copy goes to the right places, is requested once, and its outcome is that of the operation
-/

namespace Verif.Tiering.Transfer

open Verif.Tiering.Routing

/-! ## Specification: uses only the types of Transfer.lean -/

/-- The address of a name in a bucket. -/
def gs (bucket name : Str) : Str := ['g', 's', ':', '/', '/'] ++ bucket ++ '/' :: name

/-- A name that `gs://` can address without doubt. -/
def PlainName (bucket name : Str) : Prop :=
  '/' ∉ bucket ∧ ¬ ['g', 's', ':', '/', '/'] <:+: (bucket ++ '/' :: name)

/-- The details of a reply leave the keys alone by which the operation is found again. -/
def Clean : Event → Prop
  | .poll (.body b) => ∀ e ∈ b.response ++ b.metadata, e.1 ≠ "request_id" ∧ e.1 ≠ "client_type" ∧ e.1 ≠ "zone"
  | _ => True

/-- The worker does not die between requesting the copy and saving the operation, and the service
names the operation. -/
def Saves : Event → Prop
  | .acquire .dies => False
  | .acquire (.started op) => op ≠ []
  | _ => True

/-- The service says that the operation ended well. -/
def SaysDone (k : Kind) : Reply → Prop
  | .body b => b.done = true ∧ b.error = none ∧ (k = .gcsToGcs → b.opStatus = some "SUCCESS".toList)
  | _ => False

/-- The service says that the operation ended, but not well. -/
def SaysFailed (k : Kind) : Reply → Prop
  | .body b => b.done = true ∧ (b.error ≠ none ∨ k = .gcsToGcs ∧ b.opStatus ≠ some "SUCCESS".toList)
  | _ => False

/-- The reply cannot be read: it is no JSON, or counts bytes by something that is no number. -/
def Unreadable (k : Kind) : Reply → Prop
  | .garbled => True
  | .body b => k = .gcsToGcs ∧ b.done = false ∧ ∃ s, b.sent = some (.text s) ∨ b.found = some (.text s)
  | _ => False

/-- The six keys of the status itself. -/
def ownKeys : List String := ["request_id", "status", "client_type", "zone", "bytes_copied", "total_bytes"]

/-- The details of a reply use none of them. -/
def Harmless : Reply → Prop
  | .body b => ∀ e ∈ b.response ++ b.metadata, e.1 ∉ ownKeys
  | _ => True

/-! ## Which client -/

/-- C127: there is a client for a copy exactly if one side at least is a bucket, the other is a bucket
or a Lustre file system, and the zone of the latter is known; the client works in that zone, on the
instance named after it. -/
theorem C127_client (src dst : Backend) (c : Client) : determineClient src dst = .ok c ↔
    (src.btype = .gcs ∧ dst.btype = .gcs ∧ c = ⟨.gcsToGcs, none, none, none⟩) ∨
    (src.btype = .lustre ∧ dst.btype = .gcs ∧ ∃ z, z ≠ [] ∧ src.zone = some z ∧
      c = ⟨.lustreToGcs, some z, some ("lustre-".toList ++ z), some src.pfx⟩) ∨
    (src.btype = .gcs ∧ dst.btype = .lustre ∧ ∃ z, z ≠ [] ∧ dst.zone = some z ∧
      c = ⟨.gcsToLustre, some z, some ("lustre-".toList ++ z), some dst.pfx⟩) := by
  have hb : ∀ k b, buildLustre k b = .ok c ↔ ∃ z, z ≠ [] ∧ b.zone = some z ∧
      c = ⟨k, some z, some ("lustre-".toList ++ z), some b.pfx⟩ := by
    intro k b
    unfold buildLustre
    cases hz : b.zone with
    | none => simp
    | some z =>
      by_cases h : z = []
      · simp only [h, if_true]
        refine ⟨fun h' => (by cases h'), ?_⟩
        rintro ⟨z', h1, h2, _⟩
        exact absurd (Option.some.inj h2).symm h1
      · simp only [if_neg h, Except.ok.injEq, Option.some.injEq]
        constructor
        · rintro rfl; exact ⟨z, h, rfl, rfl⟩
        · rintro ⟨z', _, rfl, rfl⟩; rfl
  unfold determineClient
  cases hs : src.btype <;> cases hd : dst.btype <;>
    simp [hb, eq_comm]

/-- C127 (finding): a copy between two Lustre file systems is always refused, whatever they are. -/
theorem C127_lustre_to_lustre_fails (src dst : Backend) (hs : src.btype = .lustre) (hd : dst.btype = .lustre) :
    determineClient src dst = .error .value := by
  unfold determineClient; rw [hs, hd]

/-! ## Where to -/

theorem dirUri_slash (p : Str) : ∃ t, dirUri p = t ++ ['/'] := by
  unfold dirUri
  split
  · next h =>
    rw [List.isSuffixOf_iff_suffix] at h
    obtain ⟨t, ht⟩ := h
    exact ⟨t, ht.symm⟩
  · exact ⟨p, rfl⟩

theorem dirUri_plain {p : Str} (h : ¬ ∃ t, p = t ++ ['/']) : dirUri p = p ++ ['/'] := by
  unfold dirUri
  rw [if_neg]
  intro h'
  rw [List.isSuffixOf_iff_suffix] at h'
  obtain ⟨t, ht⟩ := h'
  exact h ⟨t, ht.symm⟩

theorem lustrePath_below {p rest : Str} {n : Nat} (hl : ¬ ∃ t, p = t ++ ['/'])
    (hne : p ++ '/' :: rest ≠ p ++ List.replicate n '/') :
    lustrePath (some (p ++ List.replicate n '/')) (p ++ '/' :: rest) = '/' :: rest := by
  have hr : rstrip (p ++ List.replicate n '/') = p := rstrip_replicate hl n
  unfold lustrePath
  dsimp only
  by_cases h : p ++ List.replicate n '/' = []
  · have hp : p = [] := (List.append_eq_nil_iff.1 h).1
    rw [if_pos h, hp]; rfl
  · rw [if_neg h, if_neg hne, hr, if_pos ((startsWith_iff _ _).2 ⟨rest, by simp⟩)]
    simp

/-- C127: the path of a tier path inside a Lustre file system is its storage path with the mount point
of the backend (its prefix, without the slashes at its end) taken away, exactly. -/
theorem C127_inside_lustre (b : Backend) (rel u p : Str) (n : Nat) (hp : b.pfx = p ++ List.replicate n '/')
    (hl : ¬ ∃ t, p = t ++ ['/']) (hu : ¬ ('/' :: u) <:+ p) (hs : '/' ∉ u) (hne : u ≠ []) :
    p ++ lustrePath (some b.pfx) (storagePath b rel u) = storagePath b rel u ∧
    ∃ rest, lustrePath (some b.pfx) (storagePath b rel u) = '/' :: rest := by
  obtain ⟨rest, hrest⟩ := C68_path_below_prefix b rel u p n hp hl hu
  obtain ⟨a, ha⟩ := storagePath_ends b rel u
  have e : storagePath b rel u = p ++ '/' :: rest := by rw [← hrest]; simp
  have hns : p ++ '/' :: rest ≠ p ++ List.replicate n '/' := by
    intro h
    rw [← e, ha] at h
    cases n with
    | zero =>
      have h2 := congrArg List.length hrest
      rw [ha, h] at h2
      simp at h2
    | succ n =>
      obtain ⟨t, x, hx⟩ : ∃ t x, u = t ++ [x] := by
        refine ⟨u.dropLast, u.getLast hne, (List.dropLast_concat_getLast hne).symm⟩
      rw [hx, List.replicate_succ'] at h
      have h3 : (a ++ '/' :: t) ++ [x] = (p ++ List.replicate n '/') ++ ['/'] := by simpa using h
      have h4 := (List.append_inj' h3 rfl).2
      simp only [List.cons.injEq, and_true] at h4
      exact hs (by rw [hx, h4]; simp)
  rw [hp, e, lustrePath_below hl hns]
  exact ⟨rfl, rest, rfl⟩

/-- C127: an import reads the directory of the source in the bucket and writes the path of the target
inside the file system, in the zone of the target, under the identifier of the job. -/
theorem C127_import (src dst : Backend) (c : Client) (rid source rel u p : Str) (n : Nat)
    (hc : determineClient src dst = .ok c) (hd : dst.btype = .lustre)
    (hsrc : ¬ ∃ t, source = t ++ ['/']) (hp : dst.pfx = p ++ List.replicate n '/')
    (hl : ¬ ∃ t, p = t ++ ['/']) (hu : ¬ ('/' :: u) <:+ p) (hs : '/' ∉ u) (hne : u ≠ []) :
    ∃ z inside, dst.zone = some z ∧ p ++ inside = storagePath dst rel u ∧
      request c rid source (storagePath dst rel u) =
        .lustreImport z ("lustre-".toList ++ z) (source ++ ['/']) inside rid := by
  rcases (C127_client src dst c).1 hc with ⟨_, h, _⟩ | ⟨_, h, _⟩ | ⟨_, _, z, _, hz, rfl⟩
  · rw [hd] at h; cases h
  · rw [hd] at h; cases h
  · refine ⟨z, _, hz, (C127_inside_lustre dst rel u p n hp hl hu hs hne).1, ?_⟩
    simp [request, dirUri_plain hsrc]

/-- C127: an export reads the path of the source inside the file system, in the zone of the source, and
writes the directory of the target in the bucket, under the identifier of the job. -/
theorem C127_export (src dst : Backend) (c : Client) (rid target rel u p : Str) (n : Nat)
    (hc : determineClient src dst = .ok c) (hd : src.btype = .lustre)
    (htgt : ¬ ∃ t, target = t ++ ['/']) (hp : src.pfx = p ++ List.replicate n '/')
    (hl : ¬ ∃ t, p = t ++ ['/']) (hu : ¬ ('/' :: u) <:+ p) (hs : '/' ∉ u) (hne : u ≠ []) :
    ∃ z inside, src.zone = some z ∧ p ++ inside = storagePath src rel u ∧
      request c rid (storagePath src rel u) target =
        .lustreExport z ("lustre-".toList ++ z) (target ++ ['/']) inside rid := by
  rcases (C127_client src dst c).1 hc with ⟨h, _⟩ | ⟨_, _, z, _, hz, rfl⟩ | ⟨h, _⟩
  · rw [hd] at h; cases h
  · refine ⟨z, _, hz, (C127_inside_lustre src rel u p n hp hl hu hs hne).1, ?_⟩
    simp [request, dirUri_plain htgt]
  · rw [hd] at h; cases h

/-- C127: a copy between buckets names the buckets and the names of source and target. -/
theorem C127_between_buckets (src dst : Backend) (c : Client) (rid b1 n1 b2 n2 : Str)
    (hc : determineClient src dst = .ok c) (h1 : src.btype = .gcs) (h2 : dst.btype = .gcs)
    (hn1 : PlainName b1 n1) (hn2 : PlainName b2 n2) :
    request c rid (gs b1 n1) (gs b2 n2) = .sts b1 n1 b2 n2 := by
  rcases (C127_client src dst c).1 hc with ⟨_, _, rfl⟩ | ⟨h, _⟩ | ⟨_, h, _⟩
  · simp only [request, gs]
    rw [C68_parse b1 n1 hn1.1 hn1.2, C68_parse b2 n2 hn2.1 hn2.2]
  · rw [h1] at h; cases h
  · rw [h2] at h; cases h

/-- C127 (finding): the source and the target of a copy between buckets are passed as they are, without
the slash that marks a directory (Lustre imports and exports always add it): the Storage Transfer
Service takes the path as a prefix of names, so what lies beside the source under a longer name is
addressed as well. -/
theorem C127_no_slash_fails (b1 n1 b2 n2 rid : Str) (hn1 : PlainName b1 n1) (hn2 : PlainName b2 n2)
    (hl : ¬ ∃ t, n1 = t ++ ['/']) :
    (∃ srcPath, request ⟨.gcsToGcs, none, none, none⟩ rid (gs b1 n1) (gs b2 n2) = .sts b1 srcPath b2 n2 ∧
      ¬ (∃ t, srcPath = t ++ ['/']) ∧ srcPath <+: n1 ++ "-other/x".toList) ∧
    ∀ z i pfx, ∃ uri path, request ⟨.gcsToLustre, z, i, pfx⟩ rid (gs b1 n1) (gs b2 n2) =
      .lustreImport (z.getD []) (i.getD []) (uri ++ ['/']) path rid := by
  refine ⟨⟨n1, ?_, hl, List.prefix_append _ _⟩, fun z i pfx => ?_⟩
  · simp only [request, gs]
    rw [C68_parse b1 n1 hn1.1 hn1.2, C68_parse b2 n2 hn2.1 hn2.2]
  · obtain ⟨t, ht⟩ := dirUri_slash (gs b1 n1)
    exact ⟨t, _, by simp only [request]; rw [ht]⟩

/-- C127: the mount point itself is the root of the file system, and a path that is neither the mount
point nor below it is passed on as it is. -/
theorem C127_mount_point (p path : Str) (n : Nat) (hl : ¬ ∃ t, p = t ++ ['/']) (hne : p ++ List.replicate n '/' ≠ []) :
    lustrePath (some (p ++ List.replicate n '/')) (p ++ List.replicate n '/') = ['/'] ∧
    (path ≠ p ++ List.replicate n '/' → ¬ (p ++ ['/']) <+: path →
      lustrePath (some (p ++ List.replicate n '/')) path = path) := by
  unfold lustrePath
  dsimp only
  refine ⟨?_, fun h1 h2 => ?_⟩
  · rw [if_neg hne, if_pos rfl]
  · rw [if_neg hne, if_neg h1, rstrip_replicate hl, if_neg]
    rw [startsWith_iff]; exact h2

/-- C127 (finding): with a prefix that ends in a slash, the mount point itself without that slash is not
recognized and is passed on as a path inside the file system. -/
theorem C127_mount_point_fails (p : Str) (n : Nat) (hl : ¬ ∃ t, p = t ++ ['/']) :
    lustrePath (some (p ++ List.replicate (n + 1) '/')) p = p := by
  unfold lustrePath
  simp only
  split
  · rfl
  · rw [if_neg, if_neg]
    · rw [rstrip_replicate hl, startsWith_iff]
      intro h
      have := h.length_le
      simp at this
      omega
    · intro h
      have := congrArg List.length h
      simp at this

/-- C127 (finding): the request to the Storage Transfer Service does not carry the identifier of the
job, so a second request for the same job cannot be recognized by it; Lustre requests differ. -/
theorem C127_request_id_fails (source target r r' : Str) (hr : r ≠ r') :
    request ⟨.gcsToGcs, none, none, none⟩ r source target = request ⟨.gcsToGcs, none, none, none⟩ r' source target ∧
    ∀ z i pfx, request ⟨.gcsToLustre, z, i, pfx⟩ r source target ≠ request ⟨.gcsToLustre, z, i, pfx⟩ r' source target := by
  refine ⟨rfl, fun z i pfx h => ?_⟩
  simp [request] at h
  exact hr h

/-! ## Requested once, and found again -/

/-- The status by which the operation is found again. -/
structure Saved (c : Client) (op : Str) (d : Status) : Prop where
  req : d "request_id" = some (.text op)
  type : d "client_type" = some (.text c.kind.name)
  zone : c.kind ≠ .gcsToGcs → ∃ z, z ≠ [] ∧ d "zone" = some (.text z)

theorem addDetails_get (k : String) : ∀ (ds : Details) (d : Status), (∀ e ∈ ds, e.1 ≠ k) → addDetails d ds k = d k
  | [], _, _ => rfl
  | (k', v) :: rest, d, h => by
    have hk : k' ≠ k := h (k', v) (by simp)
    simp only [addDetails]
    rw [addDetails_get k rest _ fun e he => h e (by simp [he])]
    split
    · rfl
    · simp [Status.put, hk.symm]

theorem roundTrip_text {d d' : Status} (h : roundTrip d = some d') {k : String} (hk : k ∈ textKeys) : d' k = textOut (d k) := by
  unfold roundTrip at h
  split at h
  · cases h; simp [hk]
  · cases h

theorem name_ne (k : Kind) : k.name ≠ [] := by cases k <;> decide

theorem textOut_text {s : Str} (h : s ≠ []) : textOut (some (.text s)) = some (.text s) := by
  cases s with
  | nil => exact absurd rfl h
  | cons a l => rfl

theorem getText_eq {d : Status} {k : String} {t : Str} (h : d k = some (.text t)) (ht : t ≠ []) : getText d k = some t := by
  unfold getText
  rw [h]
  exact if_neg ht

theorem client_saved {c : Client} {op : Str} {d : Status} (h : Saved c op d) : clientOfStatus d = .ok c.kind := by
  unfold clientOfStatus
  rw [getText_eq h.type (name_ne _)]
  cases hk : c.kind with
  | gcsToGcs =>
    dsimp only
    rw [if_pos (by decide)]
  | lustreToGcs =>
    obtain ⟨z, hz, hd⟩ := h.zone (by simp [hk])
    dsimp only
    rw [if_neg (by decide), if_pos (by decide), getText_eq hd hz]
  | gcsToLustre =>
    obtain ⟨z, hz, hd⟩ := h.zone (by simp [hk])
    dsimp only
    rw [if_neg (by decide), if_neg (by decide), if_pos (by decide), getText_eq hd hz]

theorem saved_savedStatus {src dst : Backend} {c : Client} {op : Str} (hc : determineClient src dst = .ok c) (ho : op ≠ []) :
    Saved c op (savedStatus c op) := by
  have hz : c.kind ≠ .gcsToGcs → ∃ z, z ≠ [] ∧ c.zone = some z := by
    intro hk
    rcases (C127_client src dst c).1 hc with ⟨_, _, rfl⟩ | ⟨_, _, z, hz, _, rfl⟩ | ⟨_, _, z, hz, _, rfl⟩
    · simp at hk
    · exact ⟨z, hz, rfl⟩
    · exact ⟨z, hz, rfl⟩
  refine ⟨?_, ?_, ?_⟩
  · unfold savedStatus
    cases c.zone with
    | none => simp [Status.put, textOut_text ho]
    | some z => by_cases h : z = [] <;> simp [h, Status.put, textOut_text ho]
  · unfold savedStatus
    cases c.zone with
    | none => simp [Status.put, textOut_text (name_ne _)]
    | some z => by_cases h : z = [] <;> simp [h, Status.put, textOut_text (name_ne _)]
  · intro hk
    obtain ⟨z, h1, h2⟩ := hz hk
    refine ⟨z, h1, ?_⟩
    unfold savedStatus
    simp [h2, h1, Status.put, textOut_text h1]

/-- The details a poll may store come from the reply. -/
theorem details_of {k : Kind} {r : Reply} {res : Result} (h : pollOperation k r = .ok res) {key : String}
    (hk : key ≠ "bytes_copied") (hk2 : key ≠ "total_bytes") (hk3 : key ≠ "error")
    (hr : ∀ b, r = .body b → ∀ e ∈ b.response ++ b.metadata, e.1 ≠ key) : ∀ e ∈ res.details, e.1 ≠ key := by
  cases r with
  | unreachable => simp [pollOperation, readReply] at h
  | code n => simp [pollOperation, readReply] at h
  | garbled => simp [pollOperation, readReply] at h
  | body b =>
    have hb := hr b rfl
    have hl : ∀ res, pollLustre b = .ok res → ∀ e ∈ res.details, e.1 ≠ key := by
      intro res h
      unfold pollLustre at h
      split at h
      · split at h
        · injection h with h; subst h; intro e he; simp at he; subst he; exact hk3.symm
        · injection h with h; subst h; intro e he; exact hb e (List.mem_append_left _ he)
      · injection h with h; subst h; intro e he; exact hb e (List.mem_append_right _ he)
    cases k with
    | gcsToGcs =>
      simp only [pollOperation, readReply, pollSts] at h
      revert h
      repeat' split
      all_goals intro h
      all_goals first
        | (injection h with h; subst h; intro e he; simp at he)
        | cases h
      · rcases he with rfl | rfl
        · exact hk.symm
        · exact hk2.symm
      · subst he; exact hk3.symm
      · subst he; exact hk3.symm
    | lustreToGcs => exact hl res h
    | gcsToLustre => exact hl res h

theorem saved_update {c : Client} {op : Str} {d d' : Status} {res : Result} {v : Val} (h : Saved c op d) (ho : op ≠ [])
    (hd : ∀ e ∈ res.details, e.1 ≠ "request_id" ∧ e.1 ≠ "client_type" ∧ e.1 ≠ "zone")
    (hr : roundTrip (addDetails (d.put "status" v) res.details) = some d') : Saved c op d' := by
  refine ⟨?_, ?_, fun hk => ?_⟩
  · rw [roundTrip_text hr (by decide), addDetails_get _ _ _ fun e he => (hd e he).1]
    simp [Status.put, h.req, textOut_text ho]
  · rw [roundTrip_text hr (by decide), addDetails_get _ _ _ fun e he => (hd e he).2.1]
    simp [Status.put, h.type, textOut_text (name_ne _)]
  · obtain ⟨z, h1, h2⟩ := h.zone hk
    refine ⟨z, h1, ?_⟩
    rw [roundTrip_text hr (by decide), addDetails_get _ _ _ fun e he => (hd e he).2.2]
    simp [Status.put, h2, textOut_text h1]

/-- Invariant of a history. -/
inductive Good (src dst : Backend) (rid source target : Str) (evs : List Event) (j : Run) : Prop
  | untouched (hs : j.state = .processing) (hr : j.status "request_id" = none) (h1 : j.sent = []) (h2 : j.polled = [])
  | refused (hs : j.state = .failed) (h2 : j.polled = [])
      (h1 : j.sent = [] ∨ ∃ c, determineClient src dst = .ok c ∧ j.sent = [request c rid source target])
  | under (c : Client) (op : Str) (hc : determineClient src dst = .ok c) (ho : op ≠ [])
      (he : Event.acquire (.started op) ∈ evs)
      (hs : j.state = .processing → Saved c op j.status) (hreq : j.state = .processing ∨ j.state = .completed ∨ j.state = .failed)
      (h1 : j.sent = [request c rid source target]) (h2 : ∀ p ∈ j.polled, p = (c.kind, .text op))

theorem good_mono {src dst : Backend} {rid source target : Str} {evs evs' : List Event} {j : Run}
    (h : Good src dst rid source target evs j) (hsub : ∀ e ∈ evs, e ∈ evs') : Good src dst rid source target evs' j := by
  cases h with
  | untouched hs hr h1 h2 => exact .untouched hs hr h1 h2
  | refused hs h2 h1 => exact .refused hs h2 h1
  | under c op hc ho he hs hreq h1 h2 => exact .under c op hc ho (hsub _ he) hs hreq h1 h2

theorem good_step {src dst : Backend} {rid source target : Str} {evs : List Event} {j : Run} (ev : Event)
    (h : Good src dst rid source target evs j) (hc : Clean ev) (hsv : Saves ev) :
    Good src dst rid source target (evs ++ [ev]) (step src dst rid source target j ev) := by
  have hm := good_mono (evs' := evs ++ [ev]) h (by intro e he; simp [he])
  cases ev with
  | acquire o =>
    simp only [step, processJob]
    split
    · exact hm
    next hproc =>
    split
    · exact hm
    next hreq =>
    have hproc : j.state = .processing := Classical.byContradiction hproc
    have hnone : j.status "request_id" = none := by simpa using hreq
    cases h with
    | refused hs => rw [hs] at hproc; cases hproc
    | under c op _ _ _ hs =>
      rw [(hs hproc).req] at hnone; cases hnone
    | untouched _ _ h1 h2 =>
      cases hd : determineClient src dst with
      | error e => exact .refused rfl h2 (Or.inl h1)
      | ok c =>
        cases o with
        | raises => exact .refused rfl h2 (Or.inr ⟨c, hd, by simp [failJob, h1]⟩)
        | dies => exact absurd hsv (by simp [Saves])
        | started op =>
          refine .under c op hd hsv (by simp) (fun _ => saved_savedStatus hd hsv) (Or.inl hproc) (by simp [h1]) ?_
          intro p hp; rw [h2] at hp; cases hp
  | poll r =>
    simp only [step, pollJob]
    split
    · exact hm
    next hproc =>
    have hproc : j.state = .processing := Classical.byContradiction hproc
    cases h with
    | refused hs => rw [hs] at hproc; cases hproc
    | untouched _ hr h1 h2 => rw [hr]; exact hm
    | under c op hd ho he hs _ h1 h2 =>
      have sv := hs hproc
      rw [sv.req]
      simp only [client_saved sv]
      have hpol : ∀ p ∈ j.polled ++ [(c.kind, Val.text op)], p = (c.kind, .text op) := by
        intro p hp
        rcases List.mem_append.1 hp with hp | hp
        · exact h2 p hp
        · simpa using hp
      have he' : Event.acquire (.started op) ∈ evs ++ [Event.poll r] := by simp [he]
      cases hp : pollOperation c.kind r with
      | error e =>
        cases e with
        | value => exact .under c op hd ho he' (by simp [failJob]) (Or.inr (Or.inr rfl)) h1 hpol
        | other => exact .under c op hd ho he' (fun _ => sv) (Or.inl hproc) h1 hpol
      | ok res =>
        have hdet : ∀ e ∈ res.details, e.1 ≠ "request_id" ∧ e.1 ≠ "client_type" ∧ e.1 ≠ "zone" := by
          intro e hee
          refine ⟨details_of hp (by decide) (by decide) (by decide) ?_ e hee,
            details_of hp (by decide) (by decide) (by decide) ?_ e hee,
            details_of hp (by decide) (by decide) (by decide) ?_ e hee⟩
          · intro b hb; subst hb; exact fun e he => (hc e he).1
          · intro b hb; subst hb; exact fun e he => (hc e he).2.1
          · intro b hb; subst hb; exact fun e he => (hc e he).2.2
        simp only
        cases hrt : roundTrip (addDetails (j.status.put "status" (.text res.status.value)) res.details) with
        | none => exact .under c op hd ho he' (fun _ => sv) (Or.inl hproc) h1 hpol
        | some d =>
          have sv' := saved_update sv ho hdet hrt
          cases hst : res.status with
          | success => exact .under c op hd ho he' (by simp) (Or.inr (Or.inl rfl)) h1 hpol
          | failed => exact .under c op hd ho he' (by simp [failJob]) (Or.inr (Or.inr rfl)) h1 hpol
          | inProgress => exact .under c op hd ho he' (fun _ => sv') (Or.inl hproc) h1 hpol

theorem good_run {src dst : Backend} {rid source target : Str} (evs : List Event) (hc : ∀ e ∈ evs, Clean e)
    (hs : ∀ e ∈ evs, Saves e) : Good src dst rid source target evs (run src dst rid source target evs) := by
  have gen : ∀ (evs pre : List Event) (j : Run), (∀ e ∈ evs, Clean e) → (∀ e ∈ evs, Saves e) →
      Good src dst rid source target pre j →
      Good src dst rid source target (pre ++ evs) (evs.foldl (step src dst rid source target) j) := by
    intro evs
    induction evs with
    | nil => intro pre j _ _ h; simpa using h
    | cons e es ih =>
      intro pre j hc hs h
      have := ih (pre ++ [e]) _ (fun x hx => hc x (by simp [hx])) (fun x hx => hs x (by simp [hx]))
        (good_step e h (hc e (by simp)) (hs e (by simp)))
      simpa using this
  simpa [run] using gen evs [] fresh hc hs (.untouched rfl rfl rfl rfl)

/-- C127: over any history of a job, with any number of workers taking it over and any replies, at most
one copy is requested, and every poll asks the service that copies, for the very operation it named.
(That workers do not die between request and saving, and that replies leave the identifying keys alone,
is needed: see the findings.) -/
theorem C127_once (src dst : Backend) (rid source target : Str) (evs : List Event) (hc : ∀ e ∈ evs, Clean e)
    (hs : ∀ e ∈ evs, Saves e) :
    let j := run src dst rid source target evs
    (j.sent = [] ∨ ∃ c, determineClient src dst = .ok c ∧ j.sent = [request c rid source target]) ∧
    (j.polled = [] ∨ ∃ c op, determineClient src dst = .ok c ∧ Event.acquire (.started op) ∈ evs ∧
      ∀ p ∈ j.polled, p = (c.kind, .text op)) := by
  have h := good_run (src := src) (dst := dst) (rid := rid) (source := source) (target := target) evs hc hs
  intro j
  cases h with
  | untouched _ _ h1 h2 => exact ⟨Or.inl h1, Or.inl h2⟩
  | refused _ h2 h1 => exact ⟨h1, Or.inl h2⟩
  | under c op hd _ he _ _ h1 h2 => exact ⟨Or.inr ⟨c, hd, h1⟩, Or.inr ⟨c, op, hd, he, h2⟩⟩

/-- C127: even if workers die, every request of a job is the same request. -/
theorem C127_same_request (src dst : Backend) (rid source target : Str) (evs : List Event) :
    ∀ q ∈ (run src dst rid source target evs).sent, ∃ c, determineClient src dst = .ok c ∧ q = request c rid source target := by
  have gen : ∀ (evs : List Event) (j : Run),
      (∀ q ∈ j.sent, ∃ c, determineClient src dst = .ok c ∧ q = request c rid source target) →
      ∀ q ∈ (evs.foldl (step src dst rid source target) j).sent, ∃ c, determineClient src dst = .ok c ∧ q = request c rid source target := by
    intro evs
    induction evs with
    | nil => intro j h; exact h
    | cons e es ih =>
      intro j h
      refine ih _ ?_
      cases e with
      | acquire o =>
        simp only [step, processJob]
        split
        · exact h
        split
        · exact h
        cases hd : determineClient src dst with
        | error _ => simpa [failJob, hd] using h
        | ok c =>
          have h' : ∀ q ∈ j.sent ++ [request c rid source target],
              ∃ c, determineClient src dst = .ok c ∧ q = request c rid source target := by
            intro q hq
            rcases List.mem_append.1 hq with hq | hq
            · exact h q hq
            · exact ⟨c, hd, by simpa using hq⟩
          rw [hd] at h'
          cases o <;> simpa [failJob] using h'
      | poll r =>
        simp only [step, pollJob]
        repeat' split
        all_goals exact h
  exact gen evs fresh (by simp [fresh])

/-! ## The outcome -/

/-- C127: a poll completes a job only if the service says that the operation ended well. -/
theorem C127_completed (j : Run) (r : Reply) (hj : j.state = .processing) (h : (pollJob j r).state = .completed) :
    ∃ k req, (pollJob j r).polled = j.polled ++ [(k, req)] ∧ SaysDone k r := by
  revert h
  unfold pollJob
  rw [if_neg (by simp [hj])]
  cases hreq : j.status "request_id" with
  | none => simp [hj]
  | some req =>
    cases hk : clientOfStatus j.status with
    | error e => simp [failJob]
    | ok k =>
      simp only
      cases hp : pollOperation k r with
      | error e => cases e <;> simp [failJob, hj]
      | ok res =>
        simp only
        cases hrt : roundTrip (addDetails (j.status.put "status" (.text res.status.value)) res.details) with
        | none => simp [hj]
        | some d =>
          cases hst : res.status with
          | failed => simp [failJob]
          | inProgress => simp [hj]
          | success =>
            intro _
            refine ⟨k, req, rfl, ?_⟩
            cases r with
            | unreachable => simp [pollOperation, readReply] at hp
            | code n => simp [pollOperation, readReply] at hp
            | garbled => simp [pollOperation, readReply] at hp
            | body b =>
              have hl : ∀ res, pollLustre b = .ok res → res.status = .success → b.done = true ∧ b.error = none := by
                intro res h hs
                unfold pollLustre at h
                split at h
                · next hd =>
                  split at h
                  · injection h with h; subst h; cases hs
                  · next he => exact ⟨hd, he⟩
                · injection h with h; subst h; cases hs
              cases k with
              | gcsToGcs =>
                simp only [pollOperation, readReply, pollSts] at hp
                revert hp
                repeat' split
                all_goals intro hp
                all_goals first
                  | (injection hp with hp; subst hp; cases hst; done)
                  | (cases hp; done)
                  | skip
                next hd _ he hs => exact ⟨by simpa using hd, he, fun _ => hs⟩
              | lustreToGcs =>
                obtain ⟨h1, h2⟩ := hl res hp hst
                exact ⟨h1, h2, by simp⟩
              | gcsToLustre =>
                obtain ⟨h1, h2⟩ := hl res hp hst
                exact ⟨h1, h2, by simp⟩

theorem harmless_details {k : Kind} {r : Reply} {res : Result} (h : pollOperation k r = .ok res) (hr : Harmless r) :
    ∀ key ∈ textKeys, ∀ e ∈ res.details, e.1 ≠ key := by
  intro key hkey
  have h3 : key ≠ "bytes_copied" ∧ key ≠ "total_bytes" ∧ key ≠ "error" := by
    revert key; decide
  refine details_of h h3.1 h3.2.1 h3.2.2 ?_
  intro b hb e he hk
  subst hb
  refine hr e he ?_
  rw [hk]
  exact (by decide : ∀ key ∈ textKeys, key ∈ ownKeys) key hkey

/-- The types of a status are right. -/
structure Typed (d : Status) : Prop where
  text : ∀ k ∈ textKeys, textOk (d k) = true
  int : ∀ k ∈ intKeys, intOk (d k) = true

theorem addDetails_int (k : String) : ∀ (ds : Details) (d : Status), intOk (d k) = true →
    (∀ e ∈ ds, e.1 = k → intOk (some e.2) = true) → intOk (addDetails d ds k) = true
  | [], _, h, _ => h
  | (k', v) :: rest, d, h, hd => by
    simp only [addDetails]
    refine addDetails_int k rest _ ?_ fun e he => hd e (by simp [he])
    split
    · exact h
    · by_cases hk : k = k'
      · subst hk; simpa [Status.put] using hd (k, v) (by simp) rfl
      · simpa [Status.put, hk] using h

theorem harmless_ints {k : Kind} {r : Reply} {res : Result} (h : pollOperation k r = .ok res) (hr : Harmless r) :
    ∀ key ∈ intKeys, ∀ e ∈ res.details, e.1 = key → intOk (some e.2) = true := by
  intro key hkey e he hek
  cases r with
  | unreachable => simp [pollOperation, readReply] at h
  | code n => simp [pollOperation, readReply] at h
  | garbled => simp [pollOperation, readReply] at h
  | body b =>
    have hk3 : key ≠ "error" := (by decide : ∀ key ∈ intKeys, key ≠ "error") key hkey
    have hown : key ∈ ownKeys := (by decide : ∀ key ∈ intKeys, key ∈ ownKeys) key hkey
    have hl : ∀ res, pollLustre b = .ok res → e ∈ res.details → False := by
      intro res h he
      unfold pollLustre at h
      split at h
      · split at h
        · injection h with h; subst h; simp at he; subst he; exact hk3 hek.symm
        · injection h with h; subst h; exact hr e (List.mem_append_left _ he) (hek ▸ hown)
      · injection h with h; subst h; exact hr e (List.mem_append_right _ he) (hek ▸ hown)
    cases k with
    | gcsToGcs =>
      simp only [pollOperation, readReply, pollSts] at h
      revert h
      repeat' split
      all_goals intro h
      all_goals first
        | (injection h with h; subst h; simp at he)
        | cases h
      · rcases he with rfl | rfl <;> rfl
      · subst he; exact absurd hek.symm hk3
      · subst he; exact absurd hek.symm hk3
    | lustreToGcs => exact (hl res h he).elim
    | gcsToLustre => exact (hl res h he).elim

theorem roundTrip_some {d : Status} (h : Typed d) : ∃ d', roundTrip d = some d' := by
  unfold roundTrip
  rw [if_pos]
  · exact ⟨_, rfl⟩
  · simp only [Bool.and_eq_true, List.all_eq_true]
    exact ⟨h.text, h.int⟩

theorem typed_update {k : Kind} {r : Reply} {res : Result} {d : Status} (h : pollOperation k r = .ok res)
    (hr : Harmless r) (hd : Typed d) : Typed (addDetails (d.put "status" (.text res.status.value)) res.details) := by
  refine ⟨fun key hk => ?_, fun key hk => ?_⟩
  · rw [addDetails_get key _ _ (harmless_details h hr key hk)]
    unfold Status.put
    split
    · rfl
    · exact hd.text key hk
  · refine addDetails_int key _ _ ?_ (harmless_ints h hr key hk)
    have : key ≠ "status" := by revert key; decide
    simpa [Status.put, this] using hd.int key hk

/-- A job whose operation is known: `c` copies, `op` is the operation. -/
structure Underway (c : Client) (op : Str) (j : Run) : Prop where
  state : j.state = .processing
  saved : Saved c op j.status
  typed : Typed j.status

/-- C127: a job under way whose operation ended well, by a reply with no key of the status, is
completed by the poll. -/
theorem C127_completes (c : Client) (op : Str) (j : Run) (r : Reply) (hj : Underway c op j) (hh : Harmless r)
    (h : SaysDone c.kind r) : (pollJob j r).state = .completed := by
  have hres : ∃ res, pollOperation c.kind r = .ok res ∧ res.status = .success := by
    cases r with
    | unreachable => exact h.elim
    | code n => exact h.elim
    | garbled => exact h.elim
    | body b =>
      obtain ⟨h1, h2, h3⟩ := h
      cases hk : c.kind with
      | gcsToGcs => exact ⟨_, by simp only [pollOperation, readReply, pollSts, h1, h2, h3 hk]; rfl, rfl⟩
      | lustreToGcs => exact ⟨_, by simp only [pollOperation, readReply, pollLustre, h1, h2]; rfl, rfl⟩
      | gcsToLustre => exact ⟨_, by simp only [pollOperation, readReply, pollLustre, h1, h2]; rfl, rfl⟩
  obtain ⟨res, hp, hst⟩ := hres
  obtain ⟨d, hd⟩ := roundTrip_some (typed_update hp hh hj.typed)
  rw [hst] at hd
  unfold pollJob
  rw [if_neg (by simp [hj.state]), hj.saved.req]
  simp only [client_saved hj.saved, hp, hd, hst]

/-- C127: a poll fails a job under way only if the service says that the operation ended and not well,
or the reply cannot be read. -/
theorem C127_failed (c : Client) (op : Str) (j : Run) (r : Reply) (hj : Underway c op j)
    (h : (pollJob j r).state = .failed) : SaysFailed c.kind r ∨ Unreadable c.kind r := by
  revert h
  unfold pollJob
  rw [if_neg (by simp [hj.state]), hj.saved.req]
  simp only [client_saved hj.saved]
  have hint : ∀ v e, toInt v = .error e → e = .value → ∃ s, v = some (.text s) := by
    intro v e h he
    subst he
    cases v with
    | none => cases h
    | some v => cases v <;> first | exact ⟨_, rfl⟩ | cases h
  cases hp : pollOperation c.kind r with
  | error e =>
    cases e with
    | other => simp [hj.state]
    | value =>
      intro _
      right
      cases r with
      | unreachable => simp [pollOperation, readReply] at hp
      | code n => simp [pollOperation, readReply] at hp
      | garbled => trivial
      | body b =>
        cases hk : c.kind with
        | gcsToGcs =>
          simp only [hk, pollOperation, readReply, pollSts] at hp
          refine ⟨rfl, ?_⟩
          cases hd : b.done with
          | false =>
            refine ⟨rfl, ?_⟩
            simp only [hd, Bool.not_false, if_true] at hp
            cases h1 : toInt b.sent with
            | error e =>
              rw [h1] at hp
              obtain ⟨s, hs⟩ := hint _ _ h1 (by injection hp)
              exact ⟨s, Or.inl hs⟩
            | ok n =>
              rw [h1] at hp
              cases h2 : toInt b.found with
              | error e =>
                rw [h2] at hp
                obtain ⟨s, hs⟩ := hint _ _ h2 (by injection hp)
                exact ⟨s, Or.inr hs⟩
              | ok m => rw [h2] at hp; cases hp
          | true =>
            exfalso
            simp only [hd, Bool.not_true] at hp
            revert hp
            cases b.error with
            | some e => intro hp; cases hp
            | none =>
              simp only
              intro hp
              split at hp
              · cases ‹false = true›
              · split at hp <;> cases hp
        | lustreToGcs =>
          simp only [hk, pollOperation, readReply, pollLustre] at hp
          repeat' split at hp
          all_goals cases hp
        | gcsToLustre =>
          simp only [hk, pollOperation, readReply, pollLustre] at hp
          repeat' split at hp
          all_goals cases hp
  | ok res =>
    simp only
    cases hrt : roundTrip (addDetails (j.status.put "status" (.text res.status.value)) res.details) with
    | none => simp [hj.state]
    | some d =>
      cases hst : res.status with
      | success => simp
      | inProgress => simp [hj.state]
      | failed =>
        intro _
        left
        cases r with
        | unreachable => simp [pollOperation, readReply] at hp
        | code n => simp [pollOperation, readReply] at hp
        | garbled => simp [pollOperation, readReply] at hp
        | body b =>
          have hl : ∀ res, pollLustre b = .ok res → res.status = .failed → b.done = true ∧ b.error ≠ none := by
            intro res h hs
            unfold pollLustre at h
            split at h
            · next hd =>
              split at h
              · next e he => exact ⟨hd, by simp [he]⟩
              · injection h with h; subst h; cases hs
            · injection h with h; subst h; cases hs
          cases hk : c.kind with
          | gcsToGcs =>
            simp only [hk, pollOperation, readReply, pollSts] at hp
            revert hp
            repeat' split
            all_goals intro hp
            all_goals first
              | (injection hp with hp; subst hp; cases hst; done)
              | (cases hp; done)
              | skip
            next hd _ e he => exact ⟨by simpa using hd, Or.inl (by simp [he])⟩
            next hd _ he hs => exact ⟨by simpa using hd, Or.inr ⟨rfl, hs⟩⟩
          | lustreToGcs =>
            rw [hk] at hp
            obtain ⟨h1, h2⟩ := hl res hp hst
            exact ⟨h1, Or.inl h2⟩
          | gcsToLustre =>
            rw [hk] at hp
            obtain ⟨h1, h2⟩ := hl res hp hst
            exact ⟨h1, Or.inl h2⟩

/-- C127: and if the service says so, by a reply with no key of the status, the job fails. -/
theorem C127_fails (c : Client) (op : Str) (j : Run) (r : Reply) (hj : Underway c op j) (hh : Harmless r)
    (h : SaysFailed c.kind r) : (pollJob j r).state = .failed := by
  have hres : ∃ res, pollOperation c.kind r = .ok res ∧ res.status = .failed := by
    cases r with
    | unreachable => exact h.elim
    | code n => exact h.elim
    | garbled => exact h.elim
    | body b =>
      obtain ⟨h1, h2⟩ := h
      cases he : b.error with
      | some e =>
        cases hk : c.kind with
        | gcsToGcs => exact ⟨_, by simp only [pollOperation, readReply, pollSts, h1, he]; rfl, rfl⟩
        | lustreToGcs => exact ⟨_, by simp only [pollOperation, readReply, pollLustre, h1, he]; rfl, rfl⟩
        | gcsToLustre => exact ⟨_, by simp only [pollOperation, readReply, pollLustre, h1, he]; rfl, rfl⟩
      | none =>
        rcases h2 with h2 | ⟨hk, h2⟩
        · exact absurd he h2
        · exact ⟨_, by simp only [hk, pollOperation, readReply, pollSts, h1, he, if_neg h2]; rfl, rfl⟩
  obtain ⟨res, hp, hst⟩ := hres
  obtain ⟨d, hd⟩ := roundTrip_some (typed_update hp hh hj.typed)
  rw [hst] at hd
  unfold pollJob
  rw [if_neg (by simp [hj.state]), hj.saved.req]
  simp only [client_saved hj.saved, hp, hd, hst, failJob]

/-- C127: a service that does not answer, or answers with an error code, changes nothing: the job stays
under way and keeps its status. -/
theorem C127_transient (c : Client) (op : Str) (j : Run) (r : Reply) (hj : Underway c op j)
    (hr : r = .unreachable ∨ ∃ n, r = .code n) :
    (pollJob j r).state = .processing ∧ (pollJob j r).status = j.status := by
  unfold pollJob
  rw [if_neg (by simp [hj.state]), hj.saved.req]
  simp only [client_saved hj.saved]
  rcases hr with rfl | ⟨n, rfl⟩ <;> exact ⟨hj.state, rfl⟩

theorem typed_roundTrip {d d' : Status} (hd : Typed d) (h : roundTrip d = some d') : Typed d' := by
  unfold roundTrip at h
  split at h
  · cases h
    refine ⟨fun k hk => ?_, fun k hk => ?_⟩
    · simp only [hk, if_true]
      have := hd.text k hk
      cases hv : d k with
      | none => rfl
      | some v =>
        rw [hv] at this
        cases v with
        | text s => cases s <;> rfl
        | _ => first | rfl | (simp [textOk] at this)
    · have hnt : k ∉ textKeys := by revert k; decide
      simp only [hnt, if_false, hk, if_true]
      have := hd.int k hk
      cases hv : d k with
      | none => rfl
      | some v =>
        rw [hv] at this
        cases v with
        | int i => simp only [intOut]; split <;> rfl
        | numeral i => simp only [intOut]; split <;> rfl
        | _ => first | rfl | (simp [intOk] at this)
  · cases h

/-- C127: an operation still going on leaves the job under way, with the same operation. -/
theorem C127_in_progress (c : Client) (op : Str) (j : Run) (b : Body) (hj : Underway c op j) (ho : op ≠ [])
    (hh : Harmless (.body b)) (hb : b.done = false) (hn : ¬ Unreadable c.kind (.body b)) :
    Underway c op (pollJob j (.body b)) := by
  cases hp : pollOperation c.kind (.body b) with
  | error e =>
    have hun : e = .other := by
      cases e with
      | other => rfl
      | value =>
        exfalso
        have hf : (pollJob j (.body b)).state = .failed := by
          unfold pollJob
          rw [if_neg (by simp [hj.state]), hj.saved.req]
          simp only [client_saved hj.saved, hp, failJob]
        rcases C127_failed c op j _ hj hf with h | h
        · rw [h.1] at hb; cases hb
        · exact hn h
    subst hun
    have : pollJob j (.body b) = { j with polled := j.polled ++ [(c.kind, .text op)] } := by
      unfold pollJob
      rw [if_neg (by simp [hj.state]), hj.saved.req]
      simp only [client_saved hj.saved, hp]
    rw [this]
    exact ⟨hj.state, hj.saved, hj.typed⟩
  | ok res =>
    have hst : res.status = .inProgress := by
      cases hk : c.kind with
      | gcsToGcs =>
        simp only [hk, pollOperation, readReply, pollSts, hb, Bool.not_false, if_true] at hp
        revert hp
        cases toInt b.sent with
        | error e => intro hp; cases hp
        | ok n => cases toInt b.found with
          | error e => intro hp; cases hp
          | ok m => intro hp; injection hp with hp; subst hp; rfl
      | lustreToGcs =>
        simp only [hk, pollOperation, readReply, pollLustre, hb] at hp
        injection hp with hp; subst hp; rfl
      | gcsToLustre =>
        simp only [hk, pollOperation, readReply, pollLustre, hb] at hp
        injection hp with hp; subst hp; rfl
    have ht := typed_update hp hh hj.typed
    obtain ⟨d, hd⟩ := roundTrip_some ht
    have hd2 := hd
    rw [hst] at hd2
    have hh' := harmless_details hp hh
    have hs := saved_update hj.saved ho (fun e he => ⟨hh' _ (by decide) e he, hh' _ (by decide) e he, hh' _ (by decide) e he⟩) hd
    have : pollJob j (.body b) = { j with polled := j.polled ++ [(c.kind, .text op)], status := d } := by
      unfold pollJob
      rw [if_neg (by simp [hj.state]), hj.saved.req]
      simp only [client_saved hj.saved, hp, hd2, hst]
    rw [this]
    exact ⟨hj.state, hs, typed_roundTrip ht hd⟩

/-- C127: a copy just requested is under way. -/
theorem C127_requested (src dst : Backend) (rid source target op : Str) (c : Client)
    (hc : determineClient src dst = .ok c) (ho : op ≠ []) :
    Underway c op (run src dst rid source target [.acquire (.started op)]) := by
  have e : run src dst rid source target [.acquire (.started op)] =
      { fresh with sent := [request c rid source target], status := savedStatus c op } := by
    simp [run, step, processJob, fresh, hc, Status.empty]
  rw [e]
  refine ⟨rfl, saved_savedStatus hc ho, ⟨fun k hk => ?_, fun k hk => ?_⟩⟩
  · have : ∀ v, textOk v = true → textOk (textOut v) = true := by
      intro v h
      cases v with
      | none => rfl
      | some v =>
        cases v with
        | text s => cases s <;> rfl
        | _ => first | rfl | exact h
    simp only [savedStatus]
    apply this
    cases c.zone with
    | none => simp only [Status.put]; repeat' split
              all_goals rfl
    | some z =>
      dsimp only
      split
      all_goals simp only [Status.put]
      all_goals repeat' split
      all_goals rfl
  · have h4 : k ≠ "request_id" ∧ k ≠ "status" ∧ k ≠ "client_type" ∧ k ≠ "zone" := by revert k; decide
    simp only [savedStatus]
    cases c.zone with
    | none => simp [Status.put, h4.1, h4.2.1, h4.2.2.1, Status.empty, textOut, intOk]
    | some z => by_cases hz : z = [] <;> simp [hz, Status.put, h4.1, h4.2.1, h4.2.2.1, h4.2.2.2, Status.empty, textOut, intOk]

/-- C127: the bytes a transfer between buckets reports are in the status afterwards (zero is not
written). -/
theorem C127_progress (c : Client) (op : Str) (j : Run) (b : Body) (s f : Int) (hj : Underway c op j)
    (hk : c.kind = .gcsToGcs) (hb : b.done = false) (hs : b.sent = some (.int s) ∨ b.sent = some (.numeral s))
    (hf : b.found = some (.int f) ∨ b.found = some (.numeral f)) :
    (pollJob j (.body b)).status "bytes_copied" = (if s = 0 then none else some (.int s)) ∧
    (pollJob j (.body b)).status "total_bytes" = (if f = 0 then none else some (.int f)) := by
  have h1 : toInt b.sent = .ok s := by rcases hs with h | h <;> rw [h] <;> rfl
  have h2 : toInt b.found = .ok f := by rcases hf with h | h <;> rw [h] <;> rfl
  have hp : pollOperation c.kind (.body b) = .ok ⟨.inProgress, [("bytes_copied", .int s), ("total_bytes", .int f)]⟩ := by
    simp [hk, pollOperation, readReply, pollSts, hb, h1, h2]
  have ht : Typed (addDetails (j.status.put "status" (.text (OpStatus.value .inProgress)))
      [("bytes_copied", .int s), ("total_bytes", .int f)]) := by
    refine ⟨fun key hkey => ?_, fun key hkey => ?_⟩
    · have h3 : key ≠ "bytes_copied" ∧ key ≠ "total_bytes" := by revert key; decide
      simp only [addDetails, Status.put, if_neg h3.1, if_neg h3.2, (by decide : ("bytes_copied" : String) ≠ "error"),
        (by decide : ("total_bytes" : String) ≠ "error"), if_false]
      split
      · rfl
      · exact hj.typed.text key hkey
    · simp only [addDetails, (by decide : ("bytes_copied" : String) ≠ "error"),
        (by decide : ("total_bytes" : String) ≠ "error"), if_false, Status.put]
      split
      · rfl
      · split
        · rfl
        · have : key ≠ "status" := by revert key; decide
          rw [if_neg this]; exact hj.typed.int key hkey
  obtain ⟨d, hd⟩ := roundTrip_some ht
  have e : (pollJob j (.body b)).status = d := by
    unfold pollJob
    rw [if_neg (by simp [hj.state]), hj.saved.req]
    simp only [client_saved hj.saved, hp, hd]
  rw [e]
  unfold roundTrip at hd
  split at hd
  · cases hd
    constructor
    · simp [textKeys, intKeys, addDetails, Status.put, intOut]
    · simp [textKeys, intKeys, addDetails, Status.put, intOut]
  · cases hd

/-! ## Findings about the outcome -/

/-- C127 (finding): a reply that is no JSON (of a proxy, or cut off) fails the job for good, although the
copy goes on; no reply at all, or an error code, is tried again. -/
theorem C127_garbled_fails (c : Client) (op : Str) (j : Run) (hj : Underway c op j) :
    (pollJob j .garbled).state = .failed ∧ (pollJob j .unreachable).state = .processing := by
  refine ⟨?_, (C127_transient c op j _ hj (Or.inl rfl)).1⟩
  unfold pollJob
  rw [if_neg (by simp [hj.state]), hj.saved.req]
  simp only [client_saved hj.saved, pollOperation, readReply, failJob]

/-- C127 (finding): any exception while requesting the copy fails the job for good, also one raised
after the service took the request (a lost reply): the request was sent, and nothing polls it. -/
theorem C127_lost_reply_fails (src dst : Backend) (rid source target : Str) (c : Client)
    (hc : determineClient src dst = .ok c) (evs : List Event) :
    let j := run src dst rid source target (.acquire .raises :: evs)
    j.state = .failed ∧ j.sent = [request c rid source target] ∧ j.polled = [] := by
  have e : run src dst rid source target (.acquire .raises :: evs) =
      evs.foldl (step src dst rid source target)
        (failJob { fresh with sent := [request c rid source target] } (Status.empty.put "status" (.text (OpStatus.value .failed)))) := by
    simp [run, step, processJob, fresh, hc, Status.empty]
  have gen : ∀ (evs : List Event) (j : Run), j.state = .failed → evs.foldl (step src dst rid source target) j = j := by
    intro evs
    induction evs with
    | nil => intro j _; rfl
    | cons e es ih =>
      intro j hj
      have : step src dst rid source target j e = j := by
        cases e <;> simp [step, processJob, pollJob, hj]
      rw [List.foldl_cons, this]
      exact ih j hj
  intro j
  have : j = _ := e
  rw [this, gen evs _ rfl]
  exact ⟨rfl, rfl, rfl⟩

/-- C127 (finding): a worker that dies before saving the operation lets the next one request the copy a
second time. -/
theorem C127_twice_fails (src dst : Backend) (rid source target op : Str) (c : Client)
    (hc : determineClient src dst = .ok c) :
    (run src dst rid source target [.acquire .dies, .acquire (.started op)]).sent =
      [request c rid source target, request c rid source target] := by
  simp [run, step, processJob, fresh, hc, Status.empty]

/-- C127 (finding): a reply of Lustre whose metadata has a key `request_id` replaces the operation: the
next poll asks for another one. -/
theorem C127_detail_replaces_fails (c : Client) (op : Str) (j : Run) (x : Str) (hj : Underway c op j)
    (hk : c.kind ≠ .gcsToGcs) (hx : x ≠ []) :
    let j' := pollJob j (.body { metadata := [("request_id", .text x)] })
    (pollJob j' .unreachable).polled = j.polled ++ [(c.kind, .text op), (c.kind, .text x)] := by
  have hp : pollOperation c.kind (.body { metadata := [("request_id", .text x)] }) =
      .ok ⟨.inProgress, [("request_id", .text x)]⟩ := by
    cases h : c.kind with
    | gcsToGcs => exact absurd h hk
    | lustreToGcs => rfl
    | gcsToLustre => rfl
  have ht : Typed (addDetails (j.status.put "status" (.text (OpStatus.value .inProgress))) [("request_id", .text x)]) := by
    refine ⟨fun key hkey => ?_, fun key hkey => ?_⟩
    · simp only [addDetails, (by decide : ("request_id" : String) ≠ "error"), if_false, Status.put]
      split
      · rfl
      · split
        · rfl
        · exact hj.typed.text key hkey
    · have h3 : key ≠ "request_id" ∧ key ≠ "status" := by revert key; decide
      simp only [addDetails, (by decide : ("request_id" : String) ≠ "error"), if_false, Status.put, if_neg h3.1, if_neg h3.2]
      exact hj.typed.int key hkey
  obtain ⟨d, hd⟩ := roundTrip_some ht
  have e : pollJob j (.body { metadata := [("request_id", .text x)] }) =
      { j with polled := j.polled ++ [(c.kind, .text op)], status := d } := by
    unfold pollJob
    rw [if_neg (by simp [hj.state]), hj.saved.req]
    simp only [client_saved hj.saved, hp, hd]
  have hs : Saved c x d := by
    obtain ⟨z, h1, h2⟩ := hj.saved.zone hk
    refine ⟨?_, ?_, fun _ => ⟨z, h1, ?_⟩⟩
    · rw [roundTrip_text hd (by decide)]; simp [addDetails, Status.put, textOut_text hx]
    · rw [roundTrip_text hd (by decide)]; simp [addDetails, Status.put, hj.saved.type, textOut_text (name_ne _)]
    · rw [roundTrip_text hd (by decide)]; simp [addDetails, Status.put, h2, textOut_text h1]
  intro j'
  have : j' = _ := e
  rw [this]
  unfold pollJob
  rw [if_neg (by simp [hj.state])]
  simp only [hs.req, client_saved hs, pollOperation, readReply]
  simp

/-- C127 (finding): an operation that ended well, with a response that uses a key of the status for a
value of another type, is never completed: every such poll leaves the job as it is. -/
theorem C127_wrong_type_fails (c : Client) (op : Str) (j : Run) (n : Nat) (hj : Underway c op j)
    (hk : c.kind ≠ .gcsToGcs) :
    let r : Reply := .body { done := true, response := [("status", .mixed n)] }
    SaysDone c.kind r ∧ (pollJob j r).state = .processing ∧ (pollJob j r).status = j.status := by
  have hp : pollOperation c.kind (.body { done := true, response := [("status", .mixed n)] }) =
      .ok ⟨.success, [("status", .mixed n)]⟩ := by
    cases h : c.kind with
    | gcsToGcs => exact absurd h hk
    | lustreToGcs => rfl
    | gcsToLustre => rfl
  have hr : roundTrip (addDetails (j.status.put "status" (.text (OpStatus.value .success))) [("status", .mixed n)]) = none := by
    simp [roundTrip, addDetails, textKeys, Status.put, textOk]
  intro r
  refine ⟨⟨rfl, rfl, fun h => absurd h hk⟩, ?_⟩
  have e : pollJob j r = { j with polled := j.polled ++ [(c.kind, .text op)] } := by
    unfold pollJob
    rw [if_neg (by simp [hj.state]), hj.saved.req]
    simp only [client_saved hj.saved, r, hp, hr]
  rw [e]
  exact ⟨hj.state, rfl⟩

/-! ## The hypotheses are met -/

/-- A bucket and a Lustre file system. -/
def exBucket : Backend := { btype := .gcs, pfx := "gs://b/ck".toList }
/-- See above. -/
def exLustre : Backend := { btype := .lustre, zone := some "us-east1-b".toList, pfx := "/mnt/l/".toList }

/-- An import: requested, polled twice by two workers (once without an answer), completed; the request
names the path inside the file system. -/
theorem C127_nonvacuous :
    let evs : List Event := [.acquire (.started "op1".toList), .poll (.body { metadata := [("target", .text "x".toList)] }),
      .acquire (.started "op2".toList), .poll .unreachable, .poll (.body { done := true })]
    let j := run exBucket exLustre "r1".toList "gs://b/ck/a/u1".toList (storagePath exLustre "a".toList "u1".toList) evs
    (∀ e ∈ evs, Clean e) ∧ (∀ e ∈ evs, Saves e) ∧ j.state = .completed ∧
    j.sent = [.lustreImport "us-east1-b".toList "lustre-us-east1-b".toList "gs://b/ck/a/u1/".toList "/a/u1".toList "r1".toList] ∧
    j.polled = List.replicate 3 (.gcsToLustre, .text "op1".toList) ∧
    PlainName "b".toList "ck/a".toList := by
  refine ⟨?_, ?_, by decide +kernel, by decide +kernel, by decide +kernel, ?_⟩
  · intro e he
    simp only [List.mem_cons, List.not_mem_nil, or_false] at he
    rcases he with rfl | rfl | rfl | rfl | rfl <;> first | trivial | (intro e he; simp at he) | skip
    subst he; decide
  · intro e he
    simp only [List.mem_cons, List.not_mem_nil, or_false] at he
    rcases he with rfl | rfl | rfl | rfl | rfl <;> first | trivial | (show _ ≠ _; decide)
  · refine ⟨by decide, ?_⟩
    rintro ⟨s, t, h⟩
    have := congrArg (fun l => ':' ∈ l) h
    simp at this

end Verif.Tiering.Transfer
