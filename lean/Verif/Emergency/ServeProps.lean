import Verif.Emergency.Serve
import Verif.Emergency.WireProps

/-! C143: serving files to a peer. -/

namespace Verif.Emergency.Wire

/-- Specification: two file systems are alike below a directory. -/
def AlikeBelow (base : List String) (fs fs' : FileSystem) : Prop := ∀ inner, fs (base ++ inner) = fs' (base ++ inner)

/-- Specification: the working directory has no file with a substitute name. -/
def Plain (fs : FileSystem) (cwd : List String) : Prop := fs (cwd ++ ["__INVALID__"]) = none ∧ fs (cwd ++ ["__MISSING__"]) = none

/-- C143: what is sent, for any request, does not depend on files outside the directory that is served. -/
theorem C143_inside_partial (fs fs' : FileSystem) (cwd cwd' base : List String) (rel : Option (List String)) (h : AlikeBelow base fs fs')
    (hp : Plain fs cwd) (hp' : Plain fs' cwd') : serve fs cwd base rel = serve fs' cwd' base rel := by
  unfold serve
  cases hr : rel.bind (safeJoin base) with
  | none => simp only [hp.1, hp'.1]
  | some p =>
    cases rel with
    | none => cases hr
    | some r =>
      obtain ⟨inner, rfl⟩ := C71_path_inside base r p hr
      simp only [h inner, hp.2, hp'.2]

/-- C143: for any request, a file below the directory is sent or the answer is that of a missing file. -/
theorem C143_answer_partial (fs : FileSystem) (cwd base : List String) (rel : Option (List String)) (hp : Plain fs cwd) :
    serve fs cwd base rel = sendFile none ∨ ∃ inner content, fs (base ++ inner) = some content ∧ serve fs cwd base rel = sendFile (some content) := by
  unfold serve
  cases hr : rel.bind (safeJoin base) with
  | none => left; simp only [hp.1]
  | some p =>
    cases rel with
    | none => cases hr
    | some r =>
      obtain ⟨inner, rfl⟩ := C71_path_inside base r p hr
      cases hf : fs (base ++ inner) with
      | none => left; simp only [hf, hp.2]
      | some c => right; exact ⟨inner, c, hf, by simp only [hf]⟩

/-- C143: an ordinary path is answered with the file there; the peer, over a connection that does not break, then has the same file. -/
theorem C143_transfer {J : Type} (js : Json J) (chunk : Nat) (hc : 0 < chunk) (fs : FileSystem) (cwd base rel : List String) (content : Bytes)
    (hr : ∀ c ∈ rel, c ≠ "" ∧ c ≠ "." ∧ c ≠ "..") (hf : fs (base ++ rel) = some content) (hlen : content.length < 2 ^ 64) (hne : content ≠ [])
    (pieces : List Bytes) (hp : ∀ c ∈ pieces, c ≠ []) (hs : pieces.flatten = serve fs cwd base (some rel)) :
    download js chunk pieces = (content.length, some content) := by
  refine C71_download_complete js chunk hc content hlen hne pieces hp ?_
  rw [hs]
  simp only [serve, Option.bind_some, C71_path_accepted base rel hr, hf]

/-- C143: however the path is written and wherever the connection breaks, a download that reports success has written a file that the server has
below its directory. -/
theorem C143_received_partial {J : Type} (js : Json J) (chunk : Nat) (hc : 0 < chunk) (fs : FileSystem) (cwd base : List String)
    (rel : Option (List String)) (hp : Plain fs cwd) (hlen : ∀ p c, fs p = some c → c.length < 2 ^ 64) (cut : Nat) (pieces : List Bytes)
    (hn : ∀ c ∈ pieces, c ≠ []) (hs : pieces.flatten = (serve fs cwd base rel).take cut) (hok : (download js chunk pieces).1 ≠ 0) :
    ∃ inner content, fs (base ++ inner) = some content ∧ download js chunk pieces = (content.length, some content) := by
  rcases C143_answer_partial fs cwd base rel hp with h | ⟨inner, content, hf, h⟩
  · rw [h] at hs
    have e : sendFile none = sendFile (some []) := by simp [sendFile]
    rw [e] at hs
    exact absurd (congrArg Prod.fst (download_empty js chunk cut pieces hn hs)) hok
  · rw [h] at hs
    exact ⟨inner, content, hf, C71_download_sound js chunk hc content (hlen _ _ hf) cut pieces hn hs hok⟩

/-- C143: a request without a path, with an empty or absolute path, or for a path that leads outside, is answered as for a missing file, whatever
is there. -/
theorem C143_refused_partial (fs : FileSystem) (cwd base : List String) (rel : Option (List String)) (hp : Plain fs cwd)
    (h : rel = none ∨ (∃ r, rel = some ("" :: r)) ∨ ∃ r, rel = some r ∧ ¬ base <+: walk base r) : serve fs cwd base rel = sendFile none := by
  have hn : rel.bind (safeJoin base) = none := by
    rcases h with rfl | ⟨r, rfl⟩ | ⟨r, rfl, h⟩
    · rfl
    · exact C71_path_absolute base r
    · have hb : base.isPrefixOf (walk base r) = false := by
        cases hb : base.isPrefixOf (walk base r) with
        | false => rfl
        | true => exact absurd (List.isPrefixOf_iff_prefix.1 hb) h
      simp [safeJoin, hb]
  unfold serve
  simp only [hn, hp.1]

/-- A file system with a file in the directory and one outside. -/
def sample : FileSystem := fun p => if p = ["ckpt", "1", "a"] then some [7, 8] else if p = ["secret"] then some [9] else none

theorem C143_nonvacuous :
    Plain sample ["home"] ∧ serve sample ["home"] ["ckpt"] (some ["1", ".", "a"]) = sendFile (some [7, 8]) ∧
    serve sample ["home"] ["ckpt"] (some ["..", "secret"]) = sendFile none ∧ sendFile none ≠ sendFile (some [7, 8]) ∧
    ¬ ["ckpt"] <+: walk ["ckpt"] ["..", "secret"] :=
  ⟨⟨by decide, by decide⟩, by decide, by decide, by decide, by decide⟩

/-- C143 (finding): refused requests are answered with the file `__INVALID__` of the working directory, if there is one, so the answer may hold a
file from outside the directory. -/
theorem C143_substitute_fails :
    ¬ ∀ (fs fs' : FileSystem) (cwd base : List String) (rel : Option (List String)), AlikeBelow base fs fs' →
      serve fs cwd base rel = serve fs' cwd base rel := by
  intro h
  have := h (fun p => if p = ["home", "__INVALID__"] then some [9] else none) (fun _ => none) ["home"] ["ckpt"] (some ["..", "x"])
    (by intro inner; simp)
  exact absurd this (by decide)

end Verif.Emergency.Wire
