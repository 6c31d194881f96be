import Verif.Assoc
import Verif.NameFormat.Model

/-!
# Model of snapshots

Models `/repo/checkpoint/orbax/checkpoint/_src/path/snapshot/snapshot.py` (`_DefaultSnapshot`),
`_src/path/utils.py` (`recursively_copy_files`) and, from `checkpoint_utils.py`, `_snapshot_checkpoint`
and `_release_snapshot`.

A checkpoint is a directory tree whose files have opaque contents (numbers).  The primary host is
modelled (the others do nothing).  Not modelled: `skip_paths` (no caller uses it), `set_immutable`
(ignored by the default implementation), symbolic links, and files changing while they are copied.
-/

namespace Verif.Snapshot

open Verif.Assoc

abbrev Name := NameFormat.Name
/-- A path below some directory. -/
abbrev Path := List Name

mutual
/-- A directory: its files and its directories. -/
inductive Tree
  | mk (files : List (Name × Nat)) (dirs : Forest)
inductive Forest
  | nil
  | cons (n : Name) (t : Tree) (rest : Forest)
end

/-- What can be at a path. -/
inductive Kind | dir | file (c : Nat)
deriving DecidableEq, Repr

mutual
/-- The storage actions of `recursively_copy_files`, utils.py:57-93, in their order: `os.walk` visits a
directory before its subdirectories; the directory is made, then its files are copied.  An action is the
path made and what is made there. -/
def walk : Tree → Path → List (Path × Kind)
  | .mk fs ds, p => (p, .dir) :: (fs.map fun f => (p ++ [f.1], .file f.2)) ++ walkF ds p
def walkF : Forest → Path → List (Path × Kind)
  | .nil, _ => []
  | .cons n t r, p => walk t (p ++ [n]) ++ walkF r p
end

/-- Effect of one action on the snapshot: `mkdir(parents=True, exist_ok=True)`, utils.py:84, or
`copy`, 93. -/
def exec (fs : List (Path × Kind)) (a : Path × Kind) : List (Path × Kind) :=
  match a.2 with
  | .dir => match get fs a.1 with
    | none => put fs a.1 .dir
    | some _ => fs
  | .file c => put fs a.1 (.file c)

def run (fs : List (Path × Kind)) (as : List (Path × Kind)) : List (Path × Kind) := as.foldl exec fs

/-- The checkpoint directory and the snapshot directory: names of steps and of snapshots. -/
structure World where
  steps : List (Name × Tree)
  snaps : List (Name × List (Path × Kind))

/-- What happens while a snapshot is taken: nothing, the process dies before the action with this number,
or the checkpoint is removed (by the trainer's garbage collection) before it. -/
inductive Env | calm | crash (n : Nat) | gone (n : Nat)
deriving DecidableEq, Repr

inductive Outcome | ok | raised | died
deriving DecidableEq, Repr

/-- A snapshot after the given actions; nothing exists before the first. -/
def partialCopy (snaps : List (Name × List (Path × Kind))) (name : Name) (as : List (Path × Kind)) :
    List (Name × List (Path × Kind)) :=
  if as.isEmpty then snaps else put snaps name (run [] as)

/-- Is the error of the next action raised?  Copying a file that is gone raises `FileNotFoundError`;
`os.walk` skips a directory that is gone without an error. -/
def raises : Option (Path × Kind) → Bool
  | some (_, .file _) => true
  | _ => false

/-- `_snapshot_checkpoint`, checkpoint_utils.py:83-125, for the name `found` that `find_step` returned
(`none`: it raised); `ignore` is `ignore_file_not_found_error`. -/
def snapshot (w : World) (found : Option Name) (env : Env) (ignore : Bool) : World × Outcome :=
  match found with
  | none => (w, .raised)
  | some name =>
    match get w.steps name with
    | none => (w, .raised)
    | some t =>
      if (get w.snaps name).isSome then (w, .ok)
      else match env with
        | .calm => ({ w with snaps := partialCopy w.snaps name (walk t []) }, .ok)
        | .crash n => ({ w with snaps := partialCopy w.snaps name ((walk t []).take n) }, .died)
        | .gone n => ({ steps := del w.steps name, snaps := partialCopy w.snaps name ((walk t []).take n) },
            if raises (walk t [])[n]? && !ignore then .raised else .ok)

/-- `_release_snapshot`, checkpoint_utils.py:128-150, with the name `build_name(step)`;
`release_snapshot`, snapshot.py:107-112.  `crash`: the process dies after removing that many entries
(children before their directories). -/
def release (w : World) (built : Name) (ignore : Bool) (crash : Option Nat) : World × Outcome :=
  match get w.snaps built with
  | none => (w, if ignore then .ok else .raised)
  | some fs => match crash with
    | none => ({ w with snaps := del w.snaps built }, .ok)
    | some n =>
      let fs' := fs.take (fs.length - n)
      ({ w with snaps := if fs'.isEmpty then del w.snaps built else put w.snaps built fs' }, .died)

/-! ### Replacing the source -/

/-- The three names involved in `replace_source`. -/
structure Names where
  source : Option Tree
  snap : Option Tree
  recovery : Option Tree

inductive RAct | toRecovery | toSource | rmRecovery
deriving DecidableEq, Repr

/-- Effect of a rename (of something that exists) or removal. -/
def rexec (s : Names) : RAct → Option Names
  | .toRecovery => match s.source with
    | none => none
    | some t => some { s with source := none, recovery := some t }
  | .toSource => match s.snap with
    | none => none
    | some t => some { s with snap := none, source := some t }
  | .rmRecovery => some { s with recovery := none }

def rrun (s : Names) : List RAct → Names × Bool
  | [] => (s, true)
  | a :: as => match rexec s a with
    | none => (s, false)
    | some s' => rrun s' as

/-- `_DefaultSnapshot.replace_source`, snapshot.py:115-132; `n` actions are carried out. -/
def replaceSource (s : Names) (n : Nat) : Names × Bool := rrun s ([.toRecovery, .toSource, .rmRecovery].take n)

end Verif.Snapshot
