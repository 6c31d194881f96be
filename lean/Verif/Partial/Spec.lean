import Verif.Partial.Model

/-! # What is said about partial saving -/

namespace Verif.Partial

open Verif.Assoc

/-- A save as programs make them: a tree has no leaf inside a leaf, every leaf is written once, and has
a metadata entry. -/
structure Wf (r : Req) : Prop where
  entries : (keys r.entries).Nodup
  tree : ∀ k ∈ keys r.entries, ∀ k' ∈ keys r.entries, k <+: k' → k = k'
  leaves : (r.procs.flatMap fun p => keys p.2).Nodup
  sub : ∀ p ∈ r.procs, ∀ k ∈ keys p.2, k ∈ keys r.entries
  procs : (keys r.procs).Nodup
  arrays : (keys r.arrays).Nodup
  custom : (keys (r.custom.getD [])).Nodup

/-- The value of the leaf `k` that a reader of the checkpoint directory `d` finds: it reads the merged
database. -/
def leafAt (d : Dir) (k : Key) : Option Nat := d.tree.bind fun t => t.db.bind fun m => Assoc.get m k

/-- The metadata entry of the leaf `k` in the checkpoint directory `d`. -/
def entryAt (d : Dir) (k : Key) : Option Nat := d.tree.bind fun t => t.info.bind fun i => Assoc.get i.entries k

/-- The custom metadata value `k` in the checkpoint directory `d`. -/
def customAt (d : Dir) (k : Nat) : Option Nat := d.ckpt.bind fun c => Assoc.get c k

/-- The save `r` writes the leaf `k` with the value `v`. -/
def Leaf (r : Req) (k : Key) (v : Nat) : Prop := ∃ p ∈ r.procs, (k, v) ∈ p.2

/-- A database of some process in the directory `d` holds the leaf. -/
def Holds (d : Dir) (k : Key) (v : Nat) : Prop := ∃ t, d.tree = some t ∧ ∃ x ∈ t.procs, (k, v) ∈ x.2

/-- The leaf is stored somewhere under the path: in the session, in a pending directory, or in the final
checkpoint. -/
def OnDisk (w : World) (k : Key) (v : Nat) : Prop :=
  (∃ s, w.sess = some s ∧ (Holds s.base k v ∨ ∃ d ∈ s.pend, Holds d.2 k v)) ∨ ∃ d, w.final = some d ∧ Holds d k v

/-- The histories of a path: partial saves and calls of `finalize`, each of which may be interrupted
before any of its storage actions (a save: after `n` of its steps) and may fail.  `rs` are the saves that
reported success.  Every save gets a fresh time and uuid. -/
inductive Reach : World → List Req → Prop
  | init (tmp : Option Dir) : Reach ⟨tmp, none, none⟩ []
  | saved {w w' rs r} (h : Reach w rs) (hw : Wf r) (hf : ∀ s, w.sess = some s → r.id ∉ keys s.pend)
      (hs : save w r = (w', none)) : Reach w' (rs ++ [r])
  | interrupted {w rs r} (h : Reach w rs) (hw : Wf r) (hf : ∀ s, w.sess = some s → r.id ∉ keys s.pend) (n : Nat) :
      Reach (steps w ((saveSteps r).take n)).1 rs
  | finalize {w rs} (h : Reach w rs) (crash : Option Nat) : Reach (finalize w crash).1 rs

end Verif.Partial
