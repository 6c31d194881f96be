import Verif.Emergency.Wire

/-!
# Serving files to a peer

`handle_download` of checkpoint/orbax/checkpoint/experimental/emergency/p2p/service.py:236-258.
A file system gives the contents of regular files by absolute path, as components; there are no symbolic links.  Files do not change during a
request, and a directory with one of the two substitute names is left out.
-/

namespace Verif.Emergency.Wire

/-- The contents of the regular files. -/
abbrev FileSystem := List String → Option Bytes

/-- `handle_download`, service.py:236-258; `cwd`: the working directory of the server, from which the substitute names are resolved;
`rel`: the requested path, if the request has one.  The result is what is sent. -/
def serve (fs : FileSystem) (cwd base : List String) (rel : Option (List String)) : Bytes :=
  match rel.bind (safeJoin base) with
  | none => sendFile (fs (cwd ++ ["__INVALID__"]))
  | some p =>
    match fs p with
    | some content => sendFile (some content)
    | none => sendFile (fs (cwd ++ ["__MISSING__"]))

end Verif.Emergency.Wire
