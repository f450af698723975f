import Verif.Store.Model
import Mathlib.Logic.Function.Basic

/-
C87: files that go in and out of a persistent store (`download`, `upload`), and table files read and
written through it. Models mplang/runtime/object_store.py:219-331 and
mplang/backends/table_impl.py:811-834, 934-964 (the `interpreter.store` branches).

Simplifications:
* a file system gives each absolute path (a list of components) a regular file, a symbolic link or a
  directory; parent directories can always be created, and no component of a path but the last is a link.
* the operating system follows at most 40 links in a row (`maxLinks`).
* `same a b` is what comparing sizes and MD5 digests of two contents answers.
* `shutil.move` renames the entry itself: a link is moved as a link.
-/
namespace Verif.Store.Transfer

open Verif.Store

/-- The exceptions of this code (object_store.py:183-184, 257-277, 302-322). -/
inductive TErr
  | fileNotFound
  | fileExists
  | traversal
  | isDirectory
  | tooManyLinks
  deriving DecidableEq, Repr

/-- What stands at a path. -/
inductive Entry (C : Type)
  | file (c : C)
  | link (target : Path)
  | dir
  deriving DecidableEq

/-- A file system. -/
abbrev Disk (C : Type) := Path → Option (Entry C)

variable {C : Type}

/-- Following symbolic links, at most as many as the fuel allows. -/
def follow (d : Disk C) : Nat → Path → Option Path
  | 0, _ => none
  | f + 1, p =>
    match d p with
    | some (.link q) => follow d f q
    | _ => some p

/-- Linux gives up (ELOOP) after 40 links. -/
def maxLinks : Nat := 41

/-- The entry reached from a path through its links. -/
def stat (d : Disk C) (p : Path) : Option (Entry C) := (follow d maxLinks p).bind d

/-- `open(p).read()`: the contents of the regular file reached. -/
def content (d : Disk C) (p : Path) : Option C :=
  match stat d p with
  | some (.file c) => some c
  | _ => none

/-- `os.path.exists`. -/
def pathExists (d : Disk C) (p : Path) : Bool := (stat d p).isSome

/-- `os.path.isdir(p) and not os.path.islink(p)` (object_store.py:274, 310). -/
def isRealDir (d : Disk C) (p : Path) : Bool :=
  match d p with
  | some .dir => true
  | _ => false

/-- `os.path.islink`. -/
def isLink (d : Disk C) (p : Path) : Bool :=
  match d p with
  | some (.link _) => true
  | _ => false

/-- `FileSystemBackend._same_file_content` (object_store.py:226-237): the same file, or the same size and
digest; False when either cannot be reached or read. -/
def sameContent (same : C → C → Bool) (d : Disk C) (a b : Path) : Bool :=
  match follow d maxLinks a, follow d maxLinks b with
  | some p, some q =>
    match d p, d q with
    | some x, some y =>
      if p = q then true
      else match x, y with
        | .file c, .file c' => same c c'
        | _, _ => false
    | _, _ => false
  | _, _ => false

/-- The source of a download (object_store.py:255-271). -/
def downloadSource (c : Conf) (d : Disk C) (key : Str) : Except TErr Path :=
  if key.head? = some '/' then
    if pathExists d (comps (abspath c.cwd key)) then .ok (comps (abspath c.cwd key)) else .error .fileNotFound
  else
    match resolveKey c key with
    | .error _ => .error .traversal
    | .ok s =>
      if pathExists d (comps s) then .ok (comps s)
      else if pathExists d (comps (abspath c.cwd key)) then .ok (comps (abspath c.cwd key))
      else .error .fileNotFound

/-- `FileSystemBackend.download` (object_store.py:239-282) once the source is known. -/
def place (same : C → C → Bool) (d : Disk C) (src dest : Path) : Disk C × Except TErr Unit :=
  if src = dest then (d, .ok ())
  else if (d dest).isSome then
    if isRealDir d dest then (d, .error .fileExists)
    else if sameContent same d src dest then (d, .ok ())
    else (Function.update d dest (some (.link src)), .ok ())
  else (Function.update d dest (some (.link src)), .ok ())

/-- `FileSystemBackend.download` (object_store.py:239-282). -/
def download (same : C → C → Bool) (c : Conf) (d : Disk C) (key : Str) (dest : Path) : Disk C × Except TErr Unit :=
  match downloadSource c d key with
  | .error e => (d, .error e)
  | .ok src => place same d src dest

/-- `shutil.move`: the entry leaves one path and stands at the other. -/
def move (d : Disk C) (source dst : Path) : Disk C :=
  Function.update (Function.update d dst (d source)) source none

/-- `FileSystemBackend.upload` (object_store.py:284-325) once the destination is known. -/
def deliver (same : C → C → Bool) (d : Disk C) (source dst : Path) : Disk C × Except TErr Unit :=
  if source = dst then (d, .ok ())
  else if (d dst).isSome then
    if isRealDir d dst then (d, .error .fileExists)
    else if sameContent same d source dst then
      if isLink d dst then (move (Function.update d dst none) source dst, .ok ())
      else (Function.update d source none, .ok ())
    else (d, .error .fileExists)
  else (move d source dst, .ok ())

/-- The destination of an upload (object_store.py:304-307). -/
def uploadTarget (c : Conf) (key : Str) : Except TErr Path :=
  if key.head? = some '/' then .ok (comps (abspath c.cwd key))
  else match resolveKey c key with
    | .error _ => .error .traversal
    | .ok s => .ok (comps s)

/-- `FileSystemBackend.upload` (object_store.py:284-325). -/
def upload (same : C → C → Bool) (c : Conf) (d : Disk C) (source : Path) (key : Str) : Disk C × Except TErr Unit :=
  if pathExists d source = false then (d, .error .fileNotFound)
  else match uploadTarget c key with
    | .error e => (d, .error e)
    | .ok dst => deliver same d source dst

/-- `os.path.abspath(os.path.join(".tmp", path))` (table_impl.py:830, 959). -/
def localPath (c : Conf) (path : Str) : Path := comps (abspath c.cwd (join ['.', 't', 'm', 'p'] path))

/-- A writer opened on a path and filled (table_impl.py:933-956): the write goes through links, to the file
they end at. -/
def writeFile (d : Disk C) (p : Path) (x : C) : Disk C × Except TErr Unit :=
  match follow d maxLinks p with
  | none => (d, .error .tooManyLinks)
  | some q =>
    match d q with
    | some .dir => (d, .error .isDirectory)
    | _ => (Function.update d q (some (.file x)), .ok ())

/-- `table.write` with a store (table_impl.py:958-962): write the local file, upload it. -/
def tableWrite (same : C → C → Bool) (c : Conf) (d : Disk C) (path : Str) (x : C) : Disk C × Except TErr Unit :=
  match writeFile d (localPath c path) x with
  | (d', .error e) => (d', .error e)
  | (d', .ok ()) => upload same c d' (localPath c path) path

/-- `table.read` with a store (table_impl.py:811-833): download to the local path; the table is the local
path, read later (`FileTableSource` is lazy). -/
def tableRead (same : C → C → Bool) (c : Conf) (d : Disk C) (path : Str) : Disk C × Except TErr Path :=
  match download same c d path (localPath c path) with
  | (d', .error e) => (d', .error e)
  | (d', .ok ()) => if pathExists d' (localPath c path) then (d', .ok (localPath c path)) else (d', .error .fileNotFound)

end Verif.Store.Transfer
