/-!
# The object store (runtime/object_store.py, backends/store_impl.py)

Python strings are lists of characters.  The persistent backend modelled is `FileSystemBackend` (scheme `fs`).
Simplifications: no symbolic links on the file system, POSIX path syntax, a root path that does not begin with exactly
two slashes, and pickled values are represented by the value itself (a file whose pickling was cut short holds
`none`).
-/
namespace Verif.Store

abbrev Str := List Char
abbrev Path := List Str

/-! ### `os.path` on POSIX -/

/-- `str.split("/")` -/
def splitSlash : Str → List Str
  | [] => [[]]
  | c :: cs => if c = '/' then [] :: splitSlash cs else
    match splitSlash cs with
    | [] => [[c]]
    | h :: t => (c :: h) :: t

/-- One component in `posixpath.normpath` for an absolute path. -/
def normStep (acc : Path) (c : Str) : Path :=
  if c = [] ∨ c = ['.'] then acc
  else if c = ['.', '.'] then acc.dropLast
  else acc ++ [c]

/-- The components of an absolute path after `posixpath.normpath`; also how the kernel walks the path when there are no
symbolic links. -/
def comps (p : Str) : Path := (splitSlash p).foldl normStep []

/-- A list of components as an absolute path string. -/
def render : Path → Str
  | [] => ['/']
  | cs => cs.flatMap (fun c => '/' :: c)

/-- `posixpath.join(a, b)` -/
def join (a b : Str) : Str :=
  if b.head? = some '/' then b
  else if a = [] ∨ a.getLast? = some '/' then a ++ b
  else a ++ '/' :: b

/-- `posixpath.abspath` in a process whose working directory is `cwd`. -/
def abspath (cwd p : Str) : Str := render (comps (if p.head? = some '/' then p else join cwd p))

/-- `str.startswith` -/
def startsWith (p root : Str) : Bool := root.isPrefixOf p

/-! ### Errors and backends -/

/-- The exceptions these functions raise. -/
inductive Err where
  | invalidUri        -- ValueError, missing "://"
  | unknownScheme     -- ValueError
  | noPersistent      -- RuntimeError
  | traversal         -- ValueError from `_resolve_key`
  | keyError          -- KeyError
  | isDirectory       -- IsADirectoryError
  | notDirectory      -- FileExistsError / NotADirectoryError from `makedirs`
  | corrupt           -- EOFError / UnpicklingError from `pickle.load`
  | unpicklable       -- whatever `pickle.dump` raised
  deriving DecidableEq

/-- python `dict` lookup -/
def lookup {K A : Type} [DecidableEq K] (k : K) : List (K × A) → Option A
  | [] => none
  | (a, v) :: l => if a = k then some v else lookup k l
/-- python `d[k] = v` -/
def assign {K A : Type} [DecidableEq K] (k : K) (v : A) : List (K × A) → List (K × A)
  | [] => [(k, v)]
  | (a, w) :: l => if a = k then (a, v) :: l else (a, w) :: assign k v l
/-- python `d.pop(k, None)` -/
def remove {K A : Type} [DecidableEq K] (k : K) : List (K × A) → List (K × A)
  | [] => []
  | (a, w) :: l => if a = k then l else (a, w) :: remove k l

/-- A node of the file system. -/
inductive Node (V : Type) where
  | dir
  | file (content : Option V)

/-- The file system below `/`. -/
abbrev FS (V : Type) := List (Path × Node V)

/-- What is at a path; `/` itself is a directory. -/
def look {V : Type} (fs : FS V) (p : Path) : Option (Node V) := if p = [] then some .dir else lookup p fs

/-- `os.makedirs(_, exist_ok=True)`, given the directories to create from the top; the flag says whether it returned. -/
def mkdirs {V : Type} (fs : FS V) : List Path → FS V × Bool
  | [] => (fs, true)
  | q :: qs => match look fs q with
    | some (.file _) => (fs, false)
    | some .dir => mkdirs fs qs
    | none => mkdirs (assign q .dir fs) qs

/-- The proper ancestors of a path, from the top. -/
def ancestors (p : Path) : List Path := (List.range p.length).map p.take

/-- The process-wide facts: the working directory and the backend's `root_path` argument. -/
structure Conf where
  cwd : Str
  rootPath : Str

/-- object_store.py:177-185 `_resolve_key` -/
def resolveKey (c : Conf) (key : Str) : Except Err Str :=
  let root := abspath c.cwd c.rootPath
  let clean := key.dropWhile (· = '/')
  let path := abspath c.cwd (join root clean)
  if startsWith path root then .ok path else .error .traversal

variable {V : Type}

/-- object_store.py:187-191.  `dumpOk` says whether `pickle.dump` completes; the file was truncated before it starts. -/
def fsPut (c : Conf) (fs : FS V) (key : Str) (v : V) (dumpOk : Bool) : FS V × Except Err Unit :=
  match resolveKey c key with
  | .error e => (fs, .error e)
  | .ok path =>
    let p := comps path
    match mkdirs fs (ancestors p) with
    | (fs', false) => (fs', .error .notDirectory)
    | (fs', true) => match look fs' p with
      | some .dir => (fs', .error .isDirectory)
      | _ => (assign p (.file (if dumpOk then some v else none)) fs', if dumpOk then .ok () else .error .unpicklable)

/-- object_store.py:193-198 -/
def fsGet (c : Conf) (fs : FS V) (key : Str) : Except Err V :=
  match resolveKey c key with
  | .error e => .error e
  | .ok path => match look fs (comps path) with
    | none => .error .keyError
    | some .dir => .error .isDirectory
    | some (.file none) => .error .corrupt
    | some (.file (some v)) => .ok v

/-- object_store.py:200-203 -/
def fsDelete (c : Conf) (fs : FS V) (key : Str) : FS V × Except Err Unit :=
  match resolveKey c key with
  | .error e => (fs, .error e)
  | .ok path => match look fs (comps path) with
    | none => (fs, .ok ())
    | some .dir => (fs, .error .isDirectory)
    | some (.file _) => (remove (comps path) fs, .ok ())

/-- object_store.py:205-206 -/
def fsExists (c : Conf) (fs : FS V) (key : Str) : Except Err Bool :=
  match resolveKey c key with
  | .error e => .error e
  | .ok path => .ok (look fs (comps path)).isSome

/-! ### URIs -/

/-- The separator `"://"`. -/
def sep : Str := [':', '/', '/']

/-- `uri.partition("://")` when the separator occurs; `none` when `"://" not in uri`. -/
def partition : Str → Option (Str × Str)
  | [] => none
  | c :: cs => if sep.isPrefixOf (c :: cs) then some ([], (c :: cs).drop 3)
    else (partition cs).map (fun r => (c :: r.1, r.2))

/-- The schemes of the two backends (object_store.py:135, 171). -/
def memScheme : Str := ['m', 'e', 'm']
def fsScheme : Str := ['f', 's']

/-- Which backend a scheme names. -/
inductive Backend where
  | mem | fs
  deriving DecidableEq

/-- State of an `ObjectStore` (object_store.py:344-358): the transient dict and, if configured, the file system. -/
structure State (V : Type) where
  mem : List (Str × V)
  fs : Option (FS V)

/-- object_store.py:363-376 `_parse_uri` -/
def parseUri (s : State V) (uri : Str) : Except Err (Backend × Str) :=
  match partition uri with
  | none => .error .invalidUri
  | some (scheme, key) =>
    if scheme = memScheme then .ok (.mem, key)
    else if scheme = fsScheme ∧ s.fs.isSome then .ok (.fs, key)
    else .error .unknownScheme

/-- `backend.put(key, value)` -/
def backendPut (c : Conf) (s : State V) (b : Backend) (key : Str) (v : V) (dumpOk : Bool) :
    State V × Except Err Unit :=
  match b with
  | .mem => ({ s with mem := assign key v s.mem }, .ok ())            -- object_store.py:142-143
  | .fs => match s.fs with
    | none => (s, .error .noPersistent)
    | some fs => ({ s with fs := some (fsPut c fs key v dumpOk).1 }, (fsPut c fs key v dumpOk).2)

/-- object_store.py:382-415 `put`; `uuid` is the key `uuid4().hex` would give. -/
def put (c : Conf) (s : State V) (v : V) (uri : Option Str) (uuid : Str) (dumpOk : Bool) :
    State V × Except Err Str :=
  match uri with
  | none => ({ s with mem := assign uuid v s.mem }, .ok (memScheme ++ sep ++ uuid))
  | some uri => match partition uri with
    | some _ => match parseUri s uri with
      | .error e => (s, .error e)
      | .ok (b, key) => ((backendPut c s b key v dumpOk).1, (backendPut c s b key v dumpOk).2.map (fun _ => uri))
    | none => if s.fs.isNone then (s, .error .noPersistent)
      else ((backendPut c s .fs uri v dumpOk).1,
        (backendPut c s .fs uri v dumpOk).2.map (fun _ => fsScheme ++ sep ++ uri))

/-- object_store.py:417-420 `get` (memory: 145-148) -/
def get (c : Conf) (s : State V) (uri : Str) : Except Err V :=
  match parseUri s uri with
  | .error e => .error e
  | .ok (.mem, key) => match lookup key s.mem with
    | none => .error .keyError
    | some v => .ok v
  | .ok (.fs, key) => match s.fs with
    | none => .error .noPersistent
    | some fs => fsGet c fs key

/-- object_store.py:422-425 `delete` (memory: 150-151) -/
def delete (c : Conf) (s : State V) (uri : Str) : State V × Except Err Unit :=
  match parseUri s uri with
  | .error e => (s, .error e)
  | .ok (.mem, key) => ({ s with mem := remove key s.mem }, .ok ())
  | .ok (.fs, key) => match s.fs with
    | none => (s, .error .noPersistent)
    | some fs => ({ s with fs := some (fsDelete c fs key).1 }, (fsDelete c fs key).2)

/-- object_store.py:427-430 `exists` (memory: 153-154) -/
def exists' (c : Conf) (s : State V) (uri : Str) : Except Err Bool :=
  match parseUri s uri with
  | .error e => .error e
  | .ok (.mem, key) => .ok (lookup key s.mem).isSome
  | .ok (.fs, key) => match s.fs with
    | none => .error .noPersistent
    | some fs => fsExists c fs key

/-- object_store.py:441-454 `resolve_uri` -/
def resolveUri (s : State V) (u : Str) : Except Err Str :=
  match partition u with
  | some _ => .ok u
  | none => if s.fs.isNone then .error .noPersistent else .ok (fsScheme ++ sep ++ u)

/-- store_impl.py:26-33 `store.save` -/
def save (c : Conf) (s : State V) (v : V) (uriBase : Str) (dumpOk : Bool) : State V × Except Err V :=
  ((put c s v (some uriBase) [] dumpOk).1, (put c s v (some uriBase) [] dumpOk).2.map (fun _ => v))

/-- store_impl.py:36-42 `store.load` -/
def load (c : Conf) (s : State V) (uriBase : Str) : Except Err V :=
  match resolveUri s uriBase with
  | .error e => .error e
  | .ok u => get c s u

/-- One call of the public interface. -/
inductive Op (V : Type) where
  | put (v : V) (uri : Option Str) (uuid : Str) (dumpOk : Bool)
  | get (uri : Str)
  | delete (uri : Str)
  | exists_ (uri : Str)

/-- The state after a call (whether it returned or raised). -/
def exec (c : Conf) (s : State V) : Op V → State V
  | .put v uri uuid dumpOk => (put c s v uri uuid dumpOk).1
  | .get _ => s
  | .delete uri => (delete c s uri).1
  | .exists_ _ => s

/-- The state after a history of calls. -/
def run (c : Conf) (s : State V) (ops : List (Op V)) : State V := ops.foldl (exec c) s

/-! ### `list_keys` -/

/-- `os.path.relpath(full, root)` for a file below the root, as components joined by `/`. -/
def joinComps : Path → Str
  | [] => []
  | [c] => c
  | c :: d :: cs => c ++ '/' :: joinComps (d :: cs)

/-- The key `os.walk` reports for an entry of the file system: files strictly below the root. -/
def keyOf (root : Path) (e : Path × Node V) : Option Str :=
  match e.2 with
  | .dir => none
  | .file _ => if root.isPrefixOf e.1 ∧ e.1 ≠ root then some (joinComps (e.1.drop root.length)) else none

/-- object_store.py:208-217, the files `os.walk` finds below the root (in some order). -/
def fsListKeys (c : Conf) (fs : FS V) : List Str := fs.filterMap (keyOf (comps (abspath c.cwd c.rootPath)))

/-- object_store.py:456-464 `list_keys` -/
def listKeys (c : Conf) (s : State V) : List Str :=
  s.mem.map (fun e => memScheme ++ sep ++ e.1) ++
    match s.fs with
    | none => []
    | some fs => (fsListKeys c fs).map (fun k => fsScheme ++ sep ++ k)

end Verif.Store
