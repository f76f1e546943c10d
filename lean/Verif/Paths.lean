/-!
# `core/utils/paths.py` and the functions of `posixpath` it uses

Paths are strings, here lists of characters.  The functions of Python's `posixpath` are
written out from their documented definitions (they are not in the repository; trusted).
-/

namespace Space.Paths

/-- A path string. -/
abbrev Str := List Char

/-- `s.split("/")`. -/
def split : Str → List Str
  | [] => [[]]
  | c :: cs =>
    if c = '/' then [] :: split cs
    else
      match split cs with
      | x :: xs => (c :: x) :: xs
      | [] => [[c]]

/-- `"/".join(segs)`. -/
def unsplit : List Str → Str
  | [] => []
  | [x] => x
  | x :: xs => x ++ '/' :: unsplit xs

/-- `posixpath.isabs`. -/
def isabs (p : Str) : Bool := p.head? == some '/'

/-- `posixpath.join(a, b)`. -/
def join (a b : Str) : Str :=
  if isabs b then b
  else if a = [] ∨ a.getLast? = some '/' then a ++ b
  else a ++ '/' :: b

/-- `posixpath.join(a, *bs)`. -/
def joinAll (a : Str) (bs : List Str) : Str := bs.foldl join a

/-- One round of the loop of `posixpath.normpath`. -/
def normStep (abs : Bool) (acc : List Str) (x : Str) : List Str :=
  if x = [] ∨ x = ['.'] then acc
  else if x ≠ ['.', '.'] ∨ (abs = false ∧ acc = []) ∨ acc.getLast? = some ['.', '.'] then acc ++ [x]
  else acc.dropLast

/-- Leading slashes `posixpath.normpath` keeps: exactly two are kept. -/
def slashes : Str → Str
  | ['/', '/'] => ['/', '/']
  | '/' :: '/' :: c :: _ => if c = '/' then ['/'] else ['/', '/']
  | '/' :: _ => ['/']
  | _ => []

/-- `posixpath.normpath`. -/
def normpath (p : Str) : Str :=
  match slashes p ++ unsplit ((split p).foldl (normStep (isabs p)) []) with
  | [] => ['.']
  | q => q

/-- `posixpath.abspath` in the working directory `cwd`. -/
def abspath (cwd p : Str) : Str := normpath (if isabs p then p else join cwd p)

/-- Length of the common prefix of two lists (`os.path.commonprefix`). -/
def common : List Str → List Str → Nat
  | x :: xs, y :: ys => if x = y then common xs ys + 1 else 0
  | _, _ => 0

/-- Non-empty segments. -/
def parts (p : Str) : List Str := (split p).filter (fun x => x ≠ [])

/-- `posixpath.relpath(path, start)` for a non-empty path. -/
def relpath (cwd path start : Str) : Str :=
  let s := parts (abspath cwd start)
  let p := parts (abspath cwd path)
  let i := common s p
  match List.replicate (s.length - i) ['.', '.'] ++ p.drop i with
  | [] => ['.']
  | x :: xs => joinAll x xs

/-! ## `core/utils/paths.py` -/

/-- `StoragePathsMixin.short_path` (`paths.py:96-98`). -/
def shortPath (cwd location full : Str) : Str := relpath cwd full location

/-- `StoragePathsMixin.full_path` (`paths.py:100-102`). -/
def fullPath (location short : Str) : Str := join location short

def str (s : String) : Str := s.toList

/-- `data_dir` (`paths.py:49-51`). -/
def dataDir (location : Str) : Str := join location (str "data")

/-- `metadata_dir` (`paths.py:54-56`). -/
def metadataDir (location : Str) : Str := join location (str "metadata")

/-- `entry_point_path` (`paths.py:59-61`). -/
def entryPointPath (location : Str) : Str :=
  joinAll location [str "metadata", str "entrypoint.txtpb"]

/-- `new_index_file_path` (`paths.py:29-31`), `u` the uuid. -/
def newIndexFile (dataDir u : Str) : Str := join dataDir (str "index_" ++ u ++ str ".parquet")

/-- `new_record_file_path` (`paths.py:34-36`). -/
def newRecordFile (dataDir field u : Str) : Str :=
  join dataDir (field ++ str "_" ++ u ++ str ".array_record")

/-- `new_index_manifest_path` (`paths.py:39-41`). -/
def newIndexManifest (metadataDir u : Str) : Str :=
  join metadataDir (str "index_manifest_" ++ u ++ str ".parquet")

/-- `new_record_manifest_path` (`paths.py:44-46`). -/
def newRecordManifest (metadataDir u : Str) : Str :=
  join metadataDir (str "record_manifest_" ++ u ++ str ".parquet")

/-- `new_metadata_path` (`paths.py:64-66`). -/
def newMetadata (metadataDir u : Str) : Str :=
  join metadataDir (str "metadata_" ++ u ++ str ".txtpb")

/-- `StoragePathsMixin.new_change_log_path` (`paths.py:108-110`). -/
def newChangeLog (location u : Str) : Str :=
  join (join (metadataDir location) (str "changes")) (str "change_" ++ u ++ str ".txtpb")

/-! ## What a path denotes -/

/-- Follow path segments from a directory, in a tree without symbolic links. -/
def walk (dir : List Str) : List Str → List Str
  | [] => dir
  | x :: xs =>
    walk (if x = [] ∨ x = ['.'] then dir else if x = ['.', '.'] then dir.dropLast else dir ++ [x]) xs

/-- The place a path denotes for a process in the directory `dir`. -/
def place (dir : List Str) (p : Str) : List Str := walk (if isabs p then [] else dir) (split p)

/-- The place an absolute path denotes. -/
def rooted (p : Str) : List Str := place [] p

end Space.Paths
