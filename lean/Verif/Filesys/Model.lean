import Verif.Base.Trace
import Verif.Kv.MapSpec
import Mathlib.Logic.Function.Basic

/-!
The file system of /repo/Filesys: paths, files and the operations on them, as the state machine
of `FileSystem.s.dfy`.

Simplified throughout: an `imap` that has every key (`PathMapComplete`, `WF`, FileSystem.s.dfy:25-29) is a function, so
`WF` holds by type; sizes and offsets that the code first checks not to be negative are natural numbers.
-/

namespace Verif.Filesys
open Classical

/-- `ID`, PathSpec.s.dfy:23 -/
inductive ID
  | nonexistent
  | id (n : Nat)

/-- `PathElement`, PathSpec.s.dfy:25 -/
abbrev PathElement := List UInt8

/-- `Path`, PathSpec.s.dfy:26 -/
abbrev Path := List PathElement

/-- `Data`, FSTypes.s.dfy:12 -/
abbrev Data := List UInt8

/-- `RootDir`, PathSpec.s.dfy:29 -/
def rootDir : Path := []

/-- `RootID`, PathSpec.s.dfy:30 -/
def rootID : ID := .id 0

/-- `FileType`, FSTypes.s.dfy:14-21 -/
inductive FileType
  | file
  | directory
  | symLink (source : Path)
  | charFile (major minor : Int)
  | blockFile (major minor : Int)
  | fifoFile
  | socketFile

/-- `MetaData.MetaData`, FSTypes.s.dfy:26-36. `EmptyMetaData` is `none`; a `Time` is its nanoseconds. -/
structure Meta where
  ftype : FileType
  perm : Int
  uid : Int
  gid : Int
  atime : Int
  mtime : Int
  ctime : Int

/-- `ValidNewMetaData`, FSTypes.s.dfy:38-42 (the `MetaData?` part by type) -/
def ValidNewMeta (m : Meta) : Prop := m.atime = m.ctime ∧ m.ctime = m.mtime

/-- `InitRootMetaData`, FSTypes.s.dfy:44-47 -/
def initRootMeta : Meta := ⟨.directory, 755, 0, 0, 0, 0, 0⟩

/-- `DirEntry`, FSTypes.s.dfy:57 -/
structure DirEntry where
  id : ID
  path : Path
  ftype : FileType

/-- `BeneathDir`, PathSpec.s.dfy:54-58 -/
def BeneathDir (dir path : Path) : Prop := dir.length < path.length ∧ path.take dir.length = dir

/-- `IsDirEntry`, PathSpec.s.dfy:66-70 -/
def IsDirEntry (dir path : Path) : Prop := BeneathDir dir path ∧ dir.length + 1 = path.length

/-- `GetParentDir`, PathSpec.s.dfy:72-75 -/
def parentDir (path : Path) : Path := path.dropLast

/-- `DirEntryLte`, PathSpec.s.dfy:83-89 -/
def DirEntryLte (a b : Path) : Prop := Kv.MapSpec.lte (a.getLast?.getD []) (b.getLast?.getD [])

/-- `FileSys`, FileSystem.s.dfy:19 -/
structure State where
  pathMap : Path → ID
  metaMap : ID → Option Meta
  dataMap : ID → Data

/-- `IsEmptyDir`, PathSpec.s.dfy:60-64 -/
def IsEmptyDir (pathMap : Path → ID) (dir : Path) : Prop := ∀ k, BeneathDir dir k → pathMap k = .nonexistent

/-- `PathExists`, FileSystem.s.dfy:31-36 -/
def PathExists (s : State) (p : Path) : Prop := s.pathMap p ≠ .nonexistent ∧ s.metaMap (s.pathMap p) ≠ none

/-- `Init`, FileSystem.s.dfy:38-43 -/
noncomputable def init : State where
  pathMap p := if p = rootDir then rootID else .nonexistent
  metaMap i := if i = rootID then some initRootMeta else none
  dataMap _ := []

/-- `NoAlias`, FileSystem.s.dfy:54-58, with `AliasPaths` (47-52) unfolded -/
def NoAlias (s : State) (p : Path) : Prop := ∀ q, s.pathMap q = s.pathMap p ↔ q = p

/-- The metadata of a path has file type `Directory`; `meta_map[path_map[path]].ftype.Directory?` -/
def IsDir (s : State) (p : Path) : Prop := ∃ m, s.metaMap (s.pathMap p) = some m ∧ m.ftype = .directory

/-- `ParentDirIsDir`, FileSystem.s.dfy:68-75 -/
def ParentDirIsDir (s : State) (p : Path) : Prop := PathExists s (parentDir p) ∧ IsDir s (parentDir p)

/-- `ValidNewPath`, FileSystem.s.dfy:77-82 -/
def ValidNewPath (s : State) (p : Path) : Prop := ParentDirIsDir s p ∧ s.pathMap p = .nonexistent

/-- `ValidNewId`, FileSystem.s.dfy:84-89 -/
def ValidNewId (s : State) (i : ID) : Prop := i ≠ .nonexistent ∧ ∀ q, s.pathMap q ≠ i

/-- `MetaDataUpdateCTime`, FileSystem.s.dfy:138-142 -/
def Meta.updateCTime (m : Meta) (ctime : Int) : Meta := { m with ctime := ctime }

/-- `MetaDataUpdateTime`, FileSystem.s.dfy:267-271 -/
def Meta.updateTime (m : Meta) (atime mtime ctime : Int) : Meta :=
  { m with atime := atime, mtime := mtime, ctime := ctime }

/-- `MetaDataChangeAttr`, FileSystem.s.dfy:249-253 -/
def Meta.changeAttr (m : Meta) (perm uid gid ctime : Int) : Meta :=
  { m with perm := perm, uid := uid, gid := gid, ctime := ctime }

/-- `UpdateParentTime`, FileSystem.s.dfy:110-119 -/
def updateParentTime (s : State) (i : ID) (time : Int) : Option Meta :=
  (s.metaMap i).map fun m => m.updateTime m.atime time time

/-- `MetaDataDelete`, FileSystem.s.dfy:144-151 -/
noncomputable def metaDelete (s : State) (p : Path) (ctime : Int) : Option Meta :=
  if s.pathMap p = .nonexistent ∨ s.metaMap (s.pathMap p) = none ∨ NoAlias s p then none
  else (s.metaMap (s.pathMap p)).map (·.updateCTime ctime)

/-- `DataDelete`, FileSystem.s.dfy:153-160 -/
noncomputable def dataDelete (s : State) (p : Path) : Data :=
  if s.pathMap p = .nonexistent ∨ NoAlias s p then [] else s.dataMap (s.pathMap p)

/-- `PathMapRename`, FileSystem.s.dfy:177-194 -/
noncomputable def pathMapRename (s : State) (src dst : Path) : Path → ID := fun path =>
  if path = src ∨ BeneathDir src path then .nonexistent
  else if path = dst ∨ BeneathDir dst path then s.pathMap (src ++ path.drop dst.length)
  else s.pathMap path

/-- `DataTruncate`, FileSystem.s.dfy:273-280 (with `ZeroData`) -/
def dataTruncate (d : Data) (size : Nat) : Data :=
  if size ≤ d.length then d.take size else d ++ List.replicate (size - d.length) 0

/-- `DataWrite`, FileSystem.s.dfy:308-315 (`size` is the length of `data`) -/
def dataWrite (d data : Data) (offset : Nat) : Data :=
  if d.length < offset + data.length then d.take offset ++ data
  else d.take offset ++ data ++ d.drop (offset + data.length)

/-- `ValidDirEntry`, FileSystem.s.dfy:344-350 -/
def ValidDirEntry (s : State) (e : DirEntry) : Prop :=
  PathExists s e.path ∧ e.id = s.pathMap e.path ∧ ∃ m, s.metaMap e.id = some m ∧ e.ftype = m.ftype

/-- `Step`, FileSystem.s.dfy:387-400 -/
inductive Op
  | getAttr (path : Path) (attr : Meta)
  | readLink (path linkPath : Path)
  | create (path : Path) (i : ID) (m : Meta)
  | delete (path : Path) (ctime : Int)
  | rename (src dst : Path) (ctime : Int)
  | link (source dest : Path) (ctime : Int)
  | changeAttr (path : Path) (perm uid gid ctime : Int)
  | truncate (path : Path) (size : Nat) (time : Int)
  | read (path : Path) (offset size : Nat) (data : Data)
  | write (path : Path) (offset : Nat) (data : Data) (time : Int)
  | updateTime (path : Path) (atime mtime ctime : Int)
  | readDir (dir : Path) (start : Option Path) (results : List DirEntry) (done : Bool)
  | stutter

/-- The last conjunct of `ReadDir`, FileSystem.s.dfy:371-378: which entries a listing may not leave out. As written, the
test of `done` stands among the conditions. -/
def NoneSkipped (s : State) (dir : Path) (start : Option Path) (results : List DirEntry) (done : Bool) : Prop :=
  ∀ path, IsDirEntry dir path → PathExists s path → (∀ st, start = some st → DirEntryLte st path) →
    (done = true → ∃ e ∈ results, e.path = path) →
    (done = false → ∀ l, results.getLast? = some l → DirEntryLte path l.path) →
    ∃ e ∈ results, e.path = path

/-- The conjuncts of `ReadDir` on the entries that are listed, FileSystem.s.dfy:357-370 -/
def Listed (s : State) (dir : Path) (start : Option Path) (results : List DirEntry) : Prop :=
  PathExists s dir ∧ IsDir s dir ∧ (∀ st, start = some st → IsDirEntry dir st) ∧
  (∀ e ∈ results, IsDirEntry dir e.path) ∧ (∀ e ∈ results, ValidDirEntry s e) ∧
  (∀ st e, start = some st → results.head? = some e → DirEntryLte st e.path) ∧
  results.Pairwise fun a b => DirEntryLte a.path b.path ∧ a ≠ b

/-- What each operation asks of the state before it: the conditions in `GetAttr` … `Stutter`, FileSystem.s.dfy:93-385 -/
def Guard (s : State) : Op → Prop
  | .getAttr p attr => PathExists s p ∧ s.metaMap (s.pathMap p) = some attr
  | .readLink p l => PathExists s p ∧ ∃ m, s.metaMap (s.pathMap p) = some m ∧ m.ftype = .symLink l
  | .create p i m => ValidNewPath s p ∧ ValidNewMeta m ∧ ValidNewId s i ∧ s.metaMap i = none ∧ s.dataMap i = []
  | .delete p _ => p ≠ rootDir ∧ PathExists s p ∧ (IsDir s p → IsEmptyDir s.pathMap p)
  | .rename src dst _ => PathExists s src ∧ ¬ BeneathDir dst src ∧ (PathExists s dst ∨ ValidNewPath s dst) ∧
      (PathExists s dst → (IsDir s src ↔ IsDir s dst) ∧ (IsDir s dst → IsEmptyDir s.pathMap dst))
  | .link source dest _ => PathExists s source ∧ ValidNewPath s dest ∧ ¬ IsDir s source
  | .changeAttr p _ _ _ _ => PathExists s p
  | .truncate p _ _ => PathExists s p ∧ ∃ m, s.metaMap (s.pathMap p) = some m ∧ m.ftype = .file
  | .read p offset size data => PathExists s p ∧ (∃ m, s.metaMap (s.pathMap p) = some m ∧ m.ftype = .file) ∧
      offset + size ≤ (s.dataMap (s.pathMap p)).length ∧ data = ((s.dataMap (s.pathMap p)).drop offset).take size
  | .write p offset _ _ => PathExists s p ∧ (∃ m, s.metaMap (s.pathMap p) = some m ∧ m.ftype = .file) ∧
      offset ≤ (s.dataMap (s.pathMap p)).length
  | .updateTime p _ _ _ => PathExists s p
  | .readDir dir start results done => Listed s dir start results ∧ NoneSkipped s dir start results done
  | .stutter => True

/-- The state after each operation: the equations for `fs'` in `GetAttr` … `Stutter`, FileSystem.s.dfy:93-385 -/
noncomputable def next (s : State) : Op → State
  | .create p i m =>
    { s with
      pathMap := Function.update s.pathMap p i
      metaMap := Function.update (Function.update s.metaMap i (some m)) (s.pathMap (parentDir p))
        (updateParentTime s (s.pathMap (parentDir p)) m.mtime) }
  | .delete p ctime =>
    { pathMap := Function.update s.pathMap p .nonexistent
      metaMap := Function.update (Function.update s.metaMap (s.pathMap p) (metaDelete s p ctime))
        (s.pathMap (parentDir p)) (updateParentTime s (s.pathMap (parentDir p)) ctime)
      dataMap := Function.update s.dataMap (s.pathMap p) (dataDelete s p) }
  | .rename src dst ctime =>
    { pathMap := pathMapRename s src dst
      metaMap := Function.update (Function.update (Function.update (Function.update s.metaMap
        (s.pathMap src) ((s.metaMap (s.pathMap src)).map (·.updateCTime ctime)))
        (s.pathMap dst) (metaDelete s dst ctime))
        (s.pathMap (parentDir src)) (updateParentTime s (s.pathMap (parentDir src)) ctime))
        (s.pathMap (parentDir dst)) (updateParentTime s (s.pathMap (parentDir dst)) ctime)
      dataMap := Function.update s.dataMap (s.pathMap dst) (dataDelete s dst) }
  | .link source dest ctime =>
    { s with
      pathMap := Function.update s.pathMap dest (s.pathMap source)
      metaMap := Function.update (Function.update s.metaMap (s.pathMap source)
        ((s.metaMap (s.pathMap source)).map (·.updateCTime ctime)))
        (s.pathMap (parentDir dest)) (updateParentTime s (s.pathMap (parentDir dest)) ctime) }
  | .changeAttr p perm uid gid ctime =>
    { s with
      metaMap := Function.update s.metaMap (s.pathMap p)
        ((s.metaMap (s.pathMap p)).map (·.changeAttr perm uid gid ctime)) }
  | .truncate p size time =>
    { s with
      metaMap := Function.update s.metaMap (s.pathMap p)
        ((s.metaMap (s.pathMap p)).map fun m => m.updateTime m.atime time time)
      dataMap := Function.update s.dataMap (s.pathMap p) (dataTruncate (s.dataMap (s.pathMap p)) size) }
  | .write p offset data time =>
    { s with
      metaMap := Function.update s.metaMap (s.pathMap p)
        ((s.metaMap (s.pathMap p)).map (·.updateTime time time time))
      dataMap := Function.update s.dataMap (s.pathMap p) (dataWrite (s.dataMap (s.pathMap p)) data offset) }
  | .updateTime p atime mtime ctime =>
    { s with
      metaMap := Function.update s.metaMap (s.pathMap p)
        ((s.metaMap (s.pathMap p)).map (·.updateTime atime mtime ctime)) }
  | .getAttr .. | .readLink .. | .read .. | .readDir .. | .stutter => s

/-- `Init` and `NextStep`, FileSystem.s.dfy:38-43 and 402-419 -/
noncomputable def machine : Machine State Op where
  Init s := s = init
  Step s o s' := Guard s o ∧ s' = next s o

end Verif.Filesys
