import Verif.Base.Bytes
import Verif.Base.Res
/-!
The file system of the tests: `VirtualFS` (`/repo/server/src/engine/storage/common/interface/vfs.rs`, below `vfs.rs`) and its use in the file
interface (`interface/fs.rs` in the same directory, below `fs.rs`). All tests of the storage run on it.

Simplifications: a path is given by its components (`split_parts`, `vfs.rs:431-433`, is not modelled); a `HashMap` is a list of which the first
entry of a name counts; numbers do not overflow; one thread.
-/
namespace Verif.Vfs

/-- `VFile` (`vfs.rs:65-71`). -/
structure VFile where
  read : Bool
  write : Bool
  data : Bytes
  pos : Nat
  deriving DecidableEq, Repr

/-- `VNode` (`vfs.rs:59-62`). -/
inductive Node where
  | file (f : VFile)
  | dir (entries : List (String × Node))

/-- `VDir` (`vfs.rs:51`). -/
abbrev Dir := List (String × Node)

/-- `get`, `remove` and `insert` of `HashMap`. -/
def look (d : Dir) (n : String) : Option Node := (d.find? (·.1 = n)).map (·.2)
def del (d : Dir) (n : String) : Dir := d.filter (·.1 ≠ n)
def put (d : Dir) (n : String) (x : Node) : Dir := (n, x) :: del d n

/-- A path with its last component apart (`split_target_and_components`, `vfs.rs:434-439`). -/
structure Path where
  comps : List String
  target : String
  deriving DecidableEq, Repr

def Path.full (p : Path) : List String := p.comps ++ [p.target]

/-- The errors (`vfs.rs:404-424` and those made in place). -/
inductive Err where
  | isDir
  | fileInPath
  | noDir
  | notFound
  | present
  | notEmpty
  | denied
  | eof
  | badSeek
  deriving DecidableEq, Repr

/-! ## Files (`vfs.rs:105-153`) -/

/-- `truncate` (`vfs.rs:106-119`). -/
def VFile.truncate (f : VFile) (to : Nat) : Res Err (VFile × Unit) :=
  if !f.write then .err .denied
  else
    let data := if to > f.data.length then f.data ++ List.replicate (to - f.data.length) 0 else f.data.take to
    .ok ({ f with data, pos := if f.pos > data.length then data.length else f.pos }, ())

/-- `seek_from_start` (`vfs.rs:126-132`). -/
def VFile.seek (f : VFile) (by_ : Nat) : Res Err (VFile × Unit) :=
  if by_ > f.data.length then .err .badSeek else .ok ({ f with pos := by_ }, ())

/-- `fread_exact` (`vfs.rs:133-144`); the slice of `current` (line 168) panics if the position is behind the end. -/
def VFile.fread (f : VFile) (n : Nat) : Res Err (VFile × Bytes) :=
  if !f.read then .err .denied
  else if f.pos > f.data.length then .panic
  else if f.data.length - f.pos < n then .err .eof
  else .ok ({ f with pos := f.pos + n }, (f.data.drop f.pos).take n)

/-- `fwrite` (`vfs.rs:145-155`). -/
def VFile.fwrite (f : VFile) (b : Bytes) : Res Err (VFile × Nat) :=
  if !f.write then .err .denied
  else
    let data := if f.pos + b.length > f.data.length then f.data ++ List.replicate (f.pos + b.length - f.data.length) 0 else f.data
    .ok ({ f with data := data.take f.pos ++ b ++ data.drop (f.pos + b.length), pos := f.pos + b.length }, b.length)

/-! ## Directories -/

/-- `find_target_dir_mut` (`vfs.rs:440-452`), `find_target_dir` (lines 453-465) and the loops of `fs_create_dir` and `with_item_mut`: the
directory is found and something is done in it. -/
def modify {α : Type} : List String → Dir → (Dir → Res Err (Dir × α)) → Res Err (Dir × α)
  | [], d, f => f d
  | c :: cs, d, f =>
    match look d c with
    | some (.dir e) =>
      match modify cs e f with
      | .ok (e', a) => .ok (put d c (.dir e'), a)
      | .err x => .err x
      | .panic => .panic
      | .hang => .hang
    | some (.file _) => .err .fileInPath
    | none => .err .noDir

/-- `with_file_mut` and `with_file` (`vfs.rs:336-367`). -/
def withFile {α : Type} (p : Path) (root : Dir) (f : VFile → Res Err (VFile × α)) : Res Err (Dir × α) :=
  modify p.comps root fun d =>
    match look d p.target with
    | some (.file v) =>
      match f v with
      | .ok (v', a) => .ok (put d p.target (.file v'), a)
      | .err x => .err x
      | .panic => .panic
      | .hang => .hang
    | some (.dir _) => .err .isDir
    | none => .err .notFound

/-- `fs_fcreate_rw` (`vfs.rs:190-219`). -/
def create (p : Path) (root : Dir) : Res Err (Dir × Unit) :=
  modify p.comps root fun d =>
    match look d p.target with
    | some _ => .err .present
    | none => .ok (put d p.target (.file ⟨true, true, [], 0⟩), ())

/-- `fs_fopen_rw` (`vfs.rs:220-226`). -/
def openRw (p : Path) (root : Dir) : Res Err (Dir × Unit) := withFile p root fun f => .ok ({ f with read := true, write := true }, ())

/-- `fs_fopen_or_create_rw` (`vfs.rs:316-335`). -/
def openOrCreate (p : Path) (root : Dir) : Res Err (Dir × Unit) :=
  modify p.comps root fun d =>
    match look d p.target with
    | some (.file f) => .ok (put d p.target (.file { f with read := true, write := true }), ())
    | some (.dir _) => .err .isDir
    | none => .ok (put d p.target (.file ⟨true, true, [], 0⟩), ())

/-- `fs_rename` (`vfs.rs:227-244`). The descriptor of the new file is dropped at the end of the `match` (lines 232-241); dropping it takes the lock of
the file system (`vfs.rs:87-98`), which the caller holds (`fs.rs:131`): the thread waits for itself. -/
def rename (src dst : Path) (root : Dir) : Res Err (Dir × Unit) :=
  match withFile src root fun f => .ok (f, f.data) with
  | .ok (root, data) =>
    match openOrCreate dst root with
    | .ok (root, ()) =>
      match withFile dst root fun f => .ok ({ f with data }, ()) with
      | .ok _ => .hang
      | r => r
    | r => r
  | .err x => .err x
  | .panic => .panic
  | .hang => .hang

/-- `fs_remove_file` (`vfs.rs:245-253`) with `with_item_mut` (lines 368-389). -/
def removeFile (p : Path) (root : Dir) : Res Err (Dir × Unit) :=
  modify p.comps root fun d =>
    match look d p.target with
    | some (.file _) => .ok (del d p.target, ())
    | some (.dir _) => .err .isDir
    | none => .err .notFound

/-- `fs_create_dir` (`vfs.rs:254-275`). -/
def createDir (p : Path) (root : Dir) : Res Err (Dir × Unit) :=
  modify p.comps root fun d =>
    match look d p.target with
    | some _ => .err .present
    | none => .ok (put d p.target (.dir []), ())

/-- `create_ahead` (`vfs.rs:277-298`). -/
def createAhead : List String → Dir → Res Err Dir
  | [], d => .ok d
  | c :: cs, d =>
    match look d c with
    | some (.dir e) =>
      if cs = [] then .err .present
      else
        match createAhead cs e with
        | .ok e' => .ok (put d c (.dir e'))
        | r => r
    | some (.file _) => .err .fileInPath
    | none =>
      match createAhead cs [] with
      | .ok e' => .ok (put d c (.dir e'))
      | r => r

/-- `fs_create_dir_all` (`vfs.rs:276-301`). -/
def createDirAll (p : Path) (root : Dir) : Res Err (Dir × Unit) :=
  match createAhead p.full root with
  | .ok d => .ok (d, ())
  | .err x => .err x
  | .panic => .panic
  | .hang => .hang

/-- `dir_delete` (`vfs.rs:390-401`). -/
def dirDelete (all : Bool) (p : Path) (root : Dir) : Res Err (Dir × Unit) :=
  modify p.comps root fun d =>
    match look d p.target with
    | some (.dir e) => if all || e.isEmpty then .ok (del d p.target, ()) else .err .notEmpty
    | some (.file _) => .err .fileInPath
    | none => .err .notFound

/-- `Drop for VFileDescriptor` (`vfs.rs:87-99`): an error is a panic. -/
def close (p : Path) (root : Dir) : Res Err (Dir × Unit) :=
  match withFile p root fun f => .ok ({ f with pos := 0, write := false, read := false }, ()) with
  | .ok x => .ok x
  | .err _ => .panic
  | .panic => .panic
  | .hang => .hang

/-! ## Programs -/

/-- What a program can do with the interface (`fs.rs:58-136, 194-228, 392-442`). Descriptors have numbers, in the order in which they were made. -/
inductive Op where
  | createDir (p : Path)
  | createDirAll (p : Path)
  | removeDir (p : Path)
  | removeDirAll (p : Path)
  | removeFile (p : Path)
  | rename (src dst : Path)
  | readAll (p : Path)
  | create (p : Path)
  | openRw (p : Path)
  | read (i n : Nat)
  | write (i : Nat) (b : Bytes)
  | truncate (i n : Nat)
  | len (i : Nat)
  | cursor (i : Nat)
  | seek (i n : Nat)
  | close (i : Nat)
  deriving DecidableEq, Repr

/-- What it gets. -/
inductive Out where
  | done
  | fail
  | bytes (b : Bytes)
  | num (n : Nat)
  | fd (i : Nat)
  | panic
  | hang
  deriving DecidableEq, Repr

/-- The tree and the descriptors (`VFileDescriptor` is the path of the file, `vfs.rs:85`). -/
structure St where
  root : Dir
  fds : List (Option Path)

/-- The result of an operation on the tree. -/
def St.got {α : Type} (s : St) (k : α → Out) : Res Err (Dir × α) → St × Out
  | .ok (d, a) => ({ s with root := d }, k a)
  | .err _ => (s, .fail)
  | .panic => (s, .panic)
  | .hang => (s, .hang)

/-- An operation on a descriptor (`fs.rs:297-375`). There is no operation on a descriptor that was dropped. -/
def St.onFd {α : Type} (s : St) (i : Nat) (k : α → Out) (f : VFile → Res Err (VFile × α)) : St × Out :=
  match s.fds[i]? with
  | some (some p) => s.got k (withFile p s.root f)
  | _ => (s, .fail)

/-- One operation; descriptors that are dropped keep their number. -/
def step (s : St) : Op → St × Out
  | .createDir p => s.got (fun _ => .done) (createDir p s.root)
  | .createDirAll p => s.got (fun _ => .done) (createDirAll p s.root)
  | .removeDir p => s.got (fun _ => .done) (dirDelete false p s.root)
  | .removeDirAll p => s.got (fun _ => .done) (dirDelete true p s.root)
  | .removeFile p => s.got (fun _ => .done) (removeFile p s.root)
  | .rename p q => s.got (fun _ => .done) (rename p q s.root)
  | .readAll p => s.got .bytes (withFile p s.root fun f => .ok (f, f.data))
  | .create p =>
    match s.got (fun _ => .fd s.fds.length) (create p s.root) with
    | (t, .fd i) => ({ t with fds := s.fds ++ [some p] }, .fd i)
    | r => r
  | .openRw p =>
    match s.got (fun _ => .fd s.fds.length) (openRw p s.root) with
    | (t, .fd i) => ({ t with fds := s.fds ++ [some p] }, .fd i)
    | r => r
  | .read i n => s.onFd i .bytes fun f => f.fread n
  | .write i b => s.onFd i .num fun f => f.fwrite b
  | .truncate i n => s.onFd i (fun _ => .done) fun f => f.truncate n
  | .len i => s.onFd i .num fun f => .ok (f, f.data.length)
  | .cursor i => s.onFd i .num fun f => .ok (f, f.pos)
  | .seek i n => s.onFd i (fun _ => .done) fun f => f.seek n
  | .close i =>
    match s.fds[i]? with
    | some (some p) =>
      match s.got (fun _ => .done) (close p s.root) with
      | (t, o) => ({ t with fds := s.fds.set i none }, o)
    | _ => (s, .fail)

def run (s : St) : List Op → List Out
  | [] => []
  | o :: os => (step s o).2 :: run (step s o).1 os

def runSt (s : St) : List Op → St
  | [] => s
  | o :: os => runSt (step s o).1 os

end Verif.Vfs
