import Verif.Old.Log
import Verif.Old.Data
import Verif.Old.Sys
import Verif.Header.Model
import Verif.Server.Upgrade
/-!
The loading of an old installation from its files: `load_gns` (`storage/v1/loader.rs`) and `load_gns_prepare_migration`
(`storage/v1/mod.rs:47-55`).
-/
namespace Verif.Old
open Verif.Gns (Cat)
open Verif.Server (MKey Path Rows pathOf)
open Verif.Header (Spec FileSpec readMeta)

/-- `HeaderImplV1` (`v1/raw/spec.rs:34-41`): driver version 0, three classes (lines 56-60), three kinds (lines 74-80). -/
def v1 : Spec := ⟨Header.serverVersion, 0, 2, 2⟩
/-- `GNSTransactionLogV1` (`v1/raw/spec.rs:97-103`). -/
def v1Log : FileSpec := ⟨0, 0, 0⟩
/-- `DataBatchJournalV1` (`v1/raw/spec.rs:106-112`). -/
def v1Data : FileSpec := ⟨1, 1, 0⟩
/-- `SysDBV1` (`v1/raw/spec.rs:115-121`). -/
def v1Sys : FileSpec := ⟨2, 2, 0⟩

/-- The versions, the class, the kind and the version of the kind in the headers of the three files; and a fourth class or kind is no class or
kind. -/
example :
    ((Header.writeMeta v1 v1Log ⟨0, 1, 1, 1⟩ 0).drop 16).take 24 = List.replicate 16 0 ++ [0, 1, 1, 1, 0, 0, 0, 0] ∧
    ((Header.writeMeta v1 v1Data ⟨0, 1, 1, 1⟩ 0).drop 16).take 24 = List.replicate 16 0 ++ [0, 1, 1, 1, 1, 1, 0, 0] ∧
    ((Header.writeMeta v1 v1Sys ⟨0, 1, 1, 1⟩ 0).drop 16).take 24 = List.replicate 16 0 ++ [0, 1, 1, 1, 2, 2, 0, 0] ∧
    readMeta v1 v1Log ((Header.writeMeta v1 v1Log ⟨0, 1, 1, 1⟩ 0).set 36 2) = .err .versionMismatch ∧
    readMeta v1 v1Log ((Header.writeMeta v1 v1Log ⟨0, 1, 1, 1⟩ 0).set 36 3) = .err .corrupted ∧
    readMeta v1 v1Log ((Header.writeMeta v1 v1Log ⟨0, 1, 1, 1⟩ 0).set 37 2) = .err .versionMismatch ∧
    readMeta v1 v1Log ((Header.writeMeta v1 v1Log ⟨0, 1, 1, 1⟩ 0).set 37 3) = .err .corrupted := by
  decide +kernel

/-- The files of an old installation. -/
structure Files where
  gns : Option Bytes
  sys : Option Bytes
  data : Path → Option Bytes

/-- Write at the end of a data file. -/
def Files.append (d : Files) (p : Path) (x : Bytes) : Files :=
  { d with data := fun q => if q = p then (d.data q).map (· ++ x) else d.data q }

/-- What a step of the loading gives, with the files as they are then. `panic` is a crash of the server. -/
inductive Load (α : Type) where
  | ok (a : α) (d : Files)
  | err (d : Files)
  | panic (d : Files)

/-- The rows of the models, and the paths of the files that are open. -/
abbrev Tables := (String → String → Rows) × List Path

/-- One data file (`reinit`, `v1/raw/batch_jrnl/mod.rs:49-55`). -/
def loadOne (c : Cat) (k : MKey) (x : Tables) (d : Files) : Load Tables :=
  match pathOf c k with
  | none => .panic d
  | some (p, m) =>
    match d.data p with
    | none => .err d
    | some f =>
      match readMeta v1 v1Data f with
      | .ok _ =>
        match readData m (f.drop HDR) with
        | .ok t => .ok (fun a b => if a = k.1 ∧ b = k.2 then ⟨t.heap, t.idx, t.ver, t.queue⟩ else x.1 a b, p :: x.2) (d.append p [REOPEN])
        | .err => .err d
        | _ => .panic d
      | _ => .err d

/-- The loop over the models (`loader.rs:49-78`). `vacuum_stashed` frees the names of removed columns (C54). The files that were opened
are the last part of the result. -/
def loadAll (c : Cat) : List MKey → Tables → Files → Load Tables × List Path
  | [], x, d => (.ok x d, x.2)
  | k :: ks, x, d =>
    match loadOne c k x d with
    | .ok x d => loadAll c ks x d
    | .err d => (.err d, x.2)
    | .panic d => (.panic d, x.2)

/-- `driver.close()` for the open files. -/
def closeData (d : Files) : List Path → Files
  | [] => d
  | p :: ps => closeData (d.append p [CLOSE]) ps

/-- Write at the end of the log. -/
def Files.appendLog (d : Files) (x : Bytes) : Files := { d with gns := d.gns.map (· ++ x) }

/-- The order in which the hash maps iterate: the models when they are loaded and when they are written, the spaces. -/
structure Order where
  first : Cat → List MKey
  keys : Cat → List MKey
  spaces : Cat → List String

/-- The names of the models of each space are a set; here in the order in which the models are written. -/
def relist (c : Cat) (ks : List MKey) : Cat :=
  { c with spaces := fun n => (c.spaces n).map fun s => { s with models := (ks.filter fun k => k.1 = n).map (·.2) } }

/-- `load_gns` (`loader.rs:44-91`): the catalogue without users, and the rows. -/
def loadGns (o : Order) (d : Files) : Load (Cat × (String → String → Rows)) :=
  match d.gns with
  | none => .err d
  | some f =>
    match readMeta v1 v1Log f with
    | .ok _ =>
      match openLog f with
      | .ok (c, f, id) =>
        match loadAll c (o.first c) (fun _ _ => Rows.none, []) { d with gns := some f } with
        | (.ok x d, _) => .ok (c, x.1) (closeData (d.appendLog (closeRec id)) x.2)
        | (.err d, ps) => .err (closeData (d.appendLog (closeRec id)) ps)
        | (.panic d, _) => .panic d
      | .err _ => .err d
      | _ => .panic d
    | _ => .err d

/-- The users are put into the catalogue (`v1/mod.rs:53-55`). `__raw_create_user` (`core/system_db.rs:107-115`) keeps a user who is
there already. -/
def withUsers (c : Cat) (us : List (String × Bytes)) : Cat :=
  { c with users := fun n => (c.users n).or ((us.find? fun u => decide (u.1 = n)).map (·.2)) }

/-- `load_gns_prepare_migration` (`v1/mod.rs:47-55`) before the files are moved. -/
def loadFiles (o : Order) (d : Files) : Load Server.Old :=
  match loadGns o d with
  | .err d => .err d
  | .panic d => .panic d
  | .ok (c, rows) d =>
    match d.sys with
    | none => .err d
    | some f =>
      match readMeta v1 v1Sys f with
      | .ok _ =>
        match readSys (f.drop HDR) with
        | .ok us => .ok ⟨⟨withUsers (relist c (o.keys c)) us, rows⟩, o.spaces c, o.keys c, us.map (·.1)⟩ d
        | .err _ => .err d
        | _ => .panic d
      | _ => .err d

end Verif.Old
