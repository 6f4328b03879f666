import Verif.Server.WholeLemmas
import Verif.Batch.Full
/-!
The upgrade of an installation of an earlier version (`storage/mod.rs:60-82`, `recreate`, `storage/v2/mod.rs:58-99`): what was loaded
from the old files is written to new files.
-/
namespace Verif.Server
open Verif.Enc (Event)
open Verif.Gns (Cat)
open Verif.Journal (JW)
open Verif.Dml (Key)

/-- What was loaded from the old files (`v1::load_gns_prepare_migration`, `storage/v1/mod.rs:47-68`), with the names in the hash
maps, in the order in which they iterate. -/
structure Old where
  srv : Srv
  spaces : List String
  keys : List MKey
  users : List String

/-- The events for the spaces (`v2/mod.rs:63-66`). -/
def spaceEvs (c : Cat) (ns : List String) : List Event :=
  ns.filterMap fun n => (c.spaces n).map fun s => .createSpace n s.uuid s.props

/-- The event for a model (`v2/mod.rs:85-89`): the columns as they are now. -/
def modelEv (p : Path) (m : Gns.Model) : Event := .createModel ⟨p.space, p.spaceId⟩ p.model ⟨m.uuid, m.pk, m.pkTag, m.fields⟩

/-- The events for the users (`v2/mod.rs:95-97`). -/
def userEvs (c : Cat) (us : List String) : List Event :=
  us.filterMap fun u => (c.users u).map fun h => .createUser u h

/-- The loop over the models (`v2/mod.rs:69-92`): the event, and a new data file with all rows. -/
def recreateModels (S : Setup) (order : List (Key × Nat) → List (Key × Nat)) (s : Srv) :
    List MKey → JW → (String → String → JW) → Batch.Run (JW × (String → String → JW))
  | [], gw, d => .ok (gw, d)
  | k :: ks, gw, d =>
    match pathOf s.cat k, s.tbl k.1 k.2 with
    | some (p, m), some t =>
      (commitEvs S gw [modelEv p m]).bind fun gw =>
        match Batch.commitFull order (newFile S.mdlHdr) t with
        | (w, .ok ()) => (fits S w).bind fun w =>
            recreateModels S order s ks gw fun a b => if a = k.1 ∧ b = k.2 then w else d a b
        | _ => .bad
    | _, _ => .bad

/-- `recreate` (`v2/mod.rs:57-99`). The root password of the settings is not looked at. -/
def recreate (S : Setup) (order : List (Key × Nat) → List (Key × Nat)) (x : Old) : Batch.Run Sys :=
  match JW.create S.gnsHdr [] with
  | (gw, .ok ()) =>
    (fits S gw).bind fun gw => (commitEvs S gw (spaceEvs x.srv.cat x.spaces)).bind fun gw =>
      (recreateModels S order x.srv x.keys gw fun _ _ => newFile S.mdlHdr).bind fun (gw, d) =>
        (commitEvs S gw (userEvs x.srv.cat x.users)).bind fun gw => .ok ⟨x.srv, d, gw, x.keys⟩
  | _ => .bad

/-! ### A crash in the middle -/

/-- Which files are in place: `sys.db`, `gns.db-tlog` and the data files of an old installation. -/
structure InPlace where
  sys : Bool
  gns : Bool
  data : Bool

/-- The moves to the backup directory (`storage/v1/mod.rs:56-66`): the data files, the log of the catalogue, `sys.db`. The log has the
same name in both formats. -/
def movedFiles : Nat → InPlace
  | 0 => ⟨true, true, true⟩
  | 1 => ⟨true, true, false⟩
  | 2 => ⟨true, false, false⟩
  | _ => ⟨false, false, false⟩

/-- `load` (`storage/mod.rs:60-82`) on what is left of the old installation `x`, which has data files. The old format is not read if
one of the files is missing (`v1/loader.rs`). `hash` is that of the root password of the settings. -/
def loadOld (S : Setup) (order : List (Key × Nat) → List (Key × Nat)) (hash : Bytes) (x : Old) (f : InPlace) : Batch.Run Sys :=
  if f.sys then (if f.gns ∧ f.data then recreate S order x else .bad)
  else if f.gns then .bad
  else install S hash

end Verif.Server
