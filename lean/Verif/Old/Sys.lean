import Verif.Enc.Theorems
import Verif.Gns.Dict
import Verif.Gns.Cat
/-!
Model of `sys.db` of an old installation, the file with the users: `storage/v1/raw/sysdb.rs` (cited as `sysdb.rs`).
-/
namespace Verif.Old
open Verif.Enc (DErr Dict DVal decDictFull encDictFull WfDict WfVal Wf)
open Verif.Gns (get del ROOT)

/-- `DictEntryGeneric::into_dict`. -/
def intoDict : DVal → Option Dict
  | .map d => some d
  | .data _ => none

/-- `DictEntryGeneric::into_data` and `Datacell::into_uint` (`data/cell.rs:104-113`). -/
def intoUint : DVal → Option UInt64
  | .data (.uint _ v) => some v
  | _ => none

/-- `rkey` (`sysdb.rs:38-47`): the value and the rest. -/
def rkey {α} (d : Dict) (k : String) (f : DVal → Option α) : Option (α × Dict) :=
  ((get d k).bind f).map fun a => (a, del d k)

/-- The entry of a user (`sysdb.rs:95-107`): a list of one binary value. -/
def userHash : DVal → Option Bytes
  | .data (.list [.bin h]) => some h
  | _ => none

/-- The loop over the users (`sysdb.rs:93-109`). -/
def loadUsers : Dict → Option (List (String × Bytes))
  | [] => some []
  | (n, v) :: es => (userHash v).bind fun h => (loadUsers es).map fun us => (n, h) :: us

/-- `restore` after the dictionary was decoded (`sysdb.rs:75-126`): the users. -/
def sysUsers (d : Dict) : Option (List (String × Bytes)) :=
  (rkey d "auth" intoDict).bind fun (auth, d) =>
  (rkey d "sys" intoDict).bind fun (sys, d) =>
  (rkey auth "users" intoDict).bind fun (users, auth) =>
  (loadUsers users).bind fun us =>
  (rkey sys "sc" intoUint).bind fun (_, sys) =>
  (rkey sys "sv" intoUint).bind fun (_, sys) =>
  if d.isEmpty ∧ auth.isEmpty ∧ sys.isEmpty ∧ us.any (·.1 = ROOT) then some us else none

/-- `restore` (`sysdb.rs:72-123`) on the file without its header. What follows the dictionary is not looked at. `panic` is a read
outside of the file. -/
def readSys (b : Bytes) : Res DErr (List (String × Bytes)) :=
  (decDictFull b).bind fun (d, _) =>
    match sysUsers d with
    | some us => .ok us
    | none => .err .corrupted

/-! ### What the old server wrote -/

/-- The dictionary of the file: the users with the hashes of their passwords, and two counters. -/
def sysDict (us : List (String × Bytes)) (sc sv : UInt64) : Dict :=
  [("auth", .map [("users", .map (us.map fun u => (u.1, .data (.list [.bin u.2]))))]),
   ("sys", .map [("sc", .data (.uint .uint64 sc)), ("sv", .data (.uint .uint64 sv))])]

def sysBytes (us : List (String × Bytes)) (sc sv : UInt64) : Bytes := encDictFull (sysDict us sc sv)

/-- Users that the old server could have. -/
structure UsersOk (us : List (String × Bytes)) : Prop where
  nodup : (us.map (·.1)).Nodup
  root : ROOT ∈ us.map (·.1)
  sizes : ∀ u ∈ us, (encStr u.1).length < 2 ^ 64 ∧ u.2.length < 2 ^ 64
  count : us.length < 2 ^ 64

theorem loadUsers_map : ∀ us : List (String × Bytes), loadUsers (us.map fun u => (u.1, .data (.list [.bin u.2]))) = some us
  | [] => rfl
  | u :: us => by
    simp only [List.map_cons, loadUsers, userHash, Option.bind_some, loadUsers_map us, Option.map_some]

theorem wfDict_users : ∀ {us : List (String × Bytes)}, (us.map (·.1)).Nodup →
    (∀ u ∈ us, (encStr u.1).length < 2 ^ 64 ∧ u.2.length < 2 ^ 64) →
    WfDict (us.map fun u => (u.1, .data (.list [.bin u.2])))
  | [], _, _ => by simp [WfDict]
  | u :: us, hn, hs => by
    rw [List.map_cons, List.nodup_cons] at hn
    have h1 := hs u (by simp)
    simp only [List.map_cons, WfDict]
    refine ⟨h1.1, ?_, ?_, wfDict_users hn.2 fun x hx => hs x (by simp [hx])⟩
    · simp [WfVal, Wf, Enc.WfList, h1.2]
    · simp only [List.all_eq_true, bne_iff_ne, ne_eq, List.mem_map]
      rintro x ⟨y, hy, rfl⟩ h
      exact hn.1 (List.mem_map.2 ⟨y, hy, h⟩)

/-- The users are read as they were written, whatever follows. -/
theorem readSys_sysBytes {us : List (String × Bytes)} (h : UsersOk us) (sc sv : UInt64) (rest : Bytes) :
    readSys (sysBytes us sc sv ++ rest) = .ok us := by
  have hw := wfDict_users h.nodup h.sizes
  have hd : WfDict (sysDict us sc sv) := by
    simp only [sysDict, WfDict, WfVal]
    refine ⟨by decide, ⟨by simp, by decide, ⟨by simpa using h.count, hw⟩, by simp, trivial⟩, by simp, by decide, ⟨by simp, by decide, ?_, by simp,
      by decide, ?_, by simp, trivial⟩, by simp, trivial⟩
    · simp [Wf, Tag.cls]
    · simp [Wf, Tag.cls]
  have hroot : us.any (fun x => decide (x.1 = ROOT)) = true := by
    obtain ⟨u, hu, e⟩ := List.mem_map.1 h.root
    exact List.any_eq_true.2 ⟨u, hu, by simpa using e⟩
  rw [readSys, sysBytes, Enc.C07_dictionaries_round_trip _ (by simp [sysDict]) hd]
  have : sysUsers (sysDict us sc sv) = some us := by
    simp [sysUsers, sysDict, rkey, Gns.get, del, intoDict, intoUint, loadUsers_map, hroot]
  simp only [Res.bind, this]

end Verif.Old
