import Verif.Conform.Exec
import Verif.Gns.Restart
import Verif.Batch.Conc
/-!
The unit tests of the storage (`storage/v2/raw/journal/tests.rs`, `storage/v2/raw/journal/raw/tests.rs`,
`storage/common_encoding/r1/tests.rs`, `storage/common_encoding/r1/impls/gns/tests`), run on the model. The
expected results are those that the tests assert.
-/
namespace Verif.Conform
open Verif.Journal
deriving instance DecidableEq for Gns.Space
open Verif.Enc (DErr Dict DVal Layout SpaceId ModelId decodeEvent)

deriving instance DecidableEq for SpaceId
deriving instance DecidableEq for ModelId
deriving instance DecidableEq for Layout
deriving instance DecidableEq for Enc.Event

/-! ### `storage/v2/raw/journal/tests.rs`: an event log -/

/-- What the tests do to their list of strings. -/
inductive Chg where
  | push (s : String)
  | pop
  | clear

/-- `impl_test_event!` (lines 69-105). -/
def Chg.ev : Chg → Ev
  | .push s => ⟨0, le 8 (encStr s).length ++ encStr s⟩
  | .pop => ⟨1, []⟩
  | .clear => ⟨2, []⟩

/-- `DECODE_DISPATCH` (lines 107-139). -/
def testApply (db : List String) (e : Ev) : Res SErr (List String) :=
  if e.kind = 0 then
    if e.payload.length < 8 then .err .corrupted
    else if (e.payload.drop 8).length ≠ unle (e.payload.take 8) then .err .corrupted
    else match decStr (e.payload.drop 8) with
      | some s => .ok (db ++ [s])
      | none => .panic
  else if e.kind = 1 then .ok db.dropLast
  else .ok []

def testDec : Decode (List String) := eventLogDecode 3 testApply

/-- The data that each session but the first finds when it opens the log, and the file at the end. -/
def found {G : Type} (dec : Decode G) (g0 : G) (run : JW → List Chg → Option Bytes) (file : Bytes) : List (List Chg) → Option (List G × Bytes)
  | [] => some ([], file)
  | s :: ss =>
    match openJournal dec g0 file [] with
    | .ok (w, g) => (run w s).bind fun file => (found dec g0 run file ss).map fun (gs, file) => (g :: gs, file)
    | _ => none

private def hdr : Bytes := List.replicate 64 0

/-- `test_this_data` (lines 179-230). -/
theorem event_log_test :
    (((firstSession hdr ([Chg.push "acai berry", .push "billberry", .push "cranberry"].map Chg.ev)).bind fun file =>
      found testDec [] (fun w s => w.session (s.map Chg.ev)) file [[.push "bradbury"], [.pop], [.push "dewberry"], [.clear]]).map (·.1)) =
    some [["acai berry", "billberry", "cranberry"], ["acai berry", "billberry", "cranberry", "bradbury"],
      ["acai berry", "billberry", "cranberry"], ["acai berry", "billberry", "cranberry", "dewberry"]] := by
  decide +kernel

/-! ### `storage/v2/raw/journal/raw/tests.rs`: the raw journal

The adapter of these tests has no checksum of its own, and it asks for `CommitPreference::Buffered`, which no
adapter of the server does. -/

/-- `commit_with_ctx` with `CommitPreference::Buffered` (`raw/mod.rs:531-540, 551-555`). -/
def bufferedCommit (w : JW) (e : Ev) : JW × Res SErr Unit :=
  w.txnContext fun w id =>
    match w.log.trackedWriteThrough (le 16 id ++ le 8 (e.kind ||| MASK) ++ e.payload) with
    | (log, .ok ()) => log.flushSync
    | (log, r) => (log, r)

/-- `decode_apply` of the tests (lines 168-194): there is no length of the payload but the one inside. -/
def simpleDec : Decode (List String) := fun db md tr =>
  if md = 0 then
    (tr.read 8).bind fun (n, tr) => (tr.read (unle n)).bind fun (x, tr) =>
      match decStr x with
      | some s => .ok (db ++ [s], tr)
      | none => .err .eventCorrupted
  else if md = 1 then if db = [] then .panic else .ok (db.dropLast, tr)
  else if md = 2 then .ok ([], tr)
  else .err .metaCorrupted

/-- Commit and close. -/
def bufferedSession (w : JW) (cs : List Chg) : Option Bytes :=
  let rec go (w : JW) : List Chg → Option JW
    | [] => some w
    | c :: cs => match bufferedCommit w c.ev with
      | (w, .ok ()) => go w cs
      | _ => none
  (go w cs).bind fun w => fileOf w.close

/-- All driver events of a file in order, with their own id and the one that they name as the previous;
`none` for an event of the server. `n` bounds the number of events. -/
def driverEvents : Nat → Bytes → List (Nat × Option (DKind × Nat))
  | 0, _ => []
  | n + 1, b =>
    if b.length < 24 then []
    else if MASK ≤ unle (slice b 16 24) then
      -- a push; the other events have no payload
      let used := if unle (slice b 16 24) = MASK then 32 + unle (slice b 24 32) else 24
      (unle (slice b 0 16), none) :: driverEvents n (b.drop used)
    else
      match DriverEvent.decode (b.take 64) with
      | some e => (e.txnId, some (e.event, e.lastTxnId)) :: driverEvents n (b.drop 64)
      | none => []

/-- The sessions: what each but the first finds, and the events of the last file. -/
def sessions (first : List Chg) (rest : List (List Chg)) : Option (List (List String) × List (Nat × Option (DKind × Nat))) :=
  match JW.create hdr [] with
  | (w, .ok ()) =>
    (bufferedSession w first).bind fun file =>
      (found simpleDec [] bufferedSession file rest).map fun (gs, file) => (gs, driverEvents 20 (file.drop 64))
  | _ => none

/-- `encode_decode_meta` (lines 48-53). -/
theorem driver_event_test :
    DriverEvent.decode (DriverEvent.encode (2 ^ 128 - 2) .reopened 0 0 0) = some ⟨2 ^ 128 - 2, .reopened, 0, 0, 0⟩ := by
  decide +kernel

/-- `journal_open_close` (lines 196-307): three boots without an event; the numbers are those of the traces. -/
theorem open_close_test :
    sessions [] [[], []] = some ([[], []],
      [(0, some (.closed, 0)), (1, some (.reopened, 0)), (2, some (.closed, 1)), (3, some (.reopened, 2)), (4, some (.closed, 3))]) := by
  decide +kernel

/-- `journal_with_server_single_event` (lines 309-442). -/
theorem single_event_test :
    sessions [.push "hello world"] [[], []] = some ([["hello world"], ["hello world"]],
      [(0, none), (1, some (.closed, 0)), (2, some (.reopened, 1)), (3, some (.closed, 2)), (4, some (.reopened, 3)),
       (5, some (.closed, 4))]) := by
  decide +kernel

/-- `multi_boot` (lines 444-468). -/
theorem multi_boot_test :
    (sessions [.push "key_a", .push "key_b", .pop] [[.clear, .push "myfinkey"], []]).map (·.1) =
      some [["key_a"], ["myfinkey"]] := by
  decide +kernel

/-! ### `storage/common_encoding/r1/tests.rs` -/

/-- `dict` (lines 49-62). -/
theorem dict_encoding_test :
    let d : Dict := [("hello", ds "world"), ("omg a null?", dn), ("a big fat dict", dm [("with a value", du 1002), ("and a null", dn)])]
    Enc.decDictFull (Enc.encDictFull d) = .ok (d, []) := by
  decide +kernel

/-- `layer` (lines 64-70) and `field` (lines 72-78). -/
theorem layer_field_tests :
    Enc.decLayer (Enc.encLayer .list) = .ok (.list, []) ∧
    Enc.decFields 1 (Enc.encFields [("f", ⟨[.list, .uint64], true⟩)]) = .ok ([("f", ⟨[.list, .uint64], true⟩)], []) := by
  decide +kernel

/-- `fieldmap` (lines 80-99). -/
theorem fieldmap_test :
    Enc.decFields 2 (Enc.encFields [("password", ⟨[.binary], false⟩), ("profile_pic", ⟨[.binary], true⟩)]) =
      .ok ([("password", ⟨[.binary], false⟩), ("profile_pic", ⟨[.binary], true⟩)], []) := by
  decide +kernel

private def enc1 (c : Cell) : Bool :=
  match Enc.enc c with
  | d :: b => Enc.decElem .scanner (b.length + 1) d.toNat b = .ok (c, [])
  | [] => false

private def nest : Nat → Cell
  | 0 => .list []
  | n + 1 => .list [nest n]

/-- `dc_encode_decode` (lines 128-242). The floats are the bits of the least and the greatest `f32` and `f64`. -/
theorem cell_encoding_test :
    ([.null, .bool true, .bool false, .uint .uint8 0, .uint .uint8 255, .uint .uint16 0, .uint .uint16 65535, .uint .uint32 0,
      .uint .uint32 4294967295, .uint .uint64 0, .uint .uint64 18446744073709551615, .sint .sint8 (-128), .sint .sint8 127,
      .sint .sint16 (-32768), .sint .sint16 32767, .sint .sint32 (-2147483648), .sint .sint32 2147483647,
      .sint .sint64 (-9223372036854775808), .sint .sint64 9223372036854775807, .float .float32 0xC7EFFFFFE0000000,
      .float .float32 0x47EFFFFFE0000000, .float .float64 0xFFEFFFFFFFFFFFFF, .float .float64 0x7FEFFFFFFFFFFFFF, .bin [],
      .bin (encStr "abcdefghijkl"), .str "", .str "abcdefghijkl", .list []] : List Cell).all enc1 = true ∧
    ((List.range 100).map nest).all enc1 = true := by
  constructor <;> decide +kernel

/-! ### `storage/common_encoding/r1/impls/gns/tests/io.rs` -/

private def sid : SpaceId := ⟨"myspace", 7⟩
private def lay : Layout := ⟨9, "username", .string, [("password", ⟨[.binary], false⟩), ("profile_pic", ⟨[.binary], true⟩)]⟩
private def mid : ModelId := ⟨sid, "mymodel", 0, 9⟩

/-- The tests of `space_tests` (lines 38-90) and `model_tests` (lines 91-253). -/
theorem event_encoding_tests :
    ([.createSpace "myspace" 7 [("env", dm [])], .alterSpace sid [("env", dm [])], .dropSpace sid, .createModel sid "mymodel" lay,
      .alterAdd mid [("auth_2fa", ⟨[.bool], true⟩)], .alterRemove mid ["profile_pic"],
      .alterUpdate mid [("profile_pic", ⟨[.binary], false⟩)], .dropModel mid] : List Enc.Event).all
        (fun e => decodeEvent e.code e.encode = .ok (e, [])) = true := by
  decide +kernel

/-! ### `storage/common_encoding/r1/impls/gns/tests/full_chain.rs` -/

/-- The statements of the test, the log on disk, and the catalogue after a restart. -/
def chain (ts : List String) : Option (List Seen × Gns.Cat) :=
  match manyEv nothing ts with
  | (_, as, evs) =>
    (firstSession hdr (evs.map Gns.toEv)).bind fun file =>
      match openJournal (eventLogDecode 11 Gns.gnsApply) Gns.Cat.empty file [] with
      | .ok (w, c) => match w.close with
        | (w, .ok ()) => match openJournal (eventLogDecode 11 Gns.gnsApply) Gns.Cat.empty w.log.disk [] with
          | .ok (_, c') => if c'.spaces "myspace" = c.spaces "myspace" then some (as, c') else none
          | _ => none
        | _ => none
      | _ => none

private def spaceAfter (ts : List String) : Option (Option Dict) := (chain ts).map fun (_, c) => (c.spaces "myspace").map (·.props)

private def fieldsAfter (ts : List String) : Option (Option (String × Tag × List (String × Field))) :=
  (chain ts).map fun (_, c) => (c.models "myspace" "mymodel").map fun m => (m.pk, m.pkTag, m.fields)

/-- `create_space`, `alter_space`, `drop_space` (lines 69-146). -/
theorem chain_space_tests :
    spaceAfter ["create space myspace with { env: { SAYAN_MAX: 65536 } }"] = some (some [("env", dm [("SAYAN_MAX", du 65536)])]) ∧
    spaceAfter ["create space myspace with { env: {} }", "alter space myspace with { env: { SAYAN_MAX: 65536 } }"] =
      some (some [("env", dm [("SAYAN_MAX", du 65536)])]) ∧
    spaceAfter ["create space myspace with { env: {} }", "drop space myspace"] = some none := by
  refine ⟨?_, ?_, ?_⟩ <;> decide +kernel

/-- `create_model`, `alter_model_add`, `alter_model_remove`, `alter_model_update`, `drop_model` (lines 175-333). -/
theorem chain_model_tests :
    fieldsAfter ["create space myspace with { env: {} }", "create model myspace.mymodel (username: string, password: binary)"] =
      some (some ("username", .string, [("username", ⟨[.string], false⟩), ("password", ⟨[.binary], false⟩)])) ∧
    fieldsAfter ["create space myspace with { env: {} }", "create model myspace.mymodel (username: string, password: binary)",
      "alter model myspace.mymodel add profile_pic { type: binary, nullable: true }"] =
      some (some ("username", .string, [("username", ⟨[.string], false⟩), ("password", ⟨[.binary], false⟩), ("profile_pic", ⟨[.binary], true⟩)])) ∧
    fieldsAfter ["create space myspace with { env: {} }",
      "create model myspace.mymodel (username: string, password: binary, null profile_pic: binary, null has_2fa: bool, null has_secure_key: bool, is_dumb: bool)",
      "alter model myspace.mymodel remove (has_secure_key, is_dumb)"] =
      some (some ("username", .string, [("username", ⟨[.string], false⟩), ("password", ⟨[.binary], false⟩), ("profile_pic", ⟨[.binary], true⟩),
        ("has_2fa", ⟨[.bool], true⟩)])) ∧
    fieldsAfter ["create space myspace with { env: {} }",
      "create model myspace.mymodel (username: string, password: binary, profile_pic: binary)",
      "alter model myspace.mymodel update profile_pic { nullable: true }"] =
      some (some ("username", .string, [("username", ⟨[.string], false⟩), ("password", ⟨[.binary], false⟩), ("profile_pic", ⟨[.binary], true⟩)])) ∧
    fieldsAfter ["create space myspace with { env: {} }", "create model myspace.mymodel (username: string, password: binary)",
      "drop model myspace.mymodel"] = some none := by
  refine ⟨?_, ?_, ?_, ?_, ?_⟩ <;> decide +kernel

/-! ### `storage/v2/impls/tests/model_driver.rs`

The tests use 1000 rows and 8200 rows, and keys of as many digits; here it is a few rows with short keys. -/

/-- The statement on rows that a text stands for. -/
def rowText (text : String) : Option Dml.Stmt :=
  match Ql.parse true { toks := toks text } with
  | .ok (.rows q) => some (Server.rowStmt q.stmt)
  | _ => none

private def noFloats : Dml.FloatOps := ⟨fun a _ => a, fun a _ => a, fun a _ => a, fun a _ => a⟩

/-- Start, or create the file when there is none. -/
def driverStart (m : Gns.Model) : Option Bytes → Batch.Run (Batch.Srv × Unit)
  | some f => Batch.start 100000 m f
  | none => match JW.create hdr [] with
    | (w, .ok ()) => .ok (⟨w, Dml.Tbl.empty m⟩, ())
    | _ => .bad

private def isEmpty : Dml.Reply → Bool
  | .empty => true
  | _ => false

/-- A session: start, run the statements, shut down. `none` if anything fails or a statement is refused. -/
def driverSession (m : Gns.Model) (file : Option Bytes) (texts : List String) : Option Bytes :=
  match (driverStart m file).bind fun (s, _) =>
      Batch.session noFloats id 100000 ((texts.filterMap rowText).map .stmt) s with
  | .ok e => if e.replies.length = texts.length ∧ e.replies.all isEmpty = true then some e.file else none
  | _ => none

def driverSessions (m : Gns.Model) : Option Bytes → List (List String) → Option (Option Bytes)
  | file, [] => some file
  | file, s :: ss => (driverSession m file s).bind fun f => driverSessions m (some f) ss

/-- What the tests look at in the rows after the last restart: the password and `txn_revised`. -/
def driverRows (decl : String) (ss : List (List String)) (keys : List Dml.Key) : Option (List (Option (Option Cell × Nat))) :=
  match create decl with
  | .ok m => (driverSessions m none ss).bind fun file => file.bind fun file =>
    match Batch.start 100000 m file with
    | .ok (s, _) => some (keys.map fun k => (Dml.kget s.t.idx k).bind fun i => s.t.heap[i]?.map fun r => (r.cells "password", r.revised))
    | _ => none
  | _ => none

private def strIns : List String := ["insert into apps.social('user-1', 'password-1')", "insert into apps.social('user-2', 'password-2')",
  "insert into apps.social('user-3', 'password-3')"]
private def intIns : List String := ["insert into apps.social(0, 'password-0')", "insert into apps.social(1, 'password-1')",
  "insert into apps.social(2, 'password-2')"]

/-- `empty_model_data` (lines 253-263). -/
theorem model_data_empty_test :
    driverRows "create model milky_way.solar_system(planet_name: string, population: uint64)" [[], []] [] = some [] ∧
    driverRows "create model milky_way.solar_system(planet_id: uint64, population: uint64)" [[], []] [] = some [] := by
  constructor <;> decide +kernel

/-- `model_data_inserts` (lines 265-283). -/
theorem model_data_inserts_test :
    driverRows "create model apps.social(user_name: string, password: string)" [strIns, [], [], []]
        [.str "user-1", .str "user-2", .str "user-3"] =
      some [some (some (.str "password-1"), 0), some (some (.str "password-2"), 1),
        some (some (.str "password-3"), 2)] ∧
    driverRows "create model apps.social(user_id: uint64, password: string)" [intIns, [], [], []]
        [.uint 0, .uint 1, .uint 2] =
      some [some (some (.str "password-0"), 0), some (some (.str "password-1"), 1),
        some (some (.str "password-2"), 2)] := by
  constructor <;> decide +kernel

/-- `model_data_updates` (lines 285-317). -/
theorem model_data_updates_test :
    driverRows "create model apps.social(user_name: string, password: string)"
        [strIns, ["update apps.social set password = '' where user_name = 'user-1'"],
         ["update apps.social set password = '' where user_name = 'user-2'"],
         ["update apps.social set password = '' where user_name = 'user-3'"]]
        [.str "user-1", .str "user-2", .str "user-3"] =
      some [some (some (.str ""), 3), some (some (.str ""), 4), some (some (.str ""), 5)] ∧
    driverRows "create model apps.social(user_name: uint64, password: string)"
        [intIns, ["update apps.social set password = '' where user_name = 0"],
         ["update apps.social set password = '' where user_name = 1"],
         ["update apps.social set password = '' where user_name = 2"]]
        [.uint 0, .uint 1, .uint 2] =
      some [some (some (.str ""), 3), some (some (.str ""), 4), some (some (.str ""), 5)] := by
  constructor <;> decide +kernel

end Verif.Conform
