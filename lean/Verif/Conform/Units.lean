import Verif.Conform.Base
import Verif.Num.Model
import Verif.Net.Handshake
import Verif.Net.Exchange
import Verif.Gns.Dict
import Verif.Config.Model
/-!
Unit tests of the scanner (`mem/tests/scanner.rs`), of the protocol (`net/protocol/tests.rs`), of the
dictionaries (`data/tests/md_dict_tests.rs`) and of the settings (`tests/cfg.rs`), run on the model. The
expected results are those that the tests assert.
-/
namespace Verif.Conform
open Verif.Lex (ascii)
open Verif.Num (u64Lf u64LfOpt i64Lf i64Loop Decoded)
open Verif.Net (HsState HsConn HsStep hsResume XState XInternal XResult resume scanInt)
open Verif.Enc (DVal Dict)

/-! ### The scanner -/

/-- `mem/tests/scanner.rs:37-89`. -/
theorem u64_tests :
    u64LfOpt (ascii "18446744073709551615\n") = some (18446744073709551615, []) ∧
    u64LfOpt (ascii "18446744073709551615") = none ∧
    u64LfOpt (ascii "1844674407370955161A\n") = none ∧
    u64LfOpt (ascii "?1844674407370955161A\n") = none ∧
    u64LfOpt (ascii "0\n") = some (0, []) ∧
    u64LfOpt (ascii "184467440737095516155\n") = none := by decide +kernel

/-- Lines 95-148. -/
theorem u64_result_tests :
    u64Lf (ascii "18446744073709551615\n") = .value 18446744073709551615 [] ∧
    u64Lf (ascii "18446744073709551615") = .needMore ∧
    u64Lf (ascii "1844674407370955161A\n") = .error ∧
    u64Lf (ascii "?1844674407370955161A\n") = .error ∧
    u64Lf (ascii "0\n") = .value 0 [] ∧
    u64Lf (ascii "184467440737095516155\n") = .error := by decide +kernel

/-- Lines 162-233: the result, and where the cursor ends: the model of the loop gives what is left and the
number. -/
theorem i64_tests :
    i64Lf (ascii "9223372036854775807\n") = some (9223372036854775807, []) ∧
    i64Lf (ascii "-9223372036854775808\n") = some (-9223372036854775808, []) ∧
    i64Lf (ascii "9223372036854775807") = none ∧
    i64Loop false (ascii "9223372036854775807") 0 = ([], true, 9223372036854775807) ∧
    i64Lf (ascii "-9223372036854775808") = none ∧
    i64Loop true (ascii "9223372036854775808") 0 = ([], true, -9223372036854775808) ∧
    i64Lf (ascii "9223372036854775807A\n") = none ∧
    (i64Loop false (ascii "9223372036854775807A\n") 0) = (ascii "\n", false, 9223372036854775807) ∧
    i64Lf (ascii "A-9223372036854775808\n") = none ∧
    i64Lf (ascii "18446744073709551615\n") = none ∧
    i64Lf (ascii "-92233720368547758081\n") = none ∧
    i64Loop true (ascii "92233720368547758081\n") 0 = (ascii "\n", false, -9223372036854775808) := by
  decide +kernel

/-- Lines 214-223: the value that the test asserts is the number before the last digit. -/
theorem i64_overflow_test :
    (i64Loop false (ascii "18446744073709551615\n") 0) = (ascii "\n", false, 1844674407370955161) := by decide +kernel

/-! ### The handshake (`net/protocol/tests.rs`) -/

/-- `FULL_HANDSHAKE_WITH_AUTH` (line 77). -/
def hello : Bytes := [72, 0, 0, 0, 0, 0] ++ ascii "5\n8\nsayanpass1234"

/-- Lines 91-143: each beginning of it, in the initial state. Up to five bytes are not looked at by the
loop of the connection. -/
theorem handshake_stages : hello.length = 23 ∧ (List.range 24).all fun n =>
    let r := hsResume (hello.take n) 0 .initial
    if n < 6 then HsConn.feed {} (hello.take n) == .more { buf := hello.take n }
    else if n < 10 then r == .change .staticBlock 4 6
    else if n < 23 then r == .change (.expectVar 5 8) 13 10
    else r == .completed (ascii "sayan") (ascii "pass1234") 23 := by decide +kernel

/-- `run_state_changes_return_rounds` (lines 149-173): the number of rounds. The fuel is larger than the
length of the packet, and each round but the last moves on (`rounds_test`). -/
def rounds (src : Bytes) : Nat → HsState → Nat → Nat → Option (Nat × Bytes × Bytes)
  | 0, _, _, _ => none
  | n + 1, st, cursor, expect =>
    match hsResume (src.take (cursor + expect)) cursor st with
    | .change st expect cursor => (rounds src n st cursor expect).map fun x => (x.1 + 1, x.2)
    | .completed u p _ => some (1, u, p)
    | _ => none

/-- Lines 175-185. -/
theorem rounds_test : rounds hello 24 .initial 0 6 = some (3, ascii "sayan", ascii "pass1234") := by decide +kernel

/-- Lines 187-285. -/
theorem handshake_errors :
    hsResume ([72, 0, 0, 0, 0, 0] ++ ascii "A\n8\nsayanpass1234") 0 .initial = .error .corrupted ∧
    hsResume ([72, 0, 0, 0, 0, 0] ++ ascii "5\nA\nsayanpass1234") 0 .initial = .error .corrupted ∧
    hsResume ([72, 0, 0, 0, 0, 0] ++ ascii "A\nA\nsayanpass1234") 0 .initial = .error .corrupted ∧
    hsResume [73, 0, 0, 0, 0, 0] 0 .initial = .error .corrupted ∧
    hsResume [72, 1, 0, 0, 0, 0] 0 .initial = .error .hsVersion ∧
    hsResume [72, 0, 1, 0, 0, 0] 0 .initial = .error .protocol ∧
    hsResume [72, 0, 0, 1, 0, 0] 0 .initial = .error .exchangeMode ∧
    hsResume [72, 0, 0, 0, 1, 0] 0 .initial = .error .queryMode ∧
    hsResume [72, 0, 0, 0, 0, 1] 0 .initial = .error .auth := by decide +kernel

/-! ### The exchange of queries -/

/-- `create_simple_query` (lines 51-70). -/
def simpleQuery (q p : String) : Bytes :=
  let n := (ascii q).length
  ascii "S" ++ Num.fmtNat (n + (ascii p).length + (Num.fmtNat n).length + 1) ++ [10] ++
    Num.fmtNat n ++ [10] ++ ascii q ++ ascii p

/-- The packet of `stages_manual`. -/
def packet : Bytes := simpleQuery "select * from mymodel where username = ?" "sayan"

/-- `stages_manual` (lines 361-446). -/
theorem exchange_stages :
    resume (packet.take 5) 0 XState.new = .change ⟨.pendingMeta2, 52, 48, 4⟩ 5 ∧
    resume (packet.take 6) 0 XState.new = .change ⟨.pendingMeta2, 52, 48, 40⟩ 6 ∧
    ((List.range packet.length).filter fun n => decide (7 ≤ n)).all (fun n =>
      resume (packet.take n) 0 XState.new == .change ⟨.pendingData, 52, 48, 40⟩ 7) ∧
    resume packet 0 XState.new = .completed (ascii "select * from mymodel where username = ?sayan") 40 := by
  decide +kernel

/-- `exchange_bad_segment_metadata` (lines 448-474). -/
theorem exchange_errors :
    resume (ascii "S4A\n32\ndelete from dbs where dbname = ?sillydb") 0 XState.new = .error ∧
    resume (ascii "S42\n3A\ndelete from dbs where dbname = ?sillydb") 0 XState.new = .error ∧
    resume (ascii "S4A\n3A\ndelete from dbs where dbname = ?sillydb") 0 XState.new = .error := by decide +kernel

/-- `num_accumulate` (lines 476-494). -/
theorem accumulate_tests :
    scanInt (ascii "1") 0 = .pending 1 ∧ scanInt (ascii "12") 0 = .pending 12 ∧
    scanInt (ascii "123") 0 = .pending 123 ∧ scanInt (ascii "123\n") 0 = .completed 123 [] ∧
    scanInt (ascii "\n") 0 = .completed 0 [] ∧ scanInt (ascii "A") 0 = .error ∧
    scanInt (ascii "A\n") 0 = .error ∧ scanInt (ascii "1A") 0 = .error ∧ scanInt (ascii "1A\n") 0 = .error := by
  decide +kernel

/-- The loop of `parse_staged` (lines 293-345) with reads that end at the given lengths of the packet. -/
def staged (buf : Bytes) : List Nat → Nat → XState → Option (Bytes × Nat)
  | [], _, _ => none
  | n :: ns, cursor, s =>
    if (buf.take n).length < s.target then staged buf ns cursor s
    else
      match resume (buf.take n) cursor s with
      | .change s cursor => staged buf ns cursor s
      | .completed b q => some (b, q)
      | .error => none

/-- `SQ` (line 291). -/
def sq : Bytes := simpleQuery "select * from myspace.mymodel where username = ?" "sayan"

/-- `staged_randomized` (lines 347-359) draws the ends of the reads at random; here all pairs of ends, and one
byte at a time. -/
theorem staged_all :
    (List.range (sq.length + 1)).all (fun a => (List.range (a + 1)).all fun b =>
      staged sq [b, a, sq.length] 0 XState.new ==
        some (ascii "select * from myspace.mymodel where username = ?sayan", 48)) ∧
    staged sq (List.range (sq.length + 1)) 0 XState.new =
      some (ascii "select * from myspace.mymodel where username = ?sayan", 48) := by decide +kernel

/-! ### Dictionaries -/

private def nat (n : UInt64) : DVal := .data (.uint .uint64 n)
private def int (n : Int64) : DVal := .data (.sint .sint64 n)

/-- `data/tests/md_dict_tests.rs:32-103`. -/
theorem dictionary_tests :
    Gns.flatten [("a_valid_key", nat 100), ("a_null_key", .data .null)] = [("a_valid_key", nat 100)] ∧
    Gns.rmerge [("a", nat 2), ("b", nat 3), ("z", int (-100))] [("a", nat 1), ("b", nat 2), ("z", .data .null)] =
      .ok (some [("a", nat 1), ("b", nat 2)]) ∧
    Gns.rmerge [("a", nat 2), ("b", nat 3), ("z", int (-100))] [("a", nat 1), ("b", nat 2), ("z", .data (.str "omg"))] =
      .ok none ∧
    Gns.rmerge [("a", nat 2), ("b", nat 3), ("z", .map [("c", nat 1), ("d", nat 2)])]
        [("a", nat 2), ("b", nat 3), ("z", .data .null)] = .ok (some [("a", nat 2), ("b", nat 3)]) := by
  decide +kernel

/-! ### Settings (`tests/cfg.rs`) -/

section Cfg
open Verif.Config

/-- The command lines of the tests: the words. -/
private def words (s : String) : List Str := (splitOn ' ' s.toList).filter fun w => !w.isEmpty

/-- Lines 58-87, 133-139. -/
theorem cli_tests :
    parseCli (words "skyd --mode dev --endpoint tcp@localhost:2003") =
      .ok (.args [("--mode".toList, ["dev".toList]), ("--endpoint".toList, ["tcp@localhost:2003".toList])]) ∧
    parseCli (words "skyd --mode=dev --endpoint=tcp@localhost:2003") =
      .ok (.args [("--mode".toList, ["dev".toList]), ("--endpoint".toList, ["tcp@localhost:2003".toList])]) ∧
    parseCli (words "skyd --mode=dev --endpoint tcp@localhost:2003") =
      .ok (.args [("--mode".toList, ["dev".toList]), ("--endpoint".toList, ["tcp@localhost:2003".toList])]) ∧
    parseCli (words "skyd --help") = .ok .help ∧ parseCli (words "skyd --version") = .ok .version := by decide +kernel

/-- `with_files`: the files exist and are empty. -/
private def files (names : List String) : Fs := fun p => if names.any (fun n => n.toList = p) then some [] else none

private def noEnv : Str → Var := fun _ => .absent

/-- Lines 88-132. -/
theorem cli_validate_test :
    check (files ["k", "c", "p"]) (fun _ => none) (words
      "skyd --mode=dev --endpoint tcp@127.0.0.1:2003 --endpoint tls@127.0.0.2:2004 --service-window=600 --tlskey k --tlscert c --tls-passphrase p --auth-plugin pwd --auth-root-password password12345678") noEnv =
    .ok (.config ⟨.multi ⟨"127.0.0.1".toList, 2003⟩ ⟨⟨"127.0.0.2".toList, 2004⟩, [], [], []⟩, .dev, 600,
      "password12345678".toList⟩) := by decide +kernel

/-- Lines 140-156. -/
theorem help_tests :
    check (files []) (fun _ => none) (words "skyd --help") noEnv = .ok .message ∧
    check (files []) (fun _ => none) (words "skyd --version") noEnv = .ok .message := by decide +kernel

private def env (vs : List (String × String)) : Str → Var := fun k =>
  match vs.find? (fun v => v.1.toList = k) with
  | some v => .val v.2.toList
  | none => .absent

/-- Lines 177-192: the arguments in the order of `KEYS`. -/
theorem env_simple_test :
    parseEnv (env [("SKYDB_TLS_CERT", "/var/skytable/keys/cert.pem"), ("SKYDB_TLS_KEY", "/var/skytable/keys/private.key"),
      ("SKYDB_AUTH_PLUGIN", "pwd"), ("SKYDB_AUTH_ROOT_PASSWORD", "password12345678"),
      ("SKYDB_ENDPOINTS", "tcp@localhost:8080"), ("SKYDB_RUN_MODE", "dev"), ("SKYDB_SERVICE_WINDOW", "600")]) =
    .ok (some [("SKYDB_AUTH_PLUGIN".toList, ["pwd".toList]), ("SKYDB_AUTH_ROOT_PASSWORD".toList, ["password12345678".toList]),
      ("SKYDB_ENDPOINTS".toList, ["tcp@localhost:8080".toList]), ("SKYDB_RUN_MODE".toList, ["dev".toList]),
      ("SKYDB_SERVICE_WINDOW".toList, ["600".toList]), ("SKYDB_TLS_CERT".toList, ["/var/skytable/keys/cert.pem".toList]),
      ("SKYDB_TLS_KEY".toList, ["/var/skytable/keys/private.key".toList])]) := by decide +kernel

/-- Lines 193-208. -/
theorem env_multi_test :
    parseEnv (env [("SKYDB_TLS_CERT", "/var/skytable/keys/cert.pem"), ("SKYDB_TLS_KEY", "/var/skytable/keys/private.key"),
      ("SKYDB_AUTH_PLUGIN", "pwd"), ("SKYDB_AUTH_ROOT_PASSWORD", "password12345678"),
      ("SKYDB_ENDPOINTS", "tcp@localhost:8080,tls@localhost:8081"), ("SKYDB_RUN_MODE", "dev"),
      ("SKYDB_SERVICE_WINDOW", "600")]) =
    .ok (some [("SKYDB_AUTH_PLUGIN".toList, ["pwd".toList]), ("SKYDB_AUTH_ROOT_PASSWORD".toList, ["password12345678".toList]),
      ("SKYDB_ENDPOINTS".toList, ["tcp@localhost:8080".toList, "tls@localhost:8081".toList]), ("SKYDB_RUN_MODE".toList, ["dev".toList]),
      ("SKYDB_SERVICE_WINDOW".toList, ["600".toList]), ("SKYDB_TLS_CERT".toList, ["/var/skytable/keys/cert.pem".toList]),
      ("SKYDB_TLS_KEY".toList, ["/var/skytable/keys/private.key".toList])]) := by decide +kernel

/-- Lines 209-248. -/
theorem env_validate_test :
    check (files ["c", "k", "p"]) (fun _ => none) (words "skyd")
      (env [("SKYDB_AUTH_PLUGIN", "pwd"), ("SKYDB_AUTH_ROOT_PASSWORD", "password12345678"), ("SKYDB_TLS_CERT", "c"),
        ("SKYDB_TLS_KEY", "k"), ("SKYDB_TLS_PRIVATE_KEY_PASSWORD", "p"),
        ("SKYDB_ENDPOINTS", "tcp@localhost:8080,tls@localhost:8081"), ("SKYDB_RUN_MODE", "dev"),
        ("SKYDB_SERVICE_WINDOW", "600")]) =
    .ok (.config ⟨.multi ⟨"localhost".toList, 8080⟩ ⟨⟨"localhost".toList, 8081⟩, [], [], []⟩, .dev, 600,
      "password12345678".toList⟩) := by decide +kernel

/-- Lines 249-301: the file as the reader of YAML gives it. -/
theorem file_test :
    check (files ["config.yml", "c", "k", "p"])
      (fun _ => some ⟨some .dev, some 600, some ⟨"127.0.0.1".toList, 2003⟩,
        some ⟨⟨"127.0.0.1".toList, 2004⟩, "c".toList, "k".toList, "p".toList⟩, some "password12345678".toList⟩)
      (words "skyd --config=config.yml") noEnv =
    .ok (.config ⟨.multi ⟨"127.0.0.1".toList, 2003⟩ ⟨⟨"127.0.0.1".toList, 2004⟩, [], [], []⟩, .dev, 600,
      "password12345678".toList⟩) := by decide +kernel
end Cfg

end Verif.Conform
