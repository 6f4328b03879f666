import Verif.Conform.Parser
import Verif.Server.Model
/-!
The unit tests of the statements (`core/tests/{ddl_space,ddl_model,dml}`), run on the model. The expected
results are those that the tests assert. A test gives its statement to the parser of one kind of statement
and then to the function that executes it; here the tokens go through the dispatcher (`core/exec.rs`).
-/
namespace Verif.Conform
open Verif.Lex (ascii Token)
open Verif.Gns (Cat Space Model AlterKind QErr processCreate Action)
open Verif.Server (Srv Sess Outside Answer execute)

/-- Nothing fails; what is random or unordered in the code is fixed. -/
private def world : Gns.World := ⟨true, true, ⟨7, by decide⟩, [1], true⟩
private def outside : Outside :=
  ⟨world, id, id, ⟨fun a _ => a, fun a _ => a, fun a _ => a, fun a _ => a⟩, fun _ => none, fun _ => "", fun _ => [],
   fun _ => 0, true, fun _ => [], fun _ => [], fun sp => sp.models⟩

/-- What a test sees of an answer. -/
inductive Seen where
  | done
  | row (cs : List Cell)
  | rows (rs : List (List Cell))
  | rowErr (e : Dml.DErr)
  | err (e : QErr)
  | notFound
  | other
  deriving DecidableEq

def seen : Answer → Seen
  | .ddl (.ok _) => .done
  | .ddl (.err e) => .err e
  | .rows .empty => .done
  | .rows (.row cs) => .row cs
  | .rows (.rows _ rs) => .rows rs
  | .rows (.err e) => .rowErr e
  | .notFound => .notFound
  | _ => .other

/-- Root runs the text of one statement, from the tokens of the insecure lexer. -/
def one (sv : Srv) (text : String) : Srv × Seen :=
  match Ql.parse true { toks := toks text } with
  | .ok q => match execute outside sv ⟨⟨"root", true⟩, none⟩ q with | (sv, _, a, _) => (sv, seen a)
  | _ => (sv, .other)

def many (sv : Srv) : List String → Srv × List Seen
  | [] => (sv, [])
  | t :: ts => match one sv t with
    | (sv, a) => match many sv ts with | (sv, as) => (sv, a :: as)

/-- The same, with the events that were written to the log. -/
def manyEv (sv : Srv) : List String → Srv × List Seen × List Enc.Event
  | [] => (sv, [], [])
  | t :: ts =>
    match Ql.parse true { toks := toks t } with
    | .ok q => match execute outside sv ⟨⟨"root", true⟩, none⟩ q with
      | (sv, _, a, ev) => match manyEv sv ts with | (sv, as, evs) => (sv, seen a :: as, ev.toList ++ evs)
    | _ => match manyEv sv ts with | (sv, as, evs) => (sv, .other :: as, evs)

/-- Nothing but the space `myspace` (`create_empty_test_space`, `Space::new_auto_all`). -/
def withSpace : Srv :=
  ⟨{ Cat.empty with spaces := Gns.upd Cat.empty.spaces "myspace" (some ⟨⟨1, by decide⟩, [], [("env", .map [])]⟩) },
   fun _ _ => Server.Rows.none⟩

def nothing : Srv := ⟨Cat.empty, fun _ _ => Server.Rows.none⟩

/-- The answers from the state with the space. -/
def answers (ts : List String) : List Seen := (many withSpace ts).2

/-! ### `core/tests/ddl_space` -/

/-- The answers, and the properties of `myspace` and the number of its models afterwards. -/
structure After where
  answers : List Seen
  props : Option Enc.Dict
  models : Option Nat
  deriving DecidableEq

def space (ts : List String) : After :=
  match many nothing ts with
  | (sv, as) => ⟨as, (sv.cat.spaces "myspace").map (·.props), (sv.cat.spaces "myspace").map (·.models.length)⟩

/-- `create.rs:34-91`. -/
theorem create_space_tests :
    space ["create space myspace"] = ⟨[.done], some [("env", dm [])], some 0⟩ ∧
    space ["create space myspace with { env: { MAX_MODELS: 100 } }"] =
      ⟨[.done], some [("env", dm [("MAX_MODELS", du 100)])], some 0⟩ ∧
    space ["create space myspace with { env: 100 }"] = ⟨[.err .invalidProps], none, none⟩ ∧
    space ["create space myspace with { i_am_blue_da_ba_dee: 100 }"] = ⟨[.err .invalidProps], none, none⟩ := by
  decide +kernel

/-- `alter.rs:34-152`. -/
theorem exec_alter_space_tests :
    space ["create space myspace", "alter space myspace with { env: { MY_NEW_PROP: 100 } }"] =
      ⟨[.done, .done], some [("env", dm [("MY_NEW_PROP", du 100)])], some 0⟩ ∧
    space ["create space myspace with { env: { MY_NEW_PROP: 100 } }",
        "alter space myspace with { env: { MY_NEW_PROP: 200 } }"] =
      ⟨[.done, .done], some [("env", dm [("MY_NEW_PROP", du 200)])], some 0⟩ ∧
    space ["create space myspace with { env: { MY_NEW_PROP: 100 } }",
        "alter space myspace with { env: { MY_NEW_PROP: null } }"] =
      ⟨[.done, .done], some [("env", dm [])], some 0⟩ ∧
    space ["alter space myspace with { env: { MY_NEW_PROP: 100 } }"] = ⟨[.err .notFound], none, none⟩ ∧
    space ["create space myspace with { env: { MY_NEW_PROP: 100 } }", "alter space myspace with { env: null }"] =
      ⟨[.done, .done], some [("env", dm [])], some 0⟩ := by decide +kernel

/-! ### `core/tests/ddl_model` -/

/-- What the tests look at in a model. -/
structure Looks where
  pk : String
  tag : Tag
  fields : List (String × Field)
  version : UInt64
  deriving DecidableEq

def looks (m : Model) : Looks := ⟨m.pk, m.pkTag, m.fields, m.version⟩

/-- `process_create` of a statement, and the result in the form above. -/
def create (text : String) : Res QErr Model :=
  match Ql.parse true { toks := toks text } with
  | .ok (.ddl (.createModel _ _ fs props _)) => processCreate ⟨7, by decide⟩ fs props
  | _ => .hang

def created (text : String) : Res QErr Looks := (create text).bind fun m => .ok (looks m)

/-- `crt.rs:38-128`. -/
theorem create_model_tests :
    created "create model myspace.mymodel(username: string, password: binary)" =
      .ok ⟨"username", .string, [("username", ⟨[.string], false⟩), ("password", ⟨[.binary], false⟩)], 0⟩ ∧
    created "create model myspace.mymodel(password: binary, primary username: string)" =
      .ok ⟨"username", .string, [("password", ⟨[.binary], false⟩), ("username", ⟨[.string], false⟩)], 0⟩ ∧
    created "create model myspace.mymodel(primary username: string, primary contract_location: binary)" =
      .err .badDefinition ∧
    created "create model myspace.mymodel(primary username: string, username: binary)" = .err .badDefinition ∧
    created "create model myspace.mymodel(primary username: string, password: binary) with { lol_prop: false }" =
      .err .badDefinition ∧
    created "create model myspace.mymodel(primary username_bytes: list { type: uint8 }, password: binary)" =
      .err .badDefinition ∧
    created "create model myspace.mymodel(primary username: float32, password: binary)" = .err .badDefinition := by
  decide +kernel

/-- The model `myspace.mymodel` after these statements. -/
def model (ts : List String) : List Seen × Option Looks :=
  match many withSpace ts with
  | (sv, as) => (as, (sv.cat.models "myspace" "mymodel").map looks)

/-- `crt.rs:147-182`. -/
theorem exec_create_model_test :
    model ["create model myspace.mymodel(username: string, password: binary)"] =
      ([.done], some ⟨"username", .string, [("username", ⟨[.string], false⟩), ("password", ⟨[.binary], false⟩)], 0⟩) := by
  decide +kernel

/-- The plan of an `ALTER MODEL` (`with_plan`, `alt.rs:38-44`). -/
inductive Planned where
  | ignore
  | add (fs : List (String × Field))
  | update (fs : List (String × Field))
  | remove (ns : List String)
  deriving DecidableEq

def planned : Action → Planned
  | .ignore => .ignore
  | .add fs => .add fs
  | .update fs => .update fs
  | .remove ns => .remove ns

def plan (crt alt : String) : Res QErr (Planned × Bool) :=
  match create crt with
  | .ok m =>
    match Ql.parse true { toks := toks alt } with
    | .ok (.ddl (.alterModel _ _ k)) => (Gns.plan id m k).bind fun x => .ok (planned x.1, x.2)
    | _ => .hang
  | _ => .hang

/-- `alt.rs:87-154`: the action and `no_lock`. -/
theorem plan_tests :
    plan "create model myspace.mymodel(username: string, password: binary)"
      "alter model myspace.mymodel add myfield { type: string, nullable: true }" =
      .ok (.add [("myfield", ⟨[.string], true⟩)], true) ∧
    plan "create model myspace.mymodel(username: string, password: binary, useless_field: uint8)"
      "alter model myspace.mymodel remove useless_field" = .ok (.remove ["useless_field"], true) ∧
    plan "create model myspace.mymodel(username: string, password: binary)"
      "alter model myspace.mymodel update password { nullable: true }" =
      .ok (.update [("password", ⟨[.binary], true⟩)], true) ∧
    plan "create model myspace.mymodel(username: string, null password: binary)"
      "alter model myspace.mymodel update password { nullable: false }" =
      .ok (.update [("password", ⟨[.binary], false⟩)], false) := by decide +kernel

private def c1 : String := "create model myspace.mymodel(username: string, password: binary)"

/-- `alt.rs:158-229`. -/
theorem plan_errors :
    plan c1 "alter model myspace.mymodel remove password_e2e" = .err .unknownField ∧
    plan c1 "alter model myspace.mymodel remove username" = .err .alterIllegal ∧
    plan c1 "alter model myspace.mymodel add username { type: string }" = .err .alterIllegal ∧
    plan c1 "alter model myspace.mymodel add password { type: string }" = .err .alterIllegal ∧
    plan c1 "alter model myspace.mymodel update username { type: string }" = .err .alterIllegal ∧
    plan c1 "alter model myspace.mymodel update username_secret { type: string }" = .err .unknownField := by
  decide +kernel

/-- `bad_type_cast` (`alt.rs:230-241`). -/
def badCast (orig new : String) : Bool :=
  plan ("create model myspace.mymodel(username: string, silly_field: " ++ orig ++ ")")
    ("alter model myspace.mymodel update silly_field { type: " ++ new ++ " }") == .err .invalidType

private def uints : List String := ["uint8", "uint16", "uint32", "uint64"]
private def sints : List String := ["sint8", "sint16", "sint32", "sint64"]
private def floats : List String := ["float32", "float64"]

/-- `alt.rs:242-294`: `list` as a new type is the bare word, as in the tests. -/
theorem bad_casts :
    (uints ++ sints ++ ["binary", "string", "list"]).all (badCast "bool") ∧
    uints.all (fun o => (["bool"] ++ sints ++ floats ++ ["binary", "string", "list"]).all (badCast o)) ∧
    sints.all (fun o => (["bool"] ++ uints ++ floats ++ ["binary", "string", "list"]).all (badCast o)) := by
  decide +kernel

/-- Lines 295-350. -/
theorem more_bad_casts :
    floats.all (fun o => (["bool"] ++ uints ++ sints ++ ["binary", "string", "list"]).all (badCast o)) ∧
    (["bool"] ++ uints ++ sints ++ floats ++ ["string", "list"]).all (badCast "binary") ∧
    (["bool"] ++ uints ++ sints ++ floats ++ ["binary", "list"]).all (badCast "string") ∧
    (["bool"] ++ uints ++ sints ++ floats ++ ["binary", "string"]).all (badCast "list { type: string }") := by
  decide +kernel

/-- `alt.rs:360-448`. -/
theorem exec_alter_model_tests :
    model ["create model myspace.mymodel(username: string, col1: uint64)",
        "alter model myspace.mymodel add (col2 { type: uint32, nullable: true }, col3 { type: uint16, nullable: true })"] =
      ([.done, .done], some ⟨"username", .string, [("username", ⟨[.string], false⟩), ("col1", ⟨[.uint64], false⟩),
        ("col2", ⟨[.uint32], true⟩), ("col3", ⟨[.uint16], true⟩)], 2⟩) ∧
    model ["create model myspace.mymodel(username: string, col1: uint64, col2: uint32, col3: uint16, col4: uint8)",
        "alter model myspace.mymodel remove (col1, col2, col3, col4)"] =
      ([.done, .done], some ⟨"username", .string, [("username", ⟨[.string], false⟩)], 4⟩) ∧
    model [c1, "alter model myspace.mymodel update password { nullable: true }"] =
      ([.done, .done], some ⟨"username", .string, [("username", ⟨[.string], false⟩), ("password", ⟨[.binary], true⟩)], 0⟩) ∧
    (model ["create model myspace.mymodel(username: string, null gh_handle: string)",
        "alter model myspace.mymodel update gh_handle { nullable: false }"]).1 = [.done, .err .needLock] := by
  decide +kernel

/-- `layerview` (`layer.rs:33-40`). -/
def view (text : String) (nullable : Bool) : Option Field :=
  match multiple Ql.rfoldLayers (toks text) with
  | .ok ls => parseLayers ls nullable
  | _ => none

/-- `layer.rs:48-77`. -/
theorem layer_views :
    view "string" false = some ⟨[.string], false⟩ ∧
    view "list { type: list { type: string } }" false = some ⟨[.list, .list, .string], false⟩ ∧
    view "list" false = none ∧ view "string { type: string }" false = none := by decide +kernel

/-- Whether a value fits. -/
def fits (text : String) (nullable : Bool) (d : Cell) : Option Bool :=
  match view text nullable with
  | some f => match f.vtData d with
    | .ok x => some x.1
    | _ => none
  | none => none

/-- `layer.rs:85-157`: each greatest (and least) number in each type. -/
theorem layer_numbers :
    fits "bool" false (b true) = some true ∧
    ((List.range 4).all fun i => (List.range 4).all fun j =>
      fits ((uints[j]?).getD "") false (u (([0xFF, 0xFFFF, 0xFFFFFFFF, 0xFFFFFFFFFFFFFFFF] : List UInt64)[i]?.getD 0)) ==
        some (decide (i ≤ j))) ∧
    ((List.range 4).all fun i => (List.range 4).all fun j =>
      fits ((sints[j]?).getD "") false (.sint .sint64 (([127, 32767, 2147483647, 9223372036854775807] : List Int64)[i]?.getD 0)) ==
        some (decide (i ≤ j)) &&
      fits ((sints[j]?).getD "") false
        (.sint .sint64 (([-128, -32768, -2147483648, -9223372036854775808] : List Int64)[i]?.getD 0)) ==
        some (decide (i ≤ j))) := by decide +kernel

/-- `layer.rs:158-240`. -/
theorem layer_values :
    fits "float32" false (.float .float64 F64.f32Min) = some true ∧ fits "float32" false (.float .float64 F64.f32Max) = some true ∧
    fits "float64" false (.float .float64 F64.f32Min) = some true ∧ fits "float64" false (.float .float64 F64.f32Max) = some true ∧
    fits "float32" false (.float .float64 F64.f64Min) = some false ∧ fits "float32" false (.float .float64 F64.f64Max) = some false ∧
    fits "float64" false (.float .float64 F64.f64Min) = some true ∧ fits "float64" false (.float .float64 F64.f64Max) = some true ∧
    fits "binary" false (.bin (ascii "hello")) = some true ∧ fits "string" false (s "hello") = some true ∧
    fits "list { type: string }" false (l [s "I", s "love", s "cats"]) = some true ∧
    fits "list { type: list { type: string } }" false
      (l [l [s "hello_11", s "hello_12"], l [s "hello_21", s "hello_22"], l [s "hello_31", s "hello_32"]]) = some true ∧
    fits "string" true .null = some true ∧ fits "list { type: string }" true .null = some true := by decide +kernel

/-! ### `core/tests/dml` -/

private def c2 : String := "create model myspace.mymodel(username: string, password: string)"
private def i2 : String := "insert into myspace.mymodel('sayan', 'pass123')"

/-- The columns of a row besides the key, as far as they are in `names` (`cloned_data`). -/
def stored (ts : List String) (key : String) (names : List String) : Option (List (Option Cell)) :=
  let r := (many withSpace ts).1.rows "myspace" "mymodel"
  match Dml.kget r.idx (.str key) with
  | some i => (r.heap[i]?).map fun o => names.map o.cells
  | none => none

/-- `insert.rs:32-88`. -/
theorem exec_insert_tests :
    stored [c2, i2] "sayan" ["password", "username"] = some [some (s "pass123"), none] ∧
    stored ["create model myspace.mymodel(username: string, null useless_password: string, null useless_email: string, null useless_random_column: uint64)",
        "insert into myspace.mymodel('sayan', null, null, null)"] "sayan"
        ["useless_password", "useless_email", "useless_random_column"] = some [some .null, some .null, some .null] ∧
    answers [c2, i2, i2] = [.done, .done, .rowErr .duplicate] ∧
    stored [c2, i2, i2] "sayan" ["password"] = some [some (s "pass123")] := by decide +kernel

/-- `delete.rs:29-56`. -/
theorem exec_delete_tests :
    answers [c2, i2, "delete from myspace.mymodel where username = 'sayan'"] = [.done, .done, .done] ∧
    stored [c2, i2, "delete from myspace.mymodel where username = 'sayan'"] "sayan" [] = none ∧
    answers [c2, "delete from myspace.mymodel where username = 'sayan'"] = [.done, .rowErr .rowNotFound] := by
  decide +kernel

private def c3 : String := "create model myspace.mymodel(username: string, null password: string)"

/-- `select.rs:32-109`. -/
theorem exec_select_tests :
    answers [c2, i2, "select * from myspace.mymodel where username = 'sayan'"] =
      [.done, .done, .row [s "sayan", s "pass123"]] ∧
    answers [c2, i2, "select username, password from myspace.mymodel where username = 'sayan'"] =
      [.done, .done, .row [s "sayan", s "pass123"]] ∧
    answers [c2, i2, "select password, username from myspace.mymodel where username = 'sayan'"] =
      [.done, .done, .row [s "pass123", s "sayan"]] ∧
    answers [c3, "insert into myspace.mymodel('sayan', null)",
      "select username, password from myspace.mymodel where username = 'sayan'"] = [.done, .done, .row [s "sayan", .null]] ∧
    answers [c3, "insert into myspace.mymodel('sayan', null)",
      "select username, password from myspace.mymodel where username = 'notsayan'"] =
      [.done, .done, .rowErr .rowNotFound] := by decide +kernel

private def people : List String :=
  ["insert into myspace.mymodel('sayan', 'password123')", "insert into myspace.mymodel('robot', 'robot123')",
   "insert into myspace.mymodel('douglas', 'galaxy123')", "insert into myspace.mymodel('hgwells', 'timemachine')",
   "insert into myspace.mymodel('orwell', '1984')"]

/-- `select.rs:115-167`: all rows, in the order in which this model iterates; the test collects them in a
map. -/
theorem exec_select_all_tests :
    (answers ([c2] ++ people ++ ["select all * from myspace.mymodel LIMIT 100"])).getLast? =
      some (.rows [[s "sayan", s "password123"], [s "robot", s "robot123"], [s "douglas", s "galaxy123"],
        [s "hgwells", s "timemachine"], [s "orwell", s "1984"]]) ∧
    (answers ([c2] ++ people ++ ["select all username from myspace.mymodel LIMIT 100"])).getLast? =
      some (.rows [[s "sayan"], [s "robot"], [s "douglas"], [s "hgwells"], [s "orwell"]]) := by decide +kernel

private def c4 : String := "create model myspace.mymodel(username: string, password: string, null email: string)"
private def i4 : String := "insert into myspace.mymodel('sayan', 'pass123', null)"

/-- `update.rs:31-85`. -/
theorem exec_update_tests :
    answers ["create model myspace.mymodel(username: string, email: string, followers: uint64, following: uint64)",
      "insert into myspace.mymodel('sayan', 'sayan@example.com', 0, 100)",
      "update myspace.mymodel set followers += 200000, following -= 15, email = 'sn@example.com' where username = 'sayan'",
      "select * from myspace.mymodel where username = 'sayan'"] =
      [.done, .done, .done, .row [s "sayan", s "sn@example.com", u 200000, u 85]] ∧
    answers [c4, i4, "update myspace.mymodel set email = 'sayan@example.com' where username = 'sayan'",
      "select * from myspace.mymodel where username='sayan'"] =
      [.done, .done, .done, .row [s "sayan", s "pass123", s "sayan@example.com"]] ∧
    answers ["create model myspace.mymodel(link: string, click_ids: list { type: string })",
      "insert into myspace.mymodel('example.com', [])",
      "update myspace.mymodel set click_ids += 'ios_client_uuid' where link = 'example.com'",
      "select * from myspace.mymodel where link = 'example.com'"] =
      [.done, .done, .done, .row [s "example.com", l [s "ios_client_uuid"]]] := by decide +kernel

/-- `update.rs:87-160`. -/
theorem exec_update_errors :
    answers [c4, i4, "update myspace.mymodel set email += '.com' where username = 'sayan'"] =
      [.done, .done, .rowErr .validation] ∧
    answers [c4, i4,
      "update myspace.mymodel set email2 = 'sayan@example.com', password += '4' where username = 'sayan'",
      "select * from myspace.mymodel where username='sayan'"] =
      [.done, .done, .rowErr .unknownField, .row [s "sayan", s "pass123", .null]] ∧
    answers ["create model myspace.mymodel(username: string, password: string, rank: uint8)",
      "insert into myspace.mymodel('sayan', 'pass123', 1)",
      "update myspace.mymodel set password = 'pass1234', rank = 'one' where username = 'sayan'",
      "select * from myspace.mymodel where username = 'sayan'"] =
      [.done, .done, .rowErr .validation, .row [s "sayan", s "pass123", .uint .uint8 1]] := by decide +kernel

end Verif.Conform
