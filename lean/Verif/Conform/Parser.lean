import Verif.Conform.Lexer
/-!
The unit tests of the parser (`ql/tests/{structure_syn, misc, dcl, dml_tests, schema_tests}.rs`), run on
the model. The expected results are those of the authors. Hash maps are lists in the order of insertion in
the model. Of the properties of a layer the model keeps only whether there are any.
-/
namespace Verif.Conform
open Verif.Lex Verif.Ql Verif.Dml

/-- The tokens of a text; none at all if it is refused. -/
def toks (text : String) : List Token :=
  match lexIns text with
  | .ok ts => ts
  | .error _ => []

/-- `from_insecure_tokens_full`, `test_parse_from_state` (`ql/ast/traits.rs:76-86, 108-125`). With
`verify` the flag is looked at first. A panic if tokens are left. -/
def full (verify : Bool) (p : P α) (e : Env) : Res QlErr α :=
  match p e ⟨0, true⟩ with
  | .ok (a, s) =>
    if verify && !s.f then .err .invalidSyntax
    else if s.i = e.toks.length then .ok a
    else .panic
  | .err x => .err x
  | .panic => .panic
  | .hang => .hang

/-- `parse_ast_node_full(&tok[k..])` of a node without deep errors, and of one with them. -/
def node (k : Nat) (p : P α) (text : String) : Res QlErr α := full false p { toks := (toks text).drop k }
def deep (k : Nat) (p : P α) (text : String) : Res QlErr α := full true p { toks := (toks text).drop k }

/-- `parse_ast_node_full_with_space(&tok[k..], cs)`. -/
def inSpace (k : Nat) (cs : String) (p : P α) (text : String) : Res QlErr α :=
  full false p { toks := (toks text).drop k, cs := some cs }

/-- `test_parse_from_state(&tok[k..])`, which does not look for the end. -/
def part (k : Nat) (p : P α) (text : String) : Res QlErr α := p.run { toks := (toks text).drop k } 0

/-- `multiple_from_insecure_tokens_full` (`ql/ast/traits.rs:124-132`). -/
def multiple (p : P α) (ts : List Token) : Res QlErr α :=
  match p { toks := ts } ⟨0, true⟩ with
  | .ok (a, s) => if s.i = ts.length && s.f then .ok a else .err .invalidSyntax
  | .err x => .err x
  | .panic => .panic
  | .hang => .hang

/-! ### Values as the tests write them -/

def u (n : UInt64) : Cell := .uint .uint64 n
def s (x : String) : Cell := .str x
def b (x : Bool) : Cell := .bool x
def l (x : List Cell) : Cell := .list x
def du (n : UInt64) : Enc.DVal := .data (u n)
def ds (x : String) : Enc.DVal := .data (s x)
def db (x : Bool) : Enc.DVal := .data (b x)
def dn : Enc.DVal := .data .null
def dm (x : Enc.Dict) : Enc.DVal := .map x

/-! ### `structure_syn.rs` -/

def dict (text : String) : Res QlErr Enc.Dict := deep 0 (rfoldDict .ob) text

/-- Lines 53-130. -/
theorem dict_tests :
    dict "{name: \"sayan\"}" = .ok [("name", ds "sayan")] ∧
    dict "{name: \"sayan\",}" = .ok [("name", ds "sayan")] ∧
    dict "{ name: \"sayan\", verified: true, burgers: 152 }" =
      .ok [("name", ds "sayan"), ("verified", db true), ("burgers", du 152)] ∧
    dict "{ name: \"sayan\", verified: true, burgers: 152, }" =
      .ok [("name", ds "sayan"), ("verified", db true), ("burgers", du 152)] ∧
    dict "{ name: \"sayan\", notes: { burgers: \"all the time, extra mayo\", taco: true, pretzels: 1 } }" =
      .ok [("name", ds "sayan"), ("notes", dm [("burgers", ds "all the time, extra mayo"), ("taco", db true),
        ("pretzels", du 1)])] ∧
    dict "{ name: \"sayan\", notes: { burgers: \"all the time, extra mayo\", taco: true, pretzels: 1, } }" =
      .ok [("name", ds "sayan"), ("notes", dm [("burgers", ds "all the time, extra mayo"), ("taco", db true),
        ("pretzels", du 1)])] ∧
    dict "{ name: \"sayan\", notes: { burgers: \"all the time, extra mayo\", taco: true, pretzels: 1, }, }" =
      .ok [("name", ds "sayan"), ("notes", dm [("burgers", ds "all the time, extra mayo"), ("taco", db true),
        ("pretzels", du 1)])] := by
  decide +kernel

/-- Lines 132-188. -/
theorem deep_dict_tests :
    dict "{ well: { now: { this: { is: { ridiculous: true } } } } }" =
      .ok [("well", dm [("now", dm [("this", dm [("is", dm [("ridiculous", db true)])])])])] ∧
    dict "{ well: { now: { this: { is: { ridiculous: true, } } } } }" =
      .ok [("well", dm [("now", dm [("this", dm [("is", dm [("ridiculous", db true)])])])])] ∧
    dict "{ well: { now: { this: { is: { ridiculous: true, }, }, }, }, }" =
      .ok [("well", dm [("now", dm [("this", dm [("is", dm [("ridiculous", db true)])])])])] := by
  decide +kernel

/-- Lines 233-316. -/
theorem null_dict_tests :
    dict "{ x: null }" = .ok [("x", dn)] ∧
    dict "{ this_is_non_null: \"hello\", but_this_is_null: null, }" =
      .ok [("this_is_non_null", ds "hello"), ("but_this_is_null", dn)] ∧
    dict "{ a_string: \"this is a string\", num: 1234, a_dict: { a_null: null, } }" =
      .ok [("a_string", ds "this is a string"), ("num", du 1234), ("a_dict", dm [("a_null", dn)])] ∧
    dict "{ a_string: \"this is a string\", num: 1234, a_dict: { a_null: null, }, another_null: null, }" =
      .ok [("a_string", ds "this is a string"), ("num", du 1234), ("a_dict", dm [("a_null", dn)]),
        ("another_null", dn)] := by
  decide +kernel

/-! ### The fuzzer (`ql/tests.rs:103-143`)

At every comma (or test token) the code puts a random number of commas, from 0 to 4. The source is right
if every comma is one comma and every test token at most one. -/

/-- A place for commas: `true` for a test token. -/
def sites : List TTok → List Bool
  | [] => []
  | none :: r => true :: sites r
  | some t :: r => if t = tComma then false :: sites r else sites r

/-- The source with these numbers of commas. -/
def fill : List TTok → List Nat → List Token
  | [], _ => []
  | none :: r, n :: ns => List.replicate n tComma ++ fill r ns
  | none :: r, [] => fill r []
  | some t :: r, ns =>
    if t = tComma then
      match ns with
      | n :: ns => List.replicate n tComma ++ fill r ns
      | [] => fill r []
    else t :: fill r ns

/-- `should_pass`. -/
def rightAt : Bool → Nat → Bool
  | true, n => n ≤ 1
  | false, n => n = 1

def right : List Bool → List Nat → Bool
  | [], _ => true
  | x :: xs, ns =>
    match ns with
    | n :: ns => rightAt x n && right xs ns
    | [] => true

/-- All right choices. -/
def goods : List Bool → List (List Nat)
  | [] => [[]]
  | true :: r => (goods r).flatMap fun ns => [0 :: ns, 1 :: ns]
  | false :: r => (goods r).map (1 :: ·)

/-- All right choices, and those with one number replaced by 0, 1, 2, 3 or 4. -/
def choices (ss : List Bool) : List (List Nat) :=
  (goods ss).flatMap fun ns => (List.range ss.length).flatMap fun k => (List.range 5).map fun n => ns.set k n

/-- Every one of these sources is read as expected if it is right, and refused if not. -/
def fuzz {α : Type} [DecidableEq α] (p : List Token → Res QlErr α) (want : α) (text : String) : Bool :=
  match lexFuzz text with
  | .error _ => false
  | .ok ts =>
    (choices (sites ts)).all fun ns =>
      match p (fill ts ns) with
      | .ok a => right (sites ts) ns && a = want
      | .err _ => !right (sites ts) ns
      | .panic => !right (sites ts) ns
      | .hang => false

/-! ### `misc.rs` and `dcl.rs` -/

/-- `misc.rs:37-115`. -/
theorem misc_tests :
    (entityRef.run { toks := toks "hello", cs := some "apps" } 0) = .ok ("apps", "hello") ∧
    part 0 entityRef "hello.world" = .ok ("hello", "world") ∧
    part 1 useStmt "use myspace" = .ok (.space "myspace") ∧
    part 1 useStmt "use null" = .ok .null ∧
    part 1 useStmt "use $current" = .ok .current ∧
    part 1 inspectStmt "inspect global" = .ok .global ∧
    part 1 inspectStmt "inspect space myspace" = .ok (.space "myspace") ∧
    part 1 inspectStmt "inspect model myspace.mymodel" = .ok (.model "myspace" "mymodel") := by
  decide +kernel

/-- `dcl.rs:33-74`. -/
theorem dcl_tests :
    node 1 sysctl "sysctl report status" = .ok .report ∧
    node 1 sysctl "sysctl create user sayan with { password: 'mypass123' }" =
      .ok (.user (.createUser "sayan" [("password", ds "mypass123")])) ∧
    node 1 sysctl "sysctl alter user sayan with { password: 'mypass123' }" =
      .ok (.user (.alterUser "sayan" [("password", ds "mypass123")])) ∧
    node 1 sysctl "sysctl drop user monster" = .ok (.user (.dropUser "monster")) := by
  decide +kernel

/-! ### `dml_tests.rs` -/

/-- Lines 28-102. -/
theorem list_tests :
    deep 1 list "[]" = .ok [] ∧
    deep 1 list "[1, 2, 3, 4]" = .ok [u 1, u 2, u 3, u 4] ∧
    deep 1 list "[ [1, 2], [3, 4], [5, 6], [] ]" = .ok [l [u 1, u 2], l [u 3, u 4], l [u 5, u 6], l []] ∧
    deep 1 list "[ [[1, 1], [2, 2]], [[], [4, 4]], [[5, 5], [6, 6]], [[7, 7], []] ]" =
      .ok [l [l [u 1, u 1], l [u 2, u 2]], l [l [], l [u 4, u 4]], l [l [u 5, u 5], l [u 6, u 6]],
        l [l [u 7, u 7], l []]] := by
  decide +kernel

/-- Lines 104-192. -/
theorem tuple_tests :
    deep 1 tuple "()" = .ok [] ∧
    deep 1 tuple "(1234, \"email@example.com\", true)" = .ok [u 1234, s "email@example.com", b true] ∧
    deep 1 tuple "(1234, \"email@example.com\", true, [\"hello\", \"world\", \"and\", \"the\", \"universe\"])" =
      .ok [u 1234, s "email@example.com", b true, l [s "hello", s "world", s "and", s "the", s "universe"]] ∧
    deep 1 tuple "(1234, \"email@example.com\", true, [ [\"h\", \"hello\"], [\"w\", \"world\"], [\"a\", \"and\"], [\"the\"], [\"universe\"], [] ])" =
      .ok [u 1234, s "email@example.com", b true, l [l [s "h", s "hello"], l [s "w", s "world"],
        l [s "a", s "and"], l [s "the"], l [s "universe"], l []]] := by
  decide +kernel

/-- Lines 194-292. -/
theorem map_tests :
    deep 1 dataMap "{}" = .ok [] ∧
    deep 1 dataMap "{ name: \"John Appletree\", email: \"john@example.com\", verified: false, followers: 12345 }" =
      .ok [("name", s "John Appletree"), ("email", s "john@example.com"), ("verified", b false),
        ("followers", u 12345)] ∧
    deep 1 dataMap "{ name: \"John Appletree\", email: \"john@example.com\", verified: false, followers: 12345, tweets_by_day: [] }" =
      .ok [("name", s "John Appletree"), ("email", s "john@example.com"), ("verified", b false),
        ("followers", u 12345), ("tweets_by_day", l [])] ∧
    deep 1 dataMap "{ name: \"John Appletree\", email: \"john@example.com\", verified: false, followers: 12345, tweets_by_day: [ [\"it's a fresh monday\", \"monday was tiring\"], [\"already bored with tuesday\", \"nope. gotta change stuff, life's getting boring\"], [\"sunday, going to bed\"] ] }" =
      .ok [("name", s "John Appletree"), ("email", s "john@example.com"), ("verified", b false),
        ("followers", u 12345), ("tweets_by_day", l [l [s "it's a fresh monday", s "monday was tiring"],
          l [s "already bored with tuesday", s "nope. gotta change stuff, life's getting boring"],
          l [s "sunday, going to bed"]])] := by
  decide +kernel

/-- The functions answer one fixed value in test builds (`ql/dml/ins.rs:52-80`). -/
def fnEnv (text : String) : Env :=
  { toks := (toks text).drop 1, uuidStr := fun _ => "uuid", time := fun _ => 42 }

/-- Lines 294-494. -/
theorem insert_tests :
    node 1 insertStmt "insert into twitter.users (\"sayan\")" =
      .ok ⟨"twitter", "users", .insert (.ordered [s "sayan"])⟩ ∧
    node 1 insertStmt "insert into twitter.users ( \"sayan\", \"Sayan\", \"sayan@example.com\", true, 12345, 67890 )" =
      .ok ⟨"twitter", "users", .insert (.ordered [s "sayan", s "Sayan", s "sayan@example.com", b true,
        u 12345, u 67890])⟩ ∧
    node 1 insertStmt "insert into twitter.users ( \"sayan\", \"Sayan\", \"sayan@example.com\", true, 12345, 67890, null, 12345, null )" =
      .ok ⟨"twitter", "users", .insert (.ordered [s "sayan", s "Sayan", s "sayan@example.com", b true,
        u 12345, u 67890, .null, u 12345, .null])⟩ ∧
    node 1 insertStmt "insert into jotsy.app { username: \"sayan\" }" =
      .ok ⟨"jotsy", "app", .insert (.map [("username", s "sayan")])⟩ ∧
    node 1 insertStmt "insert into jotsy.app { username: \"sayan\", name: \"Sayan\", email: \"sayan@example.com\", verified: true, following: 12345, followers: 67890 }" =
      .ok ⟨"jotsy", "app", .insert (.map [("username", s "sayan"), ("name", s "Sayan"),
        ("email", s "sayan@example.com"), ("verified", b true), ("following", u 12345),
        ("followers", u 67890)])⟩ ∧
    node 1 insertStmt "insert into jotsy.app { username: \"sayan\", password: \"pass123\", email: \"sayan@example.com\", verified: true, following: 12345, followers: 67890, linked_smart_devices: null, bookmarks: 12345, other_linked_accounts: null }" =
      .ok ⟨"jotsy", "app", .insert (.map [("username", s "sayan"), ("password", s "pass123"),
        ("email", s "sayan@example.com"), ("verified", b true), ("following", u 12345),
        ("followers", u 67890), ("linked_smart_devices", .null), ("bookmarks", u 12345),
        ("other_linked_accounts", .null)])⟩ ∧
    full false insertStmt (fnEnv "insert into jotsy.app(@uuidstr(), \"sayan\", @timesec())") =
      .ok ⟨"jotsy", "app", .insert (.ordered [s "uuid", s "sayan", u 42])⟩ ∧
    full false insertStmt (fnEnv "insert into jotsy.app { uuid: @uuidstr(), username: \"sayan\", signup_time: @timesec() }") =
      .ok ⟨"jotsy", "app", .insert (.map [("uuid", s "uuid"), ("username", s "sayan"),
        ("signup_time", u 42)])⟩ := by
  decide +kernel

/-- The clause `username = "sayan"`; the code of `=` is 1. -/
def isSayan : Clauses := [("username", ⟨1, .str "sayan"⟩)]

/-- Lines 496-591. -/
theorem select_tests :
    inSpace 1 "apps" selectStmt "select * from users where username = \"sayan\"" =
      .ok ⟨"apps", "users", .select none isSayan⟩ ∧
    inSpace 1 "apps" selectStmt "select field1 from users where username = \"sayan\"" =
      .ok ⟨"apps", "users", .select (some ["field1"]) isSayan⟩ ∧
    node 1 selectStmt "select field1 from twitter.users where username = \"sayan\"" =
      .ok ⟨"twitter", "users", .select (some ["field1"]) isSayan⟩ ∧
    node 1 selectStmt "select field1, field2 from twitter.users where username = \"sayan\"" =
      .ok ⟨"twitter", "users", .select (some ["field1", "field2"]) isSayan⟩ := by
  decide +kernel

/-- Lines 593-666. -/
theorem expression_tests :
    deep 0 (assignment []) "username = 'sayan'" = .ok [⟨"username", .assign, .str "sayan"⟩] ∧
    deep 0 (assignment []) "followers += 100" = .ok [⟨"followers", .add, .uint 100⟩] ∧
    deep 0 (assignment []) "following -= 150" = .ok [⟨"following", .sub, .uint 150⟩] ∧
    deep 0 (assignment []) "product_qty *= 2" = .ok [⟨"product_qty", .mul, .uint 2⟩] ∧
    deep 0 (assignment []) "image_crop_factor /= 2" = .ok [⟨"image_crop_factor", .div, .uint 2⟩] := by
  decide +kernel

/-- Lines 668-748. -/
theorem update_tests :
    inSpace 1 "apps" updateStmt "update app SET notes += \"this is my new note\" where username = \"sayan\"" =
      .ok ⟨"apps", "app", .update [⟨"notes", .add, .str "this is my new note"⟩] isSayan⟩ ∧
    node 1 updateStmt "update jotsy.app SET notes += \"this is my new note\", email = \"sayan@example.com\" WHERE username = \"sayan\"" =
      .ok ⟨"jotsy", "app", .update [⟨"notes", .add, .str "this is my new note"⟩,
        ⟨"email", .assign, .str "sayan@example.com"⟩] isSayan⟩ := by
  decide +kernel

/-- Lines 750-808. -/
theorem delete_tests :
    inSpace 1 "apps" deleteStmt "delete from users where username = \"sayan\"" =
      .ok ⟨"apps", "users", .delete isSayan⟩ ∧
    node 1 deleteStmt "delete from twitter.users where username = \"sayan\"" =
      .ok ⟨"twitter", "users", .delete isSayan⟩ := by
  decide +kernel

/-- Lines 810-896: the codes of the six operators (`ql/dml/mod.rs:60-76`). -/
theorem relational_tests :
    node 0 tryRel "primary_key = 10" = .ok (some ("primary_key", ⟨1, .uint 10⟩)) ∧
    node 0 tryRel "primary_key != 10" = .ok (some ("primary_key", ⟨2, .uint 10⟩)) ∧
    node 0 tryRel "primary_key > 10" = .ok (some ("primary_key", ⟨3, .uint 10⟩)) ∧
    node 0 tryRel "primary_key >= 10" = .ok (some ("primary_key", ⟨4, .uint 10⟩)) ∧
    node 0 tryRel "primary_key < 10" = .ok (some ("primary_key", ⟨5, .uint 10⟩)) ∧
    node 0 tryRel "primary_key <= 10" = .ok (some ("primary_key", ⟨6, .uint 10⟩)) := by
  decide +kernel

/-- Lines 898-959. -/
theorem where_tests :
    deep 0 parseWhere "x = 100" = .ok [("x", ⟨1, .uint 100⟩)] ∧
    deep 0 parseWhere "userid = 100 and pass = \"password\"" =
      .ok [("userid", ⟨1, .uint 100⟩), ("pass", ⟨1, .str "password"⟩)] ∧
    deep 0 parseWhere "userid = 100 and userid > 200" = .err .invalidSyntax := by
  decide +kernel

/-- Lines 961-1006. -/
theorem select_all_tests :
    inSpace 2 "myspace" selectAllStmt "select all * from mymodel limit 100" =
      .ok ⟨"myspace", "mymodel", .selectAll none 100⟩ ∧
    inSpace 2 "myspace" selectAllStmt "select all username, password from mymodel limit 100" =
      .ok ⟨"myspace", "mymodel", .selectAll (some ["username", "password"]) 100⟩ ∧
    inSpace 2 "myspace" selectAllStmt "select all * from mymodel" = .err .unexpectedEnd ∧
    inSpace 2 "myspace" selectAllStmt "select all username, password from mymodel" = .err .unexpectedEnd := by
  decide +kernel

end Verif.Conform
