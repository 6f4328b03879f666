import Verif.Conform.Parser
/-!
The tests of the parser on schemas (`ql/tests/schema_tests.rs` in /repo/server/src/engine), run on the model.
-/
namespace Verif.Conform
open Verif.Lex Verif.Ql Verif.Dml

/-! ### `schema_tests.rs` -/

/-- Lines 32-64. -/
theorem alter_space_tests :
    node 2 alterSpace "alter model mymodel with {}" = .ok (.alterSpace "mymodel" []) ∧
    node 2 alterSpace "alter model mymodel with { max_entry: 1000, driver: \"ts-0.8\" }" =
      .ok (.alterSpace "mymodel" [("max_entry", du 1000), ("driver", ds "ts-0.8")]) := by
  decide +kernel

/-- `rfold_tymeta` (`ql/ddl/syn.rs:167-169`): stops after `type`. -/
def tymeta (m : DFold) : P Enc.Dict := do
  let n ← fuel
  let (_, d) ← rfold n true m none []
  pure d

structure Split where
  cursor : Nat
  there : List Token
  dict : Enc.Dict
  atEnd : Bool
  deriving DecidableEq

/-- The test of lines 98-146: the cursor after the first part, the three tokens there, the
second part, and that nothing is left. -/
def tymetaSplit (text : String) : Option Split :=
  let e : Env := { toks := toks text }
  match tymeta .ob e ⟨0, true⟩ with
  | .ok (d1, s1) =>
    match tymeta .cbOrIdent e ⟨s1.i + 3, s1.f⟩ with
    | .ok (d2, s2) => if s1.f && s2.f then some ⟨s1.i, (e.toks.drop s1.i).take 3, d1 ++ d2, s2.i == e.toks.length⟩ else none
    | _ => none
  | _ => none

/-- Lines 66-96. -/
theorem tymeta_tests :
    deep 0 (tymeta .ob) "{}" = .ok [] ∧
    deep 0 (tymeta .ob) "{,}" = .err .invalidSyntax ∧
    deep 0 (tymeta .ob) "{hello: \"world\", loading: true, size: 100 }" =
      .ok [("hello", ds "world"), ("loading", db true), ("size", du 100)] := by
  decide +kernel

/-- Lines 97-147. -/
theorem tymeta_split_tests :
    tymetaSplit "{maxlen: 100, type: string, unique: true }" =
      some ⟨6, [tColon, .ident (ascii "string"), tComma], [("maxlen", du 100), ("unique", db true)], true⟩ ∧
    tymetaSplit "{maxlen: 100, this: { is: \"cool\" }, type: string, unique: true }" =
      some ⟨14, [tColon, .ident (ascii "string"), tComma],
        [("maxlen", du 100), ("this", dm [("is", ds "cool")]), ("unique", db true)], true⟩ := by
  decide +kernel

/-- A layer without properties, and one with some. -/
def plain (n : String) : LayerSpec := ⟨ascii n, true⟩
def withProps (n : String) : LayerSpec := ⟨ascii n, false⟩

/-- Lines 149-230. -/
theorem layer_tests :
    multiple rfoldLayers (toks "string") = .ok [plain "string"] ∧
    multiple rfoldLayers (toks "string { maxlen: 100 }") = .ok [withProps "string"] ∧
    multiple rfoldLayers (toks "list { type: string }") = .ok [plain "string", plain "list"] ∧
    multiple rfoldLayers (toks "list { unique: true, type: string, maxlen: 10 }") =
      .ok [plain "string", withProps "list"] ∧
    multiple rfoldLayers (toks "list { unique: true, type: string { ascii_only: true, maxlen: 255 }, maxlen: 10 }") =
      .ok [withProps "string", withProps "list"] := by
  decide +kernel

/-- Lines 268-374. -/
theorem field_tests :
    node 0 fieldSpec "username: string" = .ok ⟨"username", [plain "string"], false, false⟩ ∧
    node 0 fieldSpec "primary username: string" = .ok ⟨"username", [plain "string"], false, true⟩ ∧
    node 0 fieldSpec "primary username: string { maxlen: 10, ascii_only: true, }" =
      .ok ⟨"username", [withProps "string"], false, true⟩ ∧
    node 0 fieldSpec "null notes: list { type: string { maxlen: 255, ascii_only: true, }, unique: true, }" =
      .ok ⟨"notes", [withProps "string", withProps "list"], true, false⟩ := by
  decide +kernel

def fUser : Gns.FieldSpec := ⟨"username", [plain "string"], false, true⟩
def fPass : Gns.FieldSpec := ⟨"password", [plain "binary"], false, false⟩
def fPic : Gns.FieldSpec := ⟨"profile_pic", [plain "binary"], true, false⟩
def fNotes : Gns.FieldSpec := ⟨"notes", [plain "string", withProps "list"], true, false⟩

/-- Lines 375-593. -/
theorem schema_tests :
    inSpace 2 "apps" createModel "create model mymodel( primary username: string, password: binary )" =
      .ok (.createModel "apps" "mymodel" [fUser, fPass] [] false) ∧
    inSpace 2 "apps" createModel "create model if not exists mymodel( primary username: string, password: binary )" =
      .ok (.createModel "apps" "mymodel" [fUser, fPass] [] true) ∧
    inSpace 2 "apps" createModel "create model mymodel( primary username: string, password: binary, null profile_pic: binary )" =
      .ok (.createModel "apps" "mymodel" [fUser, fPass, fPic] [] false) ∧
    inSpace 2 "apps" createModel "create model if not exists mymodel( primary username: string, password: binary, null profile_pic: binary )" =
      .ok (.createModel "apps" "mymodel" [fUser, fPass, fPic] [] true) ∧
    inSpace 2 "apps" createModel "create model if not exists mymodel( primary username: string, password: binary, null profile_pic: binary, null notes: list { type: string, unique: true, } )" =
      .ok (.createModel "apps" "mymodel" [fUser, fPass, fPic, fNotes] [] true) ∧
    inSpace 2 "apps" createModel "create model if not exists mymodel( primary username: string, password: binary, null profile_pic: binary, null notes: list { type: string, unique: true, } ) with { env: { free_user_limit: 100, }, storage_driver: \"skyheap\" }" =
      .ok (.createModel "apps" "mymodel" [fUser, fPass, fPic, fNotes]
        [("env", dm [("free_user_limit", du 100)]), ("storage_driver", ds "skyheap")] true) := by
  decide +kernel

/-- Lines 594-713. -/
theorem expanded_tests :
    node 0 expandedField "username { type: string }" = .ok ⟨"username", [plain "string"], []⟩ ∧
    node 0 expandedField "username { nullable: false, type: string, }" =
      .ok ⟨"username", [plain "string"], [("nullable", db false)]⟩ ∧
    node 0 expandedField "username { nullable: false, type: string { minlen: 6, maxlen: 255, }, jingle_bells: \"snow\" }" =
      .ok ⟨"username", [withProps "string"], [("nullable", db false), ("jingle_bells", ds "snow")]⟩ ∧
    node 0 expandedField "notes { nullable: true, type: list { type: string { ascii_only: true, }, unique: true, }, jingle_bells: \"snow\" }" =
      .ok ⟨"notes", [withProps "string", withProps "list"],
        [("nullable", db true), ("jingle_bells", ds "snow")]⟩ := by
  decide +kernel

/-- Lines 714-764. -/
theorem alter_remove_tests :
    inSpace 2 "apps" alterModel "alter model mymodel remove myfield" =
      .ok (.alterModel "apps" "mymodel" (.remove ["myfield"])) ∧
    inSpace 2 "apps" alterModel "alter model mymodel remove (myfield)" =
      .ok (.alterModel "apps" "mymodel" (.remove ["myfield"])) ∧
    inSpace 2 "apps" alterModel "alter model mymodel remove (myfield1, myfield2, myfield3, myfield4)" =
      .ok (.alterModel "apps" "mymodel" (.remove ["myfield1", "myfield2", "myfield3", "myfield4"])) := by
  decide +kernel

/-- Lines 765-912. -/
theorem alter_add_tests :
    inSpace 2 "apps" alterModel "alter model mymodel add myfield { type: string }" =
      .ok (.alterModel "apps" "mymodel" (.add [⟨"myfield", [plain "string"], []⟩])) ∧
    inSpace 2 "apps" alterModel "alter model mymodel add myfield { type: string, nullable: true }" =
      .ok (.alterModel "apps" "mymodel" (.add [⟨"myfield", [plain "string"], [("nullable", db true)]⟩])) ∧
    inSpace 2 "apps" alterModel "alter model mymodel add (myfield { type: string, nullable: true })" =
      .ok (.alterModel "apps" "mymodel" (.add [⟨"myfield", [plain "string"], [("nullable", db true)]⟩])) ∧
    inSpace 2 "apps" alterModel "alter model mymodel add ( myfield { type: string, nullable: true }, another { type: list { type: string { maxlen: 255 }, unique: true }, nullable: false, } )" =
      .ok (.alterModel "apps" "mymodel" (.add [⟨"myfield", [plain "string"], [("nullable", db true)]⟩,
        ⟨"another", [withProps "string", withProps "list"], [("nullable", db false)]⟩])) := by
  decide +kernel

/-- Lines 913-1091. -/
theorem alter_update_tests :
    inSpace 2 "apps" alterModel "alter model mymodel update myfield { type: string }" =
      .ok (.alterModel "apps" "mymodel" (.update [⟨"myfield", [plain "string"], []⟩])) ∧
    inSpace 2 "apps" alterModel "alter model mymodel update (myfield { type: string })" =
      .ok (.alterModel "apps" "mymodel" (.update [⟨"myfield", [plain "string"], []⟩])) ∧
    inSpace 2 "apps" alterModel "alter model mymodel update ( myfield { type: string, nullable: true, } )" =
      .ok (.alterModel "apps" "mymodel" (.update [⟨"myfield", [plain "string"], [("nullable", db true)]⟩])) ∧
    inSpace 2 "apps" alterModel "alter model mymodel update ( myfield { type: string, nullable: true, }, myfield2 { type: string, } )" =
      .ok (.alterModel "apps" "mymodel" (.update [⟨"myfield", [plain "string"], [("nullable", db true)]⟩,
        ⟨"myfield2", [plain "string"], []⟩])) ∧
    inSpace 2 "apps" alterModel "alter model mymodel update ( myfield { type: string {}, nullable: true, }, myfield2 { type: string { maxlen: 255, }, } )" =
      .ok (.alterModel "apps" "mymodel" (.update [⟨"myfield", [plain "string"], [("nullable", db true)]⟩,
        ⟨"myfield2", [withProps "string"], []⟩])) := by
  decide +kernel

/-- Lines 1092-1153. -/
theorem drop_tests :
    node 2 dropSpace "drop space myspace" = .ok (.dropSpace "myspace" false false) ∧
    node 2 dropSpace "drop space if exists myspace" = .ok (.dropSpace "myspace" false true) ∧
    node 2 dropSpace "drop space allow not empty myspace" = .ok (.dropSpace "myspace" true false) ∧
    node 2 dropSpace "drop space if exists allow not empty myspace" = .ok (.dropSpace "myspace" true true) ∧
    inSpace 2 "apps" dropModel "drop model mymodel" = .ok (.dropModel "apps" "mymodel" false false) ∧
    inSpace 2 "apps" dropModel "drop model if exists mymodel" = .ok (.dropModel "apps" "mymodel" false true) ∧
    inSpace 2 "apps" dropModel "drop model allow not empty mymodel" = .ok (.dropModel "apps" "mymodel" true false) ∧
    inSpace 2 "apps" dropModel "drop model if exists allow not empty mymodel" =
      .ok (.dropModel "apps" "mymodel" true true) := by
  decide +kernel

end Verif.Conform
