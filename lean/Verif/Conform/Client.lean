import Verif.Server.HubClients
/-!
The tests that a client runs against a server (`engine/tests/client_misc`), run on the model of the connections: each test logs in,
sends its queries as packets and looks at the bytes of the replies. The expected results are those that the tests assert. An error is
`\x10` and its code (`engine/error.rs:36-98`).
-/
namespace Verif.Conform.Client
open Verif Verif.Server
open Verif.Lex (ascii)
open Verif.Net (hello packet)

private def o : Outside :=
  ⟨{ Gns.fine 1 with hash := ascii "pw" }, id, List.reverse, ⟨fun a _ => a, fun a _ => a, fun a _ => a, fun a _ => a⟩, fun _ => none,
    fun _ => "", fun _ => [], fun _ => 0, true, fun _ => [], fun _ => [], fun sp => sp.models⟩
private def H : Host := ⟨fun p h => p == h, Net.Reply.exText⟩

/-- The parameters of a query: `\x06 length LF text` and `\x02 number LF`. -/
def text (s : String) : Bytes := 6 :: (ascii (toString (ascii s).length) ++ 10 :: ascii s)
def number (s : String) : Bytes := 2 :: (ascii s ++ [10])

/-- Root logs in and sends the queries; what comes back. -/
def asRoot (qs : List (String × List Bytes)) : Option (List Bytes) :=
  ((Hub.start (newServer (ascii "secret"))).run H (.read 0 o (hello (ascii "root") (ascii "secret")) ::
    qs.map fun q => .read 0 o (packet (ascii q.1) q.2.flatten))).map fun r => (r.2.filter fun e => e.2 ≠ []).map (·.2)

/-- Another user does, after root made their account (`switch_user`). -/
def asUser (name : String) (qs : List (String × List Bytes)) : Option (List Bytes) :=
  ((Hub.start (newServer (ascii "secret"))).run H (.read 0 o (hello (ascii "root") (ascii "secret")) ::
    .read 0 o (packet (ascii ("sysctl create user " ++ name ++ " with { password: ? }")) (text "pw")) ::
    .read 1 o (hello (ascii name) (ascii "pw")) ::
    qs.map fun q => .read 1 o (packet (ascii q.1) q.2.flatten))).map fun r => (r.2.filter fun e => e.1 = 1 ∧ e.2 ≠ []).map (·.2)

def welcome : Bytes := [72, 0, 0, 0]
def INVALID_SYNTAX_ERR : Bytes := [16, 28, 0]
def EXPECTED_STATEMENT_ERR : Bytes := [16, 32, 0]
def UNKNOWN_STMT_ERR : Bytes := [16, 33, 0]

/-- All queries get the same reply. -/
def all (e : Bytes) (qs : List (String × List Bytes)) : Bool := asRoot qs = some (welcome :: qs.map fun _ => e)

/-- `deny_unknown_tokens` (`client_misc/sec/mod.rs:41-54`) -/
theorem client_unknown_tokens : all EXPECTED_STATEMENT_ERR
    (["model", "space", "where", "force", "into", "from", "with", "set", "add", "remove", "*", ",", ""].map (·, [])) = true := by
  decide +kernel

/-- `deny_unknown` (`sec/ddl_sec.rs:33-46`), `deny_unknown_sysctl` (`sec/dcl_sec.rs:33-46`) -/
theorem client_unknown_statements : all UNKNOWN_STMT_ERR
    (["create magic blue", "alter rainbow hue", "drop sadistic view", "sysctl magic moon", "sysctl create wormhole",
      "sysctl drop dem"].map (·, [])) = true := by
  decide +kernel

/-- `ensure_create_space_end_of_tokens`, `ensure_alter_space_end_of_tokens`, `ensure_drop_space_end_of_tokens`
(`sec/ddl_sec.rs:48-81`) -/
theorem client_space_end_of_tokens : all INVALID_SYNTAX_ERR
    (["create space myspace with {} blah", "create space myspace blah", "alter space myspace with {} blah", "drop space myspace blah",
      "drop space myspace force blah"].map (·, [])) = true := by
  decide +kernel

/-- `ensure_create_model_end_of_tokens`, `ensure_drop_model_end_of_tokens` (`sec/ddl_sec.rs:83-98, 149-162`) -/
theorem client_model_end_of_tokens : all INVALID_SYNTAX_ERR
    (["create model myspace.mymodel(username: string, password: binary) blah",
      "create model myspace.mymodel(username: string, password: binary) with {} blah", "drop model myspace.mymodel blah",
      "drop model myspace.mymodel force blah"].map (·, [])) = true := by
  decide +kernel

/-- `ensure_alter_model_add_end_of_tokens`, `ensure_alter_model_update_end_of_tokens`, `ensure_alter_model_remove_end_of_tokens`
(`sec/ddl_sec.rs:100-147`) -/
theorem client_alter_end_of_tokens : all INVALID_SYNTAX_ERR
    (["alter model myspace.mymodel add phone_number { type: uint64 } blah",
      "alter model myspace.mymodel add (phone_number { type: uint64 }, email_id { type: string }) with {} blah",
      "alter model myspace.mymodel update password { type: string } blah",
      "alter model myspace.mymodel update (username {type: binary}, password { type: string }) blah",
      "alter model myspace.mymodel remove email_id blah",
      "alter model myspace.mymodel remove (email_id, phone_number) blah"].map (·, [])) = true := by
  decide +kernel

/-- `insert_ensure_end_of_tokens`, `select_ensure_end_of_tokens`, `update_ensure_end_of_tokens`, `delete_ensure_end_of_tokens`
(`sec/dml_sec.rs:33-90`) -/
theorem client_dml_end_of_tokens : all INVALID_SYNTAX_ERR
    [("insert into myspace.mymodel(?, ?) blah", [text "username", text "password"]),
     ("insert into myspace.mymodel { username: ?, password: ? } blah", [text "username", text "password"]),
     ("select * from myspace.mymodel where username = ? blah", [text "username"]),
     ("update myspace.mymodel set counter += ? where username = ? blah", [number "1", text "username"]),
     ("delete from myspace.mymodel where username = ? blah", [text "username"])] = true := by
  decide +kernel

/-- `ensure_sysctl_status_end_of_tokens`, `ensure_sysctl_create_user`, `ensure_sysctl_drop_user` (`sec/dcl_sec.rs:48-75`) -/
theorem client_sysctl_end_of_tokens : all INVALID_SYNTAX_ERR
    [("sysctl report status blah", []), ("sysctl create user myuser with { password: ? } blah", [text "mypass"]),
     ("sysctl drop user ? blah", [text "myuser"])] = true := by
  decide +kernel

/-- `String::contains`. -/
def contains (b x : Bytes) : Bool := (List.range (b.length + 1)).any fun i => x.isPrefixOf (b.drop i)

/-- `inspect_global_as_root_returns_user_info`, `inspect_global_as_std_user_does_not_return_user_info` (`client_misc/ddl.rs:29-41`): a
text, with or without the users. -/
theorem client_inspect_global :
    (asRoot [("inspect global", [])]).map (fun r => r.map fun b => (b.head?, contains b (ascii "\"users\":"))) =
      some [(some 72, false), (some 13, true)] ∧
    (asUser "sneaking_user_info" [("inspect global", [])]).map (fun r => r.map fun b => (b.head?, contains b (ascii "\"users\":"))) =
      some [(some 72, false), (some 13, false)] := by
  refine ⟨?_, ?_⟩ <;> decide +kernel

/-- `check_status_root`, `check_status_standard_user` (`client_misc/sysctl.rs:29-41`) -/
theorem client_status : asRoot [("sysctl report status", [])] = some [welcome, [18]] ∧
    asUser "user1" [("sysctl report status", [])] = some [welcome, [18]] := by
  refine ⟨?_, ?_⟩ <;> decide +kernel

end Verif.Conform.Client
