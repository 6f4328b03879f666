import Verif.Base.Res
/-!
Model of how the server reads its settings from the command line, the environment or a file
(`config.rs`). C55. Paths are relative to `/repo/server/src/engine`.

Texts are lists of characters. The reader of YAML is a parameter, the file system is a function from paths to
contents. A `HashMap` is a list of entries with distinct keys; its order is never used.
-/
namespace Verif.Config

abbrev Str := List Char

/-- The number of bytes of a text (`str::len`). -/
def byteLen (s : Str) : Nat := (s.map Char.utf8Size).sum

/-- `str::split` at a character. -/
def splitOn (c : Char) : Str → List Str
  | [] => [[]]
  | x :: xs =>
    if x = c then [] :: splitOn c xs
    else match splitOn c xs with
      | [] => [[x]]
      | y :: ys => (x :: y) :: ys

/-- The options that a source of settings has (`config.rs:377-385`). -/
inductive Opt where
  | plugin | pass | cert | key | keyPass | ep | mode | window
  deriving DecidableEq, Repr

/-- `ConfigSource` (`config.rs:348-356`). -/
inductive Origin where
  | cli | env | file
  deriving DecidableEq, Repr

/-- The messages of `ConfigError` (`config.rs:310-373`): the source they name, if any, and the option. -/
inductive Err where
  | tooMany (src : Origin) (o : Opt)
  | invalid (src : Origin) (o : Opt)
  | endpointSyntax (src : Origin)
  | duplicateEndpoint (src : Origin)
  | needTls (src : Origin)
  | noAuth (src : Origin) (o : Opt)
  | unknownArgs (src : Origin)
  | unexpectedArg (arg : Str)
  | badFormat (arg : Str)
  | missingValue (arg : Str)
  | envInvalid (o : Opt)
  | tooManyFiles
  | conflict
  | noRoot (src : Origin)
  | zeroWindow (src : Origin)
  | shortPassword (src : Origin)
  | noConfig
  | io
  | yaml
  deriving DecidableEq, Repr

/-- A source of settings: the names of its options (`config.rs:839-882`). -/
structure Src where
  name : Opt → Str
  origin : Origin

/-- `CSCommandLine` (`config.rs:840-854`). -/
def cliName : Opt → String
  | .plugin => "--auth-plugin"
  | .pass => "--auth-root-password"
  | .cert => "--tlscert"
  | .key => "--tlskey"
  | .keyPass => "--tls-passphrase"
  | .ep => "--endpoint"
  | .mode => "--mode"
  | .window => "--service-window"

/-- `CSEnvArgs` (`config.rs:856-867`). -/
def envName : Opt → String
  | .plugin => "SKYDB_AUTH_PLUGIN"
  | .pass => "SKYDB_AUTH_ROOT_PASSWORD"
  | .cert => "SKYDB_TLS_CERT"
  | .key => "SKYDB_TLS_KEY"
  | .keyPass => "SKYDB_TLS_PRIVATE_KEY_PASSWORD"
  | .ep => "SKYDB_ENDPOINTS"
  | .mode => "SKYDB_RUN_MODE"
  | .window => "SKYDB_SERVICE_WINDOW"

def cli : Src := { name := fun o => (cliName o).toList, origin := .cli }
def envSrc : Src := { name := fun o => (envName o).toList, origin := .env }

/-- `ARG_CONFIG_FILE` (`config.rs:842`). -/
def configOpt : Str := "--config".toList

/-- `ParsedRawArgs` (`config.rs:38`). -/
abbrev Args := List (Str × List Str)

def Args.get (a : Args) (k : Str) : Option (List Str) :=
  match a with
  | [] => none
  | e :: a => if e.1 = k then some e.2 else Args.get a k

def Args.remove (a : Args) (k : Str) : Args := a.filter fun e => e.1 != k

/-- One more value for a key (`config.rs:717-725`). -/
def Args.push (a : Args) (k v : Str) : Args :=
  match a with
  | [] => [(k, [v])]
  | e :: a => if e.1 = k then (e.1, e.2 ++ [v]) :: a else e :: Args.push a k v

/-- `Configuration` and its parts (`config.rs:74-160, 195-235`); there is one authentication plugin only. -/
structure Tcp where
  host : Str
  port : Nat
  deriving DecidableEq, Repr

structure Tls where
  tcp : Tcp
  cert : Str
  key : Str
  keyPass : Str
  deriving DecidableEq, Repr

inductive Endpoint where
  | insecure (t : Tcp)
  | secure (t : Tls)
  | multi (a : Tcp) (b : Tls)
  deriving DecidableEq, Repr

inductive Mode where
  | dev | prod
  deriving DecidableEq, Repr

structure Cfg where
  endpoint : Endpoint
  mode : Mode
  window : Nat
  pass : Str
  deriving DecidableEq, Repr

/-- `DecodedConfiguration` (`config.rs:241-294`). In `tls` the texts are paths when they come out of a file
and contents later. -/
structure Decoded where
  mode : Option Mode := none
  window : Option Nat := none
  tcp : Option Tcp := none
  tls : Option Tls := none
  auth : Option Str := none
  deriving DecidableEq, Repr

/-- A digit. -/
def digit (c : Char) : Option Nat := if '0' ≤ c ∧ c ≤ '9' then some (c.toNat - '0'.toNat) else none

/-- The loop of `from_str_radix` for an unsigned type with largest value `max`, with checked arithmetic. -/
def parseLoop (max : Nat) : Nat → Str → Option Nat
  | acc, [] => some acc
  | acc, c :: cs =>
    match digit c with
    | none => none
    | some d => if acc * 10 ≤ max then (if acc * 10 + d ≤ max then parseLoop max (acc * 10 + d) cs else none) else none

/-- `str::parse` for an unsigned type: an optional plus sign and at least one digit. -/
def parseNum (max : Nat) (s : Str) : Option Nat :=
  match s with
  | [] => none
  | c :: cs => if c = '+' then (if cs = [] then none else parseLoop max 0 cs) else parseLoop max 0 (c :: cs)

def maxU16 : Nat := 65535
def maxU64 : Nat := 18446744073709551615

/-- `parse_endpoint` (`config.rs:431-461`); `true` is TLS. -/
def parseEndpoint (src : Origin) (s : Str) : Res Err (Bool × Str × Nat) :=
  match splitOn '@' s with
  | [protocol, hostport] =>
    match splitOn ':' hostport with
    | [host, port] =>
      match parseNum maxU16 port with
      | none => .err (.endpointSyntax src)
      | some port =>
        if protocol = "tcp".toList then .ok (false, host, port)
        else if protocol = "tls".toList then .ok (true, host, port)
        else .err (.endpointSyntax src)
    | _ => .err (.endpointSyntax src)
  | _ => .err (.endpointSyntax src)

/-- The contents of files by path; `none`: cannot be read. -/
abbrev Fs := Str → Option Str

/-- `fs::read_to_string` with `?`. -/
def readFile (fs : Fs) (path : Str) : Res Err Str :=
  match fs path with
  | some s => .ok s
  | none => .err .io

/-- `decode_tls_ep` (`config.rs:464-482`). -/
def decodeTlsEp (fs : Fs) (certPath keyPath passPath host : Str) (port : Nat) : Res Err Tls := do
  let key ← readFile fs keyPath
  let cert ← readFile fs certPath
  let keyPass ← readFile fs passPath
  .ok { tcp := { host, port }, cert, key, keyPass }

/-- `argck_duplicate_values` (`config.rs:411-419`) and the use of the first value afterwards. -/
def single (src : Src) (o : Opt) (vs : List Str) : Res Err Str :=
  if vs.length ≠ 1 then .err (.tooMany src.origin o)
  else match vs with
    | v :: _ => .ok v
    | [] => .panic

/-- `arg_decode_tls_endpoint` (`config.rs:485-518`). The error for missing options names the command line
whatever the source (`:496`). -/
def decodeTls (src : Src) (fs : Fs) (a : Args) (host : Str) (port : Nat) : Res Err (Args × Tls) :=
  let cert := a.get (src.name .cert)
  let a := a.remove (src.name .cert)
  let key := a.get (src.name .key)
  let a := a.remove (src.name .key)
  let pass := a.get (src.name .keyPass)
  let a := a.remove (src.name .keyPass)
  match cert, key, pass with
  | some cert, some key, some pass => do
    let cert ← single src .cert cert
    let key ← single src .key key
    let pass ← single src .keyPass pass
    let t ← decodeTlsEp fs cert key pass host port
    .ok (a, t)
  | _, _, _ => .err (.needTls .cli)

/-- The test of the value of the option for the plugin (`config.rs:544-547`). -/
def decodePlugin (src : Src) : Option (List Str) → Res Err Unit
  | none => .ok ()
  | some vs => do
    let v ← single src .plugin vs
    if v = "pwd".toList then .ok () else .err (.invalid src.origin .plugin)

/-- `argck_duplicate_values` for an option that may be missing (`config.rs:539-541`). -/
def atMostOne (src : Src) (o : Opt) : Option (List Str) → Res Err Unit
  | none => .ok ()
  | some vs => do
    let _ ← single src o vs
    .ok ()

/-- `arg_decode_auth` (`config.rs:524-552`). Both errors about the password name the option for the plugin
(`:534, :543`). -/
def decodeAuth (src : Src) (a : Args) (d : Decoded) : Res Err (Args × Decoded) :=
  let driver := a.get (src.name .plugin)
  let a := a.remove (src.name .plugin)
  match a.get (src.name .pass) with
  | none => .err (.noAuth src.origin .plugin)
  | some root => do
    let a := a.remove (src.name .pass)
    atMostOne src .plugin driver
    let pass ← single src .plugin root
    decodePlugin src driver
    .ok (a, { d with auth := some pass })

/-- The loop over the endpoints (`config.rs:568-584`). -/
def decodeEps (src : Src) (fs : Fs) : List Str → Args → Option Tcp → Option Tls → Res Err (Args × Option Tcp × Option Tls)
  | [], a, tcp, tls => .ok (a, tcp, tls)
  | ep :: eps, a, tcp, tls => do
    let (isTls, host, port) ← parseEndpoint src.origin ep
    if isTls then
      match tls with
      | none => do
        let (a, t) ← decodeTls src fs a host port
        decodeEps src fs eps a tcp (some t)
      | some _ => .err (.duplicateEndpoint src.origin)
    else
      match tcp with
      | none => decodeEps src fs eps a (some { host, port }) tls
      | some _ => .err (.duplicateEndpoint src.origin)

/-- `arg_decode_endpoints` (`config.rs:555-589`). -/
def decodeEndpoints (src : Src) (fs : Fs) (a : Args) (d : Decoded) : Res Err (Args × Decoded) :=
  match a.get (src.name .ep) with
  | none => .ok (a, d)
  | some eps =>
    let a := a.remove (src.name .ep)
    if eps.length > 2 then .err (.tooMany src.origin .ep)
    else do
      let (a, tcp, tls) ← decodeEps src fs eps a none none
      .ok (a, { d with tcp, tls })

/-- `arg_decode_mode` (`config.rs:594-614`). -/
def decodeMode (src : Src) (vs : List Str) (d : Decoded) : Res Err Decoded := do
  let v ← single src .mode vs
  if v = "dev".toList then .ok { d with mode := some .dev }
  else if v = "prod".toList then .ok { d with mode := some .prod }
  else .err (.invalid src.origin .mode)

/-- `arg_decode_rs_window` (`config.rs:617-636`). -/
def decodeWindow (src : Src) (vs : List Str) (d : Decoded) : Res Err Decoded := do
  let v ← single src .window vs
  match parseNum maxU64 v with
  | some n => .ok { d with window := some n }
  | none => .err (.invalid src.origin .window)

/-- `DecodeKind::Simple` (`config.rs:816-822`). -/
def simple (a : Args) (k : Str) (d : Decoded) (f : List Str → Decoded → Res Err Decoded) : Res Err (Args × Decoded) :=
  match a.get k with
  | some vs => do
    let d ← f vs d
    .ok (a.remove k, d)
  | none => .ok (a, d)

/-- `apply_config_changes` (`config.rs:780-834`). -/
def applyChanges (src : Src) (fs : Fs) (a : Args) : Res Err Decoded := do
  let (a, d) ← decodeAuth src a {}
  let (a, d) ← simple a (src.name .mode) d (decodeMode src)
  let (a, d) ← simple a (src.name .window) d (decodeWindow src)
  let (a, d) ← decodeEndpoints src fs a d
  if a.isEmpty then .ok d else .err (.unknownArgs src.origin)

/-- The endpoints of the final configuration (`config.rs:926-955`). -/
def endpoints (tcp : Option Tcp) (tls : Option Tls) : Endpoint :=
  let e : Endpoint := .insecure { host := "127.0.0.1".toList, port := 2003 }
  let e := match tcp with
    | some t => .insecure t
    | none => e
  match tls with
  | none => e
  | some s =>
    match e with
    | .insecure i => if tcp.isSome then .multi i s else .secure s
    | e => e

/-- `validate_configuration` (`config.rs:901-968`). -/
def validate (src : Origin) (d : Decoded) : Res Err Cfg :=
  match d.auth with
  | none => .err (.noRoot src)
  | some pass =>
    let c : Cfg := { endpoint := endpoints d.tcp d.tls, mode := d.mode.getD .dev, window := d.window.getD 300, pass }
    if c.window = 0 then .err (.zeroWindow src)
    else if byteLen c.pass < 16 then .err (.shortPassword src)
    else .ok c

/-- `apply_and_validate` (`config.rs:994-999`). -/
def applyAndValidate (src : Src) (fs : Fs) (a : Args) : Res Err Cfg := do
  let d ← applyChanges src fs a
  validate src.origin d

/-- `CLIConfigParseReturn` (`config.rs:645-655`). -/
inductive CliRet where
  | default
  | help
  | version
  | args (a : Args)
  deriving DecidableEq, Repr

/-- What `parse_cli_args` takes an argument for (`config.rs:676-706`). -/
inductive Arg where
  | help
  | version
  | unexpected
  | joined (k v : Str)
  | bad
  | alone
  deriving DecidableEq, Repr

def classify (arg : Str) : Arg :=
  if arg = "--help".toList ∨ arg = "-h".toList then .help
  else if arg = "--version".toList ∨ arg = "-v".toList then .version
  else if arg.take 2 ≠ ['-', '-'] then .unexpected
  else match splitOn '=' arg with
    | [k, v] => if 5 ≤ byteLen arg then .joined k v else .bad
    | [_] => .alone
    | _ => .bad

/-- The loop of `parse_cli_args` (`config.rs:675-726`). -/
def cliLoop : List Str → Args → Res Err CliRet
  | [], a => .ok (if a.isEmpty then .default else .args a)
  | arg :: rest, a =>
    match classify arg with
    | .help => .ok .help
    | .version => .ok .version
    | .unexpected => .err (.unexpectedArg arg)
    | .bad => .err (.badFormat arg)
    | .joined k v => cliLoop rest (a.push k v)
    | .alone =>
      match rest with
      | [] => .err (.missingValue arg)
      | v :: rest => cliLoop rest (a.push arg v)

/-- `parse_cli_args` (`config.rs:670-732`): the first argument is the name of the program. -/
def parseCli (args : List Str) : Res Err CliRet := cliLoop (args.drop 1) []

/-- An environment variable (`std::env::var`). -/
inductive Var where
  | absent
  | notUnicode
  | val (s : Str)
  deriving DecidableEq, Repr

/-- The loop of `parse_env_args` (`config.rs:751-767`). -/
def envLoop (env : Str → Var) : List Opt → Res Err Args
  | [] => .ok []
  | o :: os =>
    match env (envSrc.name o) with
    | .absent => envLoop env os
    | .notUnicode => .err (.envInvalid o)
    | .val s => do
      let a ← envLoop env os
      .ok ((envSrc.name o, splitOn ',' s) :: a)

/-- `KEYS` (`config.rs:740-749`). -/
def envKeys : List Opt := [.plugin, .pass, .ep, .mode, .window, .cert, .key, .keyPass]

/-- `parse_env_args` (`config.rs:739-773`). -/
def parseEnv (env : Str → Var) : Res Err (Option Args) := do
  let a ← envLoop env envKeys
  .ok (if a.isEmpty then none else some a)

/-- `ConfigReturn` (`config.rs:975-981`). -/
inductive Ret where
  | message
  | config (c : Cfg)
  deriving DecidableEq, Repr

/-- `check_config_file` (`config.rs:1148-1189`). -/
def checkFile (fs : Fs) (yaml : Str → Option Decoded) (a : Args) (env : Option Args) (files : List Str) : Res Err Ret :=
  if a.length = 1 ∧ env = none then
    if files.length ≠ 1 then .err .tooManyFiles
    else match files with
      | [] => .panic
      | file :: _ => do
        let text ← readFile fs file
        match yaml text with
        | none => .err .yaml
        | some d =>
          match d.tls with
          | none => do
            let c ← validate .file d
            .ok (.config c)
          | some t => do
            let cert ← readFile fs t.cert
            let key ← readFile fs t.key
            let keyPass ← readFile fs t.keyPass
            let c ← validate .file { d with tls := some { tcp := t.tcp, cert, key, keyPass } }
            .ok (.config c)
  else .err .conflict

/-- `check_configuration` (`config.rs:1090-1145`). -/
def check (fs : Fs) (yaml : Str → Option Decoded) (args : List Str) (env : Str → Var) : Res Err Ret := do
  let env ← parseEnv env
  match ← parseCli args with
  | .help => .ok .message
  | .version => .ok .message
  | .args a =>
    match a.get configOpt with
    | some file => checkFile fs yaml a env file
    | none =>
      match env with
      | some _ => .err .conflict
      | none => do
        let c ← applyAndValidate cli fs a
        .ok (.config c)
  | .default =>
    match env with
    | some a => do
      let c ← applyAndValidate envSrc fs a
      .ok (.config c)
    | none => .err .noConfig

end Verif.Config
