/-
The errors of the engine and what they say about their place (`fractal/{context,error}.rs` and the kinds in `error.rs`, in
/repo/server/src/engine), and the start of the server with the places that it names (`main.rs`, `engine/mod.rs`, `storage/mod.rs`,
`storage/v2/mod.rs`, `storage/v1/{mod,loader}.rs`, `net/mod.rs`).

Simplifications: texts that come from the system or from `enumerate_err!` are parameters. A step of the start is given by the errors
that are made and thrown away in it and by the error with which it ends, if it ends with one; what it does otherwise is in other parts
of the model (`Gns`, `Journal`, `Old`, `Batch`, `Config`).
-/
namespace Verif.Diag

/-- `Subsystem` (`context.rs:32-38`). -/
inductive Sub where
  | init
  | storage
  | database
  | network
  deriving DecidableEq, Repr

/-- `Subsystem::as_str` (`context.rs:41-48`). -/
def Sub.str : Sub → String
  | .init => "init system"
  | .storage => "storage error"
  | .database => "engine error"
  | .network => "network error"

/-- `LocalContext` (`context.rs:108-111`), one for each thread (`_ctx`, lines 192-195). -/
structure Ctx where
  origin : Option Sub
  dmsg : Option String
  deriving DecidableEq, Repr

/-- `LocalContext::null` (`context.rs:189-191`). -/
def Ctx.null : Ctx := ⟨none, none⟩

/-- The functions that write to the context (`context.rs:145-167`); those for tests are left out. -/
inductive CtxOp where
  | set (o : Sub) (m : String)
  | setDmsg (m : String)
  | setDmsgIfUnset (m : String)
  | setOrigin (o : Sub)
  | setOriginIfUnset (o : Sub)
  deriving DecidableEq, Repr

def CtxOp.run : CtxOp → Ctx → Ctx
  | .set o m, _ => ⟨some o, some m⟩
  | .setDmsg m, c => ⟨c.origin, some m⟩
  | .setDmsgIfUnset m, c => ⟨c.origin, some (c.dmsg.getD m)⟩
  | .setOrigin o, c => ⟨some o, c.dmsg⟩
  | .setOriginIfUnset o, c => ⟨some (c.origin.getD o), c.dmsg⟩

/-- `ErrorKind` (`error.rs:133-144`). -/
inductive Kind where
  | io (s : String)
  | storage (s : String)
  | txn (s : String)
  | other (s : String)
  | config (s : String)
  deriving DecidableEq, Repr

/-- `Display for ErrorKind` (`error.rs:146-156`). -/
def Kind.str : Kind → String
  | .io s => "io error: " ++ s
  | .storage s => "storage error: " ++ s
  | .txn s => "txn error: " ++ s
  | .other s => "error: " ++ s
  | .config s => "config error: " ++ s

/-- `Error` (`fractal/error.rs:47-51`). -/
structure Err where
  kind : Kind
  origin : Option Sub
  dmsg : Option String
  deriving DecidableEq, Repr

/-- `Display for Error` (`fractal/error.rs:95-107`). -/
def Err.str (e : Err) : String :=
  (match e.origin with
    | some o => o.str ++ " error: "
    | none => "runtime error: ") ++
  ((match e.dmsg with
    | some m => m ++ "; "
    | none => "") ++ e.kind.str)

/-- What can be made into an `Error` with `?`: what is an `ErrorKind` (`std::io::Error` and `SysIOError`), the other errors of the
engine, those of OpenSSL, and an `Error` itself. -/
inductive Raw where
  | io (s : String)
  | storage (s : String)
  | txn (s : String)
  | ssl (s : String)
  | config (s : String)
  | full (e : Err)
  deriving DecidableEq, Repr

def Raw.kind : Raw → Kind
  | .io s => .io s
  | .storage s => .storage s
  | .txn s => .txn s
  | .ssl s => .other s
  | .config s => .config s
  | .full e => e.kind

/-- `From<_> for Error` (`fractal/error.rs:116-120, 279-323`), with the context of the thread before and after: errors of storage and of
transactions take the context away (`pop_origin`, `pop_dmsg`), those of the system leave it (`get_origin`, `get_dmsg`). -/
def Raw.into : Raw → Ctx → Err × Ctx
  | .io s, c => (⟨.io s, c.origin, c.dmsg⟩, c)
  | .storage s, c => (⟨.storage s, c.origin, c.dmsg⟩, .null)
  | .txn s, c => (⟨.txn s, c.origin, c.dmsg⟩, .null)
  | .ssl s, c => (⟨.other s, some .network, c.dmsg⟩, ⟨c.origin, none⟩)
  | .config s, c => (⟨.config s, some .init, none⟩, c)
  | .full e, c => (e, c)

/-- `err_inherit_parent` (`fractal/error.rs:133-149, 285-288, 325-341`). There is none for `ConfigError`. -/
def Raw.inheritParent : Raw → Ctx → Err × Ctx
  | .storage s, c => (Raw.storage s).into c
  | .txn s, c => (Raw.txn s).into c
  | .full e, c => (e, c)
  | r, c => (⟨r.kind, none, none⟩, c)

/-- The methods of `ErrorContext` (`fractal/error.rs:155-273`). `setDmsg` is also `set_dmsg_fn`. -/
inductive Wrap where
  | setOrigin (o : Sub)
  | setDmsg (m : String)
  | setCtx (o : Sub) (m : String)
  | ipSetOrigin (o : Sub)
  | ipSetDmsg (m : String)
  | ilSetOrigin (o : Sub)
  | ilSetDmsg (m : String)
  | inheritLocal
  | inheritSetOrigin (o : Sub)
  | inheritSetDmsg (m : String)
  | orphan
  | orphanOrigin
  | orphanDmsg
  deriving DecidableEq, Repr

def Wrap.run : Wrap → Raw → Ctx → Err × Ctx
  | .setOrigin o, r, c => (⟨r.kind, some o, none⟩, c)
  | .setDmsg m, r, c => (⟨r.kind, none, some m⟩, c)
  | .setCtx o m, r, c => (⟨r.kind, some o, some m⟩, c)
  | .ilSetOrigin o, r, c => (⟨r.kind, some o, c.dmsg⟩, ⟨c.origin, none⟩)
  | .ilSetDmsg m, r, c => (⟨r.kind, c.origin, some m⟩, ⟨none, c.dmsg⟩)
  | .inheritLocal, r, c => (⟨r.kind, c.origin, c.dmsg⟩, c)
  | .ipSetOrigin o, r, c => let (e, c) := r.inheritParent c; (⟨e.kind, some o, e.dmsg⟩, c)
  | .ipSetDmsg m, r, c => let (e, c) := r.inheritParent c; (⟨e.kind, e.origin, some m⟩, c)
  | .inheritSetDmsg m, r, c =>
    let (e, c) := r.inheritParent c
    match e.origin with
    | some o => (⟨e.kind, some o, some m⟩, c)
    | none => (⟨e.kind, c.origin, some m⟩, ⟨none, c.dmsg⟩)
  | .inheritSetOrigin o, r, c =>
    let (e, c) := r.inheritParent c
    match e.dmsg with
    | some m => (⟨e.kind, some o, some m⟩, c)
    | none => (⟨e.kind, some o, c.dmsg⟩, ⟨c.origin, none⟩)
  | .orphan, r, c => (⟨r.kind, none, none⟩, c)
  | .orphanDmsg, r, c => let (e, c) := r.inheritParent c; (⟨e.kind, e.origin, none⟩, c)
  | .orphanOrigin, r, c => let (e, c) := r.inheritParent c; (⟨e.kind, none, e.dmsg⟩, c)

/-! ## The start of the server -/

/-- The threads of the start: `load_all` runs on a thread of the blocking pool (`main.rs:101-103`), everything else on the first
one (`block_on`). -/
inductive Thread where
  | main
  | pool
  deriving DecidableEq, Repr

/-- What is done during the start and can fail. -/
inductive Step where
  /-- `get_file_from_store` (`config.rs:1040-1053`) -/
  | readConfig
  /-- the files of TLS (`config.rs:471-474, 1171-1174`) -/
  | readTls
  /-- `FileLock::new` (`main.rs:86`) -/
  | lockPid
  /-- building the runtime (`main.rs:88-91`) -/
  | runtime
  /-- `TerminationSignal::init` (`main.rs:100`) -/
  | signals
  /-- the old log of the catalogue (`loader.rs:45-46`) -/
  | oldCatalogue
  /-- the rows of one model (`loader.rs:64-66`) -/
  | oldModel (path : String)
  /-- the old accounts and settings (`storage/v1/mod.rs:51-52`) -/
  | oldSystem
  /-- moving the old files away (`storage/v1/mod.rs:56-68`) -/
  | backup
  /-- `recreate` (`storage/v2/mod.rs:57-99`) -/
  | newCatalogue
  | newSpace (n : Nat)
  | newModel (n : Nat)
  | newUser (n : Nat)
  /-- `initialize_new` (`storage/v2/mod.rs:101-119`) -/
  | create
  /-- `open_gns` and `open_model_driver` (`storage/v2/mod.rs:123, 130-131`) -/
  | catalogue
  | model (path : String)
  /-- writing the new password (`storage/v2/mod.rs:146-148`) -/
  | password
  /-- `TcpListener::bind` (`net/mod.rs:176-178`) -/
  | bind (host : String) (port : Nat)
  /-- `init_tls` (`net/mod.rs:242-261`) -/
  | tls
  deriving DecidableEq, Repr

/-- What the start consists of: writing to the context of a thread, or a step, with the method that is applied to its result. -/
inductive Op where
  | ctx (t : Thread) (x : CtxOp)
  | step (t : Thread) (st : Step) (w : Option Wrap)
  deriving DecidableEq, Repr

/-- How a step goes: errors that were made into an `Error` and thrown away, and the error it ends with. -/
structure Outcome where
  dropped : List Raw
  err : Option Raw

/-- Throwing errors away: their conversions have taken place. -/
def drops : List Raw → Ctx → Ctx
  | [], c => c
  | r :: rs, c => drops rs (r.into c).2

/-- `?`, after one of the methods or without. -/
def raise (w : Option Wrap) (r : Raw) (c : Ctx) : Err × Ctx :=
  match w with
  | none => r.into c
  | some w => w.run r c

def upd (c : Thread → Ctx) (t : Thread) (x : Ctx) : Thread → Ctx := fun u => if u = t then x else c u

/-- The start, up to the first error. -/
def run (f : Step → Outcome) : (Thread → Ctx) → List Op → Except Err (Thread → Ctx)
  | c, [] => .ok c
  | c, .ctx t x :: ops => run f (upd c t (x.run (c t))) ops
  | c, .step t st w :: ops =>
    match (f st).err with
    | none => run f (upd c t (drops (f st).dropped (c t))) ops
    | some r => .error (raise w r (drops (f st).dropped (c t))).1

/-- What is found on the disk: nothing, files of the current format with the models in the order in which they are opened, or files of
the old format (`storage/mod.rs:60-82`). -/
inductive Disk where
  | empty
  | current (models : List String) (passwordChanged : Bool)
  | old (models : List String) (spaces users : Nat)

/-- `ConfigEndpoint`. -/
inductive Endpoint where
  | insecure (host : String) (port : Nat)
  | secure (host : String) (port : Nat)
  | multi (host : String) (port : Nat) (host' : String) (port' : Nat)

/-- What decides about the way through the start. -/
structure Setup where
  /-- a configuration file is given -/
  file : Bool
  endpoint : Endpoint
  disk : Disk

def Endpoint.hasTls : Endpoint → Bool
  | .insecure .. => false
  | _ => true

/-- `check_configuration`, as far as files are read. -/
def configOps (s : Setup) : List Op :=
  (if s.file then [.ctx .main (.setDmsg "loading configuration file from disk"), .step .main .readConfig none] else []) ++
  (if s.endpoint.hasTls then [.ctx .main (.setDmsg "loading TLS configuration from disk"), .step .main .readTls none] else [])

/-- `main.rs:84-100`. -/
def initOps : List Op :=
  [.ctx .main (.set .init "locking PID file"), .step .main .lockPid none,
   .ctx .main (.set .init "initializing runtime"), .step .main .runtime none,
   .ctx .main (.set .init "binding system signals"), .step .main .signals none]

def oldModelOps (p : String) : List Op :=
  [.step .pool (.oldModel p) (some (.inheritSetDmsg ("failed to restore model data from journal in `" ++ p ++ "`")))]

def modelOps (p : String) : List Op :=
  [.ctx .pool (.setDmsg ("loading model driver in " ++ p)), .step .pool (.model p) none]

/-- `storage::load` (`storage/mod.rs:60-82`) with `load_gns_prepare_migration`, `recreate`, `initialize_new` and `restore`. -/
def loadOps : Disk → List Op
  | .empty => [.ctx .pool (.setDmsg "creating databases"), .step .pool .create none]
  | .current models pw =>
    [.ctx .pool (.setDmsg "loading databases"), .ctx .pool (.setDmsg "loading gns"), .step .pool .catalogue none] ++
    (models.flatMap modelOps ++
    (if pw then [.ctx .pool (.setDmsg "updating password to system database from configuration"), .step .pool .password none] else []))
  | .old models spaces users =>
    [.ctx .pool (.setDmsg "loading storage-v1 in compatibility mode"), .step .pool .oldCatalogue none] ++
    (models.flatMap oldModelOps ++
    ([.step .pool .oldSystem none, .step .pool .backup none, .ctx .pool (.setDmsg "upgrading storage-v1 to storage-v2 format"), .ctx .pool (.setDmsg "creating gns"),
      .step .pool .newCatalogue none, .ctx .pool (.setDmsg "creating all spaces")] ++
    (((List.range spaces).map fun i => .step .pool (.newSpace i) none) ++
    (.ctx .pool (.setDmsg "creating all models") :: (((List.range models.length).map fun i => .step .pool (.newModel i) none) ++
    (.ctx .pool (.setDmsg "creating all users") :: ((List.range users).map fun i => .step .pool (.newUser i) none)))))))

def bindOp (h : String) (p : Nat) : Op :=
  .step .main (.bind h p) (some (.setDmsg ("failed to bind to port `" ++ h ++ ":" ++ toString p ++ "`")))

def tlsOps : List Op :=
  [.ctx .main (.setDmsg "initializing TLS"), .step .main .tls (some (.setDmsg "failed to initialize TLS socket"))]

/-- `start`, up to the endpoints (`engine/mod.rs:116-171`). -/
def startOps : Endpoint → List Op
  | .insecure h p => [bindOp h p]
  | .secure h p => bindOp h p :: tlsOps
  | .multi h p h' p' => bindOp h p :: bindOp h' p' :: tlsOps

/-- The whole start: `main`, `entrypoint`, `load_all` (`engine/mod.rs:65-84`) and `start`. -/
def boot (s : Setup) : List Op :=
  configOps s ++ (initOps ++ (.ctx .pool (.setOrigin .storage) :: (loadOps s.disk ++
    (.ctx .main (.setDmsg "starting fractal engine") :: .ctx .main (.set .network "initializing endpoints") :: startOps s.endpoint))))

/-- No thread has a context before the start. -/
def fresh : Thread → Ctx := fun _ => .null

/-- A statement that fails with an error of the system while the log of the catalogue is written, on a thread of the blocking pool
(`exec.rs: run_blocking_stmt`, `fractal/drivers.rs:58-78`): what is printed. -/
def ddlMessage (c : Ctx) (r : Raw) : String := "GNS driver failed with: " ++ (r.into c).1.str

end Verif.Diag
