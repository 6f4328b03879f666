import Verif.Gns.Dict
import Verif.Enc.Event
/-!
Model of the catalogue (spaces, models, users) and of the statements that change it: `core/mod.rs`,
`core/space.rs`, `core/model/mod.rs`, `core/model/alt.rs`, `core/dcl.rs`, `core/system_db.rs`.

Each statement runs under the locks that it takes, as one step; the interleaving of statements is the
order of the steps. (Whether the locks can deadlock is a separate question, C36.)
-/
namespace Verif.Gns
open Verif.Enc (DVal Dict Uuid SpaceId ModelId Layout Fields Event)

/-! ### State -/

/-- `Space` (`core/space.rs:41-46`). The set of model names is a list; its order is never observed. -/
structure Space where
  uuid : Uuid
  models : List String
  props : Dict

/-- `SchemaDeltaKind` (`core/model/delta.rs`). -/
inductive SDelta where
  | add (name : String)
  | rem (name : String)
  deriving DecidableEq, Repr

/-- `ModelData` (`core/model/mod.rs:81-91`) without the rows. `deltas` is `schema_deltas`: the part
with index `i` is stored under the version `i` (`core/model/delta.rs`, `__schema_append_unresolved_delta`).
`private` owns the names and `decl` is computed from the fields; neither is modelled here. -/
structure Model where
  uuid : Uuid
  pk : String
  pkTag : Tag
  fields : Fields
  deltas : List SDelta

/-- `schema_current_version` (`core/model/delta.rs`). -/
def Model.version (m : Model) : UInt64 := UInt64.ofNat m.deltas.length

/-- `GNSData` (`core/mod.rs:87-91`) with `SystemDatabase` (`core/system_db.rs:37-40`); a user is the
hash of the password. The hash maps are functions. -/
structure Cat where
  spaces : String → Option Space
  models : String → String → Option Model
  users : String → Option Bytes

/-- `GNSData::empty` (`core/mod.rs:94-100`). -/
def Cat.empty : Cat := ⟨fun _ => none, fun _ _ => none, fun _ => none⟩

/-- Insert or remove in a hash map. -/
def upd {α} (f : String → Option α) (k : String) (v : Option α) : String → Option α :=
  fun x => if x = k then v else f x

/-- Insert or remove under an `EntityID` (space and model name). -/
def upd2 {α} (f : String → String → Option α) (s m : String) (v : Option α) : String → String → Option α :=
  fun x y => if x = s ∧ y = m then v else f x y

/-! ### Ordered column maps (`IndexSTSeqCns`) -/

/-- `st_get`. -/
def fget : Fields → String → Option Field
  | [], _ => none
  | (k, f) :: es, x => if k = x then some f else fget es x

/-- `st_insert` (`idx/stord/mod.rs:382-387`): at the end, unless the key exists. -/
def finsert (fs : Fields) (k : String) (f : Field) : Fields × Bool :=
  match fget fs k with
  | some _ => (fs, false)
  | none => (fs ++ [(k, f)], true)

/-- Remove a key from the list. -/
def ferase : Fields → String → Fields
  | [], _ => []
  | (k, f) :: es, x => if k = x then es else (k, f) :: ferase es x

/-- `st_delete` (`idx/stord/mod.rs:462-486`). -/
def fdelete (fs : Fields) (k : String) : Fields × Bool :=
  match fget fs k with
  | some _ => (ferase fs k, true)
  | none => (fs, false)

/-- `st_update` (`idx/stord/mod.rs:432-447, 512-529`): the entry moves to the end. -/
def fupdate (fs : Fields) (k : String) (f : Field) : Fields × Bool :=
  match fget fs k with
  | some _ => (ferase fs k ++ [(k, f)], true)
  | none => (fs, false)

/-! ### `ModelMutator` (`core/model/mod.rs:470-497`) -/

/-- `add_field` (lines 483-493): a delta is appended whether or not the field is new. -/
def Model.addField (m : Model) (k : String) (f : Field) : Model × Bool :=
  match finsert m.fields k f with
  | (fs, r) => ({ m with fields := fs, deltas := m.deltas ++ [.add k] }, r)

/-- `remove_field` (lines 474-482). The name of an unknown field makes `mark_pending_remove` panic
(line 447); `none` here. -/
def Model.removeField (m : Model) (k : String) : Option (Model × Bool) :=
  match fdelete m.fields k with
  | (fs, true) => some ({ m with fields := fs, deltas := m.deltas ++ [.rem k] }, true)
  | (_, false) => none

/-- `update_field` (lines 494-496). -/
def Model.updateField (m : Model) (k : String) (f : Field) : Model × Bool :=
  match fupdate m.fields k f with
  | (fs, r) => ({ m with fields := fs }, r)

/-! ### Statements -/

/-- Error replies of these statements (`error.rs`, `QueryError`). -/
inductive QErr where
  | alreadyExists | notFound | notEmpty | badDefinition | invalidProps | invalidType | alterIllegal
  | unknownField | needLock | serverError | authError | permDenied
  deriving DecidableEq, Repr

/-- `FieldSpec` (`ql/ddl/syn.rs:344-353`). -/
structure FieldSpec where
  name : String
  layers : List LayerSpec
  null : Bool
  primary : Bool

/-- `ExpandedField` (`ql/ddl/syn.rs:405-409`). -/
structure Expanded where
  name : String
  layers : List LayerSpec
  props : Dict

/-- `AlterKind` (`ql/ddl/alt.rs`). -/
inductive AlterKind where
  | add (fs : List Expanded)
  | remove (ns : List String)
  | update (fs : List Expanded)

/-- The statements, after parsing. -/
inductive Stmt where
  | createSpace (name : String) (props : Dict) (ifNotExists : Bool)
  | alterSpace (name : String) (props : Dict)
  | dropSpace (name : String) (force ifExists : Bool)
  | createModel (space name : String) (fields : List FieldSpec) (props : Dict) (ifNotExists : Bool)
  | alterModel (space name : String) (kind : AlterKind)
  | dropModel (space name : String) (force ifExists : Bool)
  | createUser (name : String) (opts : Dict)
  | alterUser (name : String) (opts : Dict)
  | dropUser (name : String)

/-- What the outside contributes to one statement: whether the directory or file for a new object could
be created, whether the commit to the log succeeded, the random identifier, the hash of the password,
and whether the model to be dropped has no rows. -/
structure World where
  initOk : Bool
  commitOk : Bool
  uuid : Uuid
  hash : Bytes
  noRows : Bool

/-- The outcome of a statement: the catalogue, the reply (`Some(b)` is a Boolean reply, `None` the empty
one), and the event that was committed to the log. -/
structure Out where
  cat : Cat
  reply : Res QErr (Option Bool)
  ev : Option Event

/-- A reply without any effect. -/
def Cat.reply (c : Cat) (r : Res QErr (Option Bool)) : Out := ⟨c, r, none⟩

/-- `driver_context(|drv| drv.commit_event(..), ..)?` followed by the update of the catalogue
(`fractal/drivers.rs`): on failure the reply is `SysServerError`. -/
def Cat.commit (c : Cat) (w : World) (e : Event) (next : Cat) (r : Res QErr (Option Bool)) : Out :=
  if w.commitOk then ⟨next, r, some e⟩ else c.reply (.err .serverError)

/-- `if if_not_exists { Ok(Some(true)) } else { Ok(None) }`, and likewise for `if_exists`. -/
def okReply (flag : Bool) : Res QErr (Option Bool) := .ok (if flag then some true else none)

/-- The reply for an object that is already there, or is missing. -/
def skipReply (flag : Bool) (e : QErr) : Res QErr (Option Bool) :=
  if flag then .ok (some false) else .err e

/-- `Space::transactional_exec_create` (`core/space.rs:146-189`). -/
def execCreateSpace (c : Cat) (w : World) (name : String) (props : Dict) (ifNx : Bool) : Out :=
  match createProps props with
  | none => c.reply (.err .invalidProps)
  | some props =>
    match c.spaces name with
    | some _ => c.reply (skipReply ifNx .alreadyExists)
    | none =>
      if w.initOk then
        c.commit w (.createSpace name w.uuid props)
          { c with spaces := upd c.spaces name (some ⟨w.uuid, [], props⟩) } (okReply ifNx)
      else c.reply (.err .serverError)

/-- `Space::transactional_exec_alter` (`core/space.rs:191-234`). -/
def execAlterSpace (c : Cat) (w : World) (name : String) (props : Dict) : Out :=
  match c.spaces name with
  | none => c.reply (.err .notFound)
  | some s =>
    match alterPatch s.props props with
    | .nothing => c.reply (.ok none)
    | .refuse => c.reply (.err .invalidProps)
    | .patch p =>
      if w.commitOk then
        match alterApply s.props p with
        | .ok d => ⟨{ c with spaces := upd c.spaces name (some { s with props := d }) }, .ok none,
            some (.alterSpace ⟨name, s.uuid⟩ p)⟩
        | .err _ => ⟨c, .panic, some (.alterSpace ⟨name, s.uuid⟩ p)⟩
        | .panic => ⟨c, .panic, some (.alterSpace ⟨name, s.uuid⟩ p)⟩
        | .hang => ⟨c, .hang, some (.alterSpace ⟨name, s.uuid⟩ p)⟩
      else c.reply (.err .serverError)

/-- The loop that removes the models of a dropped space (`core/space.rs:267-280`): a missing model is a
panic. -/
def dropModels (space : String) : (String → String → Option Model) → List String →
    Option (String → String → Option Model)
  | ms, [] => some ms
  | ms, n :: ns =>
    match ms space n with
    | some _ => dropModels space (upd2 ms space n none) ns
    | none => none

/-- `DROP SPACE ALLOW NOT EMPTY` (`core/space.rs:244-288`). The space is removed from the map before the
commit (line 248). -/
def execDropSpaceForce (c : Cat) (w : World) (name : String) (ifEx : Bool) : Out :=
  match c.spaces name with
  | none => c.reply (skipReply ifEx .notFound)
  | some s =>
    let c' : Cat := { c with spaces := upd c.spaces name none }
    if w.commitOk then
      match dropModels name c.models s.models with
      | some ms => ⟨{ c' with models := ms }, okReply ifEx, some (.dropSpace ⟨name, s.uuid⟩)⟩
      | none => ⟨c', .panic, some (.dropSpace ⟨name, s.uuid⟩)⟩
    else ⟨c', .err .serverError, none⟩

/-- `DROP SPACE` (`core/space.rs:289-322`). -/
def execDropSpace (c : Cat) (w : World) (name : String) (ifEx : Bool) : Out :=
  match c.spaces name with
  | none => c.reply (skipReply ifEx .notFound)
  | some s =>
    if s.models.isEmpty then
      c.commit w (.dropSpace ⟨name, s.uuid⟩) { c with spaces := upd c.spaces name none } (okReply ifEx)
    else c.reply (.err .notEmpty)

/-- The loop of `process_create` (`core/model/mod.rs:244-265`). Arguments: the remaining fields, the
fields so far, `last_pk`, `pk_cnt`, `okay`. -/
def createLoop : List FieldSpec → Fields → Option String → Nat → Bool →
    Res QErr (Fields × Option String × Nat × Bool)
  | [], fs, pk, n, okay => .ok (fs, pk, n, okay)
  | s :: ss, fs, pk, n, okay =>
    if okay then
      match parseLayers s.layers s.null with
      | none => .err .invalidType
      | some f =>
        match finsert fs s.name f with
        | (fs, ins) =>
          createLoop ss fs (if s.primary then some s.name else pk) (if s.primary then n + 1 else n)
            ((!s.primary || !s.null) && ins)
    else .ok (fs, pk, n, okay)

/-- `process_create` (`core/model/mod.rs:229-284`). -/
def processCreate (uuid : Uuid) (specs : List FieldSpec) (props : Dict) : Res QErr Model :=
  (createLoop specs [] none 0 (props.isEmpty && !specs.isEmpty)).bind fun (fs, pk, n, okay) =>
  if okay && n ≤ 1 then
    match pk.or (fs.head?.map (·.1)) with
    | none => .panic
    | some pk =>
      match fget fs pk with
      | none => .panic
      | some f =>
        match f.layers with
        | [] => .panic
        | t :: _ => if t.uniq = .illegal then .err .badDefinition else .ok ⟨uuid, pk, t, fs, []⟩
  else .err .badDefinition

/-- `ModelData::transactional_exec_create` (`core/model/mod.rs:288-348`). -/
def execCreateModel (c : Cat) (w : World) (space name : String) (specs : List FieldSpec) (props : Dict)
    (ifNx : Bool) : Out :=
  match processCreate w.uuid specs props with
  | .ok m =>
    match c.spaces space with
    | none => c.reply (.err .notFound)
    | some s =>
      if s.models.contains name then c.reply (skipReply ifNx .alreadyExists)
      else if w.initOk then
        c.commit w (.createModel ⟨space, s.uuid⟩ name ⟨m.uuid, m.pk, m.pkTag, m.fields⟩)
          { c with
            spaces := upd c.spaces space (some { s with models := s.models ++ [name] })
            models := upd2 c.models space name (some m) } (okReply ifNx)
      else c.reply (.err .serverError)
  | .err e => c.reply (.err e)
  | .panic => c.reply .panic
  | .hang => c.reply .hang

/-- `ModelData::transactional_exec_drop` (`core/model/mod.rs:349-410`). -/
def execDropModel (c : Cat) (w : World) (space name : String) (force ifEx : Bool) : Out :=
  match c.spaces space with
  | none => c.reply (.err .notFound)
  | some s =>
    if s.models.contains name then
      match c.models space name with
      | none => c.reply .panic
      | some m =>
        if w.noRows || force then
          c.commit w (.dropModel ⟨⟨space, s.uuid⟩, name, m.version, m.uuid⟩)
            { c with
              spaces := upd c.spaces space (some { s with models := s.models.erase name })
              models := upd2 c.models space name none } (okReply ifEx)
        else c.reply (.err .notEmpty)
    else c.reply (skipReply ifEx .notFound)

/-! ### `ALTER MODEL` (`core/model/alt.rs`) -/

/-- `check_nullable` (`core/model/alt.rs:83-89`): the properties that are left, and the value. A null
has the kind of a Boolean, and `bool()` panics on it (`data/cell.rs:76-78, 382-384`). -/
def checkNullable (props : Dict) : Res QErr (Dict × Bool) :=
  match get props "nullable" with
  | some (.data (.bool b)) => .ok (del props "nullable", b)
  | some (.data .null) => .panic
  | some _ => .err .invalidProps
  | none => .ok (props, false)

/-- `classeq` and `interop` (`core/model/alt.rs:185-194`). -/
def interop (cur new : Tag) : Bool :=
  cur.cls = new.cls && (cur.cls = .uint || cur.cls = .sint || cur.cls = .float)

/-- The loop of `ldeltas` (`core/model/alt.rs:210-238`) over the new layers (outermost first) and the
current ones; shorter requests leave the remaining layers as they are. Results: the new layers, no_lock,
whether anything changed. A layer with properties stops the loop with `okay = false`, i.e. the error
`QExecDdlModelAlterIllegal` (line 244). -/
def ldeltasLoop : List LayerSpec → List Tag → Bool → Bool → Res QErr (List Tag × Bool × Bool)
  | [], cur, nl, d => .ok (cur, nl, d)
  | _ :: _, [], nl, d => .ok ([], nl, d)
  | l :: ls, t :: ts, nl, d =>
    match getLayer l.ty with
    | none => .err .invalidType
    | some n =>
      if t = n then
        if l.propsEmpty then
          (ldeltasLoop ls ts nl d).bind fun (r, nl, d) => .ok (n :: r, nl, d)
        else .err .alterIllegal
      else if interop t n then
        if l.propsEmpty then
          (ldeltasLoop ls ts (nl && decide (t.value ≤ n.value)) true).bind fun (r, nl, d) => .ok (n :: r, nl, d)
        else .err .alterIllegal
      else .err .invalidType

/-- `ldeltas` (`core/model/alt.rs:176-246`): the new field, no_lock, whether anything changed. -/
def ldeltas (cur : Field) (layers : List LayerSpec) (nullable : Bool) : Res QErr (Field × Bool × Bool) :=
  if cur.layers.length < layers.length then .err .alterIllegal
  else
    (ldeltasLoop layers.reverse cur.layers (!(cur.nullable && !nullable)) (cur.nullable != nullable)).bind
      fun (ls, nl, d) => .ok (⟨ls, nullable⟩, nl, d)

/-- `AlterAction` (`core/model/alt.rs:60-66`). `Update` holds a hash map in the code: the list is in the
order in which it iterates. -/
inductive Action where
  | ignore
  | add (fs : Fields)
  | update (fs : Fields)
  | remove (ns : List String)

/-- The loop for `ADD` (`core/model/alt.rs:118-133`); the Boolean is `okay`. Superfluous properties are
ignored. -/
def planAdd (m : Model) : List Expanded → Fields → Bool → Res QErr (Fields × Bool)
  | [], fs, okay => .ok (fs, okay)
  | e :: es, fs, okay =>
    if okay then
      (checkNullable e.props).bind fun (_, nullable) =>
      match parseLayers e.layers nullable with
      | none => .err .invalidType
      | some f =>
        match finsert fs e.name f with
        | (fs, ins) => planAdd m es fs ((fget m.fields e.name).isNone && e.name != m.pk && ins)
    else .ok (fs, okay)

/-- The loop for `UPDATE` (`core/model/alt.rs:139-163`). Results: the fields, okay, no_lock, whether
anything changed. The fields are collected in a hash map; `order` is applied by the caller. -/
def planUpdate (m : Model) : List Expanded → Fields → Bool → Bool → Bool → Res QErr (Fields × Bool × Bool × Bool)
  | [], fs, okay, nl, d => .ok (fs, okay, nl, d)
  | e :: es, fs, okay, nl, d =>
    if okay then
      if e.name = m.pk then .err .alterIllegal
      else
        match fget m.fields e.name with
        | none => .err .unknownField
        | some cur =>
          (checkNullable e.props).bind fun (props, nullable) =>
          (ldeltas cur e.layers nullable).bind fun (f, nl', d') =>
          match finsert fs e.name f with
          | (fs, ins) => planUpdate m es fs (props.isEmpty && ins) (nl && nl') (d || d')
    else .ok (fs, okay, nl, d)

/-- The check for `REMOVE` (`core/model/alt.rs:99-117`): the names are distinct, exist and are not the
primary key. The first offending name decides about the error. -/
def planRemove (m : Model) : List String → Res QErr Unit
  | [] => .ok ()
  | n :: ns =>
    if (fget m.fields n).isSome then
      if n = m.pk then .err .alterIllegal else planRemove m ns
    else .err .unknownField

/-- `AlterPlan::fdeltas` (`core/model/alt.rs:92-175`): the action and no_lock. `perm` is the order in which
the hash map of an update iterates. -/
def plan (perm : Fields → Fields) (m : Model) : AlterKind → Res QErr (Action × Bool)
  | .remove ns =>
    if ns.Nodup then
      (planRemove m ns).bind fun _ => .ok (if ns.isEmpty then .ignore else .remove ns, true)
    else .err .alterIllegal
  | .add es =>
    (planAdd m es [] true).bind fun (fs, okay) =>
    if okay then .ok (if fs.isEmpty then .ignore else .add fs, true) else .err .alterIllegal
  | .update es =>
    (planUpdate m es [] true true false).bind fun (fs, okay, nl, d) =>
    if okay then .ok (if d then .update (perm fs) else .ignore, nl) else .err .alterIllegal

/-- Apply new fields (`core/model/alt.rs:281-287`). -/
def addFields (m : Model) : Fields → Model
  | [] => m
  | (k, f) :: fs => addFields (m.addField k f).1 fs

/-- Apply updated fields (`core/model/alt.rs:318-321`). -/
def updateFields (m : Model) : Fields → Model
  | [] => m
  | (k, f) :: fs => updateFields (m.updateField k f).1 fs

/-- Apply removed fields (`core/model/alt.rs:301-304`); `none` is a panic. -/
def removeFields (m : Model) : List String → Option Model
  | [] => some m
  | k :: ks =>
    match m.removeField k with
    | some (m, _) => removeFields m ks
    | none => none

/-- `ModelData::transactional_exec_alter` (`core/model/alt.rs:249-327`) with
`with_model_space_mut_for_ddl` (`core/mod.rs:127-142`): a model whose space is missing is a panic. -/
def execAlterModel (perm : Fields → Fields) (c : Cat) (w : World) (space name : String) (k : AlterKind) : Out :=
  match c.models space name with
  | none => c.reply (.err .notFound)
  | some m =>
    match c.spaces space with
    | none => c.reply .panic
    | some s =>
      match plan perm m k with
      | .err e => c.reply (.err e)
      | .panic => c.reply .panic
      | .hang => c.reply .hang
      | .ok (_, false) => c.reply (.err .needLock)
      | .ok (.ignore, true) => c.reply (.ok none)
      | .ok (.add fs, true) =>
        c.commit w (.alterAdd ⟨⟨space, s.uuid⟩, name, m.version, m.uuid⟩ fs)
          { c with models := upd2 c.models space name (some (addFields m fs)) } (.ok none)
      | .ok (.update fs, true) =>
        c.commit w (.alterUpdate ⟨⟨space, s.uuid⟩, name, m.version, m.uuid⟩ fs)
          { c with models := upd2 c.models space name (some (updateFields m fs)) } (.ok none)
      | .ok (.remove ns, true) =>
        match removeFields m ns with
        | some m' => c.commit w (.alterRemove ⟨⟨space, s.uuid⟩, name, m.version, m.uuid⟩ ns)
            { c with models := upd2 c.models space name (some m') } (.ok none)
        | none => c.commit w (.alterRemove ⟨⟨space, s.uuid⟩, name, m.version, m.uuid⟩ ns) c .panic

/-! ### Users -/

/-- `get_user_data` (`core/dcl.rs:84-97`): the options must be a password string and nothing else. -/
def passwordOk (opts : Dict) : Bool :=
  match get opts "password" with
  | some (.data (.str _)) => (del opts "password").isEmpty
  | _ => false

/-- `SystemDatabase::ROOT_ACCOUNT` (`core/system_db.rs:71`). -/
def ROOT : String := "root"

/-- `create_user` (`core/dcl.rs:75-82`, `core/system_db.rs:128-148`). -/
def execCreateUser (c : Cat) (w : World) (name : String) (opts : Dict) : Out :=
  if passwordOk opts then
    match c.users name with
    | some _ => c.reply (.err .authError)
    | none => c.commit w (.createUser name w.hash) { c with users := upd c.users name (some w.hash) } (.ok none)
  else c.reply (.err .invalidProps)

/-- `alter_user` (`core/dcl.rs:58-73`, `core/system_db.rs:149-171`); `isRoot` is the caller. -/
def execAlterUser (c : Cat) (w : World) (isRoot : Bool) (name : String) (opts : Dict) : Out :=
  if isRoot then c.reply (.err .authError)
  else if passwordOk opts then
    match c.users name with
    | some _ => c.commit w (.alterUser name w.hash) { c with users := upd c.users name (some w.hash) } (.ok none)
    | none => c.reply (.err .authError)
  else c.reply (.err .invalidProps)

/-- `drop_user` (`core/dcl.rs:99-114`, `core/system_db.rs:172-186`); `caller` is the name of the caller. -/
def execDropUser (c : Cat) (w : World) (caller : String) (name : String) : Out :=
  if caller = name then c.reply (.err .authError)
  else
    match c.users name with
    | some _ => c.commit w (.dropUser name) { c with users := upd c.users name none } (.ok none)
    | none => c.reply (.err .authError)

/-- `ClientLocalState` (`net/protocol/mod.rs`): the user name of the connection and whether it was
authenticated as root. -/
structure Client where
  name : String
  root : Bool
  deriving DecidableEq, Repr

/-- A statement on behalf of a client: `run_blocking_stmt` (`core/exec.rs:104-187`) lets only root run
DDL; `dcl::exec` (`core/dcl.rs:37-56`) lets only root run the three user commands. -/
def exec (perm : Fields → Fields) (u : Client) (c : Cat) (w : World) (s : Stmt) : Out :=
  if u.root then
    match s with
    | .createSpace n p f => execCreateSpace c w n p f
    | .alterSpace n p => execAlterSpace c w n p
    | .dropSpace n true f => execDropSpaceForce c w n f
    | .dropSpace n false f => execDropSpace c w n f
    | .createModel s n fs p f => execCreateModel c w s n fs p f
    | .alterModel s n k => execAlterModel perm c w s n k
    | .dropModel s n fo f => execDropModel c w s n fo f
    | .createUser n o => execCreateUser c w n o
    | .alterUser n o => execAlterUser c w u.root n o
    | .dropUser n => execDropUser c w u.name n
  else c.reply (.err .permDenied)

/-! ### What happens to a catalogue during its life -/

/-- One step: a statement of a client; the creation of the root account in a new installation
(`initialize_new`, `storage/v2/mod.rs:101-119`); or, during a start, the change of the root password in
the configuration (`restore`, `storage/v2/mod.rs:138-151`). If the commit of one of the last two fails
the server does not start, so they always succeed here. -/
inductive Op where
  | stmt (perm : Fields → Fields) (u : Client) (w : World) (s : Stmt)
  | initRoot (hash : Bytes)
  | setRoot (hash : Bytes)

def Op.run (c : Cat) : Op → Out
  | .stmt perm u w s => exec perm u c w s
  | .initRoot h =>
    match c.users ROOT with
    | some _ => c.reply .panic
    | none => ⟨{ c with users := upd c.users ROOT (some h) }, .ok none, some (.createUser ROOT h)⟩
  | .setRoot h =>
    match c.users ROOT with
    | some _ => ⟨{ c with users := upd c.users ROOT (some h) }, .ok none, some (.alterUser ROOT h)⟩
    | none => c.reply (.ok none)

/-- Steps one after the other: the catalogue and the events that were committed. -/
def session : Cat → List Op → Cat × List Event
  | c, [] => (c, [])
  | c, o :: os =>
    match session (o.run c).cat os with
    | (c', es) => (c', (o.run c).ev.toList ++ es)

/-! ### Replay (`storage/common_encoding/r1/impls/gns/*.rs`, `r2.rs`) -/

/-- `with_space`/`with_space_mut` (`gns/model.rs:127-157`): the space must exist with this identifier. -/
def withSpace (c : Cat) (i : SpaceId) : Option Space :=
  match c.spaces i.name with
  | some s => if s.uuid = i.uuid then some s else none
  | none => none

/-- `with_model_mut` (`gns/model.rs:159-178`): the version is not checked. -/
def withModel (c : Cat) (i : ModelId) : Option Model :=
  match withSpace c i.space with
  | none => none
  | some _ =>
    match c.models i.space.name i.name with
    | some m => if m.uuid = i.uuid then some m else none
    | none => none

/-- The loops of the three `ALTER MODEL` events: a mutation that reports `false` is an error
(`gns/model.rs:361-378, 436-452, 512-528`). -/
def replayAdd (m : Model) : Fields → Option Model
  | [] => some m
  | (k, f) :: fs => match m.addField k f with
    | (m, true) => replayAdd m fs
    | (_, false) => none

def replayUpdate (m : Model) : Fields → Option Model
  | [] => some m
  | (k, f) :: fs => match m.updateField k f with
    | (m, true) => replayUpdate m fs
    | (_, false) => none

/-- Remove all models of a space; missing ones are skipped (`gns/space.rs:243-249`). -/
def purge (space : String) : (String → String → Option Model) → List String → (String → String → Option Model)
  | ms, [] => ms
  | ms, n :: ns => purge space (upd2 ms space n none) ns

/-- The errors of a replay are not distinguished, except for the panic of an unknown removed column. -/
def orErr {α} : Option α → Res Unit α
  | some a => .ok a
  | none => .err ()

/-- `update_global_state` of the eleven events (`gns/space.rs:103-116, 179-196, 229-260`,
`gns/model.rs:258-293, 361-378, 436-452, 512-528, 586-610`, `r2.rs`). -/
def apply (c : Cat) : Event → Res Unit Cat
  | .createSpace n u p =>
    match c.spaces n with
    | some _ => .err ()
    | none => .ok { c with spaces := upd c.spaces n (some ⟨u, [], p⟩) }
  | .alterSpace i p =>
    match c.spaces i.name with
    | none => .err ()
    | some s => (rmerge s.props p).bind fun r =>
      match r with
      | some d => .ok { c with spaces := upd c.spaces i.name (some { s with props := d }) }
      | none => .err ()
  | .dropSpace i => (orErr (withSpace c i)).bind fun s =>
    .ok { c with spaces := upd c.spaces i.name none, models := purge i.name c.models s.models }
  | .createModel i n l =>
    match c.spaces i.name with
    | none => .err ()
    | some s =>
      if s.models.contains n then .err ()
      else
        match c.models i.name n with
        | some _ => .err ()
        | none => .ok { c with
            spaces := upd c.spaces i.name (some { s with models := s.models ++ [n] })
            models := upd2 c.models i.name n (some ⟨l.uuid, l.pk, l.pkTag, l.fields, []⟩) }
  | .alterAdd i fs => (orErr (withModel c i)).bind fun m => (orErr (replayAdd m fs)).bind fun m =>
    .ok { c with models := upd2 c.models i.space.name i.name (some m) }
  | .alterUpdate i fs => (orErr (withModel c i)).bind fun m => (orErr (replayUpdate m fs)).bind fun m =>
    .ok { c with models := upd2 c.models i.space.name i.name (some m) }
  | .alterRemove i ns => (orErr (withModel c i)).bind fun m =>
    match removeFields m ns with
    | some m => .ok { c with models := upd2 c.models i.space.name i.name (some m) }
    | none => .panic
  | .dropModel i => (orErr (withSpace c i.space)).bind fun s =>
    if s.models.contains i.name then
      match c.models i.space.name i.name with
      | none => .err ()
      | some m =>
        if m.uuid = i.uuid then
          .ok { c with
            spaces := upd c.spaces i.space.name (some { s with models := s.models.erase i.name })
            models := upd2 c.models i.space.name i.name none }
        else .err ()
    else .err ()
  | .createUser n h =>
    match c.users n with
    | some _ => .err ()
    | none => .ok { c with users := upd c.users n (some h) }
  | .alterUser n h =>
    match c.users n with
    | some _ => .ok { c with users := upd c.users n (some h) }
    | none => .err ()
  | .dropUser n =>
    match c.users n with
    | some _ => .ok { c with users := upd c.users n none }
    | none => .err ()

/-- All events of a log, in order. -/
def applyAll : Cat → List Event → Res Unit Cat
  | c, [] => .ok c
  | c, e :: es => (apply c e).bind fun c => applyAll c es

/-- Sessions with a restart between them: each starts from the catalogue that the log gives. The result
is the live catalogue of the last session and the events of each session; `none` if a start fails. `log`
are the events of earlier sessions. -/
def life (log : List Event) (c : Cat) : List (List Op) → Option (Cat × List (List Event))
  | [] => some (c, [])
  | s :: ss =>
    match session c s with
    | (c', es) =>
      if ss.isEmpty then some (c', [es])
      else
        match applyAll Cat.empty (log ++ es) with
        | .ok r => (life (log ++ es) r ss).map fun (c'', ess) => (c'', es :: ess)
        | _ => none

end Verif.Gns
