import Verif.Server.Tables
import Verif.Batch.Life
/-!
The whole server with its files: queries, batches written in the background, shutdowns and starts
(`storage/v2/mod.rs:101-154`, `fractal/mod.rs:212-230, 272-286`, `fractal/mgr.rs:375-512`). The parts are the models of the query
path (`Server.Model`), of the log of the catalogue (`Journal`, `Gns.Restart`) and of the data files of the models (`Batch`).
-/
namespace Verif.Server
open Verif.Enc (Event Uuid)
open Verif.Gns (Cat Model)
open Verif.Journal (JW openJournal eventLogDecode)

/-- The file of a model (`paths_v1::model_path`, `storage/common/mod.rs:35-57`): the path has the names and the
identifiers of the space and of the model. -/
structure Path where
  space : String
  spaceId : Uuid
  model : String
  modelId : Uuid
  deriving DecidableEq

/-- The key of a model in `idx_models` (`core/mod.rs`, `EntityID`). -/
abbrev MKey := String × String

/-- The files of the server. `keys` are the keys of `idx_models`: the catalogue is a function here, and the code iterates over
the hash map when it opens and closes the files of the models. -/
structure Disk where
  gns : Bytes
  data : Path → Bytes
  keys : List MKey

/-- A running server: the catalogue and the rows, a writer for the file of each model, the writer of the log of the
catalogue. -/
structure Sys where
  srv : Srv
  drv : String → String → JW
  gw : JW
  keys : List MKey

/-- What does not change: the size at which the run is given up, and the headers of new files (C10). -/
structure Setup where
  lim : Nat
  gnsHdr : Bytes
  mdlHdr : Bytes

/-- Give up when the log of the catalogue has `lim` bytes. -/
def fits (S : Setup) (w : JW) : Batch.Run JW := if w.log.disk.length < S.lim then .ok w else .full

/-- Commit events to the log of the catalogue. Commits that fail are decided by `World.commitOk`, and C05 is about what they
leave in the file; here they leave nothing. -/
def commitEvs (S : Setup) : JW → List Event → Batch.Run JW
  | w, [] => .ok w
  | w, e :: es =>
    match w.commitEvent (Gns.toEv e) with
    | (w, .ok ()) => (fits S w).bind fun w => commitEvs S w es
    | _ => .bad

/-- The path and the model of a key; `none` if the code would crash in `unwrap`. -/
def pathOf (c : Cat) (k : MKey) : Option (Path × Model) :=
  match c.spaces k.1, c.models k.1 k.2 with
  | some s, some m => some (⟨k.1, s.uuid, k.2, m.uuid⟩, m)
  | _, _ => none

/-- The model that a query would create. -/
def created : Ql.Query → Option MKey
  | .ddl (.createModel s m _ _ _) => some (s, m)
  | .sysctl (.user (.createModel s m _ _ _)) => some (s, m)
  | _ => none

/-- The keys of `idx_models` after a query. -/
def nextKeys (c : Cat) (ks : List MKey) (q : Option Ql.Query) : List MKey :=
  (match q.bind created with
    | some k => if k ∈ ks then ks else k :: ks
    | none => ks).filter fun k => (c.models k.1 k.2).isSome

/-- Give up when the file of a model or its version counter is too large. -/
def checkAt (S : Setup) (z : Sys) (q : Option Ql.Query) : Batch.Run Unit :=
  match q with
  | some (.rows r) =>
    match z.srv.tbl r.space r.model with
    | some t => if (z.drv r.space r.model).log.disk.length < S.lim ∧ t.ver < S.lim then .ok () else .full
    | none => .ok ()
  | _ => .ok ()

/-- The writer of a new file. -/
def newFile (hdr : Bytes) : JW := (JW.create hdr []).1

/-- A query. A model that is created gets a new file (`initialize_model_driver`, `fractal/mod.rs:212-230`). -/
def Sys.query (S : Setup) (z : Sys) (q : Q) : Batch.Run (Sys × List (Q × Answer)) :=
  match serve q.1 z.srv q.2.1 q.2.2.1 q.2.2.2 with
  | (srv, _, a, ev) =>
    (commitEvs S z.gw ev.toList).bind fun gw =>
    let z' : Sys := ⟨srv, fun a b => if (z.srv.cat.models a b).isSome then z.drv a b else newFile S.mdlHdr, gw,
      nextKeys srv.cat z.keys (read q.1 q.2.1 q.2.2.1 q.2.2.2)⟩
    (checkAt S z' (read q.1 q.2.1 q.2.2.1 q.2.2.2)).bind fun _ => .ok (z', [(q, a)])

/-- The background service writes at most `n` pending changes of a model (`fractal/mgr.rs:375-412, 473-512`). -/
def Sys.flush (S : Setup) (z : Sys) (a b : String) (n : Nat) : Batch.Run Sys :=
  match z.srv.tbl a b with
  | none => .ok z
  | some t =>
    (Batch.flushSome S.lim ⟨z.drv a b, t⟩ n).bind fun (s, _) =>
      .ok { z with srv := z.srv.setRows a b s.t, drv := fun x y => if x = a ∧ y = b then s.w else z.drv x y }

/-- Set one file. -/
def setFile (f : Path → Bytes) (p : Path) (b : Bytes) : Path → Bytes := fun x => if x = p then b else f x

/-- All that is pending is written and the files of the models are closed (`fractal/mgr.rs:430-436`, `fractal/mod.rs:277-285`). -/
def closeAll (S : Setup) (z : Sys) : List MKey → (Path → Bytes) → Batch.Run (Path → Bytes)
  | [], f => .ok f
  | k :: ks, f =>
    match pathOf z.srv.cat k, z.srv.tbl k.1 k.2 with
    | some (p, _), some t => (Batch.shutdown S.lim ⟨z.drv k.1 k.2, t⟩).bind fun b => closeAll S z ks (setFile f p b)
    | _, _ => .bad

/-- A clean shutdown (`fractal/mod.rs:272-286`); `order` is the order in which the hash map iterates. -/
def Sys.stop (S : Setup) (order : List MKey → List MKey) (data : Path → Bytes) (z : Sys) : Batch.Run Disk :=
  match z.gw.close with
  | (w, .ok ()) => (closeAll S z (order z.keys) data).bind fun data => .ok ⟨w.log.disk, data, z.keys⟩
  | _ => .bad

/-- The rows and the writers of the models. -/
structure Loaded where
  rows : String → String → Rows
  drv : String → String → JW

/-- Nothing is loaded. -/
def Loaded.none (S : Setup) : Loaded := ⟨fun _ _ => Rows.none, fun _ _ => newFile S.mdlHdr⟩

def Loaded.set (l : Loaded) (k : MKey) (s : Batch.Srv) : Loaded :=
  ⟨fun a b => if a = k.1 ∧ b = k.2 then ⟨s.t.heap, s.t.idx, s.t.ver, s.t.queue⟩ else l.rows a b,
    fun a b => if a = k.1 ∧ b = k.2 then s.w else l.drv a b⟩

/-- The files of the models are opened and read (`restore`, `storage/v2/mod.rs:124-137`). -/
def openAll (S : Setup) (c : Cat) (data : Path → Bytes) : List MKey → Loaded → Batch.Run Loaded
  | [], l => .ok l
  | k :: ks, l =>
    match pathOf c k with
    | some (p, m) => (Batch.start S.lim m (data p)).bind fun (s, _) => openAll S c data ks (l.set k s)
    | none => .bad

/-- A start (`restore`, `storage/v2/mod.rs:120-155`): the log of the catalogue, the files of the models, the root password. -/
def boot (S : Setup) (st : Start) (order : List MKey → List MKey) (d : Disk) : Batch.Run Sys :=
  match openJournal (eventLogDecode 11 Gns.gnsApply) Cat.empty d.gns [] with
  | .ok (gw, c) =>
    (fits S gw).bind fun gw => (openAll S c d.data (order d.keys) (.none S)).bind fun l =>
      match Gns.session c st.ops with
      | (c, es) => (commitEvs S gw es).bind fun gw => .ok ⟨⟨c, l.rows⟩, l.drv, gw, d.keys⟩
  | _ => .bad

/-- A new installation (`initialize_new`, `storage/v2/mod.rs:101-119`). -/
def install (S : Setup) (hash : Bytes) : Batch.Run Sys :=
  match JW.create S.gnsHdr [] with
  | (gw, .ok ()) =>
    (fits S gw).bind fun gw =>
      match Gns.session Cat.empty (Start.init hash).ops with
      | (c, es) => (commitEvs S gw es).bind fun gw =>
        .ok ⟨⟨c, (Loaded.none S).rows⟩, (Loaded.none S).drv, gw, []⟩
  | _ => .bad

/-- What happens: a query, a batch, or a shutdown and the start after it. The files that were there before a shutdown (`data`)
are those of models that were dropped, or will be overwritten. -/
inductive Act where
  | query (q : Q)
  | flush (space model : String) (n : Nat)
  | restart (st : Start) (closing opening : List MKey → List MKey) (data : Path → Bytes)

def Sys.act (S : Setup) (z : Sys) : Act → Batch.Run (Sys × List (Q × Answer))
  | .query q => z.query S q
  | .flush a b n => (z.flush S a b n).bind fun z => .ok (z, [])
  | .restart st cl op data => (z.stop S cl data).bind fun d => (boot S st op d).bind fun z => .ok (z, [])

/-- One after the other: the state in the end, and the queries with their answers. -/
def Sys.acts (S : Setup) : Sys → List Act → Batch.Run (Sys × List (Q × Answer))
  | z, [] => .ok (z, [])
  | z, a :: as => (z.act S a).bind fun (z, o) => (Sys.acts S z as).bind fun (z, os) => .ok (z, o ++ os)

end Verif.Server
