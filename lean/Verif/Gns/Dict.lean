import Verif.Enc.Model
/-!
Model of property dictionaries and their patches: `data/dict.rs` and the property part of
`core/space.rs`.
-/
namespace Verif.Gns
open Verif.Enc (DVal Dict)

/-- `HashMap::get`. A dictionary is the list of its entries in the order in which the hash map iterates;
only what `get` returns matters. -/
def get : Dict → String → Option DVal
  | [], _ => none
  | (k, v) :: es, x => if k = x then some v else get es x

/-- `HashMap::insert` and `st_upsert`. -/
def put : Dict → String → DVal → Dict
  | [], x, w => [(x, w)]
  | (k, v) :: es, x, w => if k = x then (k, w) :: es else (k, v) :: put es x w

/-- `HashMap::remove`. -/
def del : Dict → String → Dict
  | [], _ => []
  | (k, v) :: es, x => if k = x then del es x else (k, v) :: del es x

mutual
/-- `rflatten_metadata` (`data/dict.rs:68-81`). -/
def flatten : Dict → Dict
  | [] => []
  | (k, v) :: es => match flattenVal v with
    | some v => (k, v) :: flatten es
    | none => flatten es

/-- The closure given to `retain` (`data/dict.rs:74-80`). -/
def flattenVal : DVal → Option DVal
  | .data c => if c.isNull then none else some (.data c)
  | .map m => some (.map (flatten m))
end

/-- The outcome for one entry of a request: the request is refused, the entry is left out of the patch,
or an entry is put into it. -/
inductive PrepOut where
  | refuse
  | skip
  | put (v : DVal)

mutual
/-- `rmerge_metadata_prepare_patch` (`data/dict.rs:133-190`): the patch, or `none` if the request is
refused. The keys of a request are distinct, so an `insert` into the patch is always a new entry. After
a refused entry the loop stops; its result is thrown away. -/
def prepare (cur : Dict) : Dict → Option Dict
  | [] => some []
  | (k, v) :: es =>
    match prepareEntry (get cur k) v with
    | .refuse => none
    | .skip => prepare cur es
    | .put p => (prepare cur es).map fun ps => (k, p) :: ps

/-- The `match` on the current and the new entry (`data/dict.rs:142-187`). In a debug build the case of
a dictionary replaced by a value fails an assertion; the model is the release build. -/
def prepareEntry : Option DVal → DVal → PrepOut
  | some (.data c), .data n =>
    if n.isNull then .put (.data .null) else if c.kind = n.kind then .put (.data n) else .refuse
  | some (.data _), .map _ => .refuse
  | some (.map c), .map n =>
    match prepare c n with
    | some p => .put (.map p)
    | none => .refuse
  | none, .data n => if n.isNull then .skip else .put (.data n)
  | none, .map n =>
    match prepare [] n with
    | some p => .put (.map p)
    | none => .refuse
  | some (.map _), .data _ => .put (.data .null)
end

mutual
/-- `rmerge_data_with_patch` (`data/dict.rs:104-131`). -/
def merge (cur : Dict) : Dict → Res Unit Dict
  | [] => .ok cur
  | (k, v) :: es => (mergeEntry cur k v).bind fun cur => merge cur es

/-- The `match` on a patch entry (`data/dict.rs:106-129`). A dictionary under a key that does not exist
is merged into a new dictionary, and that dictionary is dropped (lines 124-127). -/
def mergeEntry (cur : Dict) (k : String) : DVal → Res Unit Dict
  | .data c => if c.isNull then .ok (del cur k) else .ok (put cur k (.data c))
  | .map m =>
    match get cur k with
    | some (.map c) => (merge c m).bind fun r => .ok (put cur k (.map r))
    | some (.data _) => .panic
    | none => (merge [] m).bind fun _ => .ok cur
end

/-- `rmerge_metadata` (`data/dict.rs:85-93`): `none` if it returns false. -/
def rmerge (cur new : Dict) : Res Unit (Option Dict) :=
  match prepare cur new with
  | some p => (merge cur p).bind fun r => .ok (some r)
  | none => .ok none

/-- `KEY_ENV` (`core/space.rs:101`). -/
def ENV : String := "env"

/-- `process_create` (`core/space.rs:104-142`): the properties of a new space, or none if refused. -/
def createProps (props : Dict) : Option Dict :=
  match get props ENV with
  | some d =>
    if props.length = 1 then
      match d with
      | .data c => if c.isNull then some (flatten (put props ENV (.map []))) else none
      | .map _ => some (flatten props)
    else none
  | none => if props.isEmpty then some (flatten (put props ENV (.map []))) else none

/-- What `ALTER SPACE` decides before it commits (`core/space.rs:205-217`): nothing to do, refused, or
the patch to commit. -/
inductive AlterOut where
  | nothing
  | refuse
  | patch (p : Dict)

/-- The checks and the patch of `transactional_exec_alter` (`core/space.rs:205-217`). -/
def alterPatch (cur new : Dict) : AlterOut :=
  match get new ENV with
  | some (.map _) =>
    if new.length = 1 then (match prepare cur new with | some p => .patch p | none => .refuse) else .refuse
  | some (.data c) =>
    if new.length = 1 ∧ c.isNull then (match prepare cur new with | some p => .patch p | none => .refuse)
    else .refuse
  | none => if new.isEmpty then .nothing else .refuse

/-- `st_insert(ENV, {})`: only if the key is absent (`core/space.rs:229-231`). -/
def putEnv (d : Dict) : Dict :=
  match get d ENV with
  | some _ => d
  | none => put d ENV (.map [])

/-- The update of the live properties after the commit (`core/space.rs:226-231`). -/
def alterApply (cur patch : Dict) : Res Unit Dict :=
  (merge cur patch).bind fun d => .ok (putEnv d)

end Verif.Gns
