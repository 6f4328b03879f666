import Verif.Ql.Syn
/-!
Model of the parsers of statements on spaces, models and users: `ql/ddl/{crt,alt,drop,mod}.rs` and
`ql/dcl.rs`.
-/
namespace Verif.Ql
open Verif.Lex (Token Symbol Keyword KwStmt KwMisc Lit)
open Verif.Enc (DVal Dict)

/-- `sig_if_not_exists` (`ql/ddl/crt.rs:42-47`). -/
def sigIfNotExists : P Bool := do
  let a ← offR 0
  let b ← offR 1
  let c ← offR 2
  let n ← remaining
  pure (a == kw .if && b == kw .not && c == tExists && 3 ≤ n)

/-- `CreateSpace::parse` (`ql/ddl/crt.rs:59-98`). -/
def createSpace : P Gns.Stmt := do
  let n ← remaining
  if n < 1 then fail .unexpectedEnd
  else
    let ine ← sigIfNotExists
    aheadBy (ine.toNat * 3)
    let x ← exhausted
    if x then fail .unexpectedEnd
    else
      let name ← fwRead
      poisonIfNot (isId name)
      let more ← roundedEq (kw .with)
      let x ← exhausted
      poisonIfNot (more || x)
      aheadIf more
      let ok ← okay
      let d ← if more && ok then rfoldDict .ob else pure []
      let ok ← okay
      if ok then
        let b ← uckIdent name
        pure (.createSpace (nm b) d ine)
      else fail .invalidSyntax

/-- The loop over the columns in `CreateModel::parse` (`ql/ddl/crt.rs:147-158`): the columns. -/
def fieldLoop : Nat → Bool → List Gns.FieldSpec → P (List Gns.FieldSpec)
  | 0, _, _ => stuck
  | n + 1, stop, fs => do
    let go ← loopTt
    if go && !stop then
      let f ← fieldSpec
      let nxClose ← roundedEq tCP
      let nxComma ← roundedEq tComma
      poisonIfNot (nxClose || nxComma)
      aheadIf (nxClose || nxComma)
      fieldLoop n nxClose (fs ++ [f])
    else
      poisonIfNot stop
      pure fs

/-- `CreateModel::parse` (`ql/ddl/crt.rs:134-181`). -/
def createModel : P Gns.Stmt := do
  let n ← remaining
  if n < 10 then fail .unexpectedEnd
  else
    let ine ← sigIfNotExists
    aheadBy (ine.toNat * 3)
    let model ← entityBuffered
    let o ← cursorEq tOP
    poisonIfNot o
    ahead
    let n ← fuel
    let fs ← fieldLoop n false []
    let w ← roundedEq (kw .with)
    let props ← if w then do
        ahead
        rfoldDict .ob
      else pure []
    let ok ← okay
    if ok then
      let m ← assumeInit model
      pure (.createModel m.1 m.2 fs props ine)
    else fail .invalidSyntax

/-- `AlterSpace::parse` (`ql/ddl/alt.rs:58-90`). -/
def alterSpace : P Gns.Stmt := do
  let n ← remaining
  if n ≤ 3 then fail .unexpectedEnd
  else
    let name ← fwRead
    poisonIfNot (isId name)
    let w ← cursorEq (kw .with)
    poisonIfNot w
    ahead
    let o ← cursorEq tOB
    poisonIfNot o
    ahead
    let ok ← okay
    if !ok then fail .invalidSyntax
    else
      let b ← uckIdent name
      let d ← rfoldDict .cbOrIdent
      let ok ← okay
      if ok then pure (.alterSpace (nm b) d) else fail .invalidCollection

/-- The loop of `alter_remove` (`ql/ddl/alt.rs:162-179`), then lines 180-185. -/
def removeLoop : Nat → Bool → List String → P (List String)
  | 0, _, _ => stuck
  | n + 1, stop, cols => do
    let go ← loopTt
    if go && !stop then
      let t ← fwRead
      match t with
      | .ident b => do
        let nxComma ← roundedEq tComma
        let nxClose ← roundedEq tCP
        poisonIfNot (nxComma || nxClose)
        let ok ← okay
        aheadIf ok
        removeLoop n nxClose (cols ++ [nm b])
      | _ => do
        backBy 1
        poison
        fail .invalidSyntax
    else
      poisonIfNot stop
      let ok ← okay
      if ok then pure cols else fail .invalidSyntax

/-- `alter_remove` (`ql/ddl/alt.rs:146-188`). -/
def alterRemove : P Gns.AlterKind := do
  let x ← exhausted
  if x then fail .unexpectedEnd
  else
    let t ← fwRead
    match t with
    | .ident b => pure (.remove [nm b])
    | .sym .ttOpenParen => do
      let n ← fuel
      let cols ← removeLoop n false []
      pure (.remove cols)
    | _ => fail .invalidSyntax

/-- `AlterModel::parse` (`ql/ddl/alt.rs:116-130`) and `alter_add`, `alter_update` (lines 135-145). -/
def alterModel : P Gns.Stmt := do
  let n ← remaining
  let id ← (if n ≤ 2 then pure false else hasIdentRounded)
  if !id then fail .invalidSyntax
  else
    let m ← entityRef
    let t ← fwRead
    match t with
    | .kw (.misc .add) => do
      let fs ← parseMultiple
      pure (.alterModel m.1 m.2 (.add fs))
    | .kw (.misc .remove) => do
      let k ← alterRemove
      pure (.alterModel m.1 m.2 k)
    | .kw (.statement .update) => do
      let fs ← parseMultiple
      pure (.alterModel m.1 m.2 (.update fs))
    | _ => fail .expectedStatement

/-- `check_if_exists` (`ql/ddl/drop.rs:88-98`) with `sig_if_exists` (lines 35-37). -/
def checkIfExists : P Bool := do
  let x ← exhausted
  if x then fail .unexpectedEnd
  else
    let a ← offR 0
    let b ← offR 1
    let ie := a == kw .if && b == tExists
    aheadBy (ie.toNat * 2)
    let x ← exhausted
    if x then fail .unexpectedEnd else pure ie

/-- `ddl_allow_non_empty` (`ql/ddl/drop.rs:100-107`). -/
def allowNonEmpty : P Bool := do
  let a ← offR 0
  let b ← offR 1
  let c ← offR 2
  let d ← offR 3
  let n ← remaining
  pure (a == kw .allow && b == kw .not && identEq c "empty" && isId d && 4 ≤ n)

/-- `DropSpace::parse` (`ql/ddl/drop.rs:56-86`). -/
def dropSpace : P Gns.Stmt := do
  let ie ← checkIfExists
  let id ← cursorIsIdent
  if id then
    let t ← fwRead
    let b ← uckIdent t
    pure (.dropSpace (nm b) false ie)
  else
    let a ← allowNonEmpty
    if a then
      aheadBy 3
      let t ← fwRead
      let b ← uckIdent t
      pure (.dropSpace (nm b) true ie)
    else fail .invalidSyntax

/-- `DropModel::parse` (`ql/ddl/drop.rs:125-139`). -/
def dropModel : P Gns.Stmt := do
  let ie ← checkIfExists
  let id ← cursorIsIdent
  if id then
    let m ← entityRef
    pure (.dropModel m.1 m.2 false ie)
  else
    let a ← allowNonEmpty
    if a then
      aheadBy 3
      let m ← entityRef
      pure (.dropModel m.1 m.2 true ie)
    else fail .invalidSyntax

/-- `Use` (`ql/ddl/mod.rs:44-48`). -/
inductive Use where
  | space (name : String)
  | current
  | null
  deriving DecidableEq, Repr

/-- The parser of `USE` (`ql/ddl/mod.rs:53-79`). -/
def useStmt : P Use := do
  let n ← remaining
  if n == 0 || 2 < n then fail .invalidSyntax
  else
    let t ← fwRead
    match t with
    | .ident b => pure (.space (nm b))
    | .kw (.misc .null) => pure .null
    | .sym .symDollar => do
      let x ← exhausted
      if x then fail .invalidSyntax
      else
        let t ← fwRead
        if identEq t "current" then pure .current else fail .invalidSyntax
    | _ => fail .invalidSyntax

/-- `Inspect` (`ql/ddl/mod.rs:81-85`). -/
inductive Inspect where
  | global
  | space (name : String)
  | model (space name : String)
  deriving DecidableEq, Repr

/-- The parser of `INSPECT` (`ql/ddl/mod.rs:91-115`). -/
def inspectStmt : P Inspect := do
  let x ← exhausted
  if x then fail .unexpectedEnd
  else
    let t ← fwRead
    match t with
    | .kw (.misc .space) => do
      let x ← exhausted
      if x then fail .unexpectedEnd
      else
        let t ← fwRead
        match t with
        | .ident b => pure (.space (nm b))
        | _ => fail .invalidSyntax
    | .kw (.misc .model) => do
      let m ← entityRef
      pure (.model m.1 m.2)
    | t => if identEq t "global" then pure .global else fail .invalidSyntax

/-- `parse` of user names and options (`ql/dcl.rs:92-126`). -/
def userMeta : P (String × Dict) := do
  let n ← remaining
  if n < 7 then fail .invalidSyntax
  else
    let a ← readAt 0
    let b ← readAt 1
    let c ← readAt 2
    poisonIfNot (isId a && b == kw .with && c == tOB)
    aheadBy 2
    let d ← parseDict
    match d with
    | none => fail .invalidCollection
    | some d => do
      let name ← uckIdent a
      let more ← notExhausted
      let ok ← okay
      if more || !ok then fail .invalidSyntax else pure (nm name, d)

/-- `UserDel::parse` (`ql/dcl.rs:159-169`). -/
def userDel : P String := do
  let id ← hasIdentRounded
  let n ← remaining
  if id && n == 1 then
    let t ← read
    let b ← uckIdent t
    ahead
    pure (nm b)
  else fail .invalidSyntax

/-- `SysctlCommand` (`ql/dcl.rs:37-47`). -/
inductive Sysctl where
  | user (s : Gns.Stmt)
  | report

/-- The parser of `SYSCTL` (`ql/dcl.rs:59-86`). -/
def sysctl : P Sysctl := do
  let n ← remaining
  if n < 2 then fail .unexpectedEnd
  else
    let a ← fwRead
    let b ← fwRead
    let alter := a == .kw (.statement .alter) && identEq b "user"
    let create := a == .kw (.statement .create) && identEq b "user"
    let drop := a == .kw (.statement .drop) && identEq b "user"
    let status := identEq a "report" && identEq b "status"
    if !(create || drop || status || alter) then fail .unknownStatement
    else if create then
      let (n, d) ← userMeta
      pure (.user (.createUser n d))
    else if drop then
      let n ← userDel
      pure (.user (.dropUser n))
    else if alter then
      let (n, d) ← userMeta
      pure (.user (.alterUser n d))
    else pure .report

end Verif.Ql
