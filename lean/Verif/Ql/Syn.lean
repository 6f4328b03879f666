import Verif.Ql.State
/-!
Model of the parsers for property dictionaries, types and columns (`ql/ddl/syn.rs`).

Loops have a fuel argument. Each turn consumes a token or is the last one, so the number of tokens plus
one is enough; that the fuel never runs out is part of the theorems on crashes (`Ql/Safe*.lean`).
-/
namespace Verif.Ql
open Verif.Lex (Token Symbol Keyword KwStmt KwMisc Lit)
open Verif.Enc (DVal Dict)
open Verif.Gns (get put)
open Verif.Dml (cellOfLit)

/-- `DictFoldState` (`ql/ddl/syn.rs:83-92`). -/
inductive DFold where
  | ob | cbOrIdent | colon | litOrOb | commaOrCb | final
  deriving DecidableEq, Repr

/-- `dict.insert(..)` together with `poison_if_not(.. .is_none())` (lines 155-164). -/
def insertNew (d : Dict) (k : String) (v : DVal) : P Dict := do
  poisonIfNot (get d k).isNone
  pure (put d k v)

/-- `_rfold_dict` (lines 116-224). `bp` is `TypeBreakpoint`; `key` is the key that was read last. The
result: was the breakpoint reached, and the dictionary. -/
def rfold : Nat → Bool → DFold → Option String → Dict → P (Bool × Dict)
  | 0, _, _, _, _ => stuck
  | n + 1, bp, m, key, d => do
    if ← loopTt then
      let t ← fwRead
      match t, m with
      | .sym .ttOpenBrace, .ob => rfold n bp .cbOrIdent key d
      | .sym .ttCloseBrace, .cbOrIdent => pure (false, d)
      | .sym .ttCloseBrace, .commaOrCb => pure (false, d)
      | .ident b, .cbOrIdent => rfold n bp .colon (some (nm b)) d
      | .sym .symColon, .colon => rfold n bp .litOrOb key d
      | .lit l, .litOrOb => do
        let k ← assumeInit key
        let d ← insertNew d k (.data (cellOfLit l))
        rfold n bp .commaOrCb none d
      | .kw (.misc .null), .litOrOb => do
        let k ← assumeInit key
        let d ← insertNew d k (.data .null)
        rfold n bp .commaOrCb none d
      | .sym .ttOpenBrace, .litOrOb => do
        let (_, nd) ← rfold n false .cbOrIdent none []
        let k ← assumeInit key
        let d ← insertNew d k (.map nd)
        rfold n bp .commaOrCb none d
      | .sym .symComma, .commaOrCb => rfold n bp .cbOrIdent key d
      | t, m =>
        if bp && m == .cbOrIdent && t == kw .type then pure (true, d)
        else do
          backBy 1
          poison
          pure (false, d)
    else do
      poisonIfNot (m == .final)
      pure (false, d)

/-- The number of tokens. -/
def fuel : P Nat := fun e s => .ok (e.toks.length + 1, s)

/-- `rfold_dict` (lines 226-232). -/
def rfoldDict (m : DFold) : P Dict := do
  let n ← fuel
  let (_, d) ← rfold n false m none []
  pure d

/-- `parse_dict` (lines 234-242). -/
def parseDict : P (Option Dict) := do
  let d ← rfoldDict .ob
  let ok ← okay
  pure (if ok then some d else none)

/-- `LayerFoldState` (lines 269-274). -/
inductive LFold where
  | beginIdent | foldIncomplete | finalOrOb | final
  deriving DecidableEq, Repr

/-- The end of `rfold_layers` (lines 328-340). -/
def pushLayer (m : LFold) (ty : Option Bytes) (props : Dict) (ls : List LayerSpec) : P (List LayerSpec) := do
  let ok ← okay
  if (m == .final || m == .finalOrOb) && ok then
    let ty ← assumeInit ty
    pure (ls ++ [⟨ty, props.isEmpty⟩])
  else
    poison
    pure ls

/-- `rfold_layers` (lines 277-340). Of the properties of a layer only the emptiness is kept. -/
def layers : Nat → LFold → Option Bytes → Dict → List LayerSpec → P (List LayerSpec)
  | 0, _, _, _, _ => stuck
  | n + 1, m, ty, props, ls => do
    if ← loopTt then
      let t ← fwRead
      match t, m with
      | .ident b, .beginIdent => layers n .finalOrOb (some b) props ls
      | .sym .ttOpenBrace, .finalOrOb => do
        let (more, props) ← rfold n true .cbOrIdent none props
        if more then
          let c ← roundedEq tColon
          poisonIfNot c
          let ok ← okay
          aheadIf ok
          let ls ← layers n .beginIdent none [] ls
          layers n .foldIncomplete ty props ls
        else pushLayer .final ty props ls
      | .sym .ttCloseBrace, .foldIncomplete => pushLayer .final ty props ls
      | .sym .symComma, .foldIncomplete => do
        let (_, props) ← rfold n false .cbOrIdent none props
        pushLayer .final ty props ls
      | _, .finalOrOb => do
        backBy 1
        pushLayer .final ty props ls
      | _, m => do
        backBy 1
        poison
        pushLayer m ty props ls
    else pushLayer m ty props ls

/-- `rfold_layers` with no layer yet. -/
def rfoldLayers : P (List LayerSpec) := do
  let n ← fuel
  layers n .beginIdent none [] []

/-- `FieldSpec::parse` (lines 370-400). -/
def fieldSpec : P Gns.FieldSpec := do
  let n ← remaining
  if n < 2 then fail .unexpectedEnd
  else
    let isPrimary ← cursorEq (kw .primary)
    aheadIf isPrimary
    let isNull ← cursorEq (kw .null)
    aheadIf isNull
    poisonIf (isPrimary && isNull)
    let a ← fwRead
    let b ← fwRead
    match a, b with
    | .ident id, .sym .symColon => do
      let ls ← rfoldLayers
      let ok ← okay
      if ok then pure ⟨nm id, ls, isNull, isPrimary⟩
      else fail .invalidTypeDef
    | _, _ => fail .invalidSyntax

/-- `ExpandedField::parse` (lines 422-467). -/
def expandedField : P Gns.Expanded := do
  let n ← remaining
  if n < 6 then fail .unexpectedEnd
  else
    let name ← fwRead
    poisonIfNot (isId name)
    let b ← cursorEq tOB
    poisonIfNot b
    ahead
    let n ← fuel
    let (more, props) ← rfold n true .cbOrIdent none []
    if more then
      let x ← exhausted
      if x then fail .unexpectedEnd
      else
        let c ← cursorEq tColon
        poisonIfNot c
        ahead
        let ls ← rfoldLayers
        let t ← fwRead
        match t with
        | .sym .symComma => do
          let (_, props) ← rfold n false .cbOrIdent none props
          let ok ← okay
          if ok then
            let b ← uckIdent name
            pure ⟨nm b, ls, props⟩
          else fail .invalidSyntax
        | .sym .ttCloseBrace => do
          let ok ← okay
          if ok then
            let b ← uckIdent name
            pure ⟨nm b, ls, props⟩
          else fail .invalidSyntax
        | _ => do
          poison
          fail .invalidSyntax
    else
      let ok ← okay
      if ok then
        let b ← uckIdent name
        pure ⟨nm b, [], props⟩
      else fail .invalidSyntax

/-- The loop of `parse_multiple` (lines 494-510), then lines 511-516. -/
def expandedLoop : Nat → Bool → List Gns.Expanded → P (List Gns.Expanded)
  | 0, _, _ => stuck
  | n + 1, stop, cols => do
    let go ← loopTt
    if go && !stop then
      let t ← read
      if isId t then
        let ef ← expandedField
        let nxComma ← roundedEq tComma
        let nxClose ← roundedEq tCP
        poisonIfNot (nxComma || nxClose)
        let ok ← okay
        aheadIf ok
        expandedLoop n nxClose (cols ++ [ef])
      else
        poison
        fail .invalidSyntax
    else
      poisonIfNot stop
      let ok ← okay
      if ok then pure cols else fail .invalidSyntax

/-- `ExpandedField::parse_multiple` (lines 470-520). -/
def parseMultiple : P (List Gns.Expanded) := do
  let n ← remaining
  if n < 5 then fail .unexpectedEnd
  else
    let t ← read
    match t with
    | .ident _ => do
      let ef ← expandedField
      pure [ef]
    | .sym .ttOpenParen => do
      ahead
      let n ← fuel
      expandedLoop n false []
    | _ => fail .expectedStatement

end Verif.Ql
