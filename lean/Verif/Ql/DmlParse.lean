import Verif.Ql.Syn
/-!
Model of the parsers of statements on rows: `ql/dml/{mod,ins,sel,upd,del}.rs`.
-/
namespace Verif.Ql
open Verif.Lex (Token Symbol Keyword KwStmt KwMisc Lit ascii)
open Verif.Dml (cellOfLit AOp InsData Asn)

/-! ### WHERE (`ql/dml/mod.rs`) -/

/-- `RelationalExpr` (`ql/dml/mod.rs:60-76`): the code of the operator (`=` 1, `!=` 2, `>` 3, `>=` 4, `<` 5,
`<=` 6) and the right side. -/
structure Rel where
  opc : Nat
  rhs : Lit
  deriving DecidableEq, Repr

/-- `WhereClauseCollection` (line 126): a hash map from names, as the list of its entries. -/
abbrev Clauses := List (String × Rel)

/-- The sum of the codes in `parse_operator` (lines 86-92); `b` is the token after `a`, looked at only if
`a` is one of `!`, `>`, `<`. -/
def opCode (a b : Token) : Nat :=
  let eq := if a == tEq then 1 else 0
  let ne := if a == .sym .opLogicalNot && b == tEq then 2 else 0
  let ge := if a == .sym .opComparatorGt && b == tEq then 4 else 0
  let gt := if a == .sym .opComparatorGt && ge == 0 then 3 else 0
  let le := if a == .sym .opComparatorLt && b == tEq then 6 else 0
  let lt := if a == .sym .opComparatorLt && le == 0 then 5 else 0
  eq + ne + ge + gt + le + lt

/-- `parse_operator` (lines 84-96). The second token is read only after `!`, `>` and `<`. -/
def parseOperator : P Nat := do
  let a ← readAt 0
  let b ← (if a == .sym .opLogicalNot || a == .sym .opComparatorGt || a == .sym .opComparatorLt
    then readAt 1 else pure a)
  let opc := opCode a b
  poisonIfNot (opc != 0)
  aheadBy (1 + (opc % 2 == 0).toNat)
  pure opc

/-- `RelationalExpr::try_parse` (lines 98-118). -/
def tryRel : P (Option (String × Rel)) := do
  let n ← remaining
  if n < 3 then pure none
  else
    let id ← read
    poisonIfNot (isId id)
    ahead
    let opc ← parseOperator
    let l ← canReadLit
    poisonIfNot l
    let ok ← okay
    if ok then
      let t ← read
      let lit ← uckLit t
      ahead
      let b ← uckIdent id
      pure (some (nm b, ⟨opc, lit⟩))
    else pure none

/-- `HashMap::get` on the clauses. -/
def cget : Clauses → String → Option Rel
  | [], _ => none
  | (k, v) :: es, x => if k = x then some v else cget es x

/-- One turn of the loop (lines 143-145): `c.insert(..).is_none()` or poison. A second clause on the same
column replaces the first one; the statement is refused then. -/
def addClause (c : Clauses) (x : Option (String × Rel)) : P Clauses :=
  match x with
  | some (k, r) => do
    poisonIfNot (cget c k).isNone
    pure (c ++ [(k, r)])
  | none => pure c

/-- `parse_where_and_append_to` (lines 137-149). -/
def whereLoop : Nat → Bool → Clauses → P Clauses
  | 0, _, _ => stuck
  | n + 1, more, c => do
    let go ← loopTt
    if more && go then
      let x ← tryRel
      let c ← addClause c x
      let more ← roundedEq (kw .and)
      aheadIf more
      whereLoop n more c
    else pure c

/-- `parse_where` (lines 155-160), and the same lines in `SELECT` and `UPDATE`. -/
def parseWhere : P Clauses := do
  let n ← fuel
  let c ← whereLoop n true []
  poisonIf c.isEmpty
  pure c

/-! ### INSERT (`ql/dml/ins.rs`) -/

/-- `PRODUCER_G`, `PRODUCER_F`, `MAGIC_1`, `MAGIC_2` (lines 87-94). -/
def prodG : List Nat := [0, 2, 3, 0]
def prodF : List Bytes := [ascii "uuidstr", ascii "uuidbin", ascii "timesec"]
def prodM1 : Bytes := ascii "cp21rLd"
def prodM2 : Bytes := ascii "zS8zgaK"

/-- The loop of `hashf` (lines 98-106), with the wrapping of a `u32`. -/
def hashfLoop (m : Bytes) : Nat → Nat → Bytes → Nat
  | _, s, [] => s
  | i, s, b :: k => hashfLoop m (i + 1) ((s + (m[i % 7]?.getD 0).toNat * b.toNat) % 2 ^ 32) k

/-- `hashf` (lines 98-106). -/
def hashf (key m : Bytes) : Nat := hashfLoop m 0 0 key % 4

/-- `hashp` (lines 108-111). -/
def hashp (key : Bytes) : Nat := (prodG[hashf key prodM1]?.getD 0 + prodG[hashf key prodM2]?.getD 0) % 4

/-- `ldfunc` (lines 113-123): the position of the function in the table. -/
def ldfunc (f : Bytes) : Option Nat :=
  let p := min (hashp f) 2
  if prodF[p]? = some f then some p else none

/-- The values of the functions (lines 73-85). -/
def produce (e : Env) (at_ : Nat) : Nat → Cell
  | 0 => .str (e.uuidStr at_)
  | 1 => .bin (e.uuidBin at_)
  | _ => .uint .uint64 (e.time at_)

/-- `handle_func_sub` (lines 189-193). -/
def funcSub : P (Option Cell) := do
  let t ← fwRead
  let b ← uckIdent t
  aheadBy 2
  fun e s => .ok ((ldfunc b).map (produce e s.i), s)

/-- The comparison of an element with the first one of its list (line 174). -/
def sameAsHead (d : Cell) : List Cell → Bool
  | [] => true
  | x :: _ => d.kind == x.kind

/-- `parse_list` (lines 127-184). The result is the class of the last element, if any. An element comes
with the class of the nested lists so far; `none`: the loop was left. -/
def parseList : Nat → Bool → Option TagClass → Option TagClass → List Cell → P (Option TagClass × List Cell)
  | 0, _, _, _, _ => stuck
  | n + 1, stop, overall, prev, l => do
    let go ← loopTt
    if go && !stop then
      let t ← fwRead
      let r ← (match t with
        | .lit x => pure (some (cellOfLit x, prev))
        | .sym .ttOpenSqBracket => do
          let c ← cursorEq tCS
          aheadIf c
          let (dscr, nl) ← parseList n c none none []
          poisonIfNot (prev.isNone || dscr.isNone || prev == dscr)
          pure (some (.list nl, if prev.isNone && dscr.isSome then dscr else prev))
        | .sym .symAt => do
          let sig ← fnSig
          if sig then do
            let v ← funcSub
            match v with
            | some v => pure (some (v, prev))
            | none => do
              poison
              pure none
          else do
            backBy 1
            poison
            pure none
        | _ => do
          backBy 1
          poison
          pure none)
      match r with
      | none => pure (overall, l)
      | some (d, prev) => do
        poisonIfNot (sameAsHead d l)
        let nxComma ← roundedEq tComma
        let nxClose ← roundedEq tCS
        poisonIfNot (nxComma || nxClose)
        let ok ← okay
        aheadIf ok
        parseList n nxClose (some d.kind) prev (l ++ [d])
    else pure (overall, l)

/-- The call of `parse_list` (lines 127-133). -/
def list : P (List Cell) := do
  let c ← cursorEq tCS
  aheadIf c
  let n ← fuel
  let (_, l) ← parseList n c none none []
  pure l

/-- A value of an `INSERT` after its first token `t` (lines 204-230 and 253-286): a value, a function
without a known name, or something else. -/
inductive Val where
  | val (c : Cell)
  | unknown
  | other

def value (t : Token) : P Val :=
  match t with
  | .lit x => pure (.val (cellOfLit x))
  | .sym .ttOpenSqBracket => do
    if ← notExhausted then
      let l ← list
      pure (.val (.list l))
    else pure .other
  | .kw (.misc .null) => pure (.val .null)
  | .sym .symAt => do
    if ← fnSig then
      match ← funcSub with
      | some v => pure (.val v)
      | none => pure .unknown
    else pure .other
  | _ => pure .other

/-- The loop of `parse_data_tuple_syntax` (lines 203-236). -/
def tupleLoop : Nat → Bool → List Cell → P (List Cell)
  | 0, _, _ => stuck
  | n + 1, stop, data => do
    let go ← loopTt
    if go && !stop then
      let t ← fwRead
      match ← value t with
      | .val c => do
        let nxComma ← roundedEq tComma
        let nxClose ← roundedEq tCP
        poisonIfNot (nxComma || nxClose)
        let ok ← okay
        aheadIf ok
        tupleLoop n nxClose (data ++ [c])
      | .unknown => do
        poison
        pure data
      | .other => do
        backBy 1
        poison
        pure data
    else pure data

/-- `parse_data_tuple_syntax` (lines 197-238). -/
def tuple : P (List Cell) := do
  let stop ← cursorEq tCP
  aheadIf stop
  let n ← fuel
  tupleLoop n stop []

/-- `HashMap::get` on the columns of an `INSERT`. -/
def mget : List (String × Cell) → String → Option Cell
  | [], _ => none
  | (k, v) :: es, x => if k = x then some v else mget es x

/-- The loop of `parse_data_map_syntax` (lines 248-292). -/
def mapLoop : Nat → Bool → List (String × Cell) → P (List (String × Cell))
  | 0, _, _ => stuck
  | n + 1, stop, data => do
    let r ← remaining
    let ok ← okay
    if 3 ≤ r && ok && !stop then
      let field ← fwRead
      let colon ← fwRead
      let expr ← fwRead
      poisonIfNot (colon == tColon)
      match field with
      | .ident b => do
        match ← value expr with
        | .val c => do
          poisonIfNot (mget data (nm b)).isNone
          let nxComma ← roundedEq tComma
          let nxClose ← roundedEq tCB
          poisonIfNot (nxComma || nxClose)
          let ok ← okay
          aheadIf ok
          mapLoop n nxClose (data ++ [(nm b, c)])
        | .unknown => do
          poison
          pure data
        | .other => do
          backBy 3
          poison
          pure data
      | _ => do
        backBy 3
        poison
        pure data
    else pure data

/-- `parse_data_map_syntax` (lines 242-294). -/
def dataMap : P (List (String × Cell)) := do
  let stop ← cursorEq tCB
  aheadIf stop
  let n ← fuel
  mapLoop n stop []

/-- The statements on rows. `fields = none` is the wildcard. -/
inductive RowStmt where
  | insert (d : InsData)
  | update (as : List Asn) (w : Clauses)
  | delete (w : Clauses)
  | select (fields : Option (List String)) (w : Clauses)
  | selectAll (fields : Option (List String)) (limit : UInt64)

/-- A statement on rows and the model it is about. -/
structure RowQuery where
  space : String
  model : String
  stmt : RowStmt

/-- `parse_insert` (lines 344-387). -/
def insertStmt : P RowQuery := do
  let n ← remaining
  if n < 5 then fail .unexpectedEnd
  else
    let b ← cursorEq (kw .into)
    poisonIfNot b
    ahead
    let entity ← entityBuffered
    let t ← fwRead
    let more ← notExhausted
    let data ← (
      if t == tOP && more then do
        let d ← tuple
        pure (some (InsData.ordered d))
      else if t == tOB && more then do
        let d ← dataMap
        pure (some (InsData.map d))
      else do
        poison
        pure none)
    let ok ← okay
    if ok then
      let d ← assumeInit data
      let m ← assumeInit entity
      pure ⟨m.1, m.2, .insert d⟩
    else fail .invalidSyntax

/-! ### SELECT (`ql/dml/sel.rs`) -/

/-- The loop over the columns (`ql/dml/sel.rs:114-124`, and 191-201 again). -/
def colLoop : Nat → List String → P (List String)
  | 0, _ => stuck
  | n + 1, cols => do
    if ← loopTt then
      let t ← read
      match t with
      | .ident b => do
        ahead
        let nxComma ← roundedEq tComma
        let nxFrom ← roundedEq (kw .from)
        poisonIfNot (nxComma || nxFrom)
        aheadIf nxComma
        colLoop n (cols ++ [nm b])
      | _ => pure cols
    else pure cols

/-- The columns of a query (lines 111-125 and 188-202): `none` is the wildcard. -/
def columns : P (Option (List String)) := do
  let w ← cursorEq tStar
  aheadIf w
  if w then pure none
  else
    let n ← fuel
    let cols ← colLoop n []
    poisonIfNot (!cols.isEmpty)
    pure (some cols)

/-- `parse_select` (lines 101-152). -/
def selectStmt : P RowQuery := do
  let n ← remaining
  if n < 3 then fail .unexpectedEnd
  else
    let cols ← columns
    let n ← remaining
    let ok ← okay
    if n < 2 || !ok then fail .invalidSyntax
    else
      let b ← cursorEq (kw .from)
      poisonIfNot b
      ahead
      let entity ← entityBuffered
      let w ← roundedEq (kw .where)
      let c ← if w then do
          ahead
          parseWhere
        else pure []
      let ok ← okay
      if ok then
        let m ← assumeInit entity
        pure ⟨m.1, m.2, .select cols c⟩
      else fail .invalidSyntax

/-- `SelectAllStatement::parse` (lines 181-230). -/
def selectAllStmt : P RowQuery := do
  let n ← remaining
  if n < 5 then fail .unexpectedEnd
  else
    let cols ← columns
    let n ← remaining
    if n < 4 then fail .unexpectedEnd
    else
      let b ← cursorEq (kw .from)
      poisonIfNot b
      ahead
      let entity ← entityBuffered
      let l ← roundedEq (kw .limit)
      poisonIfNot l
      let ok ← okay
      aheadIf ok
      let x ← exhausted
      poisonIf x
      let ok ← okay
      if ok then
        let t ← fwRead
        let lit ← uckLit t
        match lit with
        | .uint v => do
          let m ← assumeInit entity
          pure ⟨m.1, m.2, .selectAll cols v⟩
        | _ => fail .invalidSyntax
      else fail .invalidSyntax

/-! ### UPDATE (`ql/dml/upd.rs`) -/

/-- `OPERATOR` (`ql/dml/upd.rs:47-54`). -/
def operator : List AOp := [.assign, .assign, .add, .sub, .mul, .div]

/-- `parse_and_append_expression` (lines 74-122). The sum of the five codes is at most 5: at most one of
the comparisons holds. -/
def assignment (as : List Asn) : P (List Asn) := do
  let n ← remaining
  if n < 3 then do
    poison
    pure as
  else
    let lhs ← fwRead
    poisonIfNot (isId lhs)
    let t ← read
    let code := (t == tEq).toNat + (t == .sym .opArithmeticAdd).toNat * 2
      + (t == .sym .opArithmeticSub).toNat * 3 + (t == .sym .opArithmeticMul).toNat * 4
      + (t == .sym .opArithmeticDiv).toNat * 5
    if 5 < code then crash
    else
      ahead
      poisonIf (code == 0)
      let dbl ← roundedEq tEq
      let dblOk := code != 1 && dbl
      let sglOk := code == 1 && !dblOk
      poisonIfNot (sglOk || dblOk)
      aheadIf dblOk
      let l ← canReadLit
      poisonIfNot l
      let ok ← okay
      if ok then
        let t ← read
        let rhs ← uckLit t
        ahead
        let b ← uckIdent lhs
        match operator[code]? with
        | some op => pure (as ++ [⟨nm b, op, rhs⟩])
        | none => crash
      else pure as

/-- The loop over the assignments (lines 184-190): the assignments and whether `where` was reached. -/
def assignLoop : Nat → Bool → List Asn → P (Bool × List Asn)
  | 0, _, _ => stuck
  | n + 1, nxWhere, as => do
    let go ← loopTt
    if go && !nxWhere then
      let as ← assignment as
      let nxComma ← roundedEq tComma
      let nxWhere ← roundedEq (kw .where)
      poisonIfNot (nxComma || nxWhere)
      aheadIf nxComma
      assignLoop n nxWhere as
    else pure (nxWhere, as)

/-- `parse_update` (lines 162-209). -/
def updateStmt : P RowQuery := do
  let n ← remaining
  if n < 9 then fail .unexpectedEnd
  else
    let entity ← entityBuffered
    let n ← remaining
    if n < 6 then crash
    else
      let b ← cursorEq (kw .set)
      poisonIfNot b
      ahead
      let n ← fuel
      let (nxWhere, as) ← assignLoop n false []
      poisonIfNot nxWhere
      let ok ← okay
      aheadIf ok
      let c ← parseWhere
      let ok ← okay
      if ok then
        let m ← assumeInit entity
        pure ⟨m.1, m.2, .update as c⟩
      else fail .invalidSyntax

/-! ### DELETE (`ql/dml/del.rs`) -/

/-- `parse_delete` (`ql/dml/del.rs:75-104`). -/
def deleteStmt : P RowQuery := do
  let n ← remaining
  if n < 5 then fail .unexpectedEnd
  else
    let b ← cursorEq (kw .from)
    poisonIfNot b
    ahead
    let entity ← entityBuffered
    let b ← cursorEq (kw .where)
    poisonIfNot b
    ahead
    let c ← parseWhere
    let ok ← okay
    if ok then
      let m ← assumeInit entity
      pure ⟨m.1, m.2, .delete c⟩
    else fail .invalidSyntax

end Verif.Ql
