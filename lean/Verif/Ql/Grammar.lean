import Verif.Ql.Dispatch
/-!
The grammar of the query language, as relations between lists of tokens and what they stand for. It does not
mention the parser. The forms that the code accepts beyond the documented language are marked with *lax*.
-/
namespace Verif.Ql.Gr
open Verif.Lex (Token Symbol Keyword KwStmt KwMisc Lit ascii)
open Verif.Enc (DVal Dict)
open Verif.Dml (cellOfLit AOp InsData Asn)

/-- No key occurs twice. -/
def Distinct {α : Type} (d : List (String × α)) : Prop := (d.map Prod.fst).Nodup

/-! ### Dictionaries -/

mutual

/-- A value of a dictionary. -/
inductive Value : List Token → DVal → Prop
  | lit (l : Lit) : Value [.lit l] (.data (cellOfLit l))
  | null : Value [kw .null] (.data .null)
  | map {ts : List Token} {d : Dict} : Body ts d → Distinct d → Value (tOB :: ts) (.map d)

/-- Entries, each with a comma behind it. -/
inductive Items : List Token → Dict → Prop
  | nil : Items [] []
  | cons {b : Bytes} {vs ts : List Token} {v : DVal} {d : Dict} : Value vs v → Items ts d →
      Items (.ident b :: tColon :: (vs ++ tComma :: ts)) ((nm b, v) :: d)

/-- The inside of a dictionary with the closing brace. The comma after the last entry may be left out. -/
inductive Body : List Token → Dict → Prop
  | comma {ts : List Token} {d : Dict} : Items ts d → Body (ts ++ [tCB]) d
  | last {ts vs : List Token} {d : Dict} {b : Bytes} {v : DVal} : Items ts d → Value vs v →
      Body (ts ++ .ident b :: tColon :: (vs ++ [tCB])) (d ++ [(nm b, v)])

end

/-- A dictionary in braces. -/
inductive Map : List Token → Dict → Prop
  | mk {ts : List Token} {d : Dict} : Body ts d → Distinct d → Map (tOB :: ts) d

/-! ### Types and columns -/

/-- A type, innermost layer first. -/
inductive Ty : List Token → List LayerSpec → Prop
  | plain (b : Bytes) : Ty [.ident b] [⟨b, true⟩]
  | props {b : Bytes} {ts : List Token} {d : Dict} : Body ts d → Distinct d →
      Ty (.ident b :: tOB :: ts) [⟨b, d.isEmpty⟩]
  | nested {b : Bytes} {us ts : List Token} {d : Dict} {ls : List LayerSpec} : Items us d → Distinct d → Ty ts ls →
      Ty (.ident b :: tOB :: (us ++ kw .type :: tColon :: (ts ++ [tCB]))) (ls ++ [⟨b, d.isEmpty⟩])
  | nestedMore {b : Bytes} {us ts vs : List Token} {d d' : Dict} {ls : List LayerSpec} : Items us d → Ty ts ls →
      Body vs d' → Distinct (d ++ d') →
      Ty (.ident b :: tOB :: (us ++ kw .type :: tColon :: (ts ++ tComma :: vs))) (ls ++ [⟨b, (d ++ d').isEmpty⟩])

/-- A column of `CREATE MODEL`. -/
inductive Field : List Token → Gns.FieldSpec → Prop
  | plain {b : Bytes} {ts : List Token} {ls : List LayerSpec} : Ty ts ls →
      Field (.ident b :: tColon :: ts) ⟨nm b, ls, false, false⟩
  | null {b : Bytes} {ts : List Token} {ls : List LayerSpec} : Ty ts ls →
      Field (kw .null :: .ident b :: tColon :: ts) ⟨nm b, ls, true, false⟩
  | primary {b : Bytes} {ts : List Token} {ls : List LayerSpec} : Ty ts ls →
      Field (kw .primary :: .ident b :: tColon :: ts) ⟨nm b, ls, false, true⟩

/-- The columns of `CREATE MODEL` with the closing parenthesis. -/
inductive Fields : List Token → List Gns.FieldSpec → Prop
  | last {ts : List Token} {f : Gns.FieldSpec} : Field ts f → Fields (ts ++ [tCP]) [f]
  | more {ts us : List Token} {f : Gns.FieldSpec} {fs : List Gns.FieldSpec} : Field ts f → Fields us fs →
      Fields (ts ++ tComma :: us) (f :: fs)

/-- A column of `ALTER MODEL`: name, properties and maybe a type. -/
inductive Column : List Token → Gns.Expanded → Prop
  | props {b : Bytes} {ts : List Token} {d : Dict} : Body ts d → Distinct d →
      Column (.ident b :: tOB :: ts) ⟨nm b, [], d⟩
  | typed {b : Bytes} {us ts : List Token} {d : Dict} {ls : List LayerSpec} : Items us d → Distinct d → Ty ts ls →
      Column (.ident b :: tOB :: (us ++ kw .type :: tColon :: (ts ++ [tCB]))) ⟨nm b, ls, d⟩
  | typedMore {b : Bytes} {us ts vs : List Token} {d d' : Dict} {ls : List LayerSpec} : Items us d → Ty ts ls →
      Body vs d' → Distinct (d ++ d') →
      Column (.ident b :: tOB :: (us ++ kw .type :: tColon :: (ts ++ tComma :: vs))) ⟨nm b, ls, d ++ d'⟩

/-- Columns of `ALTER MODEL` with the closing parenthesis. -/
inductive ColumnList : List Token → List Gns.Expanded → Prop
  | last {ts : List Token} {c : Gns.Expanded} : Column ts c → ColumnList (ts ++ [tCP]) [c]
  | more {ts us : List Token} {c : Gns.Expanded} {cs : List Gns.Expanded} : Column ts c → ColumnList us cs →
      ColumnList (ts ++ tComma :: us) (c :: cs)

/-- One column, or several in parentheses. -/
inductive Columns : List Token → List Gns.Expanded → Prop
  | one {ts : List Token} {c : Gns.Expanded} : Column ts c → Columns ts [c]
  | list {ts : List Token} {cs : List Gns.Expanded} : ColumnList ts cs → Columns (tOP :: ts) cs

/-- Names with the closing parenthesis. -/
inductive NameList : List Token → List String → Prop
  | last (b : Bytes) : NameList [.ident b, tCP] [nm b]
  | more {b : Bytes} {ts : List Token} {ns : List String} : NameList ts ns →
      NameList (.ident b :: tComma :: ts) (nm b :: ns)

/-- One name, or several in parentheses. -/
inductive Names : List Token → List String → Prop
  | one (b : Bytes) : Names [.ident b] [nm b]
  | list {ts : List Token} {ns : List String} : NameList ts ns → Names (tOP :: ts) ns

/-- The full name of a model. -/
inductive Full : List Token → String → String → Prop
  | mk (a b : Bytes) : Full [.ident a, tDot, .ident b] (nm a) (nm b)

/-- The name of a model, with or without the space; `cs` is the current space. -/
inductive Name (cs : Option String) : List Token → String → String → Prop
  | full {ts : List Token} {s m : String} : Full ts s m → Name cs ts s m
  | short {s : String} (b : Bytes) : cs = some s → Name cs [.ident b] s (nm b)

/-- An optional part: the tokens are there or not. -/
inductive Opt (ts : List Token) : List Token → Bool → Prop
  | yes : Opt ts ts true
  | no : Opt ts [] false

/-- The properties after `with`, if there are any. -/
inductive With : List Token → Dict → Prop
  | no : With [] []
  | yes {ts : List Token} {d : Dict} : Map ts d → With (kw .with :: ts) d

/-- `if not exists` -/
abbrev ifNotExists : List Token := [kw .if, kw .not, tExists]
/-- `if exists` -/
abbrev ifExists : List Token := [kw .if, tExists]

/-- The word is `w` in lower or upper case. -/
def Word (w : String) (b : Bytes) : Prop := Lex.eqIgnoreCase b (ascii w) = true

/-- `allow not empty` -/
inductive Force : List Token → Bool → Prop
  | yes {b : Bytes} : Word "empty" b → Force [kw .allow, kw .not, .ident b] true
  | no : Force [] false

/-- `add …`, `remove …`, `update …` in `ALTER MODEL`. -/
inductive Alter : List Token → Gns.AlterKind → Prop
  | add {ts : List Token} {cs : List Gns.Expanded} : Columns ts cs → Alter (kw .add :: ts) (.add cs)
  | remove {ts : List Token} {ns : List String} : Names ts ns → Alter (kw .remove :: ts) (.remove ns)
  | update {ts : List Token} {cs : List Gns.Expanded} : Columns ts cs →
      Alter (.kw (.statement .update) :: ts) (.update cs)

/-- Statements on spaces and models. -/
inductive Ddl : List Token → Gns.Stmt → Prop
  | createSpace {os ws : List Token} {b : Bytes} {ine : Bool} {d : Dict} : Opt ifNotExists os ine → With ws d →
      Ddl (.kw (.statement .create) :: kw .space :: (os ++ .ident b :: ws)) (.createSpace (nm b) d ine)
  | createModel {os ns fs ws : List Token} {ine : Bool} {s m : String} {cols : List Gns.FieldSpec} {d : Dict} :
      Opt ifNotExists os ine → Full ns s m → Fields fs cols → With ws d →
      Ddl (.kw (.statement .create) :: kw .model :: (os ++ ns ++ tOP :: fs ++ ws)) (.createModel s m cols d ine)
  | alterSpace {b : Bytes} {ts : List Token} {d : Dict} : Map ts d →
      Ddl (.kw (.statement .alter) :: kw .space :: .ident b :: kw .with :: ts) (.alterSpace (nm b) d)
  | alterModel {ns ts : List Token} {s m : String} {k : Gns.AlterKind} : Full ns s m → Alter ts k →
      Ddl (.kw (.statement .alter) :: kw .model :: (ns ++ ts)) (.alterModel s m k)
  | dropSpace {os fs : List Token} {b : Bytes} {ie force : Bool} : Opt ifExists os ie → Force fs force →
      Ddl (.kw (.statement .drop) :: kw .space :: (os ++ fs ++ [.ident b])) (.dropSpace (nm b) force ie)
  | dropModel {os fs ns : List Token} {ie force : Bool} {s m : String} : Opt ifExists os ie → Force fs force →
      Full ns s m →
      Ddl (.kw (.statement .drop) :: kw .model :: (os ++ fs ++ ns)) (.dropModel s m force ie)

/-- `SYSCTL`. -/
inductive Sys : List Token → Sysctl → Prop
  | createUser {u b : Bytes} {ts : List Token} {d : Dict} : Word "user" u → Map ts d →
      Sys (.kw (.statement .create) :: .ident u :: .ident b :: kw .with :: ts) (.user (.createUser (nm b) d))
  | alterUser {u b : Bytes} {ts : List Token} {d : Dict} : Word "user" u → Map ts d →
      Sys (.kw (.statement .alter) :: .ident u :: .ident b :: kw .with :: ts) (.user (.alterUser (nm b) d))
  | dropUser {u b : Bytes} : Word "user" u → Sys [.kw (.statement .drop), .ident u, .ident b] (.user (.dropUser (nm b)))
  | report {a b : Bytes} : Word "report" a → Word "status" b → Sys [.ident a, .ident b] .report

/-! ### Rows -/

/-- An operator of a comparison and its code. -/
inductive Op : List Token → Nat → Prop
  | eq : Op [tEq] 1
  | ne : Op [.sym .opLogicalNot, tEq] 2
  | gt : Op [.sym .opComparatorGt] 3
  | ge : Op [.sym .opComparatorGt, tEq] 4
  | lt : Op [.sym .opComparatorLt] 5
  | le : Op [.sym .opComparatorLt, tEq] 6

/-- Clauses with `and` between them. -/
inductive Where : List Token → Clauses → Prop
  | one {b : Bytes} {os : List Token} {c : Nat} {l : Lit} : Op os c →
      Where (.ident b :: (os ++ [.lit l])) [(nm b, ⟨c, l⟩)]
  | more {b : Bytes} {os ts : List Token} {c : Nat} {l : Lit} {cs : Clauses} : Op os c → Where ts cs →
      Where (.ident b :: (os ++ .lit l :: kw .and :: ts)) ((nm b, ⟨c, l⟩) :: cs)

/-- The clauses of a statement. *lax*: up to three more `and` at the end. -/
inductive Clause : List Token → Clauses → Prop
  | mk {ts : List Token} {cs : Clauses} {k : Nat} : Where ts cs → Distinct cs → k ≤ 3 →
      Clause (ts ++ List.replicate k (kw .and)) cs

/-- What a function of an `INSERT` answers when it is called at a position of the query. -/
abbrev Calls := Bytes → Nat → Option Cell

/-- The elements of a list have one kind, and so have those of the lists in it. -/
def Uniform (l : List Cell) : Prop :=
  (∀ x ∈ l, ∀ y ∈ l, x.kind = y.kind) ∧
  ∀ xs ys, .list xs ∈ l → .list ys ∈ l → ∀ x ∈ xs, ∀ y ∈ ys, x.kind = y.kind

mutual

/-- An element of a list, which begins at the given position. -/
inductive Elem (c : Calls) : Nat → List Token → Cell → Prop
  | lit {i : Nat} (l : Lit) : Elem c i [.lit l] (cellOfLit l)
  | call {i : Nat} {b : Bytes} {v : Cell} : c b (i + 4) = some v → Elem c i [tAt, .ident b, tOP, tCP] v
  | empty {i : Nat} : Elem c i [tOS, tCS] (.list [])
  | list {i : Nat} {ts : List Token} {l : List Cell} : Elems c (i + 1) ts l → Uniform l → Elem c i (tOS :: ts) (.list l)

/-- The elements of a list with the closing bracket. -/
inductive Elems (c : Calls) : Nat → List Token → List Cell → Prop
  | last {i : Nat} {ts : List Token} {v : Cell} : Elem c i ts v → Elems c i (ts ++ [tCS]) [v]
  | more {i : Nat} {ts us : List Token} {v : Cell} {l : List Cell} : Elem c i ts v →
      Elems c (i + ts.length + 1) us l → Elems c i (ts ++ tComma :: us) (v :: l)

end

/-- A value of an `INSERT`. -/
inductive Datum (c : Calls) : Nat → List Token → Cell → Prop
  | elem {i : Nat} {ts : List Token} {v : Cell} : Elem c i ts v → Datum c i ts v
  | null {i : Nat} : Datum c i [kw .null] .null

/-- Values by position, with the closing parenthesis. *lax*: after a comma it may be missing. -/
inductive Tuple (c : Calls) : Nat → List Token → List Cell → Prop
  | last {i : Nat} {ts : List Token} {v : Cell} : Datum c i ts v → Tuple c i (ts ++ [tCP]) [v]
  | cut {i : Nat} {ts : List Token} {v : Cell} : Datum c i ts v → Tuple c i (ts ++ [tComma]) [v]
  | more {i : Nat} {ts us : List Token} {v : Cell} {l : List Cell} : Datum c i ts v →
      Tuple c (i + ts.length + 1) us l → Tuple c i (ts ++ tComma :: us) (v :: l)

/-- Values by name, with the closing brace. *lax*: after a comma it may be missing. -/
inductive Named (c : Calls) : Nat → List Token → List (String × Cell) → Prop
  | last {i : Nat} {b : Bytes} {ts : List Token} {v : Cell} : Datum c (i + 2) ts v →
      Named c i (.ident b :: tColon :: (ts ++ [tCB])) [(nm b, v)]
  | cut {i : Nat} {b : Bytes} {ts : List Token} {v : Cell} : Datum c (i + 2) ts v →
      Named c i (.ident b :: tColon :: (ts ++ [tComma])) [(nm b, v)]
  | more {i : Nat} {b : Bytes} {ts us : List Token} {v : Cell} {l : List (String × Cell)} : Datum c (i + 2) ts v →
      Named c (i + 2 + ts.length + 1) us l →
      Named c i (.ident b :: tColon :: (ts ++ tComma :: us)) ((nm b, v) :: l)

/-- The data of an `INSERT`. -/
inductive Data (c : Calls) : Nat → List Token → InsData → Prop
  | noValues {i : Nat} : Data c i [tOP, tCP] (.ordered [])
  | tuple {i : Nat} {ts : List Token} {l : List Cell} : Tuple c (i + 1) ts l → Data c i (tOP :: ts) (.ordered l)
  | noNames {i : Nat} : Data c i [tOB, tCB] (.map [])
  | named {i : Nat} {ts : List Token} {l : List (String × Cell)} : Named c (i + 1) ts l → Distinct l →
      Data c i (tOB :: ts) (.map l)

/-- Names of columns. *lax*: a comma after the last one. -/
inductive ColNames : List Token → List String → Prop
  | last (b : Bytes) : ColNames [.ident b] [nm b]
  | comma (b : Bytes) : ColNames [.ident b, tComma] [nm b]
  | more {b : Bytes} {ts : List Token} {ns : List String} : ColNames ts ns →
      ColNames (.ident b :: tComma :: ts) (nm b :: ns)

/-- The columns of a query. -/
inductive Cols : List Token → Option (List String) → Prop
  | star : Cols [tStar] none
  | names {ts : List Token} {ns : List String} : ColNames ts ns → Cols ts (some ns)

/-- An assignment. -/
inductive Assign : List Token → Asn → Prop
  | assign (b : Bytes) (l : Lit) : Assign [.ident b, tEq, .lit l] ⟨nm b, .assign, l⟩
  | add (b : Bytes) (l : Lit) : Assign [.ident b, .sym .opArithmeticAdd, tEq, .lit l] ⟨nm b, .add, l⟩
  | sub (b : Bytes) (l : Lit) : Assign [.ident b, .sym .opArithmeticSub, tEq, .lit l] ⟨nm b, .sub, l⟩
  | mul (b : Bytes) (l : Lit) : Assign [.ident b, .sym .opArithmeticMul, tEq, .lit l] ⟨nm b, .mul, l⟩
  | div (b : Bytes) (l : Lit) : Assign [.ident b, .sym .opArithmeticDiv, tEq, .lit l] ⟨nm b, .div, l⟩

/-- Assignments with commas between them. -/
inductive Assigns : List Token → List Asn → Prop
  | last {ts : List Token} {a : Asn} : Assign ts a → Assigns ts [a]
  | more {ts us : List Token} {a : Asn} {as : List Asn} : Assign ts a → Assigns us as →
      Assigns (ts ++ tComma :: us) (a :: as)

/-- The condition of a `SELECT`, if there is one. -/
inductive MaybeWhere : List Token → Clauses → Prop
  | no : MaybeWhere [] []
  | yes {ts : List Token} {w : Clauses} : Clause ts w → MaybeWhere (kw .where :: ts) w

/-- Statements on rows. -/
inductive Dml (cs : Option String) (c : Calls) : List Token → RowQuery → Prop
  | insert {ns ds : List Token} {s m : String} {d : InsData} : Name cs ns s m → Data c (2 + ns.length) ds d →
      Dml cs c (.kw (.statement .insert) :: kw .into :: (ns ++ ds)) ⟨s, m, .insert d⟩
  | select {fs ns ws : List Token} {s m : String} {cols : Option (List String)} {w : Clauses} : Cols fs cols →
      Name cs ns s m → MaybeWhere ws w →
      Dml cs c (.kw (.statement .select) :: (fs ++ kw .from :: ns ++ ws)) ⟨s, m, .select cols w⟩
  | selectAll {fs ns : List Token} {s m : String} {cols : Option (List String)} {n : UInt64} : Cols fs cols →
      Name cs ns s m →
      Dml cs c (.kw (.statement .select) :: kw .all :: (fs ++ kw .from :: ns ++ [kw .limit, .lit (.uint n)]))
        ⟨s, m, .selectAll cols n⟩
  | update {ns as ws : List Token} {s m : String} {l : List Asn} {w : Clauses} : Name cs ns s m → Assigns as l →
      Clause ws w →
      Dml cs c (.kw (.statement .update) :: (ns ++ kw .set :: as ++ kw .where :: ws)) ⟨s, m, .update l w⟩
  | delete {ns ws : List Token} {s m : String} {w : Clauses} : Name cs ns s m → Clause ws w →
      Dml cs c (.kw (.statement .delete) :: kw .from :: (ns ++ kw .where :: ws)) ⟨s, m, .delete w⟩

/-- `USE`. -/
inductive Uses : List Token → Use → Prop
  | space (b : Bytes) : Uses [.ident b] (.space (nm b))
  | null : Uses [kw .null] .null
  | current {b : Bytes} : Word "current" b → Uses [.sym .symDollar, .ident b] .current

/-- `INSPECT`. -/
inductive Inspects (cs : Option String) : List Token → Inspect → Prop
  | global {b : Bytes} : Word "global" b → Inspects cs [.ident b] .global
  | space (b : Bytes) : Inspects cs [kw .space, .ident b] (.space (nm b))
  | model {ns : List Token} {s m : String} : Name cs ns s m → Inspects cs (kw .model :: ns) (.model s m)

/-- A query and what it stands for. -/
inductive Stmt (cs : Option String) (c : Calls) : List Token → Query → Prop
  | ddl {ts : List Token} {s : Gns.Stmt} : Ddl ts s → Stmt cs c ts (.ddl s)
  | sysctl {ts : List Token} {s : Sysctl} : Sys ts s → Stmt cs c (.kw (.statement .sysctl) :: ts) (.sysctl s)
  | use {ts : List Token} {u : Use} : Uses ts u → Stmt cs c (.kw (.statement .use) :: ts) (.use u)
  | inspect {ts : List Token} {i : Inspect} : Inspects cs ts i → Stmt cs c (.kw (.statement .inspect) :: ts) (.inspect i)
  | rows {ts : List Token} {q : RowQuery} : Dml cs c ts q → Stmt cs c ts (.rows q)

end Verif.Ql.Gr
