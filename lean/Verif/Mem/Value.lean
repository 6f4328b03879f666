import Verif.Base.Bytes
import Verif.Data.Cell
import Verif.Mem.Word
/-!
C70: literals, cells, keys and virtual cells in memory (`data/lit.rs`, `data/cell.rs`, `core/index/key.rs`). Paths are relative to
`/repo/server/src/engine`.

The memory is byte by byte, so that slices can point into the middle of a buffer. Reading a byte that is not alive, or freeing what
was not allocated with exactly this address and length, is undefined behaviour (`none`). The memory that a `Vec` of cells itself takes
is not modelled; `RwLock` around it neither.
-/
namespace Verif.Mem

/-! ### Memory -/

structure Bm where
  byte : Nat → Option UInt8
  /-- the heap allocations: address and length -/
  allocs : List (Nat × Nat)
  /-- nothing at or above this address was ever allocated -/
  next : Nat

/-- Some memory that has nothing allocated. Addresses below 2 are not handed out. -/
def Bm.empty : Bm := ⟨fun _ => none, [], 2⟩

/-- `slice::from_raw_parts(p, n)`, read. -/
def Bm.read (m : Bm) (p : Nat) : Nat → Option Bytes
  | 0 => some []
  | n + 1 => (m.byte p).bind fun b => (m.read (p + 1) n).map (b :: ·)

/-- A new box with these bytes (`into_boxed_slice`); an empty one does not allocate, its pointer is dangling. -/
def Bm.alloc (m : Bm) (bs : Bytes) : Nat × Bm :=
  if bs = [] then (1, m)
  else (m.next, ⟨fun a => if m.next ≤ a ∧ a < m.next + bs.length then bs[a - m.next]? else m.byte a, (m.next, bs.length) :: m.allocs,
    m.next + bs.length⟩)

/-- `dealloc_array` (`mem/unsafe_apis.rs:66-70`), and the drop of a `Vec` from raw parts. -/
def Bm.free (m : Bm) (p n : Nat) : Option Bm :=
  if n = 0 then some m
  else if (p, n) ∈ m.allocs then
    some ⟨fun a => if p ≤ a ∧ a < p + n then none else m.byte a, m.allocs.erase (p, n), m.next⟩
  else none

/-! ### Values -/

/-- What a cell, a literal or a key means. A quad is the bits of a number or a Boolean. -/
inductive Val where
  | null
  | quad (t : Tag) (q : Nat)
  | bytes (t : Tag) (bs : Bytes)
  | list (l : List Val)
  deriving Repr

/-- `Lit` (`data/lit.rs:46-51`); `owned` is `DTC_HSTR`. -/
structure Lit where
  tag : Tag
  owned : Bool
  word : Padded
  deriving DecidableEq, Repr

/-- `Datacell` (`data/cell.rs:50-54`): a word, or a list (`union DataRaw`). -/
inductive Dc where
  | word (init : Bool) (tag : Tag) (w : Qword)
  | list (l : List Dc)

/-- `PrimaryIndexKey` (`core/index/key.rs:47-50`). -/
structure Key where
  tag : TagUnique
  word : Padded
  deriving DecidableEq, Repr

/-- `TagUnique` as numbers; `tag >= TagUnique::Bin` (`data/tag.rs:146-152`). -/
def uwide : TagUnique → Bool
  | .uint | .sint => false
  | .bin | .str | .illegal => true

/-- The classes `Bin` and `Str`. -/
def twide (t : Tag) : Bool := t.cls = .bin ∨ t.cls = .str

/-- The classes below `Bin`. -/
def tquad (t : Tag) : Bool := t.cls = .bool ∨ t.cls = .uint ∨ t.cls = .sint ∨ t.cls = .float

/-- The meaning of a quad: `== 1` for Booleans (`word.rs:325-327`). -/
def quadVal (t : Tag) (q : Nat) : Val := .quad t (if t = .bool then (if q = 1 then 1 else 0) else q)

/-! ### Literals -/

/-- `bin` and `str` (`data/lit.rs:155-166`). -/
def Lit.bin (m : Bm) (l : Lit) : Option Bytes := m.read l.word.b l.word.a

/-- `__vdata` (`data/lit.rs:209-217`). -/
def Lit.vdata (m : Bm) (l : Lit) : Option Bytes := m.read l.word.b (if uwide l.tag.uniq then l.word.a else 0)

/-- Reading a literal: `bool`, `uint`, `sint`, `float`, `bin`, `str`. -/
def Lit.look (m : Bm) (l : Lit) : Option Val :=
  if twide l.tag then (l.bin m).map (.bytes l.tag) else some (quadVal l.tag l.word.a)

/-- `_quad` (`data/lit.rs:230-235`), `_wide_word` (`236-238`). -/
def Lit.quad (t : Tag) (q : Nat) : Lit := ⟨t, false, ⟨q, ZERO_BLOCK⟩⟩
def Lit.wide (t : Tag) (owned : Bool) (p n : Nat) : Lit := ⟨t, owned, ⟨n, p⟩⟩

/-- `drop` (`data/lit.rs:242-258`). -/
def Lit.drop (m : Bm) (l : Lit) : Option Bm := if l.owned then m.free l.word.b l.word.a else some m

/-- `clone` (`data/lit.rs:260-283`). -/
def Lit.clone (m : Bm) (l : Lit) : Option (Lit × Bm) :=
  if l.owned then (l.bin m).map fun bs => (⟨l.tag, true, ⟨l.word.a, (m.alloc bs).1⟩⟩, (m.alloc bs).2)
  else some (l, m)

/-- `as_ir` (`data/lit.rs:73-80`). -/
def Lit.asIr (l : Lit) : Lit := { l with owned := false }

/-! ### Cells -/

/-- `new_uint` and the like (`data/cell.rs:58-148`). -/
def Dc.quad (w : Width) (t : Tag) (q : Nat) : Dc := .word true t (promote w (NN.storeQw w q : Padded))

/-- `null` (`data/cell.rs:354-363`). -/
def Dc.null (w : Width) : Dc := .word false .bool (NN.storeQw w 0)

/-- `new_bin` and `new_str` from a box (`data/cell.rs:165-174, 204-213`). -/
def Dc.wide (w : Width) (t : Tag) (p n : Nat) : Dc := .word true t (NN.storeFull w n p)

/-- `From<Lit>` (`data/cell.rs:300-328`); the literal is dropped at the end. -/
def Dc.ofLit (w : Width) (m : Bm) (l : Lit) : Option (Dc × Bm) :=
  if tquad l.tag then (l.drop m).map fun m => (.word true l.tag (promote w l.word), m)
  else
    (l.bin m).bind fun bs =>
      (l.drop (m.alloc bs).2).map fun m' => (.word true l.tag (QN.storeQn w bs.length (m.alloc bs).1), m')

mutual
/-- Reading a cell and, for a list, its elements. A word with the tag of a list is never made; reading it as one is undefined. -/
def Dc.look (w : Width) (m : Bm) : Dc → Option Val
  | .word init t x =>
    if !init then some .null
    else if twide t then (m.read (NN.loadFull w x).2 (NN.loadFull w x).1).map (.bytes t)
    else if tquad t then some (quadVal t (NN.loadQw w x))
    else none
  | .list l => (Dc.looks w m l).map .list
def Dc.looks (w : Width) (m : Bm) : List Dc → Option (List Val)
  | [] => some []
  | d :: l => (Dc.look w m d).bind fun v => (Dc.looks w m l).map (v :: ·)
end

mutual
/-- `drop` (`data/cell.rs:462-477`). -/
def Dc.drop (w : Width) (m : Bm) : Dc → Option Bm
  | .word _ t x =>
    if twide t then m.free (NN.loadFull w x).2 (NN.loadFull w x).1
    else if tquad t then some m
    else none
  | .list l => Dc.drops w m l
def Dc.drops (w : Width) (m : Bm) : List Dc → Option Bm
  | [] => some m
  | d :: l => (Dc.drop w m d).bind fun m => Dc.drops w m l
end

/-- `into_bin` and `into_str` (`data/cell.rs:188-202, 227-241`): address and length of the vector. -/
def Dc.intoBuf (w : Width) : Dc → Option (Nat × Nat)
  | .word _ t x => if twide t then some ((QN.loadQn w x).2, (QN.loadQn w x).1) else none
  | .list _ => none

/-! ### Keys -/

/-- `new_from_dc` (`core/index/key.rs:136-155`). -/
def Key.ofDc (w : Width) : Dc → Option Key
  | .word _ t x => some ⟨t.uniq, ⟨(QN.loadQn w x).1, (QN.loadQn w x).2⟩⟩
  | .list _ => none

/-- `virtual_block` (`core/index/key.rs:191-205`). -/
def Key.block (m : Bm) (k : Key) : Option Bytes := m.read k.word.b (if uwide k.tag then k.word.a else 0)

/-- `uint`, `sint`, `bin`, `str` (`core/index/key.rs:85-120`), with the tag that stands for all of a class. -/
def Key.look (m : Bm) (k : Key) : Option Val :=
  match k.tag with
  | .uint => some (.quad .uint64 k.word.a)
  | .sint => some (.quad .sint64 k.word.a)
  | .bin => (k.block m).map (.bytes .binary)
  | .str => (k.block m).map (.bytes .string)
  | .illegal => none

/-- `drop` (`core/index/key.rs:215-225`). -/
def Key.drop (m : Bm) (k : Key) : Option Bm :=
  match k.tag with
  | .bin | .str => m.free k.word.b k.word.a
  | _ => some m

/-- `PartialEq` (`core/index/key.rs:227-233`). -/
def Key.eq (m : Bm) (k l : Key) : Option Bool :=
  if k.tag = l.tag ∧ k.word.a = l.word.a then (k.block m).bind fun x => (l.block m).map fun y => decide (x = y) else some false

/-- `PartialEq<Lit>` (`core/index/key.rs:244-252`). -/
def Key.eqLit (m : Bm) (k : Key) (l : Lit) : Option Bool :=
  if k.tag = l.tag.uniq ∧ k.word.a = l.word.a then (k.block m).bind fun x => (l.vdata m).map fun y => decide (x = y) else some false

/-- What `Hash` gives to the hasher (`core/index/key.rs:237-242`, `data/lit.rs:309-314`). -/
def Key.hashed (m : Bm) (k : Key) : Option (TagUnique × Bytes) := (k.block m).map fun x => (k.tag, x)
def Lit.hashed (m : Bm) (l : Lit) : Option (TagUnique × Bytes) := (l.vdata m).map fun x => (l.tag.uniq, x)

/-- `clone` (`core/index/key.rs:52-73`). -/
def Key.clone (m : Bm) (k : Key) : Option (Key × Bm) :=
  match k.tag with
  | .uint | .sint => (m.read k.word.b k.word.a).map fun bs => (⟨k.tag, ⟨k.word.a, (m.alloc bs).1⟩⟩, (m.alloc bs).2)
  | .bin | .str => some (k, m)
  | .illegal => none

/-! ### Virtual cells -/

/-- `VirtualDatacell::new` (`data/cell.rs:515-524`); the literal is dropped at the end, the virtual cell never. -/
def virtOfLit (w : Width) (m : Bm) (l : Lit) : Option (Dc × Bm) :=
  (l.drop m).map fun m => (.word true l.tag (promote w l.word), m)

/-- `VirtualDatacell::new_pk` (`data/cell.rs:525-532`). -/
def virtOfKey (w : Width) (k : Key) (t : Tag) : Dc := .word true t (promote w k.word)

/-- `PartialEq` of cells (`data/cell.rs:416-438`); `none` is a panic. Lists are compared element by element, and the comparison stops at
the first difference. Floats are compared by their values, which `feq` stands for. -/
def Val.eq (feq : Nat → Nat → Bool) : Val → Val → Option Bool
  | .null, .null => some true
  | .null, _ => some false
  | .quad t p, .quad u q =>
    if t.cls = u.cls then some (if t.cls = .float then feq p q else decide (p = q)) else some false
  | .quad t _, .null => if t.cls = .bool then none else some false
  | .bytes t x, .bytes u y => if t.cls = u.cls then some (decide (x = y)) else some false
  | .list l, .list k => eqs feq l k
  | _, _ => some false
where
  /-- The comparison of slices: first the lengths, then the elements. -/
  eqs (feq : Nat → Nat → Bool) : List Val → List Val → Option Bool
    | [], [] => some true
    | x :: l, y :: k => if l.length ≠ k.length then some false else
      match Val.eq feq x y with
      | some true => eqs feq l k
      | r => r
    | _, _ => some false

/-! ### Programs -/

/-- What a variable holds: a buffer (`Vec<u8>`, `Box<[u8]>`, `String`, or the packet), a literal, a cell, a key, a virtual cell. -/
inductive Obj where
  | buf (p n : Nat)
  | lit (l : Lit)
  | cell (d : Dc)
  | key (k : Key)
  | virt (d : Dc)

/-- Steps of a program; the first number is the variable that gets the result. -/
inductive Op where
  | newBuf (h : Nat) (bs : Bytes)
  /-- a literal that is a number or a Boolean -/
  | litQuad (h : Nat) (t : Tag) (q : Nat)
  /-- `new_str`, `new_bin`: a slice of a buffer -/
  | litRef (h src : Nat) (t : Tag) (off len : Nat)
  /-- `new_boxed_str` (that the bytes are UTF-8 plays no part) -/
  | litOwn (h src : Nat)
  | litClone (h src : Nat)
  | litIr (h src : Nat)
  | cellNull (h : Nat)
  | cellQuad (h : Nat) (t : Tag) (q : Nat)
  /-- `new_bin`, `new_str` -/
  | cellBuf (h src : Nat) (t : Tag)
  | cellLit (h src : Nat)
  | cellList (h : Nat)
  /-- a cell is pushed to the list `h` -/
  | push (h src : Nat)
  /-- the first cell of the list `src` is taken out -/
  | pop (h src : Nat)
  /-- `into_bin`, `into_str` -/
  | bufCell (h src : Nat)
  | keyCell (h src : Nat)
  | virtLit (h src : Nat)
  | virtKey (h src : Nat) (t : Tag)
  | drop (h : Nat)

/-- Variables with their contents. -/
def get {α : Type} (k : Nat) (l : List (Nat × α)) : Option α := (l.find? fun x => x.1 == k).map (·.2)
def del {α : Type} (k : Nat) (l : List (Nat × α)) : List (Nat × α) := l.filter fun x => x.1 != k

/-- How a step ends: `no` is a program that does not have the right types. -/
inductive Out2 (α : Type) where
  | ok (a : α)
  | ub
  | no

def Out2.of {α : Type} : Option α → Out2 α
  | some a => .ok a
  | none => .ub

abbrev Env := List (Nat × Obj)

/-- Dropping a variable. -/
def Obj.drop (w : Width) (m : Bm) : Obj → Option Bm
  | .buf p n => m.free p n
  | .lit l => l.drop m
  | .cell d => d.drop w m
  | .key k => k.drop m
  | .virt _ => some m

/-- Reading a variable. -/
def Obj.look (w : Width) (m : Bm) : Obj → Option Val
  | .buf p n => (m.read p n).map (.bytes .binary)
  | .lit l => l.look m
  | .cell d => d.look w m
  | .key k => k.look m
  | .virt d => d.look w m

/-- A step of a program. -/
def vstep (w : Width) (m : Bm) (e : Env) : Op → Out2 (Bm × Env)
  | .newBuf h bs => .ok ((m.alloc bs).2, (h, .buf (m.alloc bs).1 bs.length) :: e)
  | .litQuad h t q => .ok (m, (h, .lit (.quad t q)) :: e)
  | .litRef h src t off len =>
    match get src e with
    | some (.buf p _) => .ok (m, (h, .lit (.wide t false (p + off) len)) :: e)
    | _ => .no
  | .litOwn h src =>
    match get src e with
    | some (.buf p n) => .ok (m, (h, .lit (.wide .string true p n)) :: del src e)
    | _ => .no
  | .litClone h src =>
    match get src e with
    | some (.lit l) => .of ((l.clone m).map fun (x, m) => (m, (h, .lit x) :: e))
    | _ => .no
  | .litIr h src =>
    match get src e with
    | some (.lit l) => .ok (m, (h, .lit l.asIr) :: e)
    | _ => .no
  | .cellNull h => .ok (m, (h, .cell (.null w)) :: e)
  | .cellQuad h t q => .ok (m, (h, .cell (.quad w t q)) :: e)
  | .cellBuf h src t =>
    match get src e with
    | some (.buf p n) => .ok (m, (h, .cell (.wide w t p n)) :: del src e)
    | _ => .no
  | .cellLit h src =>
    match get src e with
    | some (.lit l) => .of ((Dc.ofLit w m l).map fun (d, m) => (m, (h, .cell d) :: del src e))
    | _ => .no
  | .cellList h => .ok (m, (h, .cell (.list [])) :: e)
  | .push h src =>
    match get h e, get src e with
    | some (.cell (.list l)), some (.cell d) => .ok (m, (h, .cell (.list (l ++ [d]))) :: del h (del src e))
    | _, _ => .no
  | .pop h src =>
    match get src e with
    | some (.cell (.list (d :: l))) => .ok (m, (h, .cell d) :: (src, .cell (.list l)) :: del src e)
    | _ => .no
  | .bufCell h src =>
    match get src e with
    | some (.cell d) =>
      match d.intoBuf w with
      | some (p, n) => .ok (m, (h, .buf p n) :: del src e)
      | none => .no
    | _ => .no
  | .keyCell h src =>
    match get src e with
    | some (.cell d) =>
      match Key.ofDc w d with
      | some k => .ok (m, (h, .key k) :: del src e)
      | none => .no
    | _ => .no
  | .virtLit h src =>
    match get src e with
    | some (.lit l) => .of ((virtOfLit w m l).map fun (d, m) => (m, (h, .virt d) :: del src e))
    | _ => .no
  | .virtKey h src t =>
    match get src e with
    | some (.key k) => .ok (m, (h, .virt (virtOfKey w k t)) :: e)
    | _ => .no
  | .drop h =>
    match get h e with
    | some o => .of ((o.drop w m).map fun m => (m, del h e))
    | none => .no

def vrun (w : Width) : List Op → Bm → Env → Out2 (Bm × Env)
  | [], m, e => .ok (m, e)
  | o :: os, m, e =>
    match vstep w m e o with
    | .ok (m, e) => vrun w os m e
    | .ub => .ub
    | .no => .no

/-! ### Specification: programs on values

Values are plain data here; what is left of memory is which variables a variable borrows from, directly or not, as the lifetimes of
the code say: such a variable can be neither moved nor dropped meanwhile. -/

inductive Kind where
  | buf
  /-- a literal, and whether it owns its text -/
  | lit (owned : Bool)
  | cell
  | key
  | virt
  deriving DecidableEq

structure Pv where
  kind : Kind
  val : Val
  borrows : List Nat

abbrev Penv := List (Nat × Pv)

/-- Nothing borrows from the variable. -/
def Free (k : Nat) (e : Penv) : Prop := ∀ x ∈ e, k ∉ x.2.borrows

instance (k : Nat) (e : Penv) : Decidable (Free k e) := by unfold Free; infer_instance

/-- A number of a type fits. -/
def QuadFits (t : Tag) (q : Nat) : Prop := tquad t = true ∧ (t = .bool → q ≤ 1) ∧ q < 2 ^ 64

instance (t : Tag) (q : Nat) : Decidable (QuadFits t q) := by unfold QuadFits; infer_instance

/-- The value as a key: the width of a number does not matter. -/
def Val.asKey : Val → Option Val
  | .quad t q =>
    match t.cls with
    | .uint => some (.quad .uint64 q)
    | .sint => some (.quad .sint64 q)
    | _ => none
  | .bytes t bs => some (.bytes t bs)
  | _ => none

/-- The value of a key as a value of the type of the column. -/
def Val.ofKey (t : Tag) : Val → Option Val
  | .quad u q => if t.cls = u.cls then some (.quad t q) else none
  | .bytes u bs => if t = u then some (.bytes t bs) else none
  | _ => none

/-- A step on values; `none` is a program that the compiler refuses. -/
def pstep (w : Width) (e : Penv) : Op → Option Penv
  | .newBuf h bs => if get h e = none ∧ bs.length < w.size then some ((h, ⟨.buf, .bytes .binary bs, []⟩) :: e) else none
  | .litQuad h t q =>
    if get h e = none ∧ QuadFits t q then some ((h, ⟨.lit false, .quad t q, []⟩) :: e) else none
  | .litRef h src t off len =>
    match get src e with
    | some ⟨.buf, .bytes _ bs, bor⟩ =>
      if get h e = none ∧ twide t = true ∧ off + len ≤ bs.length then
        some ((h, ⟨.lit false, .bytes t ((bs.drop off).take len), src :: bor⟩) :: e)
      else none
    | _ => none
  | .litOwn h src =>
    match get src e with
    | some ⟨.buf, .bytes _ bs, bor⟩ =>
      if get h e = none ∧ Free src e then some ((h, ⟨.lit true, .bytes .string bs, bor⟩) :: del src e) else none
    | _ => none
  | .litClone h src =>
    match get src e with
    | some ⟨.lit o, v, bor⟩ => if get h e = none then some ((h, ⟨.lit o, v, bor⟩) :: e) else none
    | _ => none
  | .litIr h src =>
    match get src e with
    | some ⟨.lit _, v, bor⟩ => if get h e = none then some ((h, ⟨.lit false, v, src :: bor⟩) :: e) else none
    | _ => none
  | .cellNull h => if get h e = none then some ((h, ⟨.cell, .null, []⟩) :: e) else none
  | .cellQuad h t q =>
    if get h e = none ∧ QuadFits t q then some ((h, ⟨.cell, .quad t q, []⟩) :: e) else none
  | .cellBuf h src t =>
    match get src e with
    | some ⟨.buf, .bytes _ bs, bor⟩ =>
      if get h e = none ∧ Free src e ∧ twide t = true then some ((h, ⟨.cell, .bytes t bs, bor⟩) :: del src e) else none
    | _ => none
  | .cellLit h src =>
    match get src e with
    | some ⟨.lit _, v, _⟩ => if get h e = none ∧ Free src e then some ((h, ⟨.cell, v, []⟩) :: del src e) else none
    | _ => none
  | .cellList h => if get h e = none then some ((h, ⟨.cell, .list [], []⟩) :: e) else none
  | .push h src =>
    match get h e, get src e with
    | some ⟨.cell, .list l, _⟩, some ⟨.cell, v, _⟩ =>
      if h ≠ src ∧ Free src e ∧ Free h e then some ((h, ⟨.cell, .list (l ++ [v]), []⟩) :: del h (del src e)) else none
    | _, _ => none
  | .pop h src =>
    match get src e with
    | some ⟨.cell, .list (v :: l), _⟩ =>
      if get h e = none ∧ Free src e then
        some ((h, ⟨.cell, v, []⟩) :: (src, ⟨.cell, .list l, []⟩) :: del src e)
      else none
    | _ => none
  | .bufCell h src =>
    match get src e with
    | some ⟨.cell, .bytes _ bs, _⟩ =>
      if get h e = none ∧ Free src e then some ((h, ⟨.buf, .bytes .binary bs, []⟩) :: del src e) else none
    | _ => none
  | .keyCell h src =>
    match get src e with
    | some ⟨.cell, v, _⟩ =>
      match v.asKey with
      | some k => if get h e = none ∧ Free src e then some ((h, ⟨.key, k, []⟩) :: del src e) else none
      | none => none
    | _ => none
  | .virtLit h src =>
    match get src e with
    | some ⟨.lit _, v, bor⟩ => if get h e = none ∧ Free src e then some ((h, ⟨.virt, v, bor⟩) :: del src e) else none
    | _ => none
  | .virtKey h src t =>
    match get src e with
    | some ⟨.key, v, bor⟩ =>
      match v.ofKey t with
      | some v => if get h e = none then some ((h, ⟨.virt, v, src :: bor⟩) :: e) else none
      | none => none
    | _ => none
  | .drop h => if (get h e).isSome ∧ Free h e then some (del h e) else none

def prun (w : Width) : List Op → Penv → Option Penv
  | [], e => some e
  | o :: os, e => (pstep w e o).bind (prun w os)

/-- The step does not make a virtual cell from a literal that owns its text. -/
def Op.Borrowed (e : Penv) : Op → Prop
  | .virtLit _ src => ∀ v b, get src e ≠ some ⟨.lit true, v, b⟩
  | _ => True

/-- No step does. -/
def Borrowed (w : Width) : List Op → Penv → Prop
  | [], _ => True
  | o :: os, e => o.Borrowed e ∧ ∀ e', pstep w e o = some e' → Borrowed w os e'

end Verif.Mem
