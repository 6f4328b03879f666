/-!
Model of the primary index (`idx/mtchm`): a hash trie of height at most 16, used by one thread.

Nodes are values here, so the flag `PENDING_DELETE` does not occur: `compress` puts it on the slots of a node
that it then replaces, and with one thread the replacement always succeeds. The concurrent model is
`Verif.Trie.Conc`.
-/
namespace Verif.Trie

/-- `Node` (`idx/mtchm/mod.rs:143-163`): a pointer is null, or points to a list of elements (`LNode`, flag
`DATA`), or to a branch of 16 pointers. -/
inductive Tree (K V : Type) where
  | null
  | data (l : List (K × V))
  | branch (f : Fin 16 → Tree K V)

/-- `C::BRANCH_LG`, `C::MASK`, `C::MAX_TREE_HEIGHT` and `C::MAX_TREE_HEIGHT_UB` (`idx/mtchm/meta.rs:44-61`). -/
def LG : Nat := 4
def HEIGHT : Nat := 16

/-- `(hash >> level) & MASK`. A shift by 64 would be a shift by 0. -/
def chunk (h : UInt64) (level : Nat) : Fin 16 :=
  ⟨((h >>> UInt64.ofNat level) &&& 15).toNat, by
    rw [UInt64.toNat_and]
    exact Nat.lt_of_le_of_lt Nat.and_le_right (by decide)⟩

variable {K V : Type} [DecidableEq K]

/-- Write to one pointer of a branch. -/
def put (f : Fin 16 → Tree K V) (i : Fin 16) (t : Tree K V) : Fin 16 → Tree K V := fun j => if j = i then t else f j

/-! ### Lookup -/

/-- The first element of a list with the key `k`. -/
def find (l : List (K × V)) (k : K) : Option (K × V) :=
  match l with
  | [] => none
  | e :: l => if e.1 = k then some e else find l k

/-- `_lookup` (`mod.rs:456-485`): the hash is shifted on the way down. -/
def lookup (k : K) : UInt64 → Tree K V → Option (K × V)
  | _, .null => none
  | _, .data l => find l k
  | h, .branch f => lookup k (h >>> 4) (f (chunk h 0))

/-! ### Writes -/

/-- `WRITEMODE_*` (`patch.rs:33-42`). -/
inductive WMode where
  | fresh
  | refresh
  | any
  deriving DecidableEq

/-- How a write ends: the new tree, the element that was found (`ex_ret`) or none (`nx_ret`), and whether
`incr_len` was called. -/
structure Patched (K V : Type) where
  t : Tree K V
  ex : Option (K × V)
  grew : Bool

/-- The list without its first element with the key `k` (`data[..i]`, `data[i + 1..]`, lines 363-364). -/
def without (l : List (K × V)) (k : K) : List (K × V) :=
  match l with
  | [] => []
  | e :: l => if e.1 = k then l else e :: without l k

/-- Writing to a list (lines 346-419): the same key was found, or the list is at the greatest height. The
element that is replaced moves to the end. -/
def patchData (m : WMode) (k : K) (v : V) (l : List (K × V)) : Patched K V :=
  match find l k, m with
  | some e, .fresh => ⟨.data l, some e, false⟩
  | some e, _ => ⟨.data (without l k ++ [(k, v)]), some e, false⟩
  | none, .refresh => ⟨.data l, none, false⟩
  | none, _ => ⟨.data (l ++ [(k, v)]), none, true⟩

/-- `patch` (`mod.rs:269-437`) with the elements of `patch.rs`: the new element is always `(k, v)`. The number
is how many levels are left, so `level` is `64 - 4 * n`; `none` is for a branch below the greatest height,
an empty list, or two elements above the greatest height, all of which the code takes to be impossible
(`C15_is_a_map`). Splitting a list (lines 323-345) makes a branch with the list in one of its pointers, and
the loop goes on at that branch. -/
def patch (hash : K → UInt64) (m : WMode) (k : K) (v : V) : Nat → Tree K V → Option (Patched K V)
  | _, .null =>
    match m with
    | .refresh => some ⟨.null, none, false⟩
    | _ => some ⟨.data [(k, v)], none, true⟩
  | 0, .data l => if l = [] then none else some (patchData m k v l)
  | n + 1, .data l =>
    match l with
    | [] => none
    | e :: l' =>
      if e.1 = k then some (patchData m k v l)
      else if l' ≠ [] then none
      else
        match m with
        | .refresh => some ⟨.data l, none, false⟩
        | _ =>
          let f := put (fun _ => .null) (chunk (hash e.1) (LG * (HEIGHT - (n + 1)))) (.data l)
          let i := chunk (hash k) (LG * (HEIGHT - (n + 1)))
          (patch hash m k v n (f i)).map fun p => { p with t := .branch (put f i p.t) }
  | 0, .branch _ => none
  | n + 1, .branch f =>
    let i := chunk (hash k) (LG * (HEIGHT - (n + 1)))
    (patch hash m k v n (f i)).map fun p => { p with t := .branch (put f i p.t) }

/-! ### Removal -/

def isNull : Tree K V → Bool
  | .null => true
  | _ => false

/-- The pointers that are not null. -/
def live (f : Fin 16 → Tree K V) : Nat := ((List.finRange 16).filter fun i => !isNull (f i)).length

/-- What a pointer adds to `cnt` (`mod.rs:692-706`). -/
def weight : Tree K V → Nat
  | .null => 0
  | .data l => l.length
  | .branch _ => 1

def isBranch : Tree K V → Bool
  | .branch _ => true
  | _ => false

def isData : Tree K V → Bool
  | .data _ => true
  | _ => false

/-- `compress` (`mod.rs:667-745`): what the node is replaced by, and whether that is something else than a
copy (`CompressState::RESTORED`). -/
def compress (f : Fin 16 → Tree K V) : Tree K V × Bool :=
  let cnt := ((List.finRange 16).map fun i => weight (f i)).sum
  let leaf := ((List.finRange 16).filter fun i => isData (f i)).getLast?
  let cont := (List.finRange 16).all fun i => !isBranch (f i)
  match leaf with
  | some i =>
    if cont ∧ cnt = 1 then (f i, true) else (.branch f, false)
  | none => if cnt = 0 then (.null, true) else (.branch f, false)

/-- How a removal ends: the new tree, the element that was removed, and whether the loop over the levels
goes on (lines 577-600). -/
structure Removed (K V : Type) where
  t : Tree K V
  ex : Option (K × V)
  go : Bool

/-- One turn of the loop over the levels, for the branch `f`. -/
def shrink (f : Fin 16 → Tree K V) (go : Bool) : Tree K V × Bool :=
  if go then if 1 < live f then (.branch f, false) else compress f else (.branch f, false)

/-- `ret` (lines 523-541) is the last element with the key. -/
def findLast (l : List (K × V)) (k : K) : Option (K × V) := (l.filter fun e => e.1 = k).getLast?

/-- `_remove` (`mod.rs:496-607`). The number is how many levels are left; `none` if the array of the levels
is full (`UArray::push` panics) or for an empty list. -/
def remove (hash : K → UInt64) (k : K) : Nat → Tree K V → Option (Removed K V)
  | _, .null => some ⟨.null, none, false⟩
  | _, .data l =>
    if l = [] then none
    else
      let r := l.filter fun e => e.1 ≠ k
      some ⟨if r = [] then .null else .data r, findLast l k, true⟩
  | 0, .branch _ => none
  | n + 1, .branch f =>
    let i := chunk (hash k) (LG * (HEIGHT - (n + 1)))
    (remove hash k n (f i)).map fun p =>
      let s := shrink (put f i p.t) p.go
      ⟨s.1, p.ex, s.2⟩

/-! ### Iteration -/

/-- An iterator is a stack of nodes and positions (`iter.rs:236-252`). One turn of the loop of `_next`
(lines 264-302): the element if one is returned, and the stack. `none` if the stack overflows (its array
has 17 places). -/
def iterStep : Tree K V → Nat → List (Tree K V × Nat) → Option (Option (K × V) × List (Tree K V × Nat))
  | .null, _, s => some (none, s)
  | .data l, i, s =>
    match l[i]? with
    | some e => some (some e, (.data l, i + 1) :: s)
    | none => some (none, s)
  | .branch f, i, s =>
    if h : i < 16 then
      if s.length + 1 < 17 then some (none, (f ⟨i, h⟩, 0) :: (.branch f, i + 1) :: s) else none
    else some (none, s)

/-- All elements that an iterator returns. The number bounds the turns of the loop; `C15_iteration` shows that
there is a bound that suffices. -/
def iterAll : Nat → List (Tree K V × Nat) → Option (List (K × V))
  | _, [] => some []
  | 0, _ :: _ => none
  | n + 1, (t, i) :: s =>
    match iterStep t i s with
    | none => none
    | some (none, s) => iterAll n s
    | some (some e, s) => (iterAll n s).map (e :: ·)

/-! ### The index -/

/-- `RawTree` (`mod.rs:199-205`): the root and the number of elements. -/
structure Idx (K V : Type) where
  root : Tree K V
  len : Nat

def Idx.new : Idx K V := ⟨.null, 0⟩

/-- The operations of `imp.rs`. (`mt_upsert` returns nothing; deletions with and without a result are the same
operation.) -/
inductive Op (K V : Type) where
  | insert (k : K) (v : V)
  | upsert (k : K) (v : V)
  | update (k : K) (v : V)
  | delete (k : K)
  | get (k : K)

/-- Whether the operation found its key, and the element. -/
abbrev Ret (K V : Type) := Option (K × V)

def Idx.patch (hash : K → UInt64) (m : WMode) (k : K) (v : V) (x : Idx K V) : Option (Idx K V × Ret K V) :=
  (Trie.patch hash m k v HEIGHT x.root).map fun p => (⟨p.t, x.len + if p.grew then 1 else 0⟩, p.ex)

/-- `decr_len_by` with what was removed (line 601). -/
def Idx.remove (hash : K → UInt64) (k : K) (x : Idx K V) : Option (Idx K V × Ret K V) :=
  (Trie.remove hash k HEIGHT x.root).map fun p => (⟨p.t, x.len - if p.ex.isSome then 1 else 0⟩, p.ex)

def Idx.exec (hash : K → UInt64) (x : Idx K V) : Op K V → Option (Idx K V × Ret K V)
  | .insert k v => x.patch hash .fresh k v
  | .upsert k v => x.patch hash .any k v
  | .update k v => x.patch hash .refresh k v
  | .delete k => x.remove hash k
  | .get k => some (x, lookup k (hash k) x.root)

def Idx.run (hash : K → UInt64) : List (Op K V) → Idx K V → Option (Idx K V × List (Ret K V))
  | [], x => some (x, [])
  | o :: os, x =>
    (x.exec hash o).bind fun (x, r) => (Idx.run hash os x).bind fun (x, rs) => some (x, r :: rs)

end Verif.Trie
