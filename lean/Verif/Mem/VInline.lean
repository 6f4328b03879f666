import Verif.Mem.Raw
/-!
Model of `VInline` (`mem/vinline.rs`): a vector whose first `N` elements are stored inline. The leaves
of the primary index and the types of columns are made of it, both with `N = 1`.
-/
namespace Verif.Mem.VInline

variable {α : Type}

/-- `VData` (`mem/vinline.rs:37-40`): a union of an array and a pointer to the heap. -/
inductive VData (α : Type) where
  | s (b : Slots α)
  | h (p : Ptr)

/-- `VInline` (`mem/vinline.rs:43-47`). -/
structure V (α : Type) where
  d : VData α
  l : Nat
  c : Nat

/-- `new` (`mem/vinline.rs:51-61`). -/
def new (N : Nat) : V α := { d := .s (List.replicate N none), l := 0, c := N }

/-- `on_stack` (`mem/vinline.rs:136-138`). -/
def V.onStack (N : Nat) (v : V α) : Bool := v.c == N

/-- The array behind `_as_ptr` and `_as_mut_ptr` (`mem/vinline.rs:139-161`). To read the other member of
the union than the one written last is undefined behaviour. -/
def V.slots (N : Nat) (v : V α) (m : Heap α) : Out (Slots α) :=
  match v.onStack N, v.d with
  | true, .s b => .ok b
  | false, .h p => m.deref p
  | _, _ => .ub

/-- The array behind `_as_mut_ptr` changes. -/
def V.put (v : V α) (m : Heap α) (b : Slots α) : V α × Heap α :=
  match v.d with
  | .s _ => ({ v with d := .s b }, m)
  | .h p => (v, m.store p b)

/-- `_as_slice`, `deref` (`mem/vinline.rs:162-175, 251-262`). -/
def V.read (N : Nat) (v : V α) (m : Heap α) : Out (List α) := do
  let b ← v.slots N m
  slice b 0 v.l

/-- `grow` (`mem/vinline.rs:222-244`). -/
def V.grow (N : Nat) (v : V α) (m : Heap α) : Out (V α × Heap α) :=
  if v.l = v.c then do
    let nc := v.c * 2
    let (nb, m) := alloc nc m
    let src ← v.slots N m
    let dst ← m.deref nb
    let b ← copyTo src dst v.l
    let m := m.store nb b
    if v.onStack N then .ok ({ v with d := .h nb, c := nc }, m)
    else
      match v.d with
      | .h p => do
        let m ← dealloc p v.c m
        .ok ({ v with d := .h nb, c := nc }, m)
      | .s _ => .ub
  else .ok (v, m)

/-- `push_unchecked` (`mem/vinline.rs:185-188`). -/
def V.pushUnchecked (N : Nat) (v : V α) (m : Heap α) (x : α) : Out (V α × Heap α) := do
  let b ← v.slots N m
  let b ← writeSlot b v.l x
  let (v, m) := v.put m b
  .ok ({ v with l := v.l + 1 }, m)

/-- `push` (`mem/vinline.rs:70-77`). -/
def V.push (N : Nat) (v : V α) (m : Heap α) (x : α) : Out (V α × Heap α) := do
  let (v, m) ← v.grow N m
  v.pushUnchecked N m x

/-- `extend` (`mem/vinline.rs:290-293`), which is also what `clone` and `from_iter` do
(`mem/vinline.rs:309-322`). -/
def V.extend (N : Nat) (v : V α) (m : Heap α) : List α → Out (V α × Heap α)
  | [] => .ok (v, m)
  | x :: xs => do
    let (v, m) ← v.push N m x
    v.extend N m xs

/-- `clear` (`mem/vinline.rs:79-85`). -/
def V.clear (N : Nat) (v : V α) (m : Heap α) : Out (V α × Heap α) := do
  let b ← v.slots N m
  let m ← dropSlice b 0 v.l m
  .ok ({ v with l := 0 }, m)

/-- `remove` and `remove_unchecked` (`mem/vinline.rs:88-117`). -/
def V.remove (N : Nat) (v : V α) (m : Heap α) (i : Nat) : Out (α × V α × Heap α) :=
  if i < v.l then do
    let b ← v.slots N m
    let x ← readSlot b i
    let b ← copyWithin b (i + 1) i (v.l - i - 1)
    let (v, m) := v.put m b
    .ok (x, { v with l := v.l - 1 }, m)
  else .panic

/-- `optimize_capacity` and `mv_to_stack` (`mem/vinline.rs:189-220`). -/
def V.optimize (N : Nat) (v : V α) (m : Heap α) : Out (V α × Heap α) :=
  if v.onStack N || v.l == v.c then .ok (v, m)
  else
    match v.d with
    | .s _ => .ub
    | .h p => do
      let src ← m.deref p
      if v.l ≤ N then do
        let b ← copyTo src (List.replicate N none) v.l
        let m ← dealloc p v.c m
        .ok ({ v with d := .s b, c := N }, m)
      else do
        let (nb, m) := alloc v.l m
        let dst ← m.deref nb
        let b ← copyTo src dst v.l
        let m := m.store nb b
        let m ← dealloc p v.c m
        .ok ({ v with d := .h nb, c := v.l }, m)

/-- `remove_compact` (`mem/vinline.rs:99-103`). -/
def V.removeCompact (N : Nat) (v : V α) (m : Heap α) (i : Nat) : Out (α × V α × Heap α) := do
  let (x, v, m) ← v.remove N m i
  let (v, m) ← v.optimize N m
  .ok (x, v, m)

/-- `drop` (`mem/vinline.rs:271-280`). -/
def V.drop (N : Nat) (v : V α) (m : Heap α) : Out (Heap α) := do
  let b ← v.slots N m
  let m ← dropSlice b 0 v.l m
  if v.onStack N then .ok m
  else
    match v.d with
    | .h p => dealloc p v.c m
    | .s _ => .ub

/-- `IntoIter` (`mem/vinline.rs:318-322`). -/
structure Iter (α : Type) where
  v : V α
  l : Nat
  i : Nat

/-- `into_iter` (`mem/vinline.rs:379-394`). -/
def V.intoIter (v : V α) : Iter α := { v := { v with l := 0 }, l := v.l, i := 0 }

/-- `ptr::read(self.v._as_ptr().add(i).cast())` where an `Option<T>` is expected
(`mem/vinline.rs:337-341, 349-353`): the pointer is cast to a pointer to `Option<T>`. If `T` has a bit
pattern to spare (`niche`), then an element has the layout of the `Some` of it. Otherwise `Option<T>` is
larger than `T`, and the read covers the slot that follows as well; what it sees is `junk`. -/
def readOption (niche : Bool) (junk : Option α → Option α → Option α) (b : Slots α) (i : Nat) : Out (Option α) :=
  if niche then do
    let x ← readSlot b i
    .ok (some x)
  else
    match b[i]?, b[i + 1]? with
    | some x, some y => .ok (junk x y)
    | _, _ => .ub

/-- `_next` (`mem/vinline.rs:326-336`). -/
def Iter.next (N : Nat) (niche : Bool) (junk : Option α → Option α → Option α) (it : Iter α) (m : Heap α) :
    Out (Option α × Iter α) :=
  if it.i = it.l then .ok (none, it)
  else do
    let b ← it.v.slots N m
    let x ← readOption niche junk b it.i
    .ok (x, { it with i := it.i + 1 })

/-- `_next_back` (`mem/vinline.rs:338-347`). -/
def Iter.nextBack (N : Nat) (niche : Bool) (junk : Option α → Option α → Option α) (it : Iter α) (m : Heap α) :
    Out (Option α × Iter α) :=
  if it.i = it.l then .ok (none, it)
  else do
    let b ← it.v.slots N m
    let x ← readOption niche junk b (it.l - 1)
    .ok (x, { it with l := it.l - 1 })

/-- `drop` of the iterator (`mem/vinline.rs:350-360`), after which its vector is dropped. -/
def Iter.drop (N : Nat) (it : Iter α) (m : Heap α) : Out (Heap α) :=
  if it.i < it.l then do
    let b ← it.v.slots N m
    let m ← dropSlice b it.i (it.l - it.i) m
    it.v.drop N m
  else it.v.drop N m

end Verif.Mem.VInline
