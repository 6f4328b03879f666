/-!
Raw memory: blocks of slots, each of which holds an element or nothing, and the operations of
`mem/unsafe_apis.rs` and `core::ptr` that the containers of `mem/` are made of. Whatever the language
calls undefined behaviour is the outcome `ub`. Paths are relative to `/repo/server/src/engine`.

Sizes are unbounded here: the multiplication of a capacity and `Layout::array` do not overflow below
2^63 bytes.
-/
namespace Verif.Mem

/-- A slot: `MaybeUninit<T>`. -/
abbrev Slots (α : Type) := List (Option α)

/-- The memory of the process: the live blocks, the next fresh address, and the elements whose
destructors ran, in order. -/
structure Heap (α : Type) where
  blocks : Nat → Option (Slots α)
  next : Nat
  dropped : List α

/-- The allocator hands out fresh addresses. -/
def Heap.Fresh {α : Type} (h : Heap α) : Prop := ∀ i, h.next ≤ i → h.blocks i = none

/-- A pointer to an array: the address of a block, or dangling (`NonNull::dangling`). -/
abbrev Ptr := Option Nat

/-- How an operation ends. -/
inductive Out (β : Type) where
  | ok (b : β)
  | panic
  | ub
  deriving DecidableEq, Repr

/-- What follows after an operation. -/
def Out.bind {β γ : Type} : Out β → (β → Out γ) → Out γ
  | .ok b, f => f b
  | .panic, _ => .panic
  | .ub, _ => .ub

instance : Monad Out where
  pure := .ok
  bind := Out.bind

variable {α : Type}

/-- `blocks` with one block changed. -/
def Heap.set (h : Heap α) (p : Nat) (b : Option (Slots α)) : Heap α :=
  { h with blocks := fun q => if q = p then b else h.blocks q }

/-- `alloc_array` (`mem/unsafe_apis.rs:48-56`). -/
def alloc (n : Nat) (h : Heap α) : Ptr × Heap α :=
  if n = 0 then (none, h)
  else (some h.next, { h.set h.next (some (List.replicate n none)) with next := h.next + 1 })

/-- `dealloc_array` (`mem/unsafe_apis.rs:65-71`): the layout has to be the one of the allocation. -/
def dealloc (p : Ptr) (n : Nat) (h : Heap α) : Out (Heap α) :=
  if n = 0 then .ok h
  else
    match p with
    | none => .ub
    | some p =>
      match h.blocks p with
      | none => .ub
      | some b => if b.length = n then .ok (h.set p none) else .ub

/-- `ptr::read`: the slot is within the block and holds an element. -/
def readSlot (b : Slots α) (i : Nat) : Out α :=
  match b[i]? with
  | some (some x) => .ok x
  | _ => .ub

/-- `ptr::write`. -/
def writeSlot (b : Slots α) (i : Nat) (x : α) : Out (Slots α) :=
  if i < b.length then .ok (b.set i (some x)) else .ub

/-- `ptr::copy` within a block: `n` slots from index `i` to index `j`. -/
def copyWithin (b : Slots α) (i j n : Nat) : Out (Slots α) :=
  if i + n ≤ b.length ∧ j + n ≤ b.length then
    .ok (b.take j ++ (b.drop i).take n ++ b.drop (j + n))
  else .ub

/-- `ptr::copy_nonoverlapping` of the first `n` slots of a block to the beginning of another. -/
def copyTo (src dst : Slots α) (n : Nat) : Out (Slots α) :=
  if n ≤ src.length ∧ n ≤ dst.length then .ok (src.take n ++ dst.drop n) else .ub

/-- The elements of the slots `i .. i + n`, which have to hold some: `slice::from_raw_parts`. -/
def slice (b : Slots α) (i : Nat) : Nat → Out (List α)
  | 0 => if i ≤ b.length then .ok [] else .ub
  | n + 1 => do
    let x ← readSlot b i
    let xs ← slice b (i + 1) n
    .ok (x :: xs)

/-- `drop_slice_in_place`: the destructors run from the first element to the last. -/
def dropSlice (b : Slots α) (i n : Nat) (h : Heap α) : Out (Heap α) := do
  let xs ← slice b i n
  .ok { h with dropped := h.dropped ++ xs }

/-- The slots behind a pointer. -/
def Heap.deref (h : Heap α) (p : Ptr) : Out (Slots α) :=
  match p with
  | none => .ub
  | some p =>
    match h.blocks p with
    | none => .ub
    | some b => .ok b

/-- The slots behind a pointer change. -/
def Heap.store (h : Heap α) (p : Ptr) (b : Slots α) : Heap α :=
  match p with
  | none => h
  | some p => h.set p (some b)

/-! ### Lemmas -/

@[simp] theorem Out.ok_bind {β γ : Type} (b : β) (f : β → Out γ) : (Out.ok b >>= f) = f b := rfl

theorem getElem?_take_map {b : Slots α} {xs : List α} {n : Nat} (h : b.take n = xs.map some) (hn : n = xs.length)
    {i : Nat} {x : α} (hx : xs[i]? = some x) : b[i]? = some (some x) := by
  have hi : i < xs.length := (List.getElem?_eq_some_iff.1 hx).1
  have : (b.take n)[i]? = some (some x) := by rw [h]; simp [hx]
  rwa [List.getElem?_take_of_lt (by omega)] at this

theorem slice_of {b : Slots α} {xs : List α} (i : Nat) (h : (b.drop i).take xs.length = xs.map some)
    (hi : i ≤ b.length) : slice b i xs.length = .ok xs := by
  induction xs generalizing i with
  | nil => simp [slice, hi]
  | cons x xs ih =>
    have hx : b[i]? = some (some x) := by
      have := congrArg List.head? h
      simp only [List.length_cons, List.map_cons, List.head?_cons] at this
      rw [List.head?_take, if_neg (by omega), List.head?_drop] at this
      exact this
    have hlt : i < b.length := (List.getElem?_eq_some_iff.1 hx).1
    have hrest : (b.drop (i + 1)).take xs.length = xs.map some := by
      have := congrArg List.tail h
      simp only [List.length_cons, List.map_cons, List.tail_cons] at this
      rw [List.drop_eq_getElem_cons hlt, List.take_succ_cons, List.tail_cons] at this
      exact this
    rw [List.length_cons, slice, readSlot, hx]
    simp only [Out.ok_bind]
    rw [ih (i + 1) hrest (by omega)]
    rfl

theorem slice_prefix {b : Slots α} {xs : List α} (h : b.take xs.length = xs.map some) : slice b 0 xs.length = .ok xs :=
  slice_of 0 (by simpa using h) (by omega)

theorem dropSlice_prefix {b : Slots α} {xs : List α} (h : b.take xs.length = xs.map some) (hp : Heap α) :
    dropSlice b 0 xs.length hp = .ok { hp with dropped := hp.dropped ++ xs } := by
  unfold dropSlice
  rw [slice_prefix h]
  rfl

theorem take_map_length {b : Slots α} {xs : List α} (h : b.take xs.length = xs.map some) : xs.length ≤ b.length := by
  have := congrArg List.length h
  simp at this
  omega

theorem writeSlot_push {b : Slots α} {xs : List α} (h : b.take xs.length = xs.map some) (hl : xs.length < b.length)
    (x : α) : ∃ b', writeSlot b xs.length x = .ok b' ∧ b'.length = b.length ∧
      b'.take (xs ++ [x]).length = (xs ++ [x]).map some := by
  refine ⟨b.set xs.length (some x), ?_, by simp, ?_⟩
  · unfold writeSlot; rw [if_pos hl]
  · rw [List.length_append, List.length_singleton, List.take_add_one, List.map_append, ← h]
    rw [List.take_set_of_le (Nat.le_refl _)]
    simp [hl]

theorem copyWithin_remove {b : Slots α} {xs : List α} (h : b.take xs.length = xs.map some) {i : Nat} (hi : i < xs.length) :
    ∃ b', copyWithin b (i + 1) i (xs.length - i - 1) = .ok b' ∧ b'.length = b.length ∧
      b'.take (xs.eraseIdx i).length = (xs.eraseIdx i).map some := by
  have hb := take_map_length h
  refine ⟨_, by unfold copyWithin; rw [if_pos (by omega)], ?_, ?_⟩
  · simp only [List.length_append, List.length_take, List.length_drop]; omega
  · have e : (b.drop (i + 1)).take (xs.length - i - 1) = (xs.drop (i + 1)).map some := by
      have := congrArg (List.drop (i + 1)) h
      rw [List.drop_take, ← List.map_drop] at this
      rw [← this]
      congr 1
    have e2 : b.take i = (xs.take i).map some := by
      have := congrArg (List.take i) h
      rw [List.take_take, ← List.map_take] at this
      rw [← this]
      congr 1
      omega
    rw [e, e2, ← List.map_append, List.eraseIdx_eq_take_drop_succ]
    rw [List.take_append_of_le_length (by simp), List.take_of_length_le (by simp)]

theorem copyTo_prefix {src dst : Slots α} {xs : List α} (h : src.take xs.length = xs.map some)
    (hd : xs.length ≤ dst.length) : ∃ b', copyTo src dst xs.length = .ok b' ∧ b'.length = dst.length ∧
      b'.take xs.length = xs.map some := by
  have hs := take_map_length h
  refine ⟨_, by unfold copyTo; rw [if_pos ⟨hs, hd⟩], ?_, ?_⟩
  · simp; omega
  · rw [h, List.take_append_of_le_length (by simp), List.take_of_length_le (by simp)]

end Verif.Mem
