import Verif.Mem.VInlineTheorems
/-!
Model of `mem/fixed_vec.rs`: a vector of fixed capacity on the heap, the buffer of the writer of the logs
(`storage/common/sdss/sdss_r1/rw.rs`, capacity 8192). Paths are relative to `/repo/server/src/engine`.
C52 for it.
-/
namespace Verif.Mem.FixedVec

open VInline (Spec)

variable {α : Type}

/-- `FixedVec` (`mem/fixed_vec.rs:43-46`). -/
structure F where
  p : Ptr
  l : Nat

/-- `allocate` (`mem/fixed_vec.rs:56-65`). -/
def allocate (C : Nat) (m : Heap α) : F × Heap α :=
  let (p, m) := alloc C m
  ({ p, l := 0 }, m)

/-- `push` (`mem/fixed_vec.rs:110-114`): not checked in a release build. -/
def F.push (f : F) (m : Heap α) (x : α) : Out (F × Heap α) := do
  let b ← m.deref f.p
  let b ← writeSlot b f.l x
  .ok ({ f with l := f.l + 1 }, m.store f.p b)

/-- `try_push_result` (`mem/fixed_vec.rs:90-100`); the flag tells whether the element was taken. -/
def F.tryPush (C : Nat) (f : F) (m : Heap α) (x : α) : Out (Bool × F × Heap α) :=
  if C - f.l = 0 then .ok (false, f, m)
  else do
    let (f, m) ← f.push m x
    .ok (true, f, m)

/-- `extend_from_slice` (`mem/fixed_vec.rs:101-109`): the elements are copied behind the last one, unchecked
in a release build. -/
def F.extend (f : F) (m : Heap α) (xs : List α) : Out (F × Heap α) := do
  let b ← m.deref f.p
  if f.l + xs.length ≤ b.length then
    .ok ({ f with l := f.l + xs.length }, m.store f.p (b.take f.l ++ xs.map some ++ b.drop (f.l + xs.length)))
  else .ub

/-- `clear` (`mem/fixed_vec.rs:115-121`). -/
def F.clear (f : F) (m : Heap α) : Out (F × Heap α) := do
  let b ← m.deref f.p
  let m ← dropSlice b 0 f.l m
  .ok ({ f with l := 0 }, m)

/-- `clear_start` (`mem/fixed_vec.rs:122-129`); the subtraction wraps around if there are not so many
elements, which makes the copy undefined. -/
def F.clearStart (f : F) (m : Heap α) (n : Nat) : Out (F × Heap α) := do
  let b ← m.deref f.p
  let m ← dropSlice b 0 n m
  if n ≤ f.l then
    let b ← copyWithin b n 0 (f.l - n)
    .ok ({ f with l := f.l - n }, m.store f.p b)
  else .ub

/-- `slice` (`mem/fixed_vec.rs:147-152`). -/
def F.read (f : F) (m : Heap α) : Out (List α) := do
  let b ← m.deref f.p
  slice b 0 f.l

/-- `drop` (`mem/fixed_vec.rs:132-141`): `clear`, and then the memory is given back *with the length as the
size of the allocation*. -/
def F.drop (f : F) (m : Heap α) : Out (Heap α) := do
  let (f, m) ← f.clear m
  dealloc f.p f.l m

/-! ### Specification -/

/-- What can be done with such a vector. -/
inductive Op (α : Type) where
  | tryPush (x : α)
  | push (x : α)
  | extend (xs : List α)
  | clear
  | clearStart (n : Nat)

/-- What the unsafe operations demand of their callers. -/
def Op.ok (C : Nat) (s : Spec α) : Op α → Bool
  | .push _ => s.items.length < C
  | .extend xs => s.items.length + xs.length ≤ C
  | .clearStart n => n ≤ s.items.length
  | _ => true

/-- What an operation does to a list; elements that do not fit are handed back. -/
def step (C : Nat) (s : Spec α) : Op α → Spec α
  | .tryPush x =>
    if s.items.length < C then { s with items := s.items ++ [x] } else { s with returned := s.returned ++ [x] }
  | .push x => { s with items := s.items ++ [x] }
  | .extend xs => { s with items := s.items ++ xs }
  | .clear => { s with items := [], dropped := s.dropped ++ s.items }
  | .clearStart n => { s with items := s.items.drop n, dropped := s.dropped ++ s.items.take n }

/-- A history. -/
def run (C : Nat) (s : Spec α) : List (Op α) → Spec α
  | [] => s
  | op :: ops => run C (step C s op) ops

/-- A history in which the callers of the unsafe operations do what is demanded of them. -/
def oks (C : Nat) (s : Spec α) : List (Op α) → Bool
  | [] => true
  | op :: ops => op.ok C s && oks C (step C s op) ops

/-- One operation of the code. -/
def F.step (C : Nat) (f : F) (m : Heap α) : Op α → Out (List α × F × Heap α)
  | .tryPush x => do let (b, f, m) ← f.tryPush C m x; .ok (if b then [] else [x], f, m)
  | .push x => do let (f, m) ← f.push m x; .ok ([], f, m)
  | .extend xs => do let (f, m) ← f.extend m xs; .ok ([], f, m)
  | .clear => do let (f, m) ← f.clear m; .ok ([], f, m)
  | .clearStart n => do let (f, m) ← f.clearStart m n; .ok ([], f, m)

/-- A history of the code. -/
def F.run (C : Nat) (f : F) (m : Heap α) : List (Op α) → Out (List α × F × Heap α)
  | [] => .ok ([], f, m)
  | op :: ops => do
    let (r, f, m) ← f.step C m op
    let (rs, f, m) ← f.run C m ops
    .ok (r ++ rs, f, m)

/-! ### Proof -/

/-- The vector stores `xs` in the block `p`; the other blocks are those of `m0`. -/
structure Holds (C : Nat) (m0 : Heap α) (p : Nat) (f : F) (m : Heap α) (xs : List α) : Prop where
  ptr : f.p = some p
  len : f.l = xs.length
  block : ∃ b, m.blocks p = some b ∧ b.length = C ∧ b.take xs.length = xs.map some
  others : ∀ q, q ≠ p → m.blocks q = m0.blocks q

theorem Holds.deref {C p : Nat} {m0 m : Heap α} {f : F} {xs : List α} (h : Holds C m0 p f m xs) :
    ∃ b, m.deref f.p = .ok b ∧ b.length = C ∧ b.take xs.length = xs.map some := by
  obtain ⟨b, hb, hl, ht⟩ := h.block
  exact ⟨b, by simp only [Heap.deref, h.ptr, hb], hl, ht⟩

theorem Holds.store {C p : Nat} {m0 m m1 : Heap α} {f : F} {xs ys : List α} (h : Holds C m0 p f m xs)
    (hm : m1.blocks = m.blocks) {b : Slots α} (hl : b.length = C) (ht : b.take ys.length = ys.map some) :
    Holds C m0 p { f with l := ys.length } (m1.store f.p b) ys := by
  refine ⟨h.ptr, rfl, ⟨b, by simp [h.ptr, Heap.store, Heap.set], hl, ht⟩, fun q hq => ?_⟩
  simp only [h.ptr, Heap.store, Heap.set, if_neg hq, hm]
  exact h.others q hq

theorem push_holds {C p : Nat} {m0 m : Heap α} {f : F} {xs : List α} (h : Holds C m0 p f m xs) (hl : xs.length < C)
    (x : α) : ∃ f' m', f.push m x = .ok (f', m') ∧ Holds C m0 p f' m' (xs ++ [x]) ∧ m'.dropped = m.dropped := by
  obtain ⟨b, hb, hbl, ht⟩ := h.deref
  obtain ⟨b', hw, hl', ht'⟩ := writeSlot_push ht (by omega) x
  unfold F.push
  rw [hb, Out.ok_bind, h.len, hw, Out.ok_bind]
  refine ⟨_, _, rfl, ?_, by simp [Heap.store, h.ptr, Heap.set]⟩
  simpa using h.store rfl (by omega) ht'

theorem step_holds {C p : Nat} {m0 m : Heap α} {f : F} {s : Spec α} (h : Holds C m0 p f m s.items) (op : Op α)
    (hok : op.ok C s = true) :
    ∃ r f' m', f.step C m op = .ok (r, f', m') ∧ Holds C m0 p f' m' (step C s op).items ∧
      (step C s op).returned = s.returned ++ r ∧
      ∃ d, (step C s op).dropped = s.dropped ++ d ∧ m'.dropped = m.dropped ++ d := by
  obtain ⟨b, hb, hbl, ht⟩ := h.deref
  have hle := take_map_length ht
  cases op with
  | tryPush x =>
    unfold F.step step F.tryPush
    dsimp only
    by_cases hl : s.items.length < C
    · obtain ⟨f', m', e, hh, hd⟩ := push_holds h hl x
      rw [if_neg (by rw [h.len]; omega), if_pos hl, e]
      exact ⟨[], f', m', rfl, hh, by simp, [], by simp, by simp [hd]⟩
    · rw [if_pos (by rw [h.len]; omega), if_neg hl]
      exact ⟨[x], f, m, rfl, h, rfl, [], by simp, by simp⟩
  | push x =>
    obtain ⟨f', m', e, hh, hd⟩ := push_holds h (by simpa [Op.ok] using hok) x
    unfold F.step step
    dsimp only
    rw [e]
    exact ⟨[], f', m', rfl, hh, by simp, [], by simp, by simp [hd]⟩
  | extend xs =>
    have hl : s.items.length + xs.length ≤ C := by simpa [Op.ok] using hok
    unfold F.step step F.extend
    dsimp only
    rw [hb]
    simp only [Out.ok_bind, h.len]
    rw [if_pos (by omega)]
    refine ⟨[], _, _, rfl, ?_, by simp, [], by simp, by simp [Heap.store, h.ptr, Heap.set]⟩
    have hh := h.store (m1 := m) (ys := s.items ++ xs)
      (b := b.take s.items.length ++ xs.map some ++ b.drop (s.items.length + xs.length)) rfl
      (by simp; omega)
      (by rw [ht, ← List.map_append, List.take_append_of_le_length (by simp), List.take_of_length_le (by simp)])
    simpa using hh
  | clear =>
    unfold F.step step F.clear
    dsimp only
    rw [hb]
    simp only [Out.ok_bind, h.len, dropSlice_prefix ht]
    refine ⟨[], _, _, rfl, ⟨h.ptr, rfl, ?_, h.others⟩, by simp, s.items, rfl, rfl⟩
    obtain ⟨b, hb, hl, _⟩ := h.block
    exact ⟨b, hb, hl, by simp⟩
  | clearStart n =>
    have hn : n ≤ s.items.length := by simpa [Op.ok] using hok
    have hs : slice b 0 n = .ok (s.items.take n) := by
      have := slice_prefix (b := b) (xs := s.items.take n) (by
        have := congrArg (List.take n) ht
        rw [List.take_take, ← List.map_take] at this
        rw [← this, List.length_take])
      rwa [List.length_take, Nat.min_eq_left hn] at this
    unfold F.step step F.clearStart dropSlice copyWithin
    dsimp only
    rw [hb]
    simp only [Out.ok_bind, hs, h.len]
    rw [if_pos hn, if_pos (by omega)]
    refine ⟨[], _, _, rfl, ?_, by simp, _, rfl, by simp [Heap.store, h.ptr, Heap.set]⟩
    have e : (b.drop n).take (s.items.length - n) = (s.items.drop n).map some := by
      have := congrArg (List.drop n) ht
      rwa [List.drop_take, ← List.map_drop] at this
    have hh := h.store (m1 := { m with dropped := m.dropped ++ s.items.take n }) (ys := s.items.drop n)
      (b := b.take 0 ++ (b.drop n).take (s.items.length - n) ++ b.drop (0 + (s.items.length - n))) rfl
      (by simp; omega)
      (by rw [e, List.take_zero, List.nil_append, List.take_append_of_le_length (by simp),
            List.take_of_length_le (by simp)])
    simpa using hh

theorem run_holds {C p : Nat} {m0 : Heap α} (ops : List (Op α)) {m : Heap α} {f : F} {s : Spec α}
    (h : Holds C m0 p f m s.items) (hok : oks C s ops = true) :
    ∃ r f' m', f.run C m ops = .ok (r, f', m') ∧ Holds C m0 p f' m' (run C s ops).items ∧
      (run C s ops).returned = s.returned ++ r ∧
      ∃ d, (run C s ops).dropped = s.dropped ++ d ∧ m'.dropped = m.dropped ++ d := by
  induction ops generalizing m f s with
  | nil => exact ⟨[], f, m, rfl, h, by simp [run], [], by simp [run], by simp⟩
  | cons op ops ih =>
    simp only [oks, Bool.and_eq_true] at hok
    obtain ⟨r, f1, m1, e1, h1, hr1, d1, hd1, hd1'⟩ := step_holds h op hok.1
    obtain ⟨r2, f2, m2, e2, h2, hr2, d2, hd2, hd2'⟩ := ih h1 hok.2
    refine ⟨r ++ r2, f2, m2, ?_, h2, ?_, d1 ++ d2, ?_, by simp [hd2', hd1']⟩
    · unfold F.run; rw [e1]; simp only [Out.ok_bind]; rw [e2]; rfl
    · unfold run; rw [hr2, hr1]; simp
    · unfold run; rw [hd2, hd1]; simp

theorem allocate_holds {C : Nat} (hC : 0 < C) (m0 : Heap α) :
    Holds C m0 m0.next (allocate C m0).1 (allocate C m0).2 [] ∧ (allocate C m0).2.dropped = m0.dropped := by
  unfold allocate
  rw [VInline.alloc_pos (by omega)]
  refine ⟨⟨rfl, rfl, ⟨List.replicate C none, by simp [Heap.set], by simp, by simp⟩, fun q hq => ?_⟩, rfl⟩
  simp [Heap.set, hq]

/-- **C52, vectors of fixed capacity on the heap, in part.** If the callers of the unsafe operations keep
within the capacity and the length, then no operation has undefined behaviour, the elements are those of
a list on which the same was done, and when the vector is dropped, the destructors have run for exactly
those elements for which they should. The memory of the vector is *not* given back: exactly the block of
its capacity remains. -/
theorem C52_fixedvec_partial (C : Nat) (hC : 0 < C) (m0 : Heap α) (ops : List (Op α)) (hok : oks C {} ops = true) :
    let s := run C {} ops
    ∃ f m, (allocate C m0).1.run C (allocate C m0).2 ops = .ok (s.returned, f, m) ∧ f.read m = .ok s.items ∧
      m.dropped = m0.dropped ++ s.dropped ∧
      ∃ m', f.drop m = .ok m' ∧ m'.dropped = m0.dropped ++ s.dropped ++ s.items ∧
        (∃ b, m'.blocks m0.next = some b ∧ b.length = C) ∧ ∀ q, q ≠ m0.next → m'.blocks q = m0.blocks q := by
  obtain ⟨h0, hd0⟩ := allocate_holds hC m0
  obtain ⟨r, f, m, e, h, hr, d, hd1, hd2⟩ := run_holds ops (s := {}) h0 hok
  have hd1 : (run C {} ops).dropped = d := by simpa using hd1
  have hr : (run C {} ops).returned = r := by simpa using hr
  obtain ⟨b, hb, hbl, ht⟩ := h.deref
  refine ⟨f, m, by rw [hr]; exact e, ?_, by rw [hd2, hd1, hd0],
    { m with dropped := m.dropped ++ (run C {} ops).items }, ?_, ?_, ?_, h.others⟩
  · unfold F.read; rw [hb, Out.ok_bind, h.len, slice_prefix ht]
  · unfold F.drop F.clear
    rw [hb]
    simp only [Out.ok_bind, h.len, dropSlice_prefix ht]
    rfl
  · rw [hd1, ← hd0, ← hd2]
  · obtain ⟨b, hb, hl, _⟩ := h.block
    exact ⟨b, hb, hl⟩

/-- **C52 is violated by vectors of fixed capacity on the heap**: whatever was done with one, dropping it
leaks its memory. `drop` sets the length to zero and then gives back an allocation of *length* elements,
which is none. -/
theorem C52_fixedvec_leak_violated (C : Nat) (hC : 0 < C) (m0 : Heap α) (h0 : m0.Fresh) (ops : List (Op α))
    (hok : oks C {} ops = true) :
    ∃ r f m m', (allocate C m0).1.run C (allocate C m0).2 ops = .ok (r, f, m) ∧ f.drop m = .ok m' ∧
      m'.blocks ≠ m0.blocks := by
  obtain ⟨f, m, e, _, _, m', ed, _, ⟨b, hb, _⟩, _⟩ := C52_fixedvec_partial C hC m0 ops hok
  refine ⟨_, f, m, m', e, ed, fun hm => ?_⟩
  rw [hm, h0 _ (Nat.le_refl _)] at hb
  cases hb

/-! ### Cases -/

/-- A history of a buffer of four elements. -/
def exOps : List (Op Nat) := [.extend [1, 2, 3], .tryPush 4, .tryPush 5, .clearStart 2, .push 6, .clearStart 1]

example : oks 4 {} exOps = true ∧ run 4 {} exOps = { items := [4, 6], returned := [5], dropped := [1, 2, 3] } := ⟨rfl, rfl⟩

/-- A vector that was never used, as most writers' buffers are when they are dropped, leaks as well. -/
example : match (allocate 4 (VInline.empty : Heap Nat)).1.drop (allocate 4 (VInline.empty : Heap Nat)).2 with
    | .ok m => m.blocks 0 = some [none, none, none, none]
    | _ => False := rfl

/-- Beyond the capacity the behaviour is undefined: the precondition is needed. -/
example : ((allocate 2 (VInline.empty : Heap Nat)).1.run 2 (allocate 2 VInline.empty).2 [.extend [1, 2, 3]]) = .ub := rfl

end Verif.Mem.FixedVec
