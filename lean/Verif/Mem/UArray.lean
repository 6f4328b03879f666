import Verif.Mem.VInlineTheorems
/-!
Model of `mem/uarray.rs`: an array of fixed capacity that holds its elements itself, used for the path of
a removal and the stack of an iteration in the primary index. Paths are relative to
`/repo/server/src/engine`. C52 for it.
-/
namespace Verif.Mem.UArray

open VInline (Spec End takes)

variable {α : Type}

/-- `UArray` (`mem/uarray.rs:39-42`). -/
structure U (α : Type) where
  a : Slots α
  l : Nat

/-- `new` (`mem/uarray.rs:47-53`). -/
def new (N : Nat) : U α := { a := List.replicate N none, l := 0 }

/-- `push_unchecked` (`mem/uarray.rs:115-120`). -/
def U.pushUnchecked (u : U α) (x : α) : Out (U α) := do
  let a ← writeSlot u.a u.l x
  .ok { a, l := u.l + 1 }

/-- `push` (`mem/uarray.rs:62-71`). `extend` and `from_iter` (`:200-212`) push one element after the other. -/
def U.push (N : Nat) (u : U α) (x : α) : Out (U α) := if u.l = N then .panic else u.pushUnchecked x

/-- `remove_unchecked` (`mem/uarray.rs:101-112`). -/
def U.removeUnchecked (u : U α) (i : Nat) : Out (α × U α) := do
  let x ← readSlot u.a i
  let a ← copyWithin u.a (i + 1) i (u.l - i - 1)
  .ok (x, { a, l := u.l - 1 })

/-- `remove` (`mem/uarray.rs:73-81`). -/
def U.remove (u : U α) (i : Nat) : Out (α × U α) := if u.l ≤ i then .panic else u.removeUnchecked i

/-- `pop` (`mem/uarray.rs:82-91`). -/
def U.pop (u : U α) : Out (Option α × U α) :=
  if u.l = 0 then .ok (none, u)
  else do
    let (x, u) ← u.removeUnchecked (u.l - 1)
    .ok (some x, u)

/-- `clear` (`mem/uarray.rs:92-99`). -/
def U.clear (u : U α) (m : Heap α) : Out (U α × Heap α) := do
  let m ← dropSlice u.a 0 u.l m
  .ok ({ u with l := 0 }, m)

/-- `as_slice` (`mem/uarray.rs:122-127`). -/
def U.read (u : U α) : Out (List α) := slice u.a 0 u.l

/-- `from_slice` (`mem/uarray.rs:149-159`): not checked in a release build. -/
def fromSlice (N : Nat) (xs : List α) : Out (U α) := do
  let a ← copyTo (xs.map some) (List.replicate N none) xs.length
  .ok { a, l := xs.length }

/-- `drop` (`mem/uarray.rs:176-185`). -/
def U.drop (u : U α) (m : Heap α) : Out (Heap α) := if u.l = 0 then .ok m else dropSlice u.a 0 u.l m

/-- `IntoIter` (`mem/uarray.rs:226-230`). -/
structure Iter (α : Type) where
  i : Nat
  l : Nat
  d : U α

/-- `into_iter` (`mem/uarray.rs:293-301`). -/
def U.intoIter (u : U α) : Iter α := { d := { u with l := 0 }, i := 0, l := u.l }

/-- `_next` (`mem/uarray.rs:234-246`). -/
def Iter.next (it : Iter α) : Out (Option α × Iter α) :=
  if it.i = it.l then .ok (none, it)
  else do
    let x ← readSlot it.d.a it.i
    .ok (some x, { it with i := it.i + 1 })

/-- `_next_back` (`mem/uarray.rs:248-257`). -/
def Iter.nextBack (it : Iter α) : Out (Option α × Iter α) :=
  if it.i = it.l then .ok (none, it)
  else do
    let x ← readSlot it.d.a (it.l - 1)
    .ok (some x, { it with l := it.l - 1 })

/-- `drop` of the iterator (`mem/uarray.rs:260-272`), after which its array is dropped. -/
def Iter.drop (it : Iter α) (m : Heap α) : Out (Heap α) :=
  if it.i < it.l then do
    let m ← dropSlice it.d.a it.i (it.l - it.i) m
    it.d.drop m
  else it.d.drop m

/-! ### Specification -/

/-- What can be done with an array through its safe interface. -/
inductive Op (α : Type) where
  | push (x : α)
  | remove (i : Nat)
  | pop
  | clear

/-- What an operation does to a list of at most `N` elements; `none` is a panic. -/
def step (N : Nat) (s : Spec α) : Op α → Option (Spec α)
  | .push x => if s.items.length < N then some { s with items := s.items ++ [x] } else none
  | .remove i =>
    match s.items[i]? with
    | some x => some { s with items := s.items.eraseIdx i, returned := s.returned ++ [x] }
    | none => none
  | .pop => some { s with items := s.items.dropLast, returned := s.returned ++ s.items.getLast?.toList }
  | .clear => some { s with items := [], dropped := s.dropped ++ s.items }

/-- A history; an operation that panics leaves everything as it was. -/
def run (N : Nat) (s : Spec α) : List (Op α) → Spec α
  | [] => s
  | op :: ops => run N ((step N s op).getD s) ops

/-- One operation of the code. -/
def U.step (N : Nat) (u : U α) (m : Heap α) : Op α → Out (List α × U α × Heap α)
  | .push x => do let u ← u.push N x; .ok ([], u, m)
  | .remove i => do let (x, u) ← u.remove i; .ok ([x], u, m)
  | .pop => do let (x, u) ← u.pop; .ok (x.toList, u, m)
  | .clear => do let (u, m) ← u.clear m; .ok ([], u, m)

/-- A history of the code; `none` is undefined behaviour. -/
def U.run (N : Nat) (u : U α) (m : Heap α) : List (Op α) → Option (List α × U α × Heap α)
  | [] => some ([], u, m)
  | op :: ops =>
    match u.step N m op with
    | .ok (r, u, m) => (u.run N m ops).map fun x => (r ++ x.1, x.2)
    | .panic => u.run N m ops
    | .ub => none

/-- Taking elements with the iterator of the code. -/
def Iter.takes : Iter α → List End → Out (List (Option α) × Iter α)
  | it, [] => .ok ([], it)
  | it, e :: es => do
    let (x, it) ← match e with
      | .front => it.next
      | .back => it.nextBack
    let (xs, it) ← Iter.takes it es
    .ok (x :: xs, it)

/-! ### Proof -/

/-- The array stores `xs`. -/
structure Holds (N : Nat) (u : U α) (xs : List α) : Prop where
  len : u.l = xs.length
  cap : u.a.length = N
  items : u.a.take xs.length = xs.map some

theorem Holds.le {N : Nat} {u : U α} {xs : List α} (h : Holds N u xs) : xs.length ≤ N := by
  rw [← h.cap]; exact take_map_length h.items

theorem holds_new (N : Nat) : Holds N (new N : U α) [] := ⟨rfl, by simp [new], by simp⟩

theorem removeUnchecked_holds {N : Nat} {u : U α} {xs : List α} (h : Holds N u xs) {i : Nat} (hi : i < xs.length) :
    ∃ u', u.removeUnchecked i = .ok (xs[i], u') ∧ Holds N u' (xs.eraseIdx i) := by
  obtain ⟨b', hw, hl', ht'⟩ := copyWithin_remove h.items hi
  have hr : readSlot u.a i = .ok xs[i] := by
    unfold readSlot
    rw [getElem?_take_map h.items rfl (List.getElem?_eq_getElem hi)]
  unfold U.removeUnchecked
  rw [hr]
  simp only [Out.ok_bind]
  rw [h.len, hw]
  exact ⟨_, rfl, by simp [List.length_eraseIdx_of_lt hi], by rw [← h.cap]; exact hl', ht'⟩

theorem step_holds {N : Nat} {u : U α} {s : Spec α} (h : Holds N u s.items) (m : Heap α) (op : Op α) :
    (step N s op = none ∧ u.step N m op = .panic) ∨
    ∃ s' r u' m', step N s op = some s' ∧ u.step N m op = .ok (r, u', m') ∧ Holds N u' s'.items ∧
      s'.returned = s.returned ++ r ∧ m'.blocks = m.blocks ∧
      ∃ d, s'.dropped = s.dropped ++ d ∧ m'.dropped = m.dropped ++ d := by
  have hle := h.le
  cases op with
  | push x =>
    unfold step U.step U.push
    by_cases hl : s.items.length < N
    · obtain ⟨b', hw, hl', ht'⟩ := writeSlot_push h.items (by rw [h.cap]; exact hl) x
      refine .inr ⟨{ s with items := s.items ++ [x] }, [], { a := b', l := u.l + 1 }, m, if_pos hl, ?_,
        ⟨by simp [h.len], by rw [hl', h.cap], ht'⟩, by simp, rfl, [], by simp, by simp⟩
      dsimp only
      rw [if_neg (by rw [h.len]; omega)]
      unfold U.pushUnchecked
      rw [h.len, hw]
      rfl
    · exact .inl ⟨if_neg hl, by dsimp only; rw [if_pos (by rw [h.len]; omega)]; rfl⟩
  | remove i =>
    unfold step U.step U.remove
    by_cases hi : i < s.items.length
    · obtain ⟨u', e, hh⟩ := removeUnchecked_holds h hi
      refine .inr ⟨{ s with items := s.items.eraseIdx i, returned := s.returned ++ [s.items[i]] }, [s.items[i]], u', m,
        by simp only [List.getElem?_eq_getElem hi], ?_, hh, rfl, rfl, [], by simp, by simp⟩
      dsimp only
      rw [if_neg (by rw [h.len]; omega), e]
      rfl
    · refine .inl ⟨by simp only [List.getElem?_eq_none (show s.items.length ≤ i by omega)], ?_⟩
      dsimp only
      rw [if_pos (by rw [h.len]; omega)]
      rfl
  | pop =>
    unfold step U.step U.pop
    by_cases hn : s.items = []
    · refine .inr ⟨_, [], u, m, rfl, ?_, by dsimp only; rw [hn]; rw [hn] at h; exact h, by simp [hn], rfl, [], by simp, by simp⟩
      dsimp only
      rw [if_pos (by rw [h.len, hn]; rfl)]
      rfl
    · have hp : 0 < s.items.length := List.length_pos_iff.2 hn
      obtain ⟨u', e, hh⟩ := removeUnchecked_holds h (show s.items.length - 1 < s.items.length by omega)
      have e1 : s.items.eraseIdx (s.items.length - 1) = s.items.dropLast := by
        rw [List.eraseIdx_eq_take_drop_succ, List.dropLast_eq_take]
        simp
        omega
      have e2 : s.items.getLast?.toList = [s.items[s.items.length - 1]] := by
        rw [List.getLast?_eq_getElem?, List.getElem?_eq_getElem (by omega)]
        rfl
      rw [e1] at hh
      refine .inr ⟨_, [s.items[s.items.length - 1]], u', m, rfl, ?_, hh, by simp [e2], rfl, [], by simp, by simp⟩
      dsimp only
      rw [if_neg (by rw [h.len]; omega), h.len, e]
      rfl
  | clear =>
    unfold step U.step U.clear
    refine .inr ⟨_, [], { u with l := 0 }, { m with dropped := m.dropped ++ s.items }, rfl, ?_,
      ⟨rfl, h.cap, by simp⟩, by simp, rfl, s.items, rfl, rfl⟩
    dsimp only
    rw [h.len, dropSlice_prefix h.items]
    rfl

theorem run_holds {N : Nat} (ops : List (Op α)) {u : U α} {s : Spec α} (h : Holds N u s.items) (m : Heap α) :
    ∃ r u' m', u.run N m ops = some (r, u', m') ∧ Holds N u' (run N s ops).items ∧
      (run N s ops).returned = s.returned ++ r ∧ m'.blocks = m.blocks ∧
      ∃ d, (run N s ops).dropped = s.dropped ++ d ∧ m'.dropped = m.dropped ++ d := by
  induction ops generalizing u s m with
  | nil => exact ⟨[], u, m, rfl, h, by simp [run], rfl, [], by simp [run], by simp⟩
  | cons op ops ih =>
    rcases step_holds h m op with ⟨e1, e2⟩ | ⟨s', r, u', m', e1, e2, hh, hr, hb, d, hd1, hd2⟩
    · obtain ⟨r, u', m', e, x⟩ := ih h m
      refine ⟨r, u', m', ?_, ?_⟩
      · unfold U.run; rw [e2]; exact e
      · unfold run; rw [e1]; exact x
    · obtain ⟨r2, u2, m2, e, hh2, hr2, hb2, d2, hd3, hd4⟩ := ih hh m'
      refine ⟨r ++ r2, u2, m2, ?_, ?_⟩
      · unfold U.run; rw [e2]; dsimp only; rw [e]; rfl
      · unfold run
        rw [e1]
        exact ⟨hh2, by simp [hr2, hr], by rw [hb2, hb], d ++ d2, by simp [hd3, hd1], by simp [hd4, hd2]⟩

/-- The iterator still has the elements `ys`. -/
structure Has (it : Iter α) (ys : List α) : Prop where
  v : it.d.l = 0
  items : (it.d.a.drop it.i).take ys.length = ys.map some
  len : it.l = it.i + ys.length
  le : it.l ≤ it.d.a.length

theorem take_has {it : Iter α} {ys : List α} (h : Has it ys) (e : End) :
    ∃ it', (match e with
      | .front => it.next
      | .back => it.nextBack) = .ok ((e.take ys).1, it') ∧ Has it' (e.take ys).2 := by
  have hl := h.len
  have hle := h.le
  cases e with
  | front =>
    cases ys with
    | nil => exact ⟨it, by simp only [List.length_nil, Nat.add_zero] at hl; simp [Iter.next, hl, End.take], h⟩
    | cons y ys =>
      have hr := VInline.slot_of h.items (j := 0) (by simp)
      simp only [List.length_cons] at hl
      refine ⟨{ it with i := it.i + 1 }, ?_, h.v, ?_, by simp only [End.take, List.tail_cons]; omega, hle⟩
      · unfold Iter.next
        dsimp only
        rw [if_neg (by omega), show readSlot it.d.a it.i = .ok y from hr]
        rfl
      · simp only [End.take, List.tail_cons]
        have := congrArg List.tail h.items
        rw [List.length_cons, List.drop_eq_getElem_cons (by omega), List.take_succ_cons] at this
        exact this
  | back =>
    by_cases hys : ys = []
    · subst hys
      exact ⟨it, by simp only [List.length_nil, Nat.add_zero] at hl; simp [Iter.nextBack, hl, End.take], h⟩
    · have hpos : 0 < ys.length := List.length_pos_iff.2 hys
      have hr := VInline.slot_of h.items (j := ys.length - 1) (by omega)
      refine ⟨{ it with l := it.l - 1 }, ?_, h.v, ?_, by simp only [End.take, List.length_dropLast]; omega,
        by dsimp only; omega⟩
      · unfold Iter.nextBack
        dsimp only
        rw [if_neg (by omega), show it.l - 1 = it.i + (ys.length - 1) by omega, hr]
        simp [End.take, List.getLast?_eq_getElem?, List.getElem?_eq_getElem (show ys.length - 1 < ys.length by omega)]
      · simp only [End.take, List.length_dropLast]
        have := congrArg (List.take (ys.length - 1)) h.items
        rw [List.take_take, ← List.map_take, show min (ys.length - 1) ys.length = ys.length - 1 by omega,
          ← List.dropLast_eq_take] at this
        exact this

theorem takes_has (es : List End) {it : Iter α} {ys : List α} (h : Has it ys) :
    ∃ it', it.takes es = .ok ((takes ys es).1, it') ∧ Has it' (takes ys es).2 := by
  induction es generalizing it ys with
  | nil => exact ⟨it, rfl, h⟩
  | cons e es ih =>
    obtain ⟨it1, e1, h1⟩ := take_has h e
    obtain ⟨it2, e2, h2⟩ := ih h1
    refine ⟨it2, ?_, h2⟩
    cases e <;> (unfold Iter.takes; dsimp only at e1 ⊢; rw [e1]; simp only [Out.ok_bind]; rw [e2]; rfl)

theorem iter_drop {it : Iter α} {ys : List α} (h : Has it ys) (m : Heap α) :
    it.drop m = .ok { m with dropped := m.dropped ++ ys } := by
  have hl := h.len
  have hle := h.le
  unfold Iter.drop U.drop
  simp only [h.v, if_true]
  split
  · unfold dropSlice
    rw [show it.l - it.i = ys.length by omega, slice_of it.i h.items (by omega)]
    rfl
  · have : ys = [] := List.eq_nil_of_length_eq_zero (by omega)
    subst this
    simp

/-- **C52, arrays of fixed capacity.** Whatever is done with such an array through its safe interface: no
operation has undefined behaviour; its elements are those of a list on which the same was done; pushing
panics exactly if it is full and removing exactly if there is no such element; when it is dropped, the
destructors have run for exactly those elements for which they should. -/
theorem C52_uarray (N : Nat) (m0 : Heap α) (ops : List (Op α)) :
    let s := run N {} ops
    ∃ u m, (new N).run N m0 ops = some (s.returned, u, m) ∧ u.read = .ok s.items ∧ m.blocks = m0.blocks ∧
      m.dropped = m0.dropped ++ s.dropped ∧
      ∃ m', u.drop m = .ok m' ∧ m'.blocks = m0.blocks ∧ m'.dropped = m0.dropped ++ s.dropped ++ s.items := by
  obtain ⟨r, u, m, e, h, hr, hb, d, hd1, hd2⟩ := run_holds ops (s := {}) (holds_new N) m0
  have hd1 : (run N {} ops).dropped = d := by simpa using hd1
  have hr : (run N {} ops).returned = r := by simpa using hr
  refine ⟨u, m, by rw [hr]; exact e, ?_, hb, by rw [hd2, hd1], { m with dropped := m.dropped ++ (run N {} ops).items },
    ?_, hb, by rw [hd1, ← hd2]⟩
  · unfold U.read; rw [h.len, slice_prefix h.items]
  · unfold U.drop
    split
    · rename_i h0
      rw [h.len] at h0
      rw [List.eq_nil_of_length_eq_zero h0]
      simp
    · rw [h.len, dropSlice_prefix h.items]

/-- **C52, iterators over such arrays**: they hand out the elements from both ends, each once, and the
destructors of the others run when the iterator is dropped. -/
theorem C52_uarray_iter (N : Nat) (m0 : Heap α) (ops : List (Op α)) (es : List End) :
    let s := run N {} ops
    ∃ u m it m', (new N).run N m0 ops = some (s.returned, u, m) ∧
      u.intoIter.takes es = .ok ((takes s.items es).1, it) ∧ it.drop m = .ok m' ∧
      m'.blocks = m0.blocks ∧ m'.dropped = m0.dropped ++ s.dropped ++ (takes s.items es).2 := by
  obtain ⟨r, u, m, e, h, hr, hb, d, hd1, hd2⟩ := run_holds ops (s := {}) (holds_new N) m0
  have hd1 : (run N {} ops).dropped = d := by simpa using hd1
  have hr : (run N {} ops).returned = r := by simpa using hr
  have hi : Has u.intoIter (run N {} ops).items :=
    ⟨rfl, by simpa [U.intoIter] using h.items, by simp [U.intoIter, h.len],
      by simp only [U.intoIter, h.len]; exact take_map_length h.items⟩
  obtain ⟨it, et, hit⟩ := takes_has es hi
  exact ⟨u, m, it, _, by rw [hr]; exact e, et, iter_drop hit m, hb, by simp [hd2, hd1]⟩

/-- `from_slice`, for slices that fit. It is unsafe, and its one caller (`mem/astr.rs:66-71`) is called with
a length that was checked (`:50-60`) or that its own caller promises. -/
theorem C52_uarray_from_slice (N : Nat) (xs : List α) :
    (xs.length ≤ N → ∃ u, fromSlice N xs = .ok u ∧ u.read = .ok xs) ∧ (N < xs.length → fromSlice N xs = .ub) := by
  refine ⟨fun h => ?_, fun h => ?_⟩
  · obtain ⟨b, e, hl, ht⟩ := copyTo_prefix (src := xs.map some) (dst := List.replicate N none) (xs := xs)
      (by rw [List.take_of_length_le (by simp)]) (by simpa using h)
    unfold fromSlice
    rw [e]
    refine ⟨_, rfl, ?_⟩
    unfold U.read
    exact slice_prefix ht
  · unfold fromSlice copyTo
    rw [if_neg (by simp; omega)]
    rfl

/-! ### Cases -/

/-- A history with two panics. -/
def exOps : List (Op Nat) := [.push 1, .push 2, .push 3, .push 4, .remove 0, .remove 2, .push 5, .pop, .clear, .pop, .push 6]

example : run 3 {} exOps = { items := [6], returned := [1, 5], dropped := [2, 3] } := by rfl
example : ((new 3).run 3 VInline.empty exOps).map (fun x => (x.1, (x.2.1.read : Out (List Nat)), x.2.2.dropped)) =
    some ([1, 5], .ok [6], [2, 3]) := by rfl

end Verif.Mem.UArray
