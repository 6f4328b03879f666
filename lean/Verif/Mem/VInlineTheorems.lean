import Verif.Mem.VInline
/-!
C52 for `VInline`: the vector with inline elements is a list and handles memory correctly.
-/
namespace Verif.Mem.VInline

variable {α : Type}

/-! ### Specification -/

/-- What can be done with a vector through its safe interface. -/
inductive Op (α : Type) where
  | push (x : α)
  | extend (xs : List α)
  | remove (i : Nat)
  | removeCompact (i : Nat)
  | optimize
  | clear

/-- A list, the elements handed back to the caller, and the elements whose destructors ran. -/
structure Spec (α : Type) where
  items : List α := []
  returned : List α := []
  dropped : List α := []

/-- What an operation does to a list; `none` is a panic. -/
def Spec.step (s : Spec α) : Op α → Option (Spec α)
  | .push x => some { s with items := s.items ++ [x] }
  | .extend xs => some { s with items := s.items ++ xs }
  | .remove i | .removeCompact i =>
    match s.items[i]? with
    | some x => some { s with items := s.items.eraseIdx i, returned := s.returned ++ [x] }
    | none => none
  | .optimize => some s
  | .clear => some { s with items := [], dropped := s.dropped ++ s.items }

/-- A history; an operation that panics leaves everything as it was. -/
def Spec.run (s : Spec α) : List (Op α) → Spec α
  | [] => s
  | op :: ops => ((s.step op).getD s).run ops

/-- The elements that a history puts in. -/
def Op.put : Op α → List α
  | .push x => [x]
  | .extend xs => xs
  | _ => []

/-! ### The code on a history -/

/-- One operation of the code: the element handed back, the vector and the memory. -/
def V.step (N : Nat) (v : V α) (m : Heap α) : Op α → Out (List α × V α × Heap α)
  | .push x => do let (v, m) ← v.push N m x; .ok ([], v, m)
  | .extend xs => do let (v, m) ← v.extend N m xs; .ok ([], v, m)
  | .remove i => do let (x, v, m) ← v.remove N m i; .ok ([x], v, m)
  | .removeCompact i => do let (x, v, m) ← v.removeCompact N m i; .ok ([x], v, m)
  | .optimize => do let (v, m) ← v.optimize N m; .ok ([], v, m)
  | .clear => do let (v, m) ← v.clear N m; .ok ([], v, m)

/-- A history of the code. A panic is caught by the caller; the code panics before it changes
anything. `none` is undefined behaviour. -/
def V.run (N : Nat) (v : V α) (m : Heap α) : List (Op α) → Option (List α × V α × Heap α)
  | [] => some ([], v, m)
  | op :: ops =>
    match v.step N m op with
    | .ok (r, v, m) => (v.run N m ops).map fun x => (r ++ x.1, x.2)
    | .panic => v.run N m ops
    | .ub => none

/-! ### Proof -/

/-- The vector stores `xs`; apart from its block the memory has the blocks of `m0`. -/
structure Holds (N : Nat) (m0 : Heap α) (v : V α) (m : Heap α) (xs : List α) : Prop where
  len : v.l = xs.length
  fresh : m.Fresh
  place : (v.c = N ∧ ∃ b, v.d = .s b ∧ b.length = N ∧ b.take xs.length = xs.map some ∧ m.blocks = m0.blocks) ∨
    (N < v.c ∧ ∃ p b, v.d = .h (some p) ∧ m.blocks p = some b ∧ b.length = v.c ∧
      b.take xs.length = xs.map some ∧ m0.blocks p = none ∧ ∀ q, q ≠ p → m.blocks q = m0.blocks q)

theorem Holds.slots {N : Nat} {m0 m : Heap α} {v : V α} {xs : List α} (h : Holds N m0 v m xs) :
    ∃ b, v.slots N m = .ok b ∧ b.length = v.c ∧ b.take xs.length = xs.map some := by
  rcases h.place with ⟨hc, b, hd, hl, ht, _⟩ | ⟨hc, p, b, hd, hb, hl, ht, _⟩
  · refine ⟨b, ?_, by rw [hl, hc], ht⟩
    unfold V.slots V.onStack
    rw [hd, hc]
    simp
  · refine ⟨b, ?_, hl, ht⟩
    unfold V.slots V.onStack
    rw [hd, show (v.c == N) = false by simp; omega]
    simp only [Heap.deref, hb]

theorem fresh_set {m : Heap α} (h : m.Fresh) {p : Nat} {b b' : Slots α} (hp : m.blocks p = some b) :
    (m.set p (some b')).Fresh := by
  intro i hi
  unfold Heap.set
  dsimp only
  rw [if_neg]
  · exact h i hi
  · rintro rfl
    rw [h i hi] at hp
    cases hp

theorem Holds.put {N : Nat} {m0 m : Heap α} {v : V α} {xs ys : List α} (h : Holds N m0 v m xs) {b : Slots α}
    (hl : b.length = v.c) (ht : b.take ys.length = ys.map some) :
    Holds N m0 { (v.put m b).1 with l := ys.length } (v.put m b).2 ys ∧ (v.put m b).2.dropped = m.dropped ∧
      (v.put m b).1.l = v.l ∧ (v.put m b).1.c = v.c := by
  rcases h.place with ⟨hc, b0, hd, hl0, ht0, hm⟩ | ⟨hc, p, b0, hd, hb, hl0, ht0, h0, hm⟩
  · unfold V.put
    rw [hd]
    exact ⟨⟨rfl, h.fresh, .inl ⟨hc, b, rfl, by rw [hl, hc], ht, hm⟩⟩, rfl, rfl, rfl⟩
  · unfold V.put
    rw [hd]
    refine ⟨⟨rfl, fresh_set h.fresh hb, .inr ⟨hc, p, b, hd, ?_, hl, ht, h0, ?_⟩⟩, rfl, rfl, rfl⟩
    · simp [Heap.store, Heap.set]
    · intro q hq
      simp only [Heap.store, Heap.set, if_neg hq]
      exact hm q hq

theorem dealloc_ok {m : Heap α} {p n : Nat} {b : Slots α} (hb : m.blocks p = some b) (hl : b.length = n) (hn : n ≠ 0) :
    dealloc (some p) n m = .ok (m.set p none) := by
  unfold dealloc
  rw [if_neg hn]
  simp only [hb, if_pos hl]

theorem alloc_pos {m : Heap α} {n : Nat} (hn : n ≠ 0) :
    alloc n m = (some m.next, { m.set m.next (some (List.replicate n none)) with next := m.next + 1 }) := by
  unfold alloc
  rw [if_neg hn]

/-- The vector has moved to a new block on the heap. -/
theorem holds_heap {N : Nat} {m0 m : Heap α} {v : V α} {xs : List α} (h : Holds N m0 v m xs) {n : Nat} (hn : N < n)
    {b : Slots α} (hl : b.length = n) (ht : b.take xs.length = xs.map some) :
    ∃ m1 p, alloc n m = (some p, m1) ∧ m1.deref (some p) = .ok (List.replicate n none) ∧
      v.slots N m1 = v.slots N m ∧ m1.dropped = m.dropped ∧
      (v.onStack N = true → Holds N m0 { v with d := .h (some p), c := n } (m1.store (some p) b) xs) ∧
      (∀ q, v.d = .h q → v.onStack N = false → (m1.deref q = m.deref q) ∧ ∃ m2, dealloc q v.c (m1.store (some p) b) = .ok m2 ∧
        m2.dropped = m.dropped ∧ Holds N m0 { v with d := .h (some p), c := n } m2 xs) := by
  have h0 : m0.blocks m.next = none := by
    rcases h.place with ⟨_, b0, _, _, _, hm⟩ | ⟨_, p, b0, _, hb, _, _, h0, hm⟩
    · rw [← hm]; exact h.fresh _ (Nat.le_refl _)
    · have hne : m.next ≠ p := by
        rintro rfl
        rw [h.fresh _ (Nat.le_refl _)] at hb
        cases hb
      rw [← hm _ hne]
      exact h.fresh _ (Nat.le_refl _)
  refine ⟨_, _, alloc_pos (by omega), ?_, ?_, rfl, ?_, ?_⟩
  · simp [Heap.deref, Heap.set]
  · unfold V.slots
    rcases h.place with ⟨hc, b0, hd, _⟩ | ⟨hc, p, b0, hd, hb, _⟩
    · rw [hd]; cases v.onStack N <;> rfl
    · have hne : p ≠ m.next := by
        rintro rfl
        rw [h.fresh _ (Nat.le_refl _)] at hb
        cases hb
      rw [hd]
      cases v.onStack N
      · simp [Heap.deref, Heap.set, hne]
      · rfl
  · intro hs
    rcases h.place with ⟨hc, b0, hd, hl0, ht0, hm⟩ | ⟨hc, _⟩
    · refine ⟨h.len, ?_, .inr ⟨hn, m.next, b, rfl, ?_, hl, ht, h0, ?_⟩⟩
      · intro i hi
        simp only [Heap.store, Heap.set] at hi ⊢
        rw [if_neg (by omega), if_neg (by omega)]
        exact h.fresh i (by omega)
      · simp [Heap.store, Heap.set]
      · intro q hq
        simp only [Heap.store, Heap.set, if_neg hq]
        rw [hm]
    · simp [V.onStack] at hs; omega
  · intro q hq hs
    rcases h.place with ⟨hc, _⟩ | ⟨hc, p, b0, hd, hb, hl0, ht0, hp0, hm⟩
    · simp [V.onStack] at hs; omega
    · rw [hd] at hq
      injection hq with hq
      subst hq
      have hne : p ≠ m.next := by
        rintro rfl
        rw [h.fresh _ (Nat.le_refl _)] at hb
        cases hb
      refine ⟨by simp [Heap.deref, Heap.set, hne], _, dealloc_ok (b := b0) ?_ hl0 (by omega), rfl, h.len, ?_,
        .inr ⟨hn, m.next, b, rfl, ?_, hl, ht, h0, ?_⟩⟩
      · simp [Heap.store, Heap.set, hne, hb]
      · intro i hi
        simp only [Heap.store, Heap.set] at hi ⊢
        split
        · rfl
        · rw [if_neg (by omega), if_neg (by omega)]
          exact h.fresh i (by omega)
      · simp [Heap.store, Heap.set, Ne.symm hne]
      · intro q hq
        simp only [Heap.store, Heap.set, if_neg hq]
        split
        · rename_i h1; subst h1; exact hp0.symm
        · rename_i h1; exact hm q h1

theorem holds_new (N : Nat) (m0 : Heap α) (h0 : m0.Fresh) : Holds N m0 (new N) m0 [] :=
  ⟨rfl, h0, .inl ⟨rfl, _, rfl, by simp, by simp, rfl⟩⟩

theorem read_holds {N : Nat} {m0 m : Heap α} {v : V α} {xs : List α} (h : Holds N m0 v m xs) :
    v.read N m = .ok xs := by
  obtain ⟨b, hb, hl, ht⟩ := h.slots
  unfold V.read
  rw [hb, Out.ok_bind, h.len, slice_prefix ht]

theorem grow_holds {N : Nat} {m0 m : Heap α} {v : V α} {xs : List α} (hN : 0 < N) (h : Holds N m0 v m xs) :
    ∃ v' m', v.grow N m = .ok (v', m') ∧ Holds N m0 v' m' xs ∧ xs.length < v'.c ∧ m'.dropped = m.dropped := by
  obtain ⟨b, hb, hl, ht⟩ := h.slots
  have hcN : N ≤ v.c := by rcases h.place with ⟨hc, _⟩ | ⟨hc, _⟩ <;> omega
  have hle := take_map_length ht
  unfold V.grow
  by_cases hlc : v.l = v.c
  · rw [if_pos hlc]
    obtain ⟨b', hcp, hl', ht'⟩ := copyTo_prefix (dst := List.replicate (v.c * 2) none) ht
      (by rw [List.length_replicate]; have := h.len; omega)
    rw [List.length_replicate] at hl'
    obtain ⟨m1, p, ha, hder, hsl, hdr, hst, hhp⟩ := holds_heap h (n := v.c * 2) (by omega) hl' ht'
    simp only [ha, hsl, hb, hder, Out.ok_bind]
    rw [show copyTo b (List.replicate (v.c * 2) none) v.l = .ok b' by rw [h.len]; exact hcp]
    simp only [Out.ok_bind]
    cases hos : v.onStack N
    · have hd : ∃ q, v.d = .h q := by
        rcases h.place with ⟨hc, _⟩ | ⟨hc, p, b0, hd, _⟩
        · simp [V.onStack, hc] at hos
        · exact ⟨_, hd⟩
      obtain ⟨q, hd⟩ := hd
      obtain ⟨_, m2, hde, hd2, hh⟩ := hhp q hd hos
      rw [hd]
      simp only [Bool.false_eq_true, if_false, hde, Out.ok_bind]
      exact ⟨_, _, rfl, hh, by dsimp only; have := h.len; omega, hd2⟩
    · simp only [if_true]
      refine ⟨_, _, rfl, hst hos, by dsimp only; have := h.len; omega, ?_⟩
      exact hdr
  · rw [if_neg hlc]
    exact ⟨v, m, rfl, h, by have := h.len; omega, rfl⟩

theorem push_holds {N : Nat} {m0 m : Heap α} {v : V α} {xs : List α} (hN : 0 < N) (h : Holds N m0 v m xs) (x : α) :
    ∃ v' m', v.push N m x = .ok (v', m') ∧ Holds N m0 v' m' (xs ++ [x]) ∧ m'.dropped = m.dropped := by
  obtain ⟨v1, m1, hg, h1, hlt, hdr⟩ := grow_holds hN h
  obtain ⟨b, hb, hl, ht⟩ := h1.slots
  obtain ⟨b', hw, hl', ht'⟩ := writeSlot_push ht (by omega) x
  obtain ⟨hh, hd, hvl, hvc⟩ := h1.put (by omega) ht'
  unfold V.push
  rw [hg]
  simp only [Out.ok_bind]
  unfold V.pushUnchecked
  rw [hb, Out.ok_bind, h1.len, hw]
  simp only [Out.ok_bind]
  refine ⟨_, _, rfl, ?_, by rw [hd, hdr]⟩
  rw [hvl, h1.len]
  simpa using hh

theorem extend_holds {N : Nat} {m0 m : Heap α} {v : V α} {xs : List α} (hN : 0 < N) (h : Holds N m0 v m xs)
    (ys : List α) : ∃ v' m', v.extend N m ys = .ok (v', m') ∧ Holds N m0 v' m' (xs ++ ys) ∧ m'.dropped = m.dropped := by
  induction ys generalizing v m xs with
  | nil => exact ⟨v, m, rfl, by simpa using h, rfl⟩
  | cons y ys ih =>
    obtain ⟨v1, m1, e1, h1, d1⟩ := push_holds hN h y
    obtain ⟨v2, m2, e2, h2, d2⟩ := ih h1
    refine ⟨v2, m2, ?_, by simpa using h2, by rw [d2, d1]⟩
    unfold V.extend
    rw [e1]
    exact e2

theorem clear_holds {N : Nat} {m0 m : Heap α} {v : V α} {xs : List α} (h : Holds N m0 v m xs) :
    ∃ v' m', v.clear N m = .ok (v', m') ∧ Holds N m0 v' m' [] ∧ m'.dropped = m.dropped ++ xs := by
  obtain ⟨b, hb, hl, ht⟩ := h.slots
  unfold V.clear
  rw [hb, Out.ok_bind, h.len, dropSlice_prefix ht]
  refine ⟨_, _, rfl, ⟨rfl, h.fresh, ?_⟩, rfl⟩
  rcases h.place with ⟨hc, b, hd, hl, ht, hm⟩ | ⟨hc, p, b, hd, hb, hl, ht, h0, hm⟩
  · exact .inl ⟨hc, b, hd, hl, by simp, hm⟩
  · exact .inr ⟨hc, p, b, hd, hb, hl, by simp, h0, hm⟩

theorem remove_holds {N : Nat} {m0 m : Heap α} {v : V α} {xs : List α} (h : Holds N m0 v m xs) (i : Nat) :
    (xs[i]? = none ∧ v.remove N m i = .panic) ∨
    ∃ x v' m', xs[i]? = some x ∧ v.remove N m i = .ok (x, v', m') ∧ Holds N m0 v' m' (xs.eraseIdx i) ∧
      m'.dropped = m.dropped := by
  obtain ⟨b, hb, hl, ht⟩ := h.slots
  unfold V.remove
  by_cases hi : i < v.l
  · have hi' : i < xs.length := by rw [← h.len]; exact hi
    obtain ⟨b', hw, hl', ht'⟩ := copyWithin_remove ht hi'
    obtain ⟨hh, hd, hvl, hvc⟩ := h.put (by omega) ht'
    have hr : readSlot b i = .ok xs[i] := by
      unfold readSlot
      rw [getElem?_take_map ht rfl (List.getElem?_eq_getElem hi')]
    rw [if_pos hi, hb]
    simp only [Out.ok_bind, hr]
    rw [h.len, hw]
    refine .inr ⟨xs[i], _, _, List.getElem?_eq_getElem hi', rfl, ?_, hd⟩
    rw [hvl, h.len]
    rw [List.length_eraseIdx_of_lt hi'] at hh
    exact hh
  · rw [if_neg hi]
    exact .inl ⟨List.getElem?_eq_none (by rw [← h.len]; omega), rfl⟩

theorem optimize_holds {N : Nat} {m0 m : Heap α} {v : V α} {xs : List α} (h : Holds N m0 v m xs) :
    ∃ v' m', v.optimize N m = .ok (v', m') ∧ Holds N m0 v' m' xs ∧ m'.dropped = m.dropped := by
  unfold V.optimize
  split
  · exact ⟨v, m, rfl, h, rfl⟩
  · rename_i hno
    simp only [Bool.or_eq_true, not_or, beq_iff_eq] at hno
    have hos : v.onStack N = false := by simpa using hno.1
    have hplace := h.place
    rcases hplace with ⟨hc, _⟩ | ⟨hc, p, b, hd, hb, hl, ht, h0, hm⟩
    · simp [V.onStack, hc] at hos
    · rw [hd]
      simp only [Heap.deref, hb, Out.ok_bind]
      split
      · rename_i hle
        obtain ⟨b', hcp, hl', ht'⟩ := copyTo_prefix (dst := List.replicate N none) ht
          (by rw [List.length_replicate, ← h.len]; exact hle)
        rw [h.len, hcp]
        simp only [Out.ok_bind]
        rw [dealloc_ok hb hl (by omega)]
        refine ⟨_, _, rfl, ⟨rfl, ?_, .inl ⟨rfl, b', rfl, by simpa using hl', ht', ?_⟩⟩, rfl⟩
        · intro i hi
          simp only [Heap.set]
          split
          · rfl
          · exact h.fresh i hi
        · funext q
          simp only [Heap.set]
          split
          · rename_i hq; subst hq; exact h0.symm
          · rename_i hq; exact hm q hq
      · rename_i hgt
        have hle := take_map_length ht
        obtain ⟨b', hcp, hl', ht'⟩ := copyTo_prefix (dst := List.replicate v.l none) ht
          (by rw [List.length_replicate, h.len]; exact Nat.le_refl _)
        rw [List.length_replicate] at hl'
        obtain ⟨m1, p1, ha, hder, hsl, hdr, _, hhp⟩ := holds_heap h (n := v.l) (by omega) hl' ht'
        obtain ⟨_, m2, hde, hd2, hh⟩ := hhp _ hd hos
        have hder' : m1.blocks p1 = some (List.replicate v.l none) := by
          unfold Heap.deref at hder
          cases hx : m1.blocks p1 with
          | none => simp [hx] at hder
          | some c => simp only [hx, Out.ok.injEq] at hder; rw [hder]
        simp only [ha, hder', Out.ok_bind]
        rw [show copyTo b (List.replicate v.l none) v.l = .ok b' by rw [← hcp, h.len], Out.ok_bind, hde]
        exact ⟨_, _, rfl, hh, hd2⟩

theorem drop_holds {N : Nat} {m0 m : Heap α} {v : V α} {xs : List α} (h : Holds N m0 v m xs) :
    ∃ m', v.drop N m = .ok m' ∧ m'.blocks = m0.blocks ∧ m'.dropped = m.dropped ++ xs := by
  obtain ⟨b, hb, hl, ht⟩ := h.slots
  unfold V.drop
  rw [hb, Out.ok_bind, h.len, dropSlice_prefix ht, Out.ok_bind]
  rcases h.place with ⟨hc, b, hd, hl, ht, hm⟩ | ⟨hc, p, b, hd, hb, hl, ht, h0, hm⟩
  · rw [if_pos (by simp [V.onStack, hc])]
    exact ⟨_, rfl, hm, rfl⟩
  · rw [if_neg (by simp [V.onStack]; omega), hd]
    dsimp only
    rw [dealloc_ok (m := { m with dropped := m.dropped ++ xs }) (b := b) hb hl (by omega)]
    refine ⟨_, rfl, ?_, rfl⟩
    funext q
    simp only [Heap.set]
    split
    · rename_i hq; subst hq; exact h0.symm
    · rename_i hq; exact hm q hq

theorem step_holds {N : Nat} {m0 m : Heap α} {v : V α} {xs : List α} (hN : 0 < N) (h : Holds N m0 v m xs) (op : Op α)
    (s : Spec α) (hs : s.items = xs) :
    (s.step op = none ∧ v.step N m op = .panic) ∨
    ∃ s' r v' m', s.step op = some s' ∧ v.step N m op = .ok (r, v', m') ∧ Holds N m0 v' m' s'.items ∧
      s'.returned = s.returned ++ r ∧ ∃ d, s'.dropped = s.dropped ++ d ∧ m'.dropped = m.dropped ++ d := by
  subst hs
  cases op with
  | push x =>
    obtain ⟨v', m', e, hh, hd⟩ := push_holds hN h x
    exact .inr ⟨_, [], v', m', rfl, by simp [V.step, e], hh, by simp, [], by simp, by simp [hd]⟩
  | extend ys =>
    obtain ⟨v', m', e, hh, hd⟩ := extend_holds hN h ys
    exact .inr ⟨_, [], v', m', rfl, by simp [V.step, e], hh, by simp, [], by simp, by simp [hd]⟩
  | remove i =>
    rcases remove_holds h i with ⟨hx, e⟩ | ⟨x, v', m', hx, e, hh, hd⟩
    · exact .inl ⟨by simp [Spec.step, hx], by simp only [V.step, e]; rfl⟩
    · exact .inr ⟨{ s with items := s.items.eraseIdx i, returned := s.returned ++ [x] }, [x], v', m',
        by simp only [Spec.step, hx], by simp only [V.step, e]; rfl, hh, rfl, [], by simp, by simp [hd]⟩
  | removeCompact i =>
    rcases remove_holds h i with ⟨hx, e⟩ | ⟨x, v1, m1, hx, e, h1, hd1⟩
    · exact .inl ⟨by simp [Spec.step, hx], by simp only [V.step, V.removeCompact, e]; rfl⟩
    · obtain ⟨v', m', e2, hh, hd⟩ := optimize_holds h1
      exact .inr ⟨{ s with items := s.items.eraseIdx i, returned := s.returned ++ [x] }, [x], v', m',
        by simp only [Spec.step, hx],
        by simp only [V.step, V.removeCompact, e, e2, Out.ok_bind], hh, rfl, [], by simp, by simp [hd, hd1]⟩
  | optimize =>
    obtain ⟨v', m', e, hh, hd⟩ := optimize_holds h
    exact .inr ⟨_, [], v', m', rfl, by simp [V.step, e], hh, by simp, [], by simp, by simp [hd]⟩
  | clear =>
    obtain ⟨v', m', e, hh, hd⟩ := clear_holds h
    exact .inr ⟨_, [], v', m', rfl, by simp [V.step, e], hh, by simp, s.items, rfl, hd⟩

theorem run_holds {N : Nat} {m0 : Heap α} (hN : 0 < N) (ops : List (Op α)) {m : Heap α} {v : V α} (s : Spec α)
    (h : Holds N m0 v m s.items) :
    ∃ r v' m', v.run N m ops = some (r, v', m') ∧ Holds N m0 v' m' (s.run ops).items ∧
      (s.run ops).returned = s.returned ++ r ∧ ∃ d, (s.run ops).dropped = s.dropped ++ d ∧
      m'.dropped = m.dropped ++ d := by
  induction ops generalizing m v s with
  | nil => exact ⟨[], v, m, rfl, h, by simp [Spec.run], [], by simp [Spec.run], by simp⟩
  | cons op ops ih =>
    rcases step_holds hN h op s rfl with ⟨e1, e2⟩ | ⟨s', r, v', m', e1, e2, hh, hr, d, hd1, hd2⟩
    · obtain ⟨r, v', m', e, x⟩ := ih s h
      refine ⟨r, v', m', ?_, ?_⟩
      · unfold V.run; rw [e2]; exact e
      · unfold Spec.run; rw [e1]; exact x
    · obtain ⟨r2, v2, m2, e, hh2, hr2, d2, hd3, hd4⟩ := ih s' hh
      refine ⟨r ++ r2, v2, m2, ?_, ?_⟩
      · unfold V.run; rw [e2]; dsimp only; rw [e]; rfl
      · unfold Spec.run
        rw [e1]
        exact ⟨hh2, by simp [hr2, hr], d ++ d2, by simp [hd3, hd1], by simp [hd4, hd2]⟩

/-- **C52, vectors with inline elements.** Whatever is done with such a vector through its safe
interface, and however often it moves between its inline slots and the heap: no operation has undefined
behaviour; its elements are those of a list on which the same was done; the same elements are handed
back and the same operations panic; and when it is dropped, the memory has exactly the blocks it had
before, and the destructors have run for exactly those elements for which they should. -/
theorem C52_vinline (N : Nat) (hN : 0 < N) (m0 : Heap α) (h0 : m0.Fresh) (ops : List (Op α)) :
    let s := Spec.run {} ops
    ∃ v m, (new N).run N m0 ops = some (s.returned, v, m) ∧ v.read N m = .ok s.items ∧
      m.dropped = m0.dropped ++ s.dropped ∧
      ∃ m', v.drop N m = .ok m' ∧ m'.blocks = m0.blocks ∧ m'.dropped = m0.dropped ++ s.dropped ++ s.items := by
  obtain ⟨r, v, m, e, h, hr, d, hd1, hd2⟩ := run_holds hN ops {} (holds_new N m0 h0)
  obtain ⟨m', e', hb, hd⟩ := drop_holds h
  have hd1 : (Spec.run {} ops).dropped = d := by simpa using hd1
  have hr : (Spec.run {} ops).returned = r := by simpa using hr
  refine ⟨v, m, by rw [hr]; exact e, read_holds h, by rw [hd2, hd1], m', e', hb, by rw [hd, hd2, hd1]⟩

theorem spec_step_perm (s s' : Spec α) (op : Op α) (h : s.step op = some s') :
    (s'.items ++ s'.returned ++ s'.dropped).Perm (s.items ++ s.returned ++ s.dropped ++ op.put) := by
  have rem (i : Nat) (s' : Spec α) (x : α) (hx : s.items[i]? = some x)
      (e : s' = { s with items := s.items.eraseIdx i, returned := s.returned ++ [x] }) :
      (s'.items ++ s'.returned ++ s'.dropped).Perm (s.items ++ s.returned ++ s.dropped) := by
    subst e
    obtain ⟨hi, rfl⟩ := List.getElem?_eq_some_iff.1 hx
    refine List.Perm.append_right _ ?_
    dsimp only
    rw [← List.append_assoc]
    refine (List.perm_append_singleton _ _).trans ?_
    rw [← List.cons_append]
    refine List.Perm.append_right _ ?_
    conv => rhs; rw [← List.take_append_drop i s.items, List.drop_eq_getElem_cons hi]
    rw [List.eraseIdx_eq_take_drop_succ]
    exact List.perm_middle.symm
  cases op with
  | push x =>
    injection h with h; subst h
    simp only [Op.put, List.append_assoc]
    refine List.Perm.append_left _ ?_
    rw [← List.append_assoc s.returned]
    exact List.perm_append_comm
  | extend xs =>
    injection h with h; subst h
    simp only [Op.put, List.append_assoc]
    refine List.Perm.append_left _ ?_
    rw [← List.append_assoc s.returned]
    exact List.perm_append_comm
  | remove i =>
    simp only [Spec.step] at h
    cases hx : s.items[i]? with
    | none => simp [hx] at h
    | some x => simp only [hx, Option.some.injEq] at h; simpa [Op.put] using rem i s' x hx h.symm
  | removeCompact i =>
    simp only [Spec.step] at h
    cases hx : s.items[i]? with
    | none => simp [hx] at h
    | some x => simp only [hx, Option.some.injEq] at h; simpa [Op.put] using rem i s' x hx h.symm
  | optimize => injection h with h; subst h; simp [Op.put]
  | clear =>
    injection h with h; subst h
    simp only [Op.put, List.append_nil, List.nil_append]
    rw [← List.append_assoc, List.append_assoc s.items]
    exact List.perm_append_comm

theorem spec_run_perm (ops : List (Op α)) (s : Spec α) :
    ((s.run ops).items ++ (s.run ops).returned ++ (s.run ops).dropped).Perm
      (s.items ++ s.returned ++ s.dropped ++ ops.flatMap Op.put) := by
  induction ops generalizing s with
  | nil => simp [Spec.run]
  | cons op ops ih =>
    unfold Spec.run
    rw [List.flatMap_cons, ← List.append_assoc]
    cases h : s.step op with
    | some s' =>
      exact (ih s').trans (List.Perm.append_right _ (spec_step_perm s s' op h))
    | none =>
      have hp : op.put = [] := by
        cases op <;> first | rfl | (simp [Spec.step] at h)
      rw [hp, List.append_nil]
      exact ih s

/-- The specification neither loses nor doubles an element: what was put in is, up to the order, what is
in the list, what was handed back and what was destroyed. -/
theorem C52_nothing_lost_or_doubled (ops : List (Op α)) :
    ((Spec.run {} ops).items ++ (Spec.run {} ops).returned ++ (Spec.run {} ops).dropped).Perm
      (ops.flatMap Op.put) := by
  simpa using spec_run_perm ops {}

/-! ### The iterator -/

/-- The end from which an element is taken. -/
inductive End where
  | front
  | back

/-- Taking an element from an end of a list. -/
def End.take (l : List α) : End → Option α × List α
  | .front => (l.head?, l.tail)
  | .back => (l.getLast?, l.dropLast)

/-- Taking elements, one after another. -/
def takes : List α → List End → List (Option α) × List α
  | l, [] => ([], l)
  | l, e :: es => ((e.take l).1 :: (takes (e.take l).2 es).1, (takes (e.take l).2 es).2)

/-- The same with the iterator of the code. -/
def Iter.takes (N : Nat) (niche : Bool) (junk : Option α → Option α → Option α) (m : Heap α) :
    Iter α → List End → Out (List (Option α) × Iter α)
  | it, [] => .ok ([], it)
  | it, e :: es => do
    let (x, it) ← match e with
      | .front => it.next N niche junk m
      | .back => it.nextBack N niche junk m
    let (xs, it) ← Iter.takes N niche junk m it es
    .ok (x :: xs, it)

/-- The iterator still has the elements `ys`. -/
structure Has (N : Nat) (m0 : Heap α) (it : Iter α) (m : Heap α) (ys : List α) : Prop where
  v : Holds N m0 it.v m []
  b : ∃ b, it.v.slots N m = .ok b ∧ (b.drop it.i).take ys.length = ys.map some ∧ it.l = it.i + ys.length ∧ it.l ≤ b.length

theorem intoIter_has {N : Nat} {m0 m : Heap α} {v : V α} {xs : List α} (h : Holds N m0 v m xs) :
    Has N m0 v.intoIter m xs := by
  obtain ⟨b, hb, hl, ht⟩ := h.slots
  refine ⟨⟨rfl, h.fresh, ?_⟩, b, hb, by simpa [V.intoIter] using ht, by simp [V.intoIter, h.len], ?_⟩
  · rcases h.place with ⟨hc, b, hd, hl, ht, hm⟩ | ⟨hc, p, b, hd, hb, hl, ht, h0, hm⟩
    · exact .inl ⟨hc, b, hd, hl, by simp, hm⟩
    · exact .inr ⟨hc, p, b, hd, hb, hl, by simp, h0, hm⟩
  · have := take_map_length ht
    simp only [V.intoIter, h.len]
    exact this

theorem slot_of {b : Slots α} {i : Nat} {ys : List α} (h : (b.drop i).take ys.length = ys.map some) {j : Nat}
    (hj : j < ys.length) : readSlot b (i + j) = .ok ys[j] := by
  have h1 := congrArg (fun l => l[j]?) h
  simp only [List.getElem?_map, List.getElem?_eq_getElem hj, Option.map_some] at h1
  rw [List.getElem?_take_of_lt hj, List.getElem?_drop] at h1
  unfold readSlot
  rw [h1]

theorem take_has {N : Nat} {junk : Option α → Option α → Option α} {m0 m : Heap α} {it : Iter α} {ys : List α}
    (h : Has N m0 it m ys) (e : End) :
    ∃ it', (match e with
      | .front => it.next N true junk m
      | .back => it.nextBack N true junk m) = .ok ((e.take ys).1, it') ∧ Has N m0 it' m (e.take ys).2 := by
  obtain ⟨b, hb, ht, hl, hle⟩ := h.b
  cases e with
  | front =>
    cases ys with
    | nil => exact ⟨it, by simp only [List.length_nil, Nat.add_zero] at hl; simp [Iter.next, hl, End.take], h⟩
    | cons y ys =>
      have hr := slot_of ht (j := 0) (by simp)
      simp only [List.length_cons] at hl
      refine ⟨{ it with i := it.i + 1 }, ?_, h.v, b, hb, ?_, by simp only [End.take, List.tail_cons]; omega, hle⟩
      · unfold Iter.next
        dsimp only
        rw [if_neg (by omega), hb]
        simp only [Out.ok_bind, readOption, if_true]
        rw [show it.i = it.i + 0 from rfl, hr]
        rfl
      · simp only [End.take, List.tail_cons]
        have := congrArg List.tail ht
        rw [List.length_cons, List.drop_eq_getElem_cons (by omega), List.take_succ_cons] at this
        exact this
  | back =>
    by_cases hys : ys = []
    · subst hys
      exact ⟨it, by simp only [List.length_nil, Nat.add_zero] at hl; simp [Iter.nextBack, hl, End.take], h⟩
    · have hpos : 0 < ys.length := List.length_pos_iff.2 hys
      have hr := slot_of ht (j := ys.length - 1) (by omega)
      refine ⟨{ it with l := it.l - 1 }, ?_, h.v, b, hb, ?_, by simp only [End.take, List.length_dropLast]; omega,
        by dsimp only; omega⟩
      · unfold Iter.nextBack
        dsimp only
        rw [if_neg (by omega), hb]
        simp only [Out.ok_bind, readOption, if_true]
        rw [show it.l - 1 = it.i + (ys.length - 1) by omega, hr]
        simp [End.take, List.getLast?_eq_getElem?, List.getElem?_eq_getElem (show ys.length - 1 < ys.length by omega)]
      · simp only [End.take, List.length_dropLast]
        have := congrArg (List.take (ys.length - 1)) ht
        rw [List.take_take, ← List.map_take, show min (ys.length - 1) ys.length = ys.length - 1 by omega,
          ← List.dropLast_eq_take] at this
        exact this

theorem takes_has {N : Nat} {junk : Option α → Option α → Option α} {m0 m : Heap α} (es : List End) {it : Iter α}
    {ys : List α} (h : Has N m0 it m ys) :
    ∃ it', it.takes N true junk m es = .ok ((takes ys es).1, it') ∧ Has N m0 it' m (takes ys es).2 := by
  induction es generalizing it ys with
  | nil => exact ⟨it, rfl, h⟩
  | cons e es ih =>
    obtain ⟨it1, e1, h1⟩ := take_has (junk := junk) h e
    obtain ⟨it2, e2, h2⟩ := ih h1
    refine ⟨it2, ?_, h2⟩
    cases e <;> (unfold Iter.takes; dsimp only at e1 ⊢; rw [e1]; simp only [Out.ok_bind]; rw [e2]; rfl)

theorem iter_drop {N : Nat} {m0 m : Heap α} {it : Iter α} {ys : List α} (h : Has N m0 it m ys) :
    ∃ m', it.drop N m = .ok m' ∧ m'.blocks = m0.blocks ∧ m'.dropped = m.dropped ++ ys := by
  obtain ⟨b, hb, ht, hl, hle⟩ := h.b
  unfold Iter.drop
  split
  · rw [hb]
    simp only [Out.ok_bind]
    unfold dropSlice
    rw [show it.l - it.i = ys.length by omega, slice_of it.i ht (by omega)]
    simp only [Out.ok_bind]
    have hv : Holds N m0 it.v { m with dropped := m.dropped ++ ys } [] :=
      ⟨h.v.len, h.v.fresh, h.v.place⟩
    obtain ⟨m', e, hb, hd⟩ := drop_holds hv
    exact ⟨m', e, hb, by rw [hd]; simp⟩
  · have : ys = [] := List.eq_nil_of_length_eq_zero (by omega)
    subst this
    obtain ⟨m', e, hb, hd⟩ := drop_holds h.v
    exact ⟨m', e, hb, by rw [hd]⟩

/-- **C52, iterators over such vectors, in part**: for elements whose type has a bit pattern to spare
(references, boxes, strings, vectors, the rows and nodes of the engine). After any history of the vector
its iterator hands out the elements from both ends in any order, each once, and then `None`; when it is
dropped, the destructors of the remaining elements run and the memory is what it was before. -/
theorem C52_vinline_iter_partial (N : Nat) (hN : 0 < N) (m0 : Heap α) (h0 : m0.Fresh) (ops : List (Op α))
    (es : List End) (junk : Option α → Option α → Option α) :
    let s := Spec.run {} ops
    ∃ v m it m', (new N).run N m0 ops = some (s.returned, v, m) ∧
      v.intoIter.takes N true junk m es = .ok ((takes s.items es).1, it) ∧ it.drop N m = .ok m' ∧
      m'.blocks = m0.blocks ∧ m'.dropped = m0.dropped ++ s.dropped ++ (takes s.items es).2 := by
  obtain ⟨r, v, m, e, h, hr, d, hd1, hd2⟩ := run_holds hN ops {} (holds_new N m0 h0)
  obtain ⟨it, et, hit⟩ := takes_has (junk := junk) es (intoIter_has h)
  obtain ⟨m', e', hb, hd⟩ := iter_drop hit
  have hd1 : (Spec.run {} ops).dropped = d := by simpa using hd1
  have hr : (Spec.run {} ops).returned = r := by simpa using hr
  exact ⟨v, m, it, m', by rw [hr]; exact e, et, e', hb, by rw [hd, hd2, hd1]⟩

/-- An empty memory. -/
def empty : Heap α := { blocks := fun _ => none, next := 0, dropped := [] }

/-- **C52 is violated for elements without a spare bit pattern**, for instance integers: the iterator
reads the memory of an element as if it were an `Option`, which is larger. In a vector that is full, the
read of the last element goes past the end of the vector. -/
theorem C52_vinline_iter_violated :
    ∃ v m, (new 1).run (α := Nat) 1 empty [.push 7] = some ([], v, m) ∧ v.read 1 m = .ok [7] ∧
      ∀ junk, v.intoIter.takes 1 false junk m [.front] = .ub := by
  refine ⟨_, _, rfl, rfl, fun junk => rfl⟩

/-- And if the vector has room left, then what comes out is not the element but whatever the tag of the
`Option` and the bytes behind it make of it: even `None`. -/
theorem C52_vinline_iter_wrong_violated :
    ∃ v m junk it, (new 2).run (α := Nat) 2 empty [.push 7] = some ([], v, m) ∧ v.read 2 m = .ok [7] ∧
      v.intoIter.takes 2 false junk m [.front] = .ok ([none], it) :=
  ⟨_, _, fun _ _ => none, _, rfl, rfl, rfl⟩

/-! ### Cases -/

/-- A history that moves to the heap, grows there, shrinks there, comes back and panics once. -/
def exOps : List (Op Nat) :=
  [.push 1, .extend [2, 3, 4], .remove 1, .remove 9, .optimize, .push 5, .removeCompact 0, .removeCompact 0,
   .removeCompact 0, .optimize, .push 6, .clear, .push 7]

example : Spec.run {} exOps = { items := [7], returned := [2, 1, 3, 4], dropped := [5, 6] } := by rfl

example : ((new 1).run 1 empty exOps).map (fun x => (x.1, (x.2.1.read 1 x.2.2 : Out (List Nat)), x.2.2.dropped)) =
    some ([2, 1, 3, 4], .ok [7], [5, 6]) := by rfl

-- it is on the heap in between, and the blocks are given back
example : ((new 1).run 1 empty (exOps.take 2)).map (fun x => (x.2.1.c, x.2.2.next)) = some (4, 2) := by rfl
example : (((new 1).run 1 empty (exOps.take 2)).bind fun x => match x.2.1.drop 1 x.2.2 with
    | .ok m => some (m.blocks 0, m.blocks 1, m.dropped) | _ => none) = some (none, none, [1, 2, 3, 4]) := by rfl

example : (takes [1, 2, 3, 4] [.front, .back, .back]) = ([some 1, some 4, some 3], [2]) := by rfl

end Verif.Mem.VInline
