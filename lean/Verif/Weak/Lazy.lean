/-
The value that is initialised when it is first used (`Lazy`, sync/cell.rs:40-137 in /repo/server/src/engine) without the
assumption that memory is sequentially consistent. C80.

The memory is as in `Verif.Weak.Queue`: the pointer `value` is the list of all values that were written to it, each with the
view that the writer released with it; a load returns any of them that is not older than what the thread has seen. The flag
`init_state` is only accessed by operations that read and write, so that only its newest value counts, with the view that it
carries; an exchange that fails may read an old value, so it is allowed at any time and brings no knowledge. A view says how
much of `value` was seen and which initialisations happened before.

Simplifications: `SeqCst` is taken as acquire and release, which is weaker, so that fewer executions are excluded; the waiting
time in the loop (`Backoff`) has no effect; the initialiser does not use the same `Lazy` again (it would wait for itself).
-/
namespace Verif.Weak.Lazy

/-- What happened before. -/
structure View where
  val : Nat := 0
  obj : List Nat := []
  deriving DecidableEq, Repr

def View.join (v w : View) : View := ⟨max v.val w.val, w.obj ++ v.obj⟩

/-- A value of the pointer, with the view that came with it. -/
structure Msg where
  ptr : Option Nat
  view : View
  deriving DecidableEq, Repr

/-- Which accesses acquire and which release. -/
structure Ords where
  /-- the load before the loop (line 73) -/
  ld1 : Bool
  /-- the exchange in the loop (line 87) -/
  casAcq : Bool
  casRel : Bool
  /-- the load after the loop (line 97) -/
  ld2 : Bool
  /-- the swap of the pointer (line 112) -/
  swpAcq : Bool
  swpRel : Bool
  /-- the swap of the flag (lines 100, 114) -/
  endAcq : Bool
  endRel : Bool
  deriving DecidableEq, Repr

/-- `ORD_ACQ` for the loads, `ORD_SEQ` for all others (sync/cell.rs:73, 87, 97, 100, 112, 114). -/
def code : Ords := ⟨true, true, true, true, true, true, true, true⟩

/-- Where a thread is in `deref` (sync/cell.rs:72-121). -/
inductive Pc where
  | idle
  /-- about to load the pointer (line 73) -/
  | ld1
  /-- about to try to set the flag (lines 85-92) -/
  | cas
  /-- the flag is set; about to load the pointer again (line 97) -/
  | ld2
  /-- about to run the initialiser (lines 109-110) -/
  | ini
  /-- about to swap the pointer (line 112) -/
  | swp (p : Nat)
  /-- about to swap the flag (lines 100, 114) -/
  | fin (p : Nat)
  /-- returned the reference; the caller may use it -/
  | has (p : Nat)
  /-- the initialiser panicked -/
  | boom
  /-- an `assert!` failed -/
  | failed
  /-- the value was used and its initialisation does not happen before -/
  | race
  deriving DecidableEq, Repr

structure Thr where
  pc : Pc := .idle
  view : View := {}
  deriving DecidableEq, Repr

structure St where
  /-- all values of the pointer; null at first (sync/cell.rs:60) -/
  value : List Msg := [⟨none, {}⟩]
  /-- the flag (sync/cell.rs:62) and its view -/
  flag : Bool := false
  fview : View := {}
  /-- number of values that the initialiser made -/
  made : Nat := 0
  thr : List Thr
  dropped : Bool := false
  /-- what was given back -/
  freed : List Nat := []
  deriving DecidableEq, Repr

/-- `Lazy::new` (sync/cell.rs:58-64), for `n` threads. -/
def St.new (n : Nat) : St := { thr := List.replicate n {} }

inductive Act where
  /-- the thread calls `deref` -/
  | call (t : Nat)
  /-- its next access; `i`: which value a load returns; an exchange fails unless `i = 0` -/
  | go (t i : Nat)
  /-- its initialiser panics -/
  | panic (t : Nat)
  /-- it uses the reference that it got -/
  | use (t : Nat)
  /-- it gives the reference up -/
  | ret (t : Nat)
  /-- it learns all that happened before the next access of `u`, in any way -/
  | sync (t u : Nat)
  /-- the `Lazy` is dropped; the language guarantees that nobody uses it and that all accesses happened before -/
  | drop
  deriving DecidableEq, Repr

/-- An access that acquires adds the view to that of the thread. -/
def got (acq : Bool) (v m : View) : View := if acq then v.join m else v

/-- The view of a value after an operation that reads and writes: the one before it is kept (release sequence), a release adds
that of the thread. -/
def left (rel : Bool) (m v : View) : View := if rel then m.join v else m

/-- The newest value of the pointer. -/
def last (s : St) : Msg := s.value.getLastD ⟨none, {}⟩

/-- The thread may drop the `Lazy` only if no thread is in such a state. -/
def Pc.uses : Pc → Bool
  | .idle | .boom | .failed | .race => false
  | _ => true

def St.at (s : St) (t : Nat) (x : Thr) : St := { s with thr := s.thr.set t x }

/-- The next access of `deref` (sync/cell.rs:72-121). -/
def goPc (o : Ords) (s : St) (t i : Nat) (v : View) : Pc → Option St
  | .ld1 =>
    match s.value[i]? with
    | some m =>
      if v.val ≤ i then
        some (s.at t ⟨match m.ptr with | some p => .has p | none => .cas, got o.ld1 { v with val := i } m.view⟩)
      else none
    | none => none
  | .cas =>
    if i ≠ 0 then some s
    else if s.flag then none
    else some { s.at t ⟨.ld2, got o.casAcq v s.fview⟩ with flag := true, fview := left o.casRel s.fview (got o.casAcq v s.fview) }
  | .ld2 =>
    match s.value[i]? with
    | some m =>
      if v.val ≤ i then
        some (s.at t ⟨match m.ptr with | some p => .fin p | none => .ini, got o.ld2 { v with val := i } m.view⟩)
      else none
    | none => none
  | .ini => some { s.at t ⟨.swp s.made, { v with obj := s.made :: v.obj }⟩ with made := s.made + 1 }
  | .swp p =>
    let v' := { got o.swpAcq v (last s).view with val := s.value.length }
    some { s.at t ⟨match (last s).ptr with | none => .fin p | some _ => .failed, v'⟩ with
      value := s.value ++ [⟨some p, left o.swpRel (last s).view v'⟩] }
  | .fin p =>
    let v' := got o.endAcq v s.fview
    some { s.at t ⟨if s.flag then .has p else .failed, v'⟩ with flag := false, fview := left o.endRel s.fview v' }
  | _ => none

/-- `Drop` (sync/cell.rs:124-137): the value is given back only if its type has something to drop. -/
def dropped (nd : Bool) (s : St) : St :=
  { s with dropped := true, freed := s.freed ++ if nd then (last s).ptr.toList else [] }

/-- One thing happens; `none`: it is not possible. `nd` is `mem::needs_drop::<T>()`. -/
def exec (nd : Bool) (o : Ords) (s : St) : Act → Option St
  | .call t =>
    match s.thr[t]? with
    | some ⟨.idle, v⟩ => if s.dropped then none else some (s.at t ⟨.ld1, v⟩)
    | _ => none
  | .go t i =>
    match s.thr[t]? with
    | some ⟨pc, v⟩ => goPc o s t i v pc
    | none => none
  | .panic t =>
    match s.thr[t]? with
    | some ⟨.ini, v⟩ => some (s.at t ⟨.boom, v⟩)
    | _ => none
  | .use t =>
    match s.thr[t]? with
    | some ⟨.has p, v⟩ => some (s.at t ⟨if v.obj.contains p then .has p else .race, v⟩)
    | _ => none
  | .ret t =>
    match s.thr[t]? with
    | some ⟨.has _, v⟩ => some (s.at t ⟨.idle, v⟩)
    | _ => none
  | .sync t u =>
    match s.thr[t]?, s.thr[u]? with
    | some ⟨pc, v⟩, some ⟨_, w⟩ => some (s.at t ⟨pc, v.join w⟩)
    | _, _ => none
  | .drop => if s.dropped ∨ s.thr.any (fun x => x.pc.uses) then none else some (dropped nd s)

def run (nd : Bool) (o : Ords) : St → List Act → Option St
  | s, [] => some s
  | s, a :: as =>
    match exec nd o s a with
    | none => none
    | some s => run nd o s as

/-! ### Invariant -/

/-- The orderings on which the code relies. -/
def Enough (o : Ords) : Prop := o.ld1 = true ∧ o.casAcq = true ∧ o.swpRel = true ∧ o.endRel = true

/-- The thread is between the two accesses of the flag. -/
def Pc.inside : Pc → Bool
  | .ld2 | .ini | .swp _ | .fin _ | .boom => true
  | _ => false

/-- The pointer that is stored. -/
def St.stored (s : St) : Option Nat := (last s).ptr

/-- The view knows the newest value of the pointer, and the initialisation of what it points to. -/
structure Top (s : St) (v : View) : Prop where
  val : v.val + 1 = s.value.length
  obj : ∀ p, s.stored = some p → p ∈ v.obj

/-- What holds for each thread. -/
structure OkT (s : St) (x : Thr) : Prop where
  val : x.view.val < s.value.length
  top : x.pc.inside = true → s.flag = true ∧ Top s x.view
  nul : x.pc = .ini ∨ x.pc = .boom ∨ (∃ p, x.pc = .swp p) → s.stored = none
  ini : x.pc = .ini ∨ x.pc = .boom → s.made = 0
  swp : ∀ p, x.pc = .swp p → p = 0 ∧ s.made = 1 ∧ p ∈ x.view.obj
  ref : ∀ p, x.pc = .fin p ∨ x.pc = .has p → s.stored = some p ∧ p ∈ x.view.obj
  good : x.pc ≠ .failed ∧ x.pc ≠ .race

structure Inv (s : St) : Prop where
  hist : s.value = [⟨none, {}⟩] ∨ ∃ w, s.value = [⟨none, {}⟩, ⟨some 0, w⟩] ∧ 0 ∈ w.obj ∧ w.val < 2 ∧ s.made = 1
  made : s.stored = none → (∀ x ∈ s.thr, ∀ p, x.pc ≠ .swp p) → s.made = 0
  fval : s.fview.val < s.value.length
  free : s.flag = false → Top s s.fview ∧ ∀ x ∈ s.thr, x.pc.inside = false
  held : s.flag = true → ∃ x ∈ s.thr, x.pc.inside = true
  one : ∀ (t u : Nat) (x y : Thr), s.thr[t]? = some x → s.thr[u]? = some y → x.pc.inside = true → y.pc.inside = true → t = u
  thr : ∀ x ∈ s.thr, OkT s x

theorem new_inv (n : Nat) : Inv (.new n) where
  hist := .inl rfl
  made _ _ := rfl
  fval := by simp [St.new]
  free _ := ⟨⟨rfl, fun p h => by cases h⟩, fun x h => by
    simp only [St.new, List.mem_replicate] at h
    rw [h.2]
    rfl⟩
  held h := by cases h
  one t u x y h1 _ h3 _ := by
    simp only [St.new, List.getElem?_replicate] at h1
    split at h1 <;> cases h1
    cases h3
  thr x h := by
    simp only [St.new, List.mem_replicate] at h
    rw [h.2]
    constructor <;> simp [St.new, Pc.inside]

/-- Nothing changes for a thread that is not between the accesses of the flag. -/
theorem OkT.mono {s s' : St} {y : Thr} (h : OkT s y) (hi : y.pc.inside = false) (hl : s.value.length ≤ s'.value.length)
    (hs : ∀ p, s.stored = some p → s'.stored = some p) : OkT s' y where
  val := Nat.lt_of_lt_of_le h.val hl
  top e := by rw [hi] at e; cases e
  nul e := by
    rcases e with e | e | ⟨p, e⟩ <;> rw [e] at hi <;> cases hi
  ini e := by rcases e with e | e <;> rw [e] at hi <;> cases hi
  swp p e := by rw [e] at hi; cases hi
  ref p e := by
    rcases e with e | e
    · rw [e] at hi; cases hi
    · exact ⟨hs p (h.ref p (.inr e)).1, (h.ref p (.inr e)).2⟩
  good := h.good

/-- The same memory: nothing changes for any thread. -/
theorem OkT.same {s s' : St} {y : Thr} (h : OkT s y) (hv : s'.value = s.value) (hf : s'.flag = s.flag) (hm : s'.made = s.made) :
    OkT s' y := by
  obtain ⟨h1, h2, h3, h4, h5, h6, h7⟩ := h
  have hs : s'.stored = s.stored := by simp only [St.stored, last, hv]
  refine ⟨by rw [hv]; exact h1, fun e => ?_, fun e => by rw [hs]; exact h3 e, fun e => by rw [hm]; exact h4 e,
    fun p e => by rw [hm]; exact h5 p e, fun p e => by rw [hs]; exact h6 p e, h7⟩
  obtain ⟨a, b⟩ := h2 e
  exact ⟨by rw [hf]; exact a, ⟨by rw [hv]; exact b.val, by rw [hs]; exact b.obj⟩⟩

theorem get_set {l : List Thr} {t u : Nat} {x y : Thr} (h : (l.set t x)[u]? = some y) : (t = u ∧ y = x) ∨ (t ≠ u ∧ l[u]? = some y) := by
  by_cases e : t = u
  · subst e
    rw [List.getElem?_set] at h
    simp only [if_true] at h
    split at h
    · cases h; exact .inl ⟨rfl, rfl⟩
    · cases h
  · rw [List.getElem?_set_ne e] at h
    exact .inr ⟨e, h⟩

theorem mem_get {l : List Thr} {x : Thr} (h : x ∈ l) : ∃ t : Nat, l[t]? = some x := List.mem_iff_getElem?.1 h

theorem get_mem {l : List Thr} {x : Thr} {t : Nat} (h : l[t]? = some x) : x ∈ l := List.mem_of_getElem? h

theorem set_self {l : List Thr} {t : Nat} {x y : Thr} (h : l[t]? = some x) : (l.set t y)[t]? = some y := by
  have := (List.getElem?_eq_some_iff.1 h).1
  simp [this]

theorem set_ne {l : List Thr} {t u : Nat} {y z : Thr} (h : l[u]? = some z) (e : t ≠ u) : (l.set t y)[u]? = some z := by
  rw [List.getElem?_set_ne e]
  exact h

/-- A thread takes a step that does not change the memory and stays on its side of the flag. -/
theorem Inv.quiet {s : St} (h : Inv s) {t : Nat} {x y : Thr} (hx : s.thr[t]? = some x) (hi : y.pc.inside = x.pc.inside)
    (hsw : ∀ p, x.pc = .swp p → y.pc = .swp p) (hy : OkT s y) : Inv (s.at t y) where
  hist := h.hist
  made a b := by
    refine h.made a fun z hz p e => ?_
    obtain ⟨u, hu⟩ := mem_get hz
    by_cases htu : t = u
    · subst htu
      rw [hx] at hu
      cases hu
      exact b y (get_mem (set_self hx)) p (hsw p e)
    · exact b z (get_mem (set_ne hu htu)) p e
  fval := h.fval
  free e := by
    refine ⟨⟨(h.free e).1.val, (h.free e).1.obj⟩, fun z hz => ?_⟩
    obtain ⟨u, hu⟩ := mem_get hz
    rcases get_set hu with ⟨_, rfl⟩ | ⟨_, h2⟩
    · rw [hi]; exact (h.free e).2 x (get_mem hx)
    · exact (h.free e).2 z (get_mem h2)
  held e := by
    obtain ⟨z, hz, hin⟩ := h.held e
    obtain ⟨u, hu⟩ := mem_get hz
    by_cases htu : t = u
    · subst htu
      rw [hx] at hu
      cases hu
      exact ⟨y, get_mem (set_self hx), by rw [hi]; exact hin⟩
    · exact ⟨z, get_mem (set_ne hu htu), hin⟩
  one a b p q ha hb hp hq := by
    rcases get_set ha with ⟨rfl, rfl⟩ | ⟨_, h1⟩ <;> rcases get_set hb with ⟨rfl, rfl⟩ | ⟨_, h2⟩
    · rfl
    · exact h.one t b x q hx h2 (by rw [← hi]; exact hp) hq
    · exact h.one a t p x h1 hx hp (by rw [← hi]; exact hq)
    · exact h.one a b p q h1 h2 hp hq
  thr z hz := by
    obtain ⟨u, hu⟩ := mem_get hz
    rcases get_set hu with ⟨_, rfl⟩ | ⟨_, h2⟩
    · exact hy.same rfl rfl rfl
    · exact (h.thr z (get_mem h2)).same rfl rfl rfl

/-- The only thread between the accesses of the flag takes a step. -/
theorem Inv.step {s s' : St} (h : Inv s) {t : Nat} {x y : Thr} (hx : s.thr[t]? = some x) (hi : x.pc.inside = true)
    (ht : s'.thr = s.thr.set t y) (hl : s.value.length ≤ s'.value.length) (hs : ∀ p, s.stored = some p → s'.stored = some p)
    (hist : s'.value = [⟨none, {}⟩] ∨ ∃ w, s'.value = [⟨none, {}⟩, ⟨some 0, w⟩] ∧ 0 ∈ w.obj ∧ w.val < 2 ∧ s'.made = 1)
    (made : s'.stored = none → (∀ p, y.pc ≠ .swp p) → s'.made = 0) (fval : s'.fview.val < s'.value.length)
    (free : s'.flag = false → Top s' s'.fview ∧ y.pc.inside = false) (held : s'.flag = true → y.pc.inside = true)
    (hy : OkT s' y) : Inv s' := by
  have hn : ∀ u z, s.thr[u]? = some z → t ≠ u → z.pc.inside = false := by
    intro u z hu htu
    cases e : z.pc.inside with
    | false => rfl
    | true => exact absurd (h.one t u x z hx hu hi e) htu
  refine ⟨hist, fun a b => made a fun p e => b y (by rw [ht]; exact get_mem (set_self hx)) p e, fval, fun e => ⟨(free e).1, ?_⟩,
    fun e => ⟨y, by rw [ht]; exact get_mem (set_self hx), held e⟩, ?_, ?_⟩
  · intro z hz
    obtain ⟨u, hu⟩ := mem_get hz
    rw [ht] at hu
    rcases get_set hu with ⟨_, rfl⟩ | ⟨h1, h2⟩
    · exact (free e).2
    · exact hn u z h2 h1
  · intro a b p q ha hb hp hq
    rw [ht] at ha hb
    rcases get_set ha with ⟨rfl, rfl⟩ | ⟨h1, h2⟩
    · rcases get_set hb with ⟨rfl, rfl⟩ | ⟨h3, h4⟩
      · rfl
      · rw [hn b q h4 h3] at hq; cases hq
    · rw [hn a p h2 h1] at hp; cases hp
  · intro z hz
    obtain ⟨u, hu⟩ := mem_get hz
    rw [ht] at hu
    rcases get_set hu with ⟨_, rfl⟩ | ⟨h1, h2⟩
    · exact hy
    · exact (h.thr z (get_mem h2)).mono (hn u z h2 h1) hl hs

theorem join_val {v w : View} {n : Nat} (h1 : v.val < n) (h2 : w.val < n) : (v.join w).val < n := by
  simp only [View.join]; omega

theorem got_val {b : Bool} {v w : View} {n : Nat} (h1 : v.val < n) (h2 : w.val < n) : (got b v w).val < n := by
  unfold got
  split
  · exact join_val h1 h2
  · exact h1

theorem left_val {b : Bool} {v w : View} {n : Nat} (h1 : v.val < n) (h2 : w.val < n) : (left b v w).val < n := by
  unfold left
  split
  · exact join_val h1 h2
  · exact h1

theorem got_obj {b : Bool} {v w : View} {p : Nat} (h : p ∈ v.obj) : p ∈ (got b v w).obj := by
  unfold got
  split
  · exact List.mem_append_right _ h
  · exact h

theorem Top.got {s : St} {v w : View} (h : Top s v) (hw : w.val < s.value.length) (b : Bool) : Top s (got b v w) where
  val := by
    have := h.val
    unfold Lazy.got
    split
    · simp only [View.join]; omega
    · exact this
  obj p e := got_obj (h.obj p e)

/-- The values of the pointer: what a load can find. -/
theorem Inv.load {s : St} (h : Inv s) {i : Nat} {m : Msg} (hm : s.value[i]? = some m) :
    i < s.value.length ∧ m.view.val < s.value.length ∧ (m.ptr = none ∨ (m.ptr = some 0 ∧ s.stored = some 0 ∧ 0 ∈ m.view.obj)) ∧
      (i + 1 = s.value.length → m.ptr = s.stored) := by
  rcases h.hist with e | ⟨w, e, hw, hv, _⟩
  · rw [e] at hm
    rcases i with _ | i
    · cases hm; simp [e, St.stored, last]
    · cases hm
  · rw [e] at hm
    rcases i with _ | _ | i
    · cases hm; simp [e]
    · cases hm; simp [e, St.stored, last, hw, hv]
    · cases hm

theorem last_view {s : St} (h : Inv s) : (last s).view.val < s.value.length := by
  rcases h.hist with e | ⟨w, e, _, hv, _⟩
  · simp [last, e]
  · simpa [last, e] using hv

/-- A thread that is before the first access of the flag, or has a reference, gets into another such state. -/
theorem OkT.outside {s : St} {y : Thr} (hv : y.view.val < s.value.length) (hi : y.pc.inside = false)
    (hr : ∀ p, y.pc = .has p → s.stored = some p ∧ p ∈ y.view.obj) (hg : y.pc ≠ .failed ∧ y.pc ≠ .race) : OkT s y where
  val := hv
  top e := by rw [hi] at e; cases e
  nul e := by rcases e with e | e | ⟨p, e⟩ <;> rw [e] at hi <;> cases hi
  ini e := by rcases e with e | e <;> rw [e] at hi <;> cases hi
  swp p e := by rw [e] at hi; cases hi
  ref p e := by
    rcases e with e | e
    · rw [e] at hi; cases hi
    · exact hr p e
  good := hg

theorem goPc_inv {o : Ords} (ho : Enough o) {s s' : St} (h : Inv s) {t i : Nat} {pc : Pc} {v : View} (hx : s.thr[t]? = some ⟨pc, v⟩)
    (hg : goPc o s t i v pc = some s') : Inv s' := by
  obtain ⟨o1, o2, o3, o4⟩ := ho
  have hok := h.thr _ (get_mem hx)
  cases pc with
  | idle => cases hg
  | has p => cases hg
  | boom => cases hg
  | failed => cases hg
  | race => cases hg
  | ld1 =>
    simp only [goPc] at hg
    cases hm : s.value[i]? with
    | none => rw [hm] at hg; cases hg
    | some m =>
      rw [hm] at hg
      simp only at hg
      split at hg
      · cases hg
        obtain ⟨h1, h2, h3, _⟩ := h.load hm
        obtain ⟨mp, mv⟩ := m
        rcases h3 with e | ⟨e, e2, e3⟩ <;> simp only at e <;> subst e
        · exact h.quiet hx rfl (fun p e => by cases e) (.outside (got_val h1 h2) rfl (fun p e => by cases e) (by simp))
        · refine h.quiet hx rfl (fun p e => by cases e) (.outside (got_val h1 h2) rfl (fun p e => ?_) (by simp))
          cases e
          refine ⟨e2, ?_⟩
          rw [o1]
          exact List.mem_append_left _ e3
      · cases hg
  | cas =>
    simp only [goPc] at hg
    split at hg
    · cases hg; exact h
    · split at hg
      · cases hg
      · rename_i hi hf
        cases hg
        have hf : s.flag = false := by simpa using hf
        obtain ⟨ht, hn⟩ := h.free hf
        have htop : Top s (got o.casAcq v s.fview) := by
          have hv := hok.val
          simp only at hv
          have := ht.val
          rw [o2]
          refine ⟨?_, fun p e => List.mem_append_left _ (ht.obj p e)⟩
          simp only [got, if_true, View.join]
          omega
        have hvv : (got o.casAcq v s.fview).val < s.value.length := by have := htop.val; omega
        refine ⟨h.hist, fun a b => h.made a fun z hz p e => ?_, left_val h.fval hvv, fun e => (by cases e),
          fun _ => ⟨_, get_mem (set_self hx), rfl⟩, ?_, ?_⟩
        · obtain ⟨u, hu⟩ := mem_get hz
          by_cases htu : t = u
          · subst htu
            rw [hx] at hu
            cases hu
            cases e
          · exact b z (get_mem (set_ne hu htu)) p e
        · intro a b p q ha hb hp hq
          rcases get_set ha with ⟨rfl, rfl⟩ | ⟨_, h1⟩
          · rcases get_set hb with ⟨rfl, rfl⟩ | ⟨_, h2⟩
            · rfl
            · rw [hn q (get_mem h2)] at hq; cases hq
          · rw [hn p (get_mem h1)] at hp; cases hp
        · intro z hz
          obtain ⟨u, hu⟩ := mem_get hz
          rcases get_set hu with ⟨_, rfl⟩ | ⟨_, h2⟩
          · exact ⟨hvv, fun _ => ⟨rfl, htop.val, htop.obj⟩, (fun e => by simp at e), (fun e => by simp at e), (fun p e => by cases e),
              (fun p e => by simp at e), by simp⟩
          · exact (h.thr z (get_mem h2)).mono (hn z (get_mem h2)) (Nat.le_refl _) (fun p e => e)
  | ld2 =>
    simp only [goPc] at hg
    obtain ⟨hf, htop⟩ := hok.top rfl
    simp only at htop
    cases hm : s.value[i]? with
    | none => rw [hm] at hg; cases hg
    | some m =>
      rw [hm] at hg
      simp only at hg
      split at hg
      · rename_i hvi
        cases hg
        obtain ⟨h1, h2, h3, h4⟩ := h.load hm
        have hi : i + 1 = s.value.length := by have := htop.val; omega
        have e0 := h4 hi
        have hi' : v.val = i := by have := htop.val; omega
        have htop2 : Top s (got o.ld2 { v with val := i } m.view) :=
          Top.got (v := { v with val := i }) ⟨hi, htop.obj⟩ h2 _
        obtain ⟨mp, mv⟩ := m
        simp only at e0
        subst e0
        cases e : s.stored with
        | none =>
          refine h.step hx rfl rfl (Nat.le_refl _) (fun p e => e) h.hist ?_ h.fval (fun e => ?_) (fun _ => rfl) ?_
          · intro a _
            refine h.made a fun z hz p e => ?_
            obtain ⟨u, hu⟩ := mem_get hz
            have := h.one t u _ z hx hu rfl (by rw [e]; rfl)
            subst this
            rw [hx] at hu
            cases hu
            cases e
          · rw [show s.flag = false from e] at hf; cases hf
          · have hmd : s.made = 0 := by
              refine h.made e fun z hz p e => ?_
              obtain ⟨u, hu⟩ := mem_get hz
              have := h.one t u _ z hx hu rfl (by rw [e]; rfl)
              subst this
              rw [hx] at hu
              cases hu
              cases e
            exact ⟨got_val h1 h2, fun _ => ⟨hf, htop2.val, htop2.obj⟩, fun _ => e, fun _ => hmd, (fun p e => by cases e),
              (fun p e => by simp at e), by simp⟩
        | some p =>
          refine h.step hx rfl rfl (Nat.le_refl _) (fun p e => e) h.hist ?_ h.fval (fun e => ?_) (fun _ => rfl) ?_
          · intro a _
            rw [show s.stored = none from a] at e
            cases e
          · rw [show s.flag = false from e] at hf; cases hf
          · exact ⟨got_val h1 h2, fun _ => ⟨hf, htop2.val, htop2.obj⟩, (fun e => by simp at e), (fun e => by simp at e),
              (fun p e => by cases e), fun q hq => (by
                rcases hq with hq | hq
                · cases hq
                  exact ⟨e, htop2.obj _ e⟩
                · cases hq), by simp⟩
      · cases hg
  | ini =>
    simp only [goPc] at hg
    cases hg
    obtain ⟨hf, htop⟩ := hok.top rfl
    have h0 := hok.nul (.inl rfl)
    have hm := hok.ini (.inl rfl)
    refine h.step hx rfl rfl (Nat.le_refl _) (fun p e => e) ?_ (fun _ e => absurd rfl (e _)) h.fval (fun e => ?_) (fun _ => rfl) ?_
    · rcases h.hist with e | ⟨w, e, _, _, e2⟩
      · exact .inl e
      · rw [hm] at e2; cases e2
    · rw [show s.flag = false from e] at hf; cases hf
    · refine ⟨hok.val, fun _ => ⟨hf, htop.val, fun p e => ?_⟩, fun _ => h0, (fun e => by simp at e), fun p e => ?_, (fun p e => by simp at e), by simp⟩
      · rw [show s.stored = some p from e] at h0; cases h0
      · cases e
        exact ⟨hm, by show s.made + 1 = 1; omega, List.mem_cons_self ..⟩
  | swp p =>
    simp only [goPc] at hg
    obtain ⟨hf, htop⟩ := hok.top rfl
    have h0 := hok.nul (.inr (.inr ⟨p, rfl⟩))
    obtain ⟨rfl, hm, hobj⟩ := hok.swp p rfl
    have hval : s.value = [⟨none, {}⟩] := by
      rcases h.hist with e | ⟨w, e, _⟩
      · exact e
      · simp [St.stored, last, e] at h0
    have hl : last s = ⟨none, {}⟩ := by simp [last, hval]
    rw [hl, hval] at hg
    cases hg
    have hobj2 : 0 ∈ (got o.swpAcq v {}).obj := got_obj hobj
    refine h.step hx rfl rfl (by simp [hval]) (fun p e => ?_) (.inr ⟨_, rfl, ?_, ?_, hm⟩) (fun a _ => ?_) ?_ (fun e => ?_) (fun _ => rfl) ?_
    · rw [h0] at e; cases e
    · rw [o3]
      exact List.mem_append_left _ hobj2
    · refine left_val (by simp) (by simp)
    · simp [St.stored, last] at a
    · have := h.fval
      rw [hval] at this
      simp only [List.length_cons, List.length_nil] at this
      simp only [List.length_append, List.length_cons, List.length_nil]
      exact Nat.lt_succ_of_lt this
    · rw [show s.flag = false from e] at hf; cases hf
    · refine ⟨by simp, fun _ => ⟨hf, by simp, fun p e => ?_⟩, (fun e => by simp at e), (fun e => by simp at e), (fun p e => by cases e), fun p e => ?_,
        by simp⟩
      · have : p = 0 := by simpa [St.stored, last, eq_comm] using e
        subst this
        exact hobj2
      · have : p = 0 := by
          rcases e with e | e
          · cases e; rfl
          · cases e
        subst this
        exact ⟨by simp [St.stored, last], hobj2⟩
  | fin p =>
    simp only [goPc] at hg
    obtain ⟨hf, htop⟩ := hok.top rfl
    obtain ⟨hs, hobj⟩ := hok.ref p (.inl rfl)
    rw [hf] at hg
    cases hg
    have hv : (got o.endAcq v s.fview).val < s.value.length := got_val hok.val h.fval
    have htop2 : Top s (got o.endAcq v s.fview) := Top.got htop h.fval o.endAcq
    refine h.step hx rfl rfl (Nat.le_refl _) (fun p e => e) h.hist (fun a _ => ?_) (left_val h.fval hv) (fun _ => ⟨⟨?_, fun q e => ?_⟩, rfl⟩)
      (fun e => by cases e) ?_
    · rw [show s.stored = none from a] at hs; cases hs
    · have := htop2.val
      have := h.fval
      rw [o4]
      simp only [left, if_true, View.join]
      show max s.fview.val _ + 1 = s.value.length
      omega
    · rw [o4]
      exact List.mem_append_left _ (htop2.obj q e)
    · refine .outside hv rfl (fun q e => ?_) (by simp)
      cases e
      exact ⟨hs, got_obj hobj⟩

theorem exec_inv {nd : Bool} {o : Ords} (ho : Enough o) {s s' : St} (h : Inv s) {a : Act} (hg : exec nd o s a = some s') : Inv s' := by
  cases a with
  | call t =>
    simp only [exec] at hg
    split at hg
    · rename_i v hx
      split at hg
      · cases hg
      · cases hg
        exact h.quiet hx rfl (fun p e => by cases e) (.outside (h.thr _ (get_mem hx)).val rfl (fun p e => by cases e) (by simp))
    · cases hg
  | go t i =>
    simp only [exec] at hg
    split at hg
    · rename_i hx
      exact goPc_inv ho h hx hg
    · cases hg
  | panic t =>
    simp only [exec] at hg
    split at hg
    · rename_i v hx
      cases hg
      obtain ⟨h1, h2, h3, h4, _⟩ := h.thr _ (get_mem hx)
      exact h.quiet hx rfl (fun p e => by cases e) ⟨h1, fun _ => h2 rfl, fun _ => h3 (.inl rfl), fun _ => h4 (.inl rfl),
        (fun p e => by cases e), (fun p e => by simp at e), by simp⟩
    · cases hg
  | use t =>
    simp only [exec] at hg
    split at hg
    · rename_i p v hx
      cases hg
      have hr := (h.thr _ (get_mem hx)).ref p (.inr rfl)
      rw [if_pos (List.contains_iff_mem.2 hr.2)]
      exact h.quiet hx rfl (fun p e => by cases e) (h.thr _ (get_mem hx))
    · cases hg
  | ret t =>
    simp only [exec] at hg
    split at hg
    · rename_i v hx
      cases hg
      exact h.quiet hx rfl (fun p e => by cases e) (.outside (h.thr _ (get_mem hx)).val rfl (fun p e => by cases e) (by simp))
    · cases hg
  | sync t u =>
    simp only [exec] at hg
    split at hg
    · rename_i pc v _ w hx hu
      cases hg
      have hw := (h.thr _ (get_mem hu)).val
      obtain ⟨h1, h2, h3, h4, h5, h6, h7⟩ := h.thr _ (get_mem hx)
      refine h.quiet hx rfl (fun p e => e) ⟨join_val h1 hw, fun e => ⟨(h2 e).1, ?_⟩, h3, h4,
        fun p e => ⟨(h5 p e).1, (h5 p e).2.1, List.mem_append_right _ (h5 p e).2.2⟩,
        fun p e => ⟨(h6 p e).1, List.mem_append_right _ (h6 p e).2⟩, h7⟩
      have := (h2 e).2.got hw true
      exact this
    · cases hg
  | drop =>
    simp only [exec] at hg
    split at hg
    · cases hg
    · cases hg
      exact ⟨h.hist, h.made, h.fval, fun e => ⟨⟨(h.free e).1.val, (h.free e).1.obj⟩, (h.free e).2⟩, h.held, h.one,
        fun x hx => (h.thr x hx).same rfl rfl rfl⟩

theorem run_inv {nd : Bool} {o : Ords} (ho : Enough o) : ∀ {as : List Act} {s s' : St}, Inv s → run nd o s as = some s' → Inv s'
  | [], _, _, h, hg => by cases hg; exact h
  | a :: as, s, s', h, hg => by
    simp only [run] at hg
    split at hg
    · cases hg
    · rename_i h1
      exact run_inv ho (exec_inv ho h h1) hg

/-! ### Theorems -/

/-- **C80.** However many threads use the value and whatever old values they read: the initialiser makes at most one value, no
`assert!` fails, and no thread uses the value before it was initialised; all threads get the same one. -/
theorem C80_once {nd : Bool} {n : Nat} {as : List Act} {s : St} (h : run nd code (.new n) as = some s) :
    s.made ≤ 1 ∧ ∀ x ∈ s.thr, x.pc ≠ .failed ∧ x.pc ≠ .race ∧ ∀ p, x.pc = .has p → p = 0 ∧ p ∈ x.view.obj := by
  have hi := run_inv ⟨rfl, rfl, rfl, rfl⟩ (new_inv n) h
  refine ⟨?_, fun x hx => ⟨(hi.thr x hx).good.1, (hi.thr x hx).good.2, fun p e => ?_⟩⟩
  · rcases hi.hist with e | ⟨w, _, _, _, e⟩
    · by_cases hx : ∀ x ∈ s.thr, ∀ p, x.pc ≠ .swp p
      · rw [hi.made (by simp [St.stored, last, e]) hx]; omega
      · simp only [Classical.not_forall, Decidable.not_not] at hx
        obtain ⟨x, hx, p, e⟩ := hx
        rw [((hi.thr x hx).swp p e).2.1]
        omega
    · omega
  · obtain ⟨e1, e2⟩ := (hi.thr x hx).ref p (.inr e)
    refine ⟨?_, e2⟩
    rcases hi.hist with e | ⟨w, e, _⟩ <;> simp [St.stored, last, e] at e1
    exact e1.symm

/-- **C80.** The flag is never left behind: if no initialiser panicked, it is free, or a thread that has set it can go on (and has
at most four accesses to make, `C80_four_steps`). -/
theorem C80_goes_on {nd : Bool} {n : Nat} {as : List Act} {s : St} (h : run nd code (.new n) as = some s)
    (hb : ∀ x ∈ s.thr, x.pc ≠ .boom) : s.flag = false ∨ ∃ t s', exec nd code s (.go t (s.value.length - 1)) = some s' ∧
      ∃ x, s.thr[t]? = some x ∧ x.pc.inside = true := by
  have hi := run_inv ⟨rfl, rfl, rfl, rfl⟩ (new_inv n) h
  cases hf : s.flag with
  | false => exact .inl rfl
  | true =>
    obtain ⟨x, hx, hin⟩ := hi.held hf
    obtain ⟨t, ht⟩ := mem_get hx
    have hlen : ∃ m, s.value[s.value.length - 1]? = some m := by
      rcases hi.hist with e | ⟨w, e, _⟩ <;> exact ⟨_, by rw [e]; rfl⟩
    obtain ⟨m, hm⟩ := hlen
    have hv := (hi.thr x hx).val
    obtain ⟨pc, v⟩ := x
    simp only at hv
    refine .inr ⟨t, ?_⟩
    cases pc with
    | ld2 =>
      have : v.val ≤ s.value.length - 1 := by omega
      exact ⟨_, by simp only [exec, ht, goPc, hm, if_pos this]; rfl, _, ht, rfl⟩
    | ini => exact ⟨_, by simp only [exec, ht, goPc]; rfl, _, ht, rfl⟩
    | swp p => exact ⟨_, by simp only [exec, ht, goPc]; rfl, _, ht, rfl⟩
    | fin p => exact ⟨_, by simp only [exec, ht, goPc]; rfl, _, ht, rfl⟩
    | boom => exact absurd rfl (hb _ hx)
    | _ => cases hin

/-- How many accesses a thread that has set the flag has still to make. -/
def Pc.rank : Pc → Nat
  | .ld2 => 4
  | .ini => 3
  | .swp _ => 2
  | .fin _ => 1
  | _ => 0

/-- **C80.** A thread that has set the flag needs at most four accesses. -/
theorem C80_four_steps {nd : Bool} {o : Ords} {s s' : St} {t i : Nat} {x : Thr} (ht : s.thr[t]? = some x) (hx : x.pc.inside = true)
    (h : exec nd o s (.go t i) = some s') : ∃ y, s'.thr[t]? = some y ∧ y.pc.rank < x.pc.rank ∧ x.pc.rank ≤ 4 := by
  obtain ⟨pc, v⟩ := x
  simp only [exec, ht] at h
  cases pc with
  | ld2 =>
    simp only [goPc] at h
    split at h
    · split at h <;> cases h
      refine ⟨_, set_self ht, ?_, Nat.le_refl _⟩
      split <;> simp [Pc.rank]
    · cases h
  | ini => cases h; exact ⟨_, set_self ht, by simp [Pc.rank], by simp [Pc.rank]⟩
  | swp p =>
    cases h
    refine ⟨_, set_self ht, ?_, by simp [Pc.rank]⟩
    simp only
    split <;> simp [Pc.rank]
  | fin p =>
    cases h
    refine ⟨_, set_self ht, ?_, by simp [Pc.rank]⟩
    simp only
    split <;> simp [Pc.rank]
  | boom => cases h
  | _ => cases hx

/-- Nothing is given back before the `Lazy` is dropped. -/
theorem exec_freed {nd : Bool} {o : Ords} {s s' : St} {a : Act} (hg : exec nd o s a = some s') (hd : s'.dropped = false) :
    s'.freed = s.freed ∧ s.dropped = false := by
  cases a with
  | go t i =>
    simp only [exec] at hg
    split at hg
    · rename_i pc v _
      cases pc <;> simp only [goPc] at hg
      case ld1 | ld2 =>
        split at hg
        · split at hg <;> cases hg
          exact ⟨rfl, hd⟩
        · cases hg
      case cas =>
        split at hg
        · cases hg; exact ⟨rfl, hd⟩
        · split at hg <;> cases hg
          exact ⟨rfl, hd⟩
      all_goals cases hg
      all_goals exact ⟨rfl, hd⟩
    · cases hg
  | drop =>
    simp only [exec] at hg
    split at hg <;> cases hg
    cases hd
  | call t =>
    simp only [exec] at hg
    split at hg
    · split at hg <;> cases hg
      exact ⟨rfl, hd⟩
    · cases hg
  | _ =>
    simp only [exec] at hg
    split at hg <;> cases hg
    exact ⟨rfl, hd⟩

theorem run_freed {nd : Bool} {o : Ords} : ∀ {as : List Act} {s s' : St}, run nd o s as = some s' → s'.dropped = false →
    s'.freed = s.freed ∧ s.dropped = false
  | [], _, _, h, hd => by cases h; exact ⟨rfl, hd⟩
  | a :: as, s, s', h, hd => by
    simp only [run] at h
    split at h
    · cases h
    · rename_i h1
      obtain ⟨e1, e2⟩ := run_freed h hd
      obtain ⟨e3, e4⟩ := exec_freed h1 e2
      exact ⟨e1.trans e3, e4⟩

/-- **C80.** If the type of the value has something to drop, dropping the `Lazy` gives back all that was made, once. -/
theorem C80_drop_partial {n : Nat} {as : List Act} {s s' : St} (h : run true code (.new n) as = some s)
    (hd : exec true code s .drop = some s') : s'.freed = List.range s'.made := by
  have hi := run_inv ⟨rfl, rfl, rfl, rfl⟩ (new_inv n) h
  simp only [exec] at hd
  split at hd
  · cases hd
  · rename_i hu
    cases hd
    have hf : s.freed = [] := (run_freed h (by cases e : s.dropped with | false => rfl | true => exact absurd (.inl e) hu)).1
    simp only [dropped, hf, if_true, List.nil_append]
    rcases hi.hist with e | ⟨w, e, _, _, em⟩
    · have : s.made = 0 := by
        refine hi.made (by simp [St.stored, last, e]) fun x hx p ep => hu (.inr ?_)
        exact List.any_eq_true.2 ⟨x, hx, by rw [ep]; rfl⟩
      simp [last, e, this]
    · simp [last, e, em, List.range_succ]

/-- **C80, violated.** A value whose type has nothing to drop is never given back: its `Box` is lost. -/
theorem C80_leak_violated : ∃ as s, run false code (.new 1) as = some s ∧ s.dropped = true ∧ s.made = 1 ∧ s.freed = [] :=
  ⟨[.call 0, .go 0 0, .go 0 0, .go 0 0, .go 0 0, .go 0 0, .go 0 0, .use 0, .ret 0, .drop], _, rfl, rfl, rfl, rfl⟩

/-- What the others do leaves a thread alone, but for its view. -/
theorem exec_pc {nd : Bool} {o : Ords} {s s' : St} {a : Act} (hg : exec nd o s a = some s') {t : Nat} {x : Thr} (hx : s.thr[t]? = some x)
    (ha : ∀ i, a ≠ .go t i) (hp : x.pc = .cas ∨ x.pc = .boom) : ∃ v, s'.thr[t]? = some ⟨x.pc, v⟩ := by
  obtain ⟨pc, v⟩ := x
  have key : ∀ (u : Nat) (y : Thr), (u = t → y.pc = pc) → ∃ v, (s.thr.set u y)[t]? = some ⟨pc, v⟩ := by
    intro u y hy
    by_cases e : u = t
    · subst e
      have := hy rfl
      obtain ⟨q, w⟩ := y
      simp only at this
      subst this
      exact ⟨w, set_self hx⟩
    · exact ⟨v, set_ne hx e⟩
  have other : ∀ (u : Nat) (y z : Thr), s.thr[u]? = some z → z.pc ≠ pc → ∃ v, (s.thr.set u y)[t]? = some ⟨pc, v⟩ := by
    intro u y z hz hne
    refine key u y fun e => ?_
    subst e
    rw [hx] at hz
    cases hz
    exact absurd rfl hne
  cases a with
  | call u =>
    simp only [exec] at hg
    split at hg
    · rename_i w hu
      split at hg <;> cases hg
      exact other u _ _ hu (by rcases hp with e | e <;> simp only at e <;> subst e <;> simp)
    · cases hg
  | go u i =>
    simp only [exec] at hg
    split at hg
    · rename_i q w hu
      have hne : u ≠ t := fun e => ha i (by rw [e])
      have keep : ∀ y : Thr, ∃ v, (s.thr.set u y)[t]? = some ⟨pc, v⟩ := fun y => key u y fun e => absurd e hne
      cases q with
      | ld1 =>
        simp only [goPc] at hg
        split at hg
        · split at hg <;> cases hg
          exact keep _
        · cases hg
      | ld2 =>
        simp only [goPc] at hg
        split at hg
        · split at hg <;> cases hg
          exact keep _
        · cases hg
      | cas =>
        simp only [goPc] at hg
        split at hg
        · cases hg; exact ⟨v, hx⟩
        · split at hg <;> cases hg
          exact keep _
      | ini => cases hg; exact keep _
      | swp p => cases hg; exact keep _
      | fin p => cases hg; exact keep _
      | _ => cases hg
    · cases hg
  | panic u =>
    simp only [exec] at hg
    split at hg
    · rename_i w hu
      cases hg
      exact other u _ _ hu (by rcases hp with e | e <;> simp only at e <;> subst e <;> simp)
    · cases hg
  | use u =>
    simp only [exec] at hg
    split at hg
    · rename_i w hu
      cases hg
      exact other u _ _ hu (by rcases hp with e | e <;> simp only at e <;> subst e <;> simp)
    · cases hg
  | ret u =>
    simp only [exec] at hg
    split at hg
    · rename_i w hu
      cases hg
      exact other u _ _ hu (by rcases hp with e | e <;> simp only at e <;> subst e <;> simp)
    · cases hg
  | sync u w =>
    simp only [exec] at hg
    split at hg
    · rename_i q w1 _ w2 hu _
      cases hg
      refine key u _ fun e => ?_
      subst e
      rw [hx] at hu
      cases hu
      rfl
    · cases hg
  | drop =>
    simp only [exec] at hg
    split at hg <;> cases hg
    exact ⟨v, hx⟩

/-- **C80, violated.** Once an initialiser has panicked, a thread that waits for the flag waits for ever: whatever happens, it is
still at the same place. -/
theorem C80_panic_blocks {nd : Bool} {n : Nat} {as bs : List Act} {s s' : St} (h : run nd code (.new n) as = some s) {t u : Nat} {x y : Thr}
    (ht : s.thr[t]? = some x) (hx : x.pc = .boom) (hu : s.thr[u]? = some y) (hy : y.pc = .cas) (h' : run nd code s bs = some s') :
    ∃ v, s'.thr[u]? = some ⟨.cas, v⟩ := by
  have hi := run_inv ⟨rfl, rfl, rfl, rfl⟩ (new_inv n) h
  clear h
  induction bs generalizing s x y with
  | nil =>
    cases h'
    obtain ⟨q, v⟩ := y
    simp only at hy
    subst hy
    exact ⟨v, hu⟩
  | cons b bs ih =>
    simp only [run] at h'
    split at h'
    · cases h'
    · rename_i s1 h1
      have hi1 := exec_inv ⟨rfl, rfl, rfl, rfl⟩ hi h1
      have hf : s.flag = true := ((hi.thr x (get_mem ht)).top (by rw [hx]; rfl)).1
      obtain ⟨w, hw⟩ : ∃ w, s1.thr[t]? = some ⟨.boom, w⟩ := by
        rw [← hx]
        refine exec_pc h1 ht (fun i e => ?_) (.inr hx)
        subst e
        obtain ⟨q, v⟩ := x
        simp only at hx
        subst hx
        simp only [exec, ht, goPc] at h1
        cases h1
      obtain ⟨w', hw'⟩ : ∃ w, s1.thr[u]? = some ⟨.cas, w⟩ := by
        obtain ⟨q, v⟩ := y
        simp only at hy
        subst hy
        by_cases hb : ∃ i, b = .go u i
        · obtain ⟨i, rfl⟩ := hb
          simp only [exec, hu, goPc, hf] at h1
          split at h1
          · cases h1; exact ⟨v, hu⟩
          · cases h1
        · exact exec_pc (x := ⟨.cas, v⟩) h1 hu (fun i e => hb ⟨i, e⟩) (.inl rfl)
      exact ih hw rfl hw' rfl h' hi1

/-- The case of `C80_panic_blocks` exists: the initialiser of thread 0 panics, thread 1 waits. -/
theorem C80_panic_blocks_violated : ∃ as s, run true code (.new 2) as = some s ∧ s.thr[0]?.map Thr.pc = some .boom ∧
    s.thr[1]?.map Thr.pc = some .cas :=
  ⟨[.call 0, .go 0 0, .go 0 0, .go 0 0, .call 1, .go 1 0, .go 1 1, .panic 0], _, rfl, rfl, rfl⟩

/-- Something is wrong. -/
def wrong (s : St) : Bool := s.thr.any fun x => x.pc == .failed || x.pc == .race

/-- Thread 0 initialises, thread 1 finds the value at once. -/
def fast : List Act := [.call 0, .go 0 0, .go 0 0, .go 0 0, .go 0 0, .go 0 0, .go 0 0, .call 1, .go 1 1, .use 1]

/-- Thread 0 initialises, thread 1 reads old values as long as it may. -/
def slow : List Act :=
  [.call 0, .go 0 0, .go 0 0, .go 0 0, .go 0 0, .go 0 0, .go 0 0, .call 1, .go 1 0, .go 1 0, .go 1 0, .go 1 0, .go 1 0]

/-- **C80.** Which orderings matter, exactly: the first load has to acquire, the exchange that sets the flag has to acquire, the
swap of the pointer has to release and the swap that clears the flag has to release. All others may be relaxed; in particular
the second load. -/
theorem C80_orderings (o : Ords) : Enough o ↔ ∀ nd n as s, run nd o (.new n) as = some s → wrong s = false := by
  constructor
  · intro ho nd n as s h
    have hi := run_inv ho (new_inv n) h
    cases hw : wrong s with
    | false => rfl
    | true =>
      obtain ⟨x, hx, e⟩ := List.any_eq_true.1 hw
      simp only [Bool.or_eq_true, beq_iff_eq] at e
      rcases e with e | e
      · exact absurd e (hi.thr x hx).good.1
      · exact absurd e (hi.thr x hx).good.2
  · intro h
    have h1 := h true 2 fast
    have h2 := h true 2 slow
    have key : ∀ o : Ords, (∀ s, run true o (.new 2) fast = some s → wrong s = false) →
        (∀ s, run true o (.new 2) slow = some s → wrong s = false) → Enough o := by
      rintro ⟨a, b, c, d, e, f, g, i⟩ h1 h2
      have e1 : (run true ⟨a, b, c, d, e, f, g, i⟩ (.new 2) fast).any wrong = !(a && f) := by
        cases a <;> cases b <;> cases c <;> cases d <;> cases e <;> cases f <;> cases g <;> cases i <;> decide +kernel
      have e2 : a = true → f = true → (run true ⟨a, b, c, d, e, f, g, i⟩ (.new 2) slow).any wrong = !(b && i) := by
        rintro rfl rfl
        cases b <;> cases c <;> cases d <;> cases e <;> cases g <;> cases i <;> decide +kernel
      have no : ∀ x : Option St, (∀ s, x = some s → wrong s = false) → x.any wrong = false := by
        intro x hx
        cases x with
        | none => rfl
        | some s => exact hx s rfl
      have f1 := no _ h1
      rw [e1] at f1
      have hab : a = true ∧ f = true := by simpa using f1
      have f2 := no _ h2
      rw [e2 hab.1 hab.2] at f2
      have hbi : b = true ∧ i = true := by simpa using f2
      exact ⟨hab.1, hbi.1, hab.2, hbi.2⟩
    exact key o h1 h2

/-- Three threads: thread 0 initialises, thread 1 waits for the flag and finds the value, thread 2 finds it at once. -/
example : (run true code (.new 3) [.call 0, .call 1, .go 0 0, .go 1 0, .go 0 0, .go 1 1, .go 0 0, .go 0 0, .go 0 0, .go 1 1, .go 0 0,
    .go 1 0, .go 1 1, .go 1 0, .use 1, .call 2, .go 2 1, .use 2, .use 0]).map (fun s => (s.made, s.thr.map Thr.pc)) =
    some (1, [.has 0, .has 0, .has 0]) := by decide +kernel

end Verif.Weak.Lazy
