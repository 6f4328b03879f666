/-!
The reference counter `RawRC` (`sync/smart.rs:243-312`) without the assumption that memory is sequentially
consistent: which accesses happen before which, given the memory orderings that the code asks for. C73. Paths
are relative to `/repo/server/src/engine`.

The model is that of C11 and of Rust for this program. All atomic accesses of the counter read and write it in
one step, so each of them sees the value that the one before it left; what an ordering decides is not which
value is seen but which other accesses are known to have happened before. Every access of the counted object
has a number. The *view* of an agent is the list of the accesses that happen before its next one. The counter
carries a view along with its value: what a release wrote into it, kept by every later access that reads and
writes it (the release sequence). An acquire takes that view over at once, a relaxed access only with the next
acquire fence.

There is one counted object. The agents are the handles to it and the operations that are in progress, as in
`Verif.Sync.Rc`, which also treats the limit of the counter. An operation that borrows a handle starts after
what its owner did before and ends before what the owner does next; this is the rule of the language for
borrows, whichever threads are involved. Two agents may synchronise in any other way at any time.
-/
namespace Verif.Weak.Rc

/-- The memory orderings of an access that reads and writes (`Ordering`). -/
inductive Ord where
  | rlx | acq | rel | acqrel
  deriving DecidableEq, Repr

def Ord.acquires : Ord → Bool
  | .acq | .acqrel => true
  | _ => false

def Ord.releases : Ord → Bool
  | .rel | .acqrel => true
  | _ => false

/-- What the code asks for. -/
structure Ords where
  /-- of `fetch_add` in `rc_clone` -/
  add : Ord
  /-- of `fetch_sub` in `rc_drop` -/
  sub : Ord
  /-- there is an acquire fence before the destruction -/
  fence : Bool
  deriving DecidableEq, Repr

/-- `ORD_RLX` (`sync/smart.rs:285`), `ORD_REL` (`:296`) and `fence(ORD_ACQ)` (`:301`). -/
def code : Ords := ⟨.rlx, .rel, true⟩

/-- What an agent is. -/
inductive Kind where
  /-- a handle -/
  | own
  /-- `rc_clone` on the handle `i`, before `fetch_add` (`sync/smart.rs:285`) -/
  | cloning (i : Nat)
  /-- a use of the data or of the key through the handle `i` (`:269-274`, `core/index/row.rs:123-128`) -/
  | using (i : Nat)
  /-- `rc_drop` before `fetch_sub` (`:296`) -/
  | sub
  /-- `rc_drop`: `fetch_sub` returned 1; before the fence (`:301`) -/
  | fence
  /-- `rc_drop_slow` before `dropfn` (`:308`) -/
  | key
  /-- `rc_drop_slow` before the memory is given back (`:310`) -/
  | free
  | gone
  deriving DecidableEq, Repr

/-- An agent with its view: what happens before its next access (`cur`), and what its relaxed reads brought that
an acquire fence would add (`pend`). -/
structure Agent where
  kind : Kind
  cur : List Nat
  pend : List Nat := []
  deriving DecidableEq, Repr

/-- The handle that is borrowed. -/
def Agent.src (a : Agent) : Option Nat :=
  match a.kind with
  | .cloning i | .using i => some i
  | _ => none

/-- The counted object and the agents. -/
structure St where
  rc : Nat := 1
  /-- the view that the counter carries -/
  msg : List Nat := []
  /-- number of accesses so far; access 0 is the creation of the object -/
  n : Nat := 1
  /-- the key was destroyed -/
  keyDead : Bool := false
  /-- the memory was given back -/
  freed : Bool := false
  /-- two accesses raced: one of them creates or destroys what the other one uses, and it is not so that the
  creation happens before the use or the use before the destruction -/
  race : Bool := false
  /-- something was used after it was destroyed -/
  late : Bool := false
  agents : List Agent := [⟨.own, [0], []⟩]
  deriving DecidableEq, Repr

/-- `RawRC::new` (`sync/smart.rs:261-268`). -/
def init : St := {}

inductive Act where
  /-- a clone of the handle `i` begins, in any thread -/
  | startClone (i : Nat)
  /-- a use through the handle `i` begins -/
  | startUse (i : Nat)
  /-- the handle `i` is about to be dropped -/
  | startDrop (i : Nat)
  /-- the next access of the agent `k` -/
  | go (k : Nat)
  /-- the agent `k` learns all that happened before the next access of the agent `l`, by a lock, a channel or
  anything else -/
  | sync (k l : Nat)
  deriving DecidableEq, Repr

/-- A borrow ends: the owner of the handle goes on after it. -/
def back (as : List Agent) (i : Nat) (v : List Nat) : List Agent :=
  match as[i]? with
  | some a => as.set i { a with cur := v ++ a.cur }
  | none => as

/-- What an acquiring access adds to the view. -/
def Ord.got (o : Ord) (msg : List Nat) : List Nat := if o.acquires then msg else []

/-- The view of the counter after an access of an agent with the view `cur`: the access continues the release
sequence, and a release adds the view of its agent. -/
def Ord.left (o : Ord) (msg cur : List Nat) : List Nat := if o.releases then cur ++ msg else msg

/-- All accesses before the number `n` are in the view. -/
def sees (n : Nat) (cur : List Nat) : Bool := (List.range n).all fun m => cur.contains m

/-- The next access of the agent `k`. -/
def goKind (o : Ords) (s : St) (k : Nat) (a : Agent) : Kind → Option St
  | .own => none
  | .gone => none
  /- `fetch_add` (`sync/smart.rs:285`); the new handle is the clone (`:290`) -/
  | .cloning i =>
    let cur := s.n :: (o.add.got s.msg ++ a.cur)
    some { s with rc := s.rc + 1, msg := o.add.left s.msg cur, n := s.n + 1
                  race := s.race || !a.cur.contains 0, late := s.late || s.freed
                  agents := back (s.agents.set k ⟨.own, cur, s.msg ++ a.pend⟩) i cur }
  | .using i =>
    let cur := s.n :: a.cur
    some { s with n := s.n + 1, race := s.race || !a.cur.contains 0, late := s.late || s.freed || s.keyDead
                  agents := back (s.agents.set k ⟨.gone, cur, a.pend⟩) i cur }
  /- `fetch_sub` (`sync/smart.rs:296-299`) -/
  | .sub =>
    let cur := s.n :: (o.sub.got s.msg ++ a.cur)
    some { s with rc := s.rc - 1, msg := o.sub.left s.msg cur, n := s.n + 1
                  race := s.race || !a.cur.contains 0, late := s.late || s.freed
                  agents := s.agents.set k ⟨if s.rc = 1 then .fence else .gone, cur, s.msg ++ a.pend⟩ }
  /- `atomic::fence(ORD_ACQ)` (`sync/smart.rs:301`) -/
  | .fence => some { s with agents := s.agents.set k ⟨.key, if o.fence then a.pend ++ a.cur else a.cur, a.pend⟩ }
  /- `dropfn()` (`sync/smart.rs:308`) -/
  | .key =>
    some { s with n := s.n + 1, race := s.race || !sees s.n a.cur, late := s.late || s.freed || s.keyDead, keyDead := true
                  agents := s.agents.set k ⟨.free, s.n :: a.cur, a.pend⟩ }
  /- `drop(Box::from_raw(…))` (`sync/smart.rs:310`) -/
  | .free =>
    some { s with n := s.n + 1, race := s.race || !sees s.n a.cur, late := s.late || s.freed, freed := true
                  agents := s.agents.set k ⟨.gone, s.n :: a.cur, a.pend⟩ }

/-- One step; `none`: it is not possible. The language guarantees that a handle is not dropped while it is
borrowed. -/
def exec (o : Ords) (s : St) : Act → Option St
  | .startClone i =>
    match s.agents[i]? with
    | some ⟨.own, cur, pend⟩ => some { s with agents := s.agents ++ [⟨.cloning i, cur, pend⟩] }
    | _ => none
  | .startUse i =>
    match s.agents[i]? with
    | some ⟨.own, cur, pend⟩ => some { s with agents := s.agents ++ [⟨.using i, cur, pend⟩] }
    | _ => none
  | .startDrop i =>
    match s.agents[i]? with
    | some ⟨.own, cur, pend⟩ =>
      if s.agents.all (fun a => a.src ≠ some i) then some { s with agents := s.agents.set i ⟨.sub, cur, pend⟩ } else none
    | _ => none
  | .go k =>
    match s.agents[k]? with
    | some a => goKind o s k a a.kind
    | none => none
  | .sync k l =>
    match s.agents[k]?, s.agents[l]? with
    | some a, some b => some { s with agents := s.agents.set k { a with cur := b.cur ++ a.cur } }
    | _, _ => none

/-- A schedule. -/
def run (o : Ords) : St → List Act → Option St
  | s, [] => some s
  | s, x :: xs =>
    match exec o s x with
    | none => none
    | some s' => run o s' xs

/-! ### Proof -/

/-- A handle of which the counter knows. -/
def Agent.alive (a : Agent) : Bool :=
  match a.kind with
  | .own | .sub => true
  | _ => false

/-- The agent destroys the object. -/
def Agent.last (a : Agent) : Bool :=
  match a.kind with
  | .fence | .key | .free => true
  | _ => false

/-- Access `m` is not forgotten: it is in the view that the counter carries, in the view of a handle, or in what
the agent that destroys the object has seen or will see with the fence. -/
def Kept (s : St) (m : Nat) : Prop :=
  (s.rc ≠ 0 ∧ m ∈ s.msg) ∨ (∃ a ∈ s.agents, a.alive = true ∧ m ∈ a.cur) ∨
  (∃ a ∈ s.agents, a.kind = .fence ∧ (m ∈ a.cur ∨ m ∈ a.pend)) ∨
  (∃ a ∈ s.agents, (a.kind = .key ∨ a.kind = .free) ∧ m ∈ a.cur) ∨ s.freed = true

structure Inv (s : St) : Prop where
  race : s.race = false
  late : s.late = false
  rc : s.rc = s.agents.countP Agent.alive
  one : s.agents.countP Agent.last + (if s.freed then 1 else 0) + (if s.rc = 0 then 0 else 1) = 1
  src : ∀ a ∈ s.agents, ∀ i, a.src = some i → ∃ b, s.agents[i]? = some b ∧ b.kind = .own
  born : ∀ a ∈ s.agents, 0 ∈ a.cur
  kept : ∀ m, m < s.n → Kept s m
  key : ∀ a ∈ s.agents, a.kind = .fence ∨ a.kind = .key → s.keyDead = false
  fresh : s.rc ≠ 0 → s.keyDead = false

theorem countP_set {p : Agent → Bool} {l : List Agent} {k : Nat} {a : Agent} (b : Agent) (h : l[k]? = some a) :
    (l.set k b).countP p + (if p a then 1 else 0) = l.countP p + (if p b then 1 else 0) := by
  induction l generalizing k with
  | nil => simp at h
  | cons x xs ih =>
    cases k with
    | zero => simp at h; subst h; simp [List.countP_cons]; omega
    | succ k => simp at h; have := ih h; simp [List.countP_cons]; omega

/-- The agents are the same and know at least as much. -/
def Grow (as bs : List Agent) : Prop :=
  as.length = bs.length ∧
  ∀ (j : Nat) (a : Agent), as[j]? = some a → ∃ b, bs[j]? = some b ∧ b.kind = a.kind ∧ (∀ m ∈ a.cur, m ∈ b.cur) ∧ (∀ m ∈ a.pend, m ∈ b.pend)

theorem Grow.mem {as bs : List Agent} (h : Grow as bs) {a : Agent} (ha : a ∈ as) :
    ∃ b ∈ bs, b.kind = a.kind ∧ (∀ m ∈ a.cur, m ∈ b.cur) ∧ (∀ m ∈ a.pend, m ∈ b.pend) := by
  obtain ⟨j, hj⟩ := List.mem_iff_getElem?.1 ha
  obtain ⟨b, h1, h2⟩ := h.2 j a hj
  exact ⟨b, List.mem_iff_getElem?.2 ⟨j, h1⟩, h2⟩

theorem Grow.from {as bs : List Agent} (h : Grow as bs) {b : Agent} (hb : b ∈ bs) :
    ∃ a ∈ as, b.kind = a.kind ∧ (∀ m ∈ a.cur, m ∈ b.cur) ∧ (∀ m ∈ a.pend, m ∈ b.pend) := by
  obtain ⟨j, hj⟩ := List.mem_iff_getElem?.1 hb
  have hl : j < as.length := by
    rw [h.1]
    exact (List.getElem?_eq_some_iff.1 hj).1
  obtain ⟨b', h1, h2⟩ := h.2 j as[j] (List.getElem?_eq_getElem hl)
  rw [hj] at h1
  cases h1
  exact ⟨as[j], List.getElem_mem hl, h2⟩

theorem Grow.count {as bs : List Agent} (h : Grow as bs) (p : Agent → Bool) (hp : ∀ a b : Agent, b.kind = a.kind → p b = p a) :
    bs.countP p = as.countP p := by
  induction as generalizing bs with
  | nil =>
    have := h.1
    cases bs with
    | nil => rfl
    | cons b bs => simp at this
  | cons a as ih =>
    cases bs with
    | nil => have := h.1; simp at this
    | cons b bs =>
      obtain ⟨b', h1, h2, -⟩ := h.2 0 a rfl
      simp at h1
      subst h1
      have := ih (bs := bs) ⟨by have := h.1; simpa using this, fun j x hx => h.2 (j + 1) x (by simpa using hx)⟩
      simp only [List.countP_cons, this, hp a b h2]

theorem alive_kind (a b : Agent) (h : b.kind = a.kind) : b.alive = a.alive := by simp only [Agent.alive, h]
theorem last_kind (a b : Agent) (h : b.kind = a.kind) : b.last = a.last := by simp only [Agent.last, h]
theorem src_kind (a b : Agent) (h : b.kind = a.kind) : b.src = a.src := by simp only [Agent.src, h]

theorem Kept.grow {s : St} {bs : List Agent} {m : Nat} (h : Kept s m) (g : Grow s.agents bs) : Kept { s with agents := bs } m := by
  rcases h with h | ⟨a, h1, h2, h3⟩ | ⟨a, h1, h2, h3⟩ | ⟨a, h1, h2, h3⟩ | h
  · exact .inl h
  · obtain ⟨b, b1, b2, b3, b4⟩ := g.mem h1
    exact .inr (.inl ⟨b, b1, by rw [alive_kind a b b2]; exact h2, b3 m h3⟩)
  · obtain ⟨b, b1, b2, b3, b4⟩ := g.mem h1
    exact .inr (.inr (.inl ⟨b, b1, by rw [b2]; exact h2, h3.elim (fun x => .inl (b3 m x)) (fun x => .inr (b4 m x))⟩))
  · obtain ⟨b, b1, b2, b3, b4⟩ := g.mem h1
    exact .inr (.inr (.inr (.inl ⟨b, b1, by rw [b2]; exact h2, b3 m h3⟩)))
  · exact .inr (.inr (.inr (.inr h)))

theorem Inv.grow {s : St} {bs : List Agent} (v : Inv s) (g : Grow s.agents bs) : Inv { s with agents := bs } where
  race := v.race
  late := v.late
  rc := by rw [g.count _ alive_kind]; exact v.rc
  one := by rw [g.count _ last_kind]; exact v.one
  src := by
    intro b hb i hi
    obtain ⟨a, a1, a2, -⟩ := g.from hb
    obtain ⟨c, c1, c2⟩ := v.src a a1 i (by rw [← src_kind a b a2]; exact hi)
    obtain ⟨d, d1, d2, -⟩ := g.2 i c c1
    exact ⟨d, d1, d2.trans c2⟩
  born := by
    intro b hb
    obtain ⟨a, a1, -, a3, -⟩ := g.from hb
    exact a3 0 (v.born a a1)
  kept := fun m hm => (v.kept m hm).grow g
  key := by
    intro b hb h
    obtain ⟨a, a1, a2, -⟩ := g.from hb
    exact v.key a a1 (by rw [← a2]; exact h)
  fresh := v.fresh

theorem grow_set {as : List Agent} {k : Nat} {a b : Agent} (h : as[k]? = some a) (hk : b.kind = a.kind) (hc : ∀ m ∈ a.cur, m ∈ b.cur)
    (hp : ∀ m ∈ a.pend, m ∈ b.pend) : Grow as (as.set k b) := by
  refine ⟨by simp, fun j x hx => ?_⟩
  by_cases hj : k = j
  · subst hj
    rw [h] at hx
    cases hx
    exact ⟨b, by rw [List.getElem?_set_self (List.getElem?_eq_some_iff.1 h).1], hk, hc, hp⟩
  · exact ⟨x, by rw [List.getElem?_set_ne hj]; exact hx, rfl, fun _ h => h, fun _ h => h⟩

theorem grow_back (as : List Agent) (i : Nat) (v : List Nat) : Grow as (back as i v) := by
  simp only [back]
  split
  · rename_i a ha
    exact grow_set ha rfl (fun m hm => List.mem_append_right v hm) (fun _ h => h)
  · exact ⟨rfl, fun j x hx => ⟨x, hx, rfl, fun _ h => h, fun _ h => h⟩⟩

theorem Inv.bump {s : St} (v : Inv s) (h : Kept s s.n) : Inv { s with n := s.n + 1 } where
  race := v.race
  late := v.late
  rc := v.rc
  one := v.one
  src := v.src
  born := v.born
  kept := fun m hm => by
    rcases Nat.lt_succ_iff_lt_or_eq.1 hm with hm | rfl
    · exact v.kept m hm
    · exact h
  key := v.key
  fresh := v.fresh

theorem mem_set_cases {l : List Agent} {k : Nat} {b x : Agent} (h : x ∈ l.set k b) : x ∈ l ∨ x = b :=
  (List.mem_or_eq_of_mem_set h)

theorem mem_set_of_ne {l : List Agent} {k : Nat} {a b x : Agent} (hk : l[k]? = some a) (h : x ∈ l) : x ∈ l.set k b ∨ x = a := by
  obtain ⟨j, hj⟩ := List.mem_iff_getElem?.1 h
  by_cases e : k = j
  · subst e; rw [hk] at hj; cases hj; exact .inr rfl
  · exact .inl (List.mem_iff_getElem?.2 ⟨j, by rw [List.getElem?_set_ne e]; exact hj⟩)

theorem mem_set_self {l : List Agent} {k : Nat} {a : Agent} (b : Agent) (hk : l[k]? = some a) : b ∈ l.set k b :=
  List.mem_iff_getElem?.2 ⟨k, by rw [List.getElem?_set_self (List.getElem?_eq_some_iff.1 hk).1]⟩

/-- A handle is alive while it is borrowed. -/
theorem Inv.pos {s : St} (v : Inv s) {a : Agent} (ha : a ∈ s.agents) (h : a.alive = true) : s.rc ≠ 0 := by
  rw [v.rc]
  have := List.countP_pos_iff (p := Agent.alive) (l := s.agents) |>.2 ⟨a, ha, h⟩
  omega

theorem Inv.live {s : St} (v : Inv s) (h : s.rc ≠ 0) : s.freed = false ∧ s.agents.countP Agent.last = 0 := by
  have := v.one
  simp only [if_neg h] at this
  refine ⟨?_, by omega⟩
  cases hf : s.freed with
  | false => rfl
  | true => rw [hf] at this; simp at this

theorem no_last {l : List Agent} (h : l.countP Agent.last = 0) {a : Agent} (ha : a ∈ l) : a.last = false := by
  cases e : a.last with
  | false => rfl
  | true =>
    have := List.countP_pos_iff (p := Agent.last) (l := l) |>.2 ⟨a, ha, e⟩
    omega

theorem no_alive {l : List Agent} (h : l.countP Agent.alive = 0) {a : Agent} (ha : a ∈ l) : a.alive = false := by
  cases e : a.alive with
  | false => rfl
  | true =>
    have := List.countP_pos_iff (p := Agent.alive) (l := l) |>.2 ⟨a, ha, e⟩
    omega

theorem contains_zero {l : List Nat} (h : 0 ∈ l) : (!l.contains 0) = false := by simp [h]

theorem inv_init : Inv init where
  race := rfl
  late := rfl
  rc := rfl
  one := rfl
  src := by intro a ha i hi; simp [init] at ha; subst ha; simp [Agent.src] at hi
  born := by intro a ha; simp [init] at ha; subst ha; simp
  kept := by
    intro m hm
    have : m = 0 := by simp [init] at hm; omega
    subst this
    exact .inr (.inl ⟨⟨.own, [0], []⟩, by simp [init], rfl, by simp⟩)
  key := by intro a ha h; simp [init] at ha; subst ha; simp at h
  fresh := fun _ => rfl

/-- A new operation that borrows a handle. -/
theorem Inv.push {s : St} (v : Inv s) {i : Nat} {b : Agent} (hi : s.agents[i]? = some b) (hb : b.kind = .own) (a : Agent)
    (h1 : a.alive = false) (h2 : a.last = false) (h3 : a.src = some i) (h4 : a.cur = b.cur) :
    Inv { s with agents := s.agents ++ [a] } where
  race := v.race
  late := v.late
  rc := by simp [List.countP_append, h1, v.rc]
  one := by
    have := v.one
    simp [List.countP_append, h2]
    simpa using this
  src := by
    intro x hx j hj
    have key : ∃ c, s.agents[j]? = some c ∧ c.kind = .own := by
      rcases List.mem_append.1 hx with hx | hx
      · exact v.src x hx j hj
      · simp at hx
        subst hx
        rw [h3] at hj
        cases hj
        exact ⟨b, hi, hb⟩
    obtain ⟨c, c1, c2⟩ := key
    exact ⟨c, by rw [List.getElem?_append_left (List.getElem?_eq_some_iff.1 c1).1]; exact c1, c2⟩
  born := by
    intro x hx
    rcases List.mem_append.1 hx with hx | hx
    · exact v.born x hx
    · simp at hx
      subst hx
      rw [h4]
      exact v.born b (List.mem_iff_getElem?.2 ⟨i, hi⟩)
  kept := by
    intro m hm
    rcases v.kept m hm with h | ⟨a, h1, h2, h3⟩ | ⟨a, h1, h2, h3⟩ | ⟨a, h1, h2, h3⟩ | h
    · exact .inl h
    · exact .inr (.inl ⟨a, List.mem_append_left _ h1, h2, h3⟩)
    · exact .inr (.inr (.inl ⟨a, List.mem_append_left _ h1, h2, h3⟩))
    · exact .inr (.inr (.inr (.inl ⟨a, List.mem_append_left _ h1, h2, h3⟩)))
    · exact .inr (.inr (.inr (.inr h)))
  key := by
    intro x hx h
    rcases List.mem_append.1 hx with hx | hx
    · exact v.key x hx h
    · simp at hx
      subst hx
      exfalso
      rcases h with h | h <;> simp [Agent.last, h] at h2
  fresh := v.fresh

/-- A step of an agent that is not a handle and does not destroy: the agent `k`, which borrows, becomes `b`, and
the counter and its view may grow. -/
theorem Inv.borrow {s : St} (v : Inv s) {k i : Nat} {a b : Agent} {rc : Nat} {msg : List Nat} (hk : s.agents[k]? = some a)
    (hi : a.src = some i) (hb : b.last = false) (hs : b.src = none) (h0 : 0 ∈ b.cur) (hm : ∀ m ∈ s.msg, m ∈ msg)
    (hrc : rc = s.rc + (if b.alive then 1 else 0)) : Inv { s with rc := rc, msg := msg, agents := s.agents.set k b } := by
  have ha : a.alive = false ∧ a.last = false ∧ a.kind ≠ .own := by
    obtain ⟨kd, c, p⟩ := a
    cases kd <;> simp_all [Agent.src, Agent.alive, Agent.last]
  have hak : a ∈ s.agents := List.mem_iff_getElem?.2 ⟨k, hk⟩
  obtain ⟨c, c1, c2⟩ := v.src a hak i hi
  have hc : c.alive = true := by simp [Agent.alive, c2]
  have hpos := v.pos (List.mem_iff_getElem?.2 ⟨i, c1⟩) hc
  have e1 := countP_set (p := Agent.alive) b hk
  have e2 := countP_set (p := Agent.last) b hk
  simp only [ha.1, ha.2.1, hb] at e1 e2
  have hr := v.rc
  refine { race := v.race, late := v.late, rc := ?_, one := ?_, src := ?_, born := ?_, kept := ?_, key := ?_, fresh := ?_ }
  · simp only
    rw [hrc, v.rc]
    simp at e1
    split at e1 <;> simp_all
  · have h1 := v.one
    have h2 : (if rc = 0 then 0 else 1) = 1 := if_neg (by omega)
    rw [if_neg hpos] at h1
    simp only [h2]
    simp at e2
    rw [e2]
    exact h1
  · intro x hx j hj
    rcases mem_set_cases hx with hx | rfl
    · obtain ⟨d, d1, d2⟩ := v.src x hx j hj
      refine ⟨d, ?_, d2⟩
      by_cases e : k = j
      · subst e
        rw [hk] at d1
        cases d1
        exact absurd d2 ha.2.2
      · rw [List.getElem?_set_ne e]
        exact d1
    · rw [hs] at hj
      cases hj
  · intro x hx
    rcases mem_set_cases hx with hx | rfl
    · exact v.born x hx
    · exact h0
  · intro m hm'
    have nl := (v.live hpos).2
    rcases v.kept m hm' with h | ⟨x, h1, h2, h3⟩ | ⟨x, h1, h2, h3⟩ | ⟨x, h1, h2, h3⟩ | h
    · exact .inl ⟨by simp only; omega, hm m h.2⟩
    · rcases mem_set_of_ne hk h1 (b := b) with h1 | rfl
      · exact .inr (.inl ⟨x, h1, h2, h3⟩)
      · rw [ha.1] at h2; cases h2
    · have := no_last nl h1
      simp [Agent.last, h2] at this
    · have := no_last nl h1
      rcases h2 with h2 | h2 <;> simp [Agent.last, h2] at this
    · rw [(v.live hpos).1] at h; cases h
  · intro x hx h
    rcases mem_set_cases hx with hx | rfl
    · exact v.key x hx h
    · rcases h with h | h <;> simp [Agent.last, h] at hb
  · intro _
    exact v.fresh hpos

/-- Who destroys is alone. -/
theorem Inv.alone {s : St} (v : Inv s) {k : Nat} {a : Agent} (hk : s.agents[k]? = some a) (hl : a.last = true) :
    s.rc = 0 ∧ s.freed = false ∧ (∀ x ∈ s.agents, x.alive = false) ∧ (∀ x ∈ s.agents, x.last = true → x = a) := by
  have hak : a ∈ s.agents := List.mem_iff_getElem?.2 ⟨k, hk⟩
  have h1 := List.countP_pos_iff (p := Agent.last) (l := s.agents) |>.2 ⟨a, hak, hl⟩
  have h2 := v.one
  have h3 : s.rc = 0 := by
    by_cases h : s.rc = 0
    · exact h
    · rw [if_neg h] at h2; omega
  have h4 : s.freed = false := by
    cases h : s.freed with
    | false => rfl
    | true => rw [h] at h2; simp at h2; omega
  refine ⟨h3, h4, fun x hx => no_alive (by rw [← v.rc]; exact h3) hx, fun x hx hxl => ?_⟩
  have e := countP_set (p := Agent.last) (⟨.gone, [], []⟩ : Agent) hk
  rw [if_pos hl] at e
  have hg : (⟨.gone, [], []⟩ : Agent).last = false := rfl
  rw [hg] at e
  rw [h4, h3] at h2
  simp at h2 e
  rcases mem_set_of_ne hk hx (b := ⟨.gone, [], []⟩) with h | h
  · exact absurd (no_last (by omega) h) (by rw [hxl]; simp)
  · exact h

/-- All accesses so far happen before what the destroyer does. -/
theorem Inv.seen {s : St} (v : Inv s) {k : Nat} {a : Agent} (hk : s.agents[k]? = some a) (hl : a.kind = .key ∨ a.kind = .free) :
    ∀ m, m < s.n → m ∈ a.cur := by
  intro m hm
  have hla : a.last = true := by rcases hl with h | h <;> simp [Agent.last, h]
  obtain ⟨c1, c2, c3, c4⟩ := v.alone hk hla
  rcases v.kept m hm with h | ⟨x, h1, h2, h3⟩ | ⟨x, h1, h2, h3⟩ | ⟨x, h1, h2, h3⟩ | h
  · exact absurd c1 h.1
  · rw [c3 x h1] at h2; cases h2
  · have := c4 x h1 (by simp [Agent.last, h2])
    subst this
    rcases hl with h | h <;> rw [h] at h2 <;> cases h2
  · have := c4 x h1 (by rcases h2 with h | h <;> simp [Agent.last, h])
    subst this
    exact h3
  · rw [c2] at h; cases h

theorem sees_of {n : Nat} {cur : List Nat} (h : ∀ m, m < n → m ∈ cur) : (!sees n cur) = false := by
  simp only [sees, Bool.not_eq_false', List.all_eq_true, List.mem_range, List.contains_iff_mem]
  exact h

/-- The agent that destroys goes on; `b` is what becomes of it. -/
theorem Inv.destroy {s : St} (v : Inv s) {k : Nat} {a b : Agent} {kd fr : Bool} (hk : s.agents[k]? = some a) (hl : a.last = true)
    (hal : b.alive = false) (hs : b.src = none) (hc : ∀ m ∈ a.cur, m ∈ b.cur) (hfr : fr = !b.last)
    (hkd : b.kind = .fence ∨ b.kind = .key → kd = false)
    (hkept : ∀ m, m < s.n → fr = true ∨ (b.kind = .fence ∧ (m ∈ b.cur ∨ m ∈ b.pend)) ∨ ((b.kind = .key ∨ b.kind = .free) ∧ m ∈ b.cur)) :
    Inv { s with keyDead := kd, freed := fr, agents := s.agents.set k b } := by
  have hak : a ∈ s.agents := List.mem_iff_getElem?.2 ⟨k, hk⟩
  obtain ⟨c1, c2, c3, c4⟩ := v.alone hk hl
  have ha : a.alive = false := c3 a hak
  have ho : a.kind ≠ .own := by intro h; simp [Agent.last, h] at hl
  have e1 := countP_set (p := Agent.alive) b hk
  have e2 := countP_set (p := Agent.last) b hk
  rw [ha, hal] at e1
  rw [if_pos hl] at e2
  simp at e1
  have others : ∀ x ∈ s.agents.set k b, x.last = true → x = b := by
    intro x hx hxl
    obtain ⟨j, hj⟩ := List.mem_iff_getElem?.1 hx
    by_cases e : k = j
    · subst e
      rw [List.getElem?_set_self (List.getElem?_eq_some_iff.1 hk).1] at hj
      cases hj
      rfl
    · exfalso
      have e3 := countP_set (p := Agent.last) (⟨.gone, [], []⟩ : Agent) hk
      have hg : (⟨.gone, [], []⟩ : Agent).last = false := rfl
      rw [if_pos hl, hg] at e3
      have h := v.one
      rw [c2, if_pos c1] at h
      simp at h e3
      have : x ∈ s.agents.set k ⟨.gone, [], []⟩ :=
        List.mem_iff_getElem?.2 ⟨j, by rw [List.getElem?_set_ne e] at hj ⊢; exact hj⟩
      have := no_last (by omega) this
      rw [hxl] at this
      cases this
  refine { race := v.race, late := v.late, rc := ?_, one := ?_, src := ?_, born := ?_, kept := ?_, key := ?_, fresh := ?_ }
  · simp only; rw [e1]; exact v.rc
  · have h := v.one
    rw [c2, if_pos c1] at h
    simp only [if_pos c1]
    cases hb : b.last with
    | true =>
      rw [hfr, hb]
      rw [if_pos hb] at e2
      simp only [Bool.not_true, Bool.false_eq_true, if_false] at h ⊢
      omega
    | false =>
      rw [hfr, hb]
      rw [hb] at e2
      simp only [Bool.not_false, Bool.false_eq_true, if_false, if_true] at h e2 ⊢
      omega
  · intro x hx j hj
    rcases mem_set_cases hx with hx | rfl
    · obtain ⟨d, d1, d2⟩ := v.src x hx j hj
      refine ⟨d, ?_, d2⟩
      by_cases e : k = j
      · subst e
        rw [hk] at d1
        cases d1
        exact absurd d2 ho
      · rw [List.getElem?_set_ne e]
        exact d1
    · rw [hs] at hj
      cases hj
  · intro x hx
    rcases mem_set_cases hx with hx | rfl
    · exact v.born x hx
    · exact hc 0 (v.born a hak)
  · intro m hm
    have hb := mem_set_self b hk
    rcases hkept m hm with h | ⟨h1, h2⟩ | ⟨h1, h2⟩
    · exact .inr (.inr (.inr (.inr h)))
    · exact .inr (.inr (.inl ⟨b, hb, h1, h2⟩))
    · exact .inr (.inr (.inr (.inl ⟨b, hb, h1, h2⟩)))
  · intro x hx h
    have hx0 := hx
    by_cases hn : x = b
    · subst hn; exact hkd h
    · exact absurd (others x hx0 (by rcases h with h | h <;> simp [Agent.last, h])) hn
  · intro h
    exact absurd c1 h

/-- `fetch_sub` by a handle that is given up. -/
theorem Inv.subStep {s : St} (v : Inv s) {k : Nat} {a : Agent} (hk : s.agents[k]? = some a) (hs : a.kind = .sub) (e : Nat) :
    Inv { s with rc := s.rc - 1, msg := (e :: a.cur) ++ s.msg,
                 agents := s.agents.set k ⟨if s.rc = 1 then .fence else .gone, e :: a.cur, s.msg ++ a.pend⟩ } := by
  have hak : a ∈ s.agents := List.mem_iff_getElem?.2 ⟨k, hk⟩
  have ha : a.alive = true := by simp [Agent.alive, hs]
  have hal : a.last = false := by simp [Agent.last, hs]
  have hpos := v.pos hak ha
  obtain ⟨hf, nl⟩ := v.live hpos
  generalize hb : (⟨if s.rc = 1 then .fence else .gone, e :: a.cur, s.msg ++ a.pend⟩ : Agent) = b
  have bk : b.kind = if s.rc = 1 then .fence else .gone := by rw [← hb]
  have bc : b.cur = e :: a.cur := by rw [← hb]
  have bp : b.pend = s.msg ++ a.pend := by rw [← hb]
  have b1 : b.alive = false := by by_cases h : s.rc = 1 <;> simp [Agent.alive, bk, h]
  have b2 : b.src = none := by by_cases h : s.rc = 1 <;> simp [Agent.src, bk, h]
  have b3 : b.last = decide (s.rc = 1) := by by_cases h : s.rc = 1 <;> simp [Agent.last, bk, h]
  have e1 := countP_set (p := Agent.alive) b hk
  have e2 := countP_set (p := Agent.last) b hk
  rw [ha, b1] at e1
  rw [hal, b3] at e2
  simp at e1 e2
  have hr := v.rc
  refine { race := v.race, late := v.late, rc := ?_, one := ?_, src := ?_, born := ?_, kept := ?_, key := ?_, fresh := ?_ }
  · simp only; omega
  · simp only [hf]
    by_cases h : s.rc = 1
    · rw [if_pos h] at e2
      rw [if_pos (show s.rc - 1 = 0 by omega)]
      simp only [Bool.false_eq_true, if_false]; omega
    · rw [if_neg h] at e2
      rw [if_neg (show ¬ s.rc - 1 = 0 by omega)]
      simp only [Bool.false_eq_true, if_false]; omega
  · intro x hx j hj
    rcases mem_set_cases hx with hx | rfl
    · obtain ⟨d, d1, d2⟩ := v.src x hx j hj
      refine ⟨d, ?_, d2⟩
      by_cases ej : k = j
      · subst ej
        rw [hk] at d1
        cases d1
        rw [hs] at d2
        cases d2
      · rw [List.getElem?_set_ne ej]
        exact d1
    · rw [b2] at hj
      cases hj
  · intro x hx
    rcases mem_set_cases hx with hx | rfl
    · exact v.born x hx
    · rw [bc]
      exact List.mem_cons_of_mem _ (v.born a hak)
  · intro m hm
    have hbm := mem_set_self b hk
    by_cases h1 : s.rc = 1
    · have bf : b.kind = .fence := by rw [bk, if_pos h1]
      have na : (s.agents.set k b).countP Agent.alive = 0 := by omega
      refine .inr (.inr (.inl ⟨b, hbm, bf, ?_⟩))
      rcases v.kept m hm with h | ⟨x, x1, x2, x3⟩ | ⟨x, x1, x2, x3⟩ | ⟨x, x1, x2, x3⟩ | h
      · right; rw [bp]; exact List.mem_append_left _ h.2
      · rcases mem_set_of_ne hk x1 (b := b) with x1 | rfl
        · rw [no_alive na x1] at x2; cases x2
        · left; rw [bc]; exact List.mem_cons_of_mem _ x3
      · have := no_last nl x1
        simp [Agent.last, x2] at this
      · have := no_last nl x1
        rcases x2 with x2 | x2 <;> simp [Agent.last, x2] at this
      · rw [hf] at h; cases h
    · have hr1 : s.rc - 1 ≠ 0 := by omega
      rcases v.kept m hm with h | ⟨x, x1, x2, x3⟩ | ⟨x, x1, x2, x3⟩ | ⟨x, x1, x2, x3⟩ | h
      · exact .inl ⟨hr1, List.mem_append_right _ h.2⟩
      · rcases mem_set_of_ne hk x1 (b := b) with x1 | rfl
        · exact .inr (.inl ⟨x, x1, x2, x3⟩)
        · exact .inl ⟨hr1, List.mem_append_left _ (List.mem_cons_of_mem _ x3)⟩
      · have := no_last nl x1
        simp [Agent.last, x2] at this
      · have := no_last nl x1
        rcases x2 with x2 | x2 <;> simp [Agent.last, x2] at this
      · rw [hf] at h; cases h
  · intro x hx h
    exact v.fresh hpos
  · intro _
    exact v.fresh hpos

/-- A handle that is not borrowed is about to be dropped. -/
theorem Inv.giveUp {s : St} (v : Inv s) {k : Nat} {a : Agent} (hk : s.agents[k]? = some a) (ho : a.kind = .own)
    (hb : ∀ x ∈ s.agents, x.src ≠ some k) : Inv { s with agents := s.agents.set k ⟨.sub, a.cur, a.pend⟩ } := by
  have hak : a ∈ s.agents := List.mem_iff_getElem?.2 ⟨k, hk⟩
  have ha : a.alive = true := by simp [Agent.alive, ho]
  have hal : a.last = false := by simp [Agent.last, ho]
  have hpos := v.pos hak ha
  obtain ⟨hf, nl⟩ := v.live hpos
  have e1 := countP_set (p := Agent.alive) (⟨.sub, a.cur, a.pend⟩ : Agent) hk
  have e2 := countP_set (p := Agent.last) (⟨.sub, a.cur, a.pend⟩ : Agent) hk
  rw [ha] at e1
  rw [hal] at e2
  have x1 : (⟨.sub, a.cur, a.pend⟩ : Agent).alive = true := rfl
  have x2 : (⟨.sub, a.cur, a.pend⟩ : Agent).last = false := rfl
  rw [x1] at e1
  rw [x2] at e2
  simp only [Bool.false_eq_true, if_false, if_true] at e1 e2
  have hr := v.rc
  refine { race := v.race, late := v.late, rc := ?_, one := ?_, src := ?_, born := ?_, kept := ?_, key := ?_, fresh := v.fresh }
  · simp only; omega
  · have := v.one
    simp only at this ⊢
    omega
  · intro x hx j hj
    rcases mem_set_cases hx with hx | rfl
    · obtain ⟨d, d1, d2⟩ := v.src x hx j hj
      refine ⟨d, ?_, d2⟩
      by_cases ej : k = j
      · subst ej
        exact absurd hj (hb x hx)
      · rw [List.getElem?_set_ne ej]
        exact d1
    · simp [Agent.src] at hj
  · intro x hx
    rcases mem_set_cases hx with hx | rfl
    · exact v.born x hx
    · exact v.born a hak
  · intro m hm
    rcases v.kept m hm with h | ⟨x, h1, h2, h3⟩ | ⟨x, h1, h2, h3⟩ | ⟨x, h1, h2, h3⟩ | h
    · exact .inl h
    · rcases mem_set_of_ne hk h1 (b := ⟨.sub, a.cur, a.pend⟩) with h1 | rfl
      · exact .inr (.inl ⟨x, h1, h2, h3⟩)
      · exact .inr (.inl ⟨_, mem_set_self _ hk, rfl, h3⟩)
    · have := no_last nl h1
      simp [Agent.last, h2] at this
    · have := no_last nl h1
      rcases h2 with h2 | h2 <;> simp [Agent.last, h2] at this
    · rw [hf] at h; cases h
  · intro x hx h
    exact v.fresh hpos

theorem inv_go {s s' : St} (v : Inv s) {k : Nat} {a : Agent} (hk : s.agents[k]? = some a) (h : goKind code s k a a.kind = some s') :
    Inv s' := by
  have hak : a ∈ s.agents := List.mem_iff_getElem?.2 ⟨k, hk⟩
  have h0 := v.born a hak
  have hr := v.race
  have hl := v.late
  cases hkd : a.kind with
  | own => rw [hkd] at h; cases h
  | gone => rw [hkd] at h; cases h
  | cloning i =>
    rw [hkd] at h
    have hs : a.src = some i := by simp [Agent.src, hkd]
    obtain ⟨c, c1, c2⟩ := v.src a hak i hs
    have hf := (v.live (v.pos (List.mem_iff_getElem?.2 ⟨i, c1⟩) (by simp [Agent.alive, c2]))).1
    have w := v.borrow (b := ⟨.own, s.n :: a.cur, s.msg ++ a.pend⟩) (rc := s.rc + 1) (msg := s.msg) hk hs rfl rfl
      (List.mem_cons_of_mem _ h0) (fun _ h => h) rfl
    have w1 := (w.grow (grow_back _ i (s.n :: a.cur)))
    have w2 := w1.bump (by
      refine Kept.grow (.inr (.inl ⟨⟨.own, s.n :: a.cur, s.msg ++ a.pend⟩, mem_set_self _ hk, rfl, List.mem_cons_self⟩)) (grow_back _ i _))
    simp only [goKind, code, Ord.got, Ord.left, Ord.acquires, Ord.releases, List.nil_append, Bool.false_eq_true, if_false,
      Option.some.injEq, contains_zero h0, hr, hl, hf, Bool.or_false] at h
    rw [← h]
    simp only [hr, hl, hf] at w2
    exact w2
  | «using» i =>
    rw [hkd] at h
    have hs : a.src = some i := by simp [Agent.src, hkd]
    obtain ⟨c, c1, c2⟩ := v.src a hak i hs
    have hpos := v.pos (List.mem_iff_getElem?.2 ⟨i, c1⟩) (by simp [Agent.alive, c2])
    have hf := (v.live hpos).1
    have hd := v.fresh hpos
    have hik : k ≠ i := by
      intro e
      subst e
      rw [hk] at c1
      cases c1
      rw [hkd] at c2
      cases c2
    have w := v.borrow (b := ⟨.gone, s.n :: a.cur, a.pend⟩) (rc := s.rc) (msg := s.msg) hk hs rfl rfl
      (List.mem_cons_of_mem _ h0) (fun _ h => h) rfl
    have w1 := (w.grow (grow_back _ i (s.n :: a.cur)))
    have w2 := w1.bump (by
      refine .inr (.inl ⟨{ c with cur := (s.n :: a.cur) ++ c.cur }, ?_, by simp [Agent.alive, c2], List.mem_append_left _ List.mem_cons_self⟩)
      have e : (s.agents.set k ⟨.gone, s.n :: a.cur, a.pend⟩)[i]? = some c := by rw [List.getElem?_set_ne hik]; exact c1
      simp only [back, e]
      exact mem_set_self _ e)
    simp only [goKind, Option.some.injEq, contains_zero h0, hr, hl, hf, hd, Bool.or_false] at h
    rw [← h]
    simp only [hr, hl, hf, hd] at w2
    exact w2
  | sub =>
    rw [hkd] at h
    have hpos := v.pos hak (by simp [Agent.alive, hkd])
    have hf := (v.live hpos).1
    have w := v.subStep hk hkd s.n
    have w1 := w.bump (by
      by_cases e : s.rc = 1
      · refine .inr (.inr (.inl ⟨_, mem_set_self _ hk, ?_, .inl List.mem_cons_self⟩))
        simp [e]
      · exact .inl ⟨by simp only; omega, List.mem_append_left _ List.mem_cons_self⟩)
    simp only [goKind, code, Ord.got, Ord.left, Ord.acquires, Ord.releases, List.nil_append, Bool.false_eq_true, if_false, if_true,
      Option.some.injEq, contains_zero h0, hr, hl, hf, Bool.or_false] at h
    rw [← h]
    simp only [hr, hl, hf] at w1
    exact w1
  | fence =>
    rw [hkd] at h
    have hla : a.last = true := by simp [Agent.last, hkd]
    obtain ⟨c1, c2, c3, c4⟩ := v.alone hk hla
    have hd := v.key a hak (.inl hkd)
    have w := v.destroy (b := ⟨.key, a.pend ++ a.cur, a.pend⟩) (kd := false) (fr := false) hk hla rfl rfl
      (fun m hm => List.mem_append_right _ hm) rfl (fun _ => rfl) (by
        intro m hm
        refine .inr (.inr ⟨.inl rfl, ?_⟩)
        rcases v.kept m hm with h | ⟨x, h1, h2, h3⟩ | ⟨x, h1, h2, h3⟩ | ⟨x, h1, h2, h3⟩ | h
        · exact absurd c1 h.1
        · rw [c3 x h1] at h2; cases h2
        · have := c4 x h1 (by simp [Agent.last, h2])
          subst this
          exact h3.elim (fun h => List.mem_append_right _ h) (fun h => List.mem_append_left _ h)
        · have := c4 x h1 (by rcases h2 with h | h <;> simp [Agent.last, h])
          subst this
          rw [hkd] at h2
          rcases h2 with h2 | h2 <;> cases h2
        · rw [c2] at h; cases h)
    simp only [goKind, code, if_true, Option.some.injEq] at h
    rw [← h]
    simp only [hd, c2]
    exact w
  | key =>
    rw [hkd] at h
    have hla : a.last = true := by simp [Agent.last, hkd]
    obtain ⟨c1, c2, c3, c4⟩ := v.alone hk hla
    have hd := v.key a hak (.inr hkd)
    have sn := v.seen hk (.inl hkd)
    have w := v.destroy (b := ⟨.free, s.n :: a.cur, a.pend⟩) (kd := true) (fr := false) hk hla rfl rfl
      (fun m hm => List.mem_cons_of_mem _ hm) rfl (fun h => by rcases h with h | h <;> cases h) (by
        intro m hm
        exact .inr (.inr ⟨.inr rfl, List.mem_cons_of_mem _ (sn m hm)⟩))
    have w1 := w.bump (.inr (.inr (.inr (.inl ⟨_, mem_set_self _ hk, .inr rfl, List.mem_cons_self⟩))))
    simp only [goKind, Option.some.injEq, sees_of sn, hr, hl, c2, hd, Bool.or_false] at h
    rw [← h]
    simp only [hr, hl] at w1
    exact w1
  | free =>
    rw [hkd] at h
    have hla : a.last = true := by simp [Agent.last, hkd]
    obtain ⟨c1, c2, c3, c4⟩ := v.alone hk hla
    have sn := v.seen hk (.inr hkd)
    have w := v.destroy (b := ⟨.gone, s.n :: a.cur, a.pend⟩) (kd := s.keyDead) (fr := true) hk hla rfl rfl
      (fun m hm => List.mem_cons_of_mem _ hm) rfl (fun h => by rcases h with h | h <;> cases h) (fun m hm => .inl rfl)
    have w1 := w.bump (.inr (.inr (.inr (.inr rfl))))
    simp only [goKind, Option.some.injEq, sees_of sn, hr, hl, c2, Bool.or_false] at h
    rw [← h]
    simp only [hr, hl] at w1
    exact w1

theorem inv_exec {s s' : St} (v : Inv s) (x : Act) (h : exec code s x = some s') : Inv s' := by
  cases x with
  | startClone i =>
    simp only [exec] at h
    split at h
    · rename_i cur pend hi
      cases h
      exact v.push hi rfl _ rfl rfl rfl rfl
    · cases h
  | startUse i =>
    simp only [exec] at h
    split at h
    · rename_i cur pend hi
      cases h
      exact v.push hi rfl _ rfl rfl rfl rfl
    · cases h
  | startDrop i =>
    simp only [exec] at h
    split at h
    · rename_i cur pend hi
      split at h
      · rename_i hb
        cases h
        simp only [List.all_eq_true, decide_eq_true_eq] at hb
        exact v.giveUp hi rfl hb
      · cases h
    · cases h
  | go k =>
    simp only [exec] at h
    split at h
    · exact inv_go v ‹_› h
    · cases h
  | sync k l =>
    simp only [exec] at h
    split at h
    · rename_i a b ha hb
      cases h
      exact v.grow (grow_set ha rfl (fun m hm => List.mem_append_right b.cur hm) (fun _ h => h))
    · cases h

theorem inv_run {s s' : St} (v : Inv s) (xs : List Act) (h : run code s xs = some s') : Inv s' := by
  induction xs generalizing s with
  | nil => cases h; exact v
  | cons x xs ih =>
    simp only [run] at h
    split at h
    · cases h
    · rename_i s1 h1
      exact ih (inv_exec v x h1) h

/-! ### C73 -/

/-- **C73.** With the orderings of the code, in every execution that the memory model of the language allows:
there is no data race between the creation, the uses, the counting and the destruction of a shared object, and
nothing is used after it was destroyed. -/
theorem C73_no_race {xs : List Act} {s : St} (h : run code init xs = some s) : s.race = false ∧ s.late = false :=
  ⟨(inv_run inv_init xs h).race, (inv_run inv_init xs h).late⟩

/-- **C73.** Whoever destroys the object has all other accesses of it behind them: the agent is the only one, and
each access so far, by whatever thread, happens before. -/
theorem C73_destroyed_last {xs : List Act} {s : St} (h : run code init xs = some s) {k : Nat} {a : Agent}
    (hk : s.agents[k]? = some a) (ha : a.kind = .key ∨ a.kind = .free) :
    (∀ m, m < s.n → m ∈ a.cur) ∧ (∀ b ∈ s.agents, b.kind = .own ∨ b.src.isSome → False) ∧ s.freed = false := by
  have v := inv_run inv_init xs h
  have hl : a.last = true := by rcases ha with h | h <;> simp [Agent.last, h]
  obtain ⟨-, c2, c3, -⟩ := v.alone hk hl
  refine ⟨v.seen hk ha, fun b hb h => ?_, c2⟩
  rcases h with h | h
  · have := c3 b hb
    simp [Agent.alive, h] at this
  · cases e : b.src with
    | none => rw [e] at h; cases h
    | some i =>
      obtain ⟨d, d1, d2⟩ := v.src b hb i e
      have := c3 d (List.mem_iff_getElem?.2 ⟨i, d1⟩)
      simp [Agent.alive, d2] at this

/-- Two handles in two threads; each is used and dropped. -/
def twoThreads : List Act :=
  [.startClone 0, .go 1, .startUse 1, .go 2, .startDrop 1, .go 1, .startUse 0, .go 3, .startDrop 0, .go 0, .go 0, .go 0, .go 0]

example : (run code init twoThreads).map (fun s => (s.race, s.late, s.freed, s.keyDead, s.n)) = some (false, false, true, true, 8) := by
  decide +kernel

/-- **C73.** The release of `fetch_sub` is needed: with a relaxed one, the use in the other thread races with the
destruction. -/
theorem C73_release_needed : (run { code with sub := .rlx } init twoThreads).map (·.race) = some true := by decide +kernel

/-- **C73.** An acquire instead of the release does not do either. -/
theorem C73_acquire_alone_fails : (run ⟨.rlx, .acq, true⟩ init twoThreads).map (·.race) = some true := by decide +kernel

/-- **C73.** The fence is needed. -/
theorem C73_fence_needed : (run { code with fence := false } init twoThreads).map (·.race) = some true := by decide +kernel

end Verif.Weak.Rc
