/-
What holds in every reachable state of the concurrent index. Every branch has a path (the hash bits that lead to it);
nodes are live or cut off; a branch is cut off only when all its pointers are frozen; a thread may use
everything that is live or was cut off during its operation.
-/
import Verif.Trie.Conc.Model
import Verif.Trie.Lemmas
set_option linter.unusedSectionVars false
namespace Verif.Trie.Conc
open Verif.Conc
variable {K V : Type} [DecidableEq K]

/-- What the proof knows about an address: not allocated; reachable; cut off, with the threads that were pinned then and have
neither unpinned nor begun a new operation since. -/
inductive Age where
  | free
  | live
  | gone (D : List Tid)

/-- `path`: for every branch the pointers that lead to it from the root, last first. -/
structure Gh where
  st : Addr → Age
  path : Addr → List (Fin 16)

/-- The hash leads along this path. -/
def OnP (h : UInt64) : List (Fin 16) → Prop
  | [] => True
  | i :: π => i = chunk h (LG * π.length) ∧ OnP h π

/-- The path to a place. -/
def Gh.slot (g : Gh) : Slot → List (Fin 16)
  | .root => []
  | .of b i => i :: g.path b

def Gh.Live (g : Gh) : Slot → Prop
  | .root => True
  | .of b _ => g.st b = .live

/-- Thread `t` may read `a`. -/
def Safe (g : Gh) (t : Tid) (a : Addr) : Prop := g.st a = .live ∨ ∃ D, g.st a = .gone D ∧ t ∈ D

/-- A list in a place with the path `π`. -/
structure LeafOk (hash : K → UInt64) (l : List (K × V)) (π : List (Fin 16)) : Prop where
  ne : l ≠ []
  nodup : (l.map (·.1)).Nodup
  on : ∀ e ∈ l, OnP (hash e.1) π
  one : π.length < 16 → l.length = 1

/-- The value of a key in what a pointer leads to. -/
def St.val (s : St K V) (p : Ptr) (k : K) : Option V :=
  match p with
  | .leaf a =>
    match s.list a with
    | some l => (find l k).map (·.2)
    | none => none
  | _ => none

/-- Not a branch. -/
def Ptr.term (p : Ptr) : Prop := ∀ c, p ≠ .node c

structure Shared (hash : K → UInt64) (s : St K V) (g : Gh) (m : K → Option V) : Prop where
  rootPend : s.root.pend = false
  free : ∀ a, s.heap a = none ↔ g.st a = .free
  ne : ∀ a, s.heap a ≠ some (.leaf [])
  depth : ∀ b f, s.heap b = some (.branch f) → (g.path b).length ≤ 15
  node : ∀ σ w c, g.Live σ → s.load σ = some w → w.p = .node c →
    g.st c = .live ∧ g.path c = g.slot σ ∧ ∃ f, s.heap c = some (.branch f)
  leaf : ∀ σ w a, g.Live σ → s.load σ = some w → w.p = .leaf a →
    g.st a = .live ∧ ∃ l, s.heap a = some (.leaf l) ∧ LeafOk hash l (g.slot σ)
  up : ∀ b f, g.st b = .live → s.heap b = some (.branch f) → ∃ σ w, g.Live σ ∧ s.load σ = some w ∧ w.p = .node b
  uniq : ∀ b b' f f', g.st b = .live → g.st b' = .live → s.heap b = some (.branch f) → s.heap b' = some (.branch f') →
    g.path b = g.path b' → b = b'
  val : ∀ σ w k, g.Live σ → s.load σ = some w → w.p.term → OnP (hash k) (g.slot σ) → m k = s.val w.p k
  frozen : ∀ b D f, g.st b = .gone D → s.heap b = some (.branch f) → ∀ i, (f i).pend = true
  goneN : ∀ b D f t i c, g.st b = .gone D → s.heap b = some (.branch f) → t ∈ D → (f i).p = .node c →
    Safe g t c ∧ g.path c = i :: g.path b ∧ ∃ f', s.heap c = some (.branch f')
  goneL : ∀ b D f t i a, g.st b = .gone D → s.heap b = some (.branch f) → t ∈ D → (f i).p = .leaf a →
    Safe g t a ∧ ∃ l, s.heap a = some (.leaf l)
  pinned : ∀ a D t, g.st a = .gone D → t ∈ D → t ∈ s.pinnedNow
  ret : ∀ a w, (a, w) ∈ s.retired → ∃ D, g.st a = .gone D ∧ ∀ t ∈ D, t ∈ w
  nodup : (s.retired.map (·.1)).Nodup

/-- The key of an operation. -/
def key : Op K V → K
  | .insert k _ => k
  | .upsert k _ => k
  | .update k _ => k
  | .delete k => k
  | .get k => k

/-- Every answer that the operation may give without changing anything where its key has the value `x`. -/
def Covers (S : Option V → Prop) (op : Op K V) (x : Option V) : Prop :=
  ∀ m r, m (key op) = x → now dict m op r → S r

/-- What pending operations may answer. -/
structure Seen (hash : K → UInt64) (s : St K V) (g : Gh) (e : ESt (K → Option V) (Op K V) (Option V)) : Prop where
  cur : ∀ t op S r, e.thr t = .pend op S → now dict e.q op r → S r
  gone : ∀ t op S b D f i, e.thr t = .pend op S → g.st b = .gone D → t ∈ D → s.heap b = some (.branch f) →
    (f i).p.term → OnP (hash (key op)) (i :: g.path b) → Covers S op (s.val (f i).p (key op))

def SlotOk (s : St K V) (g : Gh) (t : Tid) : Slot → Prop
  | .root => True
  | .of b _ => Safe g t b ∧ ∃ f, s.heap b = some (.branch f)

structure CurOk (hash : K → UInt64) (s : St K V) (g : Gh) (t : Tid) (k : K) (lvl : Nat) (cur : Slot) : Prop where
  slot : SlotOk s g t cur
  on : OnP (hash k) (g.slot cur)
  lvl : lvl = LG * (g.slot cur).length

structure LevOk (s : St K V) (g : Gh) (t : Tid) (x : Level) : Prop where
  slot : SlotOk s g t x.1
  safe : Safe g t x.2
  path : g.path x.2 = g.slot x.1
  br : ∃ f, s.heap x.2 = some (.branch f)

structure ParOk (s : St K V) (g : Gh) (t : Tid) (cur : Slot) (par : Option Level) : Prop where
  ok : ∀ x, par = some x → LevOk s g t x
  root : par = none → cur = .root

def LvsOk (s : St K V) (g : Gh) (t : Tid) (levels : List Level) : Prop := ∀ x ∈ levels, LevOk s g t x

def KontOk (s : St K V) (g : Gh) (t : Tid) : Kont K V → Prop
  | .up levels _ => LvsOk s g t levels
  | _ => True

structure CzOk (s : St K V) (g : Gh) (t : Tid) (i : Nat) (x : Cz K V) : Prop where
  lev : LevOk s g t (x.p, x.c)
  le : i ≤ 16
  acc : ∀ f, s.heap x.c = some (.branch f) → ∀ j : Fin 16, j.val < i → f j = ⟨x.acc j, true⟩
  zero : x.cnt = 0 → ∀ j : Fin 16, j.val < i → x.acc j = .null
  one : x.cont = true → x.cnt = 1 → ∀ a, x.last = some a → ∃ (j : Fin 16) (l : List (K × V)), j.val < i ∧
    x.acc j = .leaf a ∧ (∀ j' : Fin 16, j'.val < i → j' ≠ j → x.acc j' = .null) ∧ Safe g t a ∧
    s.heap a = some (.leaf l) ∧ l.length = 1
  k : KontOk s g t x.k

/-- A list that was found in the place `cur`. -/
def LeafAt (hash : K → UInt64) (s : St K V) (g : Gh) (t : Tid) (cur : Slot) (a : Addr) : Prop :=
  Safe g t a ∧ ∃ l, s.heap a = some (.leaf l) ∧ LeafOk hash l (g.slot cur)

/-- The list `l` is `l0` after a write. -/
structure PutOk (m : WMode) (k : K) (v : V) (l0 l : List (K × V)) (r : Option V) : Prop where
  eq : r = (find l0 k).map (·.2)
  fresh : r ≠ none → m ≠ .fresh
  refresh : r = none → m ≠ .refresh
  find : ∀ k', (find l k').map (·.2) = if k' = k then some v else (Trie.find l0 k').map (·.2)

/-- The list `l` is `l0` after a removal. -/
structure CutOk (k : K) (l0 l : List (K × V)) (r : Option V) : Prop where
  eq : r = (find l0 k).map (·.2)
  find : ∀ k', (find l k').map (·.2) = if k' = k then none else (Trie.find l0 k').map (·.2)

/-- What the locals of a thread mean. -/
def PcOk (hash : K → UInt64) (s : St K V) (g : Gh) (t : Tid) : Pc K V → Prop
  | .idle => True
  | .ret _ => True
  | .get k cur h => SlotOk s g t cur ∧ OnP (hash k) (g.slot cur) ∧
      ((g.slot cur).length < 16 → h = hash k >>> UInt64.ofNat (LG * (g.slot cur).length))
  | .getData _ a => Safe g t a ∧ ∃ l, s.heap a = some (.leaf l)
  | .patch _ k _ lvl cur par => CurOk hash s g t k lvl cur ∧ ParOk s g t cur par
  | .patchNew _ k _ lvl cur par => CurOk hash s g t k lvl cur ∧ ParOk s g t cur par
  | .patchData _ k _ lvl cur par a => (CurOk hash s g t k lvl cur ∧ ParOk s g t cur par) ∧ LeafAt hash s g t cur a
  | .patchSplit _ k _ lvl cur par a i => (CurOk hash s g t k lvl cur ∧ ParOk s g t cur par) ∧ Safe g t a ∧
      ∃ e, s.heap a = some (.leaf [e]) ∧ OnP (hash e.1) (g.slot cur) ∧ (g.slot cur).length < 16 ∧
        i = chunk (hash e.1) (LG * (g.slot cur).length)
  | .patchPut m k v lvl cur par a l r => (CurOk hash s g t k lvl cur ∧ ParOk s g t cur par) ∧ Safe g t a ∧
      ∃ l0, s.heap a = some (.leaf l0) ∧ LeafOk hash l (g.slot cur) ∧ PutOk m k v l0 l r
  | .del k lvl cur levels => CurOk hash s g t k lvl cur ∧ LvsOk s g t levels ∧ levels.length = (g.slot cur).length
  | .delData k lvl cur levels a => (CurOk hash s g t k lvl cur ∧ LvsOk s g t levels ∧
      levels.length = (g.slot cur).length) ∧ LeafAt hash s g t cur a
  | .delPut k lvl cur levels a l r => (CurOk hash s g t k lvl cur ∧ LvsOk s g t levels ∧
      levels.length = (g.slot cur).length) ∧ Safe g t a ∧
      ∃ l0, s.heap a = some (.leaf l0) ∧ (l ≠ [] → LeafOk hash l (g.slot cur)) ∧ CutOk k l0 l r
  | .count levels p c _ _ _ => LevOk s g t (p, c) ∧ LvsOk s g t levels
  | .cz i x => CzOk s g t i x
  | .czRead i a x => CzOk s g t i x ∧ Safe g t a ∧ (∃ l, s.heap a = some (.leaf l)) ∧
      ∃ hi : i < 16, ∀ f, s.heap x.c = some (.branch f) → f ⟨i, hi⟩ = ⟨.leaf a, true⟩
  | .retire _ k => KontOk s g t k
  | .fault => False
  | .panic => False

def opOf (m : WMode) (k : K) (v : V) : Op K V :=
  match m with
  | .fresh => .insert k v
  | .refresh => .update k v
  | .any => .upsert k v

def KontAbs : Kont K V → EThr (Op K V) (Option V) → Prop
  | .patch m k v, b => ∃ S, b = .pend (opOf m k v) S
  | .del k, b => ∃ S, b = .pend (.delete k) S
  | .up _ r, b => b = .done r
  | .ret r, b => b = .done r

/-- The indivisible map: an operation that changes something happens when its exchange succeeds; one that changes
nothing, when its answer is known. -/
def AbsOk (s : St K V) : Pc K V → EThr (Op K V) (Option V) → Prop
  | .idle, b => b = .idle
  | .ret r, b => b = .done r
  | .get k _ _, b => ∃ S, b = .pend (.get k) S
  | .getData k a, b => ∃ S, b = .pend (.get k) S ∧ Covers S (.get k) (s.val (.leaf a) k)
  | .patch m k v _ _ _, b => ∃ S, b = .pend (opOf m k v) S
  | .patchNew m k v _ _ _, b => (∃ S, b = .pend (opOf m k v) S) ∧ m ≠ .refresh
  | .patchData m k v _ _ _ a, b => ∃ S, b = .pend (opOf m k v) S ∧ Covers S (opOf m k v) (s.val (.leaf a) k)
  | .patchSplit m k v _ _ _ _ _, b => ∃ S, b = .pend (opOf m k v) S
  | .patchPut m k v _ _ _ _ _ _, b => ∃ S, b = .pend (opOf m k v) S
  | .del k _ _ _, b => ∃ S, b = .pend (.delete k) S
  | .delData k _ _ _ _, b => ∃ S, b = .pend (.delete k) S
  | .delPut k _ _ _ _ _ _, b => ∃ S, b = .pend (.delete k) S
  | .count _ _ _ _ _ r, b => b = .done r
  | .cz _ x, b => KontAbs x.k b
  | .czRead _ _ x, b => KontAbs x.k b
  | .retire _ k, b => KontAbs k b
  | .fault, _ => False
  | .panic, _ => False

/-- The thread cut this node off and has not retired it. -/
def owns : Pc K V → Option Addr
  | .retire a _ => some a
  | _ => none

def busy : Pc K V → Bool
  | .idle => false
  | _ => true

structure TOk (hash : K → UInt64) (s : St K V) (g : Gh) (e : ESt (K → Option V) (Op K V) (Option V)) (t : Tid) : Prop where
  ok : PcOk hash s g t (s.thr t).pc
  pin : busy (s.thr t).pc = true → (s.thr t).pinned = true
  now : (s.thr t).pinned = true → t ∈ s.pinnedNow
  own : ∀ a, owns (s.thr t).pc = some a → (∃ D, g.st a = .gone D) ∧ a ∉ s.retired.map (·.1)
  abs : AbsOk s (s.thr t).pc (e.thr t)

structure Inv (hash : K → UInt64) (s : St K V) (g : Gh) (e : ESt (K → Option V) (Op K V) (Option V)) : Prop where
  sh : Shared hash s g e.q
  seen : Seen hash s g e
  tok : ∀ t, TOk hash s g e t
  pair : ∀ t u, t ≠ u → ∀ a, owns (s.thr t).pc = some a → owns (s.thr u).pc ≠ some a

/-! ## How a thread sees the steps of others -/

structure Keeps (s s' : St K V) (g g' : Gh) (t : Tid) : Prop where
  safe : ∀ a, Safe g t a → Safe g' t a
  path : ∀ a, Safe g t a → g'.path a = g.path a
  leaf : ∀ a l, Safe g t a → s.heap a = some (.leaf l) → s'.heap a = some (.leaf l)
  branch : ∀ b f, Safe g t b → s.heap b = some (.branch f) →
    ∃ f', s'.heap b = some (.branch f') ∧ ∀ i, (f i).pend = true → f' i = f i

variable {hash : K → UInt64} {s s' : St K V} {g g' : Gh} {t : Tid}

theorem Keeps.refl (s : St K V) (g : Gh) (t : Tid) : Keeps s s g g t :=
  ⟨fun _ h => h, fun _ _ => rfl, fun _ _ _ h => h, fun _ f _ h => ⟨f, h, fun _ _ => rfl⟩⟩

theorem Keeps.slotOk (h : Keeps s s' g g' t) {σ : Slot} (hs : SlotOk s g t σ) : SlotOk s' g' t σ := by
  cases σ with
  | root => trivial
  | of b i =>
    obtain ⟨h1, f, h2⟩ := hs
    obtain ⟨f', h3, _⟩ := h.branch b f h1 h2
    exact ⟨h.safe b h1, f', h3⟩

theorem Keeps.slot (h : Keeps s s' g g' t) {σ : Slot} (hs : SlotOk s g t σ) : g'.slot σ = g.slot σ := by
  cases σ with
  | root => rfl
  | of b i => simp only [Gh.slot]; rw [h.path b hs.1]

theorem Keeps.curOk (h : Keeps s s' g g' t) {k : K} {lvl : Nat} {σ : Slot} (hs : CurOk hash s g t k lvl σ) :
    CurOk hash s' g' t k lvl σ := by
  have e := h.slot hs.slot
  exact ⟨h.slotOk hs.slot, by rw [e]; exact hs.on, by rw [e]; exact hs.lvl⟩

theorem Keeps.levOk (h : Keeps s s' g g' t) {x : Level} (hs : LevOk s g t x) : LevOk s' g' t x := by
  have e := h.slot hs.slot
  obtain ⟨f, hf⟩ := hs.br
  obtain ⟨f', h3, _⟩ := h.branch _ f hs.safe hf
  exact ⟨h.slotOk hs.slot, h.safe _ hs.safe, by rw [e, h.path _ hs.safe]; exact hs.path, f', h3⟩

theorem Keeps.parOk (h : Keeps s s' g g' t) {σ : Slot} {par : Option Level} (hs : ParOk s g t σ par) : ParOk s' g' t σ par :=
  ⟨fun x hx => h.levOk (hs.ok x hx), hs.root⟩

theorem Keeps.lvsOk (h : Keeps s s' g g' t) {ls : List Level} (hs : LvsOk s g t ls) : LvsOk s' g' t ls :=
  fun x hx => h.levOk (hs x hx)

theorem Keeps.kontOk (h : Keeps s s' g g' t) {k : Kont K V} (hs : KontOk s g t k) : KontOk s' g' t k := by
  cases k with
  | up ls r => exact h.lvsOk hs
  | patch | del | ret => trivial

theorem Keeps.leafAt (h : Keeps s s' g g' t) {σ : Slot} (hσ : SlotOk s g t σ) {a : Addr} (hs : LeafAt hash s g t σ a) :
    LeafAt hash s' g' t σ a := by
  obtain ⟨h1, l, h2, h3⟩ := hs
  exact ⟨h.safe _ h1, l, h.leaf _ _ h1 h2, by rw [h.slot hσ]; exact h3⟩

theorem Keeps.czOk (h : Keeps s s' g g' t) {i : Nat} {x : Cz K V} (hs : CzOk s g t i x) : CzOk s' g' t i x := by
  obtain ⟨f, hf⟩ := hs.lev.br
  refine ⟨h.levOk hs.lev, hs.le, fun f2 hf2 j hj => ?_, hs.zero, fun h1 h2 a ha => ?_, h.kontOk hs.k⟩
  · obtain ⟨f', h3, h4⟩ := h.branch _ f hs.lev.safe hf
    simp only at h3
    rw [hf2] at h3
    cases h3
    have := hs.acc f hf j hj
    rw [h4 j (by rw [this]), this]
  · obtain ⟨j, l, h3, h4, h5, h6, h7, h8⟩ := hs.one h1 h2 a ha
    exact ⟨j, l, h3, h4, h5, h.safe _ h6, h.leaf _ _ h6 h7, h8⟩

theorem Keeps.pcOk (h : Keeps s s' g g' t) {pc : Pc K V} (hp : PcOk hash s g t pc) : PcOk hash s' g' t pc := by
  cases pc with
  | idle | ret => trivial
  | fault | panic => exact hp
  | get k cur hh => exact ⟨h.slotOk hp.1, by rw [h.slot hp.1]; exact hp.2.1, by rw [h.slot hp.1]; exact hp.2.2⟩
  | getData k a =>
    obtain ⟨h1, l, h2⟩ := hp
    exact ⟨h.safe _ h1, l, h.leaf _ _ h1 h2⟩
  | patch | patchNew => exact ⟨h.curOk hp.1, h.parOk hp.2⟩
  | patchData => exact ⟨⟨h.curOk hp.1.1, h.parOk hp.1.2⟩, h.leafAt hp.1.1.slot hp.2⟩
  | patchSplit m k v lvl cur par a i =>
    obtain ⟨⟨h1, h2⟩, h3, e, h4, h5⟩ := hp
    exact ⟨⟨h.curOk h1, h.parOk h2⟩, h.safe _ h3, e, h.leaf _ _ h3 h4, by rw [h.slot h1.slot]; exact h5⟩
  | patchPut =>
    obtain ⟨⟨h1, h2⟩, h3, l0, h4, h5, h6⟩ := hp
    exact ⟨⟨h.curOk h1, h.parOk h2⟩, h.safe _ h3, l0, h.leaf _ _ h3 h4, by rw [h.slot h1.slot]; exact h5, h6⟩
  | del => exact ⟨h.curOk hp.1, h.lvsOk hp.2.1, by rw [h.slot hp.1.slot]; exact hp.2.2⟩
  | delData =>
    obtain ⟨hp, hl⟩ := hp
    exact ⟨⟨h.curOk hp.1, h.lvsOk hp.2.1, by rw [h.slot hp.1.slot]; exact hp.2.2⟩, h.leafAt hp.1.slot hl⟩
  | delPut =>
    obtain ⟨hp, h3, l0, h4, h5, h6⟩ := hp
    exact ⟨⟨h.curOk hp.1, h.lvsOk hp.2.1, by rw [h.slot hp.1.slot]; exact hp.2.2⟩, h.safe _ h3, l0, h.leaf _ _ h3 h4,
      by rw [h.slot hp.1.slot]; exact h5, h6⟩
  | count => exact ⟨h.levOk hp.1, h.lvsOk hp.2⟩
  | cz => exact h.czOk hp
  | czRead i a x =>
    obtain ⟨h1, h2, ⟨l, h3⟩, h4, h5⟩ := hp
    refine ⟨h.czOk h1, h.safe _ h2, ⟨l, h.leaf _ _ h2 h3⟩, h4, fun f2 hf2 => ?_⟩
    obtain ⟨f, hf⟩ := h1.lev.br
    obtain ⟨f', h6, h7⟩ := h.branch _ f h1.lev.safe hf
    simp only at h6
    rw [hf2] at h6
    cases h6
    have := h5 f hf
    rw [h7 _ (by rw [this]), this]
  | retire => exact h.kontOk hp

/-- Answers stay possible. -/
inductive EMono : EThr (Op K V) (Option V) → EThr (Op K V) (Option V) → Prop where
  | idle : EMono .idle .idle
  | pend {op S S'} : (∀ r, S r → S' r) → EMono (.pend op S) (.pend op S')
  | done {r} : EMono (.done r) (.done r)

theorem EMono.refl : ∀ b : EThr (Op K V) (Option V), EMono b b
  | .idle => .idle
  | .pend _ _ => .pend fun _ h => h
  | .done _ => .done

theorem EMono.see (m : K → Option V) : ∀ b : EThr (Op K V) (Option V), EMono b (Conc.see dict m b)
  | .idle => .idle
  | .pend _ _ => .pend fun _ h => .inl h
  | .done _ => .done

theorem Covers.mono {S S' : Option V → Prop} {op : Op K V} {x : Option V} (h : Covers S op x) (hS : ∀ r, S r → S' r) :
    Covers S' op x := fun m r h1 h2 => hS r (h m r h1 h2)

theorem Keeps.val (h : Keeps s s' g g' t) {a : Addr} (hs : Safe g t a) {l : List (K × V)} (hl : s.heap a = some (.leaf l))
    (k : K) : s'.val (.leaf a) k = s.val (.leaf a) k := by
  simp only [St.val, St.list, hl, h.leaf a l hs hl]

theorem Keeps.kontAbs {k : Kont K V} {b b' : EThr (Op K V) (Option V)} (hb : EMono b b') (ha : KontAbs k b) : KontAbs k b' := by
  cases hb with
  | idle => exact ha
  | done => exact ha
  | pend hS =>
    cases k with
    | patch | del =>
      obtain ⟨S, h1⟩ := ha
      cases h1
      exact ⟨_, rfl⟩
    | up | ret => cases ha

theorem Keeps.absOk (h : Keeps s s' g g' t) {pc : Pc K V} (hp : PcOk hash s g t pc) {b b' : EThr (Op K V) (Option V)}
    (hb : EMono b b') (ha : AbsOk s pc b) : AbsOk s' pc b' := by
  cases pc with
  | idle | ret | count => cases hb <;> first | exact ha | cases ha
  | fault | panic => exact ha
  | get | patch | patchSplit | patchPut | del | delData | delPut =>
    obtain ⟨S, rfl⟩ := ha
    cases hb
    exact ⟨_, rfl⟩
  | patchNew =>
    obtain ⟨⟨S, rfl⟩, h2⟩ := ha
    cases hb
    exact ⟨⟨_, rfl⟩, h2⟩
  | getData k a =>
    obtain ⟨S, rfl, h1⟩ := ha
    obtain ⟨h2, l, h3⟩ := hp
    cases hb with
    | pend hS => exact ⟨_, rfl, by rw [h.val h2 h3]; exact h1.mono hS⟩
  | patchData m k v lvl cur par a =>
    obtain ⟨S, rfl, h1⟩ := ha
    obtain ⟨_, h2, l, h3, _⟩ := hp
    cases hb with
    | pend hS => exact ⟨_, rfl, by rw [h.val h2 h3]; exact h1.mono hS⟩
  | cz | czRead | retire => exact Keeps.kontAbs hb ha

variable {e e' : ESt (K → Option V) (Op K V) (Option V)}

theorem TOk.mono (h : TOk hash s g e t) (hthr : s'.thr t = s.thr t) (hk : (s.thr t).pinned = true → Keeps s s' g g' t)
    (he : EMono (e.thr t) (e'.thr t)) (hnow : t ∈ s.pinnedNow → t ∈ s'.pinnedNow)
    (hown : ∀ a, owns (s.thr t).pc = some a → (∃ D, g'.st a = .gone D) ∧ a ∉ s'.retired.map (·.1)) :
    TOk hash s' g' e' t where
  ok := by
    rw [hthr]
    by_cases hb : busy (s.thr t).pc = true
    · exact (hk (h.pin hb)).pcOk h.ok
    · cases hp : (s.thr t).pc <;> simp [hp, busy] at hb
      trivial
  pin := by rw [hthr]; exact h.pin
  now := by rw [hthr]; exact fun hp => hnow (h.now hp)
  own := by rw [hthr]; exact hown
  abs := by
    rw [hthr]
    by_cases hb : busy (s.thr t).pc = true
    · exact (hk (h.pin hb)).absOk h.ok he h.abs
    · have ha := h.abs
      cases hp : (s.thr t).pc <;> simp [hp, busy] at hb
      rw [hp] at ha
      generalize he1 : e.thr t = b at ha he
      generalize e'.thr t = b' at he
      cases he <;> first | exact ha | cases ha

/-- Putting the pieces together after a step of thread `t`. -/
theorem Inv.move (hi : Inv hash s g e) (t : Tid) (hsh : Shared hash s' g' e'.q) (hseen : Seen hash s' g' e')
    (hthr : ∀ u, u ≠ t → s'.thr u = s.thr u) (hk : ∀ u, u ≠ t → (s.thr u).pinned = true → Keeps s s' g g' u)
    (he : ∀ u, u ≠ t → EMono (e.thr u) (e'.thr u)) (hnow : ∀ u, u ≠ t → u ∈ s.pinnedNow → u ∈ s'.pinnedNow)
    (hown : ∀ u, u ≠ t → ∀ a, owns (s.thr u).pc = some a → (∃ D, g'.st a = .gone D) ∧ a ∉ s'.retired.map (·.1))
    (ht : TOk hash s' g' e' t)
    (hpair : ∀ u, u ≠ t → ∀ a, owns (s'.thr t).pc = some a → owns (s.thr u).pc ≠ some a) : Inv hash s' g' e' where
  sh := hsh
  seen := hseen
  tok u := by
    by_cases h : u = t
    · subst h; exact ht
    · exact (hi.tok u).mono (hthr u h) (hk u h) (he u h) (hnow u h) (hown u h)
  pair u v huv a ha hv := by
    by_cases h : u = t
    · subst h
      rw [hthr v (Ne.symm huv)] at hv
      exact hpair v (Ne.symm huv) a ha hv
    · by_cases h' : v = t
      · subst h'
        rw [hthr u h] at ha
        exact hpair u h a hv ha
      · rw [hthr u h] at ha
        rw [hthr v h'] at hv
        exact hi.pair u v huv a ha hv

/-- Only a thread has moved. -/
theorem Shared.at {m : K → Option V} (h : Shared hash s g m) (t : Tid) (pc : Pc K V) : Shared hash (s.at t pc) g m := by
  have hl : ∀ σ, (s.at t pc).load σ = s.load σ := fun σ => by cases σ <;> rfl
  exact ⟨h.rootPend, h.free, h.ne, h.depth, fun σ w c => by rw [hl]; exact h.node σ w c,
    fun σ w a => by rw [hl]; exact h.leaf σ w a,
    fun b f h1 h2 => by
      obtain ⟨σ, w, h3⟩ := h.up b f h1 h2
      exact ⟨σ, w, by rw [hl]; exact h3⟩,
    h.uniq, fun σ w k => by rw [hl]; exact h.val σ w k, h.frozen, h.goneN, h.goneL, h.pinned, h.ret, h.nodup⟩

/-- A step that changes only where thread `t` is. -/
theorem Inv.quiet (hi : Inv hash s g e) (t : Tid) (pc : Pc K V) (b : EThr (Op K V) (Option V))
    (hb : b = e.thr t ∨ ∃ r, b = .done r) (hpin : busy pc = true → (s.thr t).pinned = true) (hok : PcOk hash s g t pc)
    (hown : owns pc = none) (habs : AbsOk s pc b) : Inv hash (s.at t pc) g ⟨e.q, upd e.thr t b⟩ := by
  have hk : ∀ u, Keeps s (s.at t pc) g g u :=
    fun u => ⟨fun _ h => h, fun _ _ => rfl, fun _ _ _ h => h, fun _ f _ h => ⟨f, h, fun _ _ => rfl⟩⟩
  refine hi.move t (hi.sh.at t pc) ⟨?_, ?_⟩ (fun u hu => by simp [St.at, hu]) (fun u _ _ => hk u)
    (fun u hu => by simp only [upd_other _ _ hu]; exact EMono.refl _) (fun _ _ h => h) (fun u _ a ha => (hi.tok u).own a ha)
    ?_ (fun u hu a ha => ?_)
  · intro u op S r hu
    by_cases h : u = t
    · subst h
      simp only [upd_same] at hu
      rcases hb with hb | ⟨r', hb⟩
      · exact hi.seen.cur u op S r (by rw [← hb, hu])
      · rw [hb] at hu; cases hu
    · simp only [upd_other _ _ h] at hu
      exact hi.seen.cur u op S r hu
  · intro u op S b' D f i hu
    by_cases h : u = t
    · subst h
      simp only [upd_same] at hu
      rcases hb with hb | ⟨r', hb⟩
      · exact hi.seen.gone u op S b' D f i (by rw [← hb, hu])
      · rw [hb] at hu; cases hu
    · simp only [upd_other _ _ h] at hu
      exact hi.seen.gone u op S b' D f i hu
  · constructor
    · simp only [St.at, upd_same]; exact (hk t).pcOk hok
    · simp only [St.at, upd_same]; exact hpin
    · simp only [St.at, upd_same]; exact (hi.tok t).now
    · simp only [St.at, upd_same, hown]; intro a ha; cases ha
    · simp only [St.at, upd_same]; exact (hk t).absOk hok (EMono.refl _) habs
  · simp only [St.at, upd_same, hown] at ha; cases ha

end Verif.Trie.Conc
