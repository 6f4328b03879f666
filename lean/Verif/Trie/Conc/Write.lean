/-
Writing to the concurrent index: a successful exchange at a place that is not frozen, and freezing a place.
-/
import Verif.Trie.Conc.Inv
set_option linter.unusedSectionVars false
namespace Verif.Trie.Conc
open Verif.Conc
variable {K V : Type} [DecidableEq K]
variable {hash : K → UInt64} {s s' : St K V} {g g' : Gh} {t : Tid}

/-! ## Paths -/

theorem OnP.eq {h : UInt64} : ∀ {π ρ : List (Fin 16)}, OnP h π → OnP h ρ → π.length = ρ.length → π = ρ
  | [], [], _, _, _ => rfl
  | [], _ :: _, _, _, hl => by simp at hl
  | _ :: _, [], _, _, hl => by simp at hl
  | i :: π, j :: ρ, h1, h2, hl => by
    have hl' : π.length = ρ.length := by simpa using hl
    have := h1.2.eq h2.2 hl'
    subst this
    rw [h1.1, h2.1]

theorem load_of {b : Addr} {i : Fin 16} {w : Word} (h : s.load (.of b i) = some w) :
    ∃ f, s.heap b = some (.branch f) ∧ f i = w := by
  simp only [St.load] at h
  split at h
  · rename_i f hf
    exact ⟨f, hf, Option.some.inj h⟩
  · cases h

theorem Shared.slot_inj {m : K → Option V} (h : Shared hash s g m) {σ τ : Slot} {w w' : Word} (hσ : g.Live σ) (hτ : g.Live τ)
    (h1 : s.load σ = some w) (h2 : s.load τ = some w') (he : g.slot σ = g.slot τ) : σ = τ := by
  cases σ with
  | root =>
    cases τ with
    | root => rfl
    | of b i => simp [Gh.slot] at he
  | of b i =>
    cases τ with
    | root => simp [Gh.slot] at he
    | of b' i' =>
      simp only [Gh.slot, List.cons.injEq] at he
      obtain ⟨f, hf, _⟩ := load_of h1
      obtain ⟨f', hf', _⟩ := load_of h2
      rw [h.uniq b b' f f' hσ hτ hf hf' he.2, he.1]

/-- A live place on the way to another holds a branch. -/
theorem Shared.above {m : K → Option V} (h : Shared hash s g m) {k : K} {σ : Slot} {w : Word} (hσ : g.Live σ)
    (h1 : s.load σ = some w) (o1 : OnP (hash k) (g.slot σ)) : ∀ (n : Nat) {τ : Slot} {w' : Word}, (g.slot τ).length = n →
    g.Live τ → s.load τ = some w' → OnP (hash k) (g.slot τ) → (g.slot σ).length < n → ∃ c, w.p = .node c
  | 0, _, _, _, _, _, _, hl => by omega
  | n + 1, τ, w', hn, hτ, h2, o2, hl => by
    cases τ with
    | root => simp [Gh.slot] at hn
    | of b i =>
      have h2' := h2
      simp only [St.load] at h2'
      split at h2' <;> try cases h2'
      rename_i f hf
      obtain ⟨τ', v, h3, h4, h5⟩ := h.up b f hτ hf
      have h6 := h.node τ' v b h3 h4 h5
      simp only [Gh.slot] at o2 hn
      have o3 : OnP (hash k) (g.slot τ') := by rw [← h6.2.1]; exact o2.2
      have hn' : (g.slot τ').length = n := by rw [← h6.2.1]; simpa using hn
      by_cases e : (g.slot σ).length = n
      · have := h.slot_inj hσ h3 h1 h4 (o1.eq o3 (by omega))
        subst this
        rw [h1] at h4
        cases h4
        exact ⟨b, h5⟩
      · exact h.above hσ h1 o1 n hn' h3 h4 o3 (by omega)

/-- There is only one place that holds what is known about a key. -/
theorem Shared.term_inj {m : K → Option V} (h : Shared hash s g m) {k : K} {σ τ : Slot} {w w' : Word} (hσ : g.Live σ)
    (hτ : g.Live τ) (h1 : s.load σ = some w) (h2 : s.load τ = some w') (o1 : OnP (hash k) (g.slot σ))
    (o2 : OnP (hash k) (g.slot τ)) (t1 : w.p.term) (t2 : w'.p.term) : σ = τ := by
  rcases Nat.lt_trichotomy (g.slot σ).length (g.slot τ).length with hl | hl | hl
  · obtain ⟨c, hc⟩ := h.above hσ h1 o1 _ rfl hτ h2 o2 hl
    exact absurd hc (t1 c)
  · exact h.slot_inj hσ hτ h1 h2 (o1.eq o2 hl)
  · obtain ⟨c, hc⟩ := h.above hτ h2 o2 _ rfl hσ h1 o1 hl
    exact absurd hc (t2 c)

/-- What is safe is allocated. -/
theorem Shared.safe_alloc {m : K → Option V} (h : Shared hash s g m) {a : Addr} (hs : Safe g t a) : s.heap a ≠ none := by
  intro hn
  have := (h.free a).1 hn
  rcases hs with hs | ⟨D, hs, _⟩ <;> rw [this] at hs <;> cases hs

theorem Shared.live_alloc {m : K → Option V} (h : Shared hash s g m) {a : Addr} (hs : g.st a = .live) : s.heap a ≠ none :=
  h.safe_alloc (t := 0) (.inl hs)

/-- A place that is not frozen is live. -/
theorem Shared.unfrozen {m : K → Option V} (h : Shared hash s g m) {σ : Slot} (hs : SlotOk s g t σ) {p : Ptr}
    (hl : s.load σ = some ⟨p, false⟩) : g.Live σ := by
  cases σ with
  | root => trivial
  | of b i =>
    obtain ⟨h1 | ⟨D, h1, _⟩, f, hf⟩ := hs
    · exact h1
    · have := h.frozen b D f h1 hf i
      simp only [St.load, hf, Option.some.injEq] at hl
      rw [hl] at this
      cases this

theorem SlotOk.load {σ : Slot} (h : SlotOk s g t σ) : ∃ w, s.load σ = some w := by
  cases σ with
  | root => exact ⟨_, rfl⟩
  | of b i =>
    obtain ⟨_, f, hf⟩ := h
    exact ⟨f i, by simp [St.load, hf]⟩

/-! ## The memory after an exchange -/

/-- Allocate if needed, then write. -/
def St.put (s : St K V) (new : Option (Addr × Cell K V)) (σ : Slot) (w : Word) : St K V :=
  match new with
  | some (n, c) => (s.alloc n c).store σ w
  | none => s.store σ w

section put
variable {new : Option (Addr × Cell K V)} {σ : Slot} {w w0 : Word}

theorem store_branch {b : Addr} {f : Fin 16 → Word} (hb : s.heap b = some (.branch f)) (σ : Slot) (w : Word) :
    (s.store σ w).heap b = some (.branch fun j => if Slot.of b j = σ then w else f j) := by
  cases σ with
  | root => simp [St.store, hb]
  | of c i =>
    simp only [St.store]
    by_cases e : b = c
    · subst e
      simp only [hb, setHeap, if_true]
      congr 2
      funext j
      by_cases hj : j = i <;> simp [hj]
    · split
      · simp [setHeap, e, hb]
      · simp [hb, e]

theorem store_leaf {b : Addr} {l : List (K × V)} (hb : s.heap b = some (.leaf l)) (σ : Slot) (w : Word) :
    (s.store σ w).heap b = some (.leaf l) := by
  cases σ with
  | root => simp [St.store, hb]
  | of c i =>
    simp only [St.store]
    split
    · rename_i f hf
      have : b ≠ c := by rintro rfl; rw [hb] at hf; cases hf
      simp [setHeap, this, hb]
    · exact hb

theorem store_none {b : Addr} (hb : s.heap b = none) (σ : Slot) (w : Word) : (s.store σ w).heap b = none := by
  cases σ with
  | root => simp [St.store, hb]
  | of c i =>
    simp only [St.store]
    split
    · rename_i f hf
      have : b ≠ c := by rintro rfl; rw [hb] at hf; cases hf
      simp [setHeap, this, hb]
    · exact hb

theorem store_rest (s : St K V) (σ : Slot) (w : Word) :
    (s.store σ w).retired = s.retired ∧ (s.store σ w).pinnedNow = s.pinnedNow ∧ (s.store σ w).thr = s.thr := by
  cases σ with
  | root => exact ⟨rfl, rfl, rfl⟩
  | of c i => simp only [St.store]; split <;> exact ⟨rfl, rfl, rfl⟩

theorem store_root (s : St K V) (σ : Slot) (w : Word) : (s.store σ w).root = if σ = .root then w else s.root := by
  cases σ with
  | root => rfl
  | of c i => simp only [St.store]; split <;> simp

theorem store_load (hl : s.load σ = some w0) (τ : Slot) (w : Word) :
    (s.store σ w).load τ = if τ = σ then some w else s.load τ := by
  cases τ with
  | root =>
    simp only [St.load, store_root]
    by_cases e : σ = .root
    · simp [e]
    · simp [e, Ne.symm e]
  | of b i =>
    cases hb : s.heap b with
    | none =>
      simp only [St.load, store_none hb, hb]
      have : Slot.of b i ≠ σ := by rintro rfl; simp [St.load, hb] at hl
      simp [this]
    | some c =>
      cases c with
      | leaf l =>
        simp only [St.load, store_leaf hb, hb]
        have : Slot.of b i ≠ σ := by rintro rfl; simp [St.load, hb] at hl
        simp [this]
      | branch f =>
        simp only [St.load, store_branch hb, hb]
        split <;> rfl

/-- Facts about `put` with a fresh address. -/
structure PutFacts (s s' : St K V) (new : Option (Addr × Cell K V)) (σ : Slot) (w : Word) : Prop where
  ld : s'.load σ = some w
  ldNew : ∀ n f i, new = some (n, .branch f) → s'.load (.of n i) = some (f i)
  ldOld : ∀ τ, τ ≠ σ → (∀ n c i, new = some (n, c) → τ ≠ .of n i) → s'.load τ = s.load τ
  hNew : ∀ n c, new = some (n, c) → s'.heap n = some c
  hLeaf : ∀ a l, s.heap a = some (.leaf l) → s'.heap a = some (.leaf l)
  hBranch : ∀ b f, s.heap b = some (.branch f) →
    s'.heap b = some (.branch fun j => if Slot.of b j = σ then w else f j)
  hNone : ∀ a, s.heap a = none → (∀ c, new ≠ some (a, c)) → s'.heap a = none
  rest : s'.retired = s.retired ∧ s'.pinnedNow = s.pinnedNow ∧ s'.thr = s.thr
  root : s'.root = if σ = .root then w else s.root

theorem put_facts (hl : s.load σ = some w0) (hf : ∀ n c, new = some (n, c) → s.heap n = none) :
    PutFacts s (s.put new σ w) new σ w := by
  cases new with
  | none =>
    simp only [St.put]
    refine ⟨by rw [store_load hl]; simp, fun _ _ _ h => (by cases h), fun τ h _ => by rw [store_load hl]; simp [h],
      fun _ _ h => (by cases h), fun a l h => store_leaf h _ _, fun b f h => store_branch h _ _,
      fun a h _ => store_none h _ _, store_rest _ _ _, store_root _ _ _⟩
  | some x =>
    obtain ⟨n, c⟩ := x
    have hn := hf n c rfl
    have hne : ∀ b, s.heap b ≠ none → b ≠ n := fun b hb e => hb (e ▸ hn)
    have ha : ∀ b, b ≠ n → (s.alloc n c).heap b = s.heap b := fun b hb => by simp [St.alloc, setHeap, hb]
    have han : (s.alloc n c).heap n = some c := by simp [St.alloc, setHeap]
    have hla : ∀ τ, (∀ i, τ ≠ .of n i) → (s.alloc n c).load τ = s.load τ := by
      intro τ hτ
      cases τ with
      | root => rfl
      | of b i =>
        have : b ≠ n := fun e => hτ i (e ▸ rfl)
        simp only [St.load, ha b this]
    have hσn : ∀ i, σ ≠ .of n i := by
      rintro i rfl
      simp [St.load, hn] at hl
    have hl' : (s.alloc n c).load σ = some w0 := by rw [hla σ hσn]; exact hl
    simp only [St.put]
    refine ⟨by rw [store_load hl']; simp, fun n' f i h => ?_, fun τ h h' => ?_, fun n' c' h => ?_, fun a l h => ?_,
      fun b f h => ?_, fun a h h' => ?_, store_rest _ _ _, store_root _ _ _⟩
    · cases h
      rw [store_load hl', if_neg (Ne.symm (hσn i))]
      simp [St.load, han]
    · rw [store_load hl', if_neg h]
      exact hla τ (fun i => h' n c i rfl)
    · cases h
      cases c with
      | leaf l => exact store_leaf han _ _
      | branch f =>
        rw [store_branch han]
        congr 2
        funext j
        rw [if_neg (Ne.symm (hσn j))]
    · exact store_leaf (by rw [ha a (hne a (by simp [h]))]; exact h) _ _
    · exact store_branch (by rw [ha b (hne b (by simp [h]))]; exact h) _ _
    · exact store_none (by rw [ha a (fun e => h' c (e ▸ rfl))]; exact h) _ _

variable {p0 p' : Ptr}

theorem PutFacts.leafInv (h : PutFacts s s' new σ w) {a : Addr} {l : List (K × V)} (ha : s'.heap a = some (.leaf l)) :
    new = some (a, .leaf l) ∨ s.heap a = some (.leaf l) := by
  cases hs : s.heap a with
  | some c =>
    cases c with
    | leaf l' => rw [h.hLeaf a l' hs] at ha; cases ha; exact .inr rfl
    | branch f => rw [h.hBranch a f hs] at ha; cases ha
  | none =>
    by_cases hn : ∃ c, new = some (a, c)
    · obtain ⟨c, hc⟩ := hn
      rw [h.hNew a c hc] at ha
      cases ha
      exact .inl hc
    · rw [h.hNone a hs (fun c hc => hn ⟨c, hc⟩)] at ha
      cases ha

theorem PutFacts.branchInv (h : PutFacts s s' new σ w) {b : Addr} {f' : Fin 16 → Word} (hb : s'.heap b = some (.branch f')) :
    new = some (b, .branch f') ∨
      ∃ f, s.heap b = some (.branch f) ∧ f' = fun j => if Slot.of b j = σ then w else f j := by
  cases hs : s.heap b with
  | some c =>
    cases c with
    | leaf l' => rw [h.hLeaf b l' hs] at hb; cases hb
    | branch f => rw [h.hBranch b f hs] at hb; cases hb; exact .inr ⟨f, rfl, rfl⟩
  | none =>
    by_cases hn : ∃ c, new = some (b, c)
    · obtain ⟨c, hc⟩ := hn
      rw [h.hNew b c hc] at hb
      cases hb
      exact .inl hc
    · rw [h.hNone b hs (fun c hc => hn ⟨c, hc⟩)] at hb
      cases hb

end put

/-- The ghost after an exchange at `σ`: `n` is new, `old` is cut off. -/
def Gh.put (g : Gh) (n old : Option Addr) (P : List Tid) (σ : Slot) : Gh where
  st a := if n = some a then .live else if old = some a then .gone P else g.st a
  path a := if n = some a then g.slot σ else g.path a

/-- What is needed of an exchange at the place `σ` of `p0` for `p'`. -/
structure WriteOk (hash : K → UInt64) (s s' : St K V) (g : Gh) (m m' : K → Option V) (σ : Slot) (p0 p' : Ptr)
    (new : Option (Addr × Cell K V)) (old : Option Addr) : Prop where
  live : g.Live σ
  ld : s.load σ = some ⟨p0, false⟩
  put : PutFacts s s' new σ ⟨p', false⟩
  fresh : ∀ n c, new = some (n, c) → s.heap n = none
  oldp : ∀ x, old = some x → p0 = .leaf x ∨ p0 = .node x
  oldn : ∀ c, p0 = .node c → old = some c
  ne : ∀ n l, new = some (n, .leaf l) → l ≠ []
  nodeNew : ∀ c, p' = .node c → ∃ f, new = some (c, .branch f)
  leafNew : ∀ a, p' = .leaf a → ∃ l, LeafOk hash l (g.slot σ) ∧
    (new = some (a, .leaf l) ∨ (s.heap a = some (.leaf l) ∧ g.st a = .live ∧ old ≠ some a))
  brNew : ∀ n f, new = some (n, .branch f) → p' = .node n ∧ (g.slot σ).length ≤ 15
  brNode : ∀ n f i c, new = some (n, .branch f) → (f i).p = .node c →
    g.st c = .live ∧ old ≠ some c ∧ g.path c = i :: g.slot σ ∧ ∃ f', s.heap c = some (.branch f')
  brLeaf : ∀ n f i a, new = some (n, .branch f) → (f i).p = .leaf a →
    g.st a = .live ∧ old ≠ some a ∧ ∃ l, s.heap a = some (.leaf l) ∧ LeafOk hash l (i :: g.slot σ)
  oldBr : ∀ c f i, p0 = .node c → s.heap c = some (.branch f) → (f i).pend = true ∧
    ∀ c', (f i).p = .node c' → ∃ n f', new = some (n, .branch f') ∧ (f' i).p = .node c'
  val1 : ∀ k, p'.term → OnP (hash k) (g.slot σ) → m' k = s'.val p' k
  val2 : ∀ n f i k, new = some (n, .branch f) → (f i).p.term → OnP (hash k) (i :: g.slot σ) → m' k = s'.val (f i).p k
  val3 : ∀ k, (¬ OnP (hash k) (g.slot σ) ∨ ∃ c, p0 = .node c) → m' k = m k

section write
variable {m m' : K → Option V} {σ : Slot} {p0 p' : Ptr} {new : Option (Addr × Cell K V)} {old : Option Addr} {P : List Tid}

theorem WriteOk.oldLive (h : WriteOk hash s s' g m m' σ p0 p' new old) (hs : Shared hash s g m) {x : Addr} (hx : old = some x) :
    g.st x = .live := by
  rcases h.oldp x hx with e | e
  · exact (hs.leaf σ _ x h.live h.ld e).1
  · exact (hs.node σ _ x h.live h.ld e).1

/-- Allocated addresses are not new. -/
theorem WriteOk.notNew (h : WriteOk hash s s' g m m' σ p0 p' new old) {a : Addr} (ha : s.heap a ≠ none) :
    new.map (·.1) ≠ some a := by
  intro e
  cases hn : new with
  | none => rw [hn] at e; cases e
  | some x =>
    obtain ⟨n, c⟩ := x
    rw [hn] at e
    cases e
    exact ha (h.fresh _ c hn)

theorem WriteOk.stOld (h : WriteOk hash s s' g m m' σ p0 p' new old) {a : Addr} (ha : s.heap a ≠ none) (ho : old ≠ some a) :
    (g.put (new.map (·.1)) old P σ).st a = g.st a := by
  simp only [Gh.put, if_neg (h.notNew ha), if_neg ho]

theorem WriteOk.pathOld (h : WriteOk hash s s' g m m' σ p0 p' new old) {a : Addr} (ha : s.heap a ≠ none) :
    (g.put (new.map (·.1)) old P σ).path a = g.path a := by
  simp only [Gh.put, if_neg (h.notNew ha)]

theorem WriteOk.stNew (n : Addr) (c : Cell K V) (hn : new = some (n, c)) :
    (g.put (new.map (·.1)) old P σ).st n = .live := by
  simp [Gh.put, hn]

theorem WriteOk.pathNew (n : Addr) (c : Cell K V) (hn : new = some (n, c)) :
    (g.put (new.map (·.1)) old P σ).path n = g.slot σ := by
  simp [Gh.put, hn]

theorem WriteOk.stGone (h : WriteOk hash s s' g m m' σ p0 p' new old) (hs : Shared hash s g m) {x : Addr} (hx : old = some x) :
    (g.put (new.map (·.1)) old P σ).st x = .gone P := by
  have := h.notNew (hs.live_alloc (h.oldLive hs hx))
  simp only [Gh.put, if_neg this, hx, if_true]

theorem WriteOk.σAlloc (h : WriteOk hash s s' g m m' σ p0 p' new old) {b : Addr} {i : Fin 16} (e : σ = .of b i) :
    s.heap b ≠ none := by
  intro hn
  have := h.ld
  rw [e] at this
  simp [St.load, hn] at this

theorem WriteOk.slotσ (h : WriteOk hash s s' g m m' σ p0 p' new old) :
    (g.put (new.map (·.1)) old P σ).slot σ = g.slot σ := by
  cases e : σ with
  | root => rfl
  | of b i => subst e; simp only [Gh.slot]; rw [h.pathOld (h.σAlloc rfl)]

/-- The old node is not the one that holds the place. -/
theorem WriteOk.σOld (h : WriteOk hash s s' g m m' σ p0 p' new old) (hs : Shared hash s g m) {b : Addr} {i : Fin 16}
    (e : σ = .of b i) : old ≠ some b := by
  intro ho
  have hl := h.ld
  rw [e] at hl
  simp only [St.load] at hl
  split at hl <;> try cases hl
  rename_i f hf
  rcases h.oldp b ho with e' | e'
  · obtain ⟨_, l, h2, _⟩ := hs.leaf σ _ b h.live h.ld e'
    rw [hf] at h2; cases h2
  · have := (hs.node σ _ b h.live h.ld e').2.1
    rw [e] at this
    have := congrArg List.length this
    simp [Gh.slot] at this

theorem WriteOk.liveσ (h : WriteOk hash s s' g m m' σ p0 p' new old) (hs : Shared hash s g m) :
    (g.put (new.map (·.1)) old P σ).Live σ := by
  cases e : σ with
  | root => trivial
  | of b i =>
    have hl := h.live
    rw [e] at hl
    have ha := h.stOld (P := P) (h.σAlloc e) (h.σOld hs e)
    subst e
    show (g.put (new.map (·.1)) old P (.of b i)).st b = .live
    rw [ha]; exact hl

/-- The places that are live afterwards. -/
theorem WriteOk.liveInv (h : WriteOk hash s s' g m m' σ p0 p' new old) (hs : Shared hash s g m) {τ : Slot} {w : Word}
    (hτ : (g.put (new.map (·.1)) old P σ).Live τ) (hl : s'.load τ = some w) :
    (τ = σ ∧ w = ⟨p', false⟩) ∨ (∃ n f i, new = some (n, .branch f) ∧ τ = .of n i ∧ w = f i) ∨
      (τ ≠ σ ∧ g.Live τ ∧ s.load τ = some w ∧ (g.put (new.map (·.1)) old P σ).slot τ = g.slot τ ∧
        ∀ b i, τ = .of b i → s.heap b ≠ none ∧ old ≠ some b) := by
  by_cases e : τ = σ
  · subst e
    left
    rw [h.put.ld] at hl
    exact ⟨rfl, (Option.some.inj hl).symm⟩
  · right
    cases τ with
    | root =>
      right
      rw [h.put.ldOld .root e (fun _ _ _ _ => by simp)] at hl
      exact ⟨e, trivial, hl, rfl, fun b i e => by cases e⟩
    | of b i =>
      by_cases hn : ∃ c, new = some (b, c)
      · obtain ⟨c, hc⟩ := hn
        left
        have hh := h.put.hNew b c hc
        cases c with
        | leaf l => simp [St.load, hh] at hl
        | branch f =>
          rw [h.put.ldNew b f i hc] at hl
          exact ⟨b, f, i, hc, rfl, (Option.some.inj hl).symm⟩
      · right
        rw [h.put.ldOld _ e (fun n c j hc e' => hn ⟨c, by cases e'; exact hc⟩)] at hl
        have ha : s.heap b ≠ none := by
          intro hx; simp [St.load, hx] at hl
        have ho : old ≠ some b := by
          intro ho
          have : (g.put (new.map (·.1)) old P σ).st b = .live := hτ
          rw [h.stGone hs ho] at this
          cases this
        refine ⟨e, ?_, hl, ?_, ?_⟩
        · have : (g.put (new.map (·.1)) old P σ).st b = .live := hτ
          rw [h.stOld ha ho] at this
          exact this
        · simp only [Gh.slot]; rw [h.pathOld ha]
        · intro b' i' e'
          cases e'
          exact ⟨ha, ho⟩

/-- Pointers in other live places do not lead to the node that is cut off. -/
theorem WriteOk.notOldN (h : WriteOk hash s s' g m m' σ p0 p' new old) (hs : Shared hash s g m) {τ : Slot} {w : Word} {c : Addr}
    (hne : τ ≠ σ) (hτ : g.Live τ) (hl : s.load τ = some w) (hw : w.p = .node c) : old ≠ some c := by
  intro ho
  obtain ⟨h1, h2, f, h3⟩ := hs.node τ w c hτ hl hw
  rcases h.oldp c ho with e | e
  · obtain ⟨_, l, h4, _⟩ := hs.leaf σ _ c h.live h.ld e
    rw [h3] at h4; cases h4
  · have := (hs.node σ _ c h.live h.ld e).2.1
    exact hne (hs.slot_inj hτ h.live hl h.ld (by rw [← h2, this]))

theorem WriteOk.notOldL (h : WriteOk hash s s' g m m' σ p0 p' new old) (hs : Shared hash s g m) {τ : Slot} {w : Word} {a : Addr}
    (hne : τ ≠ σ) (hτ : g.Live τ) (hl : s.load τ = some w) (hw : w.p = .leaf a) : old ≠ some a := by
  intro ho
  obtain ⟨h1, l, h2, h3⟩ := hs.leaf τ w a hτ hl hw
  rcases h.oldp a ho with e | e
  · obtain ⟨_, l', h4, h5⟩ := hs.leaf σ _ a h.live h.ld e
    rw [h2] at h4
    cases h4
    obtain ⟨x, hx⟩ := List.exists_mem_of_ne_nil _ h3.ne
    exact hne (hs.term_inj (k := x.1) hτ h.live hl h.ld (h3.on x hx) (h5.on x hx)
      (by intro c hc; rw [hw] at hc; cases hc) (by intro c hc; simp only at hc; rw [e] at hc; cases hc))
  · obtain ⟨_, _, f, h4⟩ := hs.node σ _ a h.live h.ld e
    rw [h2] at h4; cases h4

theorem WriteOk.val (h : WriteOk hash s s' g m m' σ p0 p' new old) {a : Addr} {l : List (K × V)}
    (ha : s.heap a = some (.leaf l)) (k : K) : s'.val (.leaf a) k = s.val (.leaf a) k := by
  simp only [St.val, St.list, ha, h.put.hLeaf a l ha]

theorem WriteOk.safe (h : WriteOk hash s s' g m m' σ p0 p' new old) (hs : Shared hash s g m) {u : Tid} (hu : u ∈ s.pinnedNow)
    {a : Addr} (ha : Safe g u a) : Safe (g.put (new.map (·.1)) old s.pinnedNow σ) u a := by
  have hal := hs.safe_alloc ha
  by_cases ho : old = some a
  · exact .inr ⟨_, h.stGone hs ho, hu⟩
  · simp only [Safe, h.stOld hal ho]
    exact ha

theorem WriteOk.keeps (h : WriteOk hash s s' g m m' σ p0 p' new old) (hs : Shared hash s g m) {u : Tid} (hu : u ∈ s.pinnedNow) :
    Keeps s s' g (g.put (new.map (·.1)) old s.pinnedNow σ) u := by
  refine ⟨fun a ha => h.safe hs hu ha, fun a ha => h.pathOld (hs.safe_alloc ha), fun a l _ hl => h.put.hLeaf a l hl,
    fun b f _ hb => ⟨_, h.put.hBranch b f hb, fun i hi => ?_⟩⟩
  by_cases e : Slot.of b i = σ
  · have := h.ld
    rw [← e] at this
    simp only [St.load, hb, Option.some.injEq] at this
    rw [this] at hi
    cases hi
  · simp only [e, if_false]

/-- A branch that is cut off afterwards. -/
theorem WriteOk.goneInv (h : WriteOk hash s s' g m m' σ p0 p' new old) (hs : Shared hash s g m) {b : Addr} {D : List Tid}
    {f : Fin 16 → Word} (hb : (g.put (new.map (·.1)) old P σ).st b = .gone D) (hf : s'.heap b = some (.branch f)) :
    s.heap b = some (.branch f) ∧ s.heap b ≠ none ∧
      ((old = some b ∧ p0 = .node b ∧ D = P) ∨ (old ≠ some b ∧ g.st b = .gone D)) := by
  rcases h.put.branchInv hf with hn | ⟨f0, h0, h1⟩
  · rw [WriteOk.stNew b _ hn] at hb; cases hb
  · have ha : s.heap b ≠ none := by rw [h0]; simp
    have hne : ∀ j, Slot.of b j ≠ σ := by
      intro j e
      have hl := h.liveσ (P := P) hs
      rw [← e] at hl
      have : (g.put (new.map (·.1)) old P (.of b j)).st b = .live := hl
      rw [e] at this
      rw [this] at hb
      cases hb
    have hff : f = f0 := by
      rw [h1]; funext j; rw [if_neg (hne j)]
    rw [hff]
    refine ⟨h0, ha, ?_⟩
    by_cases ho : old = some b
    · left
      rw [h.stGone hs ho] at hb
      cases hb
      refine ⟨ho, ?_, rfl⟩
      rcases h.oldp b ho with e | e
      · obtain ⟨_, l, h2, _⟩ := hs.leaf σ _ b h.live h.ld e
        rw [h0] at h2; cases h2
      · exact e
    · right
      rw [h.stOld ha ho] at hb
      exact ⟨ho, hb⟩

theorem Shared.write (hs : Shared hash s g m) (h : WriteOk hash s s' g m m' σ p0 p' new old) :
    Shared hash s' (g.put (new.map (·.1)) old s.pinnedNow σ) m' := by
  have hnode : ∀ τ w c, (g.put (new.map (·.1)) old s.pinnedNow σ).Live τ → s'.load τ = some w → w.p = .node c →
      (g.put (new.map (·.1)) old s.pinnedNow σ).st c = .live ∧
      (g.put (new.map (·.1)) old s.pinnedNow σ).path c = (g.put (new.map (·.1)) old s.pinnedNow σ).slot τ ∧
      ∃ f, s'.heap c = some (.branch f) := by
    intro τ w c hτ hl hw
    rcases h.liveInv hs hτ hl with ⟨e, rfl⟩ | ⟨n, f, i, hn, rfl, rfl⟩ | ⟨hne, hτ', hl', hsl, _⟩
    · subst e
      obtain ⟨f, hf⟩ := h.nodeNew c hw
      exact ⟨WriteOk.stNew c _ hf, by rw [WriteOk.pathNew c _ hf, h.slotσ], f, h.put.hNew c _ hf⟩
    · obtain ⟨h1, h2, h3, f', h4⟩ := h.brNode n f i c hn hw
      have ha : s.heap c ≠ none := by rw [h4]; simp
      refine ⟨by rw [h.stOld ha h2]; exact h1, ?_, _, h.put.hBranch c f' h4⟩
      show _ = i :: (g.put (new.map (·.1)) old s.pinnedNow σ).path n
      rw [h.pathOld ha, h3, WriteOk.pathNew n _ hn]
    · obtain ⟨h1, h2, f', h4⟩ := hs.node τ w c hτ' hl' hw
      have ha : s.heap c ≠ none := by rw [h4]; simp
      exact ⟨by rw [h.stOld ha (h.notOldN hs hne hτ' hl' hw)]; exact h1, by rw [h.pathOld ha, hsl, h2], _,
        h.put.hBranch c f' h4⟩
  refine ⟨?_, ?_, ?_, ?_, hnode, ?_, ?_, ?_, ?_, ?_, ?_, ?_, ?_, ?_, ?_⟩
  · rw [h.put.root]
    split
    · rfl
    · exact hs.rootPend
  · intro a
    by_cases hn : ∃ c, new = some (a, c)
    · obtain ⟨c, hc⟩ := hn
      rw [WriteOk.stNew a c hc, h.put.hNew a c hc]
      simp
    · have hn' : new.map (·.1) ≠ some a := by
        intro e
        cases hnew : new with
        | none => rw [hnew] at e; cases e
        | some x => rw [hnew] at e; cases e; exact hn ⟨x.2, by rw [hnew]⟩
      constructor
      · intro ha
        have ha' : s.heap a = none := by
          cases hx : s.heap a with
          | none => rfl
          | some c =>
            cases c with
            | leaf l => rw [h.put.hLeaf a l hx] at ha; cases ha
            | branch f => rw [h.put.hBranch a f hx] at ha; cases ha
        have hst := (hs.free a).1 ha'
        simp only [Gh.put, if_neg hn']
        rw [if_neg]
        · exact hst
        · intro ho
          have := h.oldLive hs ho
          rw [hst] at this; cases this
      · intro ha
        simp only [Gh.put, if_neg hn'] at ha
        split at ha
        · cases ha
        · exact h.put.hNone a ((hs.free a).2 ha) (fun c hc => hn ⟨c, hc⟩)
  · intro a ha
    rcases h.put.leafInv ha with hn | hn
    · exact h.ne a [] hn rfl
    · exact hs.ne a hn
  · intro b f' hb
    rcases h.put.branchInv hb with hn | ⟨f, hf, _⟩
    · rw [WriteOk.pathNew b _ hn]; exact (h.brNew b f' hn).2
    · rw [h.pathOld (by rw [hf]; simp)]; exact hs.depth b f hf
  · intro τ w a hτ hl hw
    rcases h.liveInv hs hτ hl with ⟨e, rfl⟩ | ⟨n, f, i, hn, rfl, rfl⟩ | ⟨hne, hτ', hl', hsl, _⟩
    · subst e
      obtain ⟨l, h1, h2 | ⟨h2, h3, h4⟩⟩ := h.leafNew a hw
      · exact ⟨WriteOk.stNew a _ h2, l, h.put.hNew a _ h2, by rw [h.slotσ]; exact h1⟩
      · exact ⟨by rw [h.stOld (by rw [h2]; simp) h4]; exact h3, l, h.put.hLeaf a l h2, by rw [h.slotσ]; exact h1⟩
    · obtain ⟨h1, h2, l, h3, h4⟩ := h.brLeaf n f i a hn hw
      refine ⟨by rw [h.stOld (by rw [h3]; simp) h2]; exact h1, l, h.put.hLeaf a l h3, ?_⟩
      simp only [Gh.slot]
      rw [WriteOk.pathNew n _ hn]
      exact h4
    · obtain ⟨h1, l, h3, h4⟩ := hs.leaf τ w a hτ' hl' hw
      exact ⟨by rw [h.stOld (by rw [h3]; simp) (h.notOldL hs hne hτ' hl' hw)]; exact h1, l, h.put.hLeaf a l h3,
        by rw [hsl]; exact h4⟩
  · intro b f' hb hf'
    rcases h.put.branchInv hf' with hn | ⟨f, hf, _⟩
    · exact ⟨σ, _, h.liveσ hs, h.put.ld, (h.brNew b f' hn).1⟩
    · have ha : s.heap b ≠ none := by rw [hf]; simp
      have ho : old ≠ some b := by
        intro ho
        rw [h.stGone hs ho] at hb; cases hb
      rw [h.stOld ha ho] at hb
      obtain ⟨τ, w, h1, h2, h3⟩ := hs.up b f hb hf
      have hne : τ ≠ σ := by
        rintro rfl
        rw [h.ld] at h2
        cases h2
        exact ho (h.oldn b h3)
      by_cases hc : ∃ c i, τ = .of c i ∧ old = some c
      · obtain ⟨c, i, rfl, hoc⟩ := hc
        simp only [St.load] at h2
        split at h2 <;> try cases h2
        rename_i fc hfc
        have hp0 : p0 = .node c := by
          rcases h.oldp c hoc with e | e
          · obtain ⟨_, l, h4, _⟩ := hs.leaf σ _ c h.live h.ld e
            rw [hfc] at h4; cases h4
          · exact e
        obtain ⟨n, fn, h4, h5⟩ := (h.oldBr c fc i hp0 hfc).2 b h3
        exact ⟨.of n i, fn i, WriteOk.stNew n _ h4, h.put.ldNew n fn i h4, h5⟩
      · refine ⟨τ, w, ?_, ?_, h3⟩
        · cases τ with
          | root => trivial
          | of c i =>
            have hac : s.heap c ≠ none := by intro hx; simp [St.load, hx] at h2
            show (g.put (new.map (·.1)) old s.pinnedNow σ).st c = .live
            rw [h.stOld hac (fun hoc => hc ⟨c, i, rfl, hoc⟩)]
            exact h1
        · rw [h.put.ldOld τ hne]
          · exact h2
          · rintro n c i hn rfl
            have := h.fresh n c hn
            simp [St.load, this] at h2
  · intro b b' f f' hb hb' hf hf' hp
    -- a live branch with the path of `σ` that is not new
    have key : ∀ n c x fx, new = some (n, .branch c) → s.heap x = some (.branch fx) → g.path x = g.slot σ →
        (g.put (new.map (·.1)) old s.pinnedNow σ).st x = .live → False := by
      intro n c x fx hn hx hpx hst
      have ha : s.heap x ≠ none := by rw [hx]; simp
      have ho : old ≠ some x := by
        intro ho
        rw [h.stGone hs ho] at hst; cases hst
      rw [h.stOld ha ho] at hst
      obtain ⟨τ, w, h1, h2, h3⟩ := hs.up x fx hst hx
      have h4 := (hs.node τ w x h1 h2 h3).2.1
      have := hs.slot_inj h1 h.live h2 h.ld (by rw [← h4, hpx])
      subst this
      rw [h.ld] at h2
      cases h2
      exact ho (h.oldn x h3)
    rcases h.put.branchInv hf with hn | ⟨f0, h0, _⟩
    · rcases h.put.branchInv hf' with hn' | ⟨f0', h0', _⟩
      · rw [hn] at hn'; cases hn'; rfl
      · rw [WriteOk.pathNew b _ hn, h.pathOld (by rw [h0']; simp)] at hp
        exact (key b _ b' f0' hn h0' hp.symm hb').elim
    · rcases h.put.branchInv hf' with hn' | ⟨f0', h0', _⟩
      · rw [WriteOk.pathNew b' _ hn', h.pathOld (by rw [h0]; simp)] at hp
        exact (key b' _ b f0 hn' h0 hp hb).elim
      · have ha : s.heap b ≠ none := by rw [h0]; simp
        have ha' : s.heap b' ≠ none := by rw [h0']; simp
        rw [h.pathOld ha, h.pathOld ha'] at hp
        have ho : old ≠ some b := by
          intro ho
          rw [h.stGone hs ho] at hb; cases hb
        have ho' : old ≠ some b' := by
          intro ho
          rw [h.stGone hs ho] at hb'; cases hb'
        rw [h.stOld ha ho] at hb
        rw [h.stOld ha' ho'] at hb'
        exact hs.uniq b b' f0 f0' hb hb' h0 h0' hp
  · intro τ w k hτ hl hw ho
    rcases h.liveInv hs hτ hl with ⟨e, rfl⟩ | ⟨n, f, i, hn, rfl, rfl⟩ | ⟨hne, hτ', hl', hsl, _⟩
    · subst e
      rw [h.slotσ] at ho
      exact h.val1 k hw ho
    · simp only [Gh.slot] at ho
      rw [WriteOk.pathNew n _ hn] at ho
      exact h.val2 n f i k hn hw ho
    · rw [hsl] at ho
      have hm : m' k = m k := by
        apply h.val3
        by_cases hp : ∃ c, p0 = .node c
        · exact .inr hp
        · left
          intro hoσ
          exact hne (hs.term_inj hτ' h.live hl' h.ld ho hoσ hw (fun c hc => hp ⟨c, hc⟩))
      rw [hm, hs.val τ w k hτ' hl' hw ho]
      obtain ⟨p, pe⟩ := w
      cases p with
      | null => rfl
      | node c => exact absurd rfl (hw c)
      | leaf a =>
        obtain ⟨_, l, h3, _⟩ := hs.leaf τ _ a hτ' hl' rfl
        exact (h.val h3 k).symm
  · intro b D f hb hf i
    obtain ⟨h0, _, ⟨_, h1, _⟩ | ⟨_, h1⟩⟩ := h.goneInv hs hb hf
    · exact (h.oldBr b f i h1 h0).1
    · exact hs.frozen b D f h1 h0 i
  · intro b D f u i c hb hf hu hc
    obtain ⟨h0, ha, ⟨h2, h1, rfl⟩ | ⟨_, h1⟩⟩ := h.goneInv hs hb hf
    · have hbl := h.oldLive hs h2
      have hlb : s.load (.of b i) = some (f i) := by simp [St.load, h0]
      obtain ⟨h3, h4, f', h5⟩ := hs.node (.of b i) (f i) c hbl hlb hc
      exact ⟨h.safe hs hu (.inl h3), by rw [h.pathOld ha, h.pathOld (by rw [h5]; simp)]; exact h4, _, h.put.hBranch c f' h5⟩
    · obtain ⟨h3, h4, f', h5⟩ := hs.goneN b D f u i c h1 h0 hu hc
      exact ⟨h.safe hs (hs.pinned b D u h1 hu) h3, by rw [h.pathOld ha, h.pathOld (by rw [h5]; simp)]; exact h4, _,
        h.put.hBranch c f' h5⟩
  · intro b D f u i a hb hf hu hc
    obtain ⟨h0, _, ⟨h2, h1, rfl⟩ | ⟨_, h1⟩⟩ := h.goneInv hs hb hf
    · have hbl := h.oldLive hs h2
      have hlb : s.load (.of b i) = some (f i) := by simp [St.load, h0]
      obtain ⟨h3, l, h4, h5⟩ := hs.leaf (.of b i) (f i) a hbl hlb hc
      exact ⟨h.safe hs hu (.inl h3), l, h.put.hLeaf a l h4⟩
    · obtain ⟨h3, l, h4⟩ := hs.goneL b D f u i a h1 h0 hu hc
      exact ⟨h.safe hs (hs.pinned b D u h1 hu) h3, l, h.put.hLeaf a l h4⟩
  · intro a D u ha hu
    rw [h.put.rest.2.1]
    simp only [Gh.put] at ha
    split at ha
    · cases ha
    · split at ha
      · cases ha; exact hu
      · exact hs.pinned a D u ha hu
  · intro a w ha
    rw [h.put.rest.1] at ha
    obtain ⟨D, h1, h2⟩ := hs.ret a w ha
    have hal : s.heap a ≠ none := by
      intro hx
      have := (hs.free a).1 hx
      rw [this] at h1; cases h1
    have ho : old ≠ some a := by
      intro ho
      have := h.oldLive hs ho
      rw [this] at h1; cases h1
    exact ⟨D, by rw [h.stOld hal ho]; exact h1, h2⟩
  · rw [h.put.rest.1]; exact hs.nodup

/-! ## What pending operations may answer -/

theorem now_congr {op : Op K V} {m m' : K → Option V} {r : Option V} (h : m (key op) = m' (key op)) (hn : now dict m op r) :
    now dict m' op r := by
  have upd : ∀ (k : K) (x : Option V) (m m' : K → Option V), m k = m' k →
      (fun y => if y = k then x else m y) = m → (fun y => if y = k then x else m' y) = m' := by
    intro k x m m' h1 h2
    funext y
    by_cases e : y = k
    · subst e
      have := congrFun h2 y
      simp only [if_true] at this ⊢
      rw [this, h1]
    · simp [e]
  cases op with
  | get k => simp only [now, dict, key, Prod.mk.injEq, true_and] at *; rw [← h]; exact hn
  | insert k v =>
    simp only [now, dict, key, Prod.mk.injEq] at *
    refine ⟨?_, by rw [← h]; exact hn.2⟩
    rw [← h]
    split
    · rfl
    · rename_i hx
      rw [if_neg hx] at hn
      exact upd k _ m m' h hn.1
  | update k v =>
    simp only [now, dict, key, Prod.mk.injEq] at *
    refine ⟨?_, by rw [← h]; exact hn.2⟩
    rw [← h]
    split
    · rename_i hx
      rw [if_pos hx] at hn
      exact upd k _ m m' h hn.1
    · rfl
  | upsert k v =>
    simp only [now, dict, key, Prod.mk.injEq] at *
    exact ⟨upd k _ m m' h hn.1, by rw [← h]; exact hn.2⟩
  | delete k =>
    simp only [now, dict, key, Prod.mk.injEq] at *
    exact ⟨upd k _ m m' h hn.1, by rw [← h]; exact hn.2⟩

variable {e e' : ESt (K → Option V) (Op K V) (Option V)}

/-- The present answer is possible. -/
theorem Seen.covers (h : Seen hash s g e) {t : Tid} {op : Op K V} {S : Option V → Prop} (he : e.thr t = .pend op S)
    {x : Option V} (hx : e.q (key op) = x) : Covers S op x :=
  fun _ _ h1 h2 => h.cur t op S _ he (now_congr (by rw [h1, hx]) h2)

theorem Seen.write (hseen : Seen hash s g e) (hs : Shared hash s g e.q) (h : WriteOk hash s s' g e.q e'.q σ p0 p' new old)
    (hcur : ∀ t op S r, e'.thr t = .pend op S → now dict e'.q op r → S r)
    (hmono : ∀ t op S, e'.thr t = .pend op S → ∃ S0, e.thr t = .pend op S0 ∧ ∀ r, S0 r → S r) :
    Seen hash s' (g.put (new.map (·.1)) old s.pinnedNow σ) e' := by
  refine ⟨hcur, fun u op S b D f i hu hb hD hf ht ho => ?_⟩
  obtain ⟨S0, h1, h2⟩ := hmono u op S hu
  obtain ⟨h0, ha, hc⟩ := h.goneInv hs hb hf
  rw [h.pathOld ha] at ho
  have hval : s'.val (f i).p (key op) = s.val (f i).p (key op) := by
    cases hp : (f i).p with
    | null => rfl
    | node c => rfl
    | leaf a =>
      have : ∃ l, s.heap a = some (.leaf l) := by
        rcases hc with ⟨h3, _, _⟩ | ⟨_, h3⟩
        · have hlb : s.load (.of b i) = some (f i) := by simp [St.load, h0]
          obtain ⟨_, l, h4, _⟩ := hs.leaf (.of b i) (f i) a (h.oldLive hs h3) hlb hp
          exact ⟨l, h4⟩
        · exact (hs.goneL b D f u i a h3 h0 hD hp).2
      obtain ⟨l, hl⟩ := this
      exact h.val hl _
  rw [hval]
  refine Covers.mono ?_ h2
  rcases hc with ⟨h3, _, _⟩ | ⟨_, h3⟩
  · have hlb : s.load (.of b i) = some (f i) := by simp [St.load, h0]
    exact hseen.covers h1 (hs.val (.of b i) (f i) (key op) (h.oldLive hs h3) hlb ht ho)
  · exact hseen.gone u op S0 b D f i h1 h3 hD h0 ht ho

end write

end Verif.Trie.Conc
