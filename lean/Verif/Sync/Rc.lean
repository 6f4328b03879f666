/-!
Model of the reference counter `RawRC` (`sync/smart.rs:243-312`) as `Row` (`core/index/row.rs:45-50,
189-216`) and `SliceRC` (`sync/smart.rs:107-165`) use it, under concurrency. C53. Paths are relative to
`/repo/server/src/engine`.

There is one counted object. The agents are the handles to it and the operations on handles that are in
progress in any thread; every step is one atomic access. Memory is sequentially consistent (the release
decrement and the acquire fence before the destruction are what makes this right for the data).
-/
namespace Verif.Sync.Rc

/-- `isize::MAX`. -/
def MAX : Nat := 2 ^ 63 - 1

/-- The largest number of 64 bits with a sign. -/
example : MAX = 9223372036854775807 ∧ 2 * MAX + 1 = UInt64.size - 1 := by decide +kernel

/-- A handle, or an operation in progress. An operation that borrows the handle `i` is marked with it. -/
inductive Agent where
  /-- a handle -/
  | own
  /-- `rc_clone` before `fetch_add` (`sync/smart.rs:285`) -/
  | cloning (i : Nat)
  /-- `rc_clone` after `fetch_add`, which returned `old` (`:286-290`) -/
  | check (i old : Nat)
  /-- a use of the data or of the key (`:269-274`, `core/index/row.rs:123-128`) -/
  | reading (i : Nat)
  /-- `rc_drop` before `fetch_sub` (`:296`) -/
  | sub
  /-- `rc_drop_slow` before `dropfn` (`:308`), which destroys the key of a row or the elements of a slice -/
  | key
  /-- `rc_drop_slow` before the counter and the data are freed (`:310`) -/
  | free
  /-- an operation that has ended -/
  | gone
  deriving DecidableEq, Repr

/-- The handle that is borrowed. -/
def Agent.src : Agent → Option Nat
  | .cloning i | .check i _ | .reading i => some i
  | _ => none

/-- The operation is a clone. -/
def Agent.isClone : Agent → Bool
  | .cloning _ | .check _ _ => true
  | _ => false

/-- The counted object and the agents. -/
structure St where
  /-- `RawRCData::rc`; arithmetic wraps around -/
  rc : Nat := 1
  /-- how often `dropfn` ran -/
  keyDrops : Nat := 0
  /-- how often the memory was freed -/
  frees : Nat := 0
  /-- something was used after it was destroyed or freed -/
  ub : Bool := false
  /-- `process::abort` was called -/
  aborted : Bool := false
  agents : List Agent := [.own]
  deriving DecidableEq, Repr

/-- `RawRC::new` (`sync/smart.rs:261-268`). -/
def init : St := {}

/-- The counter is in memory that was freed. -/
def St.bad (s : St) : Bool := s.frees ≠ 0

/-- One step of some thread. `T` is the greatest number of clones that can be in progress at a time, for
which the number of threads is a bound. The language guarantees that a handle is not dropped while it is
borrowed. -/
inductive Step (T : Nat) : St → St → Prop where
  | startClone (s : St) (i : Nat) : s.aborted = false → s.agents[i]? = some .own → s.agents.countP Agent.isClone < T →
      Step T s { s with agents := s.agents ++ [.cloning i] }
  /-- `fetch_add` (`sync/smart.rs:285`) -/
  | add (s : St) (k i : Nat) : s.aborted = false → s.agents[k]? = some (.cloning i) →
      Step T s { s with rc := (s.rc + 1) % 2 ^ 64, ub := s.ub || s.bad, agents := s.agents.set k (.check i s.rc) }
  /-- the new handle (`sync/smart.rs:290`) -/
  | cloned (s : St) (k i old : Nat) : s.aborted = false → s.agents[k]? = some (.check i old) → old ≤ MAX →
      Step T s { s with agents := s.agents.set k .own }
  /-- too many handles (`sync/smart.rs:286-289`) -/
  | abort (s : St) (k i old : Nat) : s.aborted = false → s.agents[k]? = some (.check i old) → MAX < old →
      Step T s { s with aborted := true }
  | startRead (s : St) (i : Nat) : s.aborted = false → s.agents[i]? = some .own →
      Step T s { s with agents := s.agents ++ [.reading i] }
  /-- the data and the key are read -/
  | read (s : St) (k i : Nat) : s.aborted = false → s.agents[k]? = some (.reading i) →
      Step T s { s with ub := s.ub || s.bad || s.keyDrops ≠ 0, agents := s.agents.set k .gone }
  | startDrop (s : St) (i : Nat) : s.aborted = false → s.agents[i]? = some .own → (∀ a ∈ s.agents, a.src ≠ some i) →
      Step T s { s with agents := s.agents.set i .sub }
  /-- `fetch_sub` (`sync/smart.rs:296-302`) -/
  | sub (s : St) (k : Nat) : s.aborted = false → s.agents[k]? = some .sub →
      Step T s { s with rc := (s.rc + (2 ^ 64 - 1)) % 2 ^ 64, ub := s.ub || s.bad,
                        agents := s.agents.set k (if s.rc = 1 then .key else .gone) }
  /-- `dropfn()` (`sync/smart.rs:308`) -/
  | key (s : St) (k : Nat) : s.aborted = false → s.agents[k]? = some .key →
      Step T s { s with keyDrops := s.keyDrops + 1, ub := s.ub || s.bad || s.keyDrops ≠ 0, agents := s.agents.set k .free }
  /-- `drop(Box::from_raw(…))` (`sync/smart.rs:310`) -/
  | free (s : St) (k : Nat) : s.aborted = false → s.agents[k]? = some .free →
      Step T s { s with frees := s.frees + 1, ub := s.ub || s.bad, agents := s.agents.set k .gone }

/-- What can be reached. -/
inductive Reach (T : Nat) : St → Prop where
  | init : Reach T init
  | step {s s' : St} : Reach T s → Step T s s' → Reach T s'

/-! ### Specification -/

/-- The agents that stand for a handle which was not given up yet: handles, clones of which the counter
knows already, and drops of which it does not know yet. -/
def Agent.alive : Agent → Bool
  | .own | .check _ _ | .sub => true
  | _ => false

/-! ### Proof -/

/-- The agent destroys the object. -/
def Agent.last : Agent → Bool
  | .key | .free => true
  | _ => false

/-- A clone that is going to abort. -/
def Agent.dooms : Agent → Bool
  | .check _ old => decide (MAX < old)
  | _ => false

/-- The invariant. -/
structure Inv (T : Nat) (s : St) : Prop where
  ub : s.ub = false
  rc : s.rc = s.agents.countP Agent.alive
  cap : s.rc ≤ MAX + 1 + s.agents.countP Agent.dooms
  clones : s.agents.countP Agent.isClone ≤ T
  src : ∀ a ∈ s.agents, ∀ i, a.src = some i → s.agents[i]? = some .own
  /-- exactly one of: handles, somebody who destroys, freed -/
  one : s.agents.countP Agent.last + s.frees + (if s.rc = 0 then 0 else 1) = 1
  key : .key ∈ s.agents → s.keyDrops = 0
  free : .free ∈ s.agents ∨ s.frees ≠ 0 → s.keyDrops = 1
  fresh : s.rc ≠ 0 → s.keyDrops = 0

theorem countP_le_of_imp (p q : Agent → Bool) (h : ∀ a, p a = true → q a = true) (l : List Agent) :
    l.countP p ≤ l.countP q := by
  induction l with
  | nil => simp
  | cons a l ih =>
    simp only [List.countP_cons]
    have := h a
    cases hp : p a <;> cases hq : q a <;> simp_all <;> omega

theorem Inv.small {T : Nat} (hT : T < 2 ^ 63 - 1) {s : St} (h : Inv T s) : s.rc + 1 < 2 ^ 64 := by
  have h1 := countP_le_of_imp Agent.dooms Agent.isClone (fun a => by cases a <;> simp [Agent.dooms, Agent.isClone]) s.agents
  have := h.cap
  have := h.clones
  simp only [MAX] at *
  omega

theorem Inv.alive {T : Nat} {s : St} (h : Inv T s) {k : Nat} {a : Agent} (hk : s.agents[k]? = some a)
    (ha : a.alive = true) : s.rc ≠ 0 := by
  rw [h.rc]
  have : 0 < s.agents.countP Agent.alive := List.countP_pos_iff.2 ⟨a, List.mem_of_getElem? hk, ha⟩
  omega

theorem Inv.notFreed {T : Nat} {s : St} (h : Inv T s) (hr : s.rc ≠ 0) : s.frees = 0 ∧ s.agents.countP Agent.last = 0 := by
  have := h.one
  rw [if_neg hr] at this
  omega

theorem Inv.lastOne {T : Nat} {s : St} (h : Inv T s) {k : Nat} {a : Agent} (hk : s.agents[k]? = some a)
    (ha : a.last = true) : s.frees = 0 ∧ s.rc = 0 ∧ s.agents.countP Agent.last = 1 := by
  have : 0 < s.agents.countP Agent.last := List.countP_pos_iff.2 ⟨a, List.mem_of_getElem? hk, ha⟩
  have := h.one
  by_cases hr : s.rc = 0
  · rw [if_pos hr] at this
    omega
  · rw [if_neg hr] at this
    omega

theorem count_set {p : Agent → Bool} {l : List Agent} {k : Nat} {a b : Agent} (h : l[k]? = some a) :
    (l.set k b).countP p + (if p a then 1 else 0) = l.countP p + (if p b then 1 else 0) := by
  obtain ⟨hk, rfl⟩ := List.getElem?_eq_some_iff.1 h
  rw [List.countP_set hk]
  have : (if p l[k] = true then 1 else 0) ≤ l.countP p := by
    split
    · rename_i hp
      exact List.countP_pos_iff.2 ⟨_, List.getElem_mem hk, hp⟩
    · omega
  omega

theorem mem_set {l : List Agent} {k : Nat} {a b : Agent} (h : a ∈ l.set k b) : a = b ∨ a ∈ l := by
  rcases List.mem_or_eq_of_mem_set h with h | h
  · exact .inr h
  · exact .inl h

/-- Borrows stay valid when an agent other than a handle changes into one that borrows what it did or
nothing. -/
theorem src_set {l : List Agent} (h : ∀ a ∈ l, ∀ i, a.src = some i → l[i]? = some .own) {k : Nat} {a b : Agent}
    (hk : l[k]? = some a) (ha : a ≠ .own) (hb : b.src = a.src ∨ b.src = none) :
    ∀ c ∈ l.set k b, ∀ i, c.src = some i → (l.set k b)[i]? = some .own := by
  intro c hc i hi
  have hl : l[i]? = some .own := by
    rcases mem_set hc with rfl | hc
    · rcases hb with hb | hb
      · rw [hb] at hi; exact h a (List.mem_of_getElem? hk) i hi
      · rw [hb] at hi; cases hi
    · exact h c hc i hi
  rw [List.getElem?_set]
  split
  · rename_i e
    subst e
    rw [hk] at hl
    cases hl
    exact absurd rfl ha
  · exact hl

theorem src_append {l : List Agent} (h : ∀ a ∈ l, ∀ i, a.src = some i → l[i]? = some .own) {b : Agent}
    (hb : ∀ i, b.src = some i → l[i]? = some .own) :
    ∀ c ∈ l ++ [b], ∀ i, c.src = some i → (l ++ [b])[i]? = some .own := by
  intro c hc i hi
  have hl : l[i]? = some .own := by
    rcases List.mem_append.1 hc with hc | hc
    · exact h c hc i hi
    · simp only [List.mem_singleton] at hc
      subst hc
      exact hb i hi
  rw [List.getElem?_append_left (List.getElem?_eq_some_iff.1 hl).1]
  exact hl

theorem inv_step {T : Nat} (hT : T < 2 ^ 63 - 1) {s s' : St} (h : Inv T s) (hs : Step T s s') : Inv T s' := by
  have hsm := h.small hT
  cases hs with
  | startClone i ha hi ht =>
    refine ⟨h.ub, ?_, ?_, ?_, src_append h.src (fun j hj => by simp [Agent.src] at hj; subst hj; exact hi), ?_, ?_, ?_, h.fresh⟩
    · simpa [Agent.alive] using h.rc
    · simpa [Agent.dooms] using h.cap
    · simp [Agent.isClone]; omega
    · simpa [Agent.last] using h.one
    · simpa using h.key
    · simpa using h.free
  | startRead i ha hi =>
    refine ⟨h.ub, ?_, ?_, ?_, src_append h.src (fun j hj => by simp [Agent.src] at hj; subst hj; exact hi), ?_, ?_, ?_, h.fresh⟩
    · simpa [Agent.alive] using h.rc
    · simpa [Agent.dooms] using h.cap
    · simpa [Agent.isClone] using h.clones
    · simpa [Agent.last] using h.one
    · simpa using h.key
    · simpa using h.free
  | abort k i old ha hk ho => exact ⟨h.ub, h.rc, h.cap, h.clones, h.src, h.one, h.key, h.free, h.fresh⟩
  | add k i ha hk =>
    have hown := h.src _ (List.mem_of_getElem? hk) i rfl
    have hr := h.alive hown rfl
    obtain ⟨hf, hl⟩ := h.notFreed hr
    have c1 := count_set (p := Agent.alive) (b := .check i s.rc) hk
    have c2 := count_set (p := Agent.dooms) (b := .check i s.rc) hk
    have c3 := count_set (p := Agent.isClone) (b := .check i s.rc) hk
    have c4 := count_set (p := Agent.last) (b := .check i s.rc) hk
    simp only [Agent.alive, Agent.isClone, Agent.last, Agent.dooms, Bool.false_eq_true, if_false, if_true, Nat.add_zero] at c1 c2 c3 c4
    have hrc := h.rc
    have hcap := h.cap
    have hcl := h.clones
    have e : (s.rc + 1) % 2 ^ 64 = s.rc + 1 := Nat.mod_eq_of_lt hsm
    refine ⟨by simp [h.ub, St.bad, hf], ?_, ?_, ?_, src_set h.src hk (by simp) (.inl rfl), ?_, ?_, ?_, ?_⟩
    · dsimp only; rw [e]; omega
    · dsimp only; rw [e]
      by_cases hm : MAX < s.rc
      · simp [hm] at c2; omega
      · simp [hm] at c2; omega
    · dsimp only; omega
    · dsimp only; rw [e, if_neg (by omega)]; omega
    · intro hm
      rcases mem_set hm with hm | hm
      · cases hm
      · exact h.key hm
    · intro hm
      exact h.free (hm.imp (fun hm => (mem_set hm).resolve_left (by simp)) id)
    · intro _; exact h.fresh hr
  | cloned k i old ha hk ho =>
    have hr := h.alive hk rfl
    have c1 := count_set (p := Agent.alive) (b := .own) hk
    have c2 := count_set (p := Agent.dooms) (b := .own) hk
    have c3 := count_set (p := Agent.isClone) (b := .own) hk
    have c4 := count_set (p := Agent.last) (b := .own) hk
    simp only [Agent.alive, Agent.isClone, Agent.last, Agent.dooms, Bool.false_eq_true, if_false, if_true, Nat.add_zero, decide_eq_true_eq,
      show ¬ MAX < old by omega] at c1 c2 c3 c4
    have hrc := h.rc
    have hcap := h.cap
    have hcl := h.clones
    have hone := h.one
    refine ⟨h.ub, ?_, ?_, ?_, src_set h.src hk (by simp) (.inr rfl), ?_, ?_, ?_, h.fresh⟩
    · dsimp only; omega
    · dsimp only; omega
    · dsimp only; omega
    · dsimp only; omega
    · intro hm
      exact h.key ((mem_set hm).resolve_left (by simp))
    · intro hm
      exact h.free (hm.imp (fun hm => (mem_set hm).resolve_left (by simp)) id)
  | read k i ha hk =>
    have hown := h.src _ (List.mem_of_getElem? hk) i rfl
    have hr := h.alive hown rfl
    obtain ⟨hf, hl⟩ := h.notFreed hr
    have hkd := h.fresh hr
    have c1 := count_set (p := Agent.alive) (b := .gone) hk
    have c2 := count_set (p := Agent.dooms) (b := .gone) hk
    have c3 := count_set (p := Agent.isClone) (b := .gone) hk
    have c4 := count_set (p := Agent.last) (b := .gone) hk
    simp only [Agent.alive, Agent.isClone, Agent.last, Agent.dooms, Bool.false_eq_true, if_false, Nat.add_zero] at c1 c2 c3 c4
    have hrc := h.rc
    have hcap := h.cap
    have hcl := h.clones
    have hone := h.one
    refine ⟨by simp [h.ub, St.bad, hf, hkd], ?_, ?_, ?_, src_set h.src hk (by simp) (.inr rfl), ?_, ?_, ?_, h.fresh⟩
    · dsimp only; omega
    · dsimp only; omega
    · dsimp only; omega
    · dsimp only; omega
    · intro hm
      exact h.key ((mem_set hm).resolve_left (by simp))
    · intro hm
      exact h.free (hm.imp (fun hm => (mem_set hm).resolve_left (by simp)) id)
  | startDrop i ha hi hb =>
    have c1 := count_set (p := Agent.alive) (b := .sub) hi
    have c2 := count_set (p := Agent.dooms) (b := .sub) hi
    have c3 := count_set (p := Agent.isClone) (b := .sub) hi
    have c4 := count_set (p := Agent.last) (b := .sub) hi
    simp only [Agent.alive, Agent.isClone, Agent.last, Agent.dooms, Bool.false_eq_true, if_false, if_true, Nat.add_zero] at c1 c2 c3 c4
    have hrc := h.rc
    have hcap := h.cap
    have hcl := h.clones
    have hone := h.one
    refine ⟨h.ub, ?_, ?_, ?_, ?_, ?_, ?_, ?_, h.fresh⟩
    · dsimp only; omega
    · dsimp only; omega
    · dsimp only; omega
    · intro c hc j hj
      have hc : c ∈ s.agents := by
        rcases mem_set hc with rfl | hc
        · cases hj
        · exact hc
      dsimp only
      rw [List.getElem?_set]
      split
      · rename_i e
        subst e
        exact absurd hj (hb c hc)
      · exact h.src c hc j hj
    · dsimp only; omega
    · intro hm
      exact h.key ((mem_set hm).resolve_left (by simp))
    · intro hm
      exact h.free (hm.imp (fun hm => (mem_set hm).resolve_left (by simp)) id)
  | sub k ha hk =>
    have hr := h.alive hk rfl
    obtain ⟨hf, hl⟩ := h.notFreed hr
    have hkd := h.fresh hr
    have e : (s.rc + (2 ^ 64 - 1)) % 2 ^ 64 = s.rc - 1 := by omega
    have hrc := h.rc
    have hcap := h.cap
    have hcl := h.clones
    have hone := h.one
    have hx : ∃ b : Agent, (if s.rc = 1 then Agent.key else Agent.gone) = b ∧ b.alive = false ∧ b.dooms = false ∧
        b.isClone = false ∧ b.src = none ∧ b ≠ .free ∧ (if b.last then 1 else 0) = (if s.rc = 1 then 1 else 0) := by
      by_cases h1 : s.rc = 1
      · exact ⟨.key, if_pos h1, rfl, rfl, rfl, rfl, by simp, by simp [h1, Agent.last]⟩
      · exact ⟨.gone, if_neg h1, rfl, rfl, rfl, rfl, by simp, by simp [h1, Agent.last]⟩
    obtain ⟨b, eb, b1, b2, b3, b4, b5, b6⟩ := hx
    simp only [eb, e]
    have c1 := count_set (p := Agent.alive) (b := b) hk
    have c2 := count_set (p := Agent.dooms) (b := b) hk
    have c3 := count_set (p := Agent.isClone) (b := b) hk
    have c4 := count_set (p := Agent.last) (b := b) hk
    simp only [b1, b2, b3, b6] at c1 c2 c3 c4
    simp only [Agent.alive, Agent.isClone, Agent.last, Agent.dooms, Bool.false_eq_true, if_false, if_true, Nat.add_zero] at c1 c2 c3 c4
    refine ⟨by simp [h.ub, St.bad, hf], ?_, ?_, ?_, src_set h.src hk (by simp) (.inr b4), ?_, ?_, ?_, ?_⟩
    · dsimp only; omega
    · dsimp only; omega
    · dsimp only; omega
    · dsimp only
      by_cases h1 : s.rc = 1
      · rw [if_pos (by omega)]; rw [if_pos h1] at c4; omega
      · rw [if_neg (by omega)]; rw [if_neg h1] at c4; omega
    · intro _; exact hkd
    · rintro (hm | hm)
      · exfalso
        rcases mem_set hm with hm | hm
        · exact b5 hm.symm
        · have : 0 < s.agents.countP Agent.last := List.countP_pos_iff.2 ⟨_, hm, rfl⟩
          omega
      · exact absurd hf hm
    · intro _; exact hkd
  | key k ha hk =>
    obtain ⟨hf, hr, hl⟩ := h.lastOne hk rfl
    have hkd := h.key (List.mem_of_getElem? hk)
    have c1 := count_set (p := Agent.alive) (b := .free) hk
    have c2 := count_set (p := Agent.dooms) (b := .free) hk
    have c3 := count_set (p := Agent.isClone) (b := .free) hk
    have c4 := count_set (p := Agent.last) (b := .free) hk
    have c5 := count_set (p := fun a => a == .key) (b := .free) hk
    simp only [Agent.alive, Agent.isClone, Agent.last, Agent.dooms, Bool.false_eq_true, if_false, if_true, Nat.add_zero] at c1 c2 c3 c4
    have hrc := h.rc
    have hcap := h.cap
    have hcl := h.clones
    have hone := h.one
    refine ⟨by simp [h.ub, St.bad, hf, hkd], ?_, ?_, ?_, src_set h.src hk (by simp) (.inr rfl), ?_, ?_, ?_, ?_⟩
    · dsimp only; omega
    · dsimp only; omega
    · dsimp only; omega
    · dsimp only; omega
    · intro hm
      exfalso
      have q : (s.agents.set k .free).countP (fun a => a == .key) ≠ 0 :=
        Nat.pos_iff_ne_zero.1 (List.countP_pos_iff.2 ⟨_, hm, rfl⟩)
      have q2 := countP_le_of_imp (fun a => a == .key) Agent.last (fun a => by simp; rintro rfl; rfl) s.agents
      simp at c5
      omega
    · intro _; dsimp only; omega
    · intro hne; exact absurd hr hne
  | free k ha hk =>
    obtain ⟨hf, hr, hl⟩ := h.lastOne hk rfl
    have hkd := h.free (.inl (List.mem_of_getElem? hk))
    have c1 := count_set (p := Agent.alive) (b := .gone) hk
    have c2 := count_set (p := Agent.dooms) (b := .gone) hk
    have c3 := count_set (p := Agent.isClone) (b := .gone) hk
    have c4 := count_set (p := Agent.last) (b := .gone) hk
    simp only [Agent.alive, Agent.isClone, Agent.last, Agent.dooms, Bool.false_eq_true, if_false, if_true, Nat.add_zero] at c1 c2 c3 c4
    have hrc := h.rc
    have hcap := h.cap
    have hcl := h.clones
    have hone := h.one
    refine ⟨by simp [h.ub, St.bad, hf], ?_, ?_, ?_, src_set h.src hk (by simp) (.inr rfl), ?_, ?_, ?_, ?_⟩
    · dsimp only; omega
    · dsimp only; omega
    · dsimp only; omega
    · dsimp only; omega
    · intro hm
      exfalso
      have : 0 < (s.agents.set k .gone).countP Agent.last := List.countP_pos_iff.2 ⟨_, hm, rfl⟩
      omega
    · intro _; exact hkd
    · intro hne; exact absurd hr hne

theorem inv_reach {T : Nat} (hT : T < 2 ^ 63 - 1) {s : St} (h : Reach T s) : Inv T s := by
  induction h with
  | init =>
    refine ⟨rfl, rfl, by decide, by simp [init, Agent.isClone], ?_, rfl, by simp [init], by simp [init], by simp [init]⟩
    intro a ha i hi
    simp only [init, List.mem_singleton] at ha
    subst ha
    cases hi
  | step _ hs ih => exact inv_step hT ih hs

/-- **C53.** However many threads clone, use and drop handles to a row or a shared slice, and however they
interleave: nothing is used after it was destroyed or freed; the key is destroyed and the memory freed at
most once; neither happens while there is a handle; and when all handles are gone and no operation is in
progress, both have happened. -/
theorem C53_counted {T : Nat} (hT : T < 2 ^ 63 - 1) {s : St} (h : Reach T s) :
    s.ub = false ∧ s.keyDrops ≤ 1 ∧ s.frees ≤ 1 ∧
    (∀ a ∈ s.agents, a.alive = true ∨ a.src ≠ none → s.keyDrops = 0 ∧ s.frees = 0) ∧
    ((∀ a ∈ s.agents, a = .gone) → s.keyDrops = 1 ∧ s.frees = 1) := by
  have hi := inv_reach hT h
  have hone := hi.one
  have hf1 : s.frees ≤ 1 := by omega
  have hkd : s.keyDrops ≤ 1 := by
    by_cases hr : s.rc = 0
    · rw [if_pos hr] at hone
      by_cases hf : s.frees = 0
      · have : 0 < s.agents.countP Agent.last := by omega
        obtain ⟨a, ha, hl⟩ := List.countP_pos_iff.1 this
        cases a <;> simp [Agent.last] at hl
        · rw [hi.key ha]; omega
        · rw [hi.free (.inl ha)]; omega
      · rw [hi.free (.inr hf)]; omega
    · rw [hi.fresh hr]; omega
  refine ⟨hi.ub, hkd, hf1, ?_, ?_⟩
  · intro a ha hq
    have hr : s.rc ≠ 0 := by
      rcases hq with hq | hq
      · obtain ⟨k, hk⟩ := List.getElem?_of_mem ha
        exact hi.alive hk hq
      · obtain ⟨i, hsrc⟩ := Option.ne_none_iff_exists'.1 hq
        exact hi.alive (hi.src a ha i hsrc) rfl
    exact ⟨hi.fresh hr, (hi.notFreed hr).1⟩
  · intro hg
    have h1 : s.agents.countP Agent.alive = 0 := by
      rw [List.countP_eq_zero]
      intro a ha
      rw [hg a ha]
      simp [Agent.alive]
    have h2 : s.agents.countP Agent.last = 0 := by
      rw [List.countP_eq_zero]
      intro a ha
      rw [hg a ha]
      simp [Agent.last]
    have hr := hi.rc
    rw [h1] at hr
    rw [h2, if_pos hr] at hone
    exact ⟨hi.free (.inr (by omega)), by omega⟩

/-- The counter is the number of handles, even while clones race for the greatest number: it cannot wrap
around, for the process aborts first. -/
theorem C53_counter {T : Nat} (hT : T < 2 ^ 63 - 1) {s : St} (h : Reach T s) :
    s.rc = s.agents.countP Agent.alive ∧ s.rc < 2 ^ 64 := by
  have hi := inv_reach hT h
  exact ⟨hi.rc, by have := hi.small hT; omega⟩

/-- No thread waits: an operation in progress has a next step, unless the process was aborted. -/
theorem C53_no_thread_waits {T : Nat} {s : St} (ha : s.aborted = false) {k : Nat} {a : Agent} (hk : s.agents[k]? = some a)
    (hp : a ≠ .own) (hg : a ≠ .gone) : ∃ s', Step T s s' ∧ (s'.agents[k]? ≠ some a ∨ s'.aborted = true) := by
  have hlt := (List.getElem?_eq_some_iff.1 hk).1
  cases a with
  | own => exact absurd rfl hp
  | gone => exact absurd rfl hg
  | cloning i => exact ⟨_, .add s k i ha hk, .inl (by simp [hlt])⟩
  | check i old =>
    by_cases ho : old ≤ MAX
    · exact ⟨_, .cloned s k i old ha hk ho, .inl (by simp [hlt])⟩
    · exact ⟨_, .abort s k i old ha hk (by omega), .inr rfl⟩
  | reading i => exact ⟨_, .read s k i ha hk, .inl (by simp [hlt])⟩
  | sub => exact ⟨_, .sub s k ha hk, .inl (by simp [hlt]; split <;> simp)⟩
  | key => exact ⟨_, .key s k ha hk, .inl (by simp [hlt])⟩
  | free => exact ⟨_, .free s k ha hk, .inl (by simp [hlt])⟩

/-! ### A case -/

/-- One thread clones a row and drops the clone, while another drops the original in between. -/
example : Reach 4 { rc := 0, keyDrops := 1, frees := 1, agents := [.gone, .gone] } := by
  have h0 : Reach 4 init := .init
  have h1 := h0.step (.startClone _ 0 rfl rfl (by decide))
  have h2 := h1.step (.add _ 1 0 rfl rfl)
  have h3 := h2.step (.cloned _ 1 0 1 rfl rfl (by decide))
  have h4 := h3.step (.startDrop _ 0 rfl rfl (by decide))
  have h5 : Reach 4 { rc := 1, agents := [.gone, .own] } := by
    have := h4.step (.sub _ 0 rfl rfl)
    simpa [init, St.bad] using this
  have h6 := h5.step (.startDrop _ 1 rfl rfl (by decide))
  have h7 : Reach 4 { rc := 0, agents := [.gone, .key] } := by
    have := h6.step (.sub _ 1 rfl rfl)
    simpa [St.bad] using this
  have h8 := h7.step (.key _ 1 rfl rfl)
  have h9 := h8.step (.free _ 1 rfl rfl)
  simpa [St.bad] using h9

end Verif.Sync.Rc
