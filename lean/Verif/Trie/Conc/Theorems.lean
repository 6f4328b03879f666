/-
The primary index under concurrency (C40).
-/
import Verif.Trie.Conc.Steps
set_option linter.unusedSectionVars false
namespace Verif.Trie.Conc
open Verif.Conc
variable {K V : Type} [DecidableEq K] {hash : K → UInt64}

theorem inv_init : Inv hash (init : St K V) ⟨fun _ => .free, fun _ => []⟩ ⟨fun _ => none, fun _ => .idle⟩ := by
  have hload : ∀ σ w, (init : St K V).load σ = some w → w = ⟨.null, false⟩ := by
    intro σ w h
    cases σ with
    | root => exact (Option.some.inj h).symm
    | of b i => simp [St.load, init] at h
  refine ⟨⟨rfl, fun a => by simp [init], fun a h => by simp [init] at h, fun b f h => by simp [init] at h,
    fun σ w c _ hl hw => ?_, fun σ w a _ hl hw => ?_, fun b f _ h => by simp [init] at h,
    fun b b' f f' _ _ h => by simp [init] at h, fun σ w k _ hl _ _ => ?_, fun b D f h => by simp at h,
    fun b D f t i c h => by simp at h, fun b D f t i c h => by simp at h, fun a D t h => by simp at h,
    fun a w h => by simp [init] at h, by simp [init]⟩, ⟨fun t op S r h => by simp at h, fun t op S b D f i h => by simp at h⟩,
    fun t => ⟨trivial, fun h => by simp [init, busy] at h, fun h => by simp [init] at h, fun a h => by simp [init, owns] at h, rfl⟩,
    fun t u _ a h => by simp [init, owns] at h⟩
  · rw [hload σ w hl] at hw; cases hw
  · rw [hload σ w hl] at hw; cases hw
  · rw [hload σ w hl]; rfl

theorem ERun.trans {σ O R : Type} {Ob : Obj σ O R} {a b c : ESt σ O R} {es es' : List (Ev O R)} (h : ERun Ob a es b)
    (h' : ERun Ob b es' c) : ERun Ob a (es ++ es') c := by
  induction h' with
  | refl => simpa using h
  | tail _ hs ih => rw [← List.append_assoc]; exact .tail ih hs

theorem Adv.run {e e' : ESt (K → Option V) (Op K V) (Option V)} {o : Option (Ev (Op K V) (Option V))} (h : Adv e o e') :
    ERun dict e o.toList e' := by
  rcases h with ⟨rfl, rfl⟩ | h
  · exact .refl _
  · have := (ERun.refl (O := dict) e).tail h
    simpa using this

theorem run_inv : ∀ {acts : List (Act K V)} {s s' : St K V} {g : Gh} {e : ESt (K → Option V) (Op K V) (Option V)}
    {evs : List (Ev (Op K V) (Option V))}, Inv hash s g e → run hash s acts = some (s', evs) →
    ∃ g' e', Inv hash s' g' e' ∧ ERun dict e evs e'
  | [], s, s', g, e, evs, hi, h => by
    simp only [run, Option.some.injEq, Prod.mk.injEq] at h
    obtain ⟨rfl, rfl⟩ := h
    exact ⟨g, e, hi, .refl _⟩
  | x :: xs, s, s', g, e, evs, hi, h => by
    simp only [run] at h
    cases hx : exec hash s x with
    | none => simp [hx] at h
    | some r =>
      obtain ⟨s1, o⟩ := r
      simp only [hx, Option.map_eq_some_iff, Prod.mk.injEq] at h
      obtain ⟨⟨s2, es⟩, hr, rfl, rfl⟩ := h
      obtain ⟨g1, e1, hi1, hn, _⟩ := step hi hx
      obtain ⟨g2, e2, hi2, hr2⟩ := run_inv hi1 hr
      exact ⟨g2, e2, hi2, ERun.trans hn.run hr2⟩

/-- **C40.** Whatever threads look up, insert, replace, update and remove, however their accesses interleave, whatever the hash
function, whatever addresses the allocator hands out and whenever retired nodes are freed: what the threads see can be
seen of a map on which every operation happens in one indivisible step between its call and its return. -/
theorem C40_linearizable {acts : List (Act K V)} {s : St K V} {evs : List (Ev (Op K V) (Option V))}
    (h : run hash init acts = some (s, evs)) : Linearizable dict (fun _ => none) evs := by
  obtain ⟨_, _, _, hr⟩ := run_inv (inv_init (hash := hash)) h
  exact hr.linearizable

/-- **C40.** No thread ever reads a node that was freed or takes a branch for a list, although freed addresses are used
again; and none of the `unwrap`s, indexings and pushes on the way can fail. -/
theorem C40_memory_safe {acts : List (Act K V)} {s : St K V} {evs : List (Ev (Op K V) (Option V))}
    (h : run hash init acts = some (s, evs)) (t : Tid) : (s.thr t).pc ≠ .fault ∧ (s.thr t).pc ≠ .panic := by
  obtain ⟨g, e, hi, _⟩ := run_inv (inv_init (hash := hash)) h
  have := (hi.tok t).ok
  constructor <;> intro e <;> rw [e] at this <;> exact this

/-- **C40.** No node is given to the collector twice. -/
theorem C40_retired_once {acts : List (Act K V)} {s : St K V} {evs : List (Ev (Op K V) (Option V))}
    (h : run hash init acts = some (s, evs)) : (s.retired.map (·.1)).Nodup := by
  obtain ⟨g, e, hi, _⟩ := run_inv (inv_init (hash := hash)) h
  exact hi.sh.nodup

/-! ## References stay valid while the guard is held

The operations answer with references into lists (`&'g T::Value`); such a list must not change or be freed before the guard
is dropped. -/

theorem goPc_keeps {s s' : St K V} {t : Tid} {a : Addr} {pc : Pc K V} {o : Option (Ev (Op K V) (Option V))}
    (h : goPc hash s t a pc = some (s', o)) : s'.pinnedNow = s.pinnedNow ∧
      (∀ b l, s.heap b = some (.leaf l) → s'.heap b = some (.leaf l)) ∧
      (∀ x ∈ s'.retired, x ∈ s.retired ∨ x.2 = s.pinnedNow) := by
  have hst : ∀ (s : St K V) σ w, (s.store σ w).pinnedNow = s.pinnedNow ∧
      (∀ b l, s.heap b = some (.leaf l) → (s.store σ w).heap b = some (.leaf l)) ∧ (s.store σ w).retired = s.retired := by
    intro s σ w
    refine ⟨?_, fun b l hb => store_leaf hb _ _, ?_⟩ <;>
    · cases σ with
      | root => rfl
      | of b i => simp only [St.store]; split <;> rfl
  have hal : ∀ x, s.heap a = none → ∀ b l, s.heap b = some (.leaf l) → (s.alloc a x).heap b = some (.leaf l) := by
    intro x hn b l hb
    have : b ≠ a := by rintro rfl; rw [hn] at hb; cases hb
    simp [St.alloc, setHeap, this, hb]
  have key : ∀ (s1 : St K V) pc', s1.pinnedNow = s.pinnedNow → (∀ b l, s.heap b = some (.leaf l) → s1.heap b = some (.leaf l)) →
      (∀ x ∈ s1.retired, x ∈ s.retired ∨ x.2 = s.pinnedNow) → (s1.at t pc').pinnedNow = s.pinnedNow ∧
      (∀ b l, s.heap b = some (.leaf l) → (s1.at t pc').heap b = some (.leaf l)) ∧
      (∀ x ∈ (s1.at t pc').retired, x ∈ s.retired ∨ x.2 = s.pinnedNow) := fun s1 pc' h1 h2 h3 => ⟨h1, h2, h3⟩
  have key0 := fun pc' => key s pc' rfl (fun _ _ h => h) (fun _ h => .inl h)
  have key1 := fun σ w pc' => key (s.store σ w) pc' (hst s σ w).1 (hst s σ w).2.1
    (fun x hx => .inl (by rw [(hst s σ w).2.2] at hx; exact hx))
  have key2 := fun x σ w pc' (hn : s.heap a = none) => key ((s.alloc a x).store σ w) pc' (hst _ σ w).1
    (fun b l hb => (hst _ σ w).2.1 b l (hal x hn b l hb))
    (fun x hx => .inl (by rw [(hst _ σ w).2.2] at hx; exact hx))
  cases pc with
  | idle => cases h
  | fault => cases h
  | panic => cases h
  | retire b k =>
    simp only [goPc, Option.some.injEq, Prod.mk.injEq] at h
    obtain ⟨rfl, rfl⟩ := h
    refine key _ _ rfl (fun _ _ h => h) (fun x hx => ?_)
    rcases List.mem_append.1 hx with hx | hx
    · exact .inl hx
    · simp only [List.mem_singleton] at hx
      subst hx; exact .inr rfl
  | _ =>
    simp only [goPc] at h
    repeat' split at h
    all_goals first
      | (cases h; done)
      | (simp only [Option.some.injEq, Prod.mk.injEq] at h
         obtain ⟨rfl, rfl⟩ := h
         first
           | exact key0 _
           | exact key1 _ _ _
           | (apply key2; assumption))

/-- The list at this address is what thread `t` has a reference into: no retired copy of the address waits for anything but
`t`. -/
def Held (t : Tid) (a : Addr) (l : List (K × V)) (s : St K V) : Prop :=
  t ∈ s.pinnedNow ∧ s.heap a = some (.leaf l) ∧ ∀ w, (a, w) ∈ s.retired → t ∈ w

theorem Held.step {t : Tid} {a : Addr} {l : List (K × V)} {s s' : St K V} (h : Held t a l s) {x : Act K V}
    (hx : x ≠ .unpin t) {o} (e : exec hash s x = some (s', o)) : Held t a l s' := by
  obtain ⟨h1, h2, h3⟩ := h
  cases x with
  | pin u =>
    simp only [exec] at e
    split at e
    · cases e
    · simp only [Option.some.injEq, Prod.mk.injEq] at e
      obtain ⟨rfl, rfl⟩ := e
      exact ⟨List.mem_cons_of_mem _ h1, h2, h3⟩
  | unpin u =>
    have hu : t ≠ u := fun e => hx (by rw [e])
    simp only [exec] at e
    split at e
    · split at e
      · simp only [Option.some.injEq, Prod.mk.injEq] at e
        obtain ⟨rfl, rfl⟩ := e
        refine ⟨List.mem_filter.2 ⟨h1, by simpa using hu⟩, h2, fun w hw => ?_⟩
        obtain ⟨⟨a', w'⟩, hm, he⟩ := List.mem_map.1 hw
        simp only [Prod.mk.injEq] at he
        obtain ⟨rfl, rfl⟩ := he
        exact List.mem_filter.2 ⟨h3 _ hm, by simpa using hu⟩
      · cases e
    · cases e
  | call u op =>
    simp only [exec] at e
    split at e
    · split at e
      · simp only [Option.some.injEq, Prod.mk.injEq] at e
        obtain ⟨rfl, rfl⟩ := e
        exact ⟨h1, h2, h3⟩
      · cases e
    · cases e
  | go u b =>
    obtain ⟨k1, k2, k3⟩ := goPc_keeps e
    refine ⟨by rw [k1]; exact h1, k2 a l h2, fun w hw => ?_⟩
    rcases k3 _ hw with hw | hw
    · exact h3 w hw
    · rw [show w = s.pinnedNow from hw]; exact h1
  | reclaim n =>
    simp only [exec] at e
    split at e
    · rename_i c hc
      simp only [Option.some.injEq, Prod.mk.injEq] at e
      obtain ⟨rfl, rfl⟩ := e
      have hca : a ≠ c := by
        rintro rfl
        have := h3 [] (List.mem_of_getElem? hc)
        simp at this
      exact ⟨h1, by simp [setHeap, hca, h2], fun w hw => h3 w ((List.eraseIdx_sublist ..).subset hw)⟩
    · cases e

theorem Held.run {t : Tid} {a : Addr} {l : List (K × V)} : ∀ {acts : List (Act K V)} {s s' : St K V} {evs}, Held t a l s →
    (∀ x ∈ acts, x ≠ .unpin t) → run hash s acts = some (s', evs) → Held t a l s'
  | [], s, s', evs, h, _, e => by
    simp only [Conc.run, Option.some.injEq, Prod.mk.injEq] at e
    obtain ⟨rfl, rfl⟩ := e
    exact h
  | x :: xs, s, s', evs, h, hx, e => by
    simp only [Conc.run] at e
    cases hs : exec hash s x with
    | none => simp [hs] at e
    | some r =>
      obtain ⟨s1, o⟩ := r
      simp only [hs, Option.map_eq_some_iff, Prod.mk.injEq] at e
      obtain ⟨⟨s2, es⟩, hr, rfl, rfl⟩ := e
      exact Held.run (h.step (hx x (List.mem_cons_self ..)) hs) (fun y hy => hx y (List.mem_cons_of_mem _ hy)) hr

/-- The list that a thread is reading or has based its answer on. -/
def reads : Pc K V → Option Addr
  | .getData _ a => some a
  | .patchData _ _ _ _ _ _ a => some a
  | .patchPut _ _ _ _ _ _ a _ _ => some a
  | .delData _ _ _ _ a => some a
  | .delPut _ _ _ _ a _ _ => some a
  | _ => none

/-- **C40.** A list that a lookup, insertion, update or removal found stays allocated and unchanged until its thread drops
the guard, whatever happens meanwhile: in particular if the list is replaced and retired, and if the thread does further
operations under the same guard. So the references that the operations return stay valid as long as the borrow
checker lets them be used. -/
theorem C40_references_stay_valid {acts acts' : List (Act K V)} {s s' : St K V} {evs evs' : List (Ev (Op K V) (Option V))}
    (h : run hash init acts = some (s, evs)) {t : Tid} {a : Addr} (hr : reads (s.thr t).pc = some a)
    (h' : run hash s acts' = some (s', evs')) (hu : ∀ x ∈ acts', x ≠ .unpin t) :
    ∃ l, s.heap a = some (.leaf l) ∧ s'.heap a = some (.leaf l) := by
  obtain ⟨g, e, hi, _⟩ := run_inv (inv_init (hash := hash)) h
  have ht := hi.tok t
  have hok := ht.ok
  have hpin : (s.thr t).pinned = true := ht.pin (by cases hp : (s.thr t).pc <;> rw [hp] at hr <;> first | rfl | cases hr)
  have : Safe g t a ∧ ∃ l, s.heap a = some (.leaf l) := by
    cases hp : (s.thr t).pc with
    | getData k b => rw [hp] at hr hok; cases hr; exact hok
    | patchData m k v lvl cur par b => rw [hp] at hr hok; cases hr; exact ⟨hok.2.1, hok.2.2.choose, hok.2.2.choose_spec.1⟩
    | patchPut m k v lvl cur par b l r => rw [hp] at hr hok; cases hr; exact ⟨hok.2.1, hok.2.2.choose, hok.2.2.choose_spec.1⟩
    | delData k lvl cur ls b => rw [hp] at hr hok; cases hr; exact ⟨hok.2.1, hok.2.2.choose, hok.2.2.choose_spec.1⟩
    | delPut k lvl cur ls b l r => rw [hp] at hr hok; cases hr; exact ⟨hok.2.1, hok.2.2.choose, hok.2.2.choose_spec.1⟩
    | _ => rw [hp] at hr; cases hr
  obtain ⟨hs, l, hl⟩ := this
  have hh : Held t a l s := by
    refine ⟨ht.now hpin, hl, fun w hw => ?_⟩
    obtain ⟨D, hD, hDw⟩ := hi.sh.ret a w hw
    rcases hs with hs | ⟨D', hs, htD⟩
    · rw [hD] at hs; cases hs
    · rw [hD] at hs; cases hs; exact hDw t htD
  exact ⟨l, hl, (hh.run hu h').2.1⟩

/-! ## Two runs

The keys 1, 17, 33 share their first four hash bits, so 17 is two branches below the root. -/

def gos (t n b : Nat) : List (Act Nat Nat) := (List.range n).map fun i => .go t (b + i)

def two : List (Act Nat Nat) :=
  [.pin 0, .pin 1, .call 0 (.insert 1 10)] ++ gos 0 3 0 ++ [.call 0 (.insert 17 20)] ++ gos 0 11 10

/-- Thread 1 is on its way to the key 17 and inside the lower branch while thread 0 removes the key and takes both branches
away; thread 1 goes on in the frozen branch. -/
def sched1 : List (Act Nat Nat) :=
  two ++ [.call 1 (.get 17)] ++ gos 1 2 0 ++ [.call 0 (.delete 17)] ++ gos 0 79 30 ++ gos 1 2 0

deriving instance DecidableEq for Ev, Op

example : (run UInt64.ofNat init sched1).map (·.2) =
    some [.call 0 (.insert 1 10), .ret 0 none, .call 0 (.insert 17 20), .ret 0 none, .call 1 (.get 17), .call 0 (.delete 17),
      .ret 0 (some 20), .ret 1 none] := by decide +kernel

/-- The branches are retired, and not freed while thread 1 is pinned. -/
example : (run UInt64.ofNat init sched1).map (·.1.retired) = some [(19, [1, 0]), (16, [1, 0]), (12, [1, 0])] := by decide +kernel
example : (run UInt64.ofNat init (sched1 ++ [.unpin 0, .reclaim 1])).isNone = true := by decide +kernel
example : (run UInt64.ofNat init (sched1 ++ [.unpin 0, .unpin 1, .reclaim 1])).isSome = true := by decide +kernel

/-- Thread 0 stops in the middle of the compression after a removal; thread 1 finds the frozen pointer, completes the
compression itself and inserts its key; then thread 0 goes on. -/
def sched2 : List (Act Nat Nat) :=
  two ++ [.call 1 (.insert 33 30)] ++ gos 1 2 0 ++ [.call 0 (.delete 17)] ++ gos 0 30 100 ++ gos 1 28 200 ++
    [.call 1 (.get 33)] ++ gos 1 5 0 ++ [.call 1 (.get 17)] ++ gos 1 4 0

example : (run UInt64.ofNat init sched2).map (·.2) =
    some [.call 0 (.insert 1 10), .ret 0 none, .call 0 (.insert 17 20), .ret 0 none, .call 1 (.insert 33 30),
      .call 0 (.delete 17), .ret 1 none, .call 1 (.get 33), .ret 1 (some 30), .call 1 (.get 17), .ret 1 none] := by decide +kernel

/-- The specification refuses wrong answers: a removed key that is found, a key that is not there any more after a
different one was removed, an insertion that takes effect twice. -/
example : ¬ Linearizable (dict (K := Nat) (V := Nat)) (fun _ => none)
    (flat 0 [(.insert 1 10, none), (.delete 1, some 10), (.get 1, some 10)]) := by
  rw [linearizable_flat]; simp [Replay, dict]
example : ¬ Linearizable (dict (K := Nat) (V := Nat)) (fun _ => none)
    (flat 0 [(.insert 1 10, none), (.delete 2, none), (.get 1, none)]) := by
  rw [linearizable_flat]; simp [Replay, dict]
example : ¬ Linearizable (dict (K := Nat) (V := Nat)) (fun _ => none)
    (flat 0 [(.insert 1 10, none), (.insert 1 20, none)]) := by
  rw [linearizable_flat]; simp [Replay, dict]
example : Linearizable (dict (K := Nat) (V := Nat)) (fun _ => none)
    (flat 0 [(.insert 1 10, none), (.insert 1 20, some 10), (.update 1 30, some 10), (.get 1, some 30), (.update 2 5, none),
      (.get 2, none)]) := by
  rw [linearizable_flat]; simp [Replay, dict]

end Verif.Trie.Conc
