import Verif.Ord.Lemmas

/-!
The ordered index does what a list of entries does, in the order of the last write.
-/
namespace Verif.Ord
open Verif

variable {K V : Type}

/-! ### The list of entries -/

def keys (σ : List (K × V)) : List K := σ.map (·.1)

def look [DecidableEq K] (σ : List (K × V)) (k : K) : Option V := (σ.find? (fun e => e.1 = k)).map (·.2)

def del [DecidableEq K] (σ : List (K × V)) (k : K) : List (K × V) := σ.filter (fun e => e.1 ≠ k)

/-- What a sequence of `next` (`false`) and `next_back` (`true`) gives for a list: elements are taken from the two
ends; each answer comes with the number of elements that are left. -/
def pops {α : Type} : List α → List Bool → List (Option α × Nat)
  | _, [] => []
  | es, true :: bs => (es.getLast?, es.dropLast.length) :: pops es.dropLast bs
  | es, false :: bs => (es.head?, es.tail.length) :: pops es.tail bs

/-- Operations on a list of entries. -/
def specStep [DecidableEq K] (σ : List (K × V)) : Op K V → List (K × V) × Out K V
  | .insert k v => if (look σ k).isSome then (σ, .bool false) else (σ ++ [(k, v)], .bool true)
  | .update k v => if (look σ k).isSome then (del σ k ++ [(k, v)], .val (look σ k)) else (σ, .val none)
  | .upsert k v => (del σ k ++ [(k, v)], .val (look σ k))
  | .getMut k v => (σ.map (fun e => if e.1 = k then (k, v) else e), .bool (look σ k).isSome)
  | .remove k => (del σ k, .val (look σ k))
  | .get k => (σ, .val (look σ k))
  | .len => (σ, .len σ.length)
  | .clear => ([], .unit)
  | .compact => (σ, .unit)
  | .iter calls => (σ, .items (pops σ calls))

def specRun [DecidableEq K] : List (K × V) → List (Op K V) → List (K × V) × List (Out K V)
  | σ, [] => (σ, [])
  | σ, o :: os => ((specRun (specStep σ o).1 os).1, (specStep σ o).2 :: (specRun (specStep σ o).1 os).2)

theorem look_none [DecidableEq K] {σ : List (K × V)} {k : K} (h : k ∉ keys σ) : look σ k = none := by
  unfold look
  rw [List.find?_eq_none.mpr]
  · rfl
  · intro e he hh
    exact h (List.mem_map.mpr ⟨e, he, by simpa using hh⟩)

theorem del_none [DecidableEq K] {σ : List (K × V)} {k : K} (h : k ∉ keys σ) : del σ k = σ := by
  unfold del
  rw [List.filter_eq_self]
  intro e he
  simp only [ne_eq, decide_not, Bool.not_eq_eq_eq_not, Bool.not_true, decide_eq_false_iff_not]
  exact fun hh => h (List.mem_map.mpr ⟨e, he, hh⟩)

theorem map_none [DecidableEq K] {σ : List (K × V)} {k : K} {v : V} (h : k ∉ keys σ) :
    σ.map (fun e => if e.1 = k then (k, v) else e) = σ := by
  rw [List.map_congr_left (g := id)]
  · simp
  · intro e he
    rw [if_neg]
    · rfl
    · exact fun hh => h (List.mem_map.mpr ⟨e, he, hh⟩)

theorem nd_split {σ₁ σ₂ : List (K × V)} {k : K} {v : V} (h : (keys (σ₁ ++ (k, v) :: σ₂)).Nodup) :
    k ∉ keys σ₁ ∧ k ∉ keys σ₂ := by
  simp only [keys, List.map_append, List.map_cons, List.nodup_append, List.nodup_cons] at h
  exact ⟨fun hh => h.2.2 k hh k (by simp) rfl, h.2.1.1⟩

theorem look_split [DecidableEq K] {σ₁ σ₂ : List (K × V)} {k : K} {v : V}
    (h : (keys (σ₁ ++ (k, v) :: σ₂)).Nodup) : look (σ₁ ++ (k, v) :: σ₂) k = some v := by
  obtain ⟨h1, _⟩ := nd_split h
  unfold look
  rw [List.find?_append, List.find?_eq_none.mpr]
  · simp
  · intro e he hh
    exact h1 (List.mem_map.mpr ⟨e, he, by simpa using hh⟩)

theorem del_split [DecidableEq K] {σ₁ σ₂ : List (K × V)} {k : K} {v : V}
    (h : (keys (σ₁ ++ (k, v) :: σ₂)).Nodup) : del (σ₁ ++ (k, v) :: σ₂) k = σ₁ ++ σ₂ := by
  obtain ⟨h1, h2⟩ := nd_split h
  have e1 := del_none h1
  have e2 := del_none h2
  unfold del at *
  rw [List.filter_append, List.filter_cons, e1, e2]
  simp

theorem map_split [DecidableEq K] {σ₁ σ₂ : List (K × V)} {k : K} {v w : V}
    (h : (keys (σ₁ ++ (k, v) :: σ₂)).Nodup) :
    (σ₁ ++ (k, v) :: σ₂).map (fun e => if e.1 = k then (k, w) else e) = σ₁ ++ (k, w) :: σ₂ := by
  obtain ⟨h1, h2⟩ := nd_split h
  rw [List.map_append, List.map_cons, map_none h1, map_none h2]
  simp

/-! ### What an index stands for -/

/-- The free list: from `c` along `n` to the null pointer. -/
def FL (N : Nat → Nat) : Nat → List Nat → Prop
  | c, [] => c = 0
  | c, a :: as => c = a ∧ FL N (N a) as

theorem FL_frame {N N' : Nat → Nat} : ∀ {as : List Nat} {c : Nat}, FL N c as → (∀ a ∈ as, N' a = N a) → FL N' c as
  | [], _, h, _ => h
  | a :: as, c, h, hn => ⟨h.1, by
      rw [hn a (by simp)]
      exact FL_frame h.2 (fun b hb => hn b (by simp [hb]))⟩

/-- The sentinel, if it exists. -/
def sen (i : Idx K V) : List Nat := if i.s = 0 then [] else [i.s]

/-- The index `i` stands for the entries `σ`; `xs` are their nodes, `fr` the free list. -/
structure Rep (i : Idx K V) (xs fr : List Nat) (σ : List (K × V)) : Prop where
  perm : i.m.Perm xs
  kv : xs.map (fun a => (i.heap.mem a).kv) = σ.map some
  nd : (keys σ).Nodup
  live : i.heap.live.Perm (sen i ++ (xs ++ fr))
  lnd : i.heap.live.Nodup
  zero : 0 ∉ i.heap.live
  cyc : i.s ≠ 0 → Seg i.heap.P i.heap.N i.s xs i.s
  emp : i.s = 0 → xs = []
  fl : FL i.heap.N i.f fr
  cons : i.lib = false → i.f = 0

theorem Rep.anodup {i : Idx K V} {xs fr : List Nat} {σ : List (K × V)} (r : Rep i xs fr σ) :
    (sen i ++ (xs ++ fr)).Nodup := r.live.nodup_iff.mp r.lnd

theorem Rep.len {i : Idx K V} {xs fr : List Nat} {σ : List (K × V)} (r : Rep i xs fr σ) : σ.length = xs.length := by
  have := congrArg List.length r.kv
  simpa using this.symm

theorem Rep.mem {i : Idx K V} {xs fr : List Nat} {σ : List (K × V)} (r : Rep i xs fr σ) {z : Nat}
    (h : z ∈ sen i ++ (xs ++ fr)) : z ∈ i.heap.live := r.live.mem_iff.mpr h

theorem rep_new (lib : Bool) : Rep (Idx.new K V lib) [] [] [] where
  perm := List.Perm.refl _
  kv := rfl
  nd := by simp [keys]
  live := by simp [Idx.new, sen]
  lnd := by simp [Idx.new]
  zero := by simp [Idx.new]
  cyc := by simp [Idx.new]
  emp := by simp
  fl := rfl
  cons := fun _ => rfl

/-! ### Lookups -/

def hasKey [DecidableEq K] (h : Heap K V) (k : K) (a : Nat) : Bool :=
  match (h.mem a).kv with
  | some e => decide (e.1 = k)
  | none => false

theorem mfind_eq [DecidableEq K] {h : Heap K V} {k : K} : ∀ {m : List Nat},
    (∀ a ∈ m, a ∈ h.live ∧ ∃ e, (h.mem a).kv = some e) → mfind h k m = .ok (m.find? (hasKey h k))
  | [], _ => rfl
  | a :: as, hm => by
    obtain ⟨h1, e, h2⟩ := hm a (by simp)
    have hk : hasKey h k a = decide (e.1 = k) := by simp [hasKey, h2]
    rw [mfind, kvAt_ok h1 h2, Res.bind_eq, Res.bind, List.find?_cons, hk]
    by_cases he : e.1 = k
    · simp [he]
    · have := mfind_eq (h := h) (k := k) (m := as) (fun b hb => hm b (by simp [hb]))
      simp [he, this]

theorem Rep.cell {i : Idx K V} {xs fr : List Nat} {σ : List (K × V)} (r : Rep i xs fr σ) {a : Nat} (ha : a ∈ xs) :
    ∃ e ∈ σ, (i.heap.mem a).kv = some e := by
  have : (i.heap.mem a).kv ∈ σ.map some := by
    rw [← r.kv]
    exact List.mem_map.mpr ⟨a, ha, rfl⟩
  obtain ⟨e, he, h⟩ := List.mem_map.mp this
  exact ⟨e, he, h.symm⟩

theorem Rep.cell' {i : Idx K V} {xs fr : List Nat} {σ : List (K × V)} (r : Rep i xs fr σ) {e : K × V} (he : e ∈ σ) :
    ∃ a ∈ xs, (i.heap.mem a).kv = some e := by
  have : some e ∈ xs.map (fun a => (i.heap.mem a).kv) := by
    rw [r.kv]
    exact List.mem_map.mpr ⟨e, he, rfl⟩
  obtain ⟨a, ha, h⟩ := List.mem_map.mp this
  exact ⟨a, ha, h⟩

/-- A lookup never follows a bad pointer; it finds the node of the entry. -/
theorem find_spec [DecidableEq K] {i : Idx K V} {xs fr : List Nat} {σ : List (K × V)} (r : Rep i xs fr σ) (k : K) :
    (k ∉ keys σ ∧ mfind i.heap k i.m = .ok none) ∨
    (∃ ys a zs σ₁ v σ₂, xs = ys ++ a :: zs ∧ σ = σ₁ ++ (k, v) :: σ₂ ∧ (i.heap.mem a).kv = some (k, v) ∧
      ys.map (fun a => (i.heap.mem a).kv) = σ₁.map some ∧ zs.map (fun a => (i.heap.mem a).kv) = σ₂.map some ∧
      mfind i.heap k i.m = .ok (some a)) := by
  rw [mfind_eq (fun a ha => by
    have hx := r.perm.mem_iff.mp ha
    obtain ⟨e, _, he⟩ := r.cell hx
    exact ⟨r.mem (by simp [hx]), e, he⟩)]
  cases hf : i.m.find? (hasKey i.heap k) with
  | none =>
    left
    refine ⟨fun hk => ?_, rfl⟩
    obtain ⟨e, he, hek⟩ := List.mem_map.mp hk
    obtain ⟨a, ha, hkv⟩ := r.cell' he
    have := List.find?_eq_none.mp hf a (r.perm.mem_iff.mpr ha)
    simp [hasKey, hkv, hek] at this
  | some a =>
    right
    have hax : a ∈ xs := r.perm.mem_iff.mp (List.mem_of_find?_eq_some hf)
    have hk := List.find?_some hf
    obtain ⟨ys, zs, hxs⟩ := List.append_of_mem hax
    obtain ⟨e, _, hkv⟩ := r.cell hax
    have hmap := r.kv
    rw [hxs, List.map_append, List.map_cons] at hmap
    obtain ⟨σ₁, τ, hσ, e1, e2⟩ := List.append_eq_map_iff.mp hmap
    obtain ⟨e', σ₂, hτ, e3, e4⟩ := List.map_eq_cons_iff.mp e2
    simp only [hasKey, hkv, decide_eq_true_eq] at hk
    rw [hkv] at e3
    injection e3 with e3
    subst e3
    obtain ⟨k', v⟩ := e'
    simp only at hk
    subst hk
    exact ⟨ys, a, zs, σ₁, v, σ₂, hxs, by rw [hσ, hτ], hkv, e1.symm, e4.symm, rfl⟩

/-! ### Insertion -/

theorem sen_of {i : Idx K V} (h : i.s ≠ 0) : sen i = [i.s] := by simp [sen, h]

theorem map_kv_congr {h h' : Heap K V} (hk : ∀ z, (h'.mem z).kv = (h.mem z).kv) (xs : List Nat) :
    xs.map (fun a => (h'.mem a).kv) = xs.map (fun a => (h.mem a).kv) :=
  List.map_congr_left fun z _ => hk z

theorem ensure_spec {A : Malloc} (hA : A.Sound) {i : Idx K V} {xs fr : List Nat} {σ : List (K × V)}
    (r : Rep i xs fr σ) : ∃ i', i.ensureSentinel A = .ok i' ∧ i'.s ≠ 0 ∧ i'.m = i.m ∧ Rep i' xs fr σ := by
  unfold Idx.ensureSentinel
  by_cases hs : i.s = 0
  · rw [if_pos hs]
    obtain ⟨hz, hf⟩ := hA i.heap.live
    have hxs := r.emp hs
    subst hxs
    have hσ : σ = [] := by
      have := r.len
      exact List.eq_nil_of_length_eq_zero (by simpa using this)
    subst hσ
    simp only [Heap.alloc]
    rw [setP_ok (by simp), Res.bind_eq, Res.bind, setN_ok (by simp), Res.bind_eq, Res.bind]
    refine ⟨_, rfl, hz, rfl, ?_⟩
    have hl : i.heap.live.Perm fr := by simpa [sen, hs] using r.live
    refine ⟨r.perm, rfl, r.nd, ?_, ?_, ?_, ?_, fun _ => rfl, ?_, r.cons⟩
    · simpa [sen, hz] using hl
    · simpa using ⟨hf, r.lnd⟩
    · simpa using ⟨fun hh => hz hh.symm, r.zero⟩
    · intro _
      refine ⟨?_, ?_⟩ <;> simp [Heap.P, Heap.N, put_mem]
    · refine FL_frame r.fl (fun a ha => ?_)
      have : a ≠ A i.heap.live := fun hh => hf (hh ▸ hl.mem_iff.mpr ha)
      simp [Heap.N, put_mem, this]
  · rw [if_neg hs]
    exact ⟨i, rfl, hs, rfl, r⟩

/-- A new node: allocated or from the free list, not linked yet. -/
theorem allocNode_spec {A : Malloc} (hA : A.Sound) {i : Idx K V} {xs fr : List Nat} {σ : List (K × V)}
    (r : Rep i xs fr σ) (hs : i.s ≠ 0) (e : K × V) :
    ∃ i' a fr', i.allocNode A ⟨some e, 0, 0⟩ = .ok (i', a) ∧ i'.s = i.s ∧ i'.m = i.m ∧ i'.lib = i.lib ∧
      a ≠ 0 ∧ a ∉ i.s :: xs ∧ a ∉ fr' ∧ (i'.heap.mem a).kv = some e ∧ (∀ z, z ≠ a → i'.heap.mem z = i.heap.mem z) ∧
      i'.heap.live.Perm (i.s :: a :: (xs ++ fr')) ∧ i'.heap.live.Nodup ∧ 0 ∉ i'.heap.live ∧
      FL i'.heap.N i'.f fr' ∧ (i'.lib = false → i'.f = 0) := by
  have hl : i.heap.live.Perm (i.s :: (xs ++ fr)) := by simpa [sen, hs] using r.live
  have hnd : (i.s :: (xs ++ fr)).Nodup := hl.nodup_iff.mp r.lnd
  unfold Idx.allocNode
  by_cases hc : i.lib = true ∧ i.f ≠ 0
  · rw [if_pos hc]
    cases hfr : fr with
    | nil =>
      have hf := r.fl
      rw [hfr] at hf
      exact (hc.2 hf).elim
    | cons a fr' =>
      subst hfr
      obtain ⟨h1, h2⟩ := r.fl
      have haf : i.f ∈ i.heap.live := hl.mem_iff.mpr (by simp [h1])
      rw [load_ok haf]
      rw [h1]
      have hnd2 : a ∉ i.s :: xs ∧ a ∉ fr' := by
        have : (i.s :: xs ++ a :: fr').Nodup := by simpa using hnd
        simp only [List.nodup_append, List.nodup_cons] at this
        exact ⟨fun hh => this.2.2 a hh a (by simp) rfl, this.2.1.1⟩
      refine ⟨_, a, fr', rfl, rfl, rfl, rfl, by rw [← h1]; exact hc.2, hnd2.1, hnd2.2, by simp [put_mem],
        fun z hz => by simp [put_mem, hz], ?_, r.lnd, r.zero, ?_, ?_⟩
      · refine hl.trans (List.Perm.cons _ ?_)
        exact List.perm_middle
      · refine FL_frame h2 (fun b hb => ?_)
        have : b ≠ a := fun hh => hnd2.2 (hh ▸ hb)
        simp [Heap.N, put_mem, this]
      · intro hh
        simp [hc.1] at hh
  · rw [if_neg hc]
    obtain ⟨hz, hf⟩ := hA i.heap.live
    simp only [Heap.alloc]
    refine ⟨_, A i.heap.live, fr, rfl, rfl, rfl, rfl, hz, fun hh => hf (hl.mem_iff.mpr (by simp at hh ⊢; grind)),
      fun hh => hf (hl.mem_iff.mpr (by simp [hh])), by simp [put_mem], fun z hz => by simp [put_mem, hz], ?_, ?_, ?_,
      ?_, r.cons⟩
    · exact (List.Perm.cons _ hl).trans (List.Perm.swap ..)
    · simpa using ⟨hf, r.lnd⟩
    · simpa using ⟨fun hh => hz hh.symm, r.zero⟩
    · refine FL_frame r.fl (fun b hb => ?_)
      have : b ≠ A i.heap.live := fun hh => hf (hl.mem_iff.mpr (by simp [← hh, hb]))
      simp [Heap.N, put_mem, this]

theorem insertNew_spec {A : Malloc} (hA : A.Sound) {i : Idx K V} {xs fr : List Nat} {σ : List (K × V)}
    (r : Rep i xs fr σ) (k : K) (v : V) (hk : k ∉ keys σ) :
    ∃ i' xs' fr', i.insertNew A k v = .ok i' ∧ Rep i' xs' fr' (σ ++ [(k, v)]) := by
  obtain ⟨j, hj, js, jm, rj⟩ := ensure_spec hA r
  obtain ⟨l, a, fr', hl, ls, lm, ll, a0, ax, af, akv, hmem, hlive, hnd, hz, hfl, hcons⟩ :=
    allocNode_spec hA rj js (k, v)
  have hnd' : (j.s :: a :: (xs ++ fr')).Nodup := hlive.nodup_iff.mp hnd
  have hsx : (j.s :: xs).Nodup := by
    have := (List.nodup_append.mp rj.anodup)
    have h2 := rj.anodup
    rw [sen_of js] at h2
    have h3 : (j.s :: xs ++ fr).Nodup := by simpa using h2
    exact (List.nodup_append.mp h3).1
  have hcyc : Seg l.heap.P l.heap.N j.s xs j.s := by
    refine seg_frame (rj.cyc js) (fun z hz => ?_) (fun z hz => ?_)
    · have : z ≠ a := fun hh => ax (hh ▸ hz)
      simp [Heap.P, hmem z this]
    · have : z ≠ a := fun hh => ax (by
        rw [← hh]
        simp at hz ⊢
        grind)
      simp [Heap.N, hmem z this]
  obtain ⟨h', hlk, hlv, hseg, hkv, hfr⟩ := link_spec (h := l.heap) hcyc hsx ax
    (fun z hz => hlive.mem_iff.mpr (by simp at hz ⊢; grind)) (hlive.mem_iff.mpr (by simp))
  refine ⟨{ l with heap := h', m := a :: l.m }, xs ++ [a], fr', ?_, ?_⟩
  · unfold Idx.insertNew
    rw [hj, Res.bind_eq, Res.bind, hl, Res.bind_eq, Res.bind]
    simp only [ls, hlk, Res.bind_eq, Res.bind]
  · have hxa : ∀ z ∈ xs, z ≠ a := fun z hz hh => ax (by rw [← hh]; simp [hz])
    refine ⟨?_, ?_, ?_, ?_, ?_, ?_, ?_, ?_, ?_, ?_⟩
    · simp only [lm]
      exact (List.Perm.cons a rj.perm).trans (List.perm_append_comm (l₁ := [a]))
    · have e1 : xs.map (fun z => (h'.mem z).kv) = xs.map (fun z => (j.heap.mem z).kv) :=
        List.map_congr_left fun z hz => by rw [hkv z, hmem z (hxa z hz)]
      simp [e1, rj.kv, hkv a, akv]
    · simp only [keys, List.map_append, List.map_cons, List.map_nil, List.nodup_append]
      refine ⟨rj.nd, by simp, fun x hx y hy hh => ?_⟩
      simp at hy
      exact hk (by rw [← hy, ← hh]; exact hx)
    · have : sen { l with heap := h', m := a :: l.m } = [j.s] := by simp [sen, ls, js]
      rw [this]
      simp only [hlv]
      refine hlive.trans (List.Perm.cons _ ?_)
      simp only [List.append_assoc]
      exact List.perm_middle.symm
    · simpa [hlv] using hnd
    · simpa [hlv] using hz
    · intro _
      simpa [ls] using hseg
    · intro hh
      simp [ls, js] at hh
    · refine FL_frame hfl (fun b hb => ?_)
      have h1 : b ∉ j.s :: xs := by
        intro hh
        have h3 : (j.s :: a :: xs ++ fr').Nodup := by simpa using hnd'
        exact (List.nodup_append.mp h3).2.2 b (by simp at hh ⊢; grind) b hb rfl
      have h2 : b ≠ a := fun hh => af (hh ▸ hb)
      simp [Heap.N, hfr b h1 h2]
    · exact hcons

theorem insert_spec [DecidableEq K] {A : Malloc} (hA : A.Sound) {i : Idx K V} {xs fr : List Nat} {σ : List (K × V)}
    (r : Rep i xs fr σ) (k : K) (v : V) :
    ∃ i' xs' fr', i.exec A (.insert k v) = .ok (i', (specStep σ (.insert k v)).2) ∧
      Rep i' xs' fr' (specStep σ (.insert k v)).1 := by
  rw [Idx.exec, Idx.insert]
  rcases find_spec r k with ⟨hk, hf⟩ | ⟨ys, a, zs, σ₁, w, σ₂, hxs, hσ, hkv, _, _, hf⟩
  · obtain ⟨i', xs', fr', h1, h2⟩ := insertNew_spec hA r k v hk
    refine ⟨i', xs', fr', ?_, ?_⟩
    · simp [hf, h1, specStep, look_none hk]
    · simpa [specStep, look_none hk] using h2
  · have hl : look σ k = some w := by rw [hσ]; exact look_split (hσ ▸ r.nd)
    refine ⟨i, xs, fr, ?_, ?_⟩
    · simp [hf, specStep, hl]
    · simpa [specStep, hl] using r

/-! ### Updates -/

theorem rep_setKV {i : Idx K V} {ys zs fr : List Nat} {a : Nat} {σ₁ σ₂ : List (K × V)} {k : K} {v w : V}
    (r : Rep i (ys ++ a :: zs) fr (σ₁ ++ (k, v) :: σ₂))
    (h1 : ys.map (fun a => (i.heap.mem a).kv) = σ₁.map some) (h2 : zs.map (fun a => (i.heap.mem a).kv) = σ₂.map some) :
    Rep { i with heap := i.heap.put a { i.heap.mem a with kv := some (k, w) } } (ys ++ a :: zs) fr
      (σ₁ ++ (k, w) :: σ₂) := by
  have hnd : (ys ++ a :: zs).Nodup := by
    have := (List.nodup_append.mp r.anodup).2.1
    exact (List.nodup_append.mp this).1
  have hys : ∀ z ∈ ys, z ≠ a := fun z hz hh => (List.nodup_append.mp hnd).2.2 z hz a (by simp) hh
  have hzs : ∀ z ∈ zs, z ≠ a := fun z hz hh =>
    (List.nodup_cons.mp (List.nodup_append.mp hnd).2.1).1 (hh ▸ hz)
  have hP : ∀ z, (i.heap.put a { i.heap.mem a with kv := some (k, w) }).P z = i.heap.P z := by
    intro z
    simp only [Heap.P, put_mem]
    split
    · rename_i hh; rw [hh]
    · rfl
  have hN : ∀ z, (i.heap.put a { i.heap.mem a with kv := some (k, w) }).N z = i.heap.N z := by
    intro z
    simp only [Heap.N, put_mem]
    split
    · rename_i hh; rw [hh]
    · rfl
  refine ⟨r.perm, ?_, ?_, r.live, r.lnd, r.zero, fun hs => ?_, r.emp, ?_, r.cons⟩
  · rw [List.map_append, List.map_cons, List.map_append, List.map_cons, ← h1, ← h2]
    congr 1
    · exact List.map_congr_left fun z hz => by simp [put_mem, hys z hz]
    · congr 1
      · simp [put_mem]
      · exact List.map_congr_left fun z hz => by simp [put_mem, hzs z hz]
  · have := r.nd
    simpa [keys] using this
  · exact seg_frame (r.cyc hs) (fun z _ => hP z) (fun z _ => hN z)
  · exact FL_frame r.fl (fun z _ => hN z)

/-- `_refresh` moves the entry to the end. -/
theorem refresh_spec {i : Idx K V} {ys zs fr : List Nat} {a : Nat} {σ₁ σ₂ : List (K × V)} {e : K × V}
    (r : Rep i (ys ++ a :: zs) fr (σ₁ ++ e :: σ₂))
    (h1 : ys.map (fun a => (i.heap.mem a).kv) = σ₁.map some) (h2 : zs.map (fun a => (i.heap.mem a).kv) = σ₂.map some)
    (ha : (i.heap.mem a).kv = some e) :
    ∃ i', i.refresh a = .ok i' ∧ Rep i' (ys ++ zs ++ [a]) fr (σ₁ ++ σ₂ ++ [e]) := by
  have hs : i.s ≠ 0 := fun hs => by
    have := r.emp hs
    simp at this
  have hall : (i.s :: ((ys ++ a :: zs) ++ fr)).Nodup := by
    have := r.anodup
    simpa [sen_of hs] using this
  have hnd : (i.s :: (ys ++ a :: zs)).Nodup := by
    have h3 : (i.s :: (ys ++ a :: zs) ++ fr).Nodup := by simpa using hall
    exact (List.nodup_append.mp h3).1
  have hlive : ∀ z ∈ i.s :: (ys ++ a :: zs), z ∈ i.heap.live := fun z hz => r.mem (by
    rw [sen_of hs]
    simp at hz ⊢
    grind)
  obtain ⟨h', e1, e2, e3, e4, e5⟩ := unlink_spec (r.cyc hs) hnd hlive
  have hnd' : (i.s :: (ys ++ zs)).Nodup := by
    refine hnd.sublist ?_
    exact List.Sublist.cons_cons _ (List.sublist_append_right [] _ |>.trans (by
      simpa using List.Sublist.append (List.Sublist.refl ys) (List.sublist_cons_self a zs)))
  have han : a ∉ i.s :: (ys ++ zs) := by
    intro hh
    have h3 : (i.s :: ys ++ a :: zs).Nodup := by simpa using hnd
    simp only [List.nodup_append, List.nodup_cons] at h3
    rcases List.mem_cons.mp hh with hh | hh
    · exact h3.2.2 i.s (by simp) a (by simp) hh.symm
    · rcases List.mem_append.mp hh with hh | hh
      · exact h3.2.2 a (by simp [hh]) a (by simp) rfl
      · exact h3.2.1.1 hh
  obtain ⟨h'', f1, f2, f3, f4, f5⟩ := link_spec (h := h') e3 hnd' han
    (fun z hz => by
      rw [e2]
      exact hlive z (by simp at hz ⊢; grind))
    (by rw [e2]; exact hlive a (by simp))
  refine ⟨{ i with heap := h'' }, ?_, ?_⟩
  · unfold Idx.refresh
    rw [e1, Res.bind_eq, Res.bind, f1, Res.bind_eq, Res.bind]
  · have hkv : ∀ z, (h''.mem z).kv = (i.heap.mem z).kv := fun z => (f4 z).trans (e4 z)
    refine ⟨?_, ?_, ?_, ?_, ?_, ?_, fun _ => ?_, fun hh => (hs hh).elim, ?_, r.cons⟩
    · refine r.perm.trans ?_
      rw [List.append_assoc]
      exact List.Perm.append_left ys (List.perm_append_comm (l₁ := [a]) (l₂ := zs))
    · rw [List.append_assoc, List.map_append, List.map_append, map_kv_congr hkv, map_kv_congr hkv,
        map_kv_congr hkv, h1, h2]
      simp [ha]
    · have := r.nd
      refine (List.Perm.nodup_iff ?_).mp this
      refine List.Perm.map _ ?_
      rw [List.append_assoc]
      exact List.Perm.append_left _ (List.perm_append_comm (l₁ := [e]) (l₂ := σ₂))
    · have : sen { i with heap := h'' } = [i.s] := by simp [sen, hs]
      rw [this]
      simp only [f2, e2]
      refine r.live.trans ?_
      rw [sen_of hs]
      refine List.Perm.cons _ (List.Perm.append_right fr ?_)
      rw [List.append_assoc]
      exact List.Perm.append_left _ (List.perm_append_comm (l₁ := [a]) (l₂ := zs))
    · simp only [f2, e2]
      exact r.lnd
    · simp only [f2, e2]
      exact r.zero
    · exact f3
    · refine FL_frame r.fl (fun b hb => ?_)
      have hb' : b ∉ i.s :: (ys ++ a :: zs) := by
        intro hh
        have h3 : (i.s :: (ys ++ a :: zs) ++ fr).Nodup := by simpa using hall
        exact (List.nodup_append.mp h3).2.2 b hh b hb rfl
      have n1 : b ∉ i.s :: (ys ++ zs) := fun hh => hb' (by simp at hh ⊢; grind)
      have n2 : b ≠ a := fun hh => hb' (by simp [hh])
      simp [Heap.N, f5 b n1 n2, e5 b n1]

theorem updateNode_spec {i : Idx K V} {ys zs fr : List Nat} {a : Nat} {σ₁ σ₂ : List (K × V)} {k : K} {v : V}
    (r : Rep i (ys ++ a :: zs) fr (σ₁ ++ (k, v) :: σ₂))
    (h1 : ys.map (fun a => (i.heap.mem a).kv) = σ₁.map some) (h2 : zs.map (fun a => (i.heap.mem a).kv) = σ₂.map some)
    (ha : (i.heap.mem a).kv = some (k, v)) (w : V) :
    ∃ i', i.updateNode a w = .ok (i', v) ∧ Rep i' (ys ++ zs ++ [a]) fr (σ₁ ++ σ₂ ++ [(k, w)]) := by
  have hal : a ∈ i.heap.live := r.mem (by simp)
  have r' := rep_setKV (w := w) r h1 h2
  have hnd : (ys ++ a :: zs).Nodup := by
    have := (List.nodup_append.mp r.anodup).2.1
    exact (List.nodup_append.mp this).1
  have hys : ∀ z ∈ ys, z ≠ a := fun z hz hh => (List.nodup_append.mp hnd).2.2 z hz a (by simp) hh
  have hzs : ∀ z ∈ zs, z ≠ a := fun z hz hh =>
    (List.nodup_cons.mp (List.nodup_append.mp hnd).2.1).1 (hh ▸ hz)
  obtain ⟨i', e1, e2⟩ := refresh_spec r'
    (by rw [← h1]; exact List.map_congr_left fun z hz => by simp [put_mem, hys z hz])
    (by rw [← h2]; exact List.map_congr_left fun z hz => by simp [put_mem, hzs z hz])
    (by simp [put_mem])
  refine ⟨i', ?_, e2⟩
  unfold Idx.updateNode
  rw [kvAt_ok hal ha, Res.bind_eq, Res.bind, setKV_ok hal, Res.bind_eq, Res.bind]
  simp only [e1, Res.bind_eq, Res.bind]

theorem update_spec [DecidableEq K] {A : Malloc} {i : Idx K V} {xs fr : List Nat} {σ : List (K × V)}
    (r : Rep i xs fr σ) (k : K) (v : V) :
    ∃ i' xs' fr', i.exec A (.update k v) = .ok (i', (specStep σ (.update k v)).2) ∧
      Rep i' xs' fr' (specStep σ (.update k v)).1 := by
  rw [Idx.exec, Idx.update]
  rcases find_spec r k with ⟨hk, hf⟩ | ⟨ys, a, zs, σ₁, w, σ₂, hxs, hσ, hkv, h1, h2, hf⟩
  · exact ⟨i, xs, fr, by simp [hf, specStep, look_none hk], by simpa [specStep, look_none hk] using r⟩
  · have hl : look σ k = some w := by rw [hσ]; exact look_split (hσ ▸ r.nd)
    have hd : del σ k = σ₁ ++ σ₂ := by rw [hσ]; exact del_split (hσ ▸ r.nd)
    subst hxs hσ
    obtain ⟨i', e1, e2⟩ := updateNode_spec r h1 h2 hkv v
    exact ⟨i', _, fr, by simp [hf, e1, specStep, hl], by simpa [specStep, hl, hd] using e2⟩

theorem upsert_spec [DecidableEq K] {A : Malloc} (hA : A.Sound) {i : Idx K V} {xs fr : List Nat} {σ : List (K × V)}
    (r : Rep i xs fr σ) (k : K) (v : V) :
    ∃ i' xs' fr', i.exec A (.upsert k v) = .ok (i', (specStep σ (.upsert k v)).2) ∧
      Rep i' xs' fr' (specStep σ (.upsert k v)).1 := by
  rw [Idx.exec, Idx.upsert]
  rcases find_spec r k with ⟨hk, hf⟩ | ⟨ys, a, zs, σ₁, w, σ₂, hxs, hσ, hkv, h1, h2, hf⟩
  · obtain ⟨i', xs', fr', h1, h2⟩ := insertNew_spec hA r k v hk
    exact ⟨i', xs', fr', by simp [hf, h1, specStep, look_none hk], by simpa [specStep, del_none hk] using h2⟩
  · have hl : look σ k = some w := by rw [hσ]; exact look_split (hσ ▸ r.nd)
    have hd : del σ k = σ₁ ++ σ₂ := by rw [hσ]; exact del_split (hσ ▸ r.nd)
    subst hxs hσ
    obtain ⟨i', e1, e2⟩ := updateNode_spec r h1 h2 hkv v
    exact ⟨i', _, fr, by simp [hf, e1, specStep, hl], by simpa [specStep, hl, hd] using e2⟩

theorem getMut_spec [DecidableEq K] {A : Malloc} {i : Idx K V} {xs fr : List Nat} {σ : List (K × V)}
    (r : Rep i xs fr σ) (k : K) (v : V) :
    ∃ i' xs' fr', i.exec A (.getMut k v) = .ok (i', (specStep σ (.getMut k v)).2) ∧
      Rep i' xs' fr' (specStep σ (.getMut k v)).1 := by
  rw [Idx.exec, Idx.getMut]
  rcases find_spec r k with ⟨hk, hf⟩ | ⟨ys, a, zs, σ₁, w, σ₂, hxs, hσ, hkv, h1, h2, hf⟩
  · exact ⟨i, xs, fr, by simp [hf, specStep, look_none hk], by simpa [specStep, map_none hk] using r⟩
  · have hl : look σ k = some w := by rw [hσ]; exact look_split (hσ ▸ r.nd)
    have hm := map_split (w := v) (hσ ▸ r.nd)
    subst hxs hσ
    have hal : a ∈ i.heap.live := r.mem (by simp)
    refine ⟨_, ys ++ a :: zs, fr, by simp [hf, kvAt_ok hal hkv, setKV_ok hal, specStep, hl]; rfl, ?_⟩
    simp only [specStep, hm]
    exact rep_setKV r h1 h2

theorem get_spec [DecidableEq K] {A : Malloc} {i : Idx K V} {xs fr : List Nat} {σ : List (K × V)}
    (r : Rep i xs fr σ) (k : K) : i.exec A (.get k) = .ok (i, .val (look σ k)) := by
  rw [Idx.exec, Idx.get]
  rcases find_spec r k with ⟨hk, hf⟩ | ⟨ys, a, zs, σ₁, w, σ₂, hxs, hσ, hkv, h1, h2, hf⟩
  · simp [hf, look_none hk]
  · have hl : look σ k = some w := by rw [hσ]; exact look_split (hσ ▸ r.nd)
    have hal : a ∈ i.heap.live := r.mem (by simp [hxs])
    simp [hf, kvAt_ok hal hkv, hl]

/-! ### Removal -/

theorem remove_spec [DecidableEq K] {A : Malloc} {i : Idx K V} {xs fr : List Nat} {σ : List (K × V)}
    (r : Rep i xs fr σ) (k : K) :
    ∃ i' xs' fr', i.exec A (.remove k) = .ok (i', (specStep σ (.remove k)).2) ∧
      Rep i' xs' fr' (specStep σ (.remove k)).1 := by
  rw [Idx.exec, Idx.remove]
  rcases find_spec r k with ⟨hk, hf⟩ | ⟨ys, a, zs, σ₁, w, σ₂, hxs, hσ, hkv, h1, h2, hf⟩
  · exact ⟨i, xs, fr, by simp [hf, specStep, look_none hk], by simpa [specStep, del_none hk] using r⟩
  · have hl : look σ k = some w := by rw [hσ]; exact look_split (hσ ▸ r.nd)
    have hd : del σ k = σ₁ ++ σ₂ := by rw [hσ]; exact del_split (hσ ▸ r.nd)
    subst hxs hσ
    have hal : a ∈ i.heap.live := r.mem (by simp)
    have hs : i.s ≠ 0 := fun hs => by
      have := r.emp hs
      simp at this
    have hall : (i.s :: ((ys ++ a :: zs) ++ fr)).Nodup := by
      have := r.anodup
      simpa [sen_of hs] using this
    have hnd : (i.s :: (ys ++ a :: zs)).Nodup := by
      have h3 : (i.s :: (ys ++ a :: zs) ++ fr).Nodup := by simpa using hall
      exact (List.nodup_append.mp h3).1
    have han : a ∉ i.s :: (ys ++ zs) ∧ a ∉ fr := by
      have h3 : (i.s :: ys ++ a :: (zs ++ fr)).Nodup := by simpa using hall
      simp only [List.nodup_append, List.nodup_cons] at h3
      refine ⟨fun hh => ?_, fun hh => h3.2.1.1 (by simp [hh])⟩
      rcases List.mem_cons.mp hh with hh | hh
      · exact h3.2.2 i.s (by simp) a (by simp) hh.symm
      · rcases List.mem_append.mp hh with hh | hh
        · exact h3.2.2 a (by simp [hh]) a (by simp) rfl
        · exact h3.2.1.1 (by simp [hh])
    have hcyc : Seg (i.heap.put a { i.heap.mem a with kv := none }).P
        (i.heap.put a { i.heap.mem a with kv := none }).N i.s (ys ++ a :: zs) i.s := by
      refine seg_frame (r.cyc hs) (fun z _ => ?_) (fun z _ => ?_)
      · simp only [Heap.P, put_mem]
        split
        · rename_i hh; rw [hh]
        · rfl
      · simp only [Heap.N, put_mem]
        split
        · rename_i hh; rw [hh]
        · rfl
    obtain ⟨h', e1, e2, e3, e4, e5⟩ := unlink_spec hcyc hnd (fun z hz => r.mem (by
      rw [sen_of hs]
      simp at hz ⊢
      grind))
    have hkv' : ∀ z, z ≠ a → (h'.mem z).kv = (i.heap.mem z).kv := fun z hz => by
      rw [e4 z]
      simp [put_mem, hz]
    have hlive : i.heap.live.Perm (a :: (i.s :: (ys ++ zs ++ fr))) := by
      refine r.live.trans ?_
      rw [sen_of hs]
      have : (i.s :: ys) ++ a :: (zs ++ fr) = [i.s] ++ (ys ++ a :: zs ++ fr) := by simp
      rw [← this]
      refine List.perm_middle.trans ?_
      simp
    have hmap : (ys ++ zs).map (fun z => (h'.mem z).kv) = (σ₁ ++ σ₂).map some := by
      rw [List.map_append, List.map_append, ← h1, ← h2]
      congr 1
      · exact List.map_congr_left fun z hz => hkv' z fun hh => han.1 (by simp [← hh, hz])
      · exact List.map_congr_left fun z hz => hkv' z fun hh => han.1 (by simp [← hh, hz])
    have hkeys : (keys (σ₁ ++ σ₂)).Nodup := by
      have := r.nd
      refine this.sublist (List.Sublist.map _ ?_)
      exact List.Sublist.append (List.Sublist.refl σ₁) (List.sublist_cons_self _ _)
    have hperm : (i.m.erase a).Perm (ys ++ zs) := by
      have := (r.perm.erase a)
      refine this.trans ?_
      have h3 : (ys ++ a :: zs).Perm (a :: (ys ++ zs)) := List.perm_middle
      refine (h3.erase a).trans ?_
      simp
    have hfrN : ∀ b ∈ fr, h'.N b = i.heap.N b := by
      intro b hb
      have hb' : b ∉ i.s :: (ys ++ a :: zs) := by
        intro hh
        have h3 : (i.s :: (ys ++ a :: zs) ++ fr).Nodup := by simpa using hall
        exact (List.nodup_append.mp h3).2.2 b hh b hb rfl
      have n1 : b ∉ i.s :: (ys ++ zs) := fun hh => hb' (by simp at hh ⊢; grind)
      have n2 : b ≠ a := fun hh => hb' (by simp [hh])
      simp [Heap.N, e5 b n1, put_mem, n2]
    have hal' : a ∈ h'.live := by rw [e2]; exact hal
    by_cases hlib : i.lib = true
    · refine ⟨{ i with heap := h'.put a { h'.mem a with n := i.f }, m := i.m.erase a, f := a }, ys ++ zs, a :: fr,
        ?_, ?_⟩
      · simp [hf, kvAt_ok hal hkv, setKV_ok hal, e1, Idx.freeNode, hlib, setN_ok hal', specStep, hl]
      · simp only [specStep, hd]
        have hxa : ∀ z ∈ i.s :: (ys ++ zs), z ≠ a := fun z hz hh => han.1 (hh ▸ hz)
        refine ⟨hperm, ?_, hkeys, ?_, ?_, ?_, fun _ => ?_, fun hh => (hs hh).elim, ?_, fun hh => by simp [hlib] at hh⟩
        · rw [← hmap]
          exact List.map_congr_left fun z hz => by simp [put_mem, hxa z (by simp at hz ⊢; grind)]
        · have : sen { i with heap := h'.put a { h'.mem a with n := i.f }, m := i.m.erase a, f := a } = [i.s] := by
            simp [sen, hs]
          rw [this]
          simp only [put_live, e2]
          refine hlive.trans ?_
          have h3 : a :: (i.s :: (ys ++ zs ++ fr)) = [a] ++ (i.s :: (ys ++ zs)) ++ fr := by simp
          have h4 : [i.s] ++ (ys ++ zs ++ a :: fr) = (i.s :: (ys ++ zs)) ++ [a] ++ fr := by simp
          rw [h3, h4]
          exact List.Perm.append_right fr List.perm_append_comm
        · simp only [put_live, e2]
          exact r.lnd
        · simp only [put_live, e2]
          exact r.zero
        · refine seg_frame e3 (fun z hz => ?_) (fun z hz => ?_)
          · simp [Heap.P, put_mem, hxa z hz]
          · simp [Heap.N, put_mem, hxa z (by simp at hz ⊢; grind)]
        · refine ⟨rfl, ?_⟩
          have : (h'.put a { h'.mem a with n := i.f }).N a = i.f := by simp [Heap.N, put_mem]
          simp only [this]
          refine FL_frame r.fl (fun b hb => ?_)
          have n2 : b ≠ a := fun hh => han.2 (hh ▸ hb)
          rw [← hfrN b hb]
          simp [Heap.N, put_mem, n2]
    · refine ⟨{ i with heap := { h' with live := h'.live.erase a }, m := i.m.erase a }, ys ++ zs, fr, ?_, ?_⟩
      · simp [hf, kvAt_ok hal hkv, setKV_ok hal, e1, Idx.freeNode, hlib, free_ok hal', specStep, hl]
      · simp only [specStep, hd]
        refine ⟨hperm, hmap, hkeys, ?_, ?_, ?_, fun _ => e3, fun hh => (hs hh).elim, FL_frame r.fl hfrN, r.cons⟩
        · have : sen { i with heap := { h' with live := h'.live.erase a }, m := i.m.erase a } = [i.s] := by
            simp [sen, hs]
          rw [this]
          simp only [e2]
          refine (hlive.erase a).trans ?_
          simp
        · simp only [e2]
          exact r.lnd.erase a
        · simp only [e2]
          exact fun hh => r.zero (List.mem_of_mem_erase hh)

end Verif.Ord
