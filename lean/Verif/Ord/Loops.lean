import Verif.Ord.Refine

/-!
The loops of the ordered index: clearing, releasing the free list, dropping, iterating.
-/
namespace Verif.Ord
open Verif

variable {K V : Type}

/-! ### Loops that free cells -/

/-- Freeing the nodes of a segment from its end: nothing but the set of allocated cells changes. -/
theorem dropNodes_spec {s : Nat} {P N : Nat → Nat} : ∀ (n : Nat) {xs rest : List Nat} {b : Nat} {h : Heap K V} {fuel : Nat},
    xs.length = n → n < fuel → (∀ z, h.N z = N z) → Seg P N s xs b → s ∉ xs → h.live.Nodup →
    h.live.Perm (xs ++ rest) → (∀ a ∈ xs, ∃ e, (h.mem a).kv = some e) →
    ∃ h', dropNodes s fuel h (N b) = .ok h' ∧ h'.mem = h.mem ∧ h'.live.Perm rest ∧ h'.live.Nodup
  | 0, xs, rest, b, h, fuel, hl, hf, hN, hseg, hs, hnd, hp, hkv => by
    obtain ⟨fuel, rfl⟩ := Nat.exists_eq_succ_of_ne_zero (Nat.ne_of_gt hf)
    have : xs = [] := List.eq_nil_of_length_eq_zero hl
    subst this
    refine ⟨h, ?_, rfl, by simpa using hp, hnd⟩
    rw [hseg.2]
    simp [dropNodes]
  | n + 1, xs, rest, b, h, fuel, hl, hf, hN, hseg, hs, hnd, hp, hkv => by
    obtain ⟨fuel, rfl⟩ := Nat.exists_eq_succ_of_ne_zero (Nat.ne_of_gt (Nat.lt_of_le_of_lt (Nat.zero_le _) hf))
    have hne : xs ≠ [] := fun hh => by simp [hh] at hl
    obtain ⟨ys, a, rfl⟩ : ∃ ys a, xs = ys ++ [a] :=
      ⟨xs.dropLast, xs.getLast hne, (List.dropLast_concat_getLast hne).symm⟩
    obtain ⟨h1, h2⟩ := seg_append.mp hseg
    have hNb : N b = a := h2.2
    have hal : a ∈ h.live := hp.mem_iff.mpr (by simp)
    obtain ⟨e, he⟩ := hkv a (by simp)
    have has : a ≠ s := fun hh => hs (by simp [hh])
    have hp' : (h.live.erase a).Perm (ys ++ rest) := by
      refine (hp.erase a).trans ?_
      have : (ys ++ [a] ++ rest).Perm (a :: (ys ++ rest)) := by
        rw [List.append_assoc]
        exact List.perm_middle
      refine (this.erase a).trans ?_
      simp
    obtain ⟨h', e1, e2, e3, e4⟩ := dropNodes_spec n (fuel := fuel) (h := { h with live := h.live.erase a })
      (by simpa using hl) (by omega) hN h1 (fun hh => hs (by simp [hh])) (hnd.erase a) hp'
      (fun z hz => hkv z (by simp [hz]))
    refine ⟨h', ?_, e2, e3, e4⟩
    rw [hNb, dropNodes, if_neg has, load_ok hal, Res.bind_eq, Res.bind, kvAt_ok hal he, Res.bind_eq, Res.bind,
      free_ok hal, Res.bind_eq, Res.bind]
    have : (h.mem a).n = N a := hN a
    rw [this]
    exact e1

theorem freeList_spec {N : Nat → Nat} : ∀ {fr rest : List Nat} {c : Nat} {h : Heap K V} {fuel : Nat},
    fr.length < fuel → (∀ z, h.N z = N z) → FL N c fr → h.live.Nodup → 0 ∉ h.live → h.live.Perm (fr ++ rest) →
    ∃ h', freeList fuel h c = .ok h' ∧ h'.mem = h.mem ∧ h'.live.Perm rest ∧ h'.live.Nodup
  | [], rest, c, h, fuel, hf, hN, hfl, hnd, hz, hp => by
    obtain ⟨fuel, rfl⟩ := Nat.exists_eq_succ_of_ne_zero (Nat.ne_of_gt hf)
    have hc : c = 0 := hfl
    exact ⟨h, by simp [freeList, hc], rfl, by simpa using hp, hnd⟩
  | a :: fr, rest, c, h, fuel, hf, hN, hfl, hnd, hz, hp => by
    obtain ⟨fuel, rfl⟩ := Nat.exists_eq_succ_of_ne_zero (Nat.ne_of_gt (Nat.lt_of_le_of_lt (Nat.zero_le _) hf))
    obtain ⟨rfl, hfl⟩ := hfl
    have hal : c ∈ h.live := hp.mem_iff.mpr (by simp)
    have hc : c ≠ 0 := fun hh => hz (hh ▸ hal)
    have hp' : (h.live.erase c).Perm (fr ++ rest) := by
      refine (hp.erase c).trans ?_
      simp
    obtain ⟨h', e1, e2, e3, e4⟩ := freeList_spec (fuel := fuel) (h := { h with live := h.live.erase c })
      (by simp at hf; omega) hN hfl (hnd.erase c) (fun hh => hz (List.mem_of_mem_erase hh)) hp'
    refine ⟨h', ?_, e2, e3, e4⟩
    rw [freeList, if_neg hc, load_ok hal, Res.bind_eq, Res.bind, free_ok hal, Res.bind_eq, Res.bind]
    have : (h.mem c).n = N c := hN c
    rw [this]
    exact e1

theorem cleanup_spec {i : Idx K V} {xs fr : List Nat} {σ : List (K × V)} (r : Rep i xs fr σ) :
    ∃ i', i.cleanup = .ok i' ∧ i'.heap.mem = i.heap.mem ∧ i'.s = i.s ∧ i'.m = i.m ∧ Rep i' xs [] σ := by
  unfold Idx.cleanup
  by_cases hl : i.lib = true
  · rw [if_pos hl]
    have hp : i.heap.live.Perm (fr ++ (sen i ++ xs)) := by
      refine r.live.trans ?_
      rw [← List.append_assoc]
      exact List.perm_append_comm
    obtain ⟨h', e1, e2, e3, e4⟩ := freeList_spec (N := i.heap.N) (fuel := i.heap.live.length + 1)
      (by have := hp.length_eq; simp at this; omega) (fun _ => rfl) r.fl r.lnd r.zero hp
    refine ⟨{ i with heap := h', f := 0 }, by simp [e1], e2, rfl, rfl, ?_⟩
    refine ⟨r.perm, ?_, r.nd, ?_, e4, ?_, ?_, r.emp, rfl, fun _ => rfl⟩
    · rw [← r.kv, e2]
    · simpa [sen] using e3
    · intro hh
      exact r.zero (r.live.mem_iff.mpr (by
        have := e3.mem_iff.mp hh
        simp at this ⊢
        grind))
    · intro hs
      exact seg_frame (r.cyc hs) (fun z _ => by simp [Heap.P, e2]) (fun z _ => by simp [Heap.N, e2])
  · rw [if_neg hl]
    have hf : i.f = 0 := r.cons (by simpa using hl)
    have hfr : fr = [] := by
      cases hfr : fr with
      | nil => rfl
      | cons a fr' =>
        have := r.fl
        rw [hfr] at this
        have ha : a = 0 := by rw [← this.1, hf]
        exact (r.zero (r.mem (by simp [hfr, ha]))).elim
    subst hfr
    exact ⟨i, rfl, rfl, rfl, rfl, r⟩

theorem clear_spec {i : Idx K V} {xs fr : List Nat} {σ : List (K × V)} (r : Rep i xs fr σ) :
    ∃ i', i.clear = .ok i' ∧ Rep i' [] fr [] := by
  unfold Idx.clear
  by_cases hs : i.s = 0
  · rw [if_pos hs]
    have hxs := r.emp hs
    refine ⟨_, rfl, List.Perm.refl _, rfl, by simp [keys], ?_, r.lnd, r.zero, fun h => (h hs).elim, fun _ => rfl, r.fl,
      r.cons⟩
    have := r.live
    rw [hxs] at this
    simpa [sen] using this
  · rw [if_neg hs]
    have hsl : i.s ∈ i.heap.live := r.mem (by simp [sen_of hs])
    have hall : (i.s :: (xs ++ fr)).Nodup := by
      have := r.anodup
      simpa [sen_of hs] using this
    have hp : i.heap.live.Perm (xs ++ (i.s :: fr)) := by
      refine r.live.trans ?_
      rw [sen_of hs]
      exact (List.perm_middle (l₁ := xs) (l₂ := fr) (a := i.s)).symm
    obtain ⟨h', e1, e2, e3, e4⟩ := dropNodes_spec (s := i.s) (P := i.heap.P) (N := i.heap.N) xs.length
      (fuel := i.heap.live.length + 1) rfl (by have := hp.length_eq; simp at this; omega) (fun _ => rfl) (r.cyc hs)
      (fun hh => (List.nodup_cons.mp hall).1 (by simp [hh])) r.lnd hp
      (fun a ha => by
        obtain ⟨e, _, he⟩ := r.cell ha
        exact ⟨e, he⟩)
    have hsl' : i.s ∈ h'.live := e3.mem_iff.mpr (by simp)
    rw [load_ok hsl, Res.bind_eq, Res.bind]
    have : (i.heap.mem i.s).n = i.heap.N i.s := rfl
    rw [this, e1, Res.bind_eq, Res.bind, setP_ok hsl', Res.bind_eq, Res.bind, setN_ok (by simpa using hsl'),
      Res.bind_eq, Res.bind]
    refine ⟨_, rfl, List.Perm.refl _, rfl, by simp [keys], ?_, e4, ?_, fun _ => ?_, fun _ => rfl, ?_, r.cons⟩
    · simp only [sen, hs, if_false, put_live]
      simpa using e3
    · intro hh
      exact r.zero (hp.mem_iff.mpr (by
        have := e3.mem_iff.mp hh
        simp at this ⊢
        grind))
    · refine ⟨?_, ?_⟩ <;> simp [Heap.P, Heap.N, put_mem]
    · refine FL_frame r.fl (fun b hb => ?_)
      have : b ≠ i.s := fun hh => (List.nodup_cons.mp hall).1 (by simp [← hh, hb])
      simp [Heap.N, put_mem, this, e2]

/-- Dropping the index frees every cell exactly once. -/
theorem drop_spec {i : Idx K V} {xs fr : List Nat} {σ : List (K × V)} (r : Rep i xs fr σ) :
    ∃ h, i.drop = .ok h ∧ h.live = [] := by
  unfold Idx.drop
  by_cases hs : i.s = 0
  · obtain ⟨i', e1, e2, e3, e4, r'⟩ := cleanup_spec r
    refine ⟨i'.heap, by simp [hs, e1], ?_⟩
    have hxs := r.emp hs
    have := r'.live
    simpa [sen, e3, hs, hxs] using this
  · have hsl : i.s ∈ i.heap.live := r.mem (by simp [sen_of hs])
    have hall : (i.s :: (xs ++ fr)).Nodup := by
      have := r.anodup
      simpa [sen_of hs] using this
    have hp : i.heap.live.Perm (xs ++ (i.s :: fr)) := by
      refine r.live.trans ?_
      rw [sen_of hs]
      exact (List.perm_middle (l₁ := xs) (l₂ := fr) (a := i.s)).symm
    obtain ⟨h', e1, e2, e3, e4⟩ := dropNodes_spec (s := i.s) (P := i.heap.P) (N := i.heap.N) xs.length
      (fuel := i.heap.live.length + 1) rfl (by have := hp.length_eq; simp at this; omega) (fun _ => rfl) (r.cyc hs)
      (fun hh => (List.nodup_cons.mp hall).1 (by simp [hh])) r.lnd hp
      (fun a ha => by
        obtain ⟨e, _, he⟩ := r.cell ha
        exact ⟨e, he⟩)
    have hsl' : i.s ∈ h'.live := e3.mem_iff.mpr (by simp)
    have hn : (i.heap.mem i.s).n = i.heap.N i.s := rfl
    have hp2 : (h'.live.erase i.s).Perm (fr ++ []) := by
      refine (e3.erase i.s).trans ?_
      simp
    simp only [hs, if_false]
    rw [load_ok hsl, Res.bind_eq, Res.bind, hn, e1, Res.bind_eq, Res.bind, free_ok hsl', Res.bind_eq, Res.bind]
    unfold Idx.cleanup
    by_cases hl : i.lib = true
    · obtain ⟨h2, f1, f2, f3, f4⟩ := freeList_spec (N := i.heap.N) (fr := fr) (rest := []) (c := i.f)
        (h := { h' with live := h'.live.erase i.s }) (fuel := (h'.live.erase i.s).length + 1)
        (by have := hp2.length_eq; simp at this ⊢; omega) (fun _ => by simp [Heap.N, e2]) r.fl (e4.erase _)
        (fun hh => r.zero (hp.mem_iff.mpr (by
          have := e3.mem_iff.mp (List.mem_of_mem_erase hh)
          simp at this ⊢
          grind))) hp2
      refine ⟨h2, ?_, by simpa using f3⟩
      simp only [hl, if_true]
      rw [f1]
      rfl
    · have hf : i.f = 0 := r.cons (by simpa using hl)
      have hfr : fr = [] := by
        cases hfr : fr with
        | nil => rfl
        | cons a fr' =>
          have := r.fl
          rw [hfr] at this
          have ha : a = 0 := by rw [← this.1, hf]
          exact (r.zero (r.mem (by simp [hfr, ha]))).elim
      refine ⟨{ h' with live := h'.live.erase i.s }, by simp [hl], ?_⟩
      simpa [hfr] using hp2

/-! ### Iterators -/

/-- An iterator with the nodes `ws` left. -/
structure ItRep (h : Heap K V) (it : It) (ws : List Nat) (σ : List (K × V)) : Prop where
  head : it.h = hd ws it.t
  seg : ∀ w ws', ws = w :: ws' → Seg h.P h.N w ws' it.t
  tl : it.t ∉ ws
  nd : ws.Nodup
  cnt : it.r = ws.length
  tlive : ws ≠ [] → it.t ∈ h.live
  live : ∀ w ∈ ws, w ∈ h.live
  kv : ws.map (fun a => (h.mem a).kv) = σ.map some

theorem iter_spec {i : Idx K V} {xs fr : List Nat} {σ : List (K × V)} (r : Rep i xs fr σ) :
    ∃ it, i.iter = .ok it ∧ ItRep i.heap it xs σ := by
  unfold Idx.iter
  by_cases hs : i.s = 0
  · rw [if_pos hs]
    have hxs := r.emp hs
    subst hxs
    refine ⟨_, rfl, by simp [hd, hs], by simp, by simp, by simp, ?_, by simp, by simp, r.kv⟩
    simpa using r.perm.length_eq
  · rw [if_neg hs]
    have hsl : i.s ∈ i.heap.live := r.mem (by simp [sen_of hs])
    have hall : (i.s :: (xs ++ fr)).Nodup := by
      have := r.anodup
      simpa [sen_of hs] using this
    rw [load_ok hsl]
    refine ⟨_, rfl, (seg_head (r.cyc hs)).1, ?_, ?_, ?_, r.perm.length_eq, fun _ => hsl, fun w hw => r.mem (by simp [hw]),
      r.kv⟩
    · intro w ws' hw
      have := r.cyc hs
      rw [hw] at this
      exact this.2.2
    · exact fun hh => (List.nodup_cons.mp hall).1 (by simp [hh])
    · exact (List.nodup_append.mp (List.nodup_cons.mp hall).2).1

theorem next_spec {h : Heap K V} {it : It} {ws : List Nat} {σ : List (K × V)} (r : ItRep h it ws σ) :
    ∃ it', it.next h = .ok (it', σ.head?) ∧ ItRep h it' ws.tail σ.tail := by
  unfold It.next
  cases ws with
  | nil =>
    have hh := r.head
    have hσ : σ = [] := by
      have := congrArg List.length r.kv
      exact List.eq_nil_of_length_eq_zero (by simpa using this.symm)
    subst hσ
    simp only [hd] at hh
    rw [if_pos hh]
    exact ⟨it, rfl, by simpa [hd] using r⟩
  | cons w ws =>
    have hh : it.h = w := r.head
    have hne : it.h ≠ it.t := fun h1 => r.tl (by rw [← h1, hh]; simp)
    rw [if_neg hne]
    have hk := r.kv
    cases σ with
    | nil => simp at hk
    | cons e σ =>
      simp only [List.map_cons, List.cons.injEq] at hk
      have hw : w ∈ h.live := r.live w (by simp)
      rw [hh, kvAt_ok hw hk.1, Res.bind_eq, Res.bind, load_ok hw, Res.bind_eq, Res.bind]
      have hseg := r.seg w ws rfl
      have hr := r.cnt
      simp only [List.length_cons] at hr
      refine ⟨_, rfl, (seg_head hseg).1, ?_, ?_, (List.nodup_cons.mp r.nd).2, ?_, fun _ => r.tlive (by simp),
        fun z hz => r.live z (List.mem_cons_of_mem _ hz), hk.2⟩
      · intro w' ws' hw'
        simp only [List.tail_cons] at hw'
        rw [hw'] at hseg
        exact hseg.2.2
      · exact fun hz => r.tl (List.mem_cons_of_mem _ hz)
      · simp [hr]

theorem nextBack_spec {h : Heap K V} {it : It} {ws : List Nat} {σ : List (K × V)} (r : ItRep h it ws σ) :
    ∃ it', it.nextBack h = .ok (it', σ.getLast?) ∧ ItRep h it' ws.dropLast σ.dropLast := by
  unfold It.nextBack
  by_cases hws : ws = []
  · subst hws
    have hh := r.head
    have hσ : σ = [] := by
      have := congrArg List.length r.kv
      exact List.eq_nil_of_length_eq_zero (by simpa using this.symm)
    subst hσ
    simp only [hd] at hh
    rw [if_pos hh]
    exact ⟨it, rfl, by simpa [hd] using r⟩
  · obtain ⟨vs, l, rfl⟩ : ∃ ys a, ws = ys ++ [a] :=
      ⟨ws.dropLast, ws.getLast hws, (List.dropLast_concat_getLast hws).symm⟩
    have hne : it.h ≠ it.t := fun h1 => r.tl (by
      rw [← h1, r.head]
      cases vs <;> simp [hd])
    rw [if_neg hne]
    have hk := r.kv
    rw [List.map_append] at hk
    obtain ⟨σ', τ, rfl, e1, e2⟩ := List.append_eq_map_iff.mp hk
    obtain ⟨e, τ', rfl, e3, e4⟩ := List.map_eq_cons_iff.mp e2
    have hτ : τ' = [] := by simpa using e4
    subst hτ
    have hl : l ∈ h.live := r.live l (by simp)
    have ht : it.t ∈ h.live := r.tlive (by simp)
    have hN : (h.mem it.t).n = l := by
      cases vs with
      | nil => exact (r.seg l [] rfl).2
      | cons v vs => exact (seg_append.mp (r.seg v (vs ++ [l]) rfl)).2.2
    have hr := r.cnt
    simp only [List.length_append, List.length_cons, List.length_nil] at hr
    rw [load_ok ht, Res.bind_eq, Res.bind]
    simp only [hN]
    rw [kvAt_ok hl e3.symm, Res.bind_eq, Res.bind]
    have hd2 : (vs ++ [l]).dropLast = vs := by simp
    have hnd := List.nodup_append.mp r.nd
    refine ⟨_, by simp; rfl, ?_⟩
    rw [hd2, List.dropLast_concat]
    refine ⟨?_, ?_, ?_, hnd.1, ?_, fun _ => hl, fun w hw => r.live w (by simp [hw]), e1.symm⟩
    · have := r.head
      cases vs with
      | nil => simpa [hd] using this
      | cons v vs => simpa [hd] using this
    · intro w ws' hw
      subst hw
      exact (seg_append.mp (r.seg w (ws' ++ [l]) rfl)).1
    · exact fun hh => hnd.2.2 l hh l (by simp) rfl
    · simp [hr]

theorem run_iter_spec {h : Heap K V} : ∀ {calls : List Bool} {it : It} {ws : List Nat} {σ : List (K × V)},
    ItRep h it ws σ → It.run h it calls = .ok (pops σ calls)
  | [], it, ws, σ, r => rfl
  | true :: bs, it, ws, σ, r => by
    obtain ⟨it', e1, e2⟩ := nextBack_spec r
    have hc : it'.r = σ.dropLast.length := by
      rw [e2.cnt]
      have := congrArg List.length e2.kv
      simpa using this
    rw [It.run]
    simp [e1, run_iter_spec e2, pops, hc]
  | false :: bs, it, ws, σ, r => by
    obtain ⟨it', e1, e2⟩ := next_spec r
    have hc : it'.r = σ.tail.length := by
      rw [e2.cnt]
      have := congrArg List.length e2.kv
      simpa using this
    rw [It.run]
    simp [e1, run_iter_spec e2, pops, hc]

/-! ### All operations -/

theorem exec_spec [DecidableEq K] {A : Malloc} (hA : A.Sound) {i : Idx K V} {xs fr : List Nat} {σ : List (K × V)}
    (r : Rep i xs fr σ) (o : Op K V) :
    ∃ i' xs' fr', i.exec A o = .ok (i', (specStep σ o).2) ∧ Rep i' xs' fr' (specStep σ o).1 := by
  cases o with
  | insert k v => exact insert_spec hA r k v
  | update k v => exact update_spec r k v
  | upsert k v => exact upsert_spec hA r k v
  | getMut k v => exact getMut_spec r k v
  | remove k => exact remove_spec r k
  | get k => exact ⟨i, xs, fr, get_spec r k, r⟩
  | len =>
    refine ⟨i, xs, fr, ?_, r⟩
    simp only [Idx.exec, specStep, r.len, r.perm.length_eq]
  | clear =>
    obtain ⟨i', e1, e2⟩ := clear_spec r
    exact ⟨i', [], fr, by simp [Idx.exec, e1, specStep], e2⟩
  | compact =>
    obtain ⟨i', e1, _, _, _, e2⟩ := cleanup_spec r
    exact ⟨i', xs, [], by simp [Idx.exec, e1, specStep], e2⟩
  | iter calls =>
    obtain ⟨it, e1, e2⟩ := iter_spec r
    exact ⟨i, xs, fr, by simp [Idx.exec, e1, run_iter_spec e2, specStep], r⟩

theorem run_spec [DecidableEq K] {A : Malloc} (hA : A.Sound) : ∀ {os : List (Op K V)} {i : Idx K V} {xs fr : List Nat}
    {σ : List (K × V)}, Rep i xs fr σ →
    ∃ i' xs' fr', i.run A os = .ok (i', (specRun σ os).2) ∧ Rep i' xs' fr' (specRun σ os).1
  | [], i, xs, fr, σ, r => ⟨i, xs, fr, rfl, r⟩
  | o :: os, i, xs, fr, σ, r => by
    obtain ⟨i', xs', fr', e1, r'⟩ := exec_spec hA r o
    obtain ⟨i2, xs2, fr2, e2, r2⟩ := run_spec hA (os := os) r'
    exact ⟨i2, xs2, fr2, by simp [Idx.run, e1, e2, specRun], r2⟩

/-! ### The owned iterator -/

/-- If freed memory kept its contents, the owned iterator would give the entries in order; the sentinel stays
allocated. -/
theorem drain_keep {t : Nat} {P N : Nat → Nat} : ∀ {ws : List Nat} {h : Heap K V} {it : It} {σ : List (K × V)} {fuel : Nat}
    {rest : List Nat}, ws.length < fuel → it.t = t → it.h = hd ws t → (∀ z, h.P z = P z) →
    (∀ w ws', ws = w :: ws' → Seg P N w ws' t) → t ∉ ws → h.live.Nodup → h.live.Perm (ws ++ rest) →
    ws.map (fun a => (h.mem a).kv) = σ.map some →
    ∃ h', drainOwned true fuel h it = .ok (h', σ) ∧ h'.live.Perm rest
  | [], h, it, σ, fuel, rest, hf, ht, hh, hP, hseg, hnt, hnd, hp, hkv => by
    obtain ⟨fuel, rfl⟩ := Nat.exists_eq_succ_of_ne_zero (Nat.ne_of_gt hf)
    have hσ : σ = [] := by
      have := congrArg List.length hkv
      exact List.eq_nil_of_length_eq_zero (by simpa using this.symm)
    subst hσ
    refine ⟨h, ?_, by simpa using hp⟩
    have he : it.h = it.t := by rw [hh, ht]; rfl
    simp [drainOwned, It.nextOwned, he]
  | w :: ws, h, it, σ, fuel, rest, hf, ht, hh, hP, hseg, hnt, hnd, hp, hkv => by
    obtain ⟨fuel, rfl⟩ := Nat.exists_eq_succ_of_ne_zero (Nat.ne_of_gt (Nat.lt_of_le_of_lt (Nat.zero_le _) hf))
    cases σ with
    | nil => simp at hkv
    | cons e σ =>
      simp only [List.map_cons, List.cons.injEq] at hkv
      have hw : w ∈ h.live := hp.mem_iff.mpr (by simp)
      have hhw : it.h = w := hh
      have hne : it.h ≠ it.t := fun h1 => hnt (by rw [← ht, ← h1, hhw]; simp)
      have hs := hseg w ws rfl
      have hp' : (h.live.erase w).Perm (ws ++ rest) := by
        refine (hp.erase w).trans ?_
        simp
      obtain ⟨h', e1, e2⟩ := drain_keep (ws := ws) (h := { h with live := h.live.erase w })
        (it := { it with h := (h.mem w).p, r := if it.r = 0 then 2 ^ 64 - 1 else it.r - 1 }) (σ := σ) (fuel := fuel)
        (rest := rest) (by simp at hf; omega) ht (by
          have := (seg_head hs).1
          rw [← hP w] at this
          exact this) hP (fun w' ws' hw' => by
          subst hw'
          exact hs.2.2) (fun hh => hnt (by simp [hh])) (hnd.erase w) hp' hkv.2
      refine ⟨h', ?_, e2⟩
      rw [drainOwned]
      have hne' : w ≠ it.t := hhw ▸ hne
      simp only [It.nextOwned, hhw, if_neg hne', kvAt_ok hw hkv.1, free_ok hw, Res.bind_eq, Res.bind, if_true]
      rw [e1]

end Verif.Ord
