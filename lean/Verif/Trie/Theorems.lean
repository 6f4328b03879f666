import Verif.Trie.Lemmas
/-!
C15: the primary index is a map.
-/
namespace Verif.Trie
variable {K V : Type} [DecidableEq K]

/-! ### Specification -/

/-- The key of an operation. -/
def Op.key : Op K V → K
  | .insert k _ | .upsert k _ | .update k _ | .delete k | .get k => k

/-- What an operation does to a finite map. -/
def specStep (m : K → Option V) : Op K V → K → Option V
  | .insert k v => fun x => if x = k ∧ m k = none then some v else m x
  | .upsert k v => fun x => if x = k then some v else m x
  | .update k v => fun x => if x = k ∧ m k ≠ none then some v else m x
  | .delete k => fun x => if x = k then none else m x
  | .get _ => m

/-- The map after the operations, and the value that each of them found under its key. -/
def specRun (m : K → Option V) : List (Op K V) → (K → Option V) × List (Option V)
  | [] => (m, [])
  | o :: os =>
    let r := specRun (specStep m o) os
    (r.1, m o.key :: r.2)

/-! ### Lookup -/

theorem shift_shift (h : UInt64) (a b : Nat) (hab : a + b < 64) :
    (h >>> UInt64.ofNat a) >>> UInt64.ofNat b = h >>> UInt64.ofNat (a + b) := by
  apply UInt64.toNat_inj.1
  rw [UInt64.toNat_shiftRight, UInt64.toNat_shiftRight, UInt64.toNat_shiftRight]
  simp only [UInt64.toNat_ofNat']
  rw [Nat.mod_eq_of_lt (a := a) (by omega), Nat.mod_eq_of_lt (a := b) (by omega), Nat.mod_eq_of_lt (a := a + b) (by omega),
    Nat.mod_eq_of_lt (a := a) (by omega), Nat.mod_eq_of_lt (a := b) (by omega), Nat.mod_eq_of_lt (a := a + b) (by omega),
    Nat.shiftRight_add]

theorem chunk_shift (h : UInt64) (a : Nat) (ha : a < 64) : chunk (h >>> UInt64.ofNat a) 0 = chunk h a := by
  rw [chunk, chunk, Fin.mk.injEq]
  rw [shift_shift h a 0 (by omega)]
  rfl

theorem lookup_look {hash : K → UInt64} {k : K} : ∀ {n : Nat} {P : K → Prop} {t : Tree K V} {h : UInt64}, n ≤ HEIGHT →
    WF hash n P t → (0 < n → h = hash k >>> UInt64.ofNat (lev n)) → lookup k h t = look hash k n t
  | n, P, .null, h, _, _, _ => by rw [look_null]; rfl
  | n, P, .data l, h, _, _, _ => by rw [look_data]; rfl
  | 0, P, .branch f, h, _, hw, _ => hw.elim
  | n + 1, P, .branch f, h, hn, hw, hh => by
    have hh := hh (by omega)
    have hlev : lev (n + 1) < 64 := by simp only [lev, LG, HEIGHT] at *; omega
    rw [lookup, look, hh, chunk_shift _ _ hlev]
    refine lookup_look (by omega) (hw _) ?_
    intro hn0
    have : lev n = lev (n + 1) + 4 := by simp only [lev, LG, HEIGHT] at *; omega
    rw [this]
    exact shift_shift _ _ 4 (by simp only [lev, LG, HEIGHT] at *; omega)

/-! ### Iteration -/

theorem iter_data {l : List (K × V)} : ∀ (j i : Nat) (s : List (Tree K V × Nat)), l.length - i = j →
    ∃ N, ∀ m, iterAll (N + m) ((.data l, i) :: s) = (iterAll m s).map (l.drop i ++ ·)
  | 0, i, s, h => by
    refine ⟨1, fun m => ?_⟩
    have hi : l.length ≤ i := by omega
    rw [Nat.add_comm, iterAll, iterStep, List.getElem?_eq_none hi, List.drop_eq_nil_of_le hi]
    simp only []
    cases iterAll m s <;> rfl
  | j + 1, i, s, h => by
    obtain ⟨N, hN⟩ := iter_data (l := l) j (i + 1) s (by omega)
    refine ⟨N + 1, fun m => ?_⟩
    have hi : i < l.length := by omega
    rw [show N + 1 + m = (N + m) + 1 from by omega, iterAll, iterStep, List.getElem?_eq_getElem hi]
    simp only []
    rw [hN, List.drop_eq_getElem_cons hi]
    cases iterAll m s <;> rfl

theorem drop_finRange {i : Nat} (h : i < 16) : (List.finRange 16).drop i = ⟨i, h⟩ :: (List.finRange 16).drop (i + 1) := by
  rw [List.drop_eq_getElem_cons (by simpa using h)]
  simp

/-- An iterator at a node returns all its elements; the stack has room for them. -/
theorem iter_tree {hash : K → UInt64} : ∀ {n : Nat} {P : K → Prop} {t : Tree K V} (s : List (Tree K V × Nat)),
    WF hash n P t → s.length + n + 1 ≤ 17 →
    ∃ N, ∀ m, iterAll (N + m) ((t, 0) :: s) = (iterAll m s).map (elems t ++ ·)
  | n, P, .null, s, _, _ => by
    refine ⟨1, fun m => ?_⟩
    rw [Nat.add_comm, iterAll, iterStep, elems]
    simp only []
    cases iterAll m s <;> rfl
  | n, P, .data l, s, _, _ => iter_data l.length 0 s rfl
  | 0, P, .branch f, s, h, _ => h.elim
  | n + 1, P, .branch f, s, h, hs => by
    have key : ∀ (j i : Nat), 16 - i = j → ∃ N, ∀ m, iterAll (N + m) ((.branch f, i) :: s) =
        (iterAll m s).map (((List.finRange 16).drop i).flatMap (fun i => elems (f i)) ++ ·) := by
      intro j
      induction j with
      | zero =>
        intro i hi
        refine ⟨1, fun m => ?_⟩
        rw [Nat.add_comm, iterAll, iterStep, dif_neg (by omega), List.drop_eq_nil_of_le (by simp; omega)]
        simp only []
        cases iterAll m s <;> rfl
      | succ j ih =>
        intro i hi
        have hi' : i < 16 := by omega
        obtain ⟨N, hN⟩ := ih (i + 1) (by omega)
        obtain ⟨M, hM⟩ := iter_tree ((.branch f, i + 1) :: s) (h ⟨i, hi'⟩) (by simp; omega)
        refine ⟨M + N + 1, fun m => ?_⟩
        rw [show M + N + 1 + m = (M + (N + m)) + 1 from by omega, iterAll, iterStep, dif_pos hi', if_pos (by omega)]
        simp only []
        rw [hM, hN, drop_finRange hi', List.flatMap_cons]
        cases iterAll m s <;> simp
    have := key 16 0 rfl
    rw [List.drop_zero] at this
    exact this

/-! ### The number of elements -/

theorem nodup_of_map {l : List (K × V)} (h : (l.map (·.1)).Nodup) : l.Nodup :=
  (List.pairwise_map.1 h).imp fun h e => h (congrArg _ e)

/-- The number of elements after one key was changed. -/
theorem length_elems {hash : K → UInt64} {n : Nat} {P : K → Prop} {t t' : Tree K V} (h : WF hash n P t)
    (h' : WF hash n P t') {k : K} {r : Option (K × V)} (hr : ∀ e, r = some e → e.1 = k)
    (hl : ∀ x, look hash x n t' = if x = k then r else look hash x n t) :
    (elems t').length + (if (look hash k n t).isSome then 1 else 0) = (elems t).length + (if r.isSome then 1 else 0) := by
  have hA := nodup_elems h
  have hB := nodup_elems h'
  -- both sides have the same elements with other keys
  let F := fun l : List (K × V) => l.filter fun e => decide (e.1 ≠ k)
  have hF : (F (elems t)).length = (F (elems t')).length := by
    apply List.Perm.length_eq
    rw [List.perm_ext_iff_of_nodup ((nodup_of_map hA).sublist List.filter_sublist)
      ((nodup_of_map hB).sublist List.filter_sublist)]
    intro e
    simp only [F, List.mem_filter, decide_eq_true_eq, mem_elems h, mem_elems h', hl]
    constructor
    · rintro ⟨h1, h2⟩; rw [if_neg h2]; exact ⟨h1, h2⟩
    · rintro ⟨h1, h2⟩; rw [if_neg h2] at h1; exact ⟨h1, h2⟩
  have hcount : ∀ {t : Tree K V}, WF hash n P t →
      (elems t).length = (F (elems t)).length + (if (look hash k n t).isSome then 1 else 0) := by
    intro t h
    have hA := nodup_elems h
    cases hk : look hash k n t with
    | none =>
      have : F (elems t) = elems t := by
        apply List.filter_eq_self.2
        intro e he
        simp only [decide_eq_true_eq]
        intro hek
        have h1 := (mem_elems h).1 he
        rw [hek, hk] at h1
        cases h1
      rw [this]; rfl
    | some e =>
      have hek := look_key hk
      have : (elems t).Perm (e :: F (elems t)) := by
        rw [List.perm_ext_iff_of_nodup (nodup_of_map hA)]
        · intro x
          simp only [F, List.mem_cons, List.mem_filter, decide_eq_true_eq, mem_elems h]
          constructor
          · intro hx
            by_cases hxk : x.1 = k
            · rw [hxk, hk] at hx; cases hx; exact .inl rfl
            · exact .inr ⟨hx, hxk⟩
          · rintro (rfl | ⟨hx, _⟩)
            · rw [hek]; exact hk
            · exact hx
        · rw [List.nodup_cons]
          refine ⟨?_, (nodup_of_map hA).sublist List.filter_sublist⟩
          simp only [F, List.mem_filter, decide_eq_true_eq]
          exact fun h => h.2 hek
      rw [this.length_eq]; rfl
  have h1 := hcount h
  have h2 := hcount h'
  rw [hl k, if_pos rfl] at h2
  omega

/-! ### The invariant of the index -/

/-- The index `x` represents the map `m`. -/
structure Rep (hash : K → UInt64) (x : Idx K V) (m : K → Option V) : Prop where
  wf : WF hash HEIGHT (fun _ => True) x.root
  look : ∀ k, look hash k HEIGHT x.root = (m k).map fun v => (k, v)
  len : x.len = (elems x.root).length

theorem rep_new {hash : K → UInt64} : Rep hash (Idx.new : Idx K V) fun _ => none :=
  ⟨trivial, fun _ => rfl, rfl⟩

theorem map_none {k : K} {o : Option V} : (o.map fun v => (k, v)) = none ↔ o = none := by cases o <;> simp

theorem writes_map {w : WMode} {k : K} {o : Option V} :
    writes w (o.map fun v => (k, v)) = match w with | .fresh => decide (o = none) | .refresh => decide (o ≠ none) | .any => true := by
  cases w <;> cases o <;> simp [writes]

theorem rep_patch {hash : K → UInt64} {x : Idx K V} {m : K → Option V} (h : Rep hash x m) (w : WMode) (k : K) (v : V) :
    ∃ y, x.patch hash w k v = some (y, (m k).map fun v => (k, v)) ∧
      Rep hash y fun z => if z = k ∧ writes w ((m k).map fun v => (k, v)) = true then some v else m z := by
  obtain ⟨p, hp, hs⟩ := patch_spec (m := w) (v := v) (k := k) (Nat.le_refl _) h.wf trivial
  refine ⟨⟨p.t, x.len + if p.grew then 1 else 0⟩, ?_, ?_, ?_, ?_⟩
  · rw [Idx.patch, hp, Option.map_some, hs.ex, h.look]
  · exact hs.wf
  · intro z
    simp only []
    rw [hs.look, h.look k]
    split
    · rename_i hc; rw [hc.1]; rfl
    · exact h.look z
  · simp only []
    rw [h.len, hs.grew]
    by_cases hw : writes w (look hash k HEIGHT x.root) = true
    · have := length_elems h.wf hs.wf (k := k) (r := some (k, v)) (by rintro e ⟨⟩; rfl)
        (fun z => by rw [hs.look]; simp [hw])
      rw [hw, Bool.and_true]
      cases hk : look hash k HEIGHT x.root <;> rw [hk] at this <;> simp at this ⊢ <;> omega
    · have := length_elems h.wf hs.wf (k := k) (r := look hash k HEIGHT x.root) (fun e he => look_key he)
        (fun z => by
          rw [hs.look]
          simp only [hw, and_false, if_false, Bool.false_eq_true]
          split
          · rename_i hz; rw [hz]
          · rfl)
      simp only [Bool.not_eq_true] at hw
      rw [hw, Bool.and_false]
      simp only [Bool.false_eq_true, if_false]
      omega

theorem rep_remove {hash : K → UInt64} {x : Idx K V} {m : K → Option V} (h : Rep hash x m) (k : K) :
    ∃ y, x.remove hash k = some (y, (m k).map fun v => (k, v)) ∧ Rep hash y fun z => if z = k then none else m z := by
  obtain ⟨p, hp, hs⟩ := remove_spec (k := k) h.wf trivial
  refine ⟨⟨p.t, x.len - if p.ex.isSome then 1 else 0⟩, ?_, hs.wf, ?_, ?_⟩
  · rw [Idx.remove, hp, Option.map_some, hs.ex, h.look]
  · intro z
    simp only []
    rw [hs.look]
    split
    · rfl
    · exact h.look z
  · simp only []
    have := length_elems h.wf hs.wf (k := k) (r := none) (by simp) hs.look
    rw [h.len, hs.ex]
    simp at this
    omega

theorem rep_exec {hash : K → UInt64} {x : Idx K V} {m : K → Option V} (h : Rep hash x m) (o : Op K V) :
    ∃ y, x.exec hash o = some (y, (m o.key).map fun v => (o.key, v)) ∧ Rep hash y (specStep m o) := by
  cases o with
  | insert k v =>
    obtain ⟨y, h1, h2⟩ := rep_patch h .fresh k v
    refine ⟨y, h1, ?_⟩
    simpa only [writes_map, specStep, decide_eq_true_eq] using h2
  | upsert k v =>
    obtain ⟨y, h1, h2⟩ := rep_patch h .any k v
    refine ⟨y, h1, ?_⟩
    simpa only [writes_map, specStep, and_true] using h2
  | update k v =>
    obtain ⟨y, h1, h2⟩ := rep_patch h .refresh k v
    refine ⟨y, h1, ?_⟩
    simpa only [writes_map, specStep, decide_eq_true_eq] using h2
  | delete k => exact rep_remove h k
  | get k =>
    refine ⟨x, ?_, h⟩
    rw [Idx.exec, lookup_look (Nat.le_refl _) h.wf, h.look]
    · rfl
    · intro _
      exact (UInt64.toNat_inj.1 (by rw [UInt64.toNat_shiftRight]; rfl))

/-! ### The theorems -/

/-- The results of the operations, with their keys. -/
def withKeys : List (Op K V) → List (Option V) → List (Ret K V)
  | o :: os, r :: rs => (r.map fun v => (o.key, v)) :: withKeys os rs
  | _, _ => []

theorem rep_run {hash : K → UInt64} : ∀ {os : List (Op K V)} {x : Idx K V} {m : K → Option V}, Rep hash x m →
    ∃ y, x.run hash os = some (y, withKeys os (specRun m os).2) ∧ Rep hash y (specRun m os).1
  | [], x, m, h => ⟨x, rfl, h⟩
  | o :: os, x, m, h => by
    obtain ⟨y, h1, h2⟩ := rep_exec h o
    obtain ⟨z, h3, h4⟩ := rep_run (os := os) h2
    refine ⟨z, ?_, h4⟩
    rw [Idx.run, h1]
    simp only [Option.bind_some]
    rw [h3]
    rfl

/-- **C15.** For every hash function and every sequence of operations on an empty index: no operation
panics; each finds what the map has under its key; afterwards lookups, iteration and the number of elements
agree with the map. -/
theorem C15_is_a_map (hash : K → UInt64) (os : List (Op K V)) :
    ∃ (x : Idx K V), Idx.new.run hash os = some (x, withKeys os (specRun (fun _ => none) os).2) ∧
      (∀ k, lookup k (hash k) x.root = ((specRun (fun _ => none) os).1 k).map fun v => (k, v)) ∧
      ∃ es N, (∀ n, N ≤ n → iterAll n [(x.root, 0)] = some es) ∧ (es.map (·.1)).Nodup ∧
        (∀ k v, (k, v) ∈ es ↔ (specRun (fun _ => none) os).1 k = some v) ∧ x.len = es.length := by
  obtain ⟨x, h1, h2⟩ := rep_run (hash := hash) (os := os) rep_new
  refine ⟨x, h1, fun k => ?_, elems x.root, ?_⟩
  · rw [lookup_look (Nat.le_refl _) h2.wf, h2.look]
    intro _
    exact (UInt64.toNat_inj.1 (by rw [UInt64.toNat_shiftRight]; rfl))
  · obtain ⟨N, hN⟩ := iter_tree [] h2.wf (by simp [HEIGHT])
    refine ⟨N, fun n hn => ?_, nodup_elems h2.wf, fun k v => ?_, h2.len⟩
    · have := hN (n - N)
      rw [show N + (n - N) = n from by omega] at this
      rw [this]
      cases n - N <;> simp [iterAll]
    · rw [mem_elems h2.wf, h2.look]
      cases (specRun (fun _ => none) os).1 k <;> simp

/-! ### Memory is given back -/

/-- Every branch holds at least two elements. -/
def Compact : Tree K V → Prop
  | .branch f => 2 ≤ (elems (.branch f)).length ∧ ∀ i, Compact (f i)
  | _ => True

theorem length_flatMap (f : Fin 16 → Tree K V) :
    (elems (.branch f)).length = ((List.finRange 16).map fun i => (elems (f i)).length).sum := by
  rw [elems, List.length_flatMap]

theorem le_sum {g : Fin 16 → Nat} : ∀ {l : List (Fin 16)} {i : Fin 16}, i ∈ l → g i ≤ (l.map g).sum
  | [], _, h => by simp at h
  | a :: l, i, h => by
    simp only [List.map_cons, List.sum_cons]
    rcases List.mem_cons.1 h with rfl | h
    · omega
    · have := le_sum (g := g) h; omega

theorem two_le_sum {g : Fin 16 → Nat} : ∀ {l : List (Fin 16)} {i j : Fin 16}, i ≠ j → i ∈ l → j ∈ l →
    g i + g j ≤ (l.map g).sum
  | [], _, _, _, h, _ => by simp at h
  | a :: l, i, j, hij, hi, hj => by
    simp only [List.map_cons, List.sum_cons]
    rcases List.mem_cons.1 hi with h1 | h1 <;> rcases List.mem_cons.1 hj with h2 | h2
    · exact absurd (h1.trans h2.symm) hij
    · have := le_sum (g := g) h2; rw [h1]; omega
    · have := le_sum (g := g) h1; rw [h2]; omega
    · have := two_le_sum (g := g) hij h1 h2; omega

theorem patch_length {hash : K → UInt64} {m : WMode} {k : K} {v : V} {n : Nat} {P : K → Prop} {t : Tree K V} {p : Patched K V}
    (h : WF hash n P t) (hs : PatchSpec hash m k v n P t p) :
    (elems p.t).length = (elems t).length + if p.grew then 1 else 0 := by
  rw [hs.grew]
  by_cases hw : writes m (look hash k n t) = true
  · have := length_elems h hs.wf (k := k) (r := some (k, v)) (by rintro e ⟨⟩; rfl)
      (fun z => by rw [hs.look]; simp [hw])
    rw [hw, Bool.and_true]
    cases hk : look hash k n t <;> rw [hk] at this <;> simp at this ⊢ <;> omega
  · have := length_elems h hs.wf (k := k) (r := look hash k n t) (fun e he => look_key he)
      (fun z => by
        rw [hs.look]
        simp only [hw, and_false, if_false, Bool.false_eq_true]
        split
        · rename_i hz; rw [hz]
        · rfl)
    simp only [Bool.not_eq_true] at hw
    rw [hw, Bool.and_false]
    simp only [Bool.false_eq_true, if_false]
    omega

theorem patch_compact {hash : K → UInt64} {m : WMode} {k : K} {v : V} : ∀ {n : Nat} {P : K → Prop} {t : Tree K V}
    {p : Patched K V}, n ≤ HEIGHT → WF hash n P t → P k → Compact t → patch hash m k v n t = some p → Compact p.t
  | n, P, .null, p, _, _, _, _, hp => by
    cases m <;> cases n <;> simp only [patch, Option.some.injEq] at hp <;> subst hp <;> trivial
  | 0, P, .data l, p, _, h, _, _, hp => by
    rw [patch, if_neg (WF.data.1 h).1] at hp
    cases hp
    unfold patchData
    split <;> trivial
  | n + 1, P, .data l, p, hn, h, hk, hc, hp => by
    have hd := WF.data.1 h
    obtain ⟨e, rfl⟩ := List.length_eq_one_iff.1 (hd.2.2.2 (by omega))
    obtain ⟨q, hq, hs⟩ := patch_spec (m := m) (v := v) hn h hk
    have hpq : p = q := by rw [hp] at hq; exact Option.some.inj hq
    have hlen := patch_length h hs
    rw [← hpq] at hlen
    rw [patch.eq_def] at hp
    simp only [] at hp
    split at hp
    · cases hp; unfold patchData; split <;> trivial
    · rename_i he
      simp only [ne_eq, not_true_eq_false, if_false] at hp
      obtain ⟨hw, hl⟩ := split_wf h
      have hgrew : m ≠ .refresh → (elems p.t).length = 2 := by
        intro hm
        rw [hlen, hpq, hs.grew, look_data, find, if_neg he]
        cases m with
        | refresh => exact absurd rfl hm
        | fresh => rfl
        | any => rfl
      have hnew : m ≠ .refresh → (patch hash m k v n (put (fun _ => .null) (chunk (hash e.1) (lev (n + 1))) (.data [e])
            (chunk (hash k) (lev (n + 1))))).map
            (fun p => ({ p with t := .branch (put (put (fun _ => .null) (chunk (hash e.1) (lev (n + 1))) (.data [e]))
              (chunk (hash k) (lev (n + 1))) p.t) } : Patched K V)) = some p → Compact p.t := by
        intro hm hp
        obtain ⟨q, hq, rfl⟩ := Option.map_eq_some_iff.1 hp
        have h0 : ∀ i, Compact (put (fun _ => .null) (chunk (hash e.1) (lev (n + 1))) (.data [e]) i : Tree K V) := by
          intro i; simp only [put]; split <;> trivial
        have hc := patch_compact (by omega) (hw (chunk (hash k) (lev (n + 1)))) ⟨hk, rfl⟩ (h0 _) hq
        refine ⟨Nat.le_of_eq (hgrew hm).symm, fun i => ?_⟩
        rw [put]
        split
        · exact hc
        · exact h0 i
      cases m with
      | refresh => cases hp; trivial
      | fresh => exact hnew (by simp) hp
      | any => exact hnew (by simp) hp
  | 0, P, .branch f, p, _, h, _, _, _ => h.elim
  | n + 1, P, .branch f, p, hn, h, hk, hc, hp => by
    obtain ⟨q, hq, hs⟩ := patch_spec (m := m) (v := v) hn h hk
    have hpq : p = q := by rw [hp] at hq; exact Option.some.inj hq
    have hlen := patch_length h hs
    rw [← hpq] at hlen
    rw [patch] at hp
    obtain ⟨r, hr, rfl⟩ := Option.map_eq_some_iff.1 hp
    have hc' := patch_compact (by omega) (h (chunk (hash k) (lev (n + 1)))) ⟨hk, rfl⟩ (hc.2 _) hr
    refine ⟨?_, fun i => ?_⟩
    · have := hc.1
      simp only [] at hlen
      rw [hlen]
      omega
    · rw [put]
      split
      · exact hc'
      · exact hc.2 i

theorem elems_ne {hash : K → UInt64} {n : Nat} {P : K → Prop} {t : Tree K V} (h : WF hash n P t) (hc : Compact t)
    (ht : t ≠ .null) : 1 ≤ (elems t).length := by
  cases t with
  | null => exact absurd rfl ht
  | data l =>
    have := (WF.data.1 h).1
    cases l with
    | nil => exact absurd rfl this
    | cons => simp [elems]
  | branch f => have := hc.1; omega

/-- After the loop over the levels has ended at a branch, it and all above it are as they should be. -/
theorem remove_compact {hash : K → UInt64} {k : K} : ∀ {n : Nat} {P : K → Prop} {t : Tree K V} {p : Removed K V},
    WF hash n P t → P k → Compact t → remove hash k n t = some p →
    Compact p.t ∧ (p.go = false → (p.t ≠ .null ∧ isData p.t = false) ∨ (elems p.t).length = (elems t).length)
  | n, P, .null, p, _, _, _, hp => by
    have : p = ⟨.null, none, false⟩ := by cases n <;> exact (Option.some.inj hp).symm
    subst this
    exact ⟨trivial, fun _ => .inr rfl⟩
  | n, P, .data l, p, h, _, _, hp => by
    have hd := WF.data.1 h
    have : remove hash k n (.data l) = some ⟨if (l.filter fun e => decide (e.1 ≠ k)) = [] then .null
        else .data (l.filter fun e => decide (e.1 ≠ k)), findLast l k, true⟩ := by
      cases n <;> rw [remove, if_neg hd.1]
    rw [this] at hp
    cases hp
    refine ⟨?_, by simp⟩
    simp only []
    split <;> trivial
  | 0, P, .branch f, p, h, _, _, _ => h.elim
  | n + 1, P, .branch f, p, h, hk, hc, hp => by
    obtain ⟨q, hq, hs⟩ := remove_spec (h (chunk (hash k) (lev (n + 1)))) ⟨hk, rfl⟩
    rw [remove] at hp
    simp only [lev] at hq hs
    rw [hq, Option.map_some] at hp
    cases hp
    have hi := remove_compact (h (chunk (hash k) (lev (n + 1)))) ⟨hk, rfl⟩ (hc.2 _) hq
    have hw : WF hash (n + 1) P (.branch (put f (chunk (hash k) (lev (n + 1))) q.t)) := by
      intro i
      simp only [put]
      split
      · rename_i hi; subst hi; exact hs.wf
      · exact h i
    have hcs : ∀ i, Compact (put f (chunk (hash k) (lev (n + 1))) q.t i) := by
      intro i; rw [put]; split
      · exact hi.1
      · exact hc.2 i
    have hsum := length_flatMap (put f (chunk (hash k) (lev (n + 1))) q.t)
    have hone : ∀ i, put f (chunk (hash k) (lev (n + 1))) q.t i ≠ .null →
        1 ≤ (elems (put f (chunk (hash k) (lev (n + 1))) q.t i)).length := fun i hi => elems_ne (hw i) (hcs i) hi
    simp only [lev] at hi hw hcs hsum hone
    rw [shrink]
    generalize chunk (hash k) (LG * (HEIGHT - (n + 1))) = c at *
    cases hgo : q.go with
    | false =>
      simp only [Bool.false_eq_true, if_false]
      have h2 : 2 ≤ (elems (.branch (put f c q.t))).length ∧
          ((elems (.branch (put f c q.t))).length = (elems (.branch f)).length ∨ True) := by
        refine ⟨?_, .inr trivial⟩
        rcases hi.2 hgo with ⟨hn, hdat⟩ | hlen
        · have hcq := hi.1
          have : (elems q.t).length ≤ (elems (.branch (put f c q.t))).length := by
            rw [hsum]
            have := le_sum (g := fun i => (elems (put f c q.t i)).length) (List.mem_finRange c)
            simpa [put] using this
          cases hq : q.t with
          | null => exact absurd hq hn
          | data l => rw [hq] at hdat; simp [isData] at hdat
          | branch g => rw [hq] at hcq this; exact Nat.le_trans hcq.1 this
        · have : (elems (.branch (put f c q.t))).length = (elems (.branch f)).length := by
            rw [hsum, length_flatMap]
            congr 1
            apply List.map_congr_left
            intro i _
            rw [put]
            split
            · rename_i hic; rw [hlen, hic]
            · rfl
          rw [this]; exact hc.1
      exact ⟨⟨h2.1, hcs⟩, fun _ => .inl ⟨by simp, rfl⟩⟩
    | true =>
      simp only [if_true]
      split
      · rename_i hl
        have h2 : 2 ≤ (elems (.branch (put f c q.t))).length := by
          rw [live] at hl
          have hnd : ((List.finRange 16).filter fun i => !isNull (put f c q.t i)).Nodup :=
            (List.nodup_finRange 16).sublist List.filter_sublist
          cases hf : ((List.finRange 16).filter fun i => !isNull (put f c q.t i)) with
          | nil => rw [hf] at hl; simp at hl
          | cons a l =>
            cases l with
            | nil => rw [hf] at hl; simp at hl
            | cons b l =>
              rw [hf] at hnd
              have hab : a ≠ b := by
                intro h; subst h; simp at hnd
              have ha : a ∈ ((List.finRange 16).filter fun i => !isNull (put f c q.t i)) := by
                rw [hf]; simp
              have hb : b ∈ ((List.finRange 16).filter fun i => !isNull (put f c q.t i)) := by
                rw [hf]; simp
              have ha' := (List.mem_filter.1 ha).2
              have hb' := (List.mem_filter.1 hb).2
              have h1 := hone a (by intro h0; rw [h0] at ha'; simp [isNull] at ha')
              have h2 := hone b (by intro h0; rw [h0] at hb'; simp [isNull] at hb')
              have h3 := two_le_sum (g := fun i => (elems (put f c q.t i)).length) hab (List.mem_finRange a)
                (List.mem_finRange b)
              rw [hsum]
              omega
        exact ⟨⟨h2, hcs⟩, fun _ => .inl ⟨by simp, rfl⟩⟩
      · rename_i hl
        rcases compress_cases hw with hcp | ⟨hcp, _⟩ | ⟨i, e, hcp, h1, _⟩
        · rw [hcp]
          refine ⟨⟨?_, hcs⟩, fun _ => .inl ⟨by simp, rfl⟩⟩
          -- `compress` has left a branch: it has two elements, or another branch
          rcases Nat.lt_or_ge (elems (.branch (put f c q.t))).length 2 with hlt | hge
          · exfalso
            have hbr : ∀ i, isBranch (put f c q.t i) = false := by
              intro i
              have h1 := hcs i
              have h2 := le_sum (g := fun i => (elems (put f c q.t i)).length) (List.mem_finRange i)
              rw [← hsum] at h2
              cases hp : put f c q.t i with
              | branch g => rw [hp] at h1 h2; have := h1.1; omega
              | null => rfl
              | data l => rfl
            have hwt : ∀ i, weight (put f c q.t i) = (elems (put f c q.t i)).length := by
              intro i
              have h1 := hbr i
              cases hp : put f c q.t i with
              | branch g => rw [hp] at h1; simp [isBranch] at h1
              | null => rfl
              | data l => rfl
            have hcnt : ((List.finRange 16).map fun i => weight (put f c q.t i)).sum =
                (elems (.branch (put f c q.t))).length := by
              rw [hsum]; simp only [hwt]
            have hcont : ((List.finRange 16).all fun i => !isBranch (put f c q.t i)) = true := by
              simp [hbr]
            rw [compress] at hcp
            simp only [hcnt, hcont, true_and] at hcp
            split at hcp
            · rename_i i hlast
              have hd : isData (put f c q.t i) = true := (List.mem_filter.1 (List.mem_of_getLast? hlast)).2
              have h1 := hone i (by intro h0; rw [h0] at hd; simp [isData] at hd)
              have h2 := le_sum (g := fun i => (elems (put f c q.t i)).length) (List.mem_finRange i)
              rw [← hsum] at h2
              rw [if_pos (by omega)] at hcp
              simp at hcp
            · rename_i hlast
              have hnil := List.getLast?_eq_none_iff.1 hlast
              have hnull : ∀ i, (elems (put f c q.t i)).length = 0 := by
                intro i
                have h1 := List.filter_eq_nil_iff.1 hnil i (List.mem_finRange i)
                have h2 := hbr i
                cases hp : put f c q.t i with
                | branch g => rw [hp] at h2; simp [isBranch] at h2
                | null => rfl
                | data l => rw [hp] at h1; simp [isData] at h1
              rw [if_pos (by rw [hsum]; exact sum_zero.2 (by simp [hnull]))] at hcp
              simp at hcp
          · exact hge
        · rw [hcp]; exact ⟨trivial, by simp⟩
        · rw [hcp, h1]; exact ⟨trivial, by simp⟩

theorem exec_compact {hash : K → UInt64} {x y : Idx K V} {m : K → Option V} (h : Rep hash x m) (hc : Compact x.root)
    {o : Op K V} {r : Ret K V} (hx : x.exec hash o = some (y, r)) : Compact y.root := by
  have hp : ∀ {w : WMode} {k : K} {v : V}, x.patch hash w k v = some (y, r) → Compact y.root := by
    intro w k v hx
    obtain ⟨p, h1, h2⟩ := Option.map_eq_some_iff.1 hx
    cases h2
    exact patch_compact (Nat.le_refl _) h.wf trivial hc h1
  cases o with
  | insert k v => exact hp hx
  | upsert k v => exact hp hx
  | update k v => exact hp hx
  | delete k =>
    obtain ⟨p, h1, h2⟩ := Option.map_eq_some_iff.1 hx
    cases h2
    exact (remove_compact h.wf trivial hc h1).1
  | get k => cases hx; exact hc

theorem run_compact {hash : K → UInt64} : ∀ {os : List (Op K V)} {x y : Idx K V} {m : K → Option V} {rs : List (Ret K V)},
    Rep hash x m → Compact x.root → x.run hash os = some (y, rs) → Compact y.root
  | [], x, y, m, rs, _, hc, hr => by cases hr; exact hc
  | o :: os, x, y, m, rs, h, hc, hr => by
    obtain ⟨z, h1, h2⟩ := rep_exec h o
    obtain ⟨z', h3, _⟩ := rep_run (os := os) h2
    rw [Idx.run, h1] at hr
    simp only [Option.bind_some] at hr
    rw [h3] at hr
    cases hr
    exact run_compact h2 (exec_compact h hc h1) h3

/-- **C15.** Removals give the memory back: after any operations every branch holds at least two elements (so
an index of at most one element has no branch). -/
theorem C15_compact (hash : K → UInt64) (os : List (Op K V)) {x : Idx K V} {rs : List (Ret K V)}
    (h : Idx.new.run hash os = some (x, rs)) : Compact x.root :=
  run_compact rep_new trivial h

/-! ### Examples -/

/-- What can be compared of a run. -/
def shown (x : Option (Idx Nat Nat × List (Ret Nat Nat))) : Option (List (Nat × Nat) × Nat × List (Ret Nat Nat)) :=
  x.bind fun (x, rs) => (iterAll 1000 [(x.root, 0)]).map fun es => (es, x.len, rs)

def exOps : List (Op Nat Nat) :=
  [.insert 1 10, .insert 2 20, .insert 3 30, .insert 1 11, .update 2 21, .update 4 40, .upsert 5 50, .upsert 3 31,
   .delete 1, .delete 1, .get 3, .get 1]

/-- All keys collide. -/
example : shown (Idx.new.run (fun _ => 7) exOps) =
    some ([(2, 21), (5, 50), (3, 31)], 3,
      [none, none, none, some (1, 10), some (2, 20), none, none, some (3, 30), some (1, 10), none, some (3, 31), none]) := by
  decide +kernel

/-- The keys are their own hashes. -/
example : shown (Idx.new.run (fun k => UInt64.ofNat (k * 16)) exOps) =
    some ([(2, 21), (3, 31), (5, 50)], 3,
      [none, none, none, some (1, 10), some (2, 20), none, none, some (3, 30), some (1, 10), none, some (3, 31), none]) := by
  decide +kernel

/-- After all but one of the colliding keys have been removed, the whole chain of branches is gone. -/
example : ((Idx.new.run (fun _ => 7) [.insert 1 10, .insert 2 20, .delete 1]).map fun x => isData x.1.root) = some true := by
  decide +kernel

example : ((Idx.new.run (fun _ => 7) [.insert 1 10, .insert 2 20]).map fun x => isBranch x.1.root) = some true := by
  decide +kernel

end Verif.Trie
