import Verif.Trie.Model
/-!
The hash trie as a finite map: invariant and the effect of each operation.
-/
namespace Verif.Trie
variable {K V : Type} [DecidableEq K]

/-- The level with `n` levels left. -/
abbrev lev (n : Nat) : Nat := LG * (HEIGHT - n)

/-- The invariant of a node with `n` levels left whose keys satisfy `P`. -/
def WF (hash : K → UInt64) : Nat → (K → Prop) → Tree K V → Prop
  | _, _, .null => True
  | n, P, .data l => l ≠ [] ∧ (l.map (·.1)).Nodup ∧ (∀ e ∈ l, P e.1) ∧ (0 < n → l.length = 1)
  | 0, _, .branch _ => False
  | n + 1, P, .branch f => ∀ i, WF hash n (fun k => P k ∧ chunk (hash k) (lev (n + 1)) = i) (f i)

/-- Lookup with the level counted. -/
def look (hash : K → UInt64) (k : K) : Nat → Tree K V → Option (K × V)
  | _, .null => none
  | _, .data l => find l k
  | 0, .branch _ => none
  | n + 1, .branch f => look hash k n (f (chunk (hash k) (lev (n + 1))))

/-- All elements. -/
def elems : Tree K V → List (K × V)
  | .null => []
  | .data l => l
  | .branch f => (List.finRange 16).flatMap fun i => elems (f i)

/-! ### Lists -/

theorem find_none {l : List (K × V)} {k : K} : find l k = none ↔ ∀ e ∈ l, e.1 ≠ k := by
  induction l with
  | nil => simp [find]
  | cons e l ih => rw [find]; split <;> simp_all

theorem find_some {l : List (K × V)} {k : K} {e : K × V} (h : find l k = some e) : e ∈ l ∧ e.1 = k := by
  induction l with
  | nil => simp [find] at h
  | cons x l ih =>
    rw [find] at h
    split at h
    · cases h; simp_all
    · exact ⟨List.mem_cons_of_mem _ (ih h).1, (ih h).2⟩

theorem find_mem {l : List (K × V)} (hn : (l.map (·.1)).Nodup) {e : K × V} : find l e.1 = some e ↔ e ∈ l := by
  refine ⟨fun h => (find_some h).1, fun h => ?_⟩
  induction l with
  | nil => simp at h
  | cons x l ih =>
    simp only [List.map_cons, List.nodup_cons] at hn
    rw [find]
    rcases List.mem_cons.1 h with rfl | h
    · simp
    · rw [if_neg, ih hn.2 h]
      intro hx
      exact hn.1 (List.mem_map.2 ⟨e, h, hx.symm⟩)

theorem find_append {l₁ l₂ : List (K × V)} {k : K} : find (l₁ ++ l₂) k = (find l₁ k).or (find l₂ k) := by
  induction l₁ with
  | nil => simp [find]
  | cons e l ih => simp only [List.cons_append, find]; split <;> simp_all

theorem without_sub {l : List (K × V)} {k : K} : (without l k).Sublist l := by
  induction l with
  | nil => simp [without]
  | cons e l ih => rw [without]; split <;> simp_all

theorem find_without {l : List (K × V)} (hn : (l.map (·.1)).Nodup) (k k' : K) :
    find (without l k) k' = if k' = k then none else find l k' := by
  induction l with
  | nil => simp [without, find]
  | cons e l ih =>
    simp only [List.map_cons, List.nodup_cons] at hn
    rw [without]
    split
    · rename_i he
      subst he
      split
      · rename_i hk
        subst hk
        exact find_none.2 fun x hx he => hn.1 (List.mem_map.2 ⟨x, hx, he⟩)
      · rename_i hk
        rw [find, if_neg (fun h => hk h.symm)]
    · rename_i he
      rw [find, find, ih hn.2]
      split
      · split
        · rename_i h1 h2; exact absurd (h1.trans h2) he
        · rfl
      · rfl

theorem without_length {l : List (K × V)} {k : K} {e : K × V} (h : find l k = some e) :
    (without l k).length + 1 = l.length := by
  induction l with
  | nil => simp [find] at h
  | cons x l ih =>
    rw [find] at h
    rw [without]
    split
    · simp
    · rw [if_neg ‹_›] at h; simp [ih h]

theorem find_filter {l : List (K × V)} (k k' : K) :
    find (l.filter fun e => e.1 ≠ k) k' = if k' = k then none else find l k' := by
  induction l with
  | nil => simp [find]
  | cons e l ih =>
    rw [List.filter_cons]
    split
    · rename_i he
      have he : e.1 ≠ k := by simpa using he
      rw [find, find, ih]
      by_cases h1 : e.1 = k'
      · rw [if_pos h1, if_pos h1, if_neg (fun h => he (h1.trans h))]
      · rw [if_neg h1, if_neg h1]
    · rename_i he
      have he : e.1 = k := by simpa using he
      rw [ih]
      split
      · rfl
      · rename_i h; rw [find, if_neg (fun h1 => h (h1.symm.trans he))]

theorem findLast_eq {l : List (K × V)} (hn : (l.map (·.1)).Nodup) (k : K) : findLast l k = find l k := by
  rw [findLast]
  induction l with
  | nil => simp [find]
  | cons e l ih =>
    simp only [List.map_cons, List.nodup_cons] at hn
    rw [List.filter_cons, find]
    by_cases he : e.1 = k
    · have : (l.filter fun e => decide (e.1 = k)) = [] := by
        rw [List.filter_eq_nil_iff]
        intro x hx hk
        exact hn.1 (List.mem_map.2 ⟨x, hx, by rw [he]; simpa using hk⟩)
      simp [he, this]
    · simp [he, ih hn.2]

/-! ### Elements -/

theorem WF.mono {hash : K → UInt64} : ∀ {n : Nat} {P Q : K → Prop} {t : Tree K V}, (∀ k, P k → Q k) → WF hash n P t →
    WF hash n Q t
  | n, P, Q, .null, _, _ => by cases n <;> trivial
  | n, P, Q, .data l, h, hw => by
    cases n <;> exact ⟨hw.1, hw.2.1, fun e he => h _ (hw.2.2.1 e he), hw.2.2.2⟩
  | 0, P, Q, .branch f, _, hw => hw.elim
  | n + 1, P, Q, .branch f, h, hw => fun i => (hw i).mono fun k hk => ⟨h k hk.1, hk.2⟩

theorem WF.data {hash : K → UInt64} {n : Nat} {P : K → Prop} {l : List (K × V)} :
    WF hash n P (.data l) ↔ l ≠ [] ∧ (l.map (·.1)).Nodup ∧ (∀ e ∈ l, P e.1) ∧ (0 < n → l.length = 1) := by
  cases n <;> exact Iff.rfl

theorem WF.null {hash : K → UInt64} {n : Nat} {P : K → Prop} : WF hash n P (.null : Tree K V) := by
  cases n <;> trivial

/-- Every element satisfies the invariant's predicate. -/
theorem WF.elems {hash : K → UInt64} : ∀ {n : Nat} {P : K → Prop} {t : Tree K V}, WF hash n P t →
    ∀ e ∈ Trie.elems t, P e.1
  | _, _, .null, _ => by simp [Trie.elems]
  | _, _, .data l, h => by rw [WF.data] at h; exact h.2.2.1
  | 0, _, .branch f, h => h.elim
  | n + 1, P, .branch f, h => by
    intro e he
    rw [Trie.elems, List.mem_flatMap] at he
    obtain ⟨i, _, he⟩ := he
    exact ((h i).elems e he).1

theorem look_data {hash : K → UInt64} {n : Nat} {k : K} {l : List (K × V)} : look hash k n (.data l) = find l k := by
  cases n <;> rfl

theorem look_null {hash : K → UInt64} {n : Nat} {k : K} : look hash k n (.null : Tree K V) = none := by
  cases n <;> rfl

/-- What a lookup finds has the key. -/
theorem look_key {hash : K → UInt64} {k : K} {e : K × V} : ∀ {n : Nat} {t : Tree K V}, look hash k n t = some e → e.1 = k
  | n, .null, h => by rw [look_null] at h; cases h
  | n, .data l, h => by rw [look_data] at h; exact (find_some h).2
  | 0, .branch f, h => by cases h
  | n + 1, .branch f, h => look_key (n := n) h

/-- The elements are what lookups find. -/
theorem mem_elems {hash : K → UInt64} {e : K × V} : ∀ {n : Nat} {P : K → Prop} {t : Tree K V}, WF hash n P t →
    (e ∈ elems t ↔ look hash e.1 n t = some e)
  | n, P, .null, _ => by simp [elems, look_null]
  | n, P, .data l, h => by rw [look_data, find_mem (WF.data.1 h).2.1]; rfl
  | 0, _, .branch f, h => h.elim
  | n + 1, P, .branch f, h => by
    rw [elems, List.mem_flatMap, look]
    constructor
    · rintro ⟨i, _, he⟩
      have := ((h i).elems e he).2
      rw [this]
      exact (mem_elems (h i)).1 he
    · intro he
      exact ⟨_, List.mem_finRange _, (mem_elems (h _)).2 he⟩

theorem nodup_elems {hash : K → UInt64} : ∀ {n : Nat} {P : K → Prop} {t : Tree K V}, WF hash n P t →
    ((elems t).map (·.1)).Nodup
  | n, P, .null, _ => by simp [elems]
  | n, P, .data l, h => (WF.data.1 h).2.1
  | 0, _, .branch f, h => h.elim
  | n + 1, P, .branch f, h => by
    rw [elems, List.map_flatMap]
    rw [List.nodup_iff_pairwise_ne, List.pairwise_flatMap]
    refine ⟨fun i _ => nodup_elems (h i), ?_⟩
    have hf : (List.finRange 16).Pairwise (· ≠ ·) := List.nodup_iff_pairwise_ne.1 (List.nodup_finRange 16)
    refine hf.imp ?_
    intro i j hij x hx y hy hxy
    obtain ⟨e, he, rfl⟩ := List.mem_map.1 hx
    obtain ⟨e', he', rfl⟩ := List.mem_map.1 hy
    have h1 := ((h i).elems e he).2
    have h2 := ((h j).elems e' he').2
    rw [hxy] at h1
    exact hij (h1.symm.trans h2)

/-! ### Writes -/

theorem look_put {hash : K → UInt64} {n : Nat} {f : Fin 16 → Tree K V} {i : Fin 16} {t : Tree K V} {k : K} :
    look hash k (n + 1) (.branch (put f i t)) =
      if chunk (hash k) (lev (n + 1)) = i then look hash k n t else look hash k (n + 1) (.branch f) := by
  rw [look, put]
  split
  · rfl
  · rw [look]

/-- A write writes unless the mode forbids it. -/
def writes : WMode → Option (K × V) → Bool
  | .fresh, some _ => false
  | .refresh, none => false
  | _, _ => true

/-- What a write does. -/
structure PatchSpec (hash : K → UInt64) (m : WMode) (k : K) (v : V) (n : Nat) (P : K → Prop) (t : Tree K V)
    (p : Patched K V) : Prop where
  wf : WF hash n P p.t
  ex : p.ex = look hash k n t
  look : ∀ k', look hash k' n p.t =
    if k' = k ∧ writes m (Trie.look hash k n t) = true then some (k, v) else Trie.look hash k' n t
  grew : p.grew = (decide (Trie.look hash k n t = none) && writes m (Trie.look hash k n t))

theorem patchData_spec {hash : K → UInt64} {m : WMode} {k : K} {v : V} {n : Nat} {P : K → Prop} {l : List (K × V)}
    (h : WF hash n P (.data l)) (hk : P k) (hn : n = 0 ∨ find l k ≠ none) :
    PatchSpec hash m k v n P (.data l) (patchData m k v l) := by
  have hd := WF.data.1 h
  unfold patchData
  cases hf : find l k with
  | none =>
    have hn : n = 0 := by rcases hn with h | h; exact h; exact absurd hf h
    subst hn
    have hnew : PatchSpec hash .any k v 0 P (.data l) ⟨.data (l ++ [(k, v)]), none, true⟩ := by
      refine ⟨WF.data.2 ⟨by simp, ?_, ?_, by simp⟩, ?_, ?_, ?_⟩
      · rw [List.map_append, List.nodup_append]
        refine ⟨hd.2.1, by simp, ?_⟩
        intro a ha b hb
        obtain ⟨e, he, rfl⟩ := List.mem_map.1 ha
        simp only [List.map_cons, List.map_nil, List.mem_singleton] at hb
        rw [hb]
        exact find_none.1 hf e he
      · intro e he
        rcases List.mem_append.1 he with he | he
        · exact hd.2.2.1 e he
        · simp only [List.mem_singleton] at he; rw [he]; exact hk
      · rw [look_data, hf]
      · intro k'
        rw [look_data, look_data, look_data, find_append, hf]
        simp only [writes, and_true]
        by_cases hk' : k' = k
        · subst hk'; simp [hf, find]
        · rw [if_neg hk']
          have : find [(k, v)] k' = none := by rw [find, if_neg (fun h => hk' h.symm)]; rfl
          rw [this]; cases find l k' <;> rfl
      · rw [look_data, hf]; rfl
    cases m with
    | refresh =>
      refine ⟨h, by rw [look_data, hf], ?_, by rw [look_data, hf]; rfl⟩
      intro k'
      have hl : look hash k 0 (.data l) = none := by rw [look_data, hf]
      rw [hl]
      simp [writes]
    | fresh =>
      have hl : look hash k 0 (.data l) = none := by rw [look_data, hf]
      have h1 := hnew.look
      have h2 := hnew.grew
      rw [hl] at h1 h2
      refine ⟨hnew.wf, hnew.ex, ?_, ?_⟩ <;> rw [hl]
      · exact h1
      · exact h2
    | any => exact hnew
  | some e =>
    have hnew : PatchSpec hash .any k v n P (.data l) ⟨.data (without l k ++ [(k, v)]), some e, false⟩ := by
      refine ⟨WF.data.2 ⟨by simp, ?_, ?_, ?_⟩, ?_, ?_, ?_⟩
      · rw [List.map_append, List.nodup_append]
        refine ⟨hd.2.1.sublist (without_sub.map _), by simp, ?_⟩
        intro a ha b hb
        obtain ⟨x, hx, rfl⟩ := List.mem_map.1 ha
        simp only [List.map_cons, List.map_nil, List.mem_singleton] at hb
        rw [hb]
        have := find_without hd.2.1 k k
        rw [if_pos rfl] at this
        exact find_none.1 this x hx
      · intro x hx
        rcases List.mem_append.1 hx with hx | hx
        · exact hd.2.2.1 x (without_sub.subset hx)
        · simp only [List.mem_singleton] at hx; rw [hx]; exact hk
      · intro hp
        have := hd.2.2.2 hp
        have h2 := without_length hf
        simp only [List.length_append, List.length_cons, List.length_nil]
        omega
      · rw [look_data, hf]
      · intro k'
        rw [look_data, look_data, look_data, find_append, find_without hd.2.1, hf]
        simp only [writes, and_true]
        by_cases hk' : k' = k
        · subst hk'; simp [find]
        · rw [if_neg hk', if_neg hk']
          have : find [(k, v)] k' = none := by rw [find, if_neg (fun h => hk' h.symm)]; rfl
          rw [this]; cases find l k' <;> rfl
      · rw [look_data, hf]; rfl
    cases m with
    | fresh =>
      refine ⟨h, by rw [look_data, hf], ?_, by rw [look_data, hf]; rfl⟩
      intro k'
      have hl : look hash k n (.data l) = some e := by rw [look_data, hf]
      rw [hl]
      simp [writes]
    | refresh =>
      have hl : look hash k n (.data l) = some e := by rw [look_data, hf]
      have h1 := hnew.look
      have h2 := hnew.grew
      rw [hl] at h1 h2
      refine ⟨hnew.wf, hnew.ex, ?_, ?_⟩ <;> rw [hl]
      · exact h1
      · exact h2
    | any => exact hnew

/-- From the pointer that is followed to the branch. -/
theorem PatchSpec.branch {hash : K → UInt64} {m : WMode} {k : K} {v : V} {n : Nat} {P : K → Prop} {f : Fin 16 → Tree K V}
    {p : Patched K V} (h : WF hash (n + 1) P (.branch f))
    (hp : PatchSpec hash m k v n (fun x => P x ∧ chunk (hash x) (lev (n + 1)) = chunk (hash k) (lev (n + 1)))
      (f (chunk (hash k) (lev (n + 1)))) p) :
    PatchSpec hash m k v (n + 1) P (.branch f)
      { p with t := .branch (put f (chunk (hash k) (lev (n + 1))) p.t) } := by
  refine ⟨?_, hp.ex, ?_, hp.grew⟩
  · intro i
    simp only [put]
    split
    · rename_i hi; subst hi; exact hp.wf
    · exact h i
  · intro k'
    rw [look_put]
    split
    · rename_i hc
      rw [hp.look k', Trie.look, Trie.look, hc]
    · rename_i hc
      rw [if_neg]
      rintro ⟨rfl, _⟩
      exact hc rfl

/-- A list of one element, one level down. -/
theorem split_wf {hash : K → UInt64} {n : Nat} {P : K → Prop} {e : K × V} (h : WF hash (n + 1) P (.data [e])) :
    WF hash (n + 1) P (.branch (put (fun _ => .null) (chunk (hash e.1) (lev (n + 1))) (.data [e]))) ∧
    ∀ k', look hash k' (n + 1) (.branch (put (fun _ => .null) (chunk (hash e.1) (lev (n + 1))) (.data [e]))) =
      look hash k' (n + 1) (.data [e]) := by
  have hd := WF.data.1 h
  refine ⟨?_, ?_⟩
  · intro i
    simp only [put]
    split
    · rename_i hi
      subst hi
      refine WF.data.2 ⟨by simp, by simp, ?_, by simp⟩
      intro x hx
      simp only [List.mem_singleton] at hx
      subst hx
      exact ⟨hd.2.2.1 _ (by simp), rfl⟩
    · exact WF.null
  · intro k'
    rw [look_put, look_data, look_data, look, look_null]
    split
    · rfl
    · rename_i hc
      rw [find, if_neg]
      · rfl
      · intro he; rw [he] at hc; exact hc rfl

theorem patch_spec {hash : K → UInt64} {m : WMode} {k : K} {v : V} : ∀ {n : Nat} {P : K → Prop} {t : Tree K V},
    n ≤ HEIGHT → WF hash n P t → P k → ∃ p, patch hash m k v n t = some p ∧ PatchSpec hash m k v n P t p
  | n, P, .null, _, _, hk => by
    cases m with
    | refresh =>
      refine ⟨⟨.null, none, false⟩, by cases n <;> rfl, WF.null, look_null.symm, ?_, by rw [look_null]; rfl⟩
      intro k'
      simp [look_null, writes]
    | _ =>
      refine ⟨⟨.data [(k, v)], none, true⟩, by cases n <;> rfl, WF.data.2 ?_, look_null.symm, ?_, by rw [look_null]; rfl⟩
      · refine ⟨by simp, by simp, ?_, by simp⟩
        intro e he
        simp only [List.mem_singleton] at he; rw [he]; exact hk
      · intro k'
        rw [look_data, look_null, look_null]
        simp only [writes, and_true, find]
        by_cases h : k' = k
        · subst h; simp
        · rw [if_neg h, if_neg (fun h' => h h'.symm)]
  | 0, P, .data l, _, h, hk => by
    have hd := WF.data.1 h
    refine ⟨patchData m k v l, ?_, patchData_spec h hk (.inl rfl)⟩
    rw [patch, if_neg hd.1]
  | n + 1, P, .data l, hn, h, hk => by
    have hd := WF.data.1 h
    obtain ⟨e, rfl⟩ := List.length_eq_one_iff.1 (hd.2.2.2 (by omega))
    rw [patch.eq_def]
    simp only []
    by_cases he : e.1 = k
    · rw [if_pos he]
      exact ⟨_, rfl, patchData_spec h hk (.inr (by rw [find, if_pos he]; simp))⟩
    · rw [if_neg he]
      simp only [ne_eq, not_true_eq_false, if_false]
      have hlk : look hash k (n + 1) (.data [e]) = none := by rw [look_data, find, if_neg he]; rfl
      obtain ⟨hw, hl⟩ := split_wf h
      have hnew : ∃ p, (patch hash m k v n (put (fun _ => .null) (chunk (hash e.1) (lev (n + 1))) (.data [e])
            (chunk (hash k) (lev (n + 1))))).map
            (fun p => ({ p with t := .branch (put (put (fun _ => .null) (chunk (hash e.1) (lev (n + 1))) (.data [e]))
              (chunk (hash k) (lev (n + 1))) p.t) } : Patched K V)) = some p ∧
          PatchSpec hash m k v (n + 1) P (.data [e]) p := by
        obtain ⟨p, hp, hs⟩ := patch_spec (m := m) (v := v) (k := k) (n := n) (by omega)
          (hw (chunk (hash k) (lev (n + 1)))) ⟨hk, rfl⟩
        rw [hp]
        have hb := PatchSpec.branch hw hs
        refine ⟨_, rfl, hb.wf, ?_, ?_, ?_⟩
        · rw [hb.ex, hl]
        · intro k'; rw [hb.look, hl, hl]
        · rw [hb.grew, hl]
      cases m with
      | refresh =>
        refine ⟨_, rfl, h, hlk.symm, ?_, by rw [hlk]; rfl⟩
        intro k'
        rw [hlk]; simp [writes]
      | fresh => exact hnew
      | any => exact hnew
  | 0, P, .branch f, _, h, _ => h.elim
  | n + 1, P, .branch f, hn, h, hk => by
    obtain ⟨p, hp, hs⟩ := patch_spec (m := m) (v := v) (n := n) (by omega) (h (chunk (hash k) (lev (n + 1)))) ⟨hk, rfl⟩
    refine ⟨{ p with t := .branch (put f (chunk (hash k) (lev (n + 1))) p.t) }, ?_, PatchSpec.branch h hs⟩
    rw [patch]
    simp only [lev] at hp ⊢
    rw [hp]
    rfl

/-! ### Removal -/

theorem sum_zero {l : List Nat} : l.sum = 0 ↔ ∀ x ∈ l, x = 0 := by
  induction l with
  | nil => simp
  | cons a l ih => simp [ih]

/-- With a sum of one, only one entry is not zero. -/
theorem sum_one {α : Type} {l : List α} {g : α → Nat} (hs : (l.map g).sum = 1) {i j : α} (hi : i ∈ l) (hj : j ∈ l)
    (h1 : g i ≠ 0) (h2 : g j ≠ 0) : i = j := by
  induction l with
  | nil => simp at hi
  | cons a l ih =>
    simp only [List.map_cons, List.sum_cons] at hs
    have hz : ∀ {x}, x ∈ l → g x ≠ 0 → (l.map g).sum ≠ 0 := fun hx hg h0 =>
      hg (sum_zero.1 h0 _ (List.mem_map.2 ⟨_, hx, rfl⟩))
    rcases List.mem_cons.1 hi with hia | hi <;> rcases List.mem_cons.1 hj with hja | hj
    · rw [hia, hja]
    · have := hz hj h2; rw [hia] at h1; omega
    · have := hz hi h1; rw [hja] at h2; omega
    · by_cases h0 : g a = 0
      · exact ih (by omega) hi hj
      · have := hz hi h1; omega

/-- What `compress` can do: nothing, or drop an empty branch, or replace a branch by its only element. -/
theorem compress_cases {hash : K → UInt64} {n : Nat} {P : K → Prop} {f : Fin 16 → Tree K V}
    (h : WF hash (n + 1) P (.branch f)) :
    (compress f = (.branch f, false)) ∨
    (compress f = (.null, true) ∧ ∀ i, f i = .null) ∨
    (∃ i e, compress f = (f i, true) ∧ f i = .data [e] ∧ ∀ j, j ≠ i → f j = .null) := by
  have hw0 : ∀ i, weight (f i) = 0 → f i = .null := by
    intro i hi
    have := h i
    cases hfi : f i with
    | null => rfl
    | data l =>
      rw [hfi] at this hi
      have := (WF.data.1 this).1
      cases l with
      | nil => exact absurd rfl this
      | cons _ _ => simp [weight] at hi
    | branch g => rw [hfi] at hi; simp [weight] at hi
  rw [compress]
  cases hl : ((List.finRange 16).filter fun i => isData (f i)).getLast? with
  | none =>
    simp only []
    split
    · rename_i hc
      right; left
      refine ⟨rfl, fun i => hw0 i ?_⟩
      exact sum_zero.1 hc _ (List.mem_map.2 ⟨i, List.mem_finRange i, rfl⟩)
    · left; rfl
  | some i =>
    simp only []
    split
    · rename_i hc
      right; right
      have hd : isData (f i) = true := by
        have := List.mem_of_getLast? hl
        exact (List.mem_filter.1 this).2
      cases hfi : f i with
      | null => rw [hfi] at hd; simp [isData] at hd
      | branch g => rw [hfi] at hd; simp [isData] at hd
      | data l =>
        have hwi := h i
        rw [hfi] at hwi
        have hne := (WF.data.1 hwi).1
        have hnz : weight (f i) ≠ 0 := by
          rw [hfi]
          cases l with
          | nil => exact absurd rfl hne
          | cons _ _ => simp [weight]
        have hrest : ∀ j, j ≠ i → f j = .null := by
          intro j hj
          apply hw0
          rcases Nat.eq_zero_or_pos (weight (f j)) with h0 | h0
          · exact h0
          · exact absurd (sum_one hc.2 (List.mem_finRange j) (List.mem_finRange i) (by omega) hnz) hj
        have hle : ∀ {l : List (Fin 16)}, i ∈ l → weight (f i) ≤ (l.map fun i => weight (f i)).sum := by
          intro l hl
          induction l with
          | nil => simp at hl
          | cons a l ih =>
            simp only [List.map_cons, List.sum_cons]
            rcases List.mem_cons.1 hl with rfl | hl
            · omega
            · have := ih hl; omega
        have h1 := hle (List.mem_finRange i)
        rw [hc.2, hfi] at h1
        cases l with
        | nil => exact absurd rfl hne
        | cons e l =>
          cases l with
          | nil => exact ⟨i, e, by rw [hfi], hfi, hrest⟩
          | cons _ _ => simp [weight] at h1
    · left; rfl

theorem shrink_cases {hash : K → UInt64} {n : Nat} {P : K → Prop} {f : Fin 16 → Tree K V} {go : Bool}
    (h : WF hash (n + 1) P (.branch f)) :
    ((shrink f go).1 = .branch f) ∨
    ((shrink f go).1 = .null ∧ ∀ i, f i = .null) ∨
    (∃ i e, (shrink f go).1 = .data [e] ∧ f i = .data [e] ∧ ∀ j, j ≠ i → f j = .null) := by
  rw [shrink]
  split
  · split
    · exact .inl rfl
    · rcases compress_cases h with hc | ⟨hc, h1⟩ | ⟨i, e, hc, h1, h2⟩
      · rw [hc]; exact .inl rfl
      · rw [hc]; exact .inr (.inl ⟨rfl, h1⟩)
      · rw [hc]; exact .inr (.inr ⟨i, e, h1, h1, h2⟩)
  · exact .inl rfl

theorem shrink_spec {hash : K → UInt64} {n : Nat} {P : K → Prop} {f : Fin 16 → Tree K V} {go : Bool}
    (h : WF hash (n + 1) P (.branch f)) :
    WF hash (n + 1) P (shrink f go).1 ∧ ∀ k, look hash k (n + 1) (shrink f go).1 = look hash k (n + 1) (.branch f) := by
  rcases shrink_cases (go := go) h with hc | ⟨hc, h1⟩ | ⟨i, e, hc, h1, h2⟩
  · rw [hc]; exact ⟨h, fun _ => rfl⟩
  · rw [hc]
    exact ⟨WF.null, fun k => by rw [look_null, look, h1, look_null]⟩
  · rw [hc]
    have hi := h i
    rw [h1] at hi
    have hd := WF.data.1 hi
    have hp := hd.2.2.1 e (by simp)
    refine ⟨WF.data.2 ⟨by simp, by simp, ?_, by simp⟩, fun k => ?_⟩
    · intro x hx
      simp only [List.mem_singleton] at hx
      rw [hx]; exact hp.1
    · rw [look_data, look]
      by_cases hc : chunk (hash k) (lev (n + 1)) = i
      · rw [hc, h1, look_data]
      · rw [h2 _ hc, look_null, find, if_neg]
        · rfl
        · intro he; rw [he] at hp; exact hc hp.2

structure RemoveSpec (hash : K → UInt64) (k : K) (n : Nat) (P : K → Prop) (t : Tree K V) (p : Removed K V) : Prop where
  wf : WF hash n P p.t
  ex : p.ex = look hash k n t
  look : ∀ k', look hash k' n p.t = if k' = k then none else Trie.look hash k' n t

theorem remove_spec {hash : K → UInt64} {k : K} : ∀ {n : Nat} {P : K → Prop} {t : Tree K V},
    WF hash n P t → P k → ∃ p, remove hash k n t = some p ∧ RemoveSpec hash k n P t p
  | n, P, .null, _, hk => by
    refine ⟨⟨.null, none, false⟩, by cases n <;> rfl, WF.null, look_null.symm, fun k' => ?_⟩
    simp [look_null]
  | n, P, .data l, h, hk => by
    have hd := WF.data.1 h
    let r := l.filter fun e => e.1 ≠ k
    refine ⟨⟨if r = [] then .null else .data r, findLast l k, true⟩, ?_, ?_, ?_, ?_⟩
    · cases n <;> rw [remove, if_neg hd.1]
    · simp only []
      split
      · exact WF.null
      · rename_i hr
        refine WF.data.2 ⟨hr, hd.2.1.sublist (List.filter_sublist.map _), fun e he => hd.2.2.1 e (List.mem_filter.1 he).1, ?_⟩
        intro hn
        have h1 := hd.2.2.2 hn
        have h2 : r.length ≤ l.length := List.length_filter_le _ _
        have h3 : r.length ≠ 0 := fun h0 => hr (List.length_eq_zero_iff.1 h0)
        omega
    · simp only []
      rw [look_data, findLast_eq hd.2.1]
    · intro k'
      simp only []
      split
      · rename_i hr
        rw [look_null, look_data, ← find_filter]
        rw [show (l.filter fun e => decide (e.1 ≠ k)) = [] from hr]
        rfl
      · rw [look_data, look_data, ← find_filter]
  | 0, P, .branch f, h, _ => h.elim
  | n + 1, P, .branch f, h, hk => by
    obtain ⟨p, hp, hs⟩ := remove_spec (h (chunk (hash k) (lev (n + 1)))) ⟨hk, rfl⟩
    have hw : WF hash (n + 1) P (.branch (put f (chunk (hash k) (lev (n + 1))) p.t)) := by
      intro i
      simp only [put]
      split
      · rename_i hi; subst hi; exact hs.wf
      · exact h i
    obtain ⟨h1, h2⟩ := shrink_spec (go := p.go) hw
    refine ⟨⟨(shrink (put f (chunk (hash k) (lev (n + 1))) p.t) p.go).1, p.ex,
      (shrink (put f (chunk (hash k) (lev (n + 1))) p.t) p.go).2⟩, ?_, h1, hs.ex, ?_⟩
    · rw [remove]
      simp only [lev] at hp ⊢
      rw [hp]
      rfl
    · intro k'
      simp only []
      rw [h2, look_put]
      split
      · rename_i hc
        rw [hs.look k', look, hc]
      · rename_i hc
        rw [if_neg]
        intro hkk
        rw [hkk] at hc; exact hc rfl

end Verif.Trie
