import Verif.Ord.Loops
import Verif.Gns.Cat

/-!
C16: the ordered index is a map that keeps the order of the columns. The part about the map holds for every sequence
of operations and every allocator, and no operation touches memory that is not allocated. The part about the order
is violated: an update moves the column to the end. The iterator that consumes the index reads freed memory.
-/
namespace Verif.Ord
open Verif

variable {K V : Type}

/-! ### What is expected, without lists of entries -/

/-- The map after an operation. -/
def mapStep [DecidableEq K] (M : K → Option V) : Op K V → (K → Option V)
  | .insert k v => if M k = none then fun x => if x = k then some v else M x else M
  | .update k v => if M k = none then M else fun x => if x = k then some v else M x
  | .getMut k v => if M k = none then M else fun x => if x = k then some v else M x
  | .upsert k v => fun x => if x = k then some v else M x
  | .remove k => fun x => if x = k then none else M x
  | .clear => fun _ => none
  | .get _ | .len | .compact | .iter _ => M

/-- The list holds every entry of the map exactly once. -/
def Lists (τ : List (K × V)) (M : K → Option V) : Prop :=
  (τ.map (·.1)).Nodup ∧ ∀ k v, (k, v) ∈ τ ↔ M k = some v

/-- The right answer of an operation on a map. -/
def Answer (M : K → Option V) : Op K V → Out K V → Prop
  | .insert k _, r => r = .bool (M k).isNone
  | .getMut k _, r => r = .bool (M k).isSome
  | .update k _, r | .upsert k _, r | .remove k, r | .get k, r => r = .val (M k)
  | .clear, r | .compact, r => r = .unit
  | .len, r => ∃ τ, Lists τ M ∧ r = .len τ.length
  | .iter calls, r => ∃ τ, Lists τ M ∧ r = .items (pops τ calls)

/-- All answers are right. -/
def Answers [DecidableEq K] : (K → Option V) → List (Op K V) → List (Out K V) → Prop
  | _, [], rs => rs = []
  | M, o :: os, rs => ∃ r rs', rs = r :: rs' ∧ Answer M o r ∧ Answers (mapStep M o) os rs'

def mapRun [DecidableEq K] : (K → Option V) → List (Op K V) → (K → Option V)
  | M, [] => M
  | M, o :: os => mapRun (mapStep M o) os

/-! ### Lists of entries as maps -/

theorem look_iff [DecidableEq K] : ∀ {σ : List (K × V)}, (keys σ).Nodup → ∀ k v, (k, v) ∈ σ ↔ look σ k = some v
  | [], _, k, v => by simp [look]
  | (k', v') :: σ, h, k, v => by
    have h' := List.nodup_cons.mp h
    have ih := look_iff (σ := σ) h'.2 k v
    by_cases hk : k' = k
    · subst hk
      have : (k', v) ∉ σ := fun hh => h'.1 (List.mem_map.mpr ⟨_, hh, rfl⟩)
      simp [look, this]
      exact ⟨Eq.symm, Eq.symm⟩
    · have e : look ((k', v') :: σ) k = look σ k := by simp [look, hk]
      rw [e, ← ih]
      simp
      exact fun hh => (hk hh.symm).elim

theorem lists_look [DecidableEq K] {σ : List (K × V)} (h : (keys σ).Nodup) : Lists σ (look σ) :=
  ⟨h, fun k v => look_iff h k v⟩

theorem look_ext [DecidableEq K] {σ : List (K × V)} (h : (keys σ).Nodup) {M : K → Option V}
    (hM : ∀ k v, (k, v) ∈ σ ↔ M k = some v) : look σ = M := by
  funext k
  cases hk : M k with
  | some v => exact (look_iff h k v).mp ((hM k v).mpr hk)
  | none =>
    cases hl : look σ k with
    | none => rfl
    | some v =>
      have := (hM k v).mp ((look_iff h k v).mpr hl)
      rw [hk] at this
      cases this

theorem look_isSome [DecidableEq K] {σ : List (K × V)} {k : K} : (look σ k).isSome = true ↔ k ∈ keys σ := by
  constructor
  · intro h
    apply Classical.byContradiction
    intro hh
    rw [look_none hh] at h
    cases h
  · intro h
    cases hl : look σ k with
    | some v => rfl
    | none =>
      exfalso
      obtain ⟨e, he, rfl⟩ := List.mem_map.mp h
      simp only [look, Option.map_eq_none_iff, List.find?_eq_none] at hl
      exact hl e he (by simp)

theorem keys_del [DecidableEq K] (σ : List (K × V)) (k : K) : keys (del σ k) = (keys σ).filter (fun x => x ≠ k) := by
  unfold keys del
  rw [List.filter_map]
  rfl

theorem nd_step [DecidableEq K] {σ : List (K × V)} (h : (keys σ).Nodup) (o : Op K V) :
    (keys (specStep σ o).1).Nodup := by
  have hdel : ∀ k : K, (keys (del σ k)).Nodup := fun k => by
    rw [keys_del]
    exact h.filter _
  have happ : ∀ (k : K) (v : V), (keys (del σ k ++ [(k, v)])).Nodup := fun k v => by
    have : keys (del σ k ++ [(k, v)]) = keys (del σ k) ++ [k] := by simp [keys]
    rw [this, List.nodup_append]
    refine ⟨hdel k, by simp, fun x hx y hy hxy => ?_⟩
    rw [keys_del] at hx
    simp at hx hy
    exact hx.2 (hxy.trans hy)
  cases o with
  | insert k v =>
    simp only [specStep]
    split
    · exact h
    · rename_i hh
      have hk : k ∉ keys σ := fun hk => hh (look_isSome.mpr hk)
      rw [← del_none hk]
      exact happ k v
  | update k v =>
    simp only [specStep]
    split
    · exact happ k v
    · exact h
  | upsert k v => exact happ k v
  | getMut k v =>
    simp only [specStep, keys, List.map_map]
    rw [List.map_congr_left (g := fun e => e.1)]
    · exact h
    · intro e _
      simp only [Function.comp_def]
      split
      · rename_i hh; exact hh.symm
      · rfl
  | remove k => exact hdel k
  | clear => simp [specStep, keys]
  | get k => exact h
  | len => exact h
  | compact => exact h
  | iter calls => exact h

theorem mem_del [DecidableEq K] {σ : List (K × V)} {k x : K} {v : V} :
    (x, v) ∈ del σ k ↔ (x, v) ∈ σ ∧ x ≠ k := by
  simp [del]

theorem map_step [DecidableEq K] {σ : List (K × V)} (h : (keys σ).Nodup) (o : Op K V) :
    look (specStep σ o).1 = mapStep (look σ) o := by
  have nd := nd_step h o
  refine look_ext nd ?_
  intro x w
  have hi := look_iff h
  have hup : ∀ k v, (x, w) ∈ del σ k ++ [(k, v)] ↔ (if x = k then some v else look σ x) = some w := by
    intro k v
    rw [List.mem_append, mem_del, hi]
    by_cases hx : x = k
    · simp [hx]
      exact ⟨Eq.symm, Eq.symm⟩
    · simp [hx]
  cases o with
  | insert k v =>
    simp only [specStep, mapStep]
    cases hl : look σ k with
    | some u => simp [hi]
    | none =>
      have hk : k ∉ keys σ := fun hk => by
        have := look_isSome.mpr hk
        rw [hl] at this
        cases this
      have := hup k v
      rw [del_none hk] at this
      simpa using this
  | update k v =>
    simp only [specStep, mapStep]
    cases hl : look σ k with
    | some u => simpa using hup k v
    | none => simp [hi]
  | upsert k v => exact hup k v
  | getMut k v =>
    simp only [specStep, mapStep]
    cases hl : look σ k with
    | none =>
      have hk : k ∉ keys σ := fun hk => by
        have := look_isSome.mpr hk
        rw [hl] at this
        cases this
      rw [map_none hk]
      simp [hi]
    | some u =>
      simp only [List.mem_map]
      by_cases hx : x = k
      · subst hx
        simp only [reduceCtorEq, if_false, if_true, Option.some.injEq]
        constructor
        · rintro ⟨e, he, hh⟩
          split at hh
          · injection hh
          · rename_i hne
            rw [hh] at hne
            exact (hne rfl).elim
        · rintro rfl
          exact ⟨(x, u), (hi x u).mpr hl, by simp⟩
      · simp only [reduceCtorEq, if_false, hx]
        rw [← hi]
        constructor
        · rintro ⟨e, he, hh⟩
          split at hh
          · injection hh with h1 h2
            exact (hx h1.symm).elim
          · exact hh ▸ he
        · intro he
          exact ⟨(x, w), he, by simp [hx]⟩
  | remove k =>
    simp only [specStep, mapStep]
    rw [mem_del, hi]
    by_cases hx : x = k <;> simp [hx]
  | clear => simp [specStep, mapStep]
  | get k => exact hi x w
  | len => exact hi x w
  | compact => exact hi x w
  | iter calls => exact hi x w

theorem answer_step [DecidableEq K] {σ : List (K × V)} (h : (keys σ).Nodup) (o : Op K V) :
    Answer (look σ) o (specStep σ o).2 := by
  cases o with
  | insert k v =>
    simp only [Answer, specStep]
    cases hl : look σ k <;> simp
  | update k v =>
    simp only [Answer, specStep]
    cases hl : look σ k <;> simp
  | len => exact ⟨σ, lists_look h, rfl⟩
  | iter calls => exact ⟨σ, lists_look h, rfl⟩
  | upsert k v => rfl
  | getMut k v => rfl
  | remove k => rfl
  | get k => rfl
  | clear => rfl
  | compact => rfl

theorem answers_run [DecidableEq K] : ∀ {os : List (Op K V)} {σ : List (K × V)}, (keys σ).Nodup →
    Answers (look σ) os (specRun σ os).2 ∧ look (specRun σ os).1 = mapRun (look σ) os ∧ (keys (specRun σ os).1).Nodup
  | [], σ, h => ⟨rfl, rfl, h⟩
  | o :: os, σ, h => by
    obtain ⟨h1, h2, h3⟩ := answers_run (os := os) (nd_step h o)
    rw [map_step h o] at h1 h2
    exact ⟨⟨_, _, rfl, answer_step h o, h1⟩, h2, h3⟩

/-- **C16 (map).** For every allocator, with and without a free list, and every sequence of operations: no operation
faults or loops for ever, and all answers are those of a mathematical map; an iterator called from both ends in any
order gives every entry exactly once and reports the right number of remaining entries. -/
theorem C16_is_a_map [DecidableEq K] {A : Malloc} (hA : A.Sound) (lib : Bool) (os : List (Op K V)) :
    ∃ i rs, (Idx.new K V lib).run A os = .ok (i, rs) ∧ Answers (fun _ => none) os rs := by
  obtain ⟨i, xs, fr, h1, _⟩ := run_spec hA (os := os) (rep_new (K := K) (V := V) lib)
  refine ⟨i, _, h1, ?_⟩
  have := (answers_run (os := os) (σ := ([] : List (K × V))) (by simp [keys])).1
  have e : look ([] : List (K × V)) = fun _ => none := by funext k; rfl
  rwa [e] at this

/-- **C16 (memory).** After any sequence of operations, dropping the index frees every cell it allocated, each once. -/
theorem C16_drop_frees_everything [DecidableEq K] {A : Malloc} (hA : A.Sound) (lib : Bool) (os : List (Op K V)) :
    ∃ i rs h, (Idx.new K V lib).run A os = .ok (i, rs) ∧ i.drop = .ok h ∧ h.live = [] := by
  obtain ⟨i, xs, fr, h1, r⟩ := run_spec hA (os := os) (rep_new (K := K) (V := V) lib)
  obtain ⟨h, h2, h3⟩ := drop_spec r
  exact ⟨i, _, h, h1, h2, h3⟩

/-! ### Order -/

/-- The keys in the order of declaration: a new key goes to the end, the others stay where they are. -/
def declared [DecidableEq K] : List K → List (Op K V) → List K
  | d, [] => d
  | d, .insert k _ :: os | d, .upsert k _ :: os => declared (if k ∈ d then d else d ++ [k]) os
  | d, .remove k :: os => declared (d.filter (fun x => x ≠ k)) os
  | _, .clear :: os => declared [] os
  | d, _ :: os => declared d os

/-- The keys in the order of the last write. -/
def written [DecidableEq K] : List K → List (Op K V) → List K
  | d, [] => d
  | d, .insert k _ :: os => written (if k ∈ d then d else d ++ [k]) os
  | d, .upsert k _ :: os => written (d.filter (fun x => x ≠ k) ++ [k]) os
  | d, .update k _ :: os => written (if k ∈ d then d.filter (fun x => x ≠ k) ++ [k] else d) os
  | d, .remove k :: os => written (d.filter (fun x => x ≠ k)) os
  | _, .clear :: os => written [] os
  | d, _ :: os => written d os

/-- No `update` or `upsert` hits an existing key. -/
def NoRewrite [DecidableEq K] : List K → List (Op K V) → Prop
  | _, [] => True
  | d, .update k _ :: os => k ∉ d ∧ NoRewrite d os
  | d, .upsert k _ :: os => k ∉ d ∧ NoRewrite (d ++ [k]) os
  | d, .insert k _ :: os => NoRewrite (if k ∈ d then d else d ++ [k]) os
  | d, .remove k :: os => NoRewrite (d.filter (fun x => x ≠ k)) os
  | _, .clear :: os => NoRewrite [] os
  | d, _ :: os => NoRewrite d os

theorem keys_snoc (σ : List (K × V)) (k : K) (v : V) : keys (σ ++ [(k, v)]) = keys σ ++ [k] := by simp [keys]

theorem keys_run [DecidableEq K] : ∀ {os : List (Op K V)} {σ : List (K × V)},
    keys (specRun σ os).1 = written (keys σ) os
  | [], σ => rfl
  | o :: os, σ => by
    have ih := keys_run (os := os) (σ := (specStep σ o).1)
    rw [specRun, ih]
    cases o with
    | insert k v =>
      rw [written]
      congr 1
      simp only [specStep]
      by_cases h : k ∈ keys σ
      · rw [if_pos (look_isSome.mpr h), if_pos h]
      · rw [if_neg (fun hh => h (look_isSome.mp hh)), if_neg h, keys_snoc]
    | update k v =>
      rw [written]
      congr 1
      simp only [specStep]
      by_cases h : k ∈ keys σ
      · rw [if_pos (look_isSome.mpr h), if_pos h, keys_snoc, keys_del]
      · rw [if_neg (fun hh => h (look_isSome.mp hh)), if_neg h]
    | upsert k v =>
      rw [written]
      congr 1
      simp only [specStep, keys_snoc, keys_del]
    | getMut k v =>
      rw [written]
      congr 1
      simp only [specStep, keys, List.map_map]
      refine List.map_congr_left fun e _ => ?_
      simp only [Function.comp_def]
      split
      · rename_i hh; exact hh.symm
      · rfl
      all_goals simp
    | remove k =>
      rw [written]
      congr 1
      exact keys_del σ k
    | clear => rw [written]; rfl
    | get k => rw [written]; rfl; all_goals simp
    | len => rw [written]; rfl; all_goals simp
    | compact => rw [written]; rfl; all_goals simp
    | iter calls => rw [written]; rfl; all_goals simp

theorem written_declared [DecidableEq K] : ∀ {os : List (Op K V)} {d : List K}, NoRewrite d os →
    written d os = declared d os
  | [], d, _ => rfl
  | o :: os, d, h => by
    cases o with
    | insert k v =>
      rw [written, declared]
      exact written_declared h
    | upsert k v =>
      rw [written, declared]
      obtain ⟨h1, h2⟩ := h
      have : d.filter (fun x => x ≠ k) = d := by
        rw [List.filter_eq_self]
        intro x hx
        simp only [ne_eq, decide_not, Bool.not_eq_eq_eq_not, Bool.not_true, decide_eq_false_iff_not]
        exact fun hh => h1 (hh ▸ hx)
      rw [this, if_neg h1]
      exact written_declared h2
    | update k v =>
      rw [written, declared]
      obtain ⟨h1, h2⟩ := h
      rw [if_neg h1]
      exact written_declared h2
      all_goals simp
    | remove k =>
      rw [written, declared]
      exact written_declared h
    | clear =>
      rw [written, declared]
      exact written_declared h
    | getMut k v =>
      rw [written, declared]
      exact written_declared h
      all_goals simp
    | get k =>
      rw [written, declared]
      exact written_declared h
      all_goals simp
    | len =>
      rw [written, declared]
      exact written_declared h
      all_goals simp
    | compact =>
      rw [written, declared]
      exact written_declared h
      all_goals simp
    | iter calls =>
      rw [written, declared]
      exact written_declared h
      all_goals simp

/-- **C16 (exact order).** Iteration gives the entries in the order of the last write. -/
theorem C16_order_of_last_write [DecidableEq K] {A : Malloc} (hA : A.Sound) (lib : Bool) (os : List (Op K V)) :
    ∃ i rs τ, (Idx.new K V lib).run A os = .ok (i, rs) ∧ Lists τ (mapRun (fun _ => none) os) ∧
      τ.map (·.1) = written [] os ∧
      ∀ calls, i.exec A (.iter calls) = .ok (i, .items (pops τ calls)) := by
  obtain ⟨i, xs, fr, h1, r⟩ := run_spec hA (os := os) (rep_new (K := K) (V := V) lib)
  obtain ⟨_, e2, e3⟩ := answers_run (os := os) (σ := ([] : List (K × V))) (by simp [keys])
  have e : look ([] : List (K × V)) = fun _ => none := by funext k; rfl
  refine ⟨i, _, (specRun [] os).1, h1, ?_, keys_run (σ := []), ?_⟩
  · rw [← e, ← e2]
    exact lists_look e3
  · intro calls
    obtain ⟨it, e1, e2⟩ := iter_spec r
    simp [Idx.exec, e1, run_iter_spec e2]

/-- **C16, partial.** If no operation rewrites an existing key through `update` or `upsert`, iteration gives the
entries in the order of declaration. Missing: the other sequences, for which the order is that of the last write
(`C16_order_of_last_write`). -/
theorem C16_declaration_order_partial [DecidableEq K] {A : Malloc} (hA : A.Sound) (lib : Bool) (os : List (Op K V))
    (h : NoRewrite [] os) :
    ∃ i rs τ, (Idx.new K V lib).run A os = .ok (i, rs) ∧ Lists τ (mapRun (fun _ => none) os) ∧
      τ.map (·.1) = declared [] os ∧
      ∀ calls, i.exec A (.iter calls) = .ok (i, .items (pops τ calls)) := by
  obtain ⟨i, rs, τ, h1, h2, h3, h4⟩ := C16_order_of_last_write hA lib os
  exact ⟨i, rs, τ, h1, h2, h3.trans (written_declared h), h4⟩

/-! ### Violations -/

/-- A simple allocator: the first address above all that are in use. -/
def bump : Malloc := fun l => l.foldl max 0 + 1

theorem foldl_max : ∀ (l : List Nat) (a x : Nat), x ∈ l ∨ x ≤ a → x ≤ l.foldl max a
  | [], a, x, h => by
    rcases h with h | h
    · cases h
    · exact h
  | y :: l, a, x, h => by
    rw [List.foldl]
    apply foldl_max
    rcases h with h | h
    · rcases List.mem_cons.mp h with h | h
      · right; omega
      · left; exact h
    · right; omega

theorem bump_sound : bump.Sound := fun l => ⟨by simp [bump], fun h => by
  have := foldl_max l 0 _ (Or.inl h)
  simp only [bump] at this
  omega⟩

/-- The outcome of a run in a form that can be compared. -/
def shown {α : Type} (r : Res Unit (Idx K V × α)) : Option α :=
  match r with
  | .ok (_, x) => some x
  | _ => none

def threeColumns : List (Op String Nat) := [.insert "a" 1, .insert "b" 2, .insert "c" 3]

/-- Three columns, iterated forwards: declared order, then the end of the iterator. -/
example : shown ((Idx.new String Nat false).run bump (threeColumns ++ [.iter [false, true, false, false]])) =
    some [.bool true, .bool true, .bool true,
      .items [(some ("a", 1), 2), (some ("c", 3), 1), (some ("b", 2), 0), (none, 0)]] := by decide +kernel

/-- Nodes are reused from the free list, and the order is still that of declaration. -/
example : shown ((Idx.new String Nat true).run bump
    (threeColumns ++ [.remove "b", .insert "a" 9, .insert "d" 4, .iter [false, false, false]])) =
    some [.bool true, .bool true, .bool true, .val (some 2), .bool false, .bool true,
      .items [(some ("a", 1), 2), (some ("c", 3), 1), (some ("d", 4), 0)]] := by decide +kernel

example : NoRewrite [] (threeColumns ++ [.remove "b", .insert "a" 9, .insert "d" 4]) := by
  simp [threeColumns, NoRewrite]

/-- **C16 violated**: changing the type of the first of three columns moves it to the end
(`ALTER MODEL … UPDATE`, `core/model/mod.rs:494-496`). -/
theorem C16_update_reorders_violated :
    shown ((Idx.new String Nat false).run bump (threeColumns ++ [.update "a" 7, .iter [false, false, false]])) =
      some [.bool true, .bool true, .bool true, .val (some 1),
        .items [(some ("b", 2), 2), (some ("c", 3), 1), (some ("a", 7), 0)]] ∧
    declared [] (threeColumns ++ [.update "a" 7]) = ["a", "b", "c"] := by
  constructor <;> decide +kernel

/-- For every sequence of operations: updating an existing column that is not the last one changes the order. -/
theorem C16_every_update_reorders_violated [DecidableEq K] {A : Malloc} (hA : A.Sound) (lib : Bool) (os : List (Op K V))
    (k : K) (v : V) {d : List K} {l : K} (hd : written [] os = d ++ [l]) (hk : k ∈ d) :
    ∃ i rs τ, (Idx.new K V lib).run A (os ++ [.update k v]) = .ok (i, rs) ∧
      (∀ calls, i.exec A (.iter calls) = .ok (i, .items (pops τ calls))) ∧ τ.map (·.1) ≠ written [] os := by
  obtain ⟨i, rs, τ, h1, _, h3, h4⟩ := C16_order_of_last_write hA lib (os ++ [.update k v])
  refine ⟨i, rs, τ, h1, h4, ?_⟩
  have happ : ∀ (os : List (Op K V)) (d : List K), written d (os ++ [.update k v]) =
      (if k ∈ written d os then (written d os).filter (fun x => x ≠ k) ++ [k] else written d os) := by
    intro os
    induction os with
    | nil => intro d; rw [List.nil_append, written, written, written]
    | cons o os ih =>
      intro d
      cases o <;> simp only [List.cons_append, written] <;> exact ih _
  obtain ⟨j, ys, fr, _, r⟩ := run_spec hA (os := os) (rep_new (K := K) (V := V) lib)
  have hnd : (written [] os).Nodup := by
    have := r.nd
    rw [keys_run] at this
    exact this
  rw [h3, happ, hd]
  have hkl : l ≠ k := by
    rintro rfl
    rw [hd, List.nodup_append] at hnd
    exact hnd.2.2 l hk l (by simp) rfl
  rw [if_pos (by simp [hk])]
  intro hh
  have := congrArg List.getLast? hh
  simp at this
  exact hkl this.symm

/-- The outcome of consuming an index. -/
def shownOwned (r : Res Unit (Heap K V × List (K × V))) : Option (List Nat × List (K × V)) :=
  match r with
  | .ok (h, x) => some (h.live, x)
  | _ => none

/-- **C16 violated**: the iterator that consumes the index reads a node after it was freed, for every index that is
not empty. It is used for every `CREATE MODEL` and `ALTER MODEL` that is read back from the log
(`core/model/mod.rs:214`, `common_encoding/r1/impls/gns/model.rs:366, 537`). -/
theorem C16_owned_iterator_violated [DecidableEq K] {A : Malloc} (hA : A.Sound) (lib : Bool) (os : List (Op K V))
    (hne : written [] os ≠ []) :
    ∃ i rs, (Idx.new K V lib).run A os = .ok (i, rs) ∧ i.intoIter false = .panic := by
  obtain ⟨i, xs, fr, h1, r⟩ := run_spec hA (os := os) (rep_new (K := K) (V := V) lib)
  refine ⟨i, _, h1, ?_⟩
  obtain ⟨j, c1, c2, c3, c4, rj⟩ := cleanup_spec r
  obtain ⟨it, e1, e2⟩ := iter_spec rj
  have hσ : (specRun [] os).1 ≠ [] := by
    intro hh
    have := keys_run (os := os) (σ := ([] : List (K × V)))
    rw [hh] at this
    exact hne this.symm
  cases xs with
  | nil =>
    have := rj.len
    exact (hσ (List.eq_nil_of_length_eq_zero (by simpa using this))).elim
  | cons w ws =>
    have hw : w ∈ j.heap.live := rj.mem (by simp)
    obtain ⟨e, _, hkv⟩ := rj.cell (a := w) (by simp)
    have hh : it.h = w := e2.head
    have hnt : w ≠ it.t := fun h => e2.tl (by rw [← h]; simp)
    have hfree : w ∉ j.heap.live.erase w := by
      intro hm
      exact (List.Nodup.mem_erase_iff rj.lnd |>.mp hm).1 rfl
    unfold Idx.intoIter
    rw [c1, Res.bind_eq, Res.bind, e1, Res.bind_eq, Res.bind, drainOwned]
    simp [It.nextOwned, hh, hnt, kvAt_ok hw hkv, free_ok hw, Heap.load, hfree]

/-- What the iterator that consumes the index would do if freed memory kept its contents: it gives the entries in
the order of iteration, and only the sentinel is never freed. -/
theorem C16_owned_iterator_partial [DecidableEq K] {A : Malloc} (hA : A.Sound) (lib : Bool) (os : List (Op K V)) :
    ∃ i rs τ h, (Idx.new K V lib).run A os = .ok (i, rs) ∧ Lists τ (mapRun (fun _ => none) os) ∧
      τ.map (·.1) = written [] os ∧ i.intoIter true = .ok (h, τ) ∧ h.live = (if i.s = 0 then [] else [i.s]) := by
  obtain ⟨i, xs, fr, h1, r⟩ := run_spec hA (os := os) (rep_new (K := K) (V := V) lib)
  obtain ⟨_, e2, e3⟩ := answers_run (os := os) (σ := ([] : List (K × V))) (by simp [keys])
  have e : look ([] : List (K × V)) = fun _ => none := by funext k; rfl
  obtain ⟨j, c1, c2, c3, c4, rj⟩ := cleanup_spec r
  obtain ⟨it, i1, i2⟩ := iter_spec rj
  have hlive := rj.live
  have hp : j.heap.live.Perm (xs ++ sen j) := by
    refine hlive.trans ?_
    simpa using List.perm_append_comm
  obtain ⟨h, d1, d2⟩ := drain_keep (t := it.t) (P := j.heap.P) (N := j.heap.N) (ws := xs) (h := j.heap) (it := it)
    (σ := (specRun [] os).1) (fuel := j.heap.live.length + 1) (rest := sen j)
    (by have := hp.length_eq; simp at this; omega) rfl i2.head (fun _ => rfl) i2.seg i2.tl rj.lnd hp i2.kv
  refine ⟨i, _, (specRun [] os).1, h, h1, ?_, keys_run (σ := []), ?_, ?_⟩
  · rw [← e, ← e2]
    exact lists_look e3
  · unfold Idx.intoIter
    rw [c1, Res.bind_eq, Res.bind, i1, Res.bind_eq, Res.bind, d1]
  · by_cases hs : i.s = 0
    · simp [sen, c3, hs] at d2
      simp [hs, d2]
    · simp only [sen, c3, hs, if_false] at d2
      simp only [hs, if_false]
      exact List.perm_singleton.mp d2

/-- Non-vacuity: three columns; the strict run faults, the lenient one gives the columns and leaks a node. -/
example : (match (Idx.new String Nat false).run bump threeColumns with
    | .ok (i, _) => (shownOwned (i.intoIter false), shownOwned (i.intoIter true))
    | _ => (none, none)) = (none, some ([1], [("a", 1), ("b", 2), ("c", 3)])) := by decide +kernel

/-- The first `n` steps from the back of the iterator that consumes the index (`OrderedOwnedIteratorRaw::new`, `iter.rs:268-290`;
`next_back`, `iter.rs:310-325`). -/
def backOwned : Nat → Heap K V → It → Res Unit (List (Option (K × V)))
  | 0, _, _ => .ok []
  | n + 1, h, it => do
    let (h, it, e) ← it.nextBackOwned h
    let es ← backOwned n h it
    .ok (e :: es)

/-- The same from the index (`stord/mod.rs`, `stseq_owned_*`). -/
def Idx.intoBack (n : Nat) (i : Idx K V) : Res Unit (List (Option (K × V))) := do
  let i ← i.cleanup
  let it ← i.iter
  backOwned n i.heap it

theorem nextBackOwned_spec {h : Heap K V} {it : It} {vs : List Nat} {l : Nat} {σ : List (K × V)} (r : ItRep h it (vs ++ [l]) σ)
    (hnd : h.live.Nodup) : ∃ it' e h', it.nextBackOwned h = .ok (h', it', some e) ∧ σ.getLast? = some e ∧ it'.t = l ∧ it'.h = it.h ∧
      l ∉ h'.live := by
  have hne : it.h ≠ it.t := fun h1 => r.tl (by
    rw [← h1, r.head]
    cases vs <;> simp [hd])
  have ht : it.t ∈ h.live := r.tlive (by simp)
  have hl : l ∈ h.live := r.live l (by simp)
  have hk := r.kv
  rw [List.map_append] at hk
  obtain ⟨σ', τ, rfl, e1, e2⟩ := List.append_eq_map_iff.mp hk
  obtain ⟨e, τ', rfl, e3, e4⟩ := List.map_eq_cons_iff.mp e2
  have hτ : τ' = [] := by simpa using e4
  subst hτ
  have hN : (h.mem it.t).n = l := by
    cases vs with
    | nil => exact (r.seg l [] rfl).2
    | cons v vs => exact (seg_append.mp (r.seg v (vs ++ [l]) rfl)).2.2
  unfold It.nextBackOwned
  rw [if_neg hne, load_ok ht, Res.bind_eq, Res.bind]
  simp only [hN]
  rw [kvAt_ok hl e3.symm, Res.bind_eq, Res.bind, free_ok hl, Res.bind_eq, Res.bind]
  refine ⟨_, e, _, rfl, by simp, rfl, rfl, ?_⟩
  intro hm
  exact (List.Nodup.mem_erase_iff hnd |>.mp hm).1 rfl

/-- **C16 violated**: from the back, the iterator that consumes the index frees the last node and keeps it as its end, so that the
second step reads freed memory, for every index with two entries or more. (The server only uses it from the front.) -/
theorem C16_owned_back_violated [DecidableEq K] {A : Malloc} (hA : A.Sound) (lib : Bool) (os : List (Op K V))
    (hne : 2 ≤ (written [] os).length) (n : Nat) :
    ∃ i rs, (Idx.new K V lib).run A os = .ok (i, rs) ∧ i.intoBack (n + 2) = .panic ∧
      ∃ e, i.intoBack 1 = .ok [some e] ∧ (written [] os).getLast? = some e.1 := by
  obtain ⟨i, xs, fr, h1, r⟩ := run_spec hA (os := os) (rep_new (K := K) (V := V) lib)
  refine ⟨i, _, h1, ?_⟩
  obtain ⟨j, c1, c2, c3, c4, rj⟩ := cleanup_spec r
  obtain ⟨it, e1, e2⟩ := iter_spec rj
  have hkeys := keys_run (os := os) (σ := ([] : List (K × V)))
  have hlen : 2 ≤ xs.length := by
    have h2 := rj.len
    have h3 := congrArg List.length hkeys
    simp only [keys, List.length_map] at h3
    simp only [List.map_nil] at h3
    omega
  have hx : xs ≠ [] := by rintro rfl; simp at hlen
  obtain ⟨vs, l, rfl⟩ : ∃ ys a, xs = ys ++ [a] := ⟨xs.dropLast, xs.getLast hx, (List.dropLast_concat_getLast hx).symm⟩
  obtain ⟨it', e, h', a1, a2, a3, a4, a5⟩ := nextBackOwned_spec e2 rj.lnd
  have hvs : vs ≠ [] := by rintro rfl; simp at hlen
  have hlv : it.h ≠ l := by
    rw [e2.head]
    have := (List.nodup_append.mp e2.nd).2.2
    cases vs with
    | nil => exact absurd rfl hvs
    | cons v vs => exact fun hh => this v (by simp) l (by simp) hh
  have hp : it'.nextBackOwned h' = .panic := by
    unfold It.nextBackOwned
    rw [if_neg (by rw [a4, a3]; exact hlv), a3]
    simp [Heap.load, a5, Res.bind_eq, Res.bind]
  refine ⟨?_, e, ?_, ?_⟩
  · unfold Idx.intoBack
    rw [c1, Res.bind_eq, Res.bind, e1, Res.bind_eq, Res.bind, backOwned, a1, Res.bind_eq, Res.bind]
    simp only
    rw [backOwned, hp]
    rfl
  · unfold Idx.intoBack
    rw [c1, Res.bind_eq, Res.bind, e1, Res.bind_eq, Res.bind, backOwned, a1]
    rfl
  · rw [← show keys ([] : List (K × V)) = [] from rfl, ← hkeys, keys, List.getLast?_map, a2]
    rfl

/-- Non-vacuity: three columns from the back. -/
example : (match (Idx.new String Nat false).run bump threeColumns with
    | .ok (i, _) => (match i.intoBack 1, i.intoBack 2 with
      | .ok x, .panic => some x
      | _, _ => none)
    | _ => none) = some [some ("c", 3)] := by decide +kernel

/-! ### The columns of a model -/

theorem fget_look : ∀ (fs : Enc.Fields) (k : String), Gns.fget fs k = look fs k
  | [], _ => rfl
  | (k', f) :: fs, k => by
    rw [Gns.fget, fget_look fs k]
    by_cases h : k' = k <;> simp [look, h]

theorem ferase_del : ∀ {fs : Enc.Fields}, (keys fs).Nodup → ∀ k, Gns.ferase fs k = del fs k
  | [], _, _ => rfl
  | (k', f) :: fs, h, k => by
    have h' := List.nodup_cons.mp h
    rw [Gns.ferase]
    by_cases hk : k' = k
    · rw [if_pos hk]
      have : k ∉ keys fs := hk ▸ h'.1
      have e := del_none this
      unfold del at e ⊢
      simp only [List.filter_cons, hk]
      simpa using e.symm
    · rw [if_neg hk, ferase_del h'.2]
      simp [del, hk]

/-- The column maps of the catalogue model (`Verif.Gns`) are what the ordered index does. -/
theorem C16_columns {fs : Enc.Fields} (h : (keys fs).Nodup) (k : String) (f : Field) :
    Gns.finsert fs k f = ((specStep fs (.insert k f)).1, (Gns.fget fs k).isNone) ∧
    Gns.fupdate fs k f = ((specStep fs (.update k f)).1, (Gns.fget fs k).isSome) ∧
    Gns.fdelete fs k = ((specStep fs (.remove k : Op String Field)).1, (Gns.fget fs k).isSome) := by
  have e1 := fget_look fs k
  have e2 := ferase_del h k
  refine ⟨?_, ?_, ?_⟩
  · rw [Gns.finsert, e1]
    cases hl : look fs k <;> simp [specStep, hl]
  · rw [Gns.fupdate, e1, e2]
    cases hl : look fs k <;> simp [specStep, hl]
  · rw [Gns.fdelete, e1, e2]
    cases hl : look fs k with
    | some v => simp [specStep]
    | none =>
      have hk : k ∉ keys fs := fun hk => by
        have := look_isSome.mpr hk
        rw [hl] at this
        cases this
      simp [specStep, del_none hk]

end Verif.Ord
