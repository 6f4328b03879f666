import Verif.Mem.ValueSteps
import Verif.Trie.Theorems
/-!
C70: a value keeps its meaning when it moves between query, row and index, and its memory is freed once.
-/
namespace Verif.Mem

theorem rel_empty (w : Width) : Rel w Bm.empty [] [] :=
  ⟨List.nodup_nil, .refl _, ⟨(fun _ h => by cases h), .nil⟩, (fun _ h => by cases h), (fun _ h => by cases h), (fun _ h => by cases h)⟩

theorem run_does {w : Width} : ∀ {ops : List Op} {m : Bm} {es : List Ent} {P : Penv}, Rel w m [] es → prun w ops (pure es) = some P →
    Borrowed w ops (pure es) → ∃ m' es', vrun w ops m (conc es) = .ok (m', conc es') ∧ P = pure es' ∧ Rel w m' [] es' := by
  intro ops
  induction ops with
  | nil => intro m es P hr hp _; cases hp; exact ⟨m, es, rfl, rfl, hr⟩
  | cons o ops ih =>
    intro m es P hr hp hb
    simp only [prun, Option.bind_eq_some_iff] at hp
    obtain ⟨e1, h1, h2⟩ := hp
    obtain ⟨m1, es1, s1, rfl, r1⟩ := step_does hr h1 hb.1
    obtain ⟨m', es', s2, h3, r2⟩ := ih r1 h2 (hb.2 _ h1)
    exact ⟨m', es', by simp only [vrun, s1, s2], h3, r2⟩

/-- **C70.** For every program of literals, cells, lists, keys and virtual cells that the compiler accepts, on machines with 32 and with 64
bits: no step reads or frees memory that is not alive; afterwards every variable reads as the value that the program has for it; and when
all variables have been dropped, all memory has been freed. What is missing: virtual cells may only be made from literals that do not own
their text (`C70_owned_literal_violated`). -/
theorem C70_values_partial (w : Width) (ops : List Op) {P : Penv} (hp : prun w ops [] = some P) (hb : Borrowed w ops []) :
    ∃ m e, vrun w ops Bm.empty [] = .ok (m, e) ∧
      (∀ h, (∃ p, get h P = some p) ↔ ∃ o, get h e = some o) ∧
      (∀ h p, get h P = some p → ∃ o, get h e = some o ∧ o.look w m = some p.val) ∧
      (P = [] → m.allocs = []) := by
  obtain ⟨m, es, h1, rfl, hr⟩ := run_does (rel_empty w) hp hb
  refine ⟨m, conc es, h1, fun h => ?_, fun h p hg => ?_, fun he => ?_⟩
  · rw [pure, conc, get_map (f := fun y : Obj × Pv => y.2), get_map (f := fun y : Obj × Pv => y.1)]
    cases get h es <;> simp
  · obtain ⟨o, g1, g2⟩ := get_pure hg
    exact ⟨o, g2, hr.look _ (get_mem g1)⟩
  · have : es = [] := List.map_eq_nil_iff.mp he
    subst this
    exact hr.own.symm.eq_nil

/-! ### Keys -/

theorem key_view {w : Width} {m : Bm} {k : Key} {v : Val} (hk : KindOk w (.key k) .key) (hl : k.look m = some v) :
    (k.tag = .uint ∧ v = .quad .uint64 k.word.a ∧ k.block m = some []) ∨ (k.tag = .sint ∧ v = .quad .sint64 k.word.a ∧ k.block m = some []) ∨
    (∃ bs, k.tag = .bin ∧ v = .bytes .binary bs ∧ k.block m = some bs ∧ bs.length = k.word.a) ∨
    (∃ bs, k.tag = .str ∧ v = .bytes .string bs ∧ k.block m = some bs ∧ bs.length = k.word.a) := by
  simp only [Key.look] at hl
  cases ht : k.tag <;> rw [ht] at hl
  · cases hl
    exact .inl ⟨rfl, rfl, by simp only [Key.block, ht, uwide]; rfl⟩
  · cases hl
    exact .inr (.inl ⟨rfl, rfl, by simp only [Key.block, ht, uwide]; rfl⟩)
  · obtain ⟨bs, hb, rfl⟩ := Option.map_eq_some_iff.mp hl
    refine .inr (.inr (.inl ⟨bs, rfl, rfl, hb, ?_⟩))
    simp only [Key.block, ht, uwide, if_true] at hb
    exact (list_read hb).1
  · obtain ⟨bs, hb, rfl⟩ := Option.map_eq_some_iff.mp hl
    refine .inr (.inr (.inr ⟨bs, rfl, rfl, hb, ?_⟩))
    simp only [Key.block, ht, uwide, if_true] at hb
    exact (list_read hb).1
  · exact absurd ht hk.2.2.2

theorem lit_view {w : Width} {m : Bm} {l : Lit} {u v : Val} (hk : KindOk w (.lit l) (.lit l.owned)) (hl : l.look m = some u)
    (hv : u.asKey = some v) :
    (l.tag.uniq = .uint ∧ v = .quad .uint64 l.word.a ∧ l.vdata m = some []) ∨
    (l.tag.uniq = .sint ∧ v = .quad .sint64 l.word.a ∧ l.vdata m = some []) ∨
    (∃ bs, l.tag.uniq = .bin ∧ v = .bytes .binary bs ∧ l.vdata m = some bs ∧ bs.length = l.word.a) ∨
    (∃ bs, l.tag.uniq = .str ∧ v = .bytes .string bs ∧ l.vdata m = some bs ∧ bs.length = l.word.a) := by
  by_cases hw : twide l.tag = true
  · simp only [Lit.look, hw, if_true] at hl
    obtain ⟨bs, hb, rfl⟩ := Option.map_eq_some_iff.mp hl
    cases hv
    have hlen := (list_read hb).1
    have hd : l.vdata m = some bs := by rw [Lit.vdata, if_pos (wide_uniq hw)]; exact hb
    cases ht : l.tag <;> rw [ht] at hw <;> first | cases hw | skip
    · exact .inr (.inr (.inl ⟨bs, rfl, rfl, hd, hlen⟩))
    · exact .inr (.inr (.inr ⟨bs, rfl, rfl, hd, hlen⟩))
  · have hq : tquad l.tag = true := hk.2.2.2.2.resolve_left hw
    have hl : some (quadVal l.tag l.word.a) = some u := by
      have hw' : twide l.tag = false := by simpa using hw
      simpa only [Lit.look, hw', Bool.false_eq_true, if_false] using hl
    cases hl
    cases ht : l.tag <;> rw [ht] at hq hv <;> first | cases hq | skip
    all_goals first | cases hv | skip
    all_goals first
      | exact .inl ⟨rfl, rfl, by simp only [Lit.vdata, ht, Tag.uniq, uwide]; rfl⟩
      | exact .inr (.inl ⟨rfl, rfl, by simp only [Lit.vdata, ht, Tag.uniq, uwide]; rfl⟩)

/-- The comparison of keys with keys and with literals. -/
theorem compare_view {m : Bm} {t1 t2 : TagUnique} {a1 a2 : Nat} {d1 d2 : Option Bytes} {v1 v2 : Val}
    (h1 : (t1 = .uint ∧ v1 = .quad .uint64 a1 ∧ d1 = some []) ∨ (t1 = .sint ∧ v1 = .quad .sint64 a1 ∧ d1 = some []) ∨
      (∃ bs, t1 = .bin ∧ v1 = .bytes .binary bs ∧ d1 = some bs ∧ bs.length = a1) ∨
      (∃ bs, t1 = .str ∧ v1 = .bytes .string bs ∧ d1 = some bs ∧ bs.length = a1))
    (h2 : (t2 = .uint ∧ v2 = .quad .uint64 a2 ∧ d2 = some []) ∨ (t2 = .sint ∧ v2 = .quad .sint64 a2 ∧ d2 = some []) ∨
      (∃ bs, t2 = .bin ∧ v2 = .bytes .binary bs ∧ d2 = some bs ∧ bs.length = a2) ∨
      (∃ bs, t2 = .str ∧ v2 = .bytes .string bs ∧ d2 = some bs ∧ bs.length = a2)) :
    (∃ b, (if t1 = t2 ∧ a1 = a2 then d1.bind fun x => d2.map fun y => decide (x = y) else some false) = some b ∧
      (b = true ↔ v1 = v2)) ∧
    (v1 = v2 → (d1.map fun x => (t1, x)) = d2.map fun x => (t2, x)) ∧ ∃ x y, d1 = some x ∧ d2 = some y := by
  rcases h1 with ⟨rfl, rfl, rfl⟩ | ⟨rfl, rfl, rfl⟩ | ⟨bs, rfl, rfl, rfl, rfl⟩ | ⟨bs, rfl, rfl, rfl, rfl⟩ <;>
    rcases h2 with ⟨rfl, rfl, rfl⟩ | ⟨rfl, rfl, rfl⟩ | ⟨bs', rfl, rfl, rfl, rfl⟩ | ⟨bs', rfl, rfl, rfl, rfl⟩ <;>
    refine ⟨?_, ?_, _, _, rfl, rfl⟩ <;> simp <;> try (split <;> simp_all) <;> try (intro h; subst h; simp_all)
  all_goals exact (Decidable.em _).symm

/-- **C70, keys.** In every state that a program can reach, two keys compare as equal exactly if they have the same value, and a key and a
literal compare as equal exactly if the literal has the value of the key (of whatever width its type is); and what is equal gives the
hasher the same bytes. So a row is found under a literal exactly if its key is that value. -/
theorem C70_keys (w : Width) (ops : List Op) {P : Penv} (hp : prun w ops [] = some P) (hb : Borrowed w ops []) :
    ∃ m e, vrun w ops Bm.empty [] = .ok (m, e) ∧
      (∀ a b k l va vb, get a e = some (.key k) → get b e = some (.key l) → get a P = some va → get b P = some vb →
        (∃ r, k.eq m l = some r ∧ (r = true ↔ va.val = vb.val)) ∧ (va.val = vb.val → k.hashed m = l.hashed m) ∧
        (k.hashed m).isSome) ∧
      (∀ a b k l va vb v, get a e = some (.key k) → get b e = some (.lit l) → get a P = some va → get b P = some vb →
        vb.val.asKey = some v →
        (∃ r, k.eqLit m l = some r ∧ (r = true ↔ va.val = v)) ∧ (va.val = v → k.hashed m = l.hashed m) ∧ (l.hashed m).isSome) := by
  obtain ⟨m, es, h1, rfl, hr⟩ := run_does (rel_empty w) hp hb
  have obj : ∀ {a : Nat} {o : Obj} {v : Pv}, get a (conc es) = some o → get a (pure es) = some v →
      KindOk w o v.kind ∧ o.look w m = some v.val := by
    intro a o v g1 g2
    obtain ⟨o', g3, g4⟩ := get_pure g2
    have : get a (conc es) = some o' := g4
    rw [g1] at this
    cases this
    exact ⟨hr.kind _ (get_mem g3), hr.look _ (get_mem g3)⟩
  refine ⟨m, conc es, h1, fun a b k l va vb ga gb pa pb => ?_, fun a b k l va vb v ga gb pa pb hv => ?_⟩
  · obtain ⟨k1, l1⟩ := obj ga pa
    obtain ⟨k2, l2⟩ := obj gb pb
    obtain ⟨c1, c2, x, y, c3, c4⟩ := compare_view (m := m) (key_view (k1.1 ▸ k1) l1) (key_view (k2.1 ▸ k2) l2)
    exact ⟨c1, c2, by simp only [Key.hashed, c3]; rfl⟩
  · obtain ⟨k1, l1⟩ := obj ga pa
    obtain ⟨k2, l2⟩ := obj gb pb
    obtain ⟨c1, c2, x, y, c3, c4⟩ := compare_view (m := m) (key_view (k1.1 ▸ k1) l1) (lit_view (k2.1 ▸ k2) l2 hv)
    exact ⟨c1, c2, by simp only [Lit.hashed, c4]; rfl⟩

/-! ### Examples -/

/-- `get`, then read. -/
def seen (w : Width) (h : Nat) : Out2 (Bm × Env) → Option Val
  | .ok (m, e) => (get h e).bind fun o => o.look w m
  | _ => none

/-- A literal of a query becomes a cell, the cell a key, and the key is seen through a virtual cell; a list is made and taken apart. -/
def exOps : List Op :=
  [.newBuf 0 [83, 65, 66, 67], .litRef 1 0 .string 1 3, .litIr 2 1, .cellLit 3 2, .keyCell 4 3, .virtKey 5 4 .string,
   .cellQuad 6 .sint16 (2 ^ 64 - 3), .cellList 7, .push 7 6, .newBuf 8 [7], .litOwn 9 8, .litClone 10 9, .cellLit 11 9, .push 7 11,
   .pop 12 7, .keyCell 13 12]

def pv (p : Penv) : List (Nat × Kind × List Nat) := p.map fun x => (x.1, x.2.kind, x.2.borrows)

example : (prun .w32 exOps []).map pv = some [(13, .key, []), (7, .cell, []), (10, .lit true, []), (5, .virt, [4]), (4, .key, []),
    (1, .lit false, [0]), (0, .buf, [])] := by decide +kernel

example : Borrowed .w32 exOps [] := by
  simp only [exOps, Borrowed]
  repeat first | exact ⟨trivial, fun _ _ => trivial⟩ | refine ⟨trivial, fun _ _ => ?_⟩

example : seen .w32 5 (vrun .w32 exOps Bm.empty []) = some (.bytes .string [65, 66, 67]) ∧
    seen .w32 13 (vrun .w32 exOps Bm.empty []) = some (.quad .sint64 (2 ^ 64 - 3)) ∧
    seen .w32 7 (vrun .w32 exOps Bm.empty []) = some (.list [.bytes .string [7]]) := ⟨by rfl, by rfl, by rfl⟩

/-- The number of allocations in the end. -/
def left : Out2 (Bm × Env) → Option (List (Nat × Nat))
  | .ok (m, _) => some m.allocs
  | _ => none

def exDrop : List Op := [.drop 13, .drop 7, .drop 10, .drop 5, .drop 4, .drop 1, .drop 0]

example : (prun .w64 (exOps ++ exDrop) []).map pv = some [] ∧ left (vrun .w64 (exOps ++ exDrop) Bm.empty []) = some [] ∧
    (left (vrun .w64 exOps Bm.empty [])).map (·.length) = some 4 := by decide +kernel

/-- The compiler refuses to drop the buffer while the slice is in use. -/
example : (prun .w64 [.newBuf 0 [1, 2], .litRef 1 0 .binary 0 1, .drop 0] []).map pv = none := by decide +kernel

/-! ### Violations -/

def isUb : Out2 α → Bool
  | .ub => true
  | _ => false

/-- A program that has no bad step and whose variable is then read. -/
def readsFreed (w : Width) (ops : List Op) (h : Nat) : Bool :=
  match vrun w ops Bm.empty [] with
  | .ok (m, e) => ((get h e).map fun o => (o.look w m).isNone) = some true
  | _ => false

/-- **C70 violated.** `VirtualDatacell::new` takes the literal and drops it at its end. If the literal owns its text, the virtual cell points
to memory that was freed: the compiler accepts the program (the lifetime of the literal is any), and reading the cell is undefined. Inside
the server this does not happen, because queries only have borrowed literals (`as_ir`). -/
theorem C70_owned_literal_violated : ∃ ops h, ((prun .w64 ops []).map pv).isSome = true ∧ readsFreed .w64 ops h = true :=
  ⟨[.newBuf 0 [97, 98], .litOwn 1 0, .virtLit 2 1], 2, by decide +kernel, by decide +kernel⟩

/-- **C70 violated.** `clone` of a key has its two cases the wrong way round. A clone of an integer key takes the integer for a length and
reads so many bytes from an array without elements; a clone of a text key points to the same text, and dropping both frees it twice.
(The server does not clone keys.) -/
theorem C70_clone_violated :
    (∀ (m : Bm) (n : Nat), m.byte ZERO_BLOCK = none → 0 < n → Key.clone m ⟨.uint, ⟨n, ZERO_BLOCK⟩⟩ = none) ∧
    (∀ (m : Bm), m.Ok → ∀ (p n : Nat), (p, n) ∈ m.allocs → ∃ k m1, Key.clone m ⟨.str, ⟨n, p⟩⟩ = some (k, m1) ∧
      ∃ m2, Key.drop m1 ⟨.str, ⟨n, p⟩⟩ = some m2 ∧ k.drop m2 = none) := by
  refine ⟨fun m n hb hn => ?_, fun m hok p n hm => ?_⟩
  · obtain ⟨n, rfl⟩ : ∃ k, n = k + 1 := ⟨n - 1, by omega⟩
    simp only [Key.clone, Bm.read, hb]
    rfl
  · have h0 : n ≠ 0 := by have := (hok.below _ hm).1; show n ≠ 0; simp only at this; omega
    refine ⟨_, _, rfl, ⟨fun a => if p ≤ a ∧ a < p + n then none else m.byte a, m.allocs.erase (p, n), m.next⟩, ?_, ?_⟩
    · simp only [Key.drop, Bm.free, if_neg h0, if_pos hm]
    · have hnd : m.allocs.Nodup := hok.apart.imp_of_mem fun {a b} ha _ h he => by
        subst he
        have := (hok.below _ ha).1
        have h' : a.1 + a.2 ≤ a.1 ∨ a.1 + a.2 ≤ a.1 := h
        omega
      have : (p, n) ∉ m.allocs.erase (p, n) := hnd.not_mem_erase
      simp only [Key.drop, Bm.free, if_neg h0, if_neg this]

/-- **C70 violated.** Comparing a Boolean with null panics, in one direction only; so the comparison of cells is not symmetric. -/
theorem C70_compare_violated (feq : Nat → Nat → Bool) :
    Val.eq feq (.quad .bool 1) .null = none ∧ Val.eq feq .null (.quad .bool 1) = some false ∧
    Val.eq feq (.list [.quad .bool 1]) (.list [.null]) = none := ⟨rfl, rfl, rfl⟩

/-- **C70, comparison of cells.** Two cells that are neither lists nor a Boolean and null: equal are nulls, and values of the same class with
the same contents; for floats the processor decides. -/
theorem C70_compare_partial (feq : Nat → Nat → Bool) (v u : Val) (hv : ∀ l, v ≠ .list l) (hu : ∀ l, u ≠ .list l)
    (hb : u = .null → ∀ q, v ≠ .quad .bool q) :
    ∃ b, Val.eq feq v u = some b ∧ (b = true ↔ (v = .null ∧ u = .null) ∨
      (∃ s t p q, v = .quad s p ∧ u = .quad t q ∧ s.cls = t.cls ∧ if s.cls = .float then feq p q = true else p = q) ∨
      ∃ s t x, v = .bytes s x ∧ u = .bytes t x ∧ s.cls = t.cls) := by
  cases v with
  | list l => exact absurd rfl (hv l)
  | null =>
    cases u with
    | list l => exact absurd rfl (hu l)
    | null => exact ⟨true, rfl, by simp⟩
    | quad t q => exact ⟨false, rfl, by simp⟩
    | bytes t x => exact ⟨false, rfl, by simp⟩
  | quad s p =>
    cases u with
    | list l => exact absurd rfl (hu l)
    | null =>
      refine ⟨false, ?_, by simp⟩
      have : s.cls ≠ .bool := by
        intro h
        have : s = .bool := by cases s <;> first | rfl | cases h
        exact hb rfl p (by rw [this])
      simp only [Val.eq, if_neg this]
    | quad t q =>
      by_cases hc : s.cls = t.cls
      · refine ⟨if s.cls = .float then feq p q else decide (p = q), by simp only [Val.eq, if_pos hc], ?_⟩
        by_cases hf : s.cls = .float
        · rw [if_pos hf]
          refine ⟨fun h => .inr (.inl ⟨s, t, p, q, rfl, rfl, hc, by rw [if_pos hf]; exact h⟩), ?_⟩
          rintro (⟨h, _⟩ | ⟨_, _, _, _, h1, h2, _, h4⟩ | ⟨_, _, _, h, _⟩)
          · cases h
          · cases h1; cases h2; rwa [if_pos hf] at h4
          · cases h
        · rw [if_neg hf, decide_eq_true_eq]
          refine ⟨fun h => .inr (.inl ⟨s, t, p, q, rfl, rfl, hc, by rw [if_neg hf]; exact h⟩), ?_⟩
          rintro (⟨h, _⟩ | ⟨_, _, _, _, h1, h2, _, h4⟩ | ⟨_, _, _, h, _⟩)
          · cases h
          · cases h1; cases h2; rwa [if_neg hf] at h4
          · cases h
      · exact ⟨false, by simp only [Val.eq, if_neg hc], by simp [hc]⟩
    | bytes t x => exact ⟨false, rfl, by simp⟩
  | bytes s x =>
    cases u with
    | list l => exact absurd rfl (hu l)
    | null => exact ⟨false, rfl, by simp⟩
    | quad t q => exact ⟨false, rfl, by simp⟩
    | bytes t y =>
      by_cases hc : s.cls = t.cls
      · refine ⟨decide (x = y), by simp only [Val.eq, if_pos hc], ?_⟩
        simp only [decide_eq_true_eq]
        constructor
        · rintro rfl; exact .inr (.inr ⟨s, t, x, rfl, rfl, hc⟩)
        · rintro (⟨h, _⟩ | ⟨_, _, _, _, h, _⟩ | ⟨_, _, _, h1, h2, _⟩)
          · cases h
          · cases h
          · cases h1; cases h2; rfl
      · refine ⟨false, by simp only [Val.eq, if_neg hc], ?_⟩
        simp only [Bool.false_eq_true, false_iff]
        rintro (⟨h, _⟩ | ⟨_, _, _, _, h, _⟩ | ⟨_, _, _, h1, h2, h3⟩)
        · cases h
        · cases h
        · cases h1; cases h2; exact hc h3

/-! ### All integer keys have the same hash -/

/-- The elements that a lookup compares with its key, one after the other, until one is equal: `_lookup` (`idx/mtchm/mod.rs:456-485`). -/
def scanned {K V : Type} : UInt64 → Trie.Tree K V → List (K × V)
  | _, .null => []
  | _, .data l => l
  | h, .branch f => scanned (h >>> 4) (f (Trie.chunk h 0))

/-- The same, with the level counted. -/
def scannedN {K V : Type} (h : UInt64) : Nat → Trie.Tree K V → List (K × V)
  | _, .null => []
  | _, .data l => l
  | 0, .branch _ => []
  | n + 1, .branch f => scannedN h n (f (Trie.chunk h (Trie.lev (n + 1))))

theorem scanned_eq {K V : Type} {hash : K → UInt64} : ∀ {n : Nat} {P : K → Prop} {t : Trie.Tree K V} {g h : UInt64}, n ≤ Trie.HEIGHT →
    Trie.WF hash n P t → (0 < n → g = h >>> UInt64.ofNat (Trie.lev n)) → scanned g t = scannedN h n t := by
  intro n
  induction n with
  | zero =>
    intro P t g h _ hwf _
    cases t with
    | null => rfl
    | data l => rfl
    | branch f => exact absurd hwf (by simp [Trie.WF])
  | succ n ih =>
    intro P t g h hn hwf hg
    cases t with
    | null => rfl
    | data l => rfl
    | branch f =>
      have hlev : Trie.lev (n + 1) < 64 := by simp only [Trie.lev, Trie.LG, Trie.HEIGHT] at *; omega
      have hg' := hg (Nat.succ_pos _)
      have hc : Trie.chunk g 0 = Trie.chunk h (Trie.lev (n + 1)) := by rw [hg', Trie.chunk_shift _ _ hlev]
      simp only [scanned, scannedN, hc]
      refine ih (by omega) (by simp only [Trie.WF] at hwf; exact hwf _) fun h0 => ?_
      have : Trie.lev n = Trie.lev (n + 1) + 4 := by simp only [Trie.lev, Trie.LG, Trie.HEIGHT] at *; omega
      rw [hg', this]
      exact Trie.shift_shift h _ 4 (by simp only [Trie.lev, Trie.LG, Trie.HEIGHT] at *; omega)

theorem elems_empty {K V : Type} [DecidableEq K] {hash : K → UInt64} {n : Nat} {P : K → Prop} {t : Trie.Tree K V} (hwf : Trie.WF hash n P t)
    (hP : ∀ k, ¬ P k) : Trie.elems t = [] := by
  cases he : Trie.elems t with
  | nil => rfl
  | cons e l => exact absurd (hwf.elems e (by rw [he]; exact List.mem_cons_self ..)) (hP _)

theorem sum_single : ∀ {l : List (Fin 16)} {g : Fin 16 → Nat} {i : Fin 16}, l.Nodup → i ∈ l → (∀ j, j ≠ i → g j = 0) → (l.map g).sum = g i
  | a :: l, g, i, hn, hi, h0 => by
    rw [List.nodup_cons] at hn
    simp only [List.map_cons, List.sum_cons]
    rcases List.mem_cons.mp hi with rfl | hi
    · have : (l.map g).sum = 0 := Trie.sum_zero.mpr fun x hx => by
        obtain ⟨j, hj, rfl⟩ := List.mem_map.mp hx
        exact h0 j fun he => hn.1 (he ▸ hj)
      omega
    · rw [h0 a fun he => hn.1 (he ▸ hi), sum_single hn.2 hi h0]
      omega

theorem scanned_all {K V : Type} [DecidableEq K] {hash : K → UInt64} {h : UInt64} (hh : ∀ k, hash k = h) : ∀ {n : Nat} {P : K → Prop}
    {t : Trie.Tree K V}, Trie.WF hash n P t → (scannedN h n t).length = (Trie.elems t).length := by
  intro n
  induction n with
  | zero =>
    intro P t hwf
    cases t with
    | null => rfl
    | data l => rfl
    | branch f => exact absurd hwf (by simp [Trie.WF])
  | succ n ih =>
    intro P t hwf
    cases t with
    | null => rfl
    | data l => rfl
    | branch f =>
      have hwf' : ∀ i, Trie.WF hash n (fun k => P k ∧ Trie.chunk (hash k) (Trie.lev (n + 1)) = i) (f i) := by
        simp only [Trie.WF] at hwf; exact hwf
      rw [scannedN, ih (hwf' _), Trie.length_flatMap,
        sum_single (i := Trie.chunk h (Trie.lev (n + 1))) (List.nodup_finRange 16) (List.mem_finRange _) fun j hj => ?_]
      rw [elems_empty (hwf' j) fun k hk => hj (by rw [← hk.2, hh k])]
      rfl

/-- **C70 violated.** Integer keys give the hasher nothing but their tag: all integer keys of a table have the same hash, whatever the hash
function is. So after any operations on such a table all its rows are in one list, and a lookup compares its key with as many rows as
there are in the table. -/
theorem C70_integer_keys_violated :
    (∀ (m : Bm) (t : TagUnique) (a b : Nat), t = .uint ∨ t = .sint →
      Key.hashed m ⟨t, ⟨a, ZERO_BLOCK⟩⟩ = some (t, []) ∧ Key.hashed m ⟨t, ⟨a, ZERO_BLOCK⟩⟩ = Key.hashed m ⟨t, ⟨b, ZERO_BLOCK⟩⟩) ∧
    ∀ {K V : Type} [DecidableEq K] (hash : K → UInt64) (h : UInt64), (∀ k, hash k = h) → ∀ (os : List (Trie.Op K V)),
      ∃ x rs, Trie.Idx.new.run hash os = some (x, rs) ∧ ∀ k, (scanned (hash k) x.root).length = x.len := by
  refine ⟨fun m t a b ht => ?_, fun {K V} _ hash h hh os => ?_⟩
  · rcases ht with rfl | rfl <;> exact ⟨rfl, rfl⟩
  · obtain ⟨x, h1, h2⟩ := Trie.rep_run (hash := hash) (os := os) Trie.rep_new
    refine ⟨x, _, h1, fun k => ?_⟩
    rw [hh k, scanned_eq (h := h) (Nat.le_refl _) h2.wf ?_, scanned_all hh h2.wf, h2.len]
    intro _
    exact (UInt64.toNat_inj.1 (by rw [UInt64.toNat_shiftRight]; rfl))

/-- With a hash that spreads the keys, the same lookups see one row. -/
example : (Trie.Idx.new.run (fun k : Nat => UInt64.ofNat k) [.insert 1 10, .insert 2 20, .insert 3 (30 : Nat)]).map
    (fun x => (scanned 2 x.1.root, x.1.len)) = some ([(2, 20)], 3) := by decide +kernel

end Verif.Mem
