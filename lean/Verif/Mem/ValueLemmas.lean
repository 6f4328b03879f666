import Verif.Mem.Value
/-!
C70: the relation between a program with memory and the same program on values, and how it is kept.
-/
namespace Verif.Mem

/-! ### Variables -/

theorem get_map {α β : Type} (f : α → β) (k : Nat) (l : List (Nat × α)) :
    get k (l.map fun x => (x.1, f x.2)) = (get k l).map f := by
  induction l with
  | nil => rfl
  | cons x l ih =>
    simp only [get, List.map_cons, List.find?_cons]
    cases h : x.1 == k
    · exact ih
    · rfl

theorem del_map {α β : Type} (f : α → β) (k : Nat) (l : List (Nat × α)) :
    del k (l.map fun x => (x.1, f x.2)) = (del k l).map fun x => (x.1, f x.2) := by
  simp only [del, List.filter_map]
  rfl

theorem get_mem {α : Type} {k : Nat} {l : List (Nat × α)} {a : α} (h : get k l = some a) : (k, a) ∈ l := by
  simp only [get, Option.map_eq_some_iff] at h
  obtain ⟨⟨k', a'⟩, h1, rfl⟩ := h
  have h2 := List.find?_some h1
  have h3 := List.mem_of_find?_eq_some h1
  simp only [beq_iff_eq] at h2
  exact h2 ▸ h3

theorem get_none {α : Type} {k : Nat} {l : List (Nat × α)} (h : get k l = none) : ∀ x ∈ l, x.1 ≠ k := by
  simp only [get, Option.map_eq_none_iff, List.find?_eq_none, beq_iff_eq] at h
  exact h

theorem mem_del {α : Type} {k : Nat} {l : List (Nat × α)} {x : Nat × α} : x ∈ del k l ↔ x ∈ l ∧ x.1 ≠ k := by
  simp [del]

theorem get_del_none {α : Type} {h k : Nat} {l : List (Nat × α)} (hn : get h l = none) : get h (del k l) = none := by
  simp only [get, Option.map_eq_none_iff, List.find?_eq_none, beq_iff_eq] at hn ⊢
  exact fun x hx => hn x (mem_del.mp hx).1

theorem get_del_self {α : Type} {k : Nat} {l : List (Nat × α)} : get k (del k l) = none := by
  simp only [get, Option.map_eq_none_iff, List.find?_eq_none, beq_iff_eq]
  exact fun x hx => (mem_del.mp hx).2

theorem get_del_ne {α : Type} {h k : Nat} {l : List (Nat × α)} (hn : h ≠ k) : get h (del k l) = get h l := by
  induction l with
  | nil => rfl
  | cons x l ih =>
    simp only [get, del, List.filter_cons, List.find?_cons] at ih ⊢
    cases h1 : x.1 == h <;> cases h2 : (x.1 != k)
    · exact ih
    · simp only [if_true, List.find?_cons, h1]; exact ih
    · simp only [beq_iff_eq, bne_eq_false_iff_eq] at h1 h2; exact absurd (h1.symm.trans h2) hn
    · simp only [if_true, List.find?_cons, h1]

theorem del_perm {α : Type} {k : Nat} {l : List (Nat × α)} {a : α} (hn : (l.map (·.1)).Nodup) (h : get k l = some a) :
    l.Perm ((k, a) :: del k l) := by
  induction l with
  | nil => cases h
  | cons x l ih =>
    rw [List.map_cons, List.nodup_cons] at hn
    simp only [get, List.find?_cons] at h
    cases h1 : x.1 == k
    · rw [h1] at h
      have h2 : (x.1 != k) = true := by simp only [bne, h1, Bool.not_false]
      simp only [del, List.filter_cons, h2, if_true]
      exact ((ih hn.2 h).cons x).trans (List.Perm.swap ..)
    · rw [h1] at h
      obtain ⟨xk, xa⟩ := x
      simp only [Option.map_some, Option.some.injEq] at h
      simp only [beq_iff_eq] at h1
      subst h1
      subst h
      have h2 : del xk ((xk, xa) :: l) = l := by
        simp only [del, List.filter_cons, bne_self_eq_false, Bool.false_eq_true, if_false]
        refine List.filter_eq_self.mpr fun y hy => ?_
        have : y.1 ≠ xk := fun h => hn.1 (List.mem_map.mpr ⟨y, hy, h⟩)
        simpa using this
      rw [h2]

/-! ### Memory -/

/-- Ranges that share no address. -/
def Apart (x y : Nat × Nat) : Prop := x.1 + x.2 ≤ y.1 ∨ y.1 + y.2 ≤ x.1

/-- The allocator keeps its books. -/
structure Bm.Ok (m : Bm) : Prop where
  below : ∀ x ∈ m.allocs, 0 < x.2 ∧ x.1 + x.2 ≤ m.next
  apart : m.allocs.Pairwise Apart

/-- The ranges that are not empty. -/
def nz (l : List (Nat × Nat)) : List (Nat × Nat) := l.filter fun x => x.2 != 0

theorem nz_append (l k : List (Nat × Nat)) : nz (l ++ k) = nz l ++ nz k := List.filter_append ..

theorem mem_nz {x : Nat × Nat} {l : List (Nat × Nat)} : x ∈ nz l ↔ x ∈ l ∧ x.2 ≠ 0 := by simp [nz]

/-- Two memories have the same bytes in some ranges. -/
def Agree (m m' : Bm) (l : List (Nat × Nat)) : Prop := ∀ x ∈ l, ∀ a, x.1 ≤ a → a < x.1 + x.2 → m'.byte a = m.byte a

theorem Agree.sub {m m' : Bm} {l k : List (Nat × Nat)} (h : Agree m m' l) (hs : ∀ x ∈ k, x ∈ l) : Agree m m' k :=
  fun x hx => h x (hs x hx)

theorem read_agree {m m' : Bm} : ∀ {n p : Nat}, (∀ a, p ≤ a → a < p + n → m'.byte a = m.byte a) → m'.read p n = m.read p n := by
  intro n
  induction n with
  | zero => intro p _; rfl
  | succ n ih =>
    intro p h
    simp only [Bm.read]
    rw [h p (by omega) (by omega), ih (p := p + 1) fun a h1 h2 => h a (by omega) (by omega)]

theorem Agree.read {m m' : Bm} {l : List (Nat × Nat)} {p n : Nat} (h : Agree m m' l)
    (hc : n = 0 ∨ ∃ x ∈ l, x.1 ≤ p ∧ p + n ≤ x.1 + x.2) : m'.read p n = m.read p n := by
  rcases hc with rfl | ⟨x, hx, h1, h2⟩
  · rfl
  · exact read_agree fun a ha hb => h x hx a (by omega) (by omega)

theorem read_list {m : Bm} : ∀ {bs : Bytes} {p : Nat}, (∀ i, (h : i < bs.length) → m.byte (p + i) = some bs[i]) →
    m.read p bs.length = some bs := by
  intro bs
  induction bs with
  | nil => intro p _; rfl
  | cons b bs ih =>
    intro p h
    simp only [List.length_cons, Bm.read]
    have h0 := h 0 (by simp)
    simp only [Nat.add_zero, List.getElem_cons_zero] at h0
    rw [h0, ih (p := p + 1) fun i hi => by
      have := h (i + 1) (by simp only [List.length_cons]; omega)
      rw [show p + 1 + i = p + (i + 1) by omega, this, List.getElem_cons_succ]]
    rfl

theorem list_read {m : Bm} : ∀ {n p : Nat} {bs : Bytes}, m.read p n = some bs →
    bs.length = n ∧ ∀ i, (h : i < bs.length) → m.byte (p + i) = some bs[i] := by
  intro n
  induction n with
  | zero => intro p bs h; cases h; exact ⟨rfl, fun i h => absurd h (Nat.not_lt_zero _)⟩
  | succ n ih =>
    intro p bs h
    simp only [Bm.read, Option.bind_eq_some_iff, Option.map_eq_some_iff] at h
    obtain ⟨b, hb, r, hr, rfl⟩ := h
    obtain ⟨h1, h2⟩ := ih hr
    refine ⟨by simp [h1], fun i hi => ?_⟩
    cases i with
    | zero => simpa using hb
    | succ i =>
      have := h2 i (by simpa using hi)
      rw [show p + (i + 1) = p + 1 + i by omega, this, List.getElem_cons_succ]

/-- A slice of what is read. -/
theorem read_slice {m : Bm} {p n off len : Nat} {bs : Bytes} (h : m.read p n = some bs) (hl : off + len ≤ bs.length) :
    m.read (p + off) len = some ((bs.drop off).take len) := by
  obtain ⟨_, h2⟩ := list_read h
  have hlen : ((bs.drop off).take len).length = len := by simp only [List.length_take, List.length_drop]; omega
  have := read_list (m := m) (bs := (bs.drop off).take len) (p := p + off) fun i hi => by
    rw [hlen] at hi
    rw [show p + off + i = p + (off + i) by omega, h2 (off + i) (by omega)]
    simp
  rwa [hlen] at this

theorem alloc_spec {m : Bm} (hok : m.Ok) (bs : Bytes) :
    (m.alloc bs).2.Ok ∧ (nz [((m.alloc bs).1, bs.length)] ++ m.allocs) = (m.alloc bs).2.allocs ∧
    (m.alloc bs).2.read (m.alloc bs).1 bs.length = some bs ∧ Agree m (m.alloc bs).2 m.allocs := by
  unfold Bm.alloc
  by_cases hb : bs = []
  · subst hb
    simp only [if_true]
    exact ⟨hok, rfl, rfl, fun _ _ _ _ _ => rfl⟩
  · simp only [hb, if_false]
    have hl : 0 < bs.length := List.length_pos_iff.mpr hb
    refine ⟨⟨fun x hx => ?_, ?_⟩, ?_, ?_, fun x hx a h1 h2 => ?_⟩
    · rcases List.mem_cons.mp hx with rfl | hx
      · exact ⟨hl, Nat.le_refl _⟩
      · have := hok.below x hx
        exact ⟨this.1, by show _ ≤ m.next + bs.length; omega⟩
    · exact List.pairwise_cons.mpr ⟨fun x hx => .inr (by have := hok.below x hx; exact this.2), hok.apart⟩
    · have : (bs.length != 0) = true := by simpa using hb
      simp only [nz, List.filter_cons, this, if_true, List.filter_nil, List.cons_append, List.nil_append]
    · refine read_list fun i hi => ?_
      show (if m.next ≤ m.next + i ∧ m.next + i < m.next + bs.length then _ else _) = _
      rw [if_pos ⟨by omega, by omega⟩, Nat.add_sub_cancel_left, List.getElem?_eq_getElem hi]
    · show (if m.next ≤ a ∧ a < m.next + bs.length then _ else _) = _
      have := hok.below x hx
      rw [if_neg (by omega)]

theorem erase_pairwise {m : Bm} (hok : m.Ok) {rest : List (Nat × Nat)} {x : Nat × Nat} (hp : (x :: rest).Perm m.allocs) :
    rest.Perm (m.allocs.erase x) ∧ (∀ y ∈ rest, Apart x y) := by
  refine ⟨List.Perm.symm ((hp.symm.erase x).trans (by rw [List.erase_cons_head])), ?_⟩
  have hsym : ∀ {a b : Nat × Nat}, Apart a b → Apart b a := fun h => h.symm
  have := (hp.pairwise_iff hsym).mpr hok.apart
  exact (List.pairwise_cons.mp this).1

/-- Freeing a block that is allocated. -/
theorem free_spec {m : Bm} (hok : m.Ok) {p n : Nat} {rest : List (Nat × Nat)} (hp : (nz [(p, n)] ++ rest).Perm m.allocs) :
    ∃ m', m.free p n = some m' ∧ m'.Ok ∧ rest.Perm m'.allocs ∧ Agree m m' rest := by
  unfold Bm.free
  by_cases hn : n = 0
  · subst hn
    exact ⟨m, by simp only [if_true], hok, hp, fun _ _ _ _ _ => rfl⟩
  · have hnz : nz [(p, n)] = [(p, n)] := by
      have : (n != 0) = true := by simpa using hn
      simp only [nz, List.filter_cons, this, if_true, List.filter_nil]
    rw [hnz] at hp
    have hm : (p, n) ∈ m.allocs := hp.subset (List.mem_cons_self ..)
    obtain ⟨h1, h2⟩ := erase_pairwise hok hp
    refine ⟨⟨fun a => if p ≤ a ∧ a < p + n then none else m.byte a, m.allocs.erase (p, n), m.next⟩, by rw [if_neg hn, if_pos hm],
      ⟨fun x hx => hok.below x (List.mem_of_mem_erase hx), hok.apart.sublist List.erase_sublist⟩, h1, fun x hx a ha hb => ?_⟩
    show (if p ≤ a ∧ a < p + n then _ else _) = _
    have := h2 x hx
    have h3 : p + n ≤ x.1 ∨ x.1 + x.2 ≤ p := this
    rw [if_neg (by omega)]

/-! ### Cells -/

mutual
/-- The ranges that a cell points to. -/
def Dc.spans (w : Width) : Dc → List (Nat × Nat)
  | .word _ t x => if twide t then [((NN.loadFull w x).2, (NN.loadFull w x).1)] else []
  | .list l => Dc.spanss w l
def Dc.spanss (w : Width) : List Dc → List (Nat × Nat)
  | [] => []
  | d :: l => Dc.spans w d ++ Dc.spanss w l
end

/-- The cells that the constructors make. -/
inductive Dc.Fine (w : Width) : Dc → Prop where
  | word (i : Bool) (t : Tag) (x : Qword) : (QN.loadQn w x).1 < 2 ^ 64 → (twide t = true → (QN.loadQn w x).1 < w.size) →
    (i = false → t = .bool) → (twide t = true ∨ tquad t = true) → Dc.Fine w (.word i t x)
  | list (l : List Dc) : (∀ d ∈ l, Dc.Fine w d) → Dc.Fine w (.list l)

theorem full_qn {w : Width} {x : Qword} (h : (QN.loadQn w x).1 < w.size) : NN.loadFull w x = QN.loadQn w x := by
  show ((QN.loadQn w x).1 % w.size, (QN.loadQn w x).2) = _
  rw [Nat.mod_eq_of_lt h]

/-- Reading a cell depends on its ranges only. -/
theorem Dc.look_agree {w : Width} {m m' : Bm} {d : Dc} (hf : Dc.Fine w d) :
    (∀ x ∈ d.spans w, ∀ a, x.1 ≤ a → a < x.1 + x.2 → m'.byte a = m.byte a) → d.look w m' = d.look w m := by
  induction hf with
  | word i t x h1 h2 h3 h4 =>
    intro h
    simp only [Dc.look, Dc.spans] at h ⊢
    by_cases ht : twide t = true
    · simp only [ht, if_true] at h ⊢
      rw [read_agree (h _ (List.mem_singleton.mpr rfl))]
    · simp only [ht, if_false]
      rfl
  | list l _ ih =>
    intro h
    simp only [Dc.look, Dc.spans] at h ⊢
    suffices ∀ k : List Dc, (∀ d ∈ k, d ∈ l) → (∀ x ∈ Dc.spanss w k, ∀ a, x.1 ≤ a → a < x.1 + x.2 → m'.byte a = m.byte a) →
        Dc.looks w m' k = Dc.looks w m k by rw [this l (fun _ h => h) h]
    intro k
    induction k with
    | nil => intro _ _; rfl
    | cons d k ihk =>
      intro hk hs
      simp only [Dc.looks, Dc.spanss, List.mem_append] at hs ⊢
      rw [ih d (hk d (List.mem_cons_self ..)) fun x hx => hs x (.inl hx),
        ihk (fun e he => hk e (List.mem_cons_of_mem _ he)) fun x hx => hs x (.inr hx)]

/-- Dropping a cell frees exactly its ranges. -/
theorem Dc.drop_spec {w : Width} {d : Dc} (hf : Dc.Fine w d) : ∀ {m : Bm} {rest : List (Nat × Nat)}, m.Ok →
    (nz (d.spans w) ++ rest).Perm m.allocs →
    ∃ m', d.drop w m = some m' ∧ m'.Ok ∧ rest.Perm m'.allocs ∧ Agree m m' rest := by
  induction hf with
  | word i t x h1 h2 h3 h4 =>
    intro m rest hok hp
    simp only [Dc.drop, Dc.spans] at hp ⊢
    by_cases ht : twide t = true
    · simp only [ht, if_true] at hp ⊢
      exact free_spec hok hp
    · simp only [ht, if_false] at hp ⊢
      have h5 : tquad t = true := h4.resolve_left ht
      simp only [h5, if_true]
      exact ⟨m, rfl, hok, hp, fun _ _ _ _ _ => rfl⟩
  | list l _ ih =>
    intro m rest hok hp
    simp only [Dc.drop, Dc.spans] at hp ⊢
    suffices ∀ k : List Dc, (∀ d ∈ k, d ∈ l) → ∀ {m : Bm}, m.Ok → (nz (Dc.spanss w k) ++ rest).Perm m.allocs →
        ∃ m', Dc.drops w m k = some m' ∧ m'.Ok ∧ rest.Perm m'.allocs ∧ Agree m m' rest from this l (fun _ h => h) hok hp
    intro k
    induction k with
    | nil => intro _ m hok hp; exact ⟨m, rfl, hok, hp, fun _ _ _ _ _ => rfl⟩
    | cons d k ihk =>
      intro hk m hok hp
      simp only [Dc.spanss, nz_append, List.append_assoc] at hp
      obtain ⟨m1, e1, ok1, p1, a1⟩ := ih d (hk d (List.mem_cons_self ..)) hok hp
      obtain ⟨m2, e2, ok2, p2, a2⟩ := ihk (fun e he => hk e (List.mem_cons_of_mem _ he)) ok1 p1
      refine ⟨m2, by simp only [Dc.drops, e1, Option.bind_some, e2], ok2, p2, fun x hx a ha hb => ?_⟩
      rw [a2 x hx a ha hb, a1 x (List.mem_append_right _ hx) a ha hb]

/-! ### Objects -/

/-- The ranges that an object points to. -/
def Obj.spans (w : Width) : Obj → List (Nat × Nat)
  | .buf p n => [(p, n)]
  | .lit l => if twide l.tag then [(l.word.b, l.word.a)] else []
  | .cell d => d.spans w
  | .key k => if k.tag = .bin ∨ k.tag = .str then [(k.word.b, k.word.a)] else []
  | .virt d => d.spans w

/-- The object frees them. -/
def Obj.owns : Obj → Bool
  | .buf .. | .cell _ | .key _ => true
  | .lit l => l.owned
  | .virt _ => false

def Obj.own (w : Width) (o : Obj) : List (Nat × Nat) := if o.owns then nz (o.spans w) else []

/-- The object is of the kind, and as the constructors make it. -/
def KindOk (w : Width) : Obj → Kind → Prop
  | .buf _ n, k => k = .buf ∧ n < w.size
  | .lit l, k => k = .lit l.owned ∧ (l.owned = true → twide l.tag = true) ∧ l.word.a < 2 ^ 64 ∧
    (twide l.tag = true → l.word.a < w.size) ∧ (twide l.tag = true ∨ tquad l.tag = true)
  | .cell d, k => k = .cell ∧ d.Fine w
  | .key x, k => k = .key ∧ x.word.a < 2 ^ 64 ∧ (uwide x.tag = true → x.word.a < w.size) ∧ x.tag ≠ .illegal
  | .virt d, k => k = .virt ∧ d.Fine w

theorem Obj.look_agree {w : Width} {m m' : Bm} {o : Obj} {k : Kind} (hk : KindOk w o k)
    (h : ∀ x ∈ o.spans w, ∀ a, x.1 ≤ a → a < x.1 + x.2 → m'.byte a = m.byte a) : o.look w m' = o.look w m := by
  cases o with
  | buf p n =>
    simp only [Obj.look]
    rw [read_agree (h _ (List.mem_singleton.mpr rfl))]
  | lit l =>
    simp only [Obj.look, Lit.look, Lit.bin, Obj.spans] at h ⊢
    by_cases ht : twide l.tag = true
    · simp only [ht, if_true] at h ⊢
      rw [read_agree (h _ (List.mem_singleton.mpr rfl))]
    · simp only [ht, if_false]
      rfl
  | cell d => exact Dc.look_agree hk.2 h
  | key x =>
    simp only [Obj.look, Key.look, Key.block, Obj.spans] at h ⊢
    cases ht : x.tag <;> rw [ht] at h <;> simp only [uwide, if_true, or_false, or_true, false_or] at h ⊢
    · rw [read_agree (h _ (List.mem_singleton.mpr rfl))]
    · rw [read_agree (h (x.word.b, x.word.a) (List.mem_singleton.mpr rfl))]
  | virt d => exact Dc.look_agree hk.2 h

theorem Obj.drop_spec {w : Width} {m : Bm} {o : Obj} {k : Kind} (hk : KindOk w o k) {rest : List (Nat × Nat)} (hok : m.Ok)
    (hp : (o.own w ++ rest).Perm m.allocs) :
    ∃ m', o.drop w m = some m' ∧ m'.Ok ∧ rest.Perm m'.allocs ∧ Agree m m' rest := by
  cases o with
  | buf p n => exact free_spec hok hp
  | lit l =>
    by_cases ho : l.owned = true
    · rw [Obj.own, if_pos (by exact ho), Obj.spans, if_pos (hk.2.1 ho)] at hp
      simp only [Obj.drop, Lit.drop, ho, if_true]
      exact free_spec hok hp
    · rw [Obj.own, if_neg (by exact ho)] at hp
      simp only [Obj.drop, Lit.drop, ho]
      exact ⟨m, rfl, hok, hp, fun _ _ _ _ _ => rfl⟩
  | cell d => exact Dc.drop_spec hk.2 hok hp
  | key x =>
    simp only [Obj.own, Obj.owns, Obj.spans, Obj.drop, Key.drop, if_true] at hp ⊢
    cases ht : x.tag <;> rw [ht] at hp
    · exact ⟨m, rfl, hok, by simpa [nz] using hp, fun _ _ _ _ _ => rfl⟩
    · exact ⟨m, rfl, hok, by simpa [nz] using hp, fun _ _ _ _ _ => rfl⟩
    · exact free_spec hok (by simpa using hp)
    · exact free_spec hok (by simpa using hp)
    · exact absurd ht hk.2.2.2
  | virt d => exact ⟨m, rfl, hok, hp, fun _ _ _ _ _ => rfl⟩

/-! ### The relation -/

abbrev Ent := Nat × (Obj × Pv)

/-- What a variable points to without owning it lies in a range that a variable owns from which it borrows. -/
def Covered (w : Width) (es : List Ent) (o : Obj) (borrows : List Nat) : Prop :=
  o.owns = true ∨ ∀ x ∈ o.spans w, x.2 = 0 ∨ ∃ r ∈ borrows, ∃ e ∈ es, e.1 = r ∧ ∃ y ∈ e.2.1.own w, y.1 ≤ x.1 ∧ x.1 + x.2 ≤ y.1 + y.2

/-- Memory, variables and their values; `rest` are allocations that no variable owns at the moment. -/
structure Rel (w : Width) (m : Bm) (rest : List (Nat × Nat)) (es : List Ent) : Prop where
  nodup : (es.map (·.1)).Nodup
  own : (rest ++ es.flatMap fun x => x.2.1.own w).Perm m.allocs
  ok : m.Ok
  kind : ∀ x ∈ es, KindOk w x.2.1 x.2.2.kind
  look : ∀ x ∈ es, x.2.1.look w m = some x.2.2.val
  cover : ∀ x ∈ es, Covered w es x.2.1 x.2.2.borrows

theorem Rel.covered_agree {w : Width} {m m' : Bm} {es : List Ent} {o : Obj} {b : List Nat} (hc : Covered w es o b)
    (ha : Agree m m' (o.own w ++ es.flatMap fun x => x.2.1.own w)) :
    ∀ x ∈ o.spans w, ∀ a, x.1 ≤ a → a < x.1 + x.2 → m'.byte a = m.byte a := by
  intro x hx a h1 h2
  rcases hc with ho | hc
  · exact ha x (List.mem_append_left _ (by rw [Obj.own, if_pos ho]; exact mem_nz.mpr ⟨hx, by omega⟩)) a h1 h2
  · rcases hc x hx with h0 | ⟨r, _, e, he, _, y, hy, h3, h4⟩
    · omega
    · exact ha y (List.mem_append_right _ (List.mem_flatMap.mpr ⟨e, he, hy⟩)) a (by omega) (by omega)

/-- The memory changes where no variable points to. -/
theorem Rel.mem {w : Width} {m m' : Bm} {rest rest' : List (Nat × Nat)} {es : List Ent} (h : Rel w m rest es) (hok : m'.Ok)
    (hp : (rest' ++ es.flatMap fun x => x.2.1.own w).Perm m'.allocs) (ha : Agree m m' (es.flatMap fun x => x.2.1.own w)) :
    Rel w m' rest' es := by
  refine ⟨h.nodup, hp, hok, h.kind, fun x hx => ?_, h.cover⟩
  rw [Obj.look_agree (h.kind x hx) (Rel.covered_agree (h.cover x hx) fun y hy => ?_), h.look x hx]
  rcases List.mem_append.mp hy with hy | hy
  · exact ha y (List.mem_flatMap.mpr ⟨x, hx, hy⟩)
  · exact ha y hy

theorem Rel.alloc {w : Width} {m : Bm} {rest : List (Nat × Nat)} {es : List Ent} (h : Rel w m rest es) (bs : Bytes) :
    Rel w (m.alloc bs).2 (nz [((m.alloc bs).1, bs.length)] ++ rest) es ∧ (m.alloc bs).2.read (m.alloc bs).1 bs.length = some bs ∧
    Agree m (m.alloc bs).2 m.allocs := by
  obtain ⟨h1, h2, h3, h4⟩ := alloc_spec h.ok bs
  refine ⟨h.mem h1 ?_ (h4.sub fun x hx => h.own.subset (List.mem_append_right _ hx)), h3, h4⟩
  rw [List.append_assoc, ← h2]
  exact List.Perm.append_left _ h.own

/-- A variable is taken out, what it owns is left. -/
theorem Rel.take {w : Width} {m : Bm} {rest : List (Nat × Nat)} {es : List Ent} (h : Rel w m rest es) {k : Nat} {o : Obj} {v : Pv}
    (hg : get k es = some (o, v)) (hf : ∀ x ∈ es, k ∉ x.2.2.borrows) : Rel w m (o.own w ++ rest) (del k es) := by
  have hp := del_perm h.nodup hg
  refine ⟨h.nodup.sublist ((List.filter_sublist).map _), ?_, h.ok, fun x hx => h.kind x (mem_del.mp hx).1,
    fun x hx => h.look x (mem_del.mp hx).1, fun x hx => ?_⟩
  · refine List.Perm.trans ?_ h.own
    have := hp.flatMap_right (f := fun x => x.2.1.own w)
    rw [List.flatMap_cons] at this
    refine List.Perm.trans ?_ (this.symm.append_left rest)
    rw [List.append_assoc]
    exact List.perm_append_comm_assoc ..
  · have hx' := (mem_del.mp hx).1
    rcases h.cover x hx' with hc | hc
    · exact .inl hc
    · refine .inr fun y hy => ?_
      rcases hc y hy with h0 | ⟨r, hr, e, he, her, z, hz, h1, h2⟩
      · exact .inl h0
      · exact .inr ⟨r, hr, e, mem_del.mpr ⟨he, fun heq => hf x hx' (heq ▸ her ▸ hr)⟩, her, z, hz, h1, h2⟩

/-- A variable is put in, it owns what was left. -/
theorem Rel.put {w : Width} {m : Bm} {rest : List (Nat × Nat)} {es : List Ent} {o : Obj} {v : Pv} (h : Rel w m (o.own w ++ rest) es)
    {k : Nat} (hg : get k es = none) (hk : KindOk w o v.kind) (hl : o.look w m = some v.val) (hc : Covered w es o v.borrows) :
    Rel w m rest ((k, (o, v)) :: es) := by
  have hmono : ∀ {o' b}, Covered w es o' b → Covered w ((k, (o, v)) :: es) o' b := by
    intro o' b hc
    rcases hc with hc | hc
    · exact .inl hc
    · refine .inr fun y hy => (hc y hy).imp id ?_
      rintro ⟨r, hr, e, he, h1⟩
      exact ⟨r, hr, e, List.mem_cons_of_mem _ he, h1⟩
  refine ⟨?_, ?_, h.ok, ?_, ?_, ?_⟩
  · rw [List.map_cons, List.nodup_cons]
    refine ⟨fun hm => ?_, h.nodup⟩
    obtain ⟨x, hx, he⟩ := List.mem_map.mp hm
    exact get_none hg x hx he
  · refine List.Perm.trans ?_ h.own
    rw [List.flatMap_cons, List.append_assoc]
    exact List.perm_append_comm_assoc ..
  · intro x hx
    rcases List.mem_cons.mp hx with rfl | hx
    · exact hk
    · exact h.kind x hx
  · intro x hx
    rcases List.mem_cons.mp hx with rfl | hx
    · exact hl
    · exact h.look x hx
  · intro x hx
    rcases List.mem_cons.mp hx with rfl | hx
    · exact hmono hc
    · exact hmono (h.cover x hx)

/-- An object that is in no variable is dropped. -/
theorem Rel.drop {w : Width} {m : Bm} {rest : List (Nat × Nat)} {es : List Ent} {o : Obj} {k : Kind} (h : Rel w m (o.own w ++ rest) es)
    (hk : KindOk w o k) : ∃ m', o.drop w m = some m' ∧ Rel w m' rest es ∧ Agree m m' (rest ++ es.flatMap fun x => x.2.1.own w) := by
  obtain ⟨m', h1, h2, h3, h4⟩ := Obj.drop_spec hk h.ok (by rw [← List.append_assoc]; exact h.own)
  exact ⟨m', h1, h.mem h2 h3 (h4.sub fun x hx => List.mem_append_right _ hx), h4⟩

end Verif.Mem
