import Verif.Mem.ValueLemmas
/-!
C70: every step of a program with memory does what the same step does on values.
-/
namespace Verif.Mem

def conc (es : List Ent) : Env := es.map fun x => (x.1, x.2.1)
def pure (es : List Ent) : Penv := es.map fun x => (x.1, x.2.2)

theorem get_pure {es : List Ent} {k : Nat} {v : Pv} (h : get k (pure es) = some v) :
    ∃ o, get k es = some (o, v) ∧ get k (conc es) = some o := by
  rw [pure, get_map (f := fun y : Obj × Pv => y.2)] at h
  rw [conc, get_map (f := fun y : Obj × Pv => y.1)]
  cases hg : get k es with
  | none => rw [hg] at h; cases h
  | some x =>
    rw [hg] at h
    obtain ⟨o, v'⟩ := x
    cases h
    exact ⟨o, rfl, rfl⟩

theorem fresh {es : List Ent} {k : Nat} (h : get k (pure es) = none) : get k es = none := by
  rw [pure, get_map (f := fun y : Obj × Pv => y.2)] at h
  exact Option.map_eq_none_iff.mp h

theorem free_pure {es : List Ent} {k : Nat} (h : Free k (pure es)) : ∀ x ∈ es, k ∉ x.2.2.borrows := by
  intro x hx
  exact h (x.1, x.2.2) (List.mem_map.mpr ⟨x, hx, rfl⟩)

theorem del_conc (k : Nat) (es : List Ent) : del k (conc es) = conc (del k es) := del_map (fun y : Obj × Pv => y.1) k es
theorem del_pure (k : Nat) (es : List Ent) : del k (pure es) = pure (del k es) := del_map (fun y : Obj × Pv => y.2) k es

/-- The step does what the step on values does. -/
def Does (w : Width) (m : Bm) (es : List Ent) (op : Op) (e' : Penv) : Prop :=
  ∃ m' es', vstep w m (conc es) op = .ok (m', conc es') ∧ e' = pure es' ∧ Rel w m' [] es'

section
variable {w : Width} {m : Bm} {es : List Ent}

theorem wide_lit {o : Bool} {t : Tag} {p n : Nat} (ht : twide t = true) (hn : n < w.size) (ho : o = true → t = .string) :
    KindOk w (.lit (.wide t o p n)) (.lit o) := by
  refine ⟨rfl, fun _ => ht, Nat.lt_of_lt_of_le hn (size_le w), fun _ => hn, .inl ht⟩

theorem quad_not_wide {t : Tag} (h : tquad t = true) : twide t = false := by cases t <;> first | rfl | cases h
theorem wide_not_quad {t : Tag} (h : twide t = true) : tquad t = false := by cases t <;> first | rfl | cases h

theorem quadVal_fits {t : Tag} {q : Nat} (h : QuadFits t q) : quadVal t q = .quad t q := by
  unfold quadVal
  by_cases ht : t = .bool
  · have := h.2.1 ht
    rw [if_pos ht]
    by_cases h1 : q = 1
    · rw [if_pos h1, h1]
    · rw [if_neg h1, show q = 0 by omega]
  · rw [if_neg ht]

theorem wide_uniq {t : Tag} (h : twide t = true) : uwide t.uniq = true := by cases t <;> first | rfl | cases h

theorem fine_wide {t : Tag} (ht : twide t = true) {p n : Nat} (hn : n < w.size) :
    Dc.Fine w (.word true t (QN.storeQn w n p)) ∧ (Dc.word true t (QN.storeQn w n p)).spans w = [(p, n)] ∧
    ∀ m : Bm, (Dc.word true t (QN.storeQn w n p)).look w m = (m.read p n).map (.bytes t) := by
  have h64 : n < 2 ^ 64 := Nat.lt_of_lt_of_le hn (size_le w)
  have hq := good_qword.qn w n p h64
  have hf : NN.loadFull w (QN.storeQn w n p : Qword) = (n, p) := by rw [full_qn (by rw [hq]; exact hn), hq]
  refine ⟨.word _ _ _ (by rw [hq]; exact h64) (fun _ => by rw [hq]; exact hn) (fun h => by cases h) (.inl ht), ?_, fun m => ?_⟩
  · simp only [Dc.spans, ht, if_true, hf]
  · simp only [Dc.look, ht, if_true, hf, Bool.not_true]
    rfl

theorem fine_quad {t : Tag} (ht : tquad t = true) {p q : Nat} (hq : q < 2 ^ 64) :
    Dc.Fine w (.word true t (QN.storeQn w q p)) ∧ (Dc.word true t (QN.storeQn w q p)).spans w = [] ∧
    ∀ m : Bm, (Dc.word true t (QN.storeQn w q p)).look w m = some (quadVal t q) := by
  have hn := quad_not_wide ht
  have hl := good_qword.qn w q p hq
  refine ⟨.word _ _ _ (by rw [hl]; exact hq) (fun h => by rw [hn] at h; cases h) (fun h => by cases h) (.inr ht), ?_, fun m => ?_⟩
  · simp only [Dc.spans, hn]
    rfl
  · have : NN.loadQw w (QN.storeQn w q p : Qword) = q := by
      show (QN.loadQn w (QN.storeQn w q p : Qword)).1 = q
      rw [hl]
    simp only [Dc.look, hn, ht, if_true, this, Bool.not_true]
    rfl

/-- A variable that owns nothing and points nowhere is added. -/
theorem add_plain (hr : Rel w m [] es) {h : Nat} {o : Obj} {v : Pv} (hg : get h (pure es) = none) (hs : o.spans w = [])
    (hk : KindOk w o v.kind) (hl : o.look w m = some v.val) : Rel w m [] ((h, (o, v)) :: es) := by
  have ho : o.own w = [] := by rw [Obj.own, hs]; cases o.owns <;> rfl
  exact Rel.put (by rw [ho]; exact hr) (fresh hg) hk hl (.inr fun x hx => by rw [hs] at hx; cases hx)

/-- A variable that borrows is added. -/
theorem add_borrow (hr : Rel w m [] es) {h : Nat} {o : Obj} {v : Pv} (hg : get h (pure es) = none) (ho : o.owns = false)
    (hk : KindOk w o v.kind) (hl : o.look w m = some v.val) (hc : Covered w es o v.borrows) : Rel w m [] ((h, (o, v)) :: es) := by
  have hown : o.own w = [] := by rw [Obj.own, ho]; rfl
  exact Rel.put (by rw [hown]; exact hr) (fresh hg) hk hl hc

/-- A value moves from one variable to another. -/
theorem move (hr : Rel w m [] es) {h src : Nat} {o o' : Obj} {p p' : Pv} (hs : get src es = some (o, p)) (hf : Free src (pure es))
    (hg : get h (pure es) = none) (hown : o'.own w = o.own w) (hk : KindOk w o' p'.kind) (hl : o'.look w m = some p'.val)
    (ho : o'.owns = true) : Rel w m [] ((h, (o', p')) :: del src es) := by
  have h1 := hr.take hs (free_pure hf)
  rw [← hown] at h1
  exact h1.put (get_del_none (fresh hg)) hk hl (.inl ho)

theorem step_newBuf (hr : Rel w m [] es) {h : Nat} {bs : Bytes} {e' : Penv} (hp : pstep w (pure es) (.newBuf h bs) = some e') :
    Does w m es (.newBuf h bs) e' := by
  simp only [pstep] at hp
  split at hp
  · rename_i hc
    cases hp
    obtain ⟨h1, h2, _⟩ := hr.alloc bs
    refine ⟨(m.alloc bs).2, (h, (.buf (m.alloc bs).1 bs.length, ⟨.buf, .bytes .binary bs, []⟩)) :: es, rfl, rfl, ?_⟩
    exact Rel.put (o := .buf (m.alloc bs).1 bs.length) h1 (fresh hc.1) ⟨rfl, hc.2⟩ (by simp only [Obj.look, h2]; rfl) (.inl rfl)
  · cases hp

theorem step_litQuad (hr : Rel w m [] es) {h : Nat} {t : Tag} {q : Nat} {e' : Penv}
    (hp : pstep w (pure es) (.litQuad h t q) = some e') : Does w m es (.litQuad h t q) e' := by
  simp only [pstep] at hp
  split at hp
  · rename_i hc
    cases hp
    have hn := quad_not_wide hc.2.1
    refine ⟨m, (h, (.lit (.quad t q), ⟨.lit false, .quad t q, []⟩)) :: es, rfl, rfl, add_plain hr hc.1 ?_ ?_ ?_⟩
    · simp only [Obj.spans, Lit.quad, hn]; rfl
    · exact ⟨rfl, (fun h => by cases h), hc.2.2.2, (fun h => by rw [show twide (Lit.quad t q).tag = false from hn] at h; cases h), .inr hc.2.1⟩
    · simp only [Obj.look, Lit.look, Lit.quad, hn]
      exact congrArg some (quadVal_fits hc.2)
  · cases hp

theorem step_litRef (hr : Rel w m [] es) {h src : Nat} {t : Tag} {off len : Nat} {e' : Penv}
    (hp : pstep w (pure es) (.litRef h src t off len) = some e') : Does w m es (.litRef h src t off len) e' := by
  simp only [pstep] at hp
  split at hp
  · rename_i t0 bs bor hg
    split at hp
    · rename_i hc
      cases hp
      obtain ⟨o, h1, h2⟩ := get_pure hg
      have hm := get_mem h1
      have hk := hr.kind _ hm
      have hl := hr.look _ hm
      cases o <;> try (cases hk.1)
      rename_i p n
      simp only [Obj.look, Option.map_eq_some_iff] at hl
      obtain ⟨bs', hb, he⟩ := hl
      cases he
      have hlen := (list_read hb).1
      refine ⟨m, (h, (.lit (.wide t false (p + off) len), ⟨.lit false, .bytes t ((bs.drop off).take len), src :: bor⟩)) :: es,
        by simp only [vstep, h2]; rfl, rfl, add_borrow hr hc.1 rfl ?_ ?_ ?_⟩
      · exact wide_lit hc.2.1 (Nat.lt_of_le_of_lt (by omega) hk.2) (fun h => by cases h)
      · simp only [Obj.look, Lit.look, Lit.wide, hc.2.1, if_true, Lit.bin, read_slice hb hc.2.2]
        rfl
      · refine .inr fun x hx => ?_
        simp only [Obj.spans, Lit.wide, hc.2.1, if_true, List.mem_singleton] at hx
        subst hx
        by_cases h0 : len = 0
        · exact .inl h0
        · refine .inr ⟨src, List.mem_cons_self .., _, hm, rfl, (p, n), ?_, by show p ≤ p + off; omega, by show p + off + len ≤ p + n; omega⟩
          exact mem_nz.mpr ⟨List.mem_singleton.mpr rfl, by show n ≠ 0; omega⟩
    · cases hp
  · cases hp

theorem step_litOwn (hr : Rel w m [] es) {h src : Nat} {e' : Penv} (hp : pstep w (pure es) (.litOwn h src) = some e') :
    Does w m es (.litOwn h src) e' := by
  simp only [pstep] at hp
  split at hp
  · rename_i t0 bs bor hg
    split at hp
    · rename_i hc
      cases hp
      obtain ⟨o, h1, h2⟩ := get_pure hg
      have hm := get_mem h1
      have hk := hr.kind _ hm
      have hl := hr.look _ hm
      cases o <;> try (cases hk.1)
      rename_i p n
      simp only [Obj.look, Option.map_eq_some_iff] at hl
      obtain ⟨bs', hb, he⟩ := hl
      cases he
      refine ⟨m, (h, (.lit (.wide .string true p n), ⟨.lit true, .bytes .string bs, bor⟩)) :: del src es,
        by simp only [vstep, h2, del_conc]; rfl, by rw [del_pure]; rfl, ?_⟩
      refine move hr h1 hc.2 hc.1 rfl (wide_lit rfl hk.2 fun _ => rfl) ?_ rfl
      simp only [Obj.look, Lit.look, Lit.wide, show twide .string = true from rfl, if_true, Lit.bin, hb]
      rfl
    · cases hp
  · cases hp

theorem step_cellBuf (hr : Rel w m [] es) {h src : Nat} {t : Tag} {e' : Penv} (hp : pstep w (pure es) (.cellBuf h src t) = some e') :
    Does w m es (.cellBuf h src t) e' := by
  simp only [pstep] at hp
  split at hp
  · rename_i t0 bs bor hg
    split at hp
    · rename_i hc
      cases hp
      obtain ⟨o, h1, h2⟩ := get_pure hg
      have hm := get_mem h1
      have hk := hr.kind _ hm
      have hl := hr.look _ hm
      cases o <;> try (cases hk.1)
      rename_i p n
      simp only [Obj.look, Option.map_eq_some_iff] at hl
      obtain ⟨bs', hb, he⟩ := hl
      cases he
      obtain ⟨f1, f2, f3⟩ := fine_wide (w := w) hc.2.2 (p := p) hk.2
      refine ⟨m, (h, (.cell (.wide w t p n), ⟨.cell, .bytes t bs, bor⟩)) :: del src es,
        by simp only [vstep, h2, del_conc]; rfl, by rw [del_pure]; rfl, ?_⟩
      refine move hr h1 hc.2.1 hc.1 ?_ ⟨rfl, f1⟩ ?_ rfl
      · show nz _ = nz _
        exact congrArg nz f2
      · exact (f3 m).trans (by rw [hb]; rfl)
    · cases hp
  · cases hp

theorem step_litClone (hr : Rel w m [] es) {h src : Nat} {e' : Penv} (hp : pstep w (pure es) (.litClone h src) = some e') :
    Does w m es (.litClone h src) e' := by
  simp only [pstep] at hp
  split at hp
  · rename_i ow v bor hg
    split at hp
    · rename_i hc
      cases hp
      obtain ⟨o, h1, h2⟩ := get_pure hg
      have hm := get_mem h1
      have hk := hr.kind _ hm
      have hl := hr.look _ hm
      cases o <;> try (cases hk.1)
      rename_i l
      simp only [Obj.look] at hl
      cases how : l.owned with
      | false =>
        refine ⟨m, (h, (.lit l, ⟨.lit l.owned, v, bor⟩)) :: es, ?_, by rw [how]; rfl, add_borrow hr hc how hk hl (hr.cover _ hm)⟩
        simp only [vstep, h2, Lit.clone, how]
        rfl
      | true =>
        have ht := hk.2.1 how
        simp only [Lit.look, ht, if_true, Option.map_eq_some_iff] at hl
        obtain ⟨bs, hb, rfl⟩ := hl
        have hlen := (list_read hb).1
        obtain ⟨r1, r2, _⟩ := hr.alloc bs
        refine ⟨(m.alloc bs).2, (h, (.lit ⟨l.tag, true, ⟨l.word.a, (m.alloc bs).1⟩⟩, ⟨.lit l.owned, .bytes l.tag bs, bor⟩)) :: es, ?_, by rw [how]; rfl, ?_⟩
        · simp only [vstep, h2, Lit.clone, how, if_true, hb, Option.map_some]
          rfl
        · refine Rel.put ?_ (fresh hc) ⟨by rw [how], fun _ => ht, hk.2.2.1, hk.2.2.2.1, .inl ht⟩ ?_ (.inl rfl)
          · rw [hlen] at r1
            have : (Obj.lit ⟨l.tag, true, ⟨l.word.a, (m.alloc bs).1⟩⟩).own w = nz [((m.alloc bs).1, l.word.a)] := by
              rw [Obj.own, if_pos (by rfl)]
              simp only [Obj.spans, ht, if_true]
            rw [this]
            exact r1
          · rw [hlen] at r2
            simp only [Obj.look, Lit.look, ht, if_true, Lit.bin, r2]
            rfl
    · cases hp
  · cases hp

theorem step_litIr (hr : Rel w m [] es) {h src : Nat} {e' : Penv} (hp : pstep w (pure es) (.litIr h src) = some e') :
    Does w m es (.litIr h src) e' := by
  simp only [pstep] at hp
  split at hp
  · rename_i ow v bor hg
    split at hp
    · rename_i hc
      cases hp
      obtain ⟨o, h1, h2⟩ := get_pure hg
      have hm := get_mem h1
      have hk := hr.kind _ hm
      have hl := hr.look _ hm
      cases o <;> try (cases hk.1)
      rename_i l
      refine ⟨m, (h, (.lit l.asIr, ⟨.lit false, v, src :: bor⟩)) :: es, by simp only [vstep, h2]; rfl, rfl,
        add_borrow hr hc rfl ⟨rfl, fun h => by simp [Lit.asIr] at h, hk.2.2.1, hk.2.2.2.1, hk.2.2.2.2⟩ hl ?_⟩
      refine .inr fun x hx => ?_
      rcases hr.cover _ hm with ho | hcov
      · by_cases h0 : x.2 = 0
        · exact .inl h0
        · refine .inr ⟨src, List.mem_cons_self .., _, hm, rfl, x, ?_, Nat.le_refl _, Nat.le_refl _⟩
          rw [Obj.own, if_pos ho]
          exact mem_nz.mpr ⟨hx, h0⟩
      · rcases hcov x hx with h0 | ⟨r, hr', e, he⟩
        · exact .inl h0
        · exact .inr ⟨r, List.mem_cons_of_mem _ hr', e, he⟩
    · cases hp
  · cases hp

theorem step_cellNull (hr : Rel w m [] es) {h : Nat} {e' : Penv} (hp : pstep w (pure es) (.cellNull h) = some e') :
    Does w m es (.cellNull h) e' := by
  simp only [pstep] at hp
  split at hp
  · rename_i hc
    cases hp
    refine ⟨m, (h, (.cell (.null w), ⟨.cell, .null, []⟩)) :: es, rfl, rfl, add_plain hr hc rfl ⟨rfl, ?_⟩ rfl⟩
    refine .word _ _ _ ?_ (fun h => by cases h) (fun _ => rfl) (.inr rfl)
    exact (good_qword.over w 0 (by decide)).symm ▸ (by decide)
  · cases hp

theorem quad_eq {t : Tag} {q : Nat} : Dc.quad w t q = .word true t (QN.storeQn w q ZERO_BLOCK) := rfl

theorem step_cellQuad (hr : Rel w m [] es) {h : Nat} {t : Tag} {q : Nat} {e' : Penv}
    (hp : pstep w (pure es) (.cellQuad h t q) = some e') : Does w m es (.cellQuad h t q) e' := by
  simp only [pstep] at hp
  split at hp
  · rename_i hc
    cases hp
    obtain ⟨f1, f2, f3⟩ := fine_quad (w := w) hc.2.1 (p := ZERO_BLOCK) hc.2.2.2
    exact ⟨m, (h, (.cell (.quad w t q), ⟨.cell, .quad t q, []⟩)) :: es, rfl, rfl,
      add_plain hr hc.1 f2 ⟨rfl, f1⟩ ((f3 m).trans (congrArg some (quadVal_fits hc.2)))⟩
  · cases hp

theorem step_cellList (hr : Rel w m [] es) {h : Nat} {e' : Penv} (hp : pstep w (pure es) (.cellList h) = some e') :
    Does w m es (.cellList h) e' := by
  simp only [pstep] at hp
  split at hp
  · rename_i hc
    cases hp
    exact ⟨m, (h, (.cell (.list []), ⟨.cell, .list [], []⟩)) :: es, rfl, rfl,
      add_plain hr hc rfl ⟨rfl, .list _ fun d hd => by cases hd⟩ rfl⟩
  · cases hp

theorem step_cellLit (hr : Rel w m [] es) {h src : Nat} {e' : Penv} (hp : pstep w (pure es) (.cellLit h src) = some e') :
    Does w m es (.cellLit h src) e' := by
  simp only [pstep] at hp
  split at hp
  · rename_i ow v bor hg
    split at hp
    · rename_i hc
      cases hp
      obtain ⟨o, h1, h2⟩ := get_pure hg
      have hm := get_mem h1
      have hk := hr.kind _ hm
      have hl := hr.look _ hm
      cases o <;> try (cases hk.1)
      rename_i l
      simp only [Obj.look] at hl
      have ht := hr.take h1 (free_pure hc.2)
      rcases hk.2.2.2.2 with hw | hq
      · simp only [Lit.look, hw, if_true, Option.map_eq_some_iff] at hl
        obtain ⟨bs, hb, rfl⟩ := hl
        have hlen := (list_read hb).1
        have hn : bs.length < w.size := by rw [hlen]; exact hk.2.2.2.1 hw
        obtain ⟨r1, r2, _⟩ := ht.alloc bs
        obtain ⟨f1, f2, f3⟩ := fine_wide (w := w) hw (p := (m.alloc bs).1) hn
        have r1' : Rel w (m.alloc bs).2 ((Obj.lit l).own w ++ (nz [((m.alloc bs).1, bs.length)] ++ [])) (del src es) :=
          r1.mem r1.ok ((List.Perm.append_right _ (List.perm_append_comm_assoc ..)).trans r1.own) fun _ _ _ _ _ => rfl
        obtain ⟨m', d1, d2, d3⟩ := r1'.drop hk
        simp only [Obj.drop] at d1
        refine ⟨m', (h, (.cell (.word true l.tag (QN.storeQn w bs.length (m.alloc bs).1)), ⟨.cell, .bytes l.tag bs, []⟩)) :: del src es,
          ?_, by rw [del_pure]; rfl, ?_⟩
        · simp only [vstep, h2, Dc.ofLit, wide_not_quad hw, hb, Option.bind_some, d1, Option.map_some, del_conc]
          rfl
        · refine Rel.put ?_ (get_del_none (fresh hc.1)) ⟨rfl, f1⟩ ?_ (.inl rfl)
          · have : (Obj.cell (.word true l.tag (QN.storeQn w bs.length (m.alloc bs).1))).own w = nz [((m.alloc bs).1, bs.length)] :=
              congrArg nz f2
            rw [this]
            exact d2
          · refine (f3 m').trans ?_
            rw [d3.read (p := (m.alloc bs).1) (n := bs.length) ?_, r2]
            · rfl
            · by_cases h0 : bs.length = 0
              · exact .inl h0
              · refine .inr ⟨((m.alloc bs).1, bs.length), ?_, Nat.le_refl _, Nat.le_refl _⟩
                exact List.mem_append_left _ (List.mem_append_left _ (mem_nz.mpr ⟨List.mem_singleton.mpr rfl, h0⟩))
      · have hnw := quad_not_wide hq
        have how : l.owned = false := by
          cases ho : l.owned with
          | false => rfl
          | true => have := hk.2.1 ho; rw [hnw] at this; cases this
        have hown : (Obj.lit l).own w = [] := by rw [Obj.own, if_neg (by show ¬ l.owned = true; rw [how]; decide)]
        rw [hown] at ht
        obtain ⟨f1, f2, f3⟩ := fine_quad (w := w) hq (p := l.word.b) hk.2.2.1
        refine ⟨m, (h, (.cell (.word true l.tag (promote w l.word)), ⟨.cell, v, []⟩)) :: del src es, ?_, by rw [del_pure]; rfl, ?_⟩
        · simp only [vstep, h2, Dc.ofLit, hq, if_true, Lit.drop, how, del_conc]
          rfl
        · refine Rel.put ?_ (get_del_none (fresh hc.1)) ⟨rfl, f1⟩ ?_ (.inl rfl)
          · have : (Obj.cell (.word true l.tag (promote w l.word))).own w = [] := congrArg nz f2
            rw [this]
            exact ht
          · simp only [Lit.look, hnw] at hl
            exact (f3 m).trans hl
    · cases hp
  · cases hp

theorem looks_append {l : List Dc} {d : Dc} {vs : List Val} {v : Val} (h1 : Dc.looks w m l = some vs) (h2 : d.look w m = some v) :
    Dc.looks w m (l ++ [d]) = some (vs ++ [v]) := by
  induction l generalizing vs with
  | nil => cases h1; simp only [List.nil_append, Dc.looks, h2, Option.bind_some, Option.map_some]
  | cons x l ih =>
    simp only [Dc.looks, Option.bind_eq_some_iff, Option.map_eq_some_iff] at h1
    obtain ⟨y, hy, ys, hys, rfl⟩ := h1
    simp only [List.cons_append, Dc.looks, hy, Option.bind_some, ih hys, Option.map_some]

theorem spanss_append {l : List Dc} {d : Dc} : Dc.spanss w (l ++ [d]) = Dc.spanss w l ++ d.spans w := by
  induction l with
  | nil => simp only [List.nil_append, Dc.spanss, List.append_nil]
  | cons x l ih => simp only [List.cons_append, Dc.spanss, ih, List.append_assoc]

theorem look_list {d : Dc} {vs : List Val} (h : d.look w m = some (.list vs)) : ∃ l, d = .list l ∧ Dc.looks w m l = some vs := by
  cases d with
  | word i t x =>
    simp only [Dc.look] at h
    split at h
    · cases h
    · split at h
      · simp only [Option.map_eq_some_iff] at h
        obtain ⟨_, _, h⟩ := h
        cases h
      · split at h
        · cases h
        · cases h
  | list l =>
    simp only [Dc.look, Option.map_eq_some_iff] at h
    obtain ⟨_, h, e⟩ := h
    cases e
    exact ⟨l, rfl, h⟩

theorem step_push (hr : Rel w m [] es) {h src : Nat} {e' : Penv} (hp : pstep w (pure es) (.push h src) = some e') :
    Does w m es (.push h src) e' := by
  simp only [pstep] at hp
  split at hp
  · rename_i vs b1 v b2 hg hgs
    split at hp
    · rename_i hc
      cases hp
      obtain ⟨o, h1, h2⟩ := get_pure hg
      obtain ⟨o', h1', h2'⟩ := get_pure hgs
      have hk := hr.kind _ (get_mem h1)
      have hl := hr.look _ (get_mem h1)
      have hk' := hr.kind _ (get_mem h1')
      have hl' := hr.look _ (get_mem h1')
      cases o <;> try (cases hk.1)
      cases o' <;> try (cases hk'.1)
      rename_i d d'
      obtain ⟨l, rfl, hls⟩ := look_list hl
      have t1 := hr.take h1' (free_pure hc.2.1)
      have g1 : get h (del src es) = some (.cell (.list l), ⟨.cell, .list vs, b1⟩) := by rw [get_del_ne hc.1]; exact h1
      have t2 := t1.take g1 fun x hx => free_pure hc.2.2 x (mem_del.mp hx).1
      refine ⟨m, (h, (.cell (.list (l ++ [d'])), ⟨.cell, .list (vs ++ [v]), []⟩)) :: del h (del src es), ?_,
        by rw [del_pure, del_pure]; rfl, ?_⟩
      · simp only [vstep, h2, h2', del_conc]
        rfl
      · refine Rel.put ?_ get_del_self ⟨rfl, .list _ fun x hx => ?_⟩ ?_ (.inl rfl)
        · have : (Obj.cell (.list (l ++ [d']))).own w = (Obj.cell (.list l)).own w ++ (Obj.cell d').own w := by
            show nz _ = nz _ ++ nz _
            rw [← nz_append]
            exact congrArg nz spanss_append
          rw [this, List.append_assoc]
          exact t2
        · rcases List.mem_append.mp hx with hx | hx
          · cases hk.2 with
            | list _ h => exact h x hx
          · cases List.mem_singleton.mp hx
            exact hk'.2
        · simp only [Obj.look, Dc.look, looks_append hls hl', Option.map_some]
    · cases hp
  · cases hp

theorem step_pop (hr : Rel w m [] es) {h src : Nat} {e' : Penv} (hp : pstep w (pure es) (.pop h src) = some e') :
    Does w m es (.pop h src) e' := by
  simp only [pstep] at hp
  split at hp
  · rename_i v vs b1 hg
    split at hp
    · rename_i hc
      cases hp
      obtain ⟨o, h1, h2⟩ := get_pure hg
      have hk := hr.kind _ (get_mem h1)
      have hl := hr.look _ (get_mem h1)
      cases o <;> try (cases hk.1)
      rename_i d
      obtain ⟨l, rfl, hls⟩ := look_list hl
      cases l with
      | nil => cases hls
      | cons d l =>
        simp only [Dc.looks, Option.bind_eq_some_iff, Option.map_eq_some_iff] at hls
        obtain ⟨v', hv, vs', hvs, e⟩ := hls
        cases e
        have hfd : d.Fine w ∧ Dc.Fine w (.list l) := by
          cases hk.2 with
          | list _ h => exact ⟨h d (List.mem_cons_self ..), .list _ fun x hx => h x (List.mem_cons_of_mem _ hx)⟩
        have t1 := hr.take h1 (free_pure hc.2)
        have ho : (Obj.cell (.list (d :: l))).own w = (Obj.cell d).own w ++ (Obj.cell (.list l)).own w := by
          show nz _ = nz _ ++ nz _
          rw [← nz_append]
          rfl
        rw [ho, List.append_assoc] at t1
        have t1' : Rel w m ((Obj.cell (.list l)).own w ++ ((Obj.cell d).own w ++ [])) (del src es) :=
          t1.mem t1.ok ((List.Perm.append_right _ (List.perm_append_comm_assoc ..)).trans t1.own) fun _ _ _ _ _ => rfl
        have t2 := t1'.put (k := src) (v := ⟨.cell, .list vs, []⟩) get_del_self ⟨rfl, hfd.2⟩
          (by simp only [Obj.look, Dc.look, hvs, Option.map_some]) (.inl rfl)
        refine ⟨m, (h, (.cell d, ⟨.cell, v, []⟩)) :: (src, (.cell (.list l), ⟨.cell, .list vs, []⟩)) :: del src es, ?_,
          by rw [del_pure]; rfl, t2.put ?_ ⟨rfl, hfd.1⟩ hv (.inl rfl)⟩
        · simp only [vstep, h2, del_conc]
          rfl
        · have hne : src ≠ h := fun he => by rw [he] at hg; rw [hg] at hc; cases hc.1
          show Option.map _ (List.find? _ _) = none
          rw [List.find?_cons_of_neg (by simpa using hne)]
          exact get_del_none (fresh hc.1)
    · cases hp
  · cases hp

theorem look_bytes {d : Dc} (hf : d.Fine w) {t : Tag} {bs : Bytes} (h : d.look w m = some (.bytes t bs)) :
    ∃ x, d = .word true t x ∧ twide t = true ∧ (QN.loadQn w x).1 < w.size ∧ m.read (QN.loadQn w x).2 (QN.loadQn w x).1 = some bs ∧
    d.spans w = [((QN.loadQn w x).2, (QN.loadQn w x).1)] := by
  cases hf with
  | list l _ =>
    simp only [Dc.look, Option.map_eq_some_iff] at h
    obtain ⟨_, _, e⟩ := h
    cases e
  | word i t' x h1 h2 h3 h4 =>
    simp only [Dc.look] at h
    cases i with
    | false => cases h
    | true =>
      by_cases ht : twide t' = true
      · simp only [ht, if_true, Bool.not_true] at h
        obtain ⟨bs', hb, e⟩ := (Option.map_eq_some_iff.mp h)
        cases e
        rw [full_qn (h2 ht)] at hb
        exact ⟨x, rfl, ht, h2 ht, hb, by simp only [Dc.spans, ht, if_true, full_qn (h2 ht)]⟩
      · simp only [ht, Bool.not_true] at h
        split at h
        · cases h
        · split at h
          · cases h
          · cases h

theorem look_quad {d : Dc} (hf : d.Fine w) {t : Tag} {q : Nat} (h : d.look w m = some (.quad t q)) :
    ∃ x, d = .word true t x ∧ tquad t = true ∧ (QN.loadQn w x).1 < 2 ^ 64 ∧ .quad t q = quadVal t (QN.loadQn w x).1 ∧
    d.spans w = [] := by
  cases hf with
  | list l _ =>
    simp only [Dc.look, Option.map_eq_some_iff] at h
    obtain ⟨_, _, e⟩ := h
    cases e
  | word i t' x h1 h2 h3 h4 =>
    cases i with
    | false => cases h
    | true =>
      by_cases ht : twide t' = true
      · have h : (m.read (NN.loadFull w x).2 (NN.loadFull w x).1).map (Val.bytes t') = some (.quad t q) := by
          simpa only [Dc.look, ht, if_true, Bool.not_true, Bool.false_eq_true, if_false] using h
        obtain ⟨bs', hb, e⟩ := (Option.map_eq_some_iff.mp h)
        cases e
      · have hq := h4.resolve_left ht
        have h : some (quadVal t' (NN.loadQw w x)) = some (.quad t q) := by
          have ht' : twide t' = false := by simpa using ht
          simpa only [Dc.look, ht', hq, if_true, Bool.not_true, Bool.false_eq_true, if_false] using h
        have h' : Val.quad t q = quadVal t' (QN.loadQn w x).1 := (Option.some.inj h).symm
        have htt : t = t' := by cases h'; rfl
        subst htt
        exact ⟨x, rfl, hq, h1, h', by simp only [Dc.spans, ht]; rfl⟩

theorem step_bufCell (hr : Rel w m [] es) {h src : Nat} {e' : Penv} (hp : pstep w (pure es) (.bufCell h src) = some e') :
    Does w m es (.bufCell h src) e' := by
  simp only [pstep] at hp
  split at hp
  · rename_i t bs b1 hg
    split at hp
    · rename_i hc
      cases hp
      obtain ⟨o, h1, h2⟩ := get_pure hg
      have hk := hr.kind _ (get_mem h1)
      have hl := hr.look _ (get_mem h1)
      cases o <;> try (cases hk.1)
      rename_i d
      obtain ⟨x, rfl, ht, hn, hb, hs⟩ := look_bytes hk.2 hl
      refine ⟨m, (h, (.buf (QN.loadQn w x).2 (QN.loadQn w x).1, ⟨.buf, .bytes .binary bs, []⟩)) :: del src es, ?_,
        by rw [del_pure]; rfl, move hr h1 hc.2 hc.1 ?_ ⟨rfl, hn⟩ ?_ rfl⟩
      · simp only [vstep, h2, Dc.intoBuf, ht, if_true, del_conc]
        rfl
      · exact (congrArg nz hs).symm
      · simp only [Obj.look, hb, Option.map_some]
    · cases hp
  · cases hp

theorem step_keyCell (hr : Rel w m [] es) {h src : Nat} {e' : Penv} (hp : pstep w (pure es) (.keyCell h src) = some e') :
    Does w m es (.keyCell h src) e' := by
  simp only [pstep] at hp
  split at hp
  · rename_i v b1 hg
    split at hp
    · rename_i k hkv
      split at hp
      · rename_i hc
        cases hp
        obtain ⟨o, h1, h2⟩ := get_pure hg
        have hk := hr.kind _ (get_mem h1)
        have hl := hr.look _ (get_mem h1)
        cases o <;> try (cases hk.1)
        rename_i d
        have go : ∀ (x : Qword) (t : Tag), d = .word true t x →
            (Obj.key ⟨t.uniq, ⟨(QN.loadQn w x).1, (QN.loadQn w x).2⟩⟩).own w = (Obj.cell d).own w →
            KindOk w (.key ⟨t.uniq, ⟨(QN.loadQn w x).1, (QN.loadQn w x).2⟩⟩) .key →
            (Obj.key ⟨t.uniq, ⟨(QN.loadQn w x).1, (QN.loadQn w x).2⟩⟩).look w m = some k →
            Does w m es (.keyCell h src) ((h, ⟨.key, k, []⟩) :: del src (pure es)) := by
          rintro x t rfl a1 a2 a3
          refine ⟨m, (h, (.key ⟨t.uniq, ⟨(QN.loadQn w x).1, (QN.loadQn w x).2⟩⟩, ⟨.key, k, []⟩)) :: del src es, ?_,
            by rw [del_pure]; rfl, move hr h1 hc.2 hc.1 a1 a2 a3 rfl⟩
          simp only [vstep, h2, Key.ofDc, del_conc]
          rfl
        cases v with
        | null => cases hkv
        | list l => cases hkv
        | bytes t bs =>
          cases hkv
          obtain ⟨x, rfl, ht, hn, hb, hs⟩ := look_bytes hk.2 hl
          have htt : t = .binary ∨ t = .string := by cases t <;> first | (exact .inl rfl) | (exact .inr rfl) | cases ht
          refine go x t rfl ?_ ⟨rfl, Nat.lt_of_lt_of_le hn (size_le w), fun _ => hn, ?_⟩ ?_
          · show nz _ = nz _
            refine congrArg nz (Eq.trans ?_ hs.symm)
            rcases htt with rfl | rfl <;> rfl
          · rcases htt with rfl | rfl <;> (intro h; cases h)
          · rcases htt with rfl | rfl <;>
              simp only [Obj.look, Key.look, Key.block, Tag.uniq, uwide, if_true, hb, Option.map_some]
        | quad t q =>
          obtain ⟨x, rfl, ht, hn, hb, hs⟩ := look_quad hk.2 hl
          have hnb : t ≠ .bool := by rintro rfl; cases hkv
          have hq : q = (QN.loadQn w x).1 := by
            rw [quadVal, if_neg hnb] at hb
            cases hb
            rfl
          have hu : (t.uniq = .uint ∧ k = .quad .uint64 q) ∨ (t.uniq = .sint ∧ k = .quad .sint64 q) := by
            cases t <;> first | (cases hkv; exact .inl ⟨rfl, rfl⟩) | (cases hkv; exact .inr ⟨rfl, rfl⟩) | cases hkv
          refine go x t rfl ?_ ⟨rfl, hn, fun h => ?_, ?_⟩ ?_
          · show nz _ = nz _
            refine congrArg nz (Eq.trans ?_ hs.symm)
            rcases hu with ⟨hu, _⟩ | ⟨hu, _⟩ <;> simp only [Obj.spans, hu] <;> rfl
          · rcases hu with ⟨hu, _⟩ | ⟨hu, _⟩ <;> simp only [hu] at h <;> cases h
          · rcases hu with ⟨hu, _⟩ | ⟨hu, _⟩ <;> simp only [hu] <;> (intro h; cases h)
          · rcases hu with ⟨hu, rfl⟩ | ⟨hu, rfl⟩ <;> simp only [Obj.look, Key.look, hu, hq]
      · cases hp
    · cases hp
  · cases hp

theorem step_virtLit (hr : Rel w m [] es) {h src : Nat} {e' : Penv} (hp : pstep w (pure es) (.virtLit h src) = some e')
    (hno : ∀ v b, get src (pure es) ≠ some ⟨.lit true, v, b⟩) : Does w m es (.virtLit h src) e' := by
  simp only [pstep] at hp
  split at hp
  · rename_i ow v bor hg
    split at hp
    · rename_i hc
      cases hp
      obtain ⟨o, h1, h2⟩ := get_pure hg
      have hm := get_mem h1
      have hk := hr.kind _ hm
      have hl := hr.look _ hm
      cases o <;> try (cases hk.1)
      rename_i l
      have how : l.owned = false := by
        cases ho : l.owned with
        | false => rfl
        | true => rw [ho] at hg; exact absurd hg (hno _ _)
      have ht := hr.take h1 (free_pure hc.2)
      have hown : (Obj.lit l).own w = [] := by rw [Obj.own, if_neg (by show ¬ l.owned = true; rw [how]; decide)]
      rw [hown] at ht
      have hcov : Covered w (del src es) (.lit l) bor := by
        rcases hr.cover _ hm with ho | hcov
        · exact absurd ho (by show ¬ l.owned = true; rw [how]; decide)
        · refine .inr fun y hy => (hcov y hy).imp id ?_
          rintro ⟨r, hr', e, he, her, z⟩
          refine ⟨r, hr', e, mem_del.mpr ⟨he, fun heq => ?_⟩, her, z⟩
          exact free_pure hc.2 _ hm (heq ▸ her ▸ hr')
      have key : Dc.Fine w (.word true l.tag (promote w l.word)) ∧ (Dc.word true l.tag (promote w l.word)).spans w = (Obj.lit l).spans w ∧
          (Dc.word true l.tag (promote w l.word)).look w m = l.look m := by
        rcases hk.2.2.2.2 with hw | hq
        · obtain ⟨f1, f2, f3⟩ := fine_wide (w := w) hw (p := l.word.b) (hk.2.2.2.1 hw)
          exact ⟨f1, f2.trans (by simp only [Obj.spans, hw, if_true]), (f3 m).trans (by simp only [Lit.look, hw, if_true, Lit.bin])⟩
        · obtain ⟨f1, f2, f3⟩ := fine_quad (w := w) hq (p := l.word.b) hk.2.2.1
          exact ⟨f1, f2.trans (by simp only [Obj.spans, quad_not_wide hq]; rfl), (f3 m).trans (by simp only [Lit.look, quad_not_wide hq]; rfl)⟩
      refine ⟨m, (h, (.virt (.word true l.tag (promote w l.word)), ⟨.virt, v, bor⟩)) :: del src es, ?_, by rw [del_pure]; rfl, ?_⟩
      · simp only [vstep, h2, virtOfLit, Lit.drop, how, del_conc]
        rfl
      · refine Rel.put ht (get_del_none (fresh hc.1)) ⟨rfl, key.1⟩ (key.2.2.trans hl) (.inr fun x hx => ?_)
        rcases hcov with ho | hcov
        · exact absurd ho (by show ¬ l.owned = true; rw [how]; decide)
        · exact hcov x (key.2.1 ▸ hx)
    · cases hp
  · cases hp

theorem step_virtKey (hr : Rel w m [] es) {h src : Nat} {t : Tag} {e' : Penv} (hp : pstep w (pure es) (.virtKey h src t) = some e') :
    Does w m es (.virtKey h src t) e' := by
  simp only [pstep] at hp
  split at hp
  · rename_i v bor hg
    split at hp
    · rename_i v' hv
      split at hp
      · rename_i hc
        cases hp
        obtain ⟨o, h1, h2⟩ := get_pure hg
        have hm := get_mem h1
        have hk := hr.kind _ hm
        have hl := hr.look _ hm
        cases o <;> try (cases hk.1)
        rename_i k
        have go : (Dc.word true t (promote w k.word)).Fine w →
            (∀ x ∈ (Dc.word true t (promote w k.word)).spans w, x ∈ (Obj.key k).spans w) →
            (Dc.word true t (promote w k.word)).look w m = some v' →
            Does w m es (.virtKey h src t) ((h, ⟨.virt, v', src :: bor⟩) :: pure es) := by
          intro f1 f2 f3
          refine ⟨m, (h, (.virt (virtOfKey w k t), ⟨.virt, v', src :: bor⟩)) :: es, by simp only [vstep, h2]; rfl, rfl,
            add_borrow hr hc rfl ⟨rfl, f1⟩ f3 (.inr fun x hx => ?_)⟩
          by_cases h0 : x.2 = 0
          · exact .inl h0
          · exact .inr ⟨src, List.mem_cons_self .., _, hm, rfl, x, mem_nz.mpr ⟨f2 x hx, h0⟩, Nat.le_refl _, Nat.le_refl _⟩
        simp only [Obj.look, Key.look] at hl
        have quad : ∀ {u : Tag}, tquad t = true → t ≠ .bool → v = .quad u k.word.a → t.cls = u.cls →
            Does w m es (.virtKey h src t) ((h, ⟨.virt, v', src :: bor⟩) :: pure es) := by
          rintro u ht hnb rfl hu
          obtain ⟨f1, f2, f3⟩ := fine_quad (w := w) ht (p := k.word.b) hk.2.1
          have : v' = .quad t k.word.a := by simp only [Val.ofKey, if_pos hu] at hv; cases hv; rfl
          refine go f1 (fun x hx => ?_) ((f3 m).trans ?_)
          · have hx' : x ∈ ([] : List (Nat × Nat)) := f2 ▸ hx
            cases hx'
          · rw [this, quadVal, if_neg hnb]
        have wide : ∀ {u : Tag} {bs : Bytes}, twide t = true → v = .bytes u bs → t = u → uwide k.tag = true →
            (k.tag = .bin ∨ k.tag = .str) → m.read k.word.b k.word.a = some bs →
            Does w m es (.virtKey h src t) ((h, ⟨.virt, v', src :: bor⟩) :: pure es) := by
          rintro u bs ht rfl rfl hu hbs hb
          obtain ⟨f1, f2, f3⟩ := fine_wide (w := w) ht (p := k.word.b) (hk.2.2.1 hu)
          have : v' = .bytes t bs := by simp only [Val.ofKey, if_pos] at hv; cases hv; rfl
          refine go f1 (fun x hx => ?_) ((f3 m).trans (by rw [hb, this]; rfl))
          have hx' : x ∈ [(k.word.b, k.word.a)] := f2 ▸ hx
          simpa only [Obj.spans, if_pos hbs] using hx'
        cases hkt : k.tag with
        | illegal => exact absurd hkt hk.2.2.2
        | uint =>
          rw [hkt] at hl
          cases hl
          by_cases hu : t.cls = Tag.uint64.cls
          · refine quad ?_ ?_ rfl hu <;> cases t <;> simp_all [Tag.cls, tquad]
          · simp only [Val.ofKey, if_neg hu] at hv
            cases hv
        | sint =>
          rw [hkt] at hl
          cases hl
          by_cases hu : t.cls = Tag.sint64.cls
          · refine quad ?_ ?_ rfl hu <;> cases t <;> simp_all [Tag.cls, tquad]
          · simp only [Val.ofKey, if_neg hu] at hv
            cases hv
        | bin =>
          rw [hkt] at hl
          simp only [Key.block, hkt, uwide, if_true, Option.map_eq_some_iff] at hl
          obtain ⟨bs, hb, e⟩ := hl
          by_cases hu : t = .binary
          · exact wide (by rw [hu]; rfl) e.symm hu (by rw [hkt]; rfl) (.inl hkt) hb
          · rw [← e] at hv
            simp only [Val.ofKey, if_neg hu] at hv
            cases hv
        | str =>
          rw [hkt] at hl
          simp only [Key.block, hkt, uwide, if_true, Option.map_eq_some_iff] at hl
          obtain ⟨bs, hb, e⟩ := hl
          by_cases hu : t = .string
          · exact wide (by rw [hu]; rfl) e.symm hu (by rw [hkt]; rfl) (.inr hkt) hb
          · rw [← e] at hv
            simp only [Val.ofKey, if_neg hu] at hv
            cases hv
      · cases hp
    · cases hp
  · cases hp

theorem step_drop (hr : Rel w m [] es) {h : Nat} {e' : Penv} (hp : pstep w (pure es) (.drop h) = some e') :
    Does w m es (.drop h) e' := by
  simp only [pstep] at hp
  split at hp
  · rename_i hc
    cases hp
    obtain ⟨v, hg⟩ := Option.isSome_iff_exists.mp hc.1
    obtain ⟨o, h1, h2⟩ := get_pure hg
    have t := hr.take h1 (free_pure hc.2)
    obtain ⟨m', d1, d2, _⟩ := t.drop (hr.kind _ (get_mem h1))
    exact ⟨m', del h es, by simp only [vstep, h2, d1, Option.map_some, del_conc]; rfl, del_pure .., d2⟩
  · cases hp

end

/-- All steps. -/
theorem step_does {w : Width} {m : Bm} {es : List Ent} (hr : Rel w m [] es) {op : Op} {e' : Penv} (hp : pstep w (pure es) op = some e')
    (hno : op.Borrowed (pure es)) : Does w m es op e' := by
  cases op with
  | newBuf => exact step_newBuf hr hp
  | litQuad => exact step_litQuad hr hp
  | litRef => exact step_litRef hr hp
  | litOwn => exact step_litOwn hr hp
  | litClone => exact step_litClone hr hp
  | litIr => exact step_litIr hr hp
  | cellNull => exact step_cellNull hr hp
  | cellQuad => exact step_cellQuad hr hp
  | cellBuf => exact step_cellBuf hr hp
  | cellLit => exact step_cellLit hr hp
  | cellList => exact step_cellList hr hp
  | push => exact step_push hr hp
  | pop => exact step_pop hr hp
  | bufCell => exact step_bufCell hr hp
  | keyCell => exact step_keyCell hr hp
  | virtLit => exact step_virtLit hr hp hno
  | virtKey => exact step_virtKey hr hp
  | drop => exact step_drop hr hp

end Verif.Mem
