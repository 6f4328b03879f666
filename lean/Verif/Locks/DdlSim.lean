import Verif.Locks.DdlLemmas
/-!
C71: every step of the interleaving is a step, or no step, of the indivisible catalogue.
-/
namespace Verif.Ddl
open Verif.Gns (Cat Space Model World Out QErr Client)
open Verif.Enc (Event Fields)
open Verif.Conc (Obj Ev AThr ASt AStep ARun upd)

/-- `g` is the catalogue of the log: the statements `S` one after the other. -/
structure Inv (c0 : Cat) (l0 : List Event) (s : Sys (List Event)) (a : ASt Cat Op Ret) (g : Cat) (S : List Stm) : Prop where
  good : Good s.c a.q g s.ts
  thr : ∀ i, a.thr i = ((s.ts[i]?).getD .idle).athr
  iffy : s.iffy = false
  ses : ∃ es, Gns.session c0 (S.map Stm.op) = (g, es) ∧ s.log = l0 ++ es

/-- What a step leads to. -/
def Next (c0 : Cat) (l0 : List Event) (s' : Sys (List Event)) (ev : Option (Ev Op Ret)) (a : ASt Cat Op Ret) (S : List Stm) : Prop :=
  ∃ a' g' S', ((a' = a ∧ ev = none) ∨ AStep obj a ev a') ∧ Inv c0 l0 s' a' g' S' ∧
    (S' = S ∨ ∃ i x, a.thr i = .pend (.stm x) ∧ S' = S ++ [x])

theorem thr_set {ts : List Ph} {i : Nat} {p p' : Ph} {f : Nat → AThr Op Ret} (hi : ts[i]? = some p)
    (h : ∀ j, f j = ((ts[j]?).getD .idle).athr) : ∀ j, upd f i p'.athr j = (((ts.set i p')[j]?).getD .idle).athr := by
  intro j
  have hlt : i < ts.length := (List.getElem?_eq_some_iff.1 hi).1
  by_cases hj : j = i
  · subst hj; simp [hlt]
  · rw [Conc.upd_other _ _ hj, h j]
    simp [Ne.symm hj]

section next
variable {c0 : Cat} {l0 : List Event} {s : Sys (List Event)} {a : ASt Cat Op Ret} {g : Cat} {S : List Stm} {i : Nat} {p p' : Ph} {c' : Cat}

theorem Inv.pend (h : Inv c0 l0 s a g S) (hi : s.ts[i]? = some p) : a.thr i = p.athr := by rw [h.thr i, hi]; rfl

theorem Inv.silent (h : Inv c0 l0 s a g S) (hi : s.ts[i]? = some p) (ht : p'.athr = p.athr) (hg : Good c' a.q g (s.ts.set i p')) :
    Next c0 l0 ({ s with c := c' }.to i p') none a S := by
  refine ⟨a, g, S, .inl ⟨rfl, rfl⟩, ⟨hg, ?_, h.iffy, h.ses⟩, .inl rfl⟩
  intro j
  have := thr_set (p' := p') hi h.thr j
  show a.thr j = (((s.ts.set i p')[j]?).getD .idle).athr
  rw [← this, ht]
  by_cases hj : j = i
  · subst hj; rw [Conc.upd_same, h.pend hi]
  · rw [Conc.upd_other _ _ hj]

theorem Inv.lin (h : Inv c0 l0 s a g S) (hi : s.ts[i]? = some p) {op : Op} (ht : p.athr = .pend op) {ls : List (Lock × Mode)} {r : Ret}
    {q' : Cat} (ho : obj.apply a.q op = (q', r)) (hg : Good c' q' g (s.ts.set i (.leave ls r))) :
    Next c0 l0 ({ s with c := c' }.to i (.leave ls r)) none a S := by
  have hs : AStep obj a none ⟨(obj.apply a.q op).1, upd a.thr i (.done (obj.apply a.q op).2)⟩ := .lin (by rw [h.pend hi, ht])
  rw [ho] at hs
  exact ⟨_, g, S, .inr hs, ⟨hg, thr_set (p' := .leave ls r) hi h.thr, h.iffy, h.ses⟩, .inl rfl⟩

end next

/-- The indivisible catalogue after a statement that was planned. -/
theorem Plan.apply {q : Cat} {x : Stm} {o : Out} {e : Event} (h : Plan q x o e) :
    obj.apply q (.stm x) = (if cls x.s = .user then { q with users := o.cat.users } else { q with spaces := o.cat.spaces, models := o.cat.models },
      .reply o.reply) := by
  simp only [obj]
  split
  · rename_i k; rw [h.user k q rfl]
  · rename_i k; rw [h.cat k q rfl rfl]

theorem obj_none {q : Cat} {x : Stm} (h : (x.run q).ev = none) : obj.apply q (.stm x) = (q, .reply (x.run q).reply) := by
  simp only [obj, run_none h]

section sim
variable {c0 : Cat} {l0 : List Event} {s : Sys (List Event)} {a : ASt Cat Op Ret} {g : Cat} {S : List Stm} {i : Nat}

/-- A statement that has its locks decides. -/
theorem sim_decide (h : Inv c0 l0 s a g S) {p : Ph} {x : Stm} {held : List (Lock × Mode)} (hi : s.ts[i]? = some p) (hp : p.athr = .pend (.stm x))
    (hd : p.dirtyS = false ∧ p.dirtyM = false ∧ p.owesUsers = false ∧ p.owesCat = false) (hh : held = p.locks)
    (hev : (x.run s.c).ev ≠ none → (cls x.s).full = p.locks)
    (hq : cls x.s ≠ .user → (∃ m, (Lock.spaces, m) ∈ p.locks) ∨ cls x.s = .alter ∧ goesOn s.c x.s = false ∧ (Lock.models, Mode.write) ∈ p.locks) :
    Next c0 l0 (decide s i x held) none a S := by
  subst hh
  have hmod : cls x.s ≠ .user → s.c.models = a.q.models := fun k => by
    rcases hq k with ⟨m, hm⟩ | ⟨_, _, hm⟩
    · exact h.good.models_of hi (.inl hm) hd.2.1
    · exact h.good.models_of hi (.inr hm) hd.2.1
  cases he : (x.run s.c).ev with
  | none =>
    rw [decide]
    simp only [he]
    have hr : (x.run a.q).ev = none ∧ (x.run a.q).reply = (x.run s.c).reply := by
      by_cases k : cls x.s = .user
      · rw [run_user k h.good.users.symm]; exact ⟨he, rfl⟩
      · rcases hq k with ⟨m, hm⟩ | ⟨k', hg, _⟩
        · rw [run_cat k (h.good.spaces_of hi hm hd.1).symm (hmod k).symm]; exact ⟨he, rfl⟩
        · have := alter_missing k' (hmod k).symm hg
          exact ⟨this.2, this.1⟩
    refine h.lin (c' := s.c) hi hp (op := .stm x) (q' := a.q) ?_ ?_
    · rw [obj_none hr.1, hr.2]
    · exact h.good.keep hi (fun y hy => .inl hy) trivial hd.1.symm hd.2.1.symm hd.2.2.1.symm hd.2.2.2.symm
  | some e =>
    have hf := hev (by rw [he]; simp)
    have hsp : cls x.s ≠ .user → s.c.spaces = a.q.spaces := fun k => by
      rcases hq k with ⟨m, hm⟩ | ⟨k', hg, _⟩
      · exact h.good.spaces_of hi hm hd.1
      · have := (alter_missing k' (c := s.c) (c' := s.c) rfl hg).2
        rw [he] at this
        cases this
    have hpl : Plan a.q x (x.run s.c) e := Plan.of he (fun _ => h.good.users) fun k => ⟨hsp k, hmod k⟩
    rw [decide]
    simp only [he]
    by_cases k : cls x.s = .force
    · rw [if_pos k]
      refine h.silent hi hp.symm ?_
      refine h.good.move hi (fun y hy => .inl (hf ▸ hy)) ⟨.inr ?_, .inl rfl, .inl ⟨rfl, rfl⟩, .inl ⟨rfl, rfl, rfl, rfl⟩⟩ ?_ ?_ ?_ ?_ ?_ ?_
      · rw [← hf, k]; simp [Cls.full]
      · exact ⟨hpl, fun _ => rfl⟩
      · exact h.good.users
      · intro hx; simp [Ph.dirtyS, k] at hx
      · intro _ hb; exact hb hd.2.1
      · intro _ hb; exact hb hd.2.2.1
      · intro _ hb; exact hb hd.2.2.2
    · rw [if_neg k]
      refine h.silent (c' := s.c) hi hp.symm ?_
      refine h.good.keep hi (fun y hy => .inl (hf ▸ hy)) ⟨hpl, fun k' => absurd k' k⟩ ?_ hd.2.1.symm hd.2.2.1.symm hd.2.2.2.symm
      rw [hd.1]; simp [Ph.dirtyS, k]

theorem first_full {x : Stm} (h : cls x.s = .user ∨ cls x.s = .space ∨ cls x.s = .create) : (cls x.s).full = [Op.first (.stm x)] := by
  rcases h with h | h | h <;> simp only [Op.first, h, Cls.full]

theorem sim_has (h : Inv c0 l0 s a g S) {x : Op} (hi : s.ts[i]? = some (.has x)) : Next c0 l0 (hasStep s i x) none a S := by
  cases x with
  | spaces =>
    refine h.lin (c' := s.c) hi (op := .spaces) rfl (q' := a.q) ?_ ?_
    · simp only [obj]; rw [h.good.spaces_of hi (m := .read) (by simp [Ph.locks, Op.first]) rfl]
    · exact h.good.keep hi (fun y hy => .inl hy) trivial rfl rfl rfl rfl
  | models =>
    refine h.lin (c' := s.c) hi (op := .models) rfl (q' := a.q) ?_ ?_
    · simp only [obj]; rw [h.good.models_of hi (m := .read) (.inr (by simp [Ph.locks, Op.first])) rfl]
    · exact h.good.keep hi (fun y hy => .inl hy) trivial rfl rfl rfl rfl
  | users =>
    refine h.lin (c' := s.c) hi (op := .users) rfl (q' := a.q) ?_ ?_
    · simp only [obj]; rw [h.good.users]
    · exact h.good.keep hi (fun y hy => .inl hy) trivial rfl rfl rfl rfl
  | stm x =>
    rw [hasStep]
    cases hg : goesOn s.c x.s with
    | true =>
      rw [if_pos rfl]
      refine h.silent (c' := s.c) hi rfl ?_
      refine h.good.keep hi (fun y hy => .inl hy) ?_ rfl rfl rfl rfl
      obtain ⟨perm, u, w, st⟩ := x
      cases st with
      | dropSpace _ b _ => cases b <;> simp [goesOn, Loc, cls] at hg ⊢
      | _ => simp [goesOn, Loc, cls] at hg ⊢
    | false =>
      rw [if_neg (by simp)]
      refine sim_decide h hi rfl ⟨rfl, rfl, rfl, rfl⟩ rfl ?_ ?_
      · intro hev
        cases k : cls x.s with
        | user => rw [← k, first_full (.inl k)]; rfl
        | space => rw [← k, first_full (.inr (.inl k))]; rfl
        | create => rw [← k, first_full (.inr (.inr k))]; rfl
        | drop => exact absurd (stays_none (.inr (.inl k)) hg) hev
        | force => exact absurd (stays_none (.inr (.inr k)) hg) hev
        | alter => exact absurd (stays_none (.inl (by rw [k]; rfl)) hg) hev
      · intro k
        cases k' : cls x.s with
        | user => exact absurd k' k
        | alter => exact .inr ⟨rfl, hg, by simp [Ph.locks, Op.first, k']⟩
        | _ => exact .inl ⟨.write, by simp [Ph.locks, Op.first, k']⟩

theorem sim_both (h : Inv c0 l0 s a g S) {x : Stm} (hi : s.ts[i]? = some (.both x)) : Next c0 l0 (decide s i x (cls x.s).full) none a S := by
  have hl := h.good.loc i _ hi
  refine sim_decide h hi rfl ⟨rfl, rfl, rfl, rfl⟩ rfl (fun _ => rfl) fun _ => .inl ?_
  rcases hl with k | k | k <;> simp only [Ph.locks, k, Cls.full]
  · exact ⟨.write, by simp⟩
  · exact ⟨.write, by simp⟩
  · exact ⟨.read, by simp⟩

/-- The event is written. -/
theorem sim_write (h : Inv c0 l0 s a g S) {x : Stm} {o : Out} {e : Event} (hi : s.ts[i]? = some (.inside x o e)) :
    Next c0 l0 ({ s with log := s.log ++ [e] }.to i (.wrote x o e)) none a S := by
  have hl := h.good.loc i _ hi
  have hfull : ∀ y ∈ (cls x.s).full, y ∈ (Ph.inside x o e).locks := fun y hy => by simp [Ph.locks, hy]
  have hgu : cls x.s = .user → g.users = a.q.users := fun k =>
    h.good.gusers_of hi (m := .write) (hfull _ (by rw [k]; simp [Cls.full])) rfl
  have hgc : cls x.s ≠ .user → g.spaces = a.q.spaces ∧ g.models = a.q.models := fun k => h.good.gcat_of hi k hfull rfl
  have hrun : ∃ g', x.run g = ⟨g', o.reply, some e⟩ ∧
      g' = if cls x.s = .user then { g with users := o.cat.users } else { g with spaces := o.cat.spaces, models := o.cat.models } := by
    by_cases k : cls x.s = .user
    · exact ⟨_, hl.1.user k g (hgu k), by rw [if_pos k]⟩
    · exact ⟨_, hl.1.cat k g (hgc k).1 (hgc k).2, by rw [if_neg k]⟩
  obtain ⟨g', hr, hg'⟩ := hrun
  refine ⟨a, g', S ++ [x], .inl ⟨rfl, rfl⟩, ⟨?_, ?_, h.iffy, ?_⟩, .inr ⟨i, x, h.pend hi, rfl⟩⟩
  · refine h.good.move hi (fun y hy => .inl hy) ⟨.inl rfl, .inl rfl, ?_, ?_⟩ ⟨hl.1, hl.2, ?_, ?_⟩ h.good.users ?_ ?_ ?_ ?_
    · by_cases k : cls x.s = .user
      · exact .inr (hfull _ (by rw [k]; simp [Cls.full]))
      · rw [hg', if_neg k]; exact .inl ⟨rfl, rfl⟩
    · by_cases k : cls x.s = .user
      · rw [hg', if_pos k]; exact .inl ⟨rfl, rfl, rfl, rfl⟩
      · exact .inr ⟨_, k, hfull⟩
    · intro k; rw [hg', if_pos k]
    · intro k; rw [hg', if_neg k]; exact ⟨rfl, rfl⟩
    · intro k hb; exact hb k
    · intro k hb; exact hb k
    · intro k hb
      have k : ¬ cls x.s = .user := by simpa [Ph.owesUsers] using k
      rw [hg', if_neg k]; exact hb rfl
    · intro k hb
      have k : cls x.s = .user := by simpa [Ph.owesCat] using k
      rw [hg', if_pos k]; exact hb rfl
  · intro j
    have := thr_set (p' := .wrote x o e) hi h.thr j
    show a.thr j = (((s.ts.set i (.wrote x o e))[j]?).getD .idle).athr
    rw [← this]
    by_cases hj : j = i
    · subst hj; rw [Conc.upd_same, h.pend hi]; rfl
    · rw [Conc.upd_other _ _ hj]
  · obtain ⟨es, h1, h2⟩ := h.ses
    refine ⟨es ++ [e], ?_, by simp [Sys.to, h2]⟩
    have : ∀ (L : List Gns.Op) (c : Cat) (g : Cat) (es : List Event), Gns.session c L = (g, es) → x.run g = ⟨g', o.reply, some e⟩ →
        Gns.session c (L ++ [x.op]) = (g', es ++ [e]) := by
      intro L
      induction L with
      | nil =>
        intro c g es h1 h2
        simp only [Gns.session, Prod.mk.injEq] at h1
        obtain ⟨rfl, rfl⟩ := h1
        simp only [List.nil_append, Gns.session]
        have h3 : x.op.run c = ⟨g', o.reply, some e⟩ := h2
        rw [h3]; rfl
      | cons y L ih =>
        intro c g es h1 h2
        simp only [List.cons_append, Gns.session] at h1 ⊢
        rcases hx : Gns.session (y.run c).cat L with ⟨g1, es1⟩
        rw [hx] at h1
        simp only [Prod.mk.injEq] at h1
        obtain ⟨rfl, rfl⟩ := h1
        rw [ih _ _ _ hx h2]
        simp
    simpa using this _ _ _ _ h1 hr

/-- The maps are changed. -/
theorem sim_effect (h : Inv c0 l0 s a g S) {x : Stm} {o : Out} {e : Event} (hi : s.ts[i]? = some (.effect x o e)) :
    Next c0 l0 (effectStep s i x o e) none a S := by
  have hl := h.good.loc i _ hi
  have hown := hl.2.2
  have happ := hl.1.apply
  have hsp : ∀ {m}, (Lock.spaces, m) ∈ (cls x.s).full → cls x.s ≠ .force → s.c.spaces = a.q.spaces := fun hm k =>
    h.good.spaces_of hi hm (by simp [Ph.dirtyS, k])
  have hmo : ∀ {m}, (Lock.spaces, m) ∈ (cls x.s).full → s.c.models = a.q.models := fun hm => h.good.models_of hi (.inl hm) rfl
  rw [effectStep]
  cases k : cls x.s with
  | user =>
    simp only
    rw [k, if_pos rfl] at happ
    refine h.lin hi (op := .stm x) rfl happ ?_
    refine h.good.move hi (fun y hy => .inl (by simpa [Ph.locks, k] using hy)) ⟨.inl rfl, .inl rfl, .inr ?_, .inl ⟨rfl, rfl, rfl, rfl⟩⟩ trivial rfl ?_ ?_ ?_ ?_
    · simp [Ph.locks, k, Cls.full]
    · intro _ hb; exact hb (by simp [Ph.dirtyS, k])
    · intro _ hb; exact hb rfl
    · intro _ _; exact hown.user k
    · intro _ hb; exact hb (by simp [Ph.owesCat, k])
  | space =>
    simp only
    have hk : cls x.s ≠ .user := by simp [k]
    have hm : (Lock.spaces, Mode.write) ∈ (cls x.s).full := by simp [k, Cls.full]
    have hmods : o.cat.models = a.q.models := by
      have := run_space k a.q
      rw [hl.1.cat hk a.q rfl rfl] at this
      exact this
    rw [if_neg hk] at happ
    refine h.lin hi (op := .stm x) rfl happ ?_
    refine h.good.move hi (fun y hy => .inl (by simpa [Ph.locks, k] using hy)) ⟨.inr hm, .inl rfl, .inl ⟨rfl, rfl⟩, .inr ⟨_, hk, fun _ h => h⟩⟩ trivial
      h.good.users ?_ ?_ ?_ ?_
    · intro _ _; rfl
    · intro _ _; exact (hmo hm).trans hmods.symm
    · intro _ hb; exact hb (by simp [Ph.owesUsers, k])
    · intro _ _; exact hown.cat hk
  | create =>
    simp only
    have hk : cls x.s ≠ .user := by simp [k]
    have hm : (Lock.spaces, Mode.write) ∈ (cls x.s).full := by simp [k, Cls.full]
    refine h.silent hi rfl ?_
    refine h.good.move hi (fun y hy => .inl hy) ⟨.inr hm, .inl rfl, .inl ⟨rfl, rfl⟩, .inl ⟨rfl, rfl, rfl, rfl⟩⟩ ⟨hl.1, hown, rfl, k⟩
      h.good.users ?_ ?_ ?_ ?_
    · intro hx; simp [Ph.dirtyS] at hx
    · intro _ hb; exact hb rfl
    · intro _ hb; exact hb (by simp [Ph.owesUsers, k])
    · intro hx; simp [Ph.owesCat] at hx
  | drop =>
    simp only
    have hk : cls x.s ≠ .user := by simp [k]
    refine h.silent hi rfl ?_
    refine h.good.move hi (fun y hy => .inl hy) ⟨.inl rfl, .inr ?_, .inl ⟨rfl, rfl⟩, .inl ⟨rfl, rfl, rfl, rfl⟩⟩ ⟨hl.1, hown, rfl, k⟩
      h.good.users ?_ ?_ ?_ ?_
    · simp [Ph.locks, k, Cls.full]
    · intro _ hb; exact hb (by simp [Ph.dirtyS, k])
    · intro hx; simp [Ph.dirtyM] at hx
    · intro _ hb; exact hb (by simp [Ph.owesUsers, k])
    · intro hx; simp [Ph.owesCat] at hx
  | force =>
    simp only
    have hk : cls x.s ≠ .user := by simp [k]
    rw [if_neg hk] at happ
    refine h.lin hi (op := .stm x) rfl happ ?_
    refine h.good.move hi (fun y hy => .inl (by simpa [Ph.locks, k] using hy)) ⟨.inl rfl, .inr ?_, .inl ⟨rfl, rfl⟩, .inr ⟨_, hk, fun _ h => h⟩⟩ trivial
      h.good.users ?_ ?_ ?_ ?_
    · simp [Ph.locks, k, Cls.full]
    · intro _ _; exact hl.2.1 k
    · intro _ _; rfl
    · intro _ hb; exact hb (by simp [Ph.owesUsers, k])
    · intro _ _; exact hown.cat hk
  | alter =>
    simp only
    have hk : cls x.s ≠ .user := by simp [k]
    have hm : (Lock.spaces, Mode.read) ∈ (cls x.s).full := by simp [k, Cls.full]
    have hspc : o.cat.spaces = a.q.spaces := by
      have := run_alter k a.q
      rw [hl.1.cat hk a.q rfl rfl] at this
      exact this
    rw [if_neg hk] at happ
    refine h.lin hi (op := .stm x) rfl happ ?_
    refine h.good.move hi (fun y hy => .inl (by simpa [Ph.locks, k] using hy)) ⟨.inl rfl, .inr ?_, .inl ⟨rfl, rfl⟩, .inr ⟨_, hk, fun _ h => h⟩⟩ trivial
      h.good.users ?_ ?_ ?_ ?_
    · simp [Ph.locks, k, Cls.full]
    · intro _ _; exact (hsp hm (by simp [k])).trans hspc.symm
    · intro _ _; rfl
    · intro _ hb; exact hb (by simp [Ph.owesUsers, k])
    · intro _ _; exact hown.cat hk

theorem sim_insert (h : Inv c0 l0 s a g S) {x : Stm} {o : Out} {e : Event} (hi : s.ts[i]? = some (.insert x o e)) :
    Next c0 l0 ({ s with c := inserted s.c x o }.to i (.leave ((.models, .write) :: (cls x.s).full) (.reply o.reply))) none a S := by
  have hl := h.good.loc i _ hi
  have k := hl.2.2.2
  have hk : cls x.s ≠ .user := by simp [k]
  have happ := hl.1.apply
  rw [if_neg hk] at happ
  have hmo : s.c.models = a.q.models := h.good.models_of hi (m := .write) (.inr (by simp [Ph.locks])) rfl
  have hins : (inserted s.c x o).models = o.cat.models := by
    have hr := hl.1.cat hk a.q rfl rfl
    have := run_create k (c := a.q) (c' := s.c) hmo (e := e) (by rw [hr])
    rw [hr] at this
    have hc : inserted s.c x o = inserted s.c x ⟨{ a.q with spaces := o.cat.spaces, models := o.cat.models }, o.reply, some e⟩ := by
      unfold inserted; split <;> rfl
    rw [hc]; exact this
  obtain ⟨i1, i2⟩ := inserted_other s.c x o
  refine h.lin hi (op := .stm x) rfl happ ?_
  refine h.good.move hi (fun y hy => .inl hy) ⟨.inl i1, .inr (by simp [Ph.locks]), .inl ⟨rfl, rfl⟩,
    .inr ⟨_, hk, fun _ h => by simp [Ph.locks, h]⟩⟩ trivial ?_ ?_ ?_ ?_ ?_
  · rw [i2]; exact h.good.users
  · intro _ _; exact i1.trans hl.2.2.1
  · intro _ _; exact hins
  · intro _ hb; exact hb rfl
  · intro _ _; exact hl.2.1.cat hk

theorem sim_rest (h : Inv c0 l0 s a g S) {x : Stm} {o : Out} {e : Event} (hi : s.ts[i]? = some (.rest x o e)) :
    Next c0 l0 ({ s with c := { s.c with spaces := o.cat.spaces } }.to i (.leave (cls x.s).full (.reply o.reply))) none a S := by
  have hl := h.good.loc i _ hi
  have k := hl.2.2.2
  have hk : cls x.s ≠ .user := by simp [k]
  have happ := hl.1.apply
  rw [if_neg hk] at happ
  refine h.lin hi (op := .stm x) rfl happ ?_
  refine h.good.move hi (fun y hy => .inl hy) ⟨.inr (by simp [Ph.locks, k, Cls.full]), .inl rfl, .inl ⟨rfl, rfl⟩,
    .inr ⟨_, hk, fun _ h => h⟩⟩ trivial h.good.users ?_ ?_ ?_ ?_
  · intro _ _; rfl
  · intro _ _; exact hl.2.2.1
  · intro _ hb; exact hb rfl
  · intro _ _; exact hl.2.1.cat hk

/-- A step of a client. -/
theorem sim_go (h : Inv c0 l0 s a g S) {p : Ph} (hi : s.ts[i]? = some p) {s' : Sys (List Event)} {ev : Option (Ev Op Ret)}
    (hs : goStep mem s i p = some (s', ev)) : Next c0 l0 s' ev a S := by
  have hl := h.good.loc i _ hi
  cases p with
  | idle => simp [goStep] at hs
  | called x =>
    have main : ∀ y : Op, free s.ts y.first = true → y = x → Loc s.c a.q g (.has y) → Next c0 l0 (s.to i (.has y)) none a S := by
      rintro y hf rfl hy
      refine h.silent (c' := s.c) hi rfl ?_
      exact h.good.keep hi (fun z hz => .inr (by simp only [Ph.locks, List.mem_singleton] at hz; rw [hz]; exact hf)) hy rfl rfl rfl rfl
    cases x with
    | stm x =>
      simp only [goStep] at hs
      split at hs
      · rename_i hr
        split at hs
        · rename_i hf; cases hs; exact main _ hf rfl hr
        · cases hs
      · rename_i hr
        cases hs
        have hrun : ∀ c, x.run c = ⟨c, .err .permDenied, none⟩ := by
          intro c
          obtain ⟨perm, u, w, st⟩ := x
          simp only [Stm.run, Stm.op, Gns.Op.run, Gns.exec]
          rw [if_neg hr]; rfl
        refine h.lin (c' := s.c) hi (op := .stm x) rfl (q' := a.q) ?_ ?_
        · simp only [obj, hrun]
        · exact h.good.keep hi (fun z hz => .inl hz) trivial rfl rfl rfl rfl
    | spaces =>
      simp only [goStep] at hs
      split at hs
      · rename_i hf; cases hs; exact main _ hf rfl trivial
      · cases hs
    | models =>
      simp only [goStep] at hs
      split at hs
      · rename_i hf; cases hs; exact main _ hf rfl trivial
      · cases hs
    | users =>
      simp only [goStep] at hs
      split at hs
      · rename_i hf; cases hs; exact main _ hf rfl trivial
      · cases hs
  | has x => simp only [goStep] at hs; cases hs; exact sim_has h hi
  | more x =>
    simp only [goStep] at hs
    split at hs
    · rename_i hf
      cases hs
      refine h.silent (c' := s.c) hi rfl ?_
      refine h.good.keep hi ?_ hl rfl rfl rfl rfl
      intro y hy
      rcases hl with k | k | k <;> simp only [Ph.locks, Op.first, k, Cls.full, Cls.second, List.mem_cons, List.not_mem_nil, or_false] at hy hf ⊢ <;>
        rcases hy with rfl | rfl
      all_goals first
        | exact .inl rfl
        | exact .inr hf
    · cases hs
  | both x => simp only [goStep] at hs; cases hs; exact sim_both h hi
  | plan x o e =>
    simp only [goStep, h.iffy] at hs
    cases hs
    exact h.silent (c' := s.c) hi rfl (h.good.keep hi (fun z hz => .inl hz) hl rfl rfl rfl rfl)
  | ready x o e =>
    simp only [goStep] at hs
    split at hs
    · rename_i hf
      cases hs
      refine h.silent (c' := s.c) hi rfl (h.good.keep hi ?_ hl rfl rfl rfl rfl)
      intro z hz
      simp only [Ph.locks, List.mem_cons] at hz ⊢
      rcases hz with rfl | hz
      · exact .inr hf
      · exact .inl hz
    · cases hs
  | inside x o e => simp only [goStep, mem] at hs; cases hs; exact sim_write h hi
  | wrote x o e =>
    simp only [goStep] at hs
    cases hs
    exact h.silent (c' := s.c) hi rfl (h.good.keep hi (fun z hz => .inl (by simp only [Ph.locks, List.mem_cons] at hz ⊢; exact .inr hz)) hl rfl rfl rfl rfl)
  | effect x o e => simp only [goStep] at hs; cases hs; exact sim_effect h hi
  | wants x o e =>
    simp only [goStep] at hs
    split at hs
    · rename_i hf
      cases hs
      refine h.silent (c' := s.c) hi rfl (h.good.keep hi ?_ hl rfl rfl rfl rfl)
      intro z hz
      simp only [Ph.locks, List.mem_cons] at hz ⊢
      rcases hz with rfl | hz
      · exact .inr hf
      · exact .inl hz
    · cases hs
  | insert x o e => simp only [goStep] at hs; cases hs; exact sim_insert h hi
  | rest x o e => simp only [goStep] at hs; cases hs; exact sim_rest h hi
  | leave ls r =>
    cases ls with
    | cons l ls =>
      simp only [goStep] at hs
      cases hs
      exact h.silent (c' := s.c) hi rfl (h.good.keep hi (fun z hz => .inl (by simp only [Ph.locks, List.mem_cons] at hz ⊢; exact .inr hz)) trivial rfl rfl rfl rfl)
    | nil =>
      simp only [goStep] at hs
      cases hs
      refine ⟨⟨a.q, upd a.thr i .idle⟩, g, S, .inr (.ret (h.pend hi)), ⟨?_, thr_set (p' := .idle) hi h.thr, h.iffy, h.ses⟩, .inl rfl⟩
      exact h.good.keep hi (fun z hz => .inl hz) trivial rfl rfl rfl rfl

end sim

theorem sim_step {c0 : Cat} {l0 : List Event} {s : Sys (List Event)} {a : ASt Cat Op Ret} {g : Cat} {S : List Stm} (h : Inv c0 l0 s a g S)
    {act : Act} {s' : Sys (List Event)} {ev : Option (Ev Op Ret)} (hs : step mem s act = some (s', ev)) : Next c0 l0 s' ev a S := by
  cases act with
  | call i x =>
    simp only [step] at hs
    split at hs
    · rename_i hi
      cases hs
      refine ⟨⟨a.q, upd a.thr i (.pend x)⟩, g, S, .inr (.call (h.pend hi)), ⟨?_, thr_set (p' := .called x) hi h.thr, h.iffy, h.ses⟩, .inl rfl⟩
      exact h.good.keep hi (fun z hz => .inl hz) trivial rfl rfl rfl rfl
    · cases hs
  | go i =>
    simp only [step] at hs
    split at hs
    · rename_i p hi
      exact sim_go h hi hs
    · cases hs
  | check =>
    simp only [step, h.iffy, Bool.false_and] at hs
    cases hs

end Verif.Ddl
