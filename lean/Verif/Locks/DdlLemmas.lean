import Verif.Locks.Ddl
/-!
Lemmas for C71: what a statement reads and changes, and the invariant of the interleavings.
-/
namespace Verif.Ddl
open Verif.Gns (Cat Space Model World Out QErr Client)
open Verif.Enc (Event Fields)
open Verif.Conc (Obj Ev AThr ASt AStep ARun)

/-! ### What a statement reads and changes -/

/-- A statement about accounts reads and changes the accounts only. -/
theorem run_user {x : Stm} (h : cls x.s = .user) {c c' : Cat} (hu : c'.users = c.users) :
    x.run c' = ⟨{ c' with users := (x.run c).cat.users }, (x.run c).reply, (x.run c).ev⟩ := by
  obtain ⟨perm, u, w, s⟩ := x
  obtain ⟨sp, md, us⟩ := c
  obtain ⟨sp', md', us'⟩ := c'
  simp only at hu h
  subst hu
  cases s with
  | createUser n o =>
    simp only [Stm.run, Stm.op, Gns.Op.run, Gns.exec, Gns.execCreateUser, Cat.commit, Cat.reply]
    repeat' split
    all_goals (try rfl)
    all_goals simp_all
  | alterUser n o =>
    simp only [Stm.run, Stm.op, Gns.Op.run, Gns.exec, Gns.execAlterUser, Cat.commit, Cat.reply]
    repeat' split
    all_goals (try rfl)
    all_goals simp_all
  | dropUser n =>
    simp only [Stm.run, Stm.op, Gns.Op.run, Gns.exec, Gns.execDropUser, Cat.commit, Cat.reply]
    repeat' split
    all_goals (try rfl)
    all_goals simp_all
  | dropSpace a b d => cases b <;> simp [cls] at h
  | _ => simp [cls] at h

/-- The other statements read and change the spaces and the models only. -/
theorem run_cat {x : Stm} (h : cls x.s ≠ .user) {c c' : Cat} (hs : c'.spaces = c.spaces) (hm : c'.models = c.models) :
    x.run c' = ⟨{ c' with spaces := (x.run c).cat.spaces, models := (x.run c).cat.models }, (x.run c).reply, (x.run c).ev⟩ := by
  obtain ⟨perm, u, w, s⟩ := x
  obtain ⟨sp, md, us⟩ := c
  obtain ⟨sp', md', us'⟩ := c'
  simp only at hs hm h
  subst hs hm
  cases s with
  | createSpace n p f =>
    simp only [Stm.run, Stm.op, Gns.Op.run, Gns.exec, Gns.execCreateSpace, Cat.commit, Cat.reply]
    repeat' split
    all_goals (try rfl)
    all_goals simp_all
  | alterSpace n p =>
    simp only [Stm.run, Stm.op, Gns.Op.run, Gns.exec, Gns.execAlterSpace, Cat.commit, Cat.reply]
    repeat' split
    all_goals (try rfl)
    all_goals simp_all
  | dropSpace n b f =>
    cases b
    · simp only [Stm.run, Stm.op, Gns.Op.run, Gns.exec, Gns.execDropSpace, Cat.commit, Cat.reply]
      repeat' split
      all_goals (try rfl)
      all_goals simp_all
    · simp only [Stm.run, Stm.op, Gns.Op.run, Gns.exec, Gns.execDropSpaceForce, Cat.commit, Cat.reply]
      repeat' split
      all_goals (try rfl)
      all_goals simp_all
  | createModel a n fs p f =>
    simp only [Stm.run, Stm.op, Gns.Op.run, Gns.exec, Gns.execCreateModel, Cat.commit, Cat.reply]
    repeat' split
    all_goals (try rfl)
    all_goals simp_all
  | dropModel a n fo f =>
    simp only [Stm.run, Stm.op, Gns.Op.run, Gns.exec, Gns.execDropModel, Cat.commit, Cat.reply]
    repeat' split
    all_goals (try rfl)
    all_goals simp_all
  | alterModel a n k =>
    simp only [Stm.run, Stm.op, Gns.Op.run, Gns.exec, Gns.execAlterModel, Cat.commit, Cat.reply]
    repeat' split
    all_goals (try rfl)
    all_goals simp_all
  | _ => simp [cls] at h

/-- Without an event nothing changes. -/
theorem run_none {x : Stm} {c : Cat} (h : (x.run c).ev = none) : (x.run c).cat = c := by
  obtain ⟨perm, u, w, s⟩ := x
  revert h
  simp only [Stm.run, Stm.op, Gns.Op.run, Gns.exec]
  cases s with
  | dropSpace n b f =>
    cases b <;> simp only [Gns.execDropSpace, Gns.execDropSpaceForce, Cat.commit, Cat.reply] <;> repeat' split
    all_goals (intro h; first | rfl | contradiction | exact absurd trivial ‹¬True› | exact absurd h (by simp))
  | _ =>
    simp only [Gns.execCreateSpace, Gns.execAlterSpace, Gns.execCreateModel, Gns.execDropModel, Gns.execAlterModel, Gns.execCreateUser,
      Gns.execAlterUser, Gns.execDropUser, Cat.commit, Cat.reply]
    repeat' split
    all_goals (intro h; first | rfl | contradiction | exact absurd trivial ‹¬True› | exact absurd h (by simp))

theorem run_space {x : Stm} (h : cls x.s = .space) (c : Cat) : (x.run c).cat.models = c.models := by
  obtain ⟨perm, u, w, s⟩ := x
  simp only [Stm.run, Stm.op, Gns.Op.run, Gns.exec]
  cases s with
  | createSpace => simp only [Gns.execCreateSpace, Cat.commit, Cat.reply]; (repeat' split) <;> rfl
  | alterSpace => simp only [Gns.execAlterSpace, Cat.commit, Cat.reply]; (repeat' split) <;> rfl
  | dropSpace a b d => cases b with
    | true => simp [cls] at h
    | false => simp only [Gns.execDropSpace, Cat.commit, Cat.reply]; (repeat' split) <;> rfl
  | _ => simp [cls] at h

theorem run_alter {x : Stm} (h : cls x.s = .alter) (c : Cat) : (x.run c).cat.spaces = c.spaces := by
  obtain ⟨perm, u, w, s⟩ := x
  simp only [Stm.run, Stm.op, Gns.Op.run, Gns.exec]
  cases s with
  | alterModel => simp only [Gns.execAlterModel, Cat.commit, Cat.reply]; (repeat' split) <;> rfl
  | dropSpace a b d => cases b <;> simp [cls] at h
  | _ => simp [cls] at h

/-- CREATE MODEL inserts one model. -/
theorem run_create {x : Stm} (h : cls x.s = .create) {c c' : Cat} (hm : c'.models = c.models) {e : Event} (he : (x.run c).ev = some e) :
    (inserted c' x (x.run c)).models = (x.run c).cat.models := by
  obtain ⟨perm, u, w, s⟩ := x
  cases s with
  | createModel a n fs p f =>
    simp only [inserted, hm]
    revert he
    simp only [Stm.run, Stm.op, Gns.Op.run, Gns.exec, Gns.execCreateModel, Cat.commit, Cat.reply]
    repeat' split
    all_goals first
      | (intro he; cases he; done)
      | (intro _; funext y z; simp only [Gns.upd2]; split <;> simp)
  | dropSpace a b d => cases b <;> simp [cls] at h
  | _ => simp [cls] at h

theorem inserted_other (c : Cat) (x : Stm) (o : Out) : (inserted c x o).spaces = c.spaces ∧ (inserted c x o).users = c.users := by
  unfold inserted; split <;> exact ⟨rfl, rfl⟩

/-- A statement that does not go on to its second lock has no event. -/
theorem stays_none {x : Stm} {c : Cat} (hk : (cls x.s).second = (.spaces, .read) ∨ cls x.s = .drop ∨ cls x.s = .force)
    (h : goesOn c x.s = false) : (x.run c).ev = none := by
  obtain ⟨perm, u, w, s⟩ := x
  cases s with
  | dropSpace a b d => cases b <;> simp [cls, goesOn, Cls.second] at h hk
  | dropModel a n fo f =>
    simp only [goesOn] at h
    simp only [Stm.run, Stm.op, Gns.Op.run, Gns.exec, Gns.execDropModel, Cat.commit, Cat.reply]
    split
    · split
      · rfl
      · rename_i hc; rw [hc] at h; simp only at h; rw [h]; rfl
    · rfl
  | alterModel a n k =>
    simp only [goesOn, Option.isSome_eq_false_iff, Option.isNone_iff_eq_none] at h
    simp only [Stm.run, Stm.op, Gns.Op.run, Gns.exec, Gns.execAlterModel, h, Cat.reply]
    split <;> rfl
  | _ => simp [cls, Cls.second] at hk

/-- ALTER MODEL of a missing model looks at the models only. -/
theorem alter_missing {x : Stm} (h : cls x.s = .alter) {c c' : Cat} (hm : c'.models = c.models) (hg : goesOn c x.s = false) :
    (x.run c').reply = (x.run c).reply ∧ (x.run c').ev = none := by
  obtain ⟨perm, u, w, s⟩ := x
  cases s with
  | alterModel a n k =>
    simp only [goesOn, Option.isSome_eq_false_iff, Option.isNone_iff_eq_none] at hg
    simp only [Stm.run, Stm.op, Gns.Op.run, Gns.exec, Gns.execAlterModel, hg, hm, Cat.reply]
    split <;> exact ⟨rfl, rfl⟩
  | dropSpace a b d => cases b <;> simp [cls] at h
  | _ => simp [cls] at h

/-! ### The invariant -/

/-- What the client does on the indivisible catalogue. -/
def Ph.athr : Ph → AThr Op Ret
  | .idle => .idle
  | .called x | .has x => .pend x
  | .more x | .both x | .plan x _ _ | .ready x _ _ | .inside x _ _ | .wrote x _ _ | .effect x _ _ | .wants x _ _ | .insert x _ _
  | .rest x _ _ => .pend (.stm x)
  | .leave _ r => .done r

/-- The outcome `o` is right on a catalogue like `q`. -/
structure Plan (q : Cat) (x : Stm) (o : Out) (e : Event) : Prop where
  user : cls x.s = .user → ∀ c : Cat, c.users = q.users → x.run c = ⟨{ c with users := o.cat.users }, o.reply, some e⟩
  cat : cls x.s ≠ .user → ∀ c : Cat, c.spaces = q.spaces → c.models = q.models →
    x.run c = ⟨{ c with spaces := o.cat.spaces, models := o.cat.models }, o.reply, some e⟩

theorem Plan.of {q c : Cat} {x : Stm} {e : Event} (h : (x.run c).ev = some e) (hu : cls x.s = .user → c.users = q.users)
    (hc : cls x.s ≠ .user → c.spaces = q.spaces ∧ c.models = q.models) : Plan q x (x.run c) e where
  user k c' h' := by rw [run_user k (h'.trans (hu k).symm), h]
  cat k c' h1 h2 := by rw [run_cat k (h1.trans (hc k).1.symm) (h2.trans (hc k).2.symm), h]

/-- The catalogue `g` of the log has the effect. -/
structure Owes (g : Cat) (x : Stm) (o : Out) : Prop where
  user : cls x.s = .user → g.users = o.cat.users
  cat : cls x.s ≠ .user → g.spaces = o.cat.spaces ∧ g.models = o.cat.models

/-- What holds for a client: `c` is the catalogue, `q` the indivisible one, `g` what is in the log. -/
def Loc (c q g : Cat) : Ph → Prop
  | .has (.stm x) => x.u.root = true
  | .more x | .both x => cls x.s = .drop ∨ cls x.s = .force ∨ cls x.s = .alter
  | .plan x o e | .ready x o e | .inside x o e => Plan q x o e ∧ (cls x.s = .force → c.spaces = o.cat.spaces)
  | .wrote x o e | .effect x o e => Plan q x o e ∧ (cls x.s = .force → c.spaces = o.cat.spaces) ∧ Owes g x o
  | .wants x o e | .insert x o e => Plan q x o e ∧ Owes g x o ∧ c.spaces = o.cat.spaces ∧ cls x.s = .create
  | .rest x o e => Plan q x o e ∧ Owes g x o ∧ c.models = o.cat.models ∧ cls x.s = .drop
  | _ => True

/-- The spaces are changed although the statement is not finished. -/
def Ph.dirtyS : Ph → Bool
  | .wants .. | .insert .. => true
  | .plan x _ _ | .ready x _ _ | .inside x _ _ | .wrote x _ _ | .effect x _ _ => cls x.s = .force
  | _ => false

def Ph.dirtyM : Ph → Bool
  | .rest .. => true
  | _ => false

/-- The locks of two clients do not stand against each other. -/
def Sep (p r : Ph) : Prop := ∀ x ∈ p.locks, ∀ y ∈ r.locks, x.1 = y.1 → compat x.2 y.2 = true

structure Good (c q g : Cat) (ts : List Ph) : Prop where
  excl : ∀ (i j : Nat) (p r : Ph), ts[i]? = some p → ts[j]? = some r → i ≠ j → Sep p r
  loc : ∀ (i : Nat) (p : Ph), ts[i]? = some p → Loc c q g p
  users : c.users = q.users
  spaces : (∀ p ∈ ts, p.dirtyS = false) → c.spaces = q.spaces
  models : (∀ p ∈ ts, p.dirtyM = false) → c.models = q.models
  gusers : (∀ p ∈ ts, p.owesUsers = false) → g.users = q.users
  gcat : (∀ p ∈ ts, p.owesCat = false) → g.spaces = q.spaces ∧ g.models = q.models

theorem compat_comm (a b : Mode) : compat a b = compat b a := by cases a <;> cases b <;> rfl

theorem Sep.symm {p r : Ph} (h : Sep p r) : Sep r p := fun x hx y hy e => by
  rw [compat_comm]; exact h y hy x hx e.symm

theorem Sep.false_of {p r : Ph} (h : Sep p r) {l : Lock} {m m' : Mode} (h1 : (l, m) ∈ p.locks) (h2 : (l, m') ∈ r.locks)
    (hc : compat m m' = false) : False := by
  have := h _ h1 _ h2 rfl
  rw [hc] at this
  cases this

theorem compat_write (m : Mode) : compat m .write = false := by cases m <;> rfl
theorem write_compat (m : Mode) : compat .write m = false := by cases m <;> rfl

/-- Two statements about spaces and models are never both at the log. -/
theorem full_clash {a b : Cls} (ha : a ≠ .user) (hb : b ≠ .user) :
    ∃ l m m', (l, m) ∈ a.full ∧ (l, m') ∈ b.full ∧ compat m m' = false := by
  cases a <;> cases b <;> first | exact absurd rfl ha | exact absurd rfl hb | skip
  all_goals first
    | (refine ⟨.spaces, .write, .write, ?_, ?_, rfl⟩ <;> simp [Cls.full]; done)
    | (refine ⟨.spaces, .write, .read, ?_, ?_, rfl⟩ <;> simp [Cls.full]; done)
    | (refine ⟨.spaces, .read, .write, ?_, ?_, rfl⟩ <;> simp [Cls.full]; done)
    | (refine ⟨.models, .write, .write, ?_, ?_, rfl⟩ <;> simp [Cls.full]; done)

theorem dirtyS_locks {c q g : Cat} {r : Ph} (h : r.dirtyS = true) (hl : Loc c q g r) : (Lock.spaces, Mode.write) ∈ r.locks := by
  cases r <;> simp only [Ph.dirtyS, Bool.false_eq_true, decide_eq_true_eq] at h <;> simp only [Ph.locks, Loc] at hl ⊢
  case wants => rw [hl.2.2.2]; simp [Cls.full]
  case insert => rw [hl.2.2.2]; simp [Cls.full]
  all_goals (rw [h]; simp [Cls.full])

theorem dirtyM_locks {c q g : Cat} {r : Ph} (h : r.dirtyM = true) (hl : Loc c q g r) :
    (Lock.spaces, Mode.write) ∈ r.locks ∧ (Lock.models, Mode.write) ∈ r.locks := by
  cases r <;> simp only [Ph.dirtyM, Bool.false_eq_true] at h
  simp only [Ph.locks, Loc] at hl ⊢
  rw [hl.2.2.2]; simp [Cls.full]

theorem owesUsers_locks {r : Ph} (h : r.owesUsers = true) : (Lock.users, Mode.write) ∈ r.locks := by
  cases r <;> simp only [Ph.owesUsers, Bool.false_eq_true, decide_eq_true_eq] at h <;> simp only [Ph.locks] <;> rw [h] <;> simp [Cls.full]

theorem owesCat_locks {c q g : Cat} {r : Ph} (h : r.owesCat = true) (hl : Loc c q g r) : ∃ k : Cls, k ≠ .user ∧ ∀ x ∈ k.full, x ∈ r.locks := by
  cases r <;> simp only [Ph.owesCat, Bool.false_eq_true, decide_eq_true_eq] at h <;> simp only [Loc] at hl
  case wrote x o e => exact ⟨cls x.s, h, fun y hy => by simp [Ph.locks, hy]⟩
  case effect x o e => exact ⟨cls x.s, h, fun y hy => by simp [Ph.locks, hy]⟩
  case wants x o e => exact ⟨cls x.s, by rw [hl.2.2.2]; simp, fun y hy => by simp [Ph.locks, hy]⟩
  case insert x o e => exact ⟨cls x.s, by rw [hl.2.2.2]; simp, fun y hy => by simp [Ph.locks, hy]⟩
  case rest x o e => exact ⟨cls x.s, by rw [hl.2.2.2]; simp, fun y hy => by simp [Ph.locks, hy]⟩

/-- In a list, every element is thread `i` or another thread. -/
theorem forall_ts {P : Ph → Prop} {ts : List Ph} {i : Nat} {p : Ph} (hi : ts[i]? = some p) (hp : P p)
    (ho : ∀ (j : Nat) (r : Ph), ts[j]? = some r → j ≠ i → P r) : ∀ r ∈ ts, P r := by
  intro r hr
  obtain ⟨j, hj, e⟩ := List.mem_iff_getElem.1 hr
  have hj' : ts[j]? = some r := by rw [← e]; exact List.getElem?_eq_getElem hj
  by_cases h : j = i
  · subst h
    rw [hi] at hj'
    cases hj'
    exact hp
  · exact ho j r hj' h

section facts
variable {c q g : Cat} {ts : List Ph} {i : Nat} {p : Ph}

/-- Who holds the spaces sees the spaces of the indivisible catalogue. -/
theorem Good.spaces_of (h : Good c q g ts) (hi : ts[i]? = some p) {m : Mode} (hl : (Lock.spaces, m) ∈ p.locks) (hd : p.dirtyS = false) :
    c.spaces = q.spaces := by
  refine h.spaces (forall_ts hi hd fun j r hj hne => ?_)
  cases hr : r.dirtyS with
  | false => rfl
  | true => exact ((h.excl i j p r hi hj (Ne.symm hne)).false_of hl (dirtyS_locks hr (h.loc j r hj)) (compat_write _)).elim

/-- Who holds the spaces or the models sees the models of the indivisible catalogue. -/
theorem Good.models_of (h : Good c q g ts) (hi : ts[i]? = some p) {m : Mode} (hl : (Lock.spaces, m) ∈ p.locks ∨ (Lock.models, m) ∈ p.locks)
    (hd : p.dirtyM = false) : c.models = q.models := by
  refine h.models (forall_ts hi hd fun j r hj hne => ?_)
  cases hr : r.dirtyM with
  | false => rfl
  | true =>
    have hx := h.excl i j p r hi hj (Ne.symm hne)
    have hy := dirtyM_locks hr (h.loc j r hj)
    rcases hl with hl | hl
    · exact (hx.false_of hl hy.1 (compat_write _)).elim
    · exact (hx.false_of hl hy.2 (compat_write _)).elim

theorem Good.gusers_of (h : Good c q g ts) (hi : ts[i]? = some p) {m : Mode} (hl : (Lock.users, m) ∈ p.locks) (hd : p.owesUsers = false) :
    g.users = q.users := by
  refine h.gusers (forall_ts hi hd fun j r hj hne => ?_)
  cases hr : r.owesUsers with
  | false => rfl
  | true => exact ((h.excl i j p r hi hj (Ne.symm hne)).false_of hl (owesUsers_locks hr) (compat_write _)).elim

theorem Good.gcat_of (h : Good c q g ts) (hi : ts[i]? = some p) {k : Cls} (hk : k ≠ .user) (hl : ∀ x ∈ k.full, x ∈ p.locks)
    (hd : p.owesCat = false) : g.spaces = q.spaces ∧ g.models = q.models := by
  refine h.gcat (forall_ts hi hd fun j r hj hne => ?_)
  cases hr : r.owesCat with
  | false => rfl
  | true =>
    obtain ⟨k', hk', hl'⟩ := owesCat_locks hr (h.loc j r hj)
    obtain ⟨l, m, m', h1, h2, h3⟩ := full_clash hk hk'
    exact ((h.excl i j p r hi hj (Ne.symm hne)).false_of (hl _ h1) (hl' _ h2) h3).elim

end facts

theorem Plan.keep {q q' : Cat} {x : Stm} {o : Out} {e : Event} (h : Plan q x o e) (hu : cls x.s = .user → q'.users = q.users)
    (hc : cls x.s ≠ .user → q'.spaces = q.spaces ∧ q'.models = q.models) : Plan q' x o e where
  user k c hc' := h.user k c (hc'.trans (hu k))
  cat k c h1 h2 := h.cat k c (h1.trans (hc k).1) (h2.trans (hc k).2)

theorem Owes.keep {g g' : Cat} {x : Stm} {o : Out} (h : Owes g x o) (hu : cls x.s = .user → g'.users = g.users)
    (hc : cls x.s ≠ .user → g'.spaces = g.spaces ∧ g'.models = g.models) : Owes g' x o where
  user k := (hu k).trans (h.user k)
  cat k := ⟨(hc k).1.trans (h.cat k).1, (hc k).2.trans (h.cat k).2⟩

/-- What a client may change without disturbing the others. -/
structure May (p : Ph) (c q g c' q' g' : Cat) : Prop where
  spaces : c'.spaces = c.spaces ∨ (Lock.spaces, Mode.write) ∈ p.locks
  models : c'.models = c.models ∨ (Lock.models, Mode.write) ∈ p.locks
  users : (q'.users = q.users ∧ g'.users = g.users) ∨ (Lock.users, Mode.write) ∈ p.locks
  cat : (q'.spaces = q.spaces ∧ q'.models = q.models ∧ g'.spaces = g.spaces ∧ g'.models = g.models) ∨
    ∃ k : Cls, k ≠ .user ∧ ∀ x ∈ k.full, x ∈ p.locks

theorem May.refl (p : Ph) (c q g : Cat) : May p c q g c q g := ⟨.inl rfl, .inl rfl, .inl ⟨rfl, rfl⟩, .inl ⟨rfl, rfl, rfl, rfl⟩⟩

/-- The facts about the others stay. -/
theorem loc_other {p r : Ph} {c q g c' q' g' : Cat} (h : May p c q g c' q' g') (hs : Sep p r) (hl : Loc c q g r) : Loc c' q' g' r := by
  have husers : ∀ {x : Stm}, cls x.s = .user → (∀ y ∈ (cls x.s).full, y ∈ r.locks) → q'.users = q.users ∧ g'.users = g.users := by
    intro x hx hf
    rcases h.users with h | h
    · exact h
    · exact (hs.false_of h (hf (.users, .write) (by rw [hx]; simp [Cls.full])) rfl).elim
  have hcat : ∀ {x : Stm}, cls x.s ≠ .user → (∀ y ∈ (cls x.s).full, y ∈ r.locks) →
      q'.spaces = q.spaces ∧ q'.models = q.models ∧ g'.spaces = g.spaces ∧ g'.models = g.models := by
    intro x hx hf
    rcases h.cat with h | ⟨k, hk, h⟩
    · exact h
    · obtain ⟨l, m, m', h1, h2, h3⟩ := full_clash hk hx
      exact (hs.false_of (h _ h1) (hf _ h2) h3).elim
  have hplan : ∀ {x : Stm} {o : Out} {e : Event}, (∀ y ∈ (cls x.s).full, y ∈ r.locks) → Plan q x o e → Plan q' x o e := fun hf hp =>
    hp.keep (fun k => (husers k hf).1) fun k => ⟨(hcat k hf).1, (hcat k hf).2.1⟩
  have howes : ∀ {x : Stm} {o : Out}, (∀ y ∈ (cls x.s).full, y ∈ r.locks) → Owes g x o → Owes g' x o := fun hf hp =>
    hp.keep (fun k => (husers k hf).2) fun k => (hcat k hf).2.2
  have hsp : (Lock.spaces, Mode.write) ∈ r.locks → c'.spaces = c.spaces := fun hr => by
    rcases h.spaces with h | h
    · exact h
    · exact (hs.false_of h hr rfl).elim
  have hmo : (Lock.models, Mode.write) ∈ r.locks → c'.models = c.models := fun hr => by
    rcases h.models with h | h
    · exact h
    · exact (hs.false_of h hr rfl).elim
  have hforce : ∀ {x : Stm} {o : Out}, (∀ y ∈ (cls x.s).full, y ∈ r.locks) → (cls x.s = .force → c.spaces = o.cat.spaces) →
      cls x.s = .force → c'.spaces = o.cat.spaces := fun hf h1 hk =>
    (hsp (hf (.spaces, .write) (by rw [hk]; simp [Cls.full]))).trans (h1 hk)
  cases r with
  | plan x o e =>
    have hf : ∀ y ∈ (cls x.s).full, y ∈ (Ph.plan x o e).locks := fun y hy => by simp [Ph.locks, hy]
    exact ⟨hplan hf hl.1, hforce hf hl.2⟩
  | ready x o e =>
    have hf : ∀ y ∈ (cls x.s).full, y ∈ (Ph.ready x o e).locks := fun y hy => by simp [Ph.locks, hy]
    exact ⟨hplan hf hl.1, hforce hf hl.2⟩
  | inside x o e =>
    have hf : ∀ y ∈ (cls x.s).full, y ∈ (Ph.inside x o e).locks := fun y hy => by simp [Ph.locks, hy]
    exact ⟨hplan hf hl.1, hforce hf hl.2⟩
  | wrote x o e =>
    have hf : ∀ y ∈ (cls x.s).full, y ∈ (Ph.wrote x o e).locks := fun y hy => by simp [Ph.locks, hy]
    exact ⟨hplan hf hl.1, hforce hf hl.2.1, howes hf hl.2.2⟩
  | effect x o e =>
    have hf : ∀ y ∈ (cls x.s).full, y ∈ (Ph.effect x o e).locks := fun y hy => by simp [Ph.locks, hy]
    exact ⟨hplan hf hl.1, hforce hf hl.2.1, howes hf hl.2.2⟩
  | wants x o e =>
    have hf : ∀ y ∈ (cls x.s).full, y ∈ (Ph.wants x o e).locks := fun y hy => by simp [Ph.locks, hy]
    exact ⟨hplan hf hl.1, howes hf hl.2.1, (hsp (hf (.spaces, .write) (by rw [hl.2.2.2]; simp [Cls.full]))).trans hl.2.2.1, hl.2.2.2⟩
  | insert x o e =>
    have hf : ∀ y ∈ (cls x.s).full, y ∈ (Ph.insert x o e).locks := fun y hy => by simp [Ph.locks, hy]
    exact ⟨hplan hf hl.1, howes hf hl.2.1, (hsp (hf (.spaces, .write) (by rw [hl.2.2.2]; simp [Cls.full]))).trans hl.2.2.1, hl.2.2.2⟩
  | rest x o e =>
    have hf : ∀ y ∈ (cls x.s).full, y ∈ (Ph.rest x o e).locks := fun y hy => by simp [Ph.locks, hy]
    exact ⟨hplan hf hl.1, howes hf hl.2.1, (hmo (hf (.models, .write) (by rw [hl.2.2.2]; simp [Cls.full]))).trans hl.2.2.1, hl.2.2.2⟩
  | has x => cases x <;> exact hl
  | _ => exact hl

theorem free_spec {ts : List Ph} {x : Lock × Mode} (h : free ts x = true) {p : Ph} (hp : p ∈ ts) : ∀ y ∈ p.locks, y.1 = x.1 → compat y.2 x.2 = true := by
  intro y hy e
  have := List.all_eq_true.1 h p hp
  have := List.all_eq_true.1 this y hy
  simpa [e] using this

/-- A step of client `i`. -/
theorem Good.move {c q g c' q' g' : Cat} {ts : List Ph} {i : Nat} {p p' : Ph} (h : Good c q g ts) (hi : ts[i]? = some p)
    (hl : ∀ x ∈ p'.locks, x ∈ p.locks ∨ free ts x = true) (hm : May p c q g c' q' g') (mine : Loc c' q' g' p')
    (hu : c'.users = q'.users)
    (hS : p'.dirtyS = false → (p.dirtyS = false → c.spaces = q.spaces) → c'.spaces = q'.spaces)
    (hM : p'.dirtyM = false → (p.dirtyM = false → c.models = q.models) → c'.models = q'.models)
    (hgu : p'.owesUsers = false → (p.owesUsers = false → g.users = q.users) → g'.users = q'.users)
    (hgc : p'.owesCat = false → (p.owesCat = false → g.spaces = q.spaces ∧ g.models = q.models) →
      g'.spaces = q'.spaces ∧ g'.models = q'.models) :
    Good c' q' g' (ts.set i p') := by
  have hlt : i < ts.length := (List.getElem?_eq_some_iff.1 hi).1
  have hset : (ts.set i p')[i]? = some p' := by simp [hlt]
  have hoth : ∀ {j : Nat}, j ≠ i → (ts.set i p')[j]? = ts[j]? := fun hj => by simp [Ne.symm hj]
  have sep : ∀ (j : Nat) (r : Ph), ts[j]? = some r → j ≠ i → Sep p' r := by
    intro j r hj hne x hx y hy e
    rcases hl x hx with h1 | h1
    · exact h.excl i j p r hi hj (Ne.symm hne) x h1 y hy e
    · rw [compat_comm]
      exact free_spec h1 (List.mem_of_getElem? hj) y hy e.symm
  have others : ∀ {P : Ph → Bool}, (∀ r ∈ ts.set i p', P r = false) → P p' = false ∧ (P p = false → ∀ r ∈ ts, P r = false) := by
    intro P hall
    refine ⟨hall p' (List.mem_of_getElem? hset), fun hp => forall_ts hi hp fun j r hj hne => ?_⟩
    exact hall r (List.mem_of_getElem? ((hoth hne).trans hj))
  refine ⟨?_, ?_, hu, ?_, ?_, ?_, ?_⟩
  · intro a b x y ha hb hab
    by_cases ha' : a = i
    · subst ha'
      rw [hset] at ha
      cases ha
      rw [hoth (Ne.symm hab)] at hb
      exact sep b y hb (Ne.symm hab)
    · rw [hoth ha'] at ha
      by_cases hb' : b = i
      · subst hb'
        rw [hset] at hb
        cases hb
        exact (sep a x ha ha').symm
      · rw [hoth hb'] at hb
        exact h.excl a b x y ha hb hab
  · intro j r hj
    by_cases hj' : j = i
    · subst hj'
      rw [hset] at hj
      cases hj
      exact mine
    · rw [hoth hj'] at hj
      exact loc_other hm (h.excl i j p r hi hj (Ne.symm hj')) (h.loc j r hj)
  · intro hall
    obtain ⟨h1, h2⟩ := others hall
    exact hS h1 fun hp => h.spaces (h2 hp)
  · intro hall
    obtain ⟨h1, h2⟩ := others hall
    exact hM h1 fun hp => h.models (h2 hp)
  · intro hall
    obtain ⟨h1, h2⟩ := others hall
    exact hgu h1 fun hp => h.gusers (h2 hp)
  · intro hall
    obtain ⟨h1, h2⟩ := others hall
    exact hgc h1 fun hp => h.gcat (h2 hp)

/-- A step that changes neither catalogue. -/
theorem Good.keep {c q g : Cat} {ts : List Ph} {i : Nat} {p p' : Ph} (h : Good c q g ts) (hi : ts[i]? = some p)
    (hl : ∀ x ∈ p'.locks, x ∈ p.locks ∨ free ts x = true) (mine : Loc c q g p') (h1 : p'.dirtyS = p.dirtyS) (h2 : p'.dirtyM = p.dirtyM)
    (h3 : p'.owesUsers = p.owesUsers) (h4 : p'.owesCat = p.owesCat) : Good c q g (ts.set i p') :=
  h.move hi hl (May.refl ..) mine h.users (fun a b => b (h1 ▸ a)) (fun a b => b (h2 ▸ a)) (fun a b => b (h3 ▸ a)) (fun a b => b (h4 ▸ a))

end Verif.Ddl
