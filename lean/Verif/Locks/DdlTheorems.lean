import Verif.Locks.DdlSim
/-!
C71: statements that change the catalogue or the accounts at the same time are carried out as if one after the other, and the log has the
same order.
-/
namespace Verif.Ddl
open Verif.Gns (Cat Space Model World Out QErr Client)
open Verif.Enc (Event Fields)
open Verif.Conc (Obj Ev AThr ASt AStep ARun upd Linearizable)
open Verif.Journal (JW)

/-! ### The log on disk -/

/-- Whether a call succeeded. -/
def isOk {ε α : Type} : Res ε α → Bool
  | .ok _ => true
  | _ => false

/-- The log file: `commit_event` (storage/v2/raw/journal/raw/mod.rs:563-568) and `__lwt_heartbeat` (lines 570-581). -/
def disk : Log JW where
  commit w e := match w.commitEvent (Gns.toEv e) with
    | (w, r) => (w, isOk r)
  check w := match w.heartbeat with
    | (w, r) => (w, isOk r)

/-- The answers to statements in a history. -/
def answers : List (Ev Op Ret) → List (Nat × Res QErr (Option Bool))
  | [] => []
  | .ret i (.reply r) :: es => (i, r) :: answers es
  | _ :: es => answers es

/-! ### From the steps to whole schedules -/

theorem ARun.mem_of_pend {O : Obj Cat Op Ret} {q0 : Cat} {es : List (Ev Op Ret)} {a : ASt Cat Op Ret} (h : ARun O ⟨q0, fun _ => .idle⟩ es a) :
    ∀ {i x}, a.thr i = .pend x → Ev.call i x ∈ es := by
  generalize ha : (⟨q0, fun _ => .idle⟩ : ASt Cat Op Ret) = a0 at h
  induction h with
  | refl => subst ha; intro i x hx; cases hx
  | @tail es b o c h hs ih =>
    intro i x hx
    cases hs with
    | @call t op _ =>
      by_cases hi : i = t
      · subst hi; simp only [Conc.upd_same] at hx; cases hx; simp
      · simp only [Conc.upd_other _ _ hi] at hx; simp [ih hx]
    | @lin t op _ =>
      by_cases hi : i = t
      · subst hi; simp only [Conc.upd_same] at hx; cases hx
      · simp only [Conc.upd_other _ _ hi] at hx; simp [ih hx]
    | @ret t r _ =>
      by_cases hi : i = t
      · subst hi; simp only [Conc.upd_same] at hx; cases hx
      · simp only [Conc.upd_other _ _ hi] at hx; simp [ih hx]

/-- What holds after a schedule. -/
structure Reach (c0 : Cat) (l0 : List Event) (s : Sys (List Event)) (es : List (Ev Op Ret)) (a : ASt Cat Op Ret) (g : Cat) (S : List Stm) : Prop where
  inv : Inv c0 l0 s a g S
  run : ARun obj ⟨c0, fun _ => .idle⟩ es a
  sent : ∀ x ∈ S, ∃ i, Ev.call i (.stm x) ∈ es

theorem Reach.run_from {c0 : Cat} {l0 : List Event} : ∀ {acts : List Act} {s s' : Sys (List Event)} {es es' : List (Ev Op Ret)} {a g S},
    Reach c0 l0 s es a g S → Ddl.run mem s acts = some (s', es') → ∃ a' g' S', Reach c0 l0 s' (es ++ es') a' g' S'
  | [], s, s', es, es', a, g, S, h, hr => by
    simp only [Ddl.run, Option.some.injEq, Prod.mk.injEq] at hr
    obtain ⟨rfl, rfl⟩ := hr
    exact ⟨a, g, S, by simpa using h⟩
  | act :: acts, s, s', es, es', a, g, S, h, hr => by
    simp only [Ddl.run, Option.bind_eq_some_iff, Option.map_eq_some_iff] at hr
    obtain ⟨⟨s1, ev⟩, h1, ⟨s2, es2⟩, h2, h3⟩ := hr
    simp only [Prod.mk.injEq] at h3
    obtain ⟨rfl, rfl⟩ := h3
    obtain ⟨a', g', S', h4, h5, h6⟩ := sim_step h.inv h1
    have hrun : ARun obj ⟨c0, fun _ => .idle⟩ (es ++ ev.toList) a' := by
      rcases h4 with ⟨rfl, rfl⟩ | h4
      · simpa using h.run
      · exact .tail h.run h4
    have hsent : ∀ x ∈ S', ∃ i, Ev.call i (.stm x) ∈ es ++ ev.toList := by
      intro x hx
      rcases h6 with rfl | ⟨i, y, hy, rfl⟩
      · obtain ⟨i, hi⟩ := h.sent x hx
        exact ⟨i, List.mem_append.2 (.inl hi)⟩
      · rcases List.mem_append.1 hx with hx | hx
        · obtain ⟨i, hi⟩ := h.sent x hx
          exact ⟨i, List.mem_append.2 (.inl hi)⟩
        · simp only [List.mem_singleton] at hx
          subst hx
          exact ⟨i, List.mem_append.2 (.inl (ARun.mem_of_pend h.run hy))⟩
    have := Reach.run_from (s := s1) (es := es ++ ev.toList) ⟨h5, hrun, hsent⟩ h2
    simpa [List.append_assoc] using this

theorem start_inv (c0 : Cat) (l0 : List Event) (n : Nat) : Inv c0 l0 (start c0 l0 n) ⟨c0, fun _ => .idle⟩ c0 [] where
  good := by
    have hid : ∀ (i : Nat) (p : Ph), (List.replicate n Ph.idle)[i]? = some p → p = .idle := by
      intro i p hp
      exact List.eq_of_mem_replicate (List.mem_of_getElem? hp)
    refine ⟨?_, ?_, rfl, fun _ => rfl, fun _ => rfl, fun _ => rfl, fun _ => ⟨rfl, rfl⟩⟩
    · intro i j p r hi hj _ x hx
      rw [hid i p hi] at hx
      simp [Ph.locks] at hx
    · intro i p hi
      rw [hid i p hi]
      trivial
  thr i := by
    show _ = (((List.replicate n Ph.idle)[i]?).getD .idle).athr
    cases h : (List.replicate n Ph.idle)[i]? with
    | none => rfl
    | some p => rw [List.eq_of_mem_replicate (List.mem_of_getElem? h)]; rfl
  iffy := rfl
  ses := ⟨[], rfl, by simp [start]⟩

theorem reach {c0 : Cat} {l0 : List Event} {n : Nat} {acts : List Act} {s : Sys (List Event)} {es : List (Ev Op Ret)}
    (h : run mem (start c0 l0 n) acts = some (s, es)) : ∃ a g S, Reach c0 l0 s es a g S := by
  have h0 : Reach c0 l0 (start c0 l0 n) [] ⟨c0, fun _ => .idle⟩ c0 [] := ⟨start_inv c0 l0 n, .refl _, by simp⟩
  simpa using h0.run_from h

theorem exists_or_none (P : Ph → Bool) (ts : List Ph) : (∃ (i : Nat) (p : Ph), ts[i]? = some p ∧ P p = true) ∨ ∀ p ∈ ts, P p = false := by
  by_cases h : ∃ (i : Nat) (p : Ph), ts[i]? = some p ∧ P p = true
  · exact .inl h
  · refine .inr fun p hp => ?_
    obtain ⟨i, hi, e⟩ := List.mem_iff_getElem.1 hp
    cases hP : P p with
    | false => rfl
    | true => exact (h ⟨i, p, by rw [← e]; exact List.getElem?_eq_getElem hi, hP⟩).elim

theorem owesUsers_plan {c q g : Cat} {p : Ph} (h : p.owesUsers = true) (hl : Loc c q g p) :
    ∃ x o e, p.athr = .pend (.stm x) ∧ cls x.s = .user ∧ Plan q x o e ∧ Owes g x o := by
  cases p <;> simp only [Ph.owesUsers, Bool.false_eq_true, decide_eq_true_eq] at h <;> simp only [Loc] at hl
  case wrote x o e => exact ⟨x, o, e, rfl, h, hl.1, hl.2.2⟩
  case effect x o e => exact ⟨x, o, e, rfl, h, hl.1, hl.2.2⟩

theorem owesCat_plan {c q g : Cat} {p : Ph} (h : p.owesCat = true) (hl : Loc c q g p) :
    ∃ x o e, p.athr = .pend (.stm x) ∧ cls x.s ≠ .user ∧ Plan q x o e ∧ Owes g x o := by
  cases p <;> simp only [Ph.owesCat, Bool.false_eq_true, decide_eq_true_eq] at h <;> simp only [Loc] at hl
  case wrote x o e => exact ⟨x, o, e, rfl, h, hl.1, hl.2.2⟩
  case effect x o e => exact ⟨x, o, e, rfl, h, hl.1, hl.2.2⟩
  case wants x o e => exact ⟨x, o, e, rfl, by rw [hl.2.2.2]; simp, hl.1, hl.2.1⟩
  case insert x o e => exact ⟨x, o, e, rfl, by rw [hl.2.2.2]; simp, hl.1, hl.2.1⟩
  case rest x o e => exact ⟨x, o, e, rfl, by rw [hl.2.2.2]; simp, hl.1, hl.2.1⟩

/-- What is in the log can be carried out now. -/
theorem Reach.finish {c0 : Cat} {l0 : List Event} {s : Sys (List Event)} {es : List (Ev Op Ret)} {a : ASt Cat Op Ret} {g : Cat} {S : List Stm}
    (h : Reach c0 l0 s es a g S) : ∃ a', ARun obj ⟨c0, fun _ => .idle⟩ es a' ∧ a'.q = g := by
  have hinv := h.inv
  have first : ∃ a1, ARun obj ⟨c0, fun _ => .idle⟩ es a1 ∧ a1.q.users = g.users ∧ a1.q.spaces = a.q.spaces ∧ a1.q.models = a.q.models ∧
      ∀ i p, s.ts[i]? = some p → p.owesCat = true → a1.thr i = p.athr := by
    rcases exists_or_none Ph.owesUsers s.ts with ⟨i, p, hi, hp⟩ | hno
    · obtain ⟨x, o, e, h1, h2, h3, h4⟩ := owesUsers_plan hp (hinv.good.loc i p hi)
      have hs : AStep obj a none ⟨(obj.apply a.q (.stm x)).1, upd a.thr i (.done (obj.apply a.q (.stm x)).2)⟩ := .lin (by rw [hinv.pend hi, h1])
      rw [h3.apply, if_pos h2] at hs
      have hr := ARun.tail h.run hs
      simp only [Option.toList_none, List.append_nil] at hr
      refine ⟨_, hr, (h4.user h2).symm, rfl, rfl, ?_⟩
      intro j r hj hr
      by_cases hij : j = i
      · subst hij
        rw [hi] at hj
        cases hj
        obtain ⟨x', o', e', h1', h2', _⟩ := owesCat_plan hr (hinv.good.loc j _ hi)
        rw [h1] at h1'
        cases h1'
        exact absurd h2 h2'
      · simp only [Conc.upd_other _ _ hij]; exact hinv.pend hj
    · exact ⟨a, h.run, (hinv.good.gusers hno).symm, rfl, rfl, fun i p hi _ => hinv.pend hi⟩
  obtain ⟨a1, r1, u1, s1, m1, t1⟩ := first
  have ext : ∀ {x y : Cat}, x.users = y.users → x.spaces = y.spaces → x.models = y.models → x = y := by
    rintro ⟨_, _, _⟩ ⟨_, _, _⟩ h1 h2 h3
    simp only at h1 h2 h3
    rw [h1, h2, h3]
  rcases exists_or_none Ph.owesCat s.ts with ⟨i, p, hi, hp⟩ | hno
  · obtain ⟨x, o, e, h1, h2, h3, h4⟩ := owesCat_plan hp (hinv.good.loc i p hi)
    have h3' : Plan a1.q x o e := h3.keep (fun k => absurd k h2) fun _ => ⟨s1, m1⟩
    have hs : AStep obj a1 none ⟨(obj.apply a1.q (.stm x)).1, upd a1.thr i (.done (obj.apply a1.q (.stm x)).2)⟩ := .lin (by rw [t1 i p hi hp, h1])
    rw [h3'.apply, if_neg h2] at hs
    have hr := ARun.tail r1 hs
    simp only [Option.toList_none, List.append_nil] at hr
    exact ⟨_, hr, ext u1 (h4.cat h2).1.symm (h4.cat h2).2.symm⟩
  · have := hinv.good.gcat hno
    exact ⟨a1, r1, ext u1 (s1.trans this.1.symm) (m1.trans this.2.symm)⟩

/-- When nobody does anything, all three catalogues are the same. -/
theorem Reach.quiet {c0 : Cat} {l0 : List Event} {s : Sys (List Event)} {es : List (Ev Op Ret)} {a : ASt Cat Op Ret} {g : Cat} {S : List Stm}
    (h : Reach c0 l0 s es a g S) (hq : ∀ p ∈ s.ts, p = .idle) : s.c = g := by
  have h1 := h.inv.good.users
  have h2 := h.inv.good.spaces fun p hp => by rw [hq p hp]; rfl
  have h3 := h.inv.good.models fun p hp => by rw [hq p hp]; rfl
  have h4 := h.inv.good.gusers fun p hp => by rw [hq p hp]; rfl
  have h5 := h.inv.good.gcat fun p hp => by rw [hq p hp]; rfl
  have ext : ∀ {x y : Cat}, x.users = y.users → x.spaces = y.spaces → x.models = y.models → x = y := by
    rintro ⟨_, _, _⟩ ⟨_, _, _⟩ h1 h2 h3
    simp only at h1 h2 h3
    rw [h1, h2, h3]
  exact ext (h1.trans h4.symm) (h2.trans h5.1.symm) (h3.trans h5.2.symm)

/-! ### The theorems -/

/-- **C71, partial.** Any number of clients send any statements and look at the catalogue, in any interleaving; the log can be written.
What they see is what they could have seen of a catalogue that carries out one statement after the other, each of them between its call
and its answer. At any moment the log is that of the same statements in the same order, as far as the clients have seen them: some
sequential execution `a` explains both what the clients have seen and what is in the log. (Missing: `C71_race_violated`.) -/
theorem C71_one_after_the_other_partial {c0 : Cat} {l0 : List Event} {n : Nat} {acts : List Act} {s : Sys (List Event)}
    {es : List (Ev Op Ret)} (h : run mem (start c0 l0 n) acts = some (s, es)) :
    Linearizable obj c0 es ∧
    ∃ (a : ASt Cat Op Ret) (S : List Stm) (new : List Event), ARun obj ⟨c0, fun _ => .idle⟩ es a ∧ (∀ x ∈ S, ∃ i, Ev.call i (.stm x) ∈ es) ∧
      Gns.session c0 (S.map Stm.op) = (a.q, new) ∧ s.log = l0 ++ new ∧ ((∀ p ∈ s.ts, p = .idle) → s.c = a.q) := by
  obtain ⟨a, g, S, hr⟩ := reach h
  obtain ⟨a', h1, h2⟩ := hr.finish
  obtain ⟨new, h3, h4⟩ := hr.inv.ses
  exact ⟨⟨a, hr.run⟩, a', S, new, h1, hr.sent, by rw [h2]; exact h3, h4, fun hq => by rw [h2]; exact hr.quiet hq⟩

theorem op_ok {x : Stm} : ¬ x.op.lostDrop := by
  obtain ⟨perm, u, w, st⟩ := x
  cases st with
  | dropSpace a b d => cases b <;> simp [Stm.op, Gns.Op.lostDrop]
  | _ => simp [Stm.op, Gns.Op.lostDrop]

theorem session_append {c : Cat} : ∀ {as bs : List Gns.Op} {c1 c2 : Cat} {l1 l2 : List Event}, Gns.session c as = (c1, l1) →
    Gns.session c1 bs = (c2, l2) → Gns.session c (as ++ bs) = (c2, l1 ++ l2) := by
  intro as
  induction as generalizing c with
  | nil =>
    intro bs c1 c2 l1 l2 h1 h2
    simp only [Gns.session, Prod.mk.injEq] at h1
    obtain ⟨rfl, rfl⟩ := h1
    exact h2
  | cons y as ih =>
    intro bs c1 c2 l1 l2 h1 h2
    simp only [List.cons_append, Gns.session] at h1 ⊢
    rcases hx : Gns.session (y.run c).cat as with ⟨g1, es1⟩
    rw [hx] at h1
    simp only [Prod.mk.injEq] at h1
    obtain ⟨rfl, rfl⟩ := h1
    rw [ih hx h2]
    simp

/-! ### On disk -/

/-- The same state with another log. -/
def Sys.with {σ τ : Type} (s : Sys σ) (l : τ) : Sys τ := ⟨s.c, l, s.iffy, s.ts⟩

/-- The journal after these events. -/
def Holds (w0 w : JW) (l : List Event) : Prop := w.Idle ∧ w0.commitAll (l.map Gns.toEv) = (w, .ok ())

theorem Holds.commit {w0 w : JW} {l : List Event} (h : Holds w0 w l) (e : Event) :
    ∃ w', disk.commit w e = (w', true) ∧ Holds w0 w' (l ++ [e]) := by
  obtain ⟨w', h1, h2, _⟩ := h.1.commitEvent (Gns.toEv e)
  refine ⟨w', by simp only [disk, h1, isOk], h2, ?_⟩
  have : ∀ (evs : List Journal.Ev) (w0 : JW), w0.commitAll evs = (w, .ok ()) → w0.commitAll (evs ++ [Gns.toEv e]) = (w', .ok ()) := by
    intro evs
    induction evs with
    | nil =>
      intro w0 h0
      simp only [JW.commitAll, Prod.mk.injEq, and_true] at h0
      subst h0
      simp only [List.nil_append, JW.commitAll, h1]
    | cons y evs ih =>
      intro w0 h0
      simp only [List.cons_append, JW.commitAll] at h0 ⊢
      split at h0
      · exact ih _ h0
      · rename_i hne _
        simp only [Prod.mk.injEq] at h0
        exact (hne h0.2).elim
  simpa using this _ _ h.2

theorem decide_with {σ τ : Type} (s : Sys σ) (l : τ) (i : Nat) (x : Stm) (held : List (Lock × Mode)) :
    decide (s.with l) i x held = (decide s i x held).with l ∧ (decide s i x held).log = s.log ∧ (decide s i x held).iffy = s.iffy := by
  have hc : (s.with l).c = s.c := rfl
  simp only [decide, hc]
  split
  · exact ⟨rfl, rfl, rfl⟩
  · split <;> exact ⟨rfl, rfl, rfl⟩

theorem hasStep_with {σ τ : Type} (s : Sys σ) (l : τ) (i : Nat) (x : Op) :
    hasStep (s.with l) i x = (hasStep s i x).with l ∧ (hasStep s i x).log = s.log ∧ (hasStep s i x).iffy = s.iffy := by
  cases x with
  | stm x =>
    have hc : (s.with l).c = s.c := rfl
    simp only [hasStep, hc]
    split
    · exact ⟨rfl, rfl, rfl⟩
    · exact decide_with s l i x _
  | _ => exact ⟨rfl, rfl, rfl⟩

theorem effectStep_with {σ τ : Type} (s : Sys σ) (l : τ) (i : Nat) (x : Stm) (o : Out) (e : Event) :
    effectStep (s.with l) i x o e = (effectStep s i x o e).with l ∧ (effectStep s i x o e).log = s.log ∧ (effectStep s i x o e).iffy = s.iffy := by
  simp only [effectStep]
  split <;> exact ⟨rfl, rfl, rfl⟩

/-- A step that does not write the log does not depend on it. -/
theorem goStep_with {σ τ : Type} {L1 : Log σ} (L2 : Log τ) {s s' : Sys σ} (l : τ) {i : Nat} {p : Ph} {ev : Option (Ev Op Ret)}
    (hp : ∀ x o e, p ≠ .inside x o e) (h : goStep L1 s i p = some (s', ev)) :
    goStep L2 (s.with l) i p = some (s'.with l, ev) ∧ s'.log = s.log ∧ s'.iffy = s.iffy := by
  have hts : (s.with l).ts = s.ts := rfl
  have hif : (s.with l).iffy = s.iffy := rfl
  cases p with
  | inside x o e => exact absurd rfl (hp x o e)
  | idle => simp [goStep] at h
  | called x =>
    cases x <;> simp only [goStep, hts] at h ⊢ <;> repeat' split at h
    all_goals first | contradiction | (cases h; simp_all; exact ⟨rfl, rfl, rfl⟩)
  | has x =>
    simp only [goStep] at h ⊢
    cases h
    have := hasStep_with s l i x
    exact ⟨by rw [this.1], this.2⟩
  | both x =>
    simp only [goStep] at h ⊢
    cases h
    have := decide_with s l i x (cls x.s).full
    exact ⟨by rw [this.1], this.2⟩
  | effect x o e =>
    simp only [goStep] at h ⊢
    cases h
    have := effectStep_with s l i x o e
    exact ⟨by rw [this.1], this.2⟩
  | leave ls r =>
    cases ls <;> simp only [goStep] at h ⊢ <;> cases h <;> exact ⟨rfl, rfl, rfl⟩
  | _ =>
    simp only [goStep, hts, hif] at h ⊢
    first
      | (cases h; exact ⟨rfl, rfl, rfl⟩)
      | (split at h
         all_goals first | contradiction | (rename_i hh; cases h; exact ⟨by simp only [hh]; rfl, rfl, rfl⟩))

theorem step_disk {w0 : JW} {s s' : Sys JW} {l : List Event} {act : Act} {ev : Option (Ev Op Ret)} (hi : s.iffy = false) (hl : Holds w0 s.log l)
    (h : step disk s act = some (s', ev)) :
    ∃ l', step mem (s.with l) act = some (s'.with l', ev) ∧ Holds w0 s'.log l' ∧ s'.iffy = false := by
  have hts : (s.with l).ts = s.ts := rfl
  cases act with
  | call i x =>
    simp only [step, hts] at h ⊢
    split at h
    · rename_i he
      cases h
      exact ⟨l, rfl, hl, hi⟩
    · cases h
  | check => simp only [step, hi, Bool.false_and] at h; cases h
  | go i =>
    simp only [step, hts] at h ⊢
    split at h
    · rename_i p he
      by_cases hp : ∃ x o e, p = .inside x o e
      · obtain ⟨x, o, e, rfl⟩ := hp
        obtain ⟨w', h1, h2⟩ := hl.commit e
        simp only [goStep, h1] at h
        cases h
        exact ⟨l ++ [e], rfl, h2, hi⟩
      · obtain ⟨h1, h2, h3⟩ := goStep_with mem l (fun x o e hc => hp ⟨x, o, e, hc⟩) h
        exact ⟨l, h1, by rw [h2]; exact hl, by rw [h3]; exact hi⟩
    · cases h

theorem run_disk {w0 : JW} : ∀ {acts : List Act} {s s' : Sys JW} {l : List Event} {es : List (Ev Op Ret)}, s.iffy = false → Holds w0 s.log l →
    run disk s acts = some (s', es) → ∃ l', run mem (s.with l) acts = some (s'.with l', es) ∧ Holds w0 s'.log l'
  | [], s, s', l, es, hi, hl, h => by
    simp only [run, Option.some.injEq, Prod.mk.injEq] at h
    obtain ⟨rfl, rfl⟩ := h
    exact ⟨l, rfl, hl⟩
  | act :: acts, s, s', l, es, hi, hl, h => by
    simp only [run, Option.bind_eq_some_iff, Option.map_eq_some_iff] at h
    obtain ⟨⟨s1, ev⟩, h1, ⟨s2, es2⟩, h2, h3⟩ := h
    simp only [Prod.mk.injEq] at h3
    obtain ⟨rfl, rfl⟩ := h3
    obtain ⟨l1, a1, a2, a3⟩ := step_disk hi hl h1
    obtain ⟨l2, b1, b2⟩ := run_disk a3 a2 h2
    refine ⟨l2, ?_, b2⟩
    simp only [run, a1, Option.bind_some, b1, Option.map_some]

theorem commitAll_append {w : JW} : ∀ {as bs : List Journal.Ev} {w0 w1 : JW}, w0.commitAll as = (w1, .ok ()) → w1.commitAll bs = (w, .ok ()) →
    w0.commitAll (as ++ bs) = (w, .ok ())
  | [], bs, w0, w1, h1, h2 => by
    simp only [JW.commitAll, Prod.mk.injEq, and_true] at h1
    subst h1
    exact h2
  | y :: as, bs, w0, w1, h1, h2 => by
    simp only [List.cons_append, JW.commitAll] at h1 ⊢
    split at h1
    · exact commitAll_append h1 h2
    · rename_i hne _
      simp only [Prod.mk.injEq] at h1
      exact (hne h1.2).elim

/-- **C71, partial: after a restart.** A server that was created with the statements `ops0` serves any number of clients in any
interleaving, and its file can be written. If the server is stopped at any moment in the middle of the schedule, the file can be opened again, and
the catalogue is the one after a sequential execution that explains everything the clients have seen: nothing that was acknowledged
is lost, and nothing is there that nobody has sent. If nobody was doing anything, it is the catalogue that the clients saw. (As in C09, except for
the properties of spaces whose `env` was set to null.) -/
theorem C71_restart_partial {ops0 : List Gns.Op} {c0 : Cat} {l0 : List Event} (h0 : Gns.session Cat.empty ops0 = (c0, l0))
    (hops : ∀ o ∈ ops0, o.ok ∧ ¬ o.lostDrop) {hdr : Bytes} (hh : hdr.length = 64) {w0 : JW}
    (hw0 : (JW.create hdr []).1.commitAll (l0.map Gns.toEv) = (w0, .ok ())) {n : Nat} {acts : List Act} {s : Sys JW} {es : List (Ev Op Ret)}
    (h : run disk (start c0 w0 n) acts = some (s, es)) (hok : ∀ i x, Ev.call i (.stm x) ∈ es → x.op.ok) :
    ∃ (a : ASt Cat Op Ret) (log : List Event), ARun obj ⟨c0, fun _ => .idle⟩ es a ∧ ((∀ p ∈ s.ts, p = .idle) → s.c = a.q) ∧
      (Journal.sizeBound [log.map Gns.toEv] + 64 < 2 ^ 62 →
      ∃ file w r, Journal.fileOf s.log.close = some file ∧
        Journal.openJournal (Journal.eventLogDecode 11 Gns.gnsApply) Cat.empty file [] = .ok (w, r) ∧ Gns.Rebuilt (Gns.cleared log) a.q r) := by
  have hidle : ((JW.create hdr []).1).Idle := by
    refine ⟨⟨rfl, by simpa [JW.create, JW.new, Journal.HEADER] using hh.symm, by simp [JW.create, JW.new]⟩, rfl, rfl, rfl, by simp [JW.create, JW.new, Journal.HEADER, hh], by simp [JW.create, JW.new], rfl, by simp [JW.create, JW.new], rfl⟩
  have hw : w0.Idle := by
    obtain ⟨w', e1, e2, _⟩ := Journal.commitAll_idle hidle (l0.map Gns.toEv)
    rw [hw0] at e1
    cases e1
    exact e2
  obtain ⟨new, h1, h2⟩ := run_disk (w0 := w0) (l := []) (s := start c0 w0 n) rfl ⟨hw, rfl⟩ h
  have h1' : run mem (start c0 [] n) acts = some (s.with new, es) := h1
  obtain ⟨-, a, S, new', r1, r2, r3, r4, r5⟩ := C71_one_after_the_other_partial h1'
  have e4 : new = new' := by simpa [Sys.with] using r4
  subst e4
  have hses := session_append h0 r3
  refine ⟨a, l0 ++ new, r1, r5, fun hsz => ?_⟩
  have hall : ∀ t ∈ [ops0 ++ S.map Stm.op], ∀ o ∈ t, o.ok ∧ ¬ o.lostDrop := by
    intro t ht o ho
    simp only [List.mem_singleton] at ht
    subst ht
    rcases List.mem_append.1 ho with ho | ho
    · exact hops o ho
    · obtain ⟨x, hx, rfl⟩ := List.mem_map.1 ho
      obtain ⟨i, hi⟩ := r2 x hx
      exact ⟨hok i x hi, op_ok⟩
  obtain ⟨c, first, rest, a1, a2, a3⟩ := Gns.C09_restart_rebuilds_the_catalogue_partial (by simp) hall
  simp only [Gns.life, hses, List.isEmpty_nil, if_true, Option.some.injEq, Prod.mk.injEq, List.cons.injEq] at a1
  obtain ⟨rfl, rfl, rfl⟩ := a1
  obtain ⟨file, w, r, b1, b2, b3⟩ := a3 hdr hh (by simpa using hsz)
  refine ⟨file, w, r, ?_, b2, by simpa using b3⟩
  have hcre : JW.create hdr [] = ((JW.create hdr []).1, .ok ()) := rfl
  have hlog : (JW.create hdr []).1.commitAll ((l0 ++ new).map Gns.toEv) = (s.log, .ok ()) := by
    rw [List.map_append]
    exact commitAll_append hw0 h2.2
  simp only [Journal.lifetime, Journal.firstSession, List.map_nil] at b1
  rw [hcre] at b1
  simp only [JW.session, hlog, Journal.nextSessions, Option.bind_eq_some_iff, Option.some.injEq, exists_eq_right] at b1
  exact b1

/-! ### Examples and what is violated -/

/-- A statement of root for the examples. -/
def root (n : Fin 256) (s : Gns.Stmt) : Stm := ⟨id, Gns.rootClient, Gns.fine n, s⟩

def sCreate : Stm := root 1 (.createSpace "a" [] false)
def sAgain : Stm := root 5 (.createSpace "a" [] false)
def sModel : Stm := root 2 (.createModel "a" "m" Gns.exFields [] false)
def sUser : Stm := root 3 (.createUser "u" [("password", .data (.str "secret"))])
def sDrop : Stm := root 4 (.dropModel "a" "m" false false)

/-- Three clients: a space, a user and a model are created at the same time; the model's log record is written before the answer to CREATE
SPACE is sent, and the user's is between the record and the insertion of the model. -/
def exActs : List Act :=
  [.call 0 (.stm sCreate), .call 1 (.stm sUser), .call 2 (.stm sModel), .go 0, .go 1, .go 0, .go 1, .go 0, .go 1, .go 0, .go 0, .go 0, .go 0, .go 0, .go 2,
   .go 2, .go 2, .go 2, .go 2, .go 2, .go 2, .go 1, .go 1, .go 1, .go 1, .go 2, .go 1, .go 2, .go 2, .go 2, .go 2, .go 0, .go 1]

/-- The clients that have nothing to do. -/
def allIdle (ts : List Ph) : Bool := ts.all fun p => match p with
  | .idle => true
  | _ => false

example (l : List Event) : (mem.check l) = (l, true) := rfl

example : ((run mem (start Cat.empty [] 3) exActs).map fun (s, es) =>
    (answers es, s.log.map Event.code, [allIdle s.ts, (s.c.models "a" "m").isSome, (s.c.users "u").isSome])) =
    some ([(2, .ok none), (0, .ok none), (1, .ok none)], [0, 3, 8], [true, true, true]) := by decide +kernel

/-- The header of a log file, for the examples. -/
def hdr0 : Bytes := List.replicate 64 0

def goes (i n : Nat) : List Act := List.replicate n (.go i)

/-- The server is stopped, and its log is opened again. -/
def reopened (w : JW) : Res Journal.SErr Cat :=
  match Journal.fileOf w.close with
  | some f => (Journal.openJournal (Journal.eventLogDecode 11 Gns.gnsApply) Cat.empty f []).bind fun (_, r) => .ok r
  | none => .hang

/-- On disk, with the first of three clients still at work (the record of its model is written, the model is not inserted): the model is there
after the restart. -/
example : ((run disk (start Cat.empty (JW.create hdr0 []).1 3) (exActs.take 20)).map fun (s, es) =>
    (answers es, [allIdle s.ts, (s.c.models "a" "m").isSome], match reopened s.log with
      | .ok c => some ((c.models "a" "m").isSome, (c.users "u").isSome)
      | _ => none)) = some ([], [false, false], some (true, false)) := by decide +kernel

/-- The clients of the example send proper statements. -/
example : ∀ x ∈ [sCreate, sAgain, sModel, sUser, sDrop], x.op.ok := by
  intro x hx
  simp only [List.mem_cons, List.not_mem_nil, or_false] at hx
  rcases hx with rfl | rfl | rfl | rfl | rfl <;>
    exact ⟨fun fs => List.Perm.refl fs, by simp [sCreate, sAgain, sModel, sUser, sDrop, root, Gns.StmtOk, Gns.Distinct, Gns.Typed]⟩

/-- Two clients find the log healthy; then the write of the first one fails, and the second one writes. -/
def race : List Act := [.call 0 (.stm sCreate), .call 1 (.stm sUser)] ++ goes 0 3 ++ goes 1 3 ++ goes 0 4 ++ goes 1 6 ++ goes 0 1

/-- The background task finds the log in order, and the first client tries again. -/
def retry : List Act := [.check, .call 0 (.stm sAgain)] ++ goes 0 9

/-- **C71 is violated.** Two clients have passed the test of the log's health (fractal/drivers.rs:63-65) when the write of the first one
fails. The first one is told so, but its record stays in the buffer, and the second client, who does not look again after it has got the
mutex (line 66), writes both. The space does not exist, and after a restart it does. If the first client tries again, which succeeds as
soon as the background task has found the log in order, the log has the creation of the space twice, and the server does not start any
more. -/
theorem C71_race_violated :
    (∃ s es, run disk (start Cat.empty (JW.create hdr0 [.fail]).1 2) race = some (s, es) ∧ allIdle s.ts = true ∧
      answers es = [(1, .ok none), (0, .err .serverError)] ∧ (s.c.spaces "a").isSome = false ∧
      ∃ c, reopened s.log = .ok c ∧ (c.spaces "a").isSome = true) ∧
    ∃ s es, run disk (start Cat.empty (JW.create hdr0 [.fail]).1 2) (race ++ retry) = some (s, es) ∧ allIdle s.ts = true ∧
      answers es = [(1, .ok none), (0, .err .serverError), (0, .ok none)] ∧ (s.c.spaces "a").isSome = true ∧
      reopened s.log = .err .apply := by
  have h1 : ((run disk (start Cat.empty (JW.create hdr0 [.fail]).1 2) race).map fun (s, es) =>
      (answers es, [allIdle s.ts, (s.c.spaces "a").isSome], match reopened s.log with
        | .ok c => some (c.spaces "a").isSome
        | _ => none)) = some ([(1, .ok none), (0, .err .serverError)], [true, false], some true) := by decide +kernel
  have h2 : ((run disk (start Cat.empty (JW.create hdr0 [.fail]).1 2) (race ++ retry)).map fun (s, es) =>
      (answers es, [allIdle s.ts, (s.c.spaces "a").isSome], match reopened s.log with
        | .err e => some e
        | _ => none)) = some ([(1, .ok none), (0, .err .serverError), (0, .ok none)], [true, true], some .apply) := by decide +kernel
  constructor
  · obtain ⟨⟨s, es⟩, e1, e2⟩ := Option.map_eq_some_iff.1 h1
    simp only [Prod.mk.injEq, List.cons.injEq, and_true] at e2
    refine ⟨s, es, e1, e2.2.1.1, e2.1, e2.2.1.2, ?_⟩
    have h3 := e2.2.2
    split at h3
    · rename_i c hc; exact ⟨c, hc, by simpa using h3⟩
    · cases h3
  · obtain ⟨⟨s, es⟩, e1, e2⟩ := Option.map_eq_some_iff.1 h2
    simp only [Prod.mk.injEq, List.cons.injEq, and_true] at e2
    refine ⟨s, es, e1, e2.2.1.1, e2.1, e2.2.1.2, ?_⟩
    have h3 := e2.2.2
    split at h3
    · rename_i c hc; rw [hc]; simpa using h3
    · cases h3

/-! ### After a failure -/

/-- The client has passed the test of the log's health and has not written yet. -/
def Ph.past : Ph → Bool
  | .ready .. | .inside .. => true
  | _ => false

theorem decide_with' {σ : Type} (s : Sys σ) (i : Nat) (x : Stm) (held : List (Lock × Mode)) :
    (decide s i x held).log = s.log ∧ (decide s i x held).iffy = s.iffy ∧
      ∃ p : Ph, p.past = false ∧ (decide s i x held).ts = s.ts.set i p := by
  simp only [decide]
  split
  · exact ⟨rfl, rfl, _, rfl, rfl⟩
  · split <;> exact ⟨rfl, rfl, _, rfl, rfl⟩

/-- A step of a client who has not passed the test leaves a failed log as it is, and the client does not pass it. -/
theorem goStep_failed {σ : Type} {L : Log σ} {s s' : Sys σ} {i : Nat} {p : Ph} {o : Option (Ev Op Ret)} (hi : s.iffy = true)
    (hp : p.past = false) (h : goStep L s i p = some (s', o)) :
    s'.log = s.log ∧ s'.iffy = true ∧ ∃ p' : Ph, p'.past = false ∧ s'.ts = s.ts.set i p' := by
  cases p with
  | idle => cases h
  | ready | inside => cases hp
  | called x =>
    cases x with
    | stm x =>
      simp only [goStep] at h
      split at h
      · split at h
        · cases h; exact ⟨rfl, hi, _, rfl, rfl⟩
        · cases h
      · cases h; exact ⟨rfl, hi, _, rfl, rfl⟩
    | spaces | models | users =>
      simp only [goStep] at h
      split at h
      · cases h; exact ⟨rfl, hi, _, rfl, rfl⟩
      · cases h
  | has x =>
    simp only [goStep, Option.some.injEq, Prod.mk.injEq] at h
    obtain ⟨rfl, _⟩ := h
    cases x with
    | spaces | models | users => exact ⟨rfl, hi, _, rfl, rfl⟩
    | stm x =>
      simp only [hasStep]
      split
      · exact ⟨rfl, hi, _, rfl, rfl⟩
      · have := decide_with' s i x [Op.first (.stm x)]
        rw [hi] at this
        exact this
  | both x =>
    simp only [goStep, Option.some.injEq, Prod.mk.injEq] at h
    obtain ⟨rfl, _⟩ := h
    have := decide_with' s i x (cls x.s).full
    rw [hi] at this
    exact this
  | plan x o e =>
    simp only [goStep, hi, if_true] at h
    cases h
    exact ⟨rfl, hi, _, rfl, rfl⟩
  | more | wants =>
    simp only [goStep] at h
    split at h
    · cases h; exact ⟨rfl, hi, _, rfl, rfl⟩
    · cases h
  | wrote | insert | rest => cases h; exact ⟨rfl, hi, _, rfl, rfl⟩
  | effect x o e =>
    simp only [goStep, Option.some.injEq, Prod.mk.injEq] at h
    obtain ⟨rfl, _⟩ := h
    simp only [effectStep]
    split <;> exact ⟨rfl, hi, _, rfl, rfl⟩
  | leave ls r =>
    cases ls with
    | nil => cases h; exact ⟨rfl, hi, _, rfl, rfl⟩
    | cons => cases h; exact ⟨rfl, hi, _, rfl, rfl⟩

/-- **C71.** After a write has failed, the log stays as it is until the background task has found it in order, if no client was past
the test of its health then: every statement that would change something is refused. (`C71_race_violated` is what happens if one was.) -/
theorem C71_closed_partial {σ : Type} {L : Log σ} : ∀ {acts : List Act} {s s' : Sys σ} {es : List (Ev Op Ret)}, s.iffy = true →
    (∀ p ∈ s.ts, p.past = false) → (∀ a ∈ acts, a ≠ .check) → run L s acts = some (s', es) →
    s'.log = s.log ∧ s'.iffy = true ∧ ∀ p ∈ s'.ts, p.past = false
  | [], s, s', es, hi, hq, _, h => by
    cases h
    exact ⟨rfl, hi, hq⟩
  | a :: as, s, s', es, hi, hq, ha, h => by
    simp only [run] at h
    cases hs : step L s a with
    | none => rw [hs] at h; cases h
    | some x =>
      obtain ⟨s1, e⟩ := x
      rw [hs] at h
      simp only [Option.bind_some, Option.map_eq_some_iff] at h
      obtain ⟨⟨s2, es2⟩, h2, h3⟩ := h
      cases h3
      have key : s1.log = s.log ∧ s1.iffy = true ∧ ∀ p ∈ s1.ts, p.past = false := by
        have hset : ∀ (i : Nat) (p : Ph), p.past = false → ∀ q ∈ s.ts.set i p, q.past = false := by
          intro i p hp q hm
          rcases List.mem_or_eq_of_mem_set hm with hm | rfl
          · exact hq q hm
          · exact hp
        cases a with
        | check => exact absurd rfl (ha .check (by simp))
        | call i x =>
          simp only [step] at hs
          split at hs
          · cases hs; exact ⟨rfl, hi, hset i _ rfl⟩
          · cases hs
        | go i =>
          simp only [step] at hs
          split at hs
          · rename_i p hp
            obtain ⟨h4, h5, p', h6, h7⟩ := goStep_failed hi (hq p (List.mem_of_getElem? hp)) hs
            exact ⟨h4, h5, by rw [h7]; exact hset i p' h6⟩
          · cases hs
      obtain ⟨h4, h5, h6⟩ := C71_closed_partial key.2.1 key.2.2 (fun a' h' => ha a' (by simp [h'])) h2
      exact ⟨h4.trans key.1, h5, h6⟩

/-- In the example the write fails while the other client has not begun; what it sends then is refused. -/
example : ((run disk (start Cat.empty (JW.create hdr0 [.fail]).1 2) ([.call 0 (.stm sCreate)] ++ goes 0 8 ++ [.call 1 (.stm sUser)] ++
    goes 1 5)).map fun (s, es) => (answers es, [s.iffy, (s.c.users "u").isSome], s.ts.map Ph.past)) =
      some ([(0, .err .serverError), (1, .err .serverError)], [true, false], [false, false]) := by decide +kernel

end Verif.Ddl
