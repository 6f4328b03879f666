/-
The two maps of the catalogue agree whenever nobody is writing, for any number of threads and any schedule, and no
`unwrap` in the statements fails. A rely/guarantee argument: what a thread knows about the catalogue is what the
locks it holds keep stable.
-/
import Verif.Locks.Stmts
namespace Verif.Locks

/-- The two maps agree: exactly the models listed by their spaces exist. -/
structure Agree (c : Cat) : Prop where
  iff : ∀ s m, c.md s m = true ↔ ∃ ms, c.sp s = some ms ∧ m ∈ ms
  nodup : ∀ s ms, c.sp s = some ms → ms.Nodup

/-- What the other threads may do to the catalogue while this one holds the locks `h`. -/
def Env (h : List (Lock × Mode)) (c c' : Cat) : Prop :=
  ((∃ m, (Lock.spaces, m) ∈ h) → c' = c) ∧ ((∃ m, (Lock.models, m) ∈ h) → c'.md = c.md)

/-- The program never panics and leaves the maps in agreement when it gives the space map back, whatever others do
in between; it changes the catalogue only under the locks that protect it. -/
def Good : List (Lock × Mode) → Prog → Cat → Prop
  | _, .done, _ => True
  | _, .panic, _ => False
  | h, .look k, c => ∀ c', Env h c c' → Good h (k c') c'
  | h, .upd f k, c => (Lock.spaces, Mode.write) ∈ h ∧
      ((f c).md = c.md ∨ (Lock.models, Mode.write) ∈ h) ∧ Good h k (f c)
  | h, .pick k, c => ∀ b, Good h (k b) c
  | h, .acq l m k, c => ∀ c', Env h c c' → (l = .spaces → Agree c') → Good ((l, m) :: h) k c'
  | h, .upg l k, c => l ≠ .spaces ∧ l ≠ .models ∧ Good (rehold h l .write) k c
  | h, .down l k, c => l ≠ .spaces ∧ l ≠ .models ∧ Good (rehold h l .read) k c
  | h, .rel l k, c => (l = .spaces → (Lock.spaces, Mode.write) ∈ h → Agree c) ∧ Good (unhold h l) k c

theorem Env.refl (h : List (Lock × Mode)) (c : Cat) : Env h c c := ⟨fun _ => rfl, fun _ => rfl⟩

theorem Env.trans {h : List (Lock × Mode)} {a b c : Cat} (h1 : Env h a b) (h2 : Env h b c) : Env h a c :=
  ⟨fun x => (h2.1 x).trans (h1.1 x), fun x => (h2.2 x).trans (h1.2 x)⟩

theorem Env.mono {h h' : List (Lock × Mode)} {a b : Cat} (hs : ∀ l m, (l, m) ∈ h' → ∃ m', (l, m') ∈ h)
    (h1 : Env h a b) : Env h' a b :=
  ⟨fun ⟨m, hm⟩ => h1.1 (hs _ m hm), fun ⟨m, hm⟩ => h1.2 (hs _ m hm)⟩

theorem rehold_sub {h : List (Lock × Mode)} {l : Lock} {md : Mode} (l' : Lock) (m : Mode)
    (hm : (l', m) ∈ rehold h l md) : ∃ m', (l', m') ∈ h := by
  rcases mem_rehold hm with ⟨rfl, _, a', ha⟩ | ⟨_, ha⟩
  · exact ⟨a', ha⟩
  · exact ⟨m, ha⟩

theorem rehold_other {h : List (Lock × Mode)} {l l' : Lock} {md m : Mode} (hne : l' ≠ l)
    (hm : (l', m) ∈ h) : (l', m) ∈ rehold h l md := by
  simp only [rehold, List.mem_map]
  exact ⟨(l', m), hm, by simp [hne]⟩

theorem Good.env {p : Prog} {h : List (Lock × Mode)} {c c' : Cat} (hg : Good h p c) (he : Env h c c') :
    Good h p c' := by
  induction p generalizing h c c' with
  | done => trivial
  | panic => exact hg
  | look k ih => exact fun c2 h2 => hg c2 (he.trans h2)
  | upd f k ih =>
    have : c' = c := he.1 ⟨_, hg.1⟩
    rw [this]; exact hg
  | pick k ih => exact fun b => ih b (hg b) he
  | acq l m k ih => exact fun c2 h2 h3 => hg c2 (he.trans h2) h3
  | upg l k ih => exact ⟨hg.1, hg.2.1, ih hg.2.2 (he.mono rehold_sub)⟩
  | down l k ih => exact ⟨hg.1, hg.2.1, ih hg.2.2 (he.mono rehold_sub)⟩
  | rel l k ih =>
    refine ⟨fun hl hw => ?_, ih hg.2 (he.mono fun _ m hm => ⟨m, (mem_unhold.1 hm).1⟩)⟩
    have : c' = c := he.1 ⟨_, hw⟩
    rw [this]; exact hg.1 hl hw

theorem Good.andThen {rk : Lock → Nat} {a b : Prog} {h : List (Lock × Mode)} {c : Cat} (ha : Good h a c) (ho : Ordered rk h a)
    (hb : ∀ c, Good [] b c) : Good h (a.andThen b) c := by
  induction a generalizing h c with
  | done => cases ho; exact hb c
  | panic => exact ha
  | look k ih => exact fun c' he => ih c' (ha c' he) (ho c')
  | upd f k ih => exact ⟨ha.1, ha.2.1, ih ha.2.2 ho⟩
  | pick k ih => exact fun x => ih x (ha x) (ho x)
  | acq l m k ih => exact fun c' he hs => ih (ha c' he hs) ho.2
  | upg l k ih => exact ⟨ha.1, ha.2.1, ih ha.2.2 ho.2.2⟩
  | down l k ih => exact ⟨ha.1, ha.2.1, ih (h := rehold h l .read) ha.2.2 ho⟩
  | rel l k ih => exact ⟨ha.1, ih (h := unhold h l) ha.2 ho⟩

/-- What holds in every reachable state. -/
structure CatInv (s : Sys) : Prop where
  excl : Excl s.ts
  good : ∀ t ∈ s.ts, Good t.h t.p s.c
  agree : (∀ t ∈ s.ts, (Lock.spaces, Mode.write) ∉ t.h) → Agree s.c

theorem mem_set_self {α} {ts : List α} {i : Nat} {t x : α} (h : ts[i]? = some t) : x ∈ ts.set i x := by
  have hl : i < ts.length := (List.getElem?_eq_some_iff.1 h).1
  exact List.mem_iff_getElem?.2 ⟨i, by simp [hl]⟩

theorem mem_set_of_ne {α} {ts : List α} {i j : Nat} {x u : α} (h : ts[j]? = some u) (hj : j ≠ i) : u ∈ ts.set i x :=
  List.mem_iff_getElem?.2 ⟨j, by rw [List.getElem?_set]; simp [Ne.symm hj, h]⟩

theorem mem_set_idx {α} {ts : List α} {i : Nat} {x y : α} (h : y ∈ ts.set i x) :
    y = x ∨ ∃ j, j ≠ i ∧ ts[j]? = some y := by
  obtain ⟨j, hj⟩ := List.mem_iff_getElem?.1 h
  rcases get_set_cases hj with ⟨_, e⟩ | ⟨hne, e⟩
  · exact .inl e
  · exact .inr ⟨j, hne, e⟩

/-- The step of a thread that leaves the catalogue alone. -/
theorem CatInv.quiet {c : Cat} {ts : List Thr} {i : Nat} {t t' : Thr} (hi : CatInv ⟨c, ts⟩) (ht : ts[i]? = some t)
    (hx : Excl (ts.set i t')) (hg : Good t'.h t'.p c)
    (ha : (Lock.spaces, Mode.write) ∉ t'.h → (Lock.spaces, Mode.write) ∉ t.h ∨ Agree c) :
    CatInv ⟨c, ts.set i t'⟩ where
  excl := hx
  good u hu := by
    rcases mem_set_idx hu with rfl | ⟨j, _, hj⟩
    · exact hg
    · exact hi.good u (mem_of_get? hj)
  agree hn := by
    rcases ha (hn t' (mem_set_self ht)) with h | h
    · refine hi.agree fun u hu hm => ?_
      obtain ⟨j, hj⟩ := List.mem_iff_getElem?.1 hu
      by_cases e : j = i
      · subst e
        have hj : ts[j]? = some u := hj
        rw [ht] at hj; cases hj; exact h hm
      · exact hn u (mem_set_of_ne hj e) hm
    · exact h

theorem CatInv.step {s s' : Sys} {i : Nat} (hi : CatInv s) (hs : Step s i s') : CatInv s' := by
  cases hs with
  | look ht =>
    have hg := hi.good _ (mem_of_get? ht)
    refine hi.quiet ht (hi.excl.set fun j u hu hj l a b ha hb => ?_) (hg _ (.refl _ _)) fun h => .inl h
    exact hi.excl _ _ _ _ ht hu (Ne.symm hj) l a b ha hb
  | pick b ht =>
    have hg := hi.good _ (mem_of_get? ht)
    refine hi.quiet ht (hi.excl.set fun j u hu hj l a b ha hb => ?_) (hg b) fun h => .inl h
    exact hi.excl _ _ _ _ ht hu (Ne.symm hj) l a b ha hb
  | panic ht => exact absurd (hi.good _ (mem_of_get? ht)) id
  | @acq c ts i l m k h ht hf =>
    have hg := hi.good _ (mem_of_get? ht)
    refine hi.quiet ht (hi.excl.set fun j u hu hj l' a b ha hb => ?_) (hg _ (.refl _ _) fun hl => ?_)
      fun hn => .inl fun hm => hn (List.mem_cons_of_mem _ hm)
    · rcases List.mem_cons.1 ha with e | ha
      · cases e; rw [compat_symm]; exact hf u (mem_of_get? hu) _ hb
      · exact hi.excl _ _ _ _ ht hu (Ne.symm hj) l' a b ha hb
    · subst hl
      refine hi.agree fun u hu hm => ?_
      have := hf u hu _ hm
      cases m <;> simp [compat] at this
  | upg ht hf =>
    have hg := hi.good _ (mem_of_get? ht)
    refine hi.quiet ht (hi.excl.set fun j u hu hj l' a b ha hb => ?_) hg.2.2
      fun hn => .inl fun hm => hn (rehold_other (Ne.symm hg.1) hm)
    rcases mem_rehold ha with ⟨rfl, _, _⟩ | ⟨_, ha⟩
    · exact absurd hb (hf j u hu hj b)
    · exact hi.excl _ _ _ _ ht hu (Ne.symm hj) l' a b ha hb
  | down ht =>
    have hg := hi.good _ (mem_of_get? ht)
    refine hi.quiet ht (hi.excl.set fun j u hu hj l' a b ha hb => ?_) hg.2.2
      fun hn => .inl fun hm => hn (rehold_other (Ne.symm hg.1) hm)
    rcases mem_rehold ha with ⟨rfl, rfl, a', ha'⟩ | ⟨_, ha⟩
    · have := hi.excl _ _ _ _ ht hu (Ne.symm hj) _ a' b ha' hb
      revert this; cases a' <;> cases b <;> simp [compat]
    · exact hi.excl _ _ _ _ ht hu (Ne.symm hj) l' a b ha hb
  | @rel c ts i l k h ht =>
    have hg := hi.good _ (mem_of_get? ht)
    refine hi.quiet ht (hi.excl.set fun j u hu hj l' a b ha hb => ?_) hg.2 fun hn => ?_
    · exact hi.excl _ _ _ _ ht hu (Ne.symm hj) l' a b (mem_unhold.1 ha).1 hb
    · by_cases hm : (Lock.spaces, Mode.write) ∈ h
      · by_cases hl : l = .spaces
        · exact .inr (hg.1 hl hm)
        · exact absurd (mem_unhold.2 ⟨hm, fun e => hl e.symm⟩) hn
      · exact .inl hm
  | @upd c ts i f k h ht =>
    have hg := hi.good _ (mem_of_get? ht)
    refine ⟨hi.excl.set fun j u hu hj l a b ha hb => hi.excl _ _ _ _ ht hu (Ne.symm hj) l a b ha hb, fun u hu => ?_,
      fun hn => absurd hg.1 (hn ⟨k, h⟩ (mem_set_self ht))⟩
    rcases mem_set_idx hu with rfl | ⟨j, hj, hju⟩
    · exact hg.2.2
    · refine (hi.good u (mem_of_get? hju)).env ⟨fun ⟨m, hm⟩ => ?_, fun ⟨m, hm⟩ => ?_⟩
      · have := hi.excl _ _ _ _ ht hju (Ne.symm hj) _ _ _ hg.1 hm
        cases m <;> simp [compat] at this
      · rcases hg.2.1 with e | hw
        · exact e
        · have := hi.excl _ _ _ _ ht hju (Ne.symm hj) _ _ _ hw hm
          cases m <;> simp [compat] at this

theorem CatInv.run {s s' : Sys} (hi : CatInv s) (hr : Run s s') : CatInv s' := by
  induction hr with
  | refl => exact hi
  | tail _ hs ih => exact ih.step hs

/-! ## Statements that do not change the catalogue -/

/-- No change of the catalogue, no panic, no write hold of the space map. -/
def Quiet : Prog → Prop
  | .done => True
  | .panic => False
  | .look k => ∀ c, Quiet (k c)
  | .upd _ _ => False
  | .pick k => ∀ b, Quiet (k b)
  | .acq l m k => (l = .spaces → m = .read) ∧ Quiet k
  | .upg l k => l ≠ .spaces ∧ l ≠ .models ∧ Quiet k
  | .down l k => l ≠ .spaces ∧ l ≠ .models ∧ Quiet k
  | .rel _ k => Quiet k

theorem Quiet.good {p : Prog} (hq : Quiet p) {h : List (Lock × Mode)} (hh : (Lock.spaces, Mode.write) ∉ h) (c : Cat) :
    Good h p c := by
  induction p generalizing h c with
  | done => trivial
  | panic => exact hq
  | look k ih => exact fun c' _ => ih c' (hq c') hh c'
  | upd f k ih => exact absurd hq id
  | pick k ih => exact fun b => ih b (hq b) hh c
  | acq l m k ih =>
    refine fun c' _ _ => ih hq.2 ?_ c'
    intro hm
    rcases List.mem_cons.1 hm with e | hm
    · cases e; have := hq.1 rfl; cases this
    · exact hh hm
  | upg l k ih =>
    refine ⟨hq.1, hq.2.1, ih hq.2.2 ?_ c⟩
    intro hm
    rcases mem_rehold hm with ⟨e, _⟩ | ⟨_, hm⟩
    · exact hq.1 e.symm
    · exact hh hm
  | down l k ih =>
    refine ⟨hq.1, hq.2.1, ih hq.2.2 ?_ c⟩
    intro hm
    rcases mem_rehold hm with ⟨e, _⟩ | ⟨_, hm⟩
    · exact hq.1 e.symm
    · exact hh hm
  | rel l k ih => exact ⟨fun _ hw => absurd hw hh, ih hq (fun hm => hh (mem_unhold.1 hm).1) c⟩

theorem quiet_readLists : ∀ (s : Shape) (d : Nat) (k : Prog), Quiet k → Quiet (readLists d s k)
  | .nil, _, _, hk => hk
  | .cons _ inner next, d, k, hk =>
    ⟨fun h => (nomatch h), quiet_readLists inner (d + 1) _ (quiet_readLists next d k hk)⟩

theorem quiet_checkLists : ∀ (s : Shape) (d : Nat) (k : Prog), Quiet k → Quiet (checkLists d s k)
  | .nil, _, _, hk => hk
  | .cons _ inner next, d, k, hk =>
    ⟨fun h => (nomatch h), quiet_checkLists inner (d + 1) _ (quiet_checkLists next d k hk)⟩

theorem quiet_freezeRow {m r : Nat} {cells : Shape} {k : Prog} (hk : Quiet k) : Quiet (freezeRow m r cells k) := by
  have hl : Quiet (readLists 0 cells (.rel (.row m r) k)) := quiet_readLists cells 0 _ hk
  refine ⟨fun h => (nomatch h), fun b => ?_⟩
  cases b
  · exact ⟨by simp, by simp, hl⟩
  · exact ⟨by simp, by simp, by simp, by simp, hl⟩

theorem quiet_freezeRows {m : Nat} {k : Prog} (hk : Quiet k) : ∀ rows, Quiet (freezeRows m rows k)
  | [] => hk
  | (_, _) :: rows => quiet_freezeRow (quiet_freezeRows hk rows)

theorem quiet_pushLists {k : Prog} (hk : Quiet k) : ∀ is, Quiet (pushLists is k)
  | [] => hk
  | _ :: is => ⟨fun h => (nomatch h), quiet_pushLists hk is⟩

theorem quiet_writeBatch {m : Nat} {rows : List (Nat × Shape)} {k : Prog} (hk : Quiet k) :
    Quiet (writeBatch m rows k) :=
  ⟨fun h => (nomatch h), quiet_freezeRows (m := m) (k := .rel (.driver m) k) hk rows⟩

theorem quiet_writeBatches {k : Prog} (hk : Quiet k) : ∀ ms, Quiet (writeBatches ms k)
  | [] => hk
  | (_, _) :: ms => quiet_writeBatch (quiet_writeBatches hk ms)

theorem quiet_commit {ok bad : Prog} (h1 : Quiet ok) (h2 : Quiet bad) : Quiet (commit ok bad) := by
  intro b
  cases b
  · exact h2
  · refine ⟨fun h => (nomatch h), fun b => ?_⟩
    cases b
    · exact h2
    · exact h1

/-- Works through a program that leaves the catalogue alone. -/
macro "quiet" : tactic => `(tactic|
  (repeat' first
    | (simp [Quiet]; done)
    | apply quiet_commit
    | apply quiet_writeBatches
    | apply quiet_writeBatch
    | apply quiet_freezeRows
    | apply quiet_freezeRow
    | apply quiet_pushLists
    | apply quiet_checkLists
    | (intro _; dsimp only)
    | (refine And.intro (by simp) ?_)
    | split
    | (simp only [Quiet])))

/-! ## Statements that change it -/

theorem good_commit {h : List (Lock × Mode)} {ok bad : Prog} {c : Cat}
    (hh : unhold ((Lock.gns, Mode.write) :: h) .gns = h) (h1 : Good h ok c) (h2 : Good h bad c) :
    Good h (commit ok bad) c := by
  intro b
  cases b
  · exact h2
  · intro c' he _
    intro b
    cases b
    · refine ⟨fun h => (nomatch h), ?_⟩
      rw [hh]; exact h2.env he
    · refine ⟨fun h => (nomatch h), ?_⟩
      rw [hh]; exact h1.env he

/-- The end of a statement that has kept the maps in agreement. -/
theorem good_rel_spaces {h : List (Lock × Mode)} {c : Cat} (ha : Agree c) : Good h (.rel .spaces .done) c :=
  ⟨fun _ _ => ha, trivial⟩

theorem good_rel_both {h : List (Lock × Mode)} {c : Cat} (ha : Agree c) :
    Good h (.rel .models (.rel .spaces .done)) c :=
  ⟨fun h => (nomatch h), good_rel_spaces ha⟩

theorem spaces_env {h : List (Lock × Mode)} {m : Mode} {c c' : Cat} (he : Env ((.spaces, m) :: h) c c') : c' = c :=
  he.1 ⟨m, by simp⟩

theorem agree_createSpace {c : Cat} (ha : Agree c) {s : String} (hs : c.sp s = none) :
    Agree (c.setSpace s (some [])) where
  iff x y := by
    simp only [Cat.setSpace]
    by_cases e : x = s
    · subst e
      simp only [if_true, Option.some.injEq]
      have := ha.iff x y
      simp [hs] at this
      simp [this]
    · simp only [e, if_false]; exact ha.iff x y
  nodup x ms h := by
    simp only [Cat.setSpace] at h
    by_cases e : x = s
    · simp [e] at h; subst h; simp
    · simp only [e, if_false] at h; exact ha.nodup x ms h

theorem agree_dropSpace {c : Cat} (ha : Agree c) {s : String} (hs : ∀ m, c.md s m = false) :
    Agree (c.setSpace s none) where
  iff x y := by
    simp only [Cat.setSpace]
    by_cases e : x = s
    · subst e; simp [hs]
    · simp only [e, if_false]; exact ha.iff x y
  nodup x ms h := by
    simp only [Cat.setSpace] at h
    by_cases e : x = s
    · simp [e] at h
    · simp only [e, if_false] at h; exact ha.nodup x ms h

theorem agree_createModel {c : Cat} (ha : Agree c) {s m : String} {ms : List String} (hs : c.sp s = some ms)
    (hm : m ∉ ms) : Agree ((c.setSpace s (some (m :: ms))).setModel s m true) where
  iff x y := by
    simp only [Cat.setSpace, Cat.setModel]
    by_cases e : x = s
    · subst e
      have := ha.iff x y
      by_cases e' : y = m
      · simp [e']
      · simp [e', this, hs]
    · simp only [e, if_false, false_and]; exact ha.iff x y
  nodup x l h := by
    simp only [Cat.setSpace, Cat.setModel] at h
    by_cases e : x = s
    · simp [e] at h; subst h
      exact List.nodup_cons.2 ⟨hm, ha.nodup s ms hs⟩
    · simp only [e, if_false] at h; exact ha.nodup x l h

theorem agree_dropModel {c : Cat} (ha : Agree c) {s m : String} {ms : List String} (hs : c.sp s = some ms) :
    Agree ((c.setModel s m false).setSpace s (some (ms.filter (· ≠ m)))) where
  iff x y := by
    simp only [Cat.setSpace, Cat.setModel]
    by_cases e : x = s
    · subst e
      have := ha.iff x y
      by_cases e' : y = m
      · simp [e']
      · simp [e', this, hs]
    · simp only [e, if_false, false_and]; exact ha.iff x y
  nodup x l h := by
    simp only [Cat.setSpace, Cat.setModel] at h
    by_cases e : x = s
    · simp [e] at h; subst h
      exact (ha.nodup s ms hs).filter _
    · simp only [e, if_false] at h; exact ha.nodup x l h

/-- The loop of the forced DROP SPACE: the models still to be removed are in the map, and removing them brings the two
maps into agreement. -/
theorem good_dropLoop {s : String} {k : Prog} {c0 : Cat} (ha : Agree c0) :
    ∀ (ms : List String) (c : Cat), ms.Nodup → c.sp = (c0.setSpace s none).sp →
      (∀ x y, c.md x y = true ↔ (x = s ∧ y ∈ ms) ∨ (x ≠ s ∧ c0.md x y = true)) →
      (∀ c, Agree c → Good [(.models, .write), (.spaces, .write)] k c) →
      Good [(.models, .write), (.spaces, .write)] (dropModelsLoop s ms k) c
  | [], c, _, hsp, hmd, hk => by
    refine hk c ⟨fun x y => ?_, fun x l h => ?_⟩
    · rw [hmd, hsp]
      simp only [Cat.setSpace]
      by_cases e : x = s
      · simp [e]
      · simp only [e, if_false, false_and, ne_eq, not_false_eq_true, true_and, false_or]; exact ha.iff x y
    · rw [hsp] at h
      simp only [Cat.setSpace] at h
      by_cases e : x = s
      · simp [e] at h
      · simp only [e, if_false] at h; exact ha.nodup x l h
  | m :: ms, c, hn, hsp, hmd, hk => by
    intro c' he
    have e : c' = c := he.1 ⟨.write, by simp⟩
    subst e
    have hm : c'.md s m = true := by rw [hmd]; simp
    simp only [hm, if_true]
    refine ⟨by simp, .inr (by simp), good_dropLoop ha ms _ (List.nodup_cons.1 hn).2 hsp (fun x y => ?_) hk⟩
    simp only [Cat.setModel]
    by_cases e : x = s ∧ y = m
    · obtain ⟨rfl, rfl⟩ := e
      simp [(List.nodup_cons.1 hn).1]
    · simp only [e, if_false, hmd, List.mem_cons]
      constructor
      · rintro (⟨rfl, rfl | h⟩ | h)
        · exact absurd ⟨rfl, rfl⟩ e
        · exact .inl ⟨rfl, h⟩
        · exact .inr h
      · rintro (⟨rfl, h⟩ | h)
        · exact .inl ⟨rfl, .inr h⟩
        · exact .inr h

/-- The forced DROP SPACE whose commit may fail is the statement that can break the agreement. -/
def Stmt.breaksAgreement : Stmt → Bool
  | .dropSpaceForce _ mayFail => mayFail
  | _ => false

theorem Agree.none {c : Cat} (ha : Agree c) {s : String} (hs : c.sp s = none ∨ c.sp s = some []) (m : String) :
    c.md s m = false := by
  have := ha.iff s m
  rcases hs with hs | hs <;> simp [hs] at this <;> exact this

theorem good_stmt (q : Stmt) (hq : q.breaksAgreement = false) (c : Cat) : Good [] q.prog c := by
  cases q
  case createSpace s =>
    intro c1 _ ha c2 he
    have := spaces_env he; subst this
    have ha := ha rfl
    dsimp only
    cases hs : c2.sp s with
    | some ms => exact good_rel_spaces ha
    | none =>
      intro b
      cases b
      · exact good_rel_spaces ha
      · exact good_commit rfl ⟨by simp, .inl rfl, good_rel_spaces (agree_createSpace ha hs)⟩ (good_rel_spaces ha)
  case alterSpace s =>
    intro c1 _ ha c2 he
    have := spaces_env he; subst this
    have ha := ha rfl
    dsimp only
    split
    · exact good_rel_spaces ha
    · intro b
      cases b
      · exact good_rel_spaces ha
      · exact good_commit rfl (good_rel_spaces ha) (good_rel_spaces ha)
  case dropSpacePlain s =>
    intro c1 _ ha c2 he
    have := spaces_env he; subst this
    have ha := ha rfl
    dsimp only
    cases hs : c2.sp s with
    | none => exact good_rel_spaces ha
    | some ms =>
      cases ms with
      | cons m ms => exact good_rel_spaces ha
      | nil =>
        refine good_commit rfl ⟨by simp, .inl rfl, good_rel_spaces (agree_dropSpace ha ?_)⟩ (good_rel_spaces ha)
        exact ha.none (.inr hs)
  case dropSpaceForce s mayFail =>
    simp only [Stmt.breaksAgreement] at hq
    subst hq
    intro c1 _ ha c2 he _ c3 he3
    have := spaces_env he; subst this
    have : c3 = c2 := he3.1 ⟨.write, by simp⟩
    subst this
    have ha := ha rfl
    dsimp only
    cases hs : c3.sp s with
    | none => exact good_rel_both ha
    | some ms =>
      refine ⟨by simp, .inl rfl, ?_⟩
      simp only [Bool.false_eq_true, if_false]
      intro c4 he4 _
      have : c4 = c3.setSpace s none := he4.1 ⟨.write, by simp⟩
      subst this
      refine ⟨fun h => (nomatch h), ?_⟩
      refine good_dropLoop ha ms _ (ha.nodup s ms hs) rfl (fun x y => ?_) (fun c ha => good_rel_both ha)
      simp only [Cat.setSpace, ha.iff]
      by_cases e : x = s
      · subst e; simp [hs]
      · simp [e]
  case createModel s m =>
    intro c1 _ ha c2 he
    have := spaces_env he; subst this
    have ha := ha rfl
    dsimp only
    cases hs : c2.sp s with
    | none => exact good_rel_spaces ha
    | some ms =>
      dsimp only
      split
      · exact good_rel_spaces ha
      · rename_i hm
        intro b
        cases b
        · exact good_rel_spaces ha
        · refine good_commit rfl ⟨by simp, .inl rfl, ?_⟩ (good_rel_spaces ha)
          intro c3 he3 _
          have := spaces_env he3; subst this
          exact ⟨by simp, .inr (by simp), good_rel_both (agree_createModel ha hs (by simpa using hm))⟩
  case dropModel s m =>
    intro c1 _ ha c2 he
    have := spaces_env he; subst this
    have ha := ha rfl
    dsimp only
    cases hs : c2.sp s with
    | none => exact good_rel_spaces ha
    | some ms =>
      dsimp only
      split
      · rename_i hm
        intro c3 he3 _ c4 he4
        have := spaces_env he3; subst this
        have : c4 = c3 := he4.1 ⟨.write, by simp⟩
        subst this
        have hx : c4.md s m = true := (ha.iff s m).2 ⟨ms, hs, by simpa using hm⟩
        simp only [hx, if_true]
        intro b
        cases b
        · exact good_commit rfl
            ⟨by simp, .inr (by simp), by simp, .inl rfl, good_rel_both (agree_dropModel ha hs)⟩ (good_rel_both ha)
        · exact good_rel_both ha
      · exact good_rel_spaces ha
  case alterModel s m =>
    intro c1 _ _ c2 _
    dsimp only
    split
    · rename_i hx
      intro c3 he3 ha c4 he4
      have := spaces_env he4; subst this
      have ha := ha rfl
      have hmd : c4.md = c2.md := he3.2 ⟨.write, by simp⟩
      have hx : c4.md s m = true := by rw [hmd]; exact hx
      obtain ⟨ms, hs, _⟩ := (ha.iff s m).1 hx
      simp only [hs]
      refine Quiet.good (p := .pick _) ?_ (by simp) _
      quiet
    · exact Quiet.good (p := .rel .models .done) trivial (by simp) _
  all_goals refine Quiet.good ?_ (by simp) c; simp only [Stmt.prog]
  case readSpaces => unfold readSpaces; quiet
  case inspectGlobal => unfold inspectGlobal; quiet
  case inspectModel => unfold inspectModel; quiet
  case verifyUser => unfold verifyUser; quiet
  case changeUser => unfold changeUser; quiet
  case select => unfold select; quiet
  case selectAll => unfold selectAll; quiet
  case insert => unfold insert; quiet
  case delete => unfold delete; quiet
  case update => unfold update; quiet
  case taskWriteBatch => unfold taskWriteBatch; quiet
  case taskRecoverModel => unfold taskRecoverModel; quiet
  case taskCheckGns => unfold taskCheckGns; quiet
  case taskGeneral => unfold taskGeneral; quiet

end Verif.Locks
