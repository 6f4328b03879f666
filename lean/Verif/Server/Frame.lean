import Verif.Server.InspectTheorems
import Verif.Server.Theorems
/-!
C49: a query changes only what it names, and queries on different things do not influence each other.
-/
namespace Verif.Server
open Verif.Lex (Token lex ascii)
open Verif.Enc (Fields)
open Verif.Gns (Cat Client World upd upd2 Model)
open Verif.Ql (Query Inspect)

/-! ### Specification -/

/-- The parts of the state of a server. -/
inductive Part where
  /-- a space: its properties and the names of its models -/
  | space (n : String)
  | user (n : String)
  /-- the declaration of a model -/
  | decl (s m : String)
  /-- the rows of a model, with its pending changes -/
  | rows (s m : String)
  deriving DecidableEq

/-- Two states agree on a part. -/
def Same (s s' : Srv) : Part → Prop
  | .space n => s'.cat.spaces n = s.cat.spaces n
  | .user n => s'.cat.users n = s.cat.users n
  | .decl a b => s'.cat.models a b = s.cat.models a b
  | .rows a b => s'.rows a b = s.rows a b

/-- What a statement on the catalogue names. A forced `DROP SPACE` names all models of the space. -/
def DdlNames : Gns.Stmt → Part → Prop
  | .createSpace n _ _, p => p = .space n
  | .alterSpace n _, p => p = .space n
  | .dropSpace n force _, p => p = .space n ∨ (force = true ∧ ∃ m, p = .decl n m ∨ p = .rows n m)
  | .createModel s m _ _ _, p => p = .space s ∨ p = .decl s m ∨ p = .rows s m
  | .alterModel s m _, p => p = .decl s m
  | .dropModel s m _ _, p => p = .space s ∨ p = .decl s m ∨ p = .rows s m
  | .createUser n _, p => p = .user n
  | .alterUser n _, p => p = .user n
  | .dropUser n, p => p = .user n

/-- What a query names. -/
def Names : Query → Part → Prop
  | .ddl d, p => DdlNames d p
  | .sysctl (.user d), p => DdlNames d p
  | .sysctl .report, _ => False
  | .use _, _ => False
  | .inspect _, _ => False
  | .rows q, p => p = .rows q.space q.model

/-- Only models have rows. -/
def Neat (s : Srv) : Prop := ∀ a b, s.cat.models a b = none → s.rows a b = Rows.none

/-- What a query is read as. -/
def read (o : Outside) (x : Sess) (text params : Bytes) : Option Query :=
  match lex o.pf text params with
  | .error _ => none
  | .ok toks =>
    match Ql.parse x.client.root ⟨toks, x.cs, o.uuidStr, o.uuidBin, o.time⟩ with
    | .ok q => some q
    | _ => none

/-! ### The catalogue -/

/-- Only what the statement names is different. -/
structure CatFrame (st : Gns.Stmt) (c c' : Cat) : Prop where
  spaces : ∀ n, ¬ DdlNames st (.space n) → c'.spaces n = c.spaces n
  models : ∀ a b, ¬ DdlNames st (.decl a b) → c'.models a b = c.models a b
  users : ∀ n, ¬ DdlNames st (.user n) → c'.users n = c.users n

theorem CatFrame.refl {st : Gns.Stmt} {c : Cat} : CatFrame st c c := ⟨fun _ _ => rfl, fun _ _ _ => rfl, fun _ _ => rfl⟩

theorem CatFrame.setSpace {st : Gns.Stmt} {c c' : Cat} (h : CatFrame st c c') {n : String} {v : Option Gns.Space}
    (hn : DdlNames st (.space n)) : CatFrame st c { c' with spaces := upd c'.spaces n v } where
  spaces := by
    intro x hx
    have : x ≠ n := by rintro rfl; exact hx hn
    simp only [upd, this, if_false]
    exact h.spaces x hx
  models := h.models
  users := h.users

theorem CatFrame.setModel {st : Gns.Stmt} {c c' : Cat} (h : CatFrame st c c') {a b : String} {v : Option Model}
    (hn : DdlNames st (.decl a b)) : CatFrame st c { c' with models := upd2 c'.models a b v } where
  spaces := h.spaces
  models := by
    intro x y hx
    have : ¬ (x = a ∧ y = b) := by rintro ⟨rfl, rfl⟩; exact hx hn
    simp only [upd2, this, if_false]
    exact h.models x y hx
  users := h.users

theorem CatFrame.setUser {st : Gns.Stmt} {c c' : Cat} (h : CatFrame st c c') {n : String} {v : Option Bytes}
    (hn : DdlNames st (.user n)) : CatFrame st c { c' with users := upd c'.users n v } where
  spaces := h.spaces
  models := h.models
  users := by
    intro x hx
    have : x ≠ n := by rintro rfl; exact hx hn
    simp only [upd, this, if_false]
    exact h.users x hx

theorem dropModels_frame {s : String} : ∀ {ns : List String} {ms ms' : String → String → Option Model},
    Gns.dropModels s ms ns = some ms' → ∀ x y, x ≠ s → ms' x y = ms x y
  | [], ms, ms', h, x, y, _ => by rw [Gns.dropModels] at h; cases h; rfl
  | n :: ns, ms, ms', h, x, y, hx => by
    rw [Gns.dropModels] at h
    split at h
    · rw [dropModels_frame h x y hx]
      simp [upd2, hx]
    · cases h

theorem CatFrame.commit {st : Gns.Stmt} {c next : Cat} {w : World} {e : Enc.Event} {r : Res Gns.QErr (Option Bool)}
    (h : CatFrame st c next) : CatFrame st c (c.commit w e next r).cat := by
  unfold Gns.Cat.commit
  split
  · exact h
  · exact .refl

theorem exec_frame (perm : Fields → Fields) (u : Client) (c : Cat) (w : World) (s : Gns.Stmt) :
    CatFrame s c (Gns.exec perm u c w s).cat := by
  have hr : CatFrame s c c := .refl
  unfold Gns.exec
  split
  · split
    · unfold Gns.execCreateSpace
      repeat' split
      all_goals first | exact hr | exact (hr.setSpace rfl).commit
    · unfold Gns.execAlterSpace
      repeat' split
      all_goals first | exact hr | exact (hr.setSpace rfl)
    · unfold Gns.execDropSpaceForce
      split
      · exact hr
      · simp only
        split
        · split
          · rename_i ms hm
            have h1 := hr.setSpace (v := none) (.inl rfl)
            refine ⟨h1.spaces, fun x y hx => ?_, h1.users⟩
            refine dropModels_frame hm x y (fun he => ?_)
            subst he
            exact absurd (.inr ⟨rfl, y, .inl rfl⟩) hx
          · exact hr.setSpace (.inl rfl)
        · exact hr.setSpace (.inl rfl)
    · unfold Gns.execDropSpace
      repeat' split
      all_goals first | exact hr | exact (hr.setSpace (.inl rfl)).commit
    · unfold Gns.execCreateModel
      repeat' split
      all_goals first | exact hr | exact ((hr.setSpace (.inl rfl)).setModel (.inr (.inl rfl))).commit
    · unfold Gns.execAlterModel
      repeat' split
      all_goals first | exact hr | exact hr.commit | exact (hr.setModel rfl).commit
    · unfold Gns.execDropModel
      repeat' split
      all_goals first | exact hr | exact ((hr.setSpace (.inl rfl)).setModel (.inr (.inl rfl))).commit
    · unfold Gns.execCreateUser
      repeat' split
      all_goals first | exact hr | exact (hr.setUser rfl).commit
    · unfold Gns.execAlterUser
      split <;> exact hr
    · unfold Gns.execDropUser
      repeat' split
      all_goals first | exact hr | exact (hr.setUser rfl).commit
  · exact hr

/-! ### Models come and go only where they are named -/

/-- A model that was there and is there after a statement that does not name its rows. -/
theorem exec_exists (perm : Fields → Fields) (u : Client) (c : Cat) (w : World) (s : Gns.Stmt) (a b : String)
    (h : ¬ DdlNames s (.rows a b)) :
    ((Gns.exec perm u c w s).cat.models a b).isSome = (c.models a b).isSome := by
  by_cases hd : DdlNames s (.decl a b)
  · cases s with
    | alterModel sp m k =>
      simp only [DdlNames, Part.decl.injEq] at hd
      obtain ⟨rfl, rfl⟩ := hd
      unfold Gns.exec
      split
      · simp only
        unfold Gns.execAlterModel
        split
        · rfl
        · rename_i m hm
          have hc : ∀ {w e m'}, ((c.commit w e { c with models := upd2 c.models a b (some m') } (.ok none)).cat.models a b).isSome = true := by
            intro w e m'
            unfold Gns.Cat.commit
            split
            · simp [upd2]
            · simp [Gns.Cat.reply, hm]
          have hc' : ∀ {w e r}, ((c.commit w e c r).cat.models a b).isSome = true := by
            intro w e r
            unfold Gns.Cat.commit
            split <;> simp [Gns.Cat.reply, hm]
          rw [hm]
          simp only [Option.isSome_some]
          repeat' split
          all_goals first | (simp [Gns.Cat.reply, hm]; done) | exact hc | exact hc'
      · rfl
    | createSpace n p f => cases hd
    | alterSpace n p => cases hd
    | dropSpace n fo f =>
      rcases hd with hd | ⟨h1, m, hd | hd⟩
      · cases hd
      · cases hd; exact absurd (.inr ⟨h1, b, .inr rfl⟩) h
      · cases hd
    | createModel sp m fs p f =>
      rcases hd with hd | hd | hd
      · cases hd
      · cases hd; exact absurd (.inr (.inr rfl)) h
      · cases hd
    | dropModel sp m fs p =>
      rcases hd with hd | hd | hd
      · cases hd
      · cases hd; exact absurd (.inr (.inr rfl)) h
      · cases hd
    | createUser n p => cases hd
    | alterUser n p => cases hd
    | dropUser n => cases hd
  · rw [(exec_frame perm u c w s).models a b hd]

/-! ### C49 -/

theorem runDdl_frame {o : Outside} {u : Client} {s : Srv} (hs : Neat s) {d : Gns.Stmt} {p : Part} (hp : ¬ DdlNames d p) :
    Same s (runDdl o u s d).1 p := by
  have hf := exec_frame o.perm u s.cat (worldFor s o.world d) d
  unfold runDdl
  cases p with
  | space n => exact hf.spaces n hp
  | user n => exact hf.users n hp
  | decl a b => exact hf.models a b hp
  | rows a b =>
    simp only [Same, follow]
    rw [exec_exists o.perm u s.cat _ d a b hp]
    cases h : s.cat.models a b with
    | none => simp [hs a b h]
    | some m => simp

theorem execute_frame {o : Outside} {s : Srv} (hs : Neat s) {x : Sess} {q : Query} {p : Part} (hp : ¬ Names q p) :
    Same s (execute o s x q).1 p := by
  have hr : Same s s p := by cases p <;> rfl
  cases q with
  | ddl d => exact runDdl_frame hs hp
  | sysctl c =>
    cases c with
    | user d => exact runDdl_frame hs hp
    | report => exact hr
  | use u => exact hr
  | inspect i =>
    simp only [execute]
    split <;> exact hr
  | rows q =>
    simp only [execute]
    split
    · exact hr
    · cases p with
      | rows a b =>
        have : ¬ (a = q.space ∧ b = q.model) := by rintro ⟨rfl, rfl⟩; exact hp rfl
        simp only [Same, Srv.setRows, this, if_false]
      | _ => rfl

theorem execute_neat {o : Outside} {s : Srv} (hs : Neat s) (x : Sess) (q : Query) : Neat (execute o s x q).1 := by
  have hd : ∀ d, Neat (runDdl o x.client s d).1 := by
    intro d a b h
    simp only [runDdl] at h ⊢
    simp [follow, h]
  cases q with
  | ddl d => exact hd d
  | sysctl c =>
    cases c with
    | user d => exact hd d
    | report => exact hs
  | use u => exact hs
  | inspect i =>
    simp only [execute]
    split <;> exact hs
  | rows q =>
    simp only [execute]
    split
    · exact hs
    · rename_i t ht
      intro a b h
      have : ¬ (a = q.space ∧ b = q.model) := by
        rintro ⟨rfl, rfl⟩
        simp only [Srv.setRows] at h
        simp [Srv.tbl, h] at ht
      simp only [Srv.setRows, this, if_false]
      exact hs a b h

theorem serve_read {o : Outside} {s : Srv} {x : Sess} {text params : Bytes} :
    (∀ q, read o x text params = some q → serve o s x text params = execute o s x q) ∧
    (read o x text params = none → (serve o s x text params).1 = s ∧ (serve o s x text params).2.1 = x ∧
      (serve o s x text params).2.2.2 = none) := by
  unfold read serve
  cases lex o.pf text params with
  | error e => exact ⟨fun q h => (by cases h), fun _ => ⟨rfl, rfl, rfl⟩⟩
  | ok toks =>
    simp only
    cases Ql.parse x.client.root ⟨toks, x.cs, o.uuidStr, o.uuidBin, o.time⟩ with
    | ok q => exact ⟨fun q h => (by cases h; rfl), fun h => (by cases h)⟩
    | _ => exact ⟨fun q h => (by cases h), fun _ => ⟨rfl, rfl, rfl⟩⟩

theorem Srv.ext_parts {s s' : Srv} (h : ∀ p, Same s s' p) : s' = s := by
  obtain ⟨⟨a, b, c⟩, d⟩ := s
  obtain ⟨⟨a', b', c'⟩, d'⟩ := s'
  have h1 : a' = a := funext fun n => h (.space n)
  have h2 : b' = b := funext fun x => funext fun y => h (.decl x y)
  have h3 : c' = c := funext fun n => h (.user n)
  have h4 : d' = d := funext fun x => funext fun y => h (.rows x y)
  subst h1 h2 h3 h4
  rfl

theorem serve_neat {o : Outside} {s : Srv} (hs : Neat s) (x : Sess) (text params : Bytes) :
    Neat (serve o s x text params).1 := by
  cases h : read o x text params with
  | some q => rw [serve_read.1 q h]; exact execute_neat hs x q
  | none => rw [(serve_read.2 h).1]; exact hs

/-- Whatever happened before, only models have rows. -/
theorem Reached.neat {s : Srv} (h : Reached s) : Neat s := by
  induction h with
  | new name hash hn => exact fun _ _ _ => rfl
  | query o x text params hp _ ih => exact serve_neat ih x text params

/-- **C49.** A query changes only what it names: every space, user, declaration and the rows of every model that the query
does not name are after it as they were before it. A query that is not accepted changes nothing. Any text, any session,
any state that queries lead to. -/
theorem C49_frame {s : Srv} (hs : Reached s) (o : Outside) (x : Sess) (text params : Bytes) (p : Part)
    (hp : ∀ q, read o x text params = some q → ¬ Names q p) : Same s (serve o s x text params).1 p := by
  cases h : read o x text params with
  | some q => rw [serve_read.1 q h]; exact execute_frame hs.neat (hp q h)
  | none => rw [(serve_read.2 h).1]; cases p <;> rfl

/-- **C49.** A query that is not accepted, `USE`, `INSPECT`, `SYSCTL REPORT STATUS` change nothing. -/
theorem C49_readers {s : Srv} (hs : Reached s) (o : Outside) (x : Sess) (text params : Bytes)
    (h : ∀ q, read o x text params = some q → q = .sysctl .report ∨ (∃ u, q = .use u) ∨ ∃ i, q = .inspect i) :
    (serve o s x text params).1 = s := by
  refine Srv.ext_parts fun p => C49_frame hs o x text params p fun q hq hn => ?_
  rcases h q hq with rfl | ⟨u, rfl⟩ | ⟨i, rfl⟩ <;> exact hn

/-- The next states agree on what the query names, and so do the answers. -/
theorem rows_depend {o : Outside} {s s' : Srv} (x : Sess) (q : Ql.RowQuery) (h1 : Same s s' (.decl q.space q.model))
    (h2 : Same s s' (.rows q.space q.model)) :
    (execute o s' x (.rows q)).2 = (execute o s x (.rows q)).2 ∧
    Same (execute o s x (.rows q)).1 (execute o s' x (.rows q)).1 (.rows q.space q.model) := by
  have ht : s'.tbl q.space q.model = s.tbl q.space q.model := by
    simp only [Same] at h1 h2
    simp only [Srv.tbl, h1, h2]
  simp only [execute, ht]
  split
  · exact ⟨rfl, h2⟩
  · refine ⟨rfl, ?_⟩
    simp [Same, Srv.setRows]

/-- **C49.** The answer to a query on the rows of a model, and the rows after it, depend on nothing but the declaration of
this model, its rows, the current space, and what comes from outside. -/
theorem C49_rows_depend {o : Outside} {s s' : Srv} (x : Sess) (text params : Bytes) (q : Ql.RowQuery)
    (hq : read o x text params = some (.rows q)) (h1 : Same s s' (.decl q.space q.model))
    (h2 : Same s s' (.rows q.space q.model)) :
    (serve o s' x text params).2 = (serve o s x text params).2 ∧
    Same (serve o s x text params).1 (serve o s' x text params).1 (.rows q.space q.model) := by
  rw [serve_read.1 _ hq, serve_read.1 _ hq]
  exact rows_depend x q h1 h2

/-- What a query other than one on rows looks at: the rows of a model matter only to `INSPECT MODEL` and `DROP MODEL` of it. -/
theorem other_depend {o : Outside} {s s' : Srv} {a b : String} (hc : s'.cat = s.cat)
    (hr : ∀ x y, ¬ (x = a ∧ y = b) → s'.rows x y = s.rows x y) (x : Sess) {q : Query}
    (hn : ¬ Names q (.rows a b)) (hi : q ≠ .inspect (.model a b)) :
    (execute o s' x q).2 = (execute o s x q).2 ∧ (execute o s' x q).1.cat = (execute o s x q).1.cat ∧
    ∀ u v, ¬ (u = a ∧ v = b) → (execute o s' x q).1.rows u v = (execute o s x q).1.rows u v := by
  have hd : ∀ d, ¬ DdlNames d (.rows a b) → (runDdl o x.client s' d).2 = (runDdl o x.client s d).2 ∧
      (runDdl o x.client s' d).1.cat = (runDdl o x.client s d).1.cat ∧
      ∀ u v, ¬ (u = a ∧ v = b) → (runDdl o x.client s' d).1.rows u v = (runDdl o x.client s d).1.rows u v := by
    intro d hd
    have hw : worldFor s' o.world d = worldFor s o.world d := by
      cases d with
      | dropModel sp m fo f =>
        simp only [worldFor]
        rw [hr sp m]
        rintro ⟨rfl, rfl⟩
        exact hd (.inr (.inr rfl))
      | _ => rfl
    simp only [runDdl, hc, hw]
    refine ⟨trivial, trivial, fun u v h => ?_⟩
    simp only [follow, hr u v h]
  cases q with
  | ddl d =>
    have := hd d hn
    exact ⟨by simp only [execute]; exact congrArg (Prod.mk x) this.1, this.2⟩
  | sysctl c =>
    cases c with
    | user d =>
      have := hd d hn
      exact ⟨by simp only [execute]; exact congrArg (Prod.mk x) this.1, this.2⟩
    | report => exact ⟨rfl, hc, hr⟩
  | use u =>
    have : runUse s' x u = runUse s x u := by cases u <;> simp only [runUse, hc]
    simp only [execute, this]
    exact ⟨trivial, hc, hr⟩
  | inspect i =>
    have : inspect o s' x.client.root i = inspect o s x.client.root i := by
      cases i with
      | model sp m =>
        simp only [inspect, hc]
        rw [hr sp m]
        rintro ⟨rfl, rfl⟩
        exact hi rfl
      | _ => simp only [inspect, hc]
    simp only [execute, this]
    cases inspect o s x.client.root i <;> exact ⟨rfl, hc, hr⟩
  | rows q =>
    have hne : ¬ (q.space = a ∧ q.model = b) := by rintro ⟨rfl, rfl⟩; exact hn rfl
    have ht : s'.tbl q.space q.model = s.tbl q.space q.model := by simp only [Srv.tbl, hc, hr _ _ hne]
    simp only [execute, ht]
    split
    · exact ⟨rfl, hc, hr⟩
    · refine ⟨rfl, hc, fun u v h => ?_⟩
      simp only [Srv.setRows, hr u v h]

/-- **C49.** A query on the rows of a model and a query of another session that neither names this model nor inspects it can
be exchanged: both get the same answers, the sessions and the events that go to the log are the same, and so is the state
in the end. -/
theorem C49_exchange {s : Srv} (hs : Reached s) (o o' : Outside) (x x' : Sess) (text params text' params' : Bytes)
    (r : Ql.RowQuery) (hr : read o x text params = some (.rows r))
    (hq : ∀ q, read o' x' text' params' = some q →
      ¬ Names q (.decl r.space r.model) ∧ ¬ Names q (.rows r.space r.model) ∧ q ≠ .inspect (.model r.space r.model)) :
    let one := serve o s x text params
    let two := serve o' one.1 x' text' params'
    let two' := serve o' s x' text' params'
    let one' := serve o two'.1 x text params
    one'.1 = two.1 ∧ one'.2 = one.2 ∧ two'.2 = two.2 := by
  intro one two two' one'
  have hneat := hs.neat
  cases hq' : read o' x' text' params' with
  | none =>
    have e1 : two.1 = one.1 := (serve_read.2 hq').1
    have e2 : two'.1 = s := (serve_read.2 hq').1
    have e3 : two'.2 = two.2 := by
      simp only [two, two', serve]
      simp only [read] at hq'
      split
      · rfl
      · rename_i hl
        rw [hl] at hq'
        simp only at hq'
        split
        · rename_i hp; rw [hp] at hq'; cases hq'
        all_goals rfl
    exact ⟨by simp only [one', e1, e2]; rfl, by simp only [one', e2]; rfl, e3⟩
  | some q =>
    obtain ⟨h1, h2, h3⟩ := hq q hq'
    have eo : one = execute o s x (.rows r) := serve_read.1 _ hr
    have et : two = execute o' one.1 x' q := serve_read.1 _ hq'
    have et' : two' = execute o' s x' q := serve_read.1 _ hq'
    have eo' : one' = execute o two'.1 x (.rows r) := serve_read.1 _ hr
    have f1 : Same s two'.1 (.decl r.space r.model) := by rw [et']; exact execute_frame hneat h1
    have f2 : Same s two'.1 (.rows r.space r.model) := by rw [et']; exact execute_frame hneat h2
    obtain ⟨d1, d2⟩ := rows_depend (o := o) x r f1 f2
    rw [← eo, ← eo'] at d1 d2
    -- the query on rows changes nothing but the rows of its model
    have c1 : one.1.cat = s.cat := by rw [eo]; simp only [execute]; split <;> rfl
    have c2 : ∀ u v, ¬ (u = r.space ∧ v = r.model) → one.1.rows u v = s.rows u v := by
      intro u v h
      have := execute_frame (o := o) hneat (x := x) (q := .rows r) (p := .rows u v)
        (by rintro ⟨rfl, rfl⟩; exact h ⟨rfl, rfl⟩)
      rw [← eo] at this
      exact this
    have c3 : one'.1.cat = two'.1.cat := by rw [eo']; simp only [execute]; split <;> rfl
    have hneat' : Neat two'.1 := by rw [et']; exact execute_neat hneat _ _
    have c4 : ∀ u v, ¬ (u = r.space ∧ v = r.model) → one'.1.rows u v = two'.1.rows u v := by
      intro u v h
      have := execute_frame (o := o) hneat' (x := x) (q := .rows r) (p := .rows u v)
        (by rintro ⟨rfl, rfl⟩; exact h ⟨rfl, rfl⟩)
      rw [← eo'] at this
      exact this
    obtain ⟨g1, g2, g3⟩ := other_depend (o := o') c1 c2 x' h2 h3
    rw [← et, ← et'] at g1 g2 g3
    refine ⟨?_, d1, g1.symm⟩
    refine Srv.ext_parts fun p => ?_
    cases p with
    | space n => simp only [Same]; rw [c3, g2]
    | user n => simp only [Same]; rw [c3, g2]
    | decl a b => simp only [Same]; rw [c3, g2]
    | rows a b =>
      simp only [Same]
      by_cases h : a = r.space ∧ b = r.model
      · obtain ⟨rfl, rfl⟩ := h
        have hneat1 : Neat one.1 := by rw [eo]; exact execute_neat hneat _ _
        have f3 : Same one.1 two.1 (.rows r.space r.model) := by rw [et]; exact execute_frame hneat1 h2
        simp only [Same] at f3 d2
        rw [f3, d2]
      · rw [c4 a b h, g3 a b h]

/-- **C49.** A model that a query creates has no rows. -/
theorem C49_new_model {s : Srv} (hs : Reached s) (o : Outside) (x : Sess) (text params : Bytes) (a b : String)
    (h : s.cat.models a b = none) : (serve o s x text params).1.rows a b = Rows.none := by
  by_cases h' : (serve o s x text params).1.cat.models a b = none
  · exact serve_neat hs.neat x text params a b h'
  · cases hq : read o x text params with
    | none => rw [(serve_read.2 hq).1] at h' ⊢; exact absurd h h'
    | some q =>
      rw [serve_read.1 q hq] at h' ⊢
      have hd : ∀ d, (runDdl o x.client s d).1.rows a b = Rows.none := by
        intro d
        simp [runDdl, follow, h]
      cases q with
      | ddl d => exact hd d
      | sysctl c =>
        cases c with
        | user d => exact hd d
        | report => exact absurd h h'
      | use u => exact absurd h h'
      | inspect i =>
        simp only [execute] at h' ⊢
        split at h' <;> exact absurd h h'
      | rows q =>
        simp only [execute] at h'
        split at h' <;> exact absurd h h'

section Example

private def ofl : Dml.FloatOps := ⟨fun a _ => a, fun a _ => a, fun a _ => a, fun a _ => a⟩
private def out : Outside :=
  ⟨Gns.fine 1, id, id, ofl, fun _ => none, fun _ => "", fun _ => [], fun _ => 0, true, fun _ => [], fun _ => [], fun sp => sp.models⟩
private def srv0 : Srv := ⟨{ Cat.empty with users := Gns.upd Cat.empty.users "root" (some []) }, fun _ _ => Rows.none⟩
private def root : Sess := ⟨⟨"root", true⟩, none⟩
private def user : Sess := ⟨⟨"u", false⟩, some "s"⟩
private def qs : List (Outside × Sess × Bytes × Bytes) :=
  [(out, root, ascii "create space s", []),
   (out, root, ascii "create model s.m(primary id: uint64, n: uint8)", []),
   (out, root, ascii "create model s.k(primary id: uint64, n: uint8)", []),
   (out, user, ascii "insert into m(?, ?)", [2, 55, 10, 2, 49, 10]),
   (out, user, ascii "insert into k(?, ?)", [2, 55, 10, 2, 49, 10])]

private theorem word (s : String) (h : s.toList ≠ [] ∧ ∀ c ∈ s.toList, NameChar c) : Proper s := h

private theorem reached : Reached (serveAll srv0 qs) := by
  have h0 : Reached srv0 := .new "root" [] (word _ (by decide))
  exact .query _ _ _ _ (fun _ _ h => h) (.query _ _ _ _ (fun _ _ h => h) (.query _ _ _ _ (fun _ _ h => h)
    (.query _ _ _ _ (fun _ _ h => h) (.query _ _ _ _ (fun _ _ h => h) h0))))

private def keys (s : Srv) (m : String) : List Dml.Key := (s.rows "s" m).idx.map (·.1)
private def target : Option Query → Option (String × String)
  | some (.rows q) => some (q.space, q.model)
  | _ => none

/-- Two tables with a row each. A `DELETE` on one of them names only it and leaves the other one alone; a forced
`DROP MODEL` takes the rows with it, and a model of the same name starts empty. -/
example :
    keys (serveAll srv0 qs) "m" = [.uint 7] ∧ keys (serveAll srv0 qs) "k" = [.uint 7] ∧
    target (read out user (ascii "delete from m where id = ?") [2, 55, 10]) = some ("s", "m") ∧
    keys (serve out (serveAll srv0 qs) user (ascii "delete from m where id = ?") [2, 55, 10]).1 "m" = [] ∧
    keys (serve out (serveAll srv0 qs) user (ascii "delete from m where id = ?") [2, 55, 10]).1 "k" = [.uint 7] ∧
    keys (serve out (serveAll srv0 qs) root (ascii "drop model allow not empty s.k") []).1 "k" = [] ∧
    keys (serve out (serveAll srv0 qs) root (ascii "drop model allow not empty s.k") []).1 "m" = [.uint 7] ∧
    keys (serveAll srv0 (qs ++ [(out, root, ascii "drop model allow not empty s.k", []),
      (out, root, ascii "create model s.k(primary id: uint64, n: uint8)", [])])) "k" = [] := by
  decide +kernel

end Example

end Verif.Server
