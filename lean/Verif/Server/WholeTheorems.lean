import Verif.Server.WholeLemmas
import Verif.Batch.LifeTheorems
/-!
C56: restarts of the server are invisible to its clients, from the texts of their queries to the files on disk and back.
-/
namespace Verif.Server
open Verif.Lex (Token lex ascii)
open Verif.Gns (Cat Model Client World Consistent PkNonNull)
open Verif.Journal (HEADER)
open Verif.Dml (FloatOps ATable Reply SpecStep SpecRun abs Tbl SimpleUpd)
open Verif.Batch (LifeOk)

/-! ### Specification -/

/-- The statements on the table `sp.m` in a history. -/
def stmtsOn (sp m : String) (as : List Act) : List Dml.Stmt :=
  as.filterMap fun | .query q => stmtOn sp m q | _ => none

/-- The answers to these. -/
def answersTo (sp m : String) (out : List (Q × Answer)) : List Answer :=
  out.filterMap fun (q, a) => if (stmtOn sp m q).isSome then some a else none

/-- The conditions on the outside: hash maps iterate over all their entries, and no commit of a forced `DROP SPACE` fails. -/
def ActOk : Act → Prop
  | .query q => Usual q
  | .flush _ _ _ => True
  | .restart _ cl op _ => (∀ l, (cl l).Perm l) ∧ ∀ l, (op l).Perm l

/-- What happens leaves the declaration of the table alone; floating point arithmetic is `F`, and the index of the table
iterates over all its rows. -/
def ActSpares (F : FloatOps) (sp m : String) : Act → Prop
  | .query q => Spares sp m q ∧ q.1.floats = F ∧ ∀ l, (q.1.order l).Perm l
  | _ => True

/-! ### Proof -/

theorem SysOk.act {S : Setup} (hl : S.lim ≤ 2 ^ 62) {z z' : Sys} (h : SysOk S z) {a : Act} (ha : ActOk a)
    {o : List (Q × Answer)} (hx : z.act S a = .ok (z', o)) : SysOk S z' := by
  cases a with
  | query q =>
    rcases h.query hl ha with e | ⟨z1, e, h1, _⟩
    · rw [Sys.act, e] at hx; cases hx
    · rw [Sys.act, e] at hx; cases hx; exact h1
  | flush a b n =>
    rw [Sys.act] at hx
    obtain ⟨z1, h1, h2⟩ := bind_ok hx
    cases h2
    exact (h.flush h1).1
  | restart st cl op data => exact (h.restart hl ha.1 ha.2 hx).2.1

theorem SysOk.acts {S : Setup} (hl : S.lim ≤ 2 ^ 62) : ∀ {as : List Act} {z z' : Sys}, SysOk S z → (∀ a ∈ as, ActOk a) →
    ∀ {o : List (Q × Answer)}, z.acts S as = .ok (z', o) → SysOk S z'
  | [], z, z', h, _, o, hx => by cases hx; exact h
  | a :: as, z, z', h, ha, o, hx => by
    rw [Sys.acts] at hx
    obtain ⟨⟨z1, o1⟩, h1, h2⟩ := bind_ok hx
    obtain ⟨⟨z2, o2⟩, h3, h4⟩ := bind_ok h2
    cases h4
    exact SysOk.acts hl (h.act hl (ha a (by simp)) h1) (fun x hx => ha x (by simp [hx])) h3

theorem Holds.acts {S : Setup} (hl : S.lim ≤ 2 ^ 62) {F : FloatOps} {sp m : String} {md : Model} (hm : LifeOk md) :
    ∀ {as : List Act} {z z' : Sys} {t : Tbl}, SysOk S z → Holds S z sp m md t → (∀ a ∈ as, ActOk a) →
    (∀ a ∈ as, ActSpares F sp m a) → UpdatesFine F md (stmtsOn sp m as) (abs t) →
    ∀ {o : List (Q × Answer)}, z.acts S as = .ok (z', o) →
    ∃ (rs : List Reply) (t' : Tbl), answersTo sp m o = rs.map .rows ∧ Holds S z' sp m md t' ∧
      SpecRun F md (abs t) (stmtsOn sp m as) (abs t') (rs.map Reply.norm)
  | [], z, z', t, hz, h, _, _, _, o, hx => by
    cases hx
    exact ⟨[], t, rfl, h, .nil⟩
  | a :: as, z, z', t, hz, h, ha, hs, hf, o, hx => by
    rw [Sys.acts] at hx
    obtain ⟨⟨z1, o1⟩, h1, h2⟩ := bind_ok hx
    obtain ⟨⟨z2, o2⟩, h3, h4⟩ := bind_ok h2
    cases h4
    have hz1 := hz.act hl (ha a (by simp)) h1
    have ha' : ∀ a ∈ as, ActOk a := fun x hx => ha x (by simp [hx])
    have hs' : ∀ a ∈ as, ActSpares F sp m a := fun x hx => hs x (by simp [hx])
    have happ : answersTo sp m (o1 ++ o2) = answersTo sp m o1 ++ answersTo sp m o2 := by
      simp [answersTo]
    rw [happ]
    cases a with
    | query q =>
      obtain ⟨s1, s2, s3⟩ := hs (.query q) (by simp)
      have hout : ∃ ans, o1 = [(q, ans)] := by
        rcases hz.query hl (ha (.query q) (by simp)) with e | ⟨z1, e, _⟩
        · rw [Sys.act, e] at h1; cases h1
        · rw [Sys.act, e] at h1; cases h1; exact ⟨_, rfl⟩
      obtain ⟨ans, rfl⟩ := hout
      cases hst : stmtOn sp m q with
      | some st =>
        have hlist : stmtsOn sp m (.query q :: as) = st :: stmtsOn sp m as := by simp [stmtsOn, hst]
        rw [hlist] at hf ⊢
        obtain ⟨t1, g1, g2, _⟩ := h.query hl hm hz (ha (.query q) (by simp)) s1 s2 s3
          (by intro as w he; rw [hst] at he; cases he; exact hf.1 as w rfl) h1
        obtain ⟨r, e1, e2⟩ := g2 st hst
        obtain ⟨rs, t', k1, k2, k3⟩ := Holds.acts hl hm hz1 g1 ha' hs' (hf.2 _ _ e2) h3
        refine ⟨r :: rs, t', ?_, k2, .cons e2 k3⟩
        rw [e1, k1]
        simp [answersTo, hst]
      | none =>
        have hlist : stmtsOn sp m (.query q :: as) = stmtsOn sp m as := by simp [stmtsOn, hst]
        rw [hlist] at hf ⊢
        obtain ⟨t1, g1, _, g3⟩ := h.query hl hm hz (ha (.query q) (by simp)) s1 s2 s3
          (by intro as w he; rw [hst] at he; cases he) h1
        rw [← g3 hst] at hf ⊢
        obtain ⟨rs, t', k1, k2, k3⟩ := Holds.acts hl hm hz1 g1 ha' hs' hf h3
        refine ⟨rs, t', ?_, k2, k3⟩
        rw [k1]
        simp [answersTo, hst]
    | flush x y n =>
      have hlist : stmtsOn sp m (.flush x y n :: as) = stmtsOn sp m as := by simp [stmtsOn]
      rw [hlist] at hf ⊢
      rw [Sys.act] at h1
      obtain ⟨z3, f1, f2⟩ := bind_ok h1
      cases f2
      obtain ⟨t1, g1, g3⟩ := h.flush hl hm f1
      rw [← g3] at hf ⊢
      obtain ⟨rs, t', k1, k2, k3⟩ := Holds.acts hl hm hz1 g1 ha' hs' hf h3
      exact ⟨rs, t', by rw [k1]; rfl, k2, k3⟩
    | restart st cl op data =>
      have hlist : stmtsOn sp m (.restart st cl op data :: as) = stmtsOn sp m as := by simp [stmtsOn]
      rw [hlist] at hf ⊢
      have hok := ha (.restart st cl op data) (by simp)
      obtain ⟨r1, _, _, r4⟩ := hz.restart hl hok.1 hok.2 h1
      obtain ⟨t1, g1, g3⟩ := r4 sp m md t hm h
      subst r1
      rw [← g3] at hf ⊢
      obtain ⟨rs, t', k1, k2, k3⟩ := Holds.acts hl hm hz1 g1 ha' hs' hf h3
      exact ⟨rs, t', by rw [k1]; rfl, k2, k3⟩

/-! ### Theorems -/

/-- **C56 (partial).** Take any life of a server from a new installation on: texts of queries of any sessions of any users,
batches written in the background at any time, and clean shutdowns with the start after them at any time, everything through the
bytes of the files. Let a query create the model `sp.m`, with a primary key that is not nullable, and let nothing after it alter
or drop it. As long as the server runs and starts, the answers to the queries on the model, up to the widths of numbers, and the
rows in the end are those of a map from keys to rows to which only the statements were applied: restarts and batches cannot be
seen, whatever other queries do. Missing, as in C11, C31 and C12: the UPDATEs that the code gets wrong, nullable primary keys,
and changes of the columns; and concurrent queries (one query is one step). -/
theorem C56_restarts_are_invisible_partial {S : Setup} {F : FloatOps} (hl : S.lim ≤ 2 ^ 62) (hlo : HEADER < S.lim)
    (hg : S.gnsHdr.length = HEADER) (hmd : S.mdlHdr.length = HEADER) {hash : Bytes} {z0 z1 z2 z3 : Sys}
    {before after : List Act} {q : Q} {o1 o2 o3 : List (Q × Answer)} {sp m : String} {md : Model}
    (h0 : install S hash = .ok z0) (h1 : z0.acts S before = .ok (z1, o1)) (hb : ∀ a ∈ before, ActOk a)
    (h2 : z1.query S q = .ok (z2, o2)) (hq : Usual q) (hnew : z1.srv.cat.models sp m = none)
    (hm : z2.srv.cat.models sp m = some md) (hpk : PkNonNull md)
    (h3 : z2.acts S after = .ok (z3, o3)) (ha : ∀ a ∈ after, ActOk a ∧ ActSpares F sp m a)
    (hf : UpdatesFine F md (stmtsOn sp m after) (fun _ => none)) :
    ∃ (rs : List Reply) (t : Tbl), answersTo sp m o3 = rs.map .rows ∧ z3.srv.tbl sp m = some t ∧
      SpecRun F md (fun _ => none) (stmtsOn sp m after) (abs t) (rs.map Reply.norm) := by
  rcases install_ok hl hg hash with e | ⟨z, e, k0, _⟩
  · rw [e] at h0; cases h0
  rw [e] at h0
  cases h0
  have k1 := k0.acts hl hb h1
  obtain ⟨hm', hh⟩ := Holds.create hl hmd hlo k1 hnew hq h2 hm hpk
  have k2 : SysOk S z2 := k1.act hl (a := .query q) hq h2
  obtain ⟨rs, t, a1, a2, a3⟩ := hh.acts hl hm' k2 (fun a h => (ha a h).1) (fun a h => (ha a h).2) hf h3
  exact ⟨rs, t, a1, a2.tbl, a3⟩

/-! ### The server starts -/

theorem dropModels_sub {s : String} : ∀ {ns : List String} {ms ms' : String → String → Option Model},
    Gns.dropModels s ms ns = some ms' → ∀ {x y md}, ms' x y = some md → ms x y = some md
  | [], ms, ms', h, x, y, md, hx => by rw [Gns.dropModels] at h; cases h; exact hx
  | n :: ns, ms, ms', h, x, y, md, hx => by
    rw [Gns.dropModels] at h
    split at h
    · have := dropModels_sub h hx
      simp only [Gns.upd2] at this
      split at this
      · cases this
      · exact this
    · cases h

/-- Without `ALTER MODEL` a declaration does not change as long as it is there. -/
theorem exec_keep {perm : Enc.Fields → Enc.Fields} {u : Client} {c : Cat} {w : World} {s : Gns.Stmt} (hc : Consistent c)
    (hs : ∀ a b k, s ≠ .alterModel a b k) {a b : String} {md md' : Model} (h : c.models a b = some md)
    (h' : (Gns.exec perm u c w s).cat.models a b = some md') : md' = md := by
  by_cases hd : DdlNames s (.decl a b)
  · have hcommit : ∀ {w e next r}, (c.commit w e next r).cat.models a b = some md' → md' = md ∨ next.models a b = some md' := by
      intro w e next r hx
      unfold Gns.Cat.commit at hx
      split at hx
      · exact .inr hx
      · simp only [Gns.Cat.reply] at hx
        rw [h] at hx
        cases hx
        exact .inl rfl
    have hreply : ∀ {r}, (c.reply r).cat.models a b = some md' → md' = md := by
      intro r hx
      simp only [Gns.Cat.reply] at hx
      rw [h] at hx
      cases hx
      rfl
    unfold Gns.exec at h'
    split at h'
    · cases s with
      | alterModel x y k => exact absurd rfl (hs x y k)
      | createModel x y specs props f =>
        simp only [DdlNames, reduceCtorEq, Part.decl.injEq, false_or, or_false] at hd
        obtain ⟨rfl, rfl⟩ := hd
        simp only at h'
        unfold Gns.execCreateModel at h'
        repeat' split at h'
        all_goals first | exact hreply h' | skip
        rename_i sp hsp hni _
        obtain ⟨sp', a1, a2⟩ := hc.owned _ _ _ h
        rw [hsp] at a1
        cases a1
        simp [a2] at hni
      | dropModel x y fo f =>
        simp only [DdlNames, reduceCtorEq, Part.decl.injEq, false_or, or_false] at hd
        obtain ⟨rfl, rfl⟩ := hd
        simp only at h'
        unfold Gns.execDropModel at h'
        repeat' split at h'
        all_goals first | exact hreply h' | skip
        rcases hcommit h' with e | e
        · exact e
        · simp [Gns.upd2] at e
      | dropSpace n fo f =>
        simp only [DdlNames, reduceCtorEq, Part.decl.injEq, false_or, or_false] at hd
        obtain ⟨rfl, _⟩ := hd
        simp only at h'
        unfold Gns.execDropSpaceForce at h'
        split at h'
        · exact hreply h'
        · simp only at h'
          split at h'
          · split at h'
            · rename_i ms hms
              simp only at h'
              have := dropModels_sub hms h'
              rw [h] at this
              cases this
              rfl
            · simp only [h] at h'
              cases h'
              rfl
          · simp only [h] at h'
            cases h'
            rfl
      | _ => simp [DdlNames] at hd
    · exact hreply h'
  · have := (exec_frame perm u c w s).models a b hd
    rw [this, h] at h'
    cases h'
    rfl

/-- Nothing that the code is known to get wrong: no `ALTER MODEL`, no nullable primary key, and the UPDATEs set distinct columns
to values of their types. -/
def PlainAct (z : Sys) : Act → Prop
  | .query q => Usual q ∧ (∀ l, (q.1.order l).Perm l) ∧
      (∀ s m k, read q.1 q.2.1 q.2.2.1 q.2.2.2 ≠ some (.ddl (.alterModel s m k))) ∧
      (∀ s m specs p f, read q.1 q.2.1 q.2.2.1 q.2.2.2 = some (.ddl (.createModel s m specs p f)) → ¬ Gns.NullKey specs) ∧
      ∀ a b md as w, z.srv.cat.models a b = some md → stmtOn a b q = some (.update as w) → SimpleUpd md as
  | a => ActOk a

/-- This holds at every step of a history. -/
def Plainly (S : Setup) : Sys → List Act → Prop
  | _, [] => True
  | z, a :: as => PlainAct z a ∧ ∀ z' o, z.act S a = .ok (z', o) → Plainly S z' as

theorem sysctl_user {o : Outside} {x : Sess} {text params : Bytes} {d : Gns.Stmt}
    (h : read o x text params = some (.sysctl (.user d))) :
    (∀ a b k, d ≠ .alterModel a b k) ∧ ∀ a b s p f, d ≠ .createModel a b s p f := by
  unfold read at h
  split at h
  · cases h
  · split at h
    · rename_i hp
      cases h
      have hg := (Ql.parse_sound hp).1
      generalize Ql.Env.toks _ = ts at hg
      cases hg with
      | sysctl h => cases h <;> simp
    · cases h

theorem AllHold.query {S : Setup} (hl : S.lim ≤ 2 ^ 62) (hlo : HEADER < S.lim) (hh : S.mdlHdr.length = HEADER) {z z' : Sys}
    (hz : SysOk S z) (h : AllHold S z) {q : Q} (hp : PlainAct z (.query q)) {o : List (Q × Answer)}
    (hx : z.query S q = .ok (z', o)) : AllHold S z' := by
  obtain ⟨hu, hord, halt, hkey, hupd⟩ := hp
  intro a b md hm
  rcases hz.query hl hu with e | ⟨z1, e, hz1, e2, e3, _, _⟩
  · rw [e] at hx; cases hx
  have hx' := hx
  rw [e] at hx
  cases hx
  cases hold : z.srv.cat.models a b with
  | none =>
    have hm' := hm
    rw [e2] at hm'
    obtain ⟨q', d, specs, props, f, spid, n0, n1, n2, n3, n4, n5⟩ := serve_new hold hm'
    have hnk : ¬ Gns.NullKey specs := by
      subst n2
      rcases n1 with rfl | rfl
      · exact hkey _ _ _ _ _ n0
      · exact absurd rfl ((sysctl_user n0).2 _ _ _ _ _)
    obtain ⟨k1, k2⟩ := Holds.create hl hh hlo hz hold hu hx' hm (n4 hnk)
    exact ⟨k1, _, k2⟩
  | some md0 =>
    obtain ⟨k1, t, k2⟩ := h a b md0 hold
    have hdrv : z'.drv a b = z.drv a b := by rw [e3]; simp [hold]
    have same : z'.srv.tbl a b = some t → md = md0 ∧ Holds S z' a b md0 t := by
      intro ht
      obtain ⟨R, hg⟩ := k2.good
      have hh' : Holds S z' a b md0 t := ⟨ht, ⟨R, by rw [hdrv]; exact hg⟩, by rw [hdrv]; exact k2.size⟩
      refine ⟨?_, hh'⟩
      have := hh'.model
      rw [hm] at this
      cases this
      rfl
    suffices hs : ∃ t', Holds S z' a b md0 t' by
      obtain ⟨t', ht'⟩ := hs
      have := ht'.model
      rw [hm] at this
      cases this
      exact ⟨k1, t', ht'⟩
    have ddl : ∀ d, (∀ x y k, d ≠ .alterModel x y k) → z'.srv = (runDdl q.1 q.2.1.client z.srv d).1 →
        ∃ t', Holds S z' a b md0 t' := by
      intro d hd hsrv
      refine ⟨t, (same ?_).2⟩
      have hm' := hm
      rw [hsrv] at hm'
      have hk : md = md0 := exec_keep hz.cons hd hold hm'
      subst hk
      have ht := k2.tbl
      unfold Srv.tbl at ht ⊢
      rw [hsrv, hm']
      rw [hold] at ht
      have hr : (runDdl q.1 q.2.1.client z.srv d).1.rows a b = z.srv.rows a b := by
        simp only [runDdl] at hm' ⊢
        simp [follow, hold, hm']
      rw [hr]
      exact ht
    obtain ⟨oo, x, text, params⟩ := q
    simp only at e2 halt ddl hord
    cases hr : read oo x text params with
    | none =>
      refine ⟨t, (same ?_).2⟩
      rw [e2, (serve_read.2 hr).1]
      exact k2.tbl
    | some qq =>
      have spares : (∀ d, qq ≠ .ddl d) → (∀ d, qq ≠ .sysctl (.user d)) → Spares a b (oo, x, text, params) := by
        intro d1 d2 y hy
        simp only at hy
        rw [hr] at hy
        cases hy
        cases qq with
        | ddl d => exact absurd rfl (d1 d)
        | sysctl c =>
          cases c with
          | user d => exact absurd rfl (d2 d)
          | report => exact .inr ⟨id, id⟩
        | use u => exact .inr ⟨id, id⟩
        | inspect i => exact .inr ⟨id, id⟩
        | rows r =>
          by_cases hab : r.space = a ∧ r.model = b
          · refine .inl ?_
            unfold stmtOn
            simp only [hr, hab, and_self, if_true, Option.isSome_some]
          · refine .inr ⟨by simp [Names], ?_⟩
            intro hn
            simp only [Names, Part.rows.injEq] at hn
            exact hab ⟨hn.1.symm, hn.2.symm⟩
      have viaSpares : Spares a b (oo, x, text, params) → ∃ t', Holds S z' a b md0 t' := by
        intro hsp
        obtain ⟨t', g1, _⟩ := k2.query hl k1 hz hu hsp rfl hord
          (by
            intro as w hst
            exact (updatesFine_simple (F := oo.floats) (A := abs t) k1.model (ss := [.update as w])
              (by intro as' w' hmem; simp only [List.mem_singleton, Dml.Stmt.update.injEq] at hmem
                  obtain ⟨rfl, rfl⟩ := hmem; exact hupd a b md0 _ _ hold hst)).1 as w rfl) hx'
        exact ⟨t', g1⟩
      cases qq with
      | ddl d =>
        refine ddl d (fun x' y k hk => halt x' y k (by rw [hr, hk])) ?_
        rw [e2, serve_read.1 _ hr]
        rfl
      | sysctl c =>
        cases c with
        | user d =>
          refine ddl d (sysctl_user hr).1 ?_
          rw [e2, serve_read.1 _ hr]
          rfl
        | report => exact viaSpares (spares (by simp) (by simp))
      | use u => exact viaSpares (spares (by simp) (by simp))
      | inspect i => exact viaSpares (spares (by simp) (by simp))
      | rows r => exact viaSpares (spares (by simp) (by simp))

theorem AllHold.acts_not_bad {S : Setup} (hl : S.lim ≤ 2 ^ 62) (hlo : HEADER < S.lim) (hh : S.mdlHdr.length = HEADER) :
    ∀ {as : List Act} {z : Sys}, SysOk S z → AllHold S z → Plainly S z as → z.acts S as ≠ .bad
  | [], z, _, _, _ => by simp [Sys.acts]
  | a :: as, z, hz, h, hp => by
    have hok : ActOk a := by
      cases a with
      | query q => exact hp.1.1
      | flush => trivial
      | restart => exact hp.1
    have hne : z.act S a ≠ .bad := by
      cases a with
      | query q =>
        rw [Sys.act]
        rcases hz.query hl hok with e | ⟨z1, e, _⟩ <;> rw [e] <;> simp
      | flush a b n =>
        rw [Sys.act]
        have := h.flush_not_bad hl a b n
        cases hx : z.flush S a b n with
        | bad => exact absurd hx this
        | full => simp [Batch.Run.bind]
        | ok => simp [Batch.Run.bind]
      | restart st cl op data => exact AllHold.restart_not_bad hl hz h hok.1 hok.2
    rw [Sys.acts]
    cases hx : z.act S a with
    | bad => exact absurd hx hne
    | full => simp [Batch.Run.bind]
    | ok r =>
      obtain ⟨z1, o1⟩ := r
      have hz1 := hz.act hl hok hx
      have h1 : AllHold S z1 := by
        cases a with
        | query q => exact h.query hl hlo hh hz hp.1 hx
        | flush a b n =>
          rw [Sys.act] at hx
          obtain ⟨z3, f1, f2⟩ := bind_ok hx
          cases f2
          intro x y md hm
          rw [(hz.flush f1).2] at hm
          obtain ⟨k1, t, k2⟩ := h x y md hm
          obtain ⟨t', g, _⟩ := k2.flush hl k1 f1
          exact ⟨k1, t', g⟩
        | restart st cl op data =>
          obtain ⟨_, _, r3, r4⟩ := hz.restart hl hok.1 hok.2 hx
          intro x y md hm
          rw [r3] at hm
          obtain ⟨k1, t, k2⟩ := h x y md hm
          obtain ⟨t', g, _⟩ := r4 x y md t k1 k2
          exact ⟨k1, t', g⟩
      have := AllHold.acts_not_bad hl hlo hh hz1 h1 (hp.2 z1 o1 hx)
      simp only [Batch.Run.bind]
      cases hy : z1.acts S as with
      | bad => exact absurd hy this
      | full => simp
      | ok => simp

/-- **C56 (partial).** Every life of a server without the things that the code is known to get wrong goes on until a file or a
counter is full: every batch is written, every shutdown is clean and every start succeeds. -/
theorem C56_every_start_succeeds_partial {S : Setup} (hl : S.lim ≤ 2 ^ 62) (hlo : HEADER < S.lim)
    (hg : S.gnsHdr.length = HEADER) (hmd : S.mdlHdr.length = HEADER) {hash : Bytes} {z0 : Sys} {as : List Act}
    (h0 : install S hash = .ok z0) (hp : Plainly S z0 as) :
    z0.acts S as = .full ∨ ∃ z o, z0.acts S as = .ok (z, o) := by
  rcases install_ok hl hg hash with e | ⟨z, e, k0, k1⟩
  · rw [e] at h0; cases h0
  rw [e] at h0
  cases h0
  have hall : AllHold S z0 := by
    intro a b md hm
    rw [k1] at hm
    cases hm
  have := AllHold.acts_not_bad hl hlo hmd k0 hall hp
  cases hx : z0.acts S as with
  | bad => exact absurd hx this
  | full => exact .inl rfl
  | ok r => exact .inr ⟨r.1, r.2, rfl⟩

section Example

private def ofl : Dml.FloatOps := ⟨fun a _ => a, fun a _ => a, fun a _ => a, fun a _ => a⟩
private def out : Outside :=
  ⟨Gns.fine 1, id, List.reverse, ofl, fun _ => none, fun _ => "", fun _ => [], fun _ => 0, true, fun _ => [], fun _ => [],
    fun sp => sp.models⟩
private def root : Sess := ⟨⟨"root", true⟩, none⟩
private def user : Sess := ⟨⟨"u", false⟩, some "s"⟩
private def asRoot (text : String) : Act := .query (out, root, ascii text, [])
private def asUser (text : String) (params : Bytes) : Act := .query (out, user, ascii text, params)
private def setup : Setup := ⟨100000, List.replicate 64 0, List.replicate 64 1⟩
private def again : Act := .restart .same id List.reverse (fun _ => [])

private def number : Cell → Nat
  | .uint _ v => v.toNat
  | _ => 1000

/-- The rows of an answer; `none` for an error. -/
private def seen : Answer → Option (List (List Nat))
  | .rows .empty => some []
  | .rows (.row cs) => some [cs.map number]
  | .rows (.rows _ rs) => some (rs.map (·.map number))
  | _ => none

private def lives (sp m : String) (as : List Act) : Option (List (Option (List (List Nat)))) :=
  match (install setup []).bind fun z => z.acts setup as with
  | .ok (_, o) => some ((answersTo sp m o).map seen)
  | _ => none

private def begins : List Act :=
  [asRoot "create space s", asRoot "create model s.k(primary id: uint64, x: string)",
   asRoot "create model s.m(primary id: uint64, n: uint8)"]

private def goesOn : List Act :=
  [asUser "insert into m(?, ?)" [2, 55, 10, 2, 49, 10],
   asUser "insert into m(?, ?)" [2, 56, 10, 2, 52, 10],
   again,
   asUser "insert into m(?, ?)" [2, 55, 10, 2, 50, 10],
   asUser "update m set n = ? where id = ?" [2, 51, 10, 2, 55, 10],
   asRoot "alter model s.k remove x",
   .flush "s" "m" 1,
   asUser "delete from m where id = ?" [2, 56, 10],
   again,
   asRoot "drop model s.k",
   again,
   asUser "select n, id from m where id = ?" [2, 55, 10],
   asUser "select all id, n from m limit ?" [2, 57, 10]]

/-- Three restarts and a batch, between rows that are inserted, refused, updated and deleted. -/
example : lives "s" "m" (begins ++ goesOn) = some [some [], some [], none, some [], some [], some [[3, 7]], some [[7, 3]]] := by
  decide +kernel

/-- **C56 is violated.** From texts to texts: the column `a` is removed; before a restart `b` is 5, after it `b` is 4. -/
theorem C56_columns_violated :
    lives "s" "m" [asRoot "create space s", asRoot "create model s.m(primary id: uint64, a: uint8, b: uint8)",
      asUser "insert into m(?, ?, ?)" [2, 55, 10, 2, 52, 10, 2, 53, 10], again, asRoot "alter model s.m remove a",
      asUser "select b from m where id = ?" [2, 55, 10], again,
      asUser "select b from m where id = ?" [2, 55, 10]] = some [some [], some [[5]], some [[4]]] := by
  decide +kernel

/-- **C56 is violated.** An UPDATE is refused because its last column does not exist. Before a restart the row has been changed
nevertheless, after it the row is as before. -/
theorem C56_refused_update_violated :
    lives "s" "m" (begins ++ [asUser "insert into m(?, ?)" [2, 55, 10, 2, 52, 10], again,
      asUser "update m set n = ?, n = ?, y = ? where id = ?" [2, 53, 10, 2, 54, 10, 2, 55, 10, 2, 55, 10],
      asUser "select n from m where id = ?" [2, 55, 10], again,
      asUser "select n from m where id = ?" [2, 55, 10]]) = some [some [], none, some [[5]], some [[4]]] := by
  decide +kernel

private theorem sparing : ∀ a ∈ goesOn, ActOk a ∧ ActSpares ofl "s" "m" a := by
  have yes : ∀ {q : Q}, (stmtOn "s" "m" q).isSome = true → Spares "s" "m" q := fun h _ _ => .inl h
  have perm : ∀ l : List (Dml.Key × Nat), (out.order l).Perm l := fun l => List.reverse_perm l
  have usual : ∀ {x text params}, Usual (out, x, text, params) := by
    intro x text params
    exact ⟨fun l => List.Perm.refl _, fun _ _ _ => rfl⟩
  intro a ha
  simp only [goesOn, List.mem_cons, List.not_mem_nil, or_false] at ha
  rcases ha with rfl | rfl | rfl | rfl | rfl | rfl | rfl | rfl | rfl | rfl | rfl | rfl | rfl
  · exact ⟨usual, yes (by decide +kernel), rfl, perm⟩
  · exact ⟨usual, yes (by decide +kernel), rfl, perm⟩
  · exact ⟨⟨fun l => List.Perm.refl _, fun l => List.reverse_perm l⟩, trivial⟩
  · exact ⟨usual, yes (by decide +kernel), rfl, perm⟩
  · exact ⟨usual, yes (by decide +kernel), rfl, perm⟩
  · refine ⟨usual, ?_, rfl, perm⟩
    intro a ha
    have h : (read out root (ascii "alter model s.k remove x") []).map
        (fun | .ddl (.alterModel s m _) => (s, m) | _ => ("", "")) = some ("s", "k") := by decide +kernel
    simp only at ha
    rw [ha] at h
    simp only [Option.map_some, Option.some.injEq] at h
    split at h
    · cases h
      simp [Names, DdlNames]
    · simp at h
  · exact ⟨trivial, trivial⟩
  · exact ⟨usual, yes (by decide +kernel), rfl, perm⟩
  · exact ⟨⟨fun l => List.Perm.refl _, fun l => List.reverse_perm l⟩, trivial⟩
  · refine ⟨usual, ?_, rfl, perm⟩
    intro a ha
    have h : (read out root (ascii "drop model s.k") []).map
        (fun | .ddl (.dropModel s m _ _) => (s, m) | _ => ("", "")) = some ("s", "k") := by decide +kernel
    simp only at ha
    rw [ha] at h
    simp only [Option.map_some, Option.some.injEq] at h
    split at h
    · cases h
      simp [Names, DdlNames]
    · simp at h
  · exact ⟨⟨fun l => List.Perm.refl _, fun l => List.reverse_perm l⟩, trivial⟩
  · exact ⟨usual, yes (by decide +kernel), rfl, perm⟩
  · exact ⟨usual, yes (by decide +kernel), rfl, perm⟩

/-- **C56 is violated.** A model whose first column is marked null has a nullable primary key (C35). A row with the key null is
acknowledged, and the shutdown crashes when it writes the row (C11). -/
theorem C56_null_key_violated :
    Batch.isBad ((install setup []).bind fun z => z.acts setup
      [asRoot "create space s", asRoot "create model s.m(null id: string, x: string)", again]) = false ∧
    lives "s" "m" [asRoot "create space s", asRoot "create model s.m(null id: string, x: string)",
      asUser "insert into m(null, ?)" [6, 49, 10, 97]] = some [some []] ∧
    Batch.isBad ((install setup []).bind fun z => z.acts setup
      [asRoot "create space s", asRoot "create model s.m(null id: string, x: string)",
       asUser "insert into m(null, ?)" [6, 49, 10, 97], again]) = true := by
  decide +kernel

end Example

end Verif.Server
