import Verif.Server.Whole
/-!
Lemmas for C56.
-/
namespace Verif.Server
open Verif.Lex (Token lex ascii)
open Verif.Enc (Event Uuid)
open Verif.Gns (Cat Model Client World Consistent Rebuilt EvOk ModelOk PkNonNull)
open Verif.Journal (JW openJournal eventLogDecode HEADER)
open Verif.Dml (FloatOps ATable Reply SpecStep SpecRun Inv abs Fine Tbl)
open Verif.Batch (Good Kept LifeOk StmtTags TagOk TagsOk)
open Verif.Ql.Gr (Elem Elems Datum Tuple Named Data)

theorem bind_ok {α β : Type} {x : Batch.Run α} {f : α → Batch.Run β} {b : β} (h : x.bind f = .ok b) :
    ∃ a, x = .ok a ∧ f a = .ok b := by
  cases x with
  | ok a => exact ⟨a, rfl, h⟩
  | full => cases h
  | bad => cases h

/-- The decoder of the log of the catalogue. -/
abbrev gdec : Journal.Decode Cat := eventLogDecode 11 Gns.gnsApply

/-! ### The log of the catalogue -/

theorem commitEvs_ok {S : Setup} (hl : S.lim ≤ 2 ^ 62) : ∀ {es : List Event} {w : JW} {r r' : Cat}, w.Idle →
    Journal.Reached gdec Cat.empty w r → w.log.disk.length < S.lim → Gns.applyAll r es = .ok r' → (∀ e ∈ es, EvOk e) →
    commitEvs S w es = .full ∨ ∃ w', commitEvs S w es = .ok w' ∧ w'.Idle ∧ Journal.Reached gdec Cat.empty w' r' ∧
      w'.log.disk.length < S.lim ∧ ∀ e ∈ es, Enc.WfEvent e
  | [], w, r, r', hi, hr, hs, ha, _ => by
    cases ha
    exact .inr ⟨w, rfl, hi, hr, hs, by simp⟩
  | e :: es, w, r, r', hi, hr, hs, ha, he => by
    obtain ⟨r1, a1, a2⟩ := Res.bind_eq_ok ha
    obtain ⟨w1, e1, i1, d1, -⟩ := hi.commitEvent (Gns.toEv e)
    have hlen : w1.log.disk.length = w.log.disk.length + (40 + e.encode.length) := by
      rw [d1, List.length_append, Journal.evBytes_length]; rfl
    rw [commitEvs, e1]
    simp only [fits]
    by_cases hf : w1.log.disk.length < S.lim
    · rw [if_pos hf]
      have hwf : Enc.WfEvent e := Gns.wf_event e (he e (by simp)) (by omega)
      have hap : Gns.gnsApply r (Gns.toEv e) = .ok r1 := by
        simp only [Gns.gnsApply, Gns.toEv, Enc.C08_nothing_left_over e hwf, a1]
        simp
      have hr1 : Journal.Reached gdec Cat.empty w1 r1 := hr.commit (by omega) hi (Gns.code_lt e) e1 (by omega) hap
      rcases commitEvs_ok hl i1 hr1 hf a2 (fun x hx => he x (by simp [hx])) with h | ⟨w', h1, h2, h3, h4, h5⟩
      · exact .inl h
      · refine .inr ⟨w', h1, h2, h3, h4, ?_⟩
        intro x hx
        rcases List.mem_cons.1 hx with rfl | hx
        · exact hwf
        · exact h5 x hx
    · rw [if_neg hf]; exact .inl rfl

/-! ### The state of a running server -/

/-- What holds of a running server, whatever its tables are. -/
structure SysOk (S : Setup) (z : Sys) : Prop where
  neat : Neat z.srv
  cons : Consistent z.srv.cat
  idle : z.gw.Idle
  size : z.gw.log.disk.length < S.lim
  log : ∃ t r, Journal.Reached gdec Cat.empty z.gw r ∧ Rebuilt t z.srv.cat r
  keys : ∀ a b, (a, b) ∈ z.keys ↔ (z.srv.cat.models a b).isSome = true
  nodup : z.keys.Nodup

theorem dropModels_none {s : String} : ∀ {ns : List String} {ms ms' : String → String → Option Model},
    Gns.dropModels s ms ns = some ms' → ∀ {x y}, ms x y = none → ms' x y = none
  | [], ms, ms', h, x, y, hx => by rw [Gns.dropModels] at h; cases h; exact hx
  | n :: ns, ms, ms', h, x, y, hx => by
    rw [Gns.dropModels] at h
    split at h
    · refine dropModels_none h ?_
      simp only [Gns.upd2]
      split
      · rfl
      · exact hx
    · cases h

/-- A model that was not there is there after a statement: it was created, and its versions start anew. -/
theorem exec_new {perm : Enc.Fields → Enc.Fields} {u : Client} {c : Cat} {w : World} {s : Gns.Stmt} {a b : String} {md : Model}
    (h : c.models a b = none) (h' : (Gns.exec perm u c w s).cat.models a b = some md) :
    ∃ specs props f sp, s = .createModel a b specs props f ∧ md.deltas = [] ∧ (¬ Gns.NullKey specs → PkNonNull md) ∧
      (Gns.exec perm u c w s).ev = some (.createModel ⟨a, sp⟩ b ⟨md.uuid, md.pk, md.pkTag, md.fields⟩) := by
  have hn : DdlNames s (.rows a b) := by
    apply Classical.byContradiction
    intro hx
    have := exec_exists perm u c w s a b hx
    rw [h, h'] at this
    cases this
  have hcommit : ∀ {w e next r}, (c.commit w e next r).cat.models a b = some md → (c.commit w e next r).ev = some e ∧ next.models a b = some md := by
    intro w e next r hx
    unfold Gns.Cat.commit at hx ⊢
    split
    · rename_i hc
      rw [if_pos hc] at hx
      exact ⟨rfl, hx⟩
    · rename_i hc
      rw [if_neg hc] at hx
      simp only [Gns.Cat.reply] at hx
      rw [h] at hx
      cases hx
  have hreply : ∀ {r}, (c.reply r).cat.models a b ≠ some md := by
    intro r hx
    simp only [Gns.Cat.reply] at hx
    rw [h] at hx
    cases hx
  cases s with
  | createModel x y specs props f =>
    simp only [DdlNames, reduceCtorEq, Part.rows.injEq, false_or] at hn
    obtain ⟨rfl, rfl⟩ := hn
    have key : ∀ o, Gns.execCreateModel c w a b specs props f = o → o.cat.models a b = some md → md.deltas = [] ∧
        (¬ Gns.NullKey specs → PkNonNull md) ∧
        ∃ sp, o.ev = some (.createModel ⟨a, sp⟩ b ⟨md.uuid, md.pk, md.pkTag, md.fields⟩) := by
      intro o ho h'
      unfold Gns.execCreateModel at ho
      repeat' split at ho
      all_goals subst ho
      all_goals first | exact absurd h' hreply | skip
      rename_i m hm _ sp hs hc hi
      obtain ⟨e1, e2⟩ := hcommit h'
      simp only [Gns.upd2, and_self, if_true, Option.some.injEq] at e2
      subst e2
      obtain ⟨_, _, hp⟩ := @Gns.processCreate_spec w.uuid specs props
      obtain ⟨_, _, p3, p4⟩ := hp m hm
      exact ⟨p3, p4, sp.uuid, e1⟩
    by_cases hu : u.root = true
    · have he : Gns.exec perm u c w (.createModel a b specs props f) = Gns.execCreateModel c w a b specs props f := by
        unfold Gns.exec
        rw [if_pos hu]
      rw [he] at h' ⊢
      obtain ⟨k1, k2, sp, k3⟩ := key _ rfl h'
      exact ⟨specs, props, f, sp, rfl, k1, k2, k3⟩
    · unfold Gns.exec at h'
      rw [if_neg hu] at h'
      exact absurd h' hreply
  | dropModel a b fo f =>
    simp only [DdlNames, reduceCtorEq, Part.rows.injEq, false_or] at hn
    obtain ⟨rfl, rfl⟩ := hn
    exfalso
    unfold Gns.exec at h'
    split at h'
    · simp only at h'
      unfold Gns.execDropModel at h'
      repeat' split at h'
      all_goals first | exact hreply h' | skip
      obtain ⟨_, e2⟩ := hcommit h'
      simp [Gns.upd2] at e2
    · exact hreply h'
  | dropSpace n fo f =>
    simp only [DdlNames, reduceCtorEq, Part.rows.injEq, false_or] at hn
    obtain ⟨rfl, m, rfl, rfl⟩ := hn
    exfalso
    unfold Gns.exec at h'
    split at h'
    · simp only at h'
      unfold Gns.execDropSpaceForce at h'
      split at h'
      · exact hreply h'
      · simp only at h'
        split at h'
        · split at h'
          · rename_i ms hms
            simp only at h'
            rw [dropModels_none hms h] at h'
            cases h'
          · simp only [h] at h'
            cases h'
        · simp only [h] at h'
          cases h'
    · exact hreply h'
  | _ => simp [DdlNames] at hn

/-- The same for a query. -/
theorem serve_new {s : Srv} {o : Outside} {x : Sess} {text params : Bytes} {a b : String} {md : Model}
    (h : s.cat.models a b = none) (h' : (serve o s x text params).1.cat.models a b = some md) :
    ∃ q d specs props f sp, read o x text params = some q ∧ (q = .ddl d ∨ q = .sysctl (.user d)) ∧
      d = .createModel a b specs props f ∧ md.deltas = [] ∧ (¬ Gns.NullKey specs → PkNonNull md) ∧
      (serve o s x text params).2.2.2 = some (.createModel ⟨a, sp⟩ b ⟨md.uuid, md.pk, md.pkTag, md.fields⟩) := by
  cases hr : read o x text params with
  | none =>
    rw [(serve_read.2 hr).1, h] at h'
    cases h'
  | some q =>
    rw [serve_read.1 q hr] at h' ⊢
    have hd : ∀ d, (q = .ddl d ∨ q = .sysctl (.user d)) → (runDdl o x.client s d).1.cat.models a b = some md →
        ∃ q' d specs props f sp, some q = some q' ∧ (q' = .ddl d ∨ q' = .sysctl (.user d)) ∧
      d = .createModel a b specs props f ∧ md.deltas = [] ∧ (¬ Gns.NullKey specs → PkNonNull md) ∧
      (runDdl o x.client s d).2.2 = some (.createModel ⟨a, sp⟩ b ⟨md.uuid, md.pk, md.pkTag, md.fields⟩) := by
      intro d hq hx
      obtain ⟨specs, props, f, sp, e1, e2, e3, e4⟩ := exec_new (perm := o.perm) (u := x.client) (w := worldFor s o.world d) (s := d) h hx
      exact ⟨q, d, specs, props, f, sp, rfl, hq, e1, e2, e3, e4⟩
    cases q with
    | ddl d =>
      obtain ⟨q', d', specs, props, f, sp, e0, e1, e2, e3, e4, e5⟩ := hd d (.inl rfl) h'
      cases e0
      rcases e1 with e1 | e1 <;> cases e1
      exact ⟨_, d, specs, props, f, sp, rfl, .inl rfl, e2, e3, e4, e5⟩
    | sysctl c =>
      cases c with
      | user d =>
        obtain ⟨q', d', specs, props, f, sp, e0, e1, e2, e3, e4, e5⟩ := hd d (.inr rfl) h'
        cases e0
        rcases e1 with e1 | e1 <;> cases e1
        exact ⟨_, d, specs, props, f, sp, rfl, .inr rfl, e2, e3, e4, e5⟩
      | report => simp only [execute] at h'; rw [h] at h'; cases h'
    | use u => simp only [execute] at h'; rw [h] at h'; cases h'
    | inspect i =>
      simp only [execute] at h'
      split at h' <;> (simp only at h'; rw [h] at h'; cases h')
    | rows r =>
      simp only [execute] at h'
      split at h' <;> (simp only [Srv.setRows] at h'; rw [h] at h'; cases h')

theorem nextKeys_spec {s : Srv} {q : Q} {ks : List MKey}
    (hk : ∀ a b, (a, b) ∈ ks ↔ (s.cat.models a b).isSome = true) (hn : ks.Nodup) :
    (∀ a b, (a, b) ∈ nextKeys (serve q.1 s q.2.1 q.2.2.1 q.2.2.2).1.cat ks (read q.1 q.2.1 q.2.2.1 q.2.2.2) ↔
      ((serve q.1 s q.2.1 q.2.2.1 q.2.2.2).1.cat.models a b).isSome = true) ∧
    (nextKeys (serve q.1 s q.2.1 q.2.2.1 q.2.2.2).1.cat ks (read q.1 q.2.1 q.2.2.1 q.2.2.2)).Nodup := by
  obtain ⟨o, x, text, params⟩ := q
  simp only
  unfold nextKeys
  have hbase : ∀ k ∈ ks, k ∈ (match (read o x text params).bind created with
    | some k => if k ∈ ks then ks else k :: ks
    | none => ks) := by
    intro k hkk
    split
    · split
      · exact hkk
      · exact List.mem_cons_of_mem _ hkk
    · exact hkk
  constructor
  · intro a b
    rw [List.mem_filter]
    constructor
    · exact fun h => h.2
    · intro h
      refine ⟨?_, h⟩
      cases hm : s.cat.models a b with
      | some md => exact hbase _ ((hk a b).2 (by rw [hm]; rfl))
      | none =>
        obtain ⟨md, hmd⟩ := Option.isSome_iff_exists.1 h
        obtain ⟨q', d, specs, props, f, sp, e0, e1, e2, -⟩ := serve_new hm hmd
        have hc : (read o x text params).bind created = some (a, b) := by
          rw [e0]
          rcases e1 with rfl | rfl <;> subst e2 <;> rfl
        rw [hc]
        simp only
        split
        · assumption
        · exact List.mem_cons_self
  · refine List.Pairwise.filter _ ?_
    split
    · split
      · exact hn
      · rename_i hx
        exact List.nodup_cons.2 ⟨hx, hn⟩
    · exact hn

theorem SysOk.query {S : Setup} (hl : S.lim ≤ 2 ^ 62) {z : Sys} (h : SysOk S z) {q : Q} (hu : Usual q) :
    z.query S q = .full ∨ ∃ z', z.query S q = .ok (z', [(q, (serve q.1 z.srv q.2.1 q.2.2.1 q.2.2.2).2.2.1)]) ∧ SysOk S z' ∧
      z'.srv = (serve q.1 z.srv q.2.1 q.2.2.1 q.2.2.2).1 ∧
      z'.drv = (fun a b => if (z.srv.cat.models a b).isSome then z.drv a b else newFile S.mdlHdr) ∧
      checkAt S z' (read q.1 q.2.1 q.2.2.1 q.2.2.2) = .ok () ∧
      ∀ e, (serve q.1 z.srv q.2.1 q.2.2.1 q.2.2.2).2.2.2 = some e → Enc.WfEvent e := by
  have hop := serve_op z.srv q.1 q.2.1 q.2.2.1 q.2.2.2
  obtain ⟨s1, s2, _, s4⟩ := Gns.session_ok hop h.cons (opOf_ok hu)
  obtain ⟨t, r, l1, l2⟩ := h.log
  obtain ⟨r', a1, a2⟩ := s4 t r l2
  have hneat := serve_neat (o := q.1) h.neat q.2.1 q.2.2.1 q.2.2.2
  have hkeys := nextKeys_spec (q := q) h.keys h.nodup
  rw [Sys.query]
  rcases hx : serve q.1 z.srv q.2.1 q.2.2.1 q.2.2.2 with ⟨srv, x', a, ev⟩
  rw [hx] at s1 s2 a1 a2 hneat hkeys
  simp only at s1 s2 a1 a2 hneat hkeys ⊢
  rcases commitEvs_ok hl h.idle l1 h.size a1 s2 with e | ⟨gw, e, i1, i2, i3, i4⟩
  · rw [e]; exact .inl rfl
  · rw [e]
    simp only [Batch.Run.bind]
    generalize hz : (Sys.mk srv (fun a b => if (z.srv.cat.models a b).isSome then z.drv a b else newFile S.mdlHdr) gw
      (nextKeys srv.cat z.keys (read q.1 q.2.1 q.2.2.1 q.2.2.2))) = z'
    have hc : checkAt S z' (read q.1 q.2.1 q.2.2.1 q.2.2.2) = .full ∨ checkAt S z' (read q.1 q.2.1 q.2.2.1 q.2.2.2) = .ok () := by
      unfold checkAt
      split
      · split
        · split
          · exact .inr rfl
          · exact .inl rfl
        · exact .inr rfl
      · exact .inr rfl
    rcases hc with hc | hc
    · rw [hc]; exact .inl rfl
    · refine .inr ⟨z', by rw [hc], ?_, by rw [← hz], by rw [← hz], hc, fun e he => i4 e (by simp [he])⟩
      subst hz
      exact ⟨hneat, s1, i1, i3, ⟨_, r', i2, a2⟩, hkeys.1, hkeys.2⟩

/-! ### What the parser delivers has the widths of its kinds -/

theorem produce_tag (e : Ql.Env) (i n : Nat) : TagOk (Ql.produce e i n) := by
  unfold Ql.produce
  split <;> simp [TagOk, Tag.cls]

theorem calls_tag {e : Ql.Env} {b : Bytes} {i : Nat} {v : Cell} (h : Ql.calls e b i = some v) : TagOk v := by
  simp only [Ql.calls, Option.map_eq_some_iff] at h
  obtain ⟨n, _, rfl⟩ := h
  exact produce_tag e i n

mutual
theorem elem_tag {e : Ql.Env} : ∀ {i : Nat} {ts : List Token} {v : Cell}, Elem (Ql.calls e) i ts v → TagOk v
  | _, _, _, .lit l => Batch.tagOk_lit l
  | _, _, _, .call h => calls_tag h
  | _, _, _, .empty => trivial
  | _, _, _, .list h _ => by
    rw [TagOk]
    exact elems_tag h
theorem elems_tag {e : Ql.Env} : ∀ {i : Nat} {ts : List Token} {l : List Cell}, Elems (Ql.calls e) i ts l → TagsOk l
  | _, _, _, .last h => by
    have h1 := elem_tag h
    exact ⟨h1, trivial⟩
  | _, _, _, .more h hs => by
    have h1 := elem_tag h
    have h2 := elems_tag hs
    exact ⟨h1, h2⟩
end

theorem datum_tag {e : Ql.Env} {i : Nat} {ts : List Token} {v : Cell} : Datum (Ql.calls e) i ts v → TagOk v
  | .elem h => elem_tag h
  | .null => trivial

theorem tuple_tag {e : Ql.Env} : ∀ {i : Nat} {ts : List Token} {l : List Cell}, Tuple (Ql.calls e) i ts l → ∀ v ∈ l, TagOk v
  | _, _, _, .last h => fun v hv => by cases List.mem_singleton.1 hv; exact datum_tag h
  | _, _, _, .cut h => fun v hv => by cases List.mem_singleton.1 hv; exact datum_tag h
  | _, _, _, .more h hs => by
    intro v hv
    rcases List.mem_cons.1 hv with rfl | hv
    · exact datum_tag h
    · exact tuple_tag hs v hv

theorem named_tag {e : Ql.Env} : ∀ {i : Nat} {ts : List Token} {l : List (String × Cell)}, Named (Ql.calls e) i ts l →
    ∀ v ∈ l, TagOk v.2
  | _, _, _, .last h => fun v hv => by cases List.mem_singleton.1 hv; exact datum_tag h
  | _, _, _, .cut h => fun v hv => by cases List.mem_singleton.1 hv; exact datum_tag h
  | _, _, _, .more h hs => by
    intro v hv
    rcases List.mem_cons.1 hv with rfl | hv
    · exact datum_tag h
    · exact named_tag hs v hv

theorem data_tag {e : Ql.Env} {i : Nat} {ts : List Token} {d : Dml.InsData} (h : Data (Ql.calls e) i ts d) :
    Batch.InsData.Tags d := by
  cases h with
  | noValues => exact fun _ h => (by cases h)
  | tuple h => exact tuple_tag h
  | noNames => exact fun _ h => (by cases h)
  | named h hd => exact named_tag h

theorem stmtOn_tags {sp m : String} {q : Q} {st : Dml.Stmt} (h : stmtOn sp m q = some st) : StmtTags st := by
  cases st with
  | insert d =>
    unfold stmtOn at h
    split at h
    · rename_i r hr
      split at h
      · unfold read at hr
        split at hr
        · cases hr
        · split at hr
          · rename_i hp
            cases hr
            have hg := (Ql.parse_sound hp).1
            generalize Ql.Env.toks _ = ts at hg
            cases hg with
            | rows hq =>
              cases hq with
              | insert _ hd =>
                simp only [asks, Option.some.injEq, Dml.Stmt.insert.injEq] at h
                subst h
                exact data_tag hd
              | _ => simp [asks] at h
          · cases hr
      · cases h
    · cases h
  | _ => trivial

/-! ### One table -/

/-- A table and its file are in order. -/
structure Holds (S : Setup) (z : Sys) (sp m : String) (md : Model) (t : Tbl) : Prop where
  tbl : z.srv.tbl sp m = some t
  good : ∃ R, Good md S.lim ⟨z.drv sp m, t⟩ R
  size : (z.drv sp m).log.disk.length < S.lim

theorem Holds.model {S : Setup} {z : Sys} {sp m : String} {md : Model} {t : Tbl} (h : Holds S z sp m md t) :
    z.srv.cat.models sp m = some md := by
  obtain ⟨R, hg⟩ := h.good
  have := h.tbl
  unfold Srv.tbl at this
  cases hm : z.srv.cat.models sp m with
  | none => simp [hm] at this
  | some x =>
    rw [hm] at this
    simp only [Option.map_some, Option.some.injEq] at this
    have h2 := hg.inv.model
    rw [← this] at h2
    simp only at h2
    rw [h2]

theorem Holds.query {S : Setup} (hl : S.lim ≤ 2 ^ 62) {F : FloatOps} {z z' : Sys} {sp m : String} {md : Model} {t : Tbl}
    (hm : LifeOk md) (hz : SysOk S z) (h : Holds S z sp m md t) {q : Q} (hu : Usual q) (hs : Spares sp m q)
    (hF : q.1.floats = F) (ho : ∀ l, (q.1.order l).Perm l)
    (hok : ∀ as w, stmtOn sp m q = some (.update as w) → Dml.StmtOk F md (abs t) (.update as w))
    {out : List (Q × Answer)} (hx : z.query S q = .ok (z', out)) :
    ∃ t', Holds S z' sp m md t' ∧ (∀ st, stmtOn sp m q = some st → ∃ r, out = [(q, .rows r)] ∧
      SpecStep F md (abs t) st (abs t') r.norm) ∧ (stmtOn sp m q = none → abs t' = abs t) := by
  obtain ⟨R, hg⟩ := h.good
  rcases hz.query hl hu with e | ⟨z1, e, _, e2, e3, e4, _⟩
  · rw [e] at hx; cases hx
  rw [e] at hx
  cases hx
  have hmod := h.model
  have hdrv : z'.drv sp m = z.drv sp m := by rw [e3]; simp [hmod]
  obtain ⟨o, x, text, params⟩ := q
  simp only at e2 e4 ho hF hok
  cases hst : stmtOn sp m (o, x, text, params) with
  | some st =>
    have hserve := stmtOn_serve hst h.tbl
    have hok' : Dml.StmtOk F md (abs t) st := by
      cases st with
      | insert d => exact stmtOn_wf hst
      | update as w => exact hok as w hst
      | _ => trivial
    have hspec := Dml.exec_spec hm.model hm.pk ho hg.inv (F := F) hok'
    have ht' : z'.srv.tbl sp m = some (Dml.exec F o.order t st).1 := by
      rw [e2, hserve, ← hF]
      exact tbl_setRows h.tbl (by rw [hF, hspec.1.model, hg.inv.model])
    have hcheck : (z.drv sp m).log.disk.length < S.lim ∧ (Dml.exec F o.order t st).1.ver < S.lim := by
      have hst' := hst
      unfold stmtOn at hst'
      simp only at hst'
      split at hst'
      · rename_i r hr
        split at hst'
        · rename_i hsp
          obtain ⟨rfl, rfl⟩ := hsp
          rw [hr, checkAt] at e4
          rw [ht'] at e4
          simp only [hdrv] at e4
          split at e4
          · assumption
          · cases e4
        · cases hst'
      · cases hst'
    rcases hg.step (F := F) (order := o.order) ho hm hl h.size (o := .stmt st) ⟨hok', fun _ _ _ => trivial⟩ (by simp)
      (by intro s hs'; simp [Batch.stmts] at hs'; subst hs'; exact stmtOn_tags hst) with hf | ⟨s', R', rs, g1, g2, g3, g4⟩
    · rw [Batch.step, Batch.check] at hf
      rw [if_pos hcheck] at hf
      cases hf
    · rw [Batch.step, Batch.check, if_pos hcheck] at g1
      cases g1
      refine ⟨(Dml.exec F o.order t st).1, ⟨ht', ⟨R', by rw [hdrv]; exact g2⟩, by rw [hdrv]; exact h.size⟩, ?_, by simp⟩
      intro st' hst'
      cases hst'
      refine ⟨(Dml.exec F o.order t st).2, ?_, hspec.2⟩
      simp only [hserve, hF]
  | none =>
    have ht' : z'.srv.tbl sp m = some t := by
      rw [e2]
      have ht := h.tbl
      cases hr : read o x text params with
      | none => rw [(serve_read.2 hr).1]; exact ht
      | some a =>
        rcases hs a hr with hh | ⟨g1, g2⟩
        · rw [hst] at hh; cases hh
        · have f1 := execute_frame (o := o) hz.neat (x := x) g1
          have f2 := execute_frame (o := o) hz.neat (x := x) g2
          rw [serve_read.1 a hr]
          simp only [Same] at f1 f2
          unfold Srv.tbl at ht ⊢
          rw [f1, f2]
          exact ht
    exact ⟨t, ⟨ht', ⟨R, by rw [hdrv]; exact hg⟩, by rw [hdrv]; exact h.size⟩, by simp, fun _ => rfl⟩

theorem tbl_setRows_other {s : Srv} {sp m a b : String} {t : Tbl} (h : ¬ (sp = a ∧ m = b)) :
    (s.setRows a b t).tbl sp m = s.tbl sp m := by
  unfold Srv.tbl
  simp only [Srv.setRows, h, if_false]

theorem SysOk.flush {S : Setup} {z z' : Sys} (h : SysOk S z) {a b : String} {n : Nat} (hx : z.flush S a b n = .ok z') :
    SysOk S z' ∧ z'.srv.cat = z.srv.cat := by
  unfold Sys.flush at hx
  split at hx
  · cases hx; exact ⟨h, rfl⟩
  · rename_i t ht
    obtain ⟨⟨s, r⟩, _, h2⟩ := bind_ok hx
    cases h2
    refine ⟨⟨?_, h.cons, h.idle, h.size, h.log, h.keys, h.nodup⟩, rfl⟩
    intro x y hxy
    have : ¬ (x = a ∧ y = b) := by
      rintro ⟨rfl, rfl⟩
      simp only [Srv.setRows] at hxy
      simp [Srv.tbl, hxy] at ht
    simp only [Srv.setRows, this, if_false]
    exact h.neat x y hxy

theorem Holds.flush {S : Setup} (hl : S.lim ≤ 2 ^ 62) {z z' : Sys} {sp m : String} {md : Model} {t : Tbl}
    (hm : LifeOk md) (h : Holds S z sp m md t) {a b : String} {n : Nat} (hx : z.flush S a b n = .ok z') :
    ∃ t', Holds S z' sp m md t' ∧ abs t' = abs t := by
  obtain ⟨R, hg⟩ := h.good
  unfold Sys.flush at hx
  split at hx
  · cases hx; exact ⟨t, h, rfl⟩
  · rename_i t1 ht1
    obtain ⟨⟨s, r⟩, h1, h2⟩ := bind_ok hx
    cases h2
    by_cases hab : sp = a ∧ m = b
    · obtain ⟨rfl, rfl⟩ := hab
      have : t1 = t := by have := h.tbl; rw [ht1] at this; cases this; rfl
      subst this
      rcases hg.flush hm hl n with hf | ⟨s', R', g1, g2, g3, _, g5⟩
      · rw [hf] at h1; cases h1
      · rw [g1] at h1
        cases h1
        refine ⟨s.t, ⟨tbl_setRows ht1 (by rw [g2.inv.model, hg.inv.model]), ⟨R', ?_⟩, ?_⟩, g3⟩
        · simp only [and_self, if_true]; exact g2
        · simp only [and_self, if_true]; exact g5 h.size
    · refine ⟨t, ⟨by rw [← h.tbl]; exact tbl_setRows_other hab, ⟨R, ?_⟩, ?_⟩, rfl⟩
      · simp only [hab, if_false]; exact hg
      · simp only [hab, if_false]; exact h.size

/-! ### Closing and opening the files of the models -/

theorem pathOf_key {c : Cat} {k : MKey} {p : Path} {md : Model} (h : pathOf c k = some (p, md)) :
    p.space = k.1 ∧ p.model = k.2 ∧ c.models k.1 k.2 = some md := by
  unfold pathOf at h
  split at h
  · rename_i s m hs hm
    cases h
    exact ⟨rfl, rfl, hm⟩
  · cases h

theorem closeAll_spec {S : Setup} {z : Sys} : ∀ {ks : List MKey} {f f' : Path → Bytes}, closeAll S z ks f = .ok f' → ks.Nodup →
    (∀ k ∈ ks, ∃ p md t file, pathOf z.srv.cat k = some (p, md) ∧ z.srv.tbl k.1 k.2 = some t ∧
      Batch.shutdown S.lim ⟨z.drv k.1 k.2, t⟩ = .ok file ∧ f' p = file) ∧
    ∀ p, (∀ k ∈ ks, ¬ (p.space = k.1 ∧ p.model = k.2)) → f' p = f p
  | [], f, f', h, _ => by
    cases h
    exact ⟨by simp, fun _ _ => rfl⟩
  | k :: ks, f, f', h, hn => by
    rw [closeAll] at h
    split at h
    · rename_i p md t hp ht
      obtain ⟨file, h1, h2⟩ := bind_ok h
      obtain ⟨hk, hn⟩ := List.nodup_cons.1 hn
      obtain ⟨i1, i2⟩ := closeAll_spec h2 hn
      obtain ⟨p1, p2, _⟩ := pathOf_key hp
      constructor
      · intro k' hk'
        rcases List.mem_cons.1 hk' with rfl | hk'
        · refine ⟨p, md, t, file, hp, ht, h1, ?_⟩
          rw [i2 p]
          · simp [setFile]
          · rintro k'' hk'' ⟨e1, e2⟩
            refine hk ?_
            have : k'' = k' := Prod.ext (by rw [← e1, p1]) (by rw [← e2, p2])
            rw [← this]; exact hk''
        · exact i1 k' hk'
      · intro p' hp'
        rw [i2 p' fun k' hk' => hp' k' (by simp [hk'])]
        have : p' ≠ p := by
          rintro rfl
          exact hp' k (by simp) ⟨p1, p2⟩
        simp [setFile, this]
    · cases h

theorem openAll_spec {S : Setup} {c : Cat} {data : Path → Bytes} : ∀ {ks : List MKey} {l l' : Loaded},
    openAll S c data ks l = .ok l' → ks.Nodup →
    (∀ k ∈ ks, ∃ p md s, pathOf c k = some (p, md) ∧ Batch.start S.lim md (data p) = .ok (s, ()) ∧
      l'.rows k.1 k.2 = ⟨s.t.heap, s.t.idx, s.t.ver, s.t.queue⟩ ∧ l'.drv k.1 k.2 = s.w) ∧
    ∀ a b, (a, b) ∉ ks → l'.rows a b = l.rows a b ∧ l'.drv a b = l.drv a b
  | [], l, l', h, _ => by
    cases h
    exact ⟨by simp, fun _ _ _ => ⟨rfl, rfl⟩⟩
  | k :: ks, l, l', h, hn => by
    rw [openAll] at h
    split at h
    · rename_i p md hp
      obtain ⟨⟨s, _⟩, h1, h2⟩ := bind_ok h
      obtain ⟨hk, hn⟩ := List.nodup_cons.1 hn
      obtain ⟨i1, i2⟩ := openAll_spec h2 hn
      constructor
      · intro k' hk'
        rcases List.mem_cons.1 hk' with rfl | hk'
        · obtain ⟨j1, j2⟩ := i2 k'.1 k'.2 hk
          refine ⟨p, md, s, hp, h1, ?_, ?_⟩
          · rw [j1]; simp [Loaded.set]
          · rw [j2]; simp [Loaded.set]
        · exact i1 k' hk'
      · intro a b hab
        simp only [List.mem_cons, not_or] at hab
        obtain ⟨j1, j2⟩ := i2 a b hab.2
        have : ¬ (a = k.1 ∧ b = k.2) := by
          rintro ⟨rfl, rfl⟩
          exact hab.1 rfl
        rw [j1, j2]
        simp [Loaded.set, this]
    · cases h

theorem rootOps_models (c : Cat) (st : Start) : (Gns.session c st.ops).1.models = c.models := by
  cases st <;> simp only [Start.ops, Gns.session, Gns.Op.run]
  · split <;> rfl
  · split <;> rfl

theorem rootOps_ok (st : Start) : ∀ o ∈ st.ops, o.ok ∧ ¬ o.lostDrop := by
  intro o ho
  cases st <;> simp only [Start.ops, List.mem_cons, List.not_mem_nil, or_false] at ho
  · subst ho; exact ⟨trivial, fun h => h⟩
  · subst ho; exact ⟨trivial, fun h => h⟩

/-- The log of the catalogue after a clean shutdown. -/
theorem SysOk.closed {S : Setup} (hl : S.lim ≤ 2 ^ 62) {z : Sys} (h : SysOk S z) :
    ∃ w gw t r, z.gw.close = (w, .ok ()) ∧ openJournal gdec Cat.empty w.log.disk [] = .ok (gw, r) ∧ gw.Idle ∧
      Journal.Reached gdec Cat.empty gw r ∧ Rebuilt t z.srv.cat r := by
  obtain ⟨t, r, h1, h2⟩ := h.log
  have hsz := h.size
  obtain ⟨w1, e1, i1, d1, k1, t1, n1, o1⟩ := h.idle.commitDriver .closed
  have hl1 : w1.log.disk.length = z.gw.log.disk.length + 64 := by
    rw [d1, List.length_append, Journal.drvBytes, Journal.encode_length]
  have hs := h1.scroll_closed h.idle e1 (by omega)
  obtain ⟨w2, e2, i2, d2, -⟩ := i1.commitDriver .reopened
  have hl2 : w2.log.disk.length = w1.log.disk.length + 64 := by
    rw [d2, List.length_append, Journal.drvBytes, Journal.encode_length]
  have h0 : w1.knownTxnOffset ≠ 0 := by
    rw [o1, i1.good.cur]; have := i1.hdr; simp only [HEADER] at this; omega
  refine ⟨w1, w2, t, r, e1, ?_, i2, h1.reopen h.idle e1 e2 (by omega), h2⟩
  unfold openJournal
  rw [hs]
  simp only [Res.bind]
  rw [JW.new_of_reader i1 h0, e2]

theorem pathOf_rebuilt {t : String → Bool} {c r : Cat} (h : Rebuilt t c r) (k : MKey) : pathOf r k = pathOf c k := by
  unfold pathOf
  have hs := h.spaces k.1
  rw [h.models]
  generalize c.spaces k.1 = a at hs
  generalize r.spaces k.1 = b at hs
  cases hs with
  | none => rfl
  | some _ => cases c.models k.1 k.2 <;> rfl

theorem pathOf_models {c : Cat} (h : Consistent c) {k : MKey} {md : Model} (hm : c.models k.1 k.2 = some md) :
    ∃ p, pathOf c k = some (p, md) := by
  obtain ⟨s, hs, _⟩ := h.owned _ _ _ hm
  exact ⟨⟨k.1, s.uuid, k.2, md.uuid⟩, by simp only [pathOf, hs, hm]⟩

/-- Opening the file that a shutdown left. -/
theorem start_kept {lim : Nat} {md : Model} {file : Bytes} {w : JW} {T : Tbl} (hk : Kept md file w T) :
    Batch.start lim md file = .full ∨ (Batch.start lim md file = .ok (⟨w, T⟩, ()) ∧ w.log.disk.length < lim ∧ Good md lim ⟨w, T⟩ T) := by
  rw [Batch.start, hk.opens]
  simp only [Batch.check]
  by_cases hf : w.log.disk.length < lim ∧ T.ver < lim
  · rw [if_pos hf]; exact .inr ⟨rfl, hf.1, hk.good hf.2⟩
  · rw [if_neg hf]; exact .inl rfl

/-- A restart keeps the rows of every model whose file would be read as it should be. -/
theorem SysOk.restart_kept {S : Setup} (hl : S.lim ≤ 2 ^ 62) {z z' : Sys} (h : SysOk S z) {st : Start}
    {cl op : List MKey → List MKey} (hcl : ∀ l, (cl l).Perm l) (hop : ∀ l, (op l).Perm l) {data : Path → Bytes}
    {out : List (Q × Answer)} (hx : z.act S (.restart st cl op data) = .ok (z', out)) :
    out = [] ∧ SysOk S z' ∧ z'.srv.cat.models = z.srv.cat.models ∧
    ∀ sp m md t, z.srv.cat.models sp m = some md → z.srv.tbl sp m = some t →
      (∀ file, Batch.shutdown S.lim ⟨z.drv sp m, t⟩ = .ok file → ∃ w T, Kept md file w T ∧ abs T = abs t) →
      ∃ t', Holds S z' sp m md t' ∧ abs t' = abs t := by
  obtain ⟨w, gw, t, r, c1, c2, c3, c4, c5⟩ := h.closed hl
  rw [Sys.act] at hx
  obtain ⟨d, x1, x2⟩ := bind_ok hx
  obtain ⟨z1, x3, x4⟩ := bind_ok x2
  cases x4
  rw [Sys.stop, c1] at x1
  simp only at x1
  obtain ⟨f, y1, y2⟩ := bind_ok x1
  cases y2
  rw [boot] at x3
  simp only [c2] at x3
  obtain ⟨gw1, v1, v2⟩ := bind_ok x3
  obtain ⟨l, v3, v4⟩ := bind_ok v2
  have hgs : gw1 = gw ∧ gw.log.disk.length < S.lim := by
    unfold fits at v1
    split at v1
    · cases v1; exact ⟨rfl, by assumption⟩
    · cases v1
  obtain ⟨rfl, hgs⟩ := hgs
  have hmodels := rootOps_models r st
  obtain ⟨s1, s2, _, s4⟩ := Gns.session_ok (os := st.ops) (c := r) (c' := (Gns.session r st.ops).1) (es := (Gns.session r st.ops).2)
    rfl (c5.consistent h.cons) (rootOps_ok st)
  obtain ⟨r', a1, a2⟩ := s4 t r c5.restart
  obtain ⟨gw2, v5, v6⟩ := bind_ok v4
  cases v6
  rcases commitEvs_ok hl c3 c4 hgs a1 s2 with e | ⟨w', e, i1, i2, i3, _⟩
  · rw [e] at v5; cases v5
  rw [e] at v5
  cases v5
  have hm2 : (Gns.session r st.ops).1.models = z.srv.cat.models := by rw [hmodels, c5.models]
  obtain ⟨k1, _⟩ := closeAll_spec y1 ((hcl z.keys).nodup_iff.2 h.nodup)
  obtain ⟨o1, o2⟩ := openAll_spec v3 ((hop z.keys).nodup_iff.2 h.nodup)
  refine ⟨rfl, ⟨?_, s1, i1, i3, ⟨_, r', i2, a2⟩, ?_, h.nodup⟩, hm2, ?_⟩
  · intro a b hab
    simp only [hm2] at hab
    have : (a, b) ∉ op z.keys := by
      rw [(hop z.keys).mem_iff, h.keys a b, hab]
      simp
    exact (o2 a b this).1
  · intro a b
    simp only [hm2]
    exact h.keys a b
  · intro sp m md t hmod htbl hsave
    have hmem : (sp, m) ∈ z.keys := (h.keys sp m).2 (by rw [hmod]; rfl)
    obtain ⟨p, md1, t1, file, p1, p2, p3, p4⟩ := k1 (sp, m) ((hcl _).mem_iff.2 hmem)
    obtain ⟨p', md2, s, q1, q2, q3, q4⟩ := o1 (sp, m) ((hop _).mem_iff.2 hmem)
    rw [pathOf_rebuilt c5, p1] at q1
    cases q1
    simp only at p2 p3 q3 q4
    have := htbl
    rw [p2] at this
    cases this
    have hmd : md1 = md := by
      have := (pathOf_key p1).2.2
      simp only at this
      rw [hmod] at this
      cases this
      rfl
    subst hmd
    obtain ⟨w, T, kp, ha⟩ := hsave _ p3
    rw [p4] at q2
    rcases start_kept (lim := S.lim) kp with e | ⟨e, e2, e3⟩
    · rw [e] at q2; cases q2
    · rw [e] at q2
      cases q2
      refine ⟨T, ⟨?_, ⟨T, ?_⟩, ?_⟩, ha⟩
      · unfold Srv.tbl
        simp only [hm2, q3, hmod, Option.map_some]
        have := kp.inv.model
        subst this
        rfl
      · simp only [q4]; exact e3
      · simp only [q4]; exact e2

theorem SysOk.restart {S : Setup} (hl : S.lim ≤ 2 ^ 62) {z z' : Sys} (h : SysOk S z) {st : Start}
    {cl op : List MKey → List MKey} (hcl : ∀ l, (cl l).Perm l) (hop : ∀ l, (op l).Perm l) {data : Path → Bytes}
    {out : List (Q × Answer)} (hx : z.act S (.restart st cl op data) = .ok (z', out)) :
    out = [] ∧ SysOk S z' ∧ z'.srv.cat.models = z.srv.cat.models ∧
    ∀ sp m md t, LifeOk md → Holds S z sp m md t → ∃ t', Holds S z' sp m md t' ∧ abs t' = abs t := by
  obtain ⟨h1, h2, h3, h4⟩ := h.restart_kept hl hcl hop hx
  refine ⟨h1, h2, h3, ?_⟩
  intro sp m md t hm ht
  obtain ⟨R, hg⟩ := ht.good
  refine h4 sp m md t ht.model ht.tbl ?_
  intro file hf
  rcases hg.shutdown hm hl ht.size with e | ⟨file', w, T, e, kp, ha⟩
  · rw [e] at hf; cases hf
  · rw [e] at hf
    cases hf
    exact ⟨w, T, kp, ha⟩

/-! ### New tables -/

theorem serve_new_rows {s : Srv} {o : Outside} {x : Sess} {text params : Bytes} {a b : String} {md : Model}
    (h : s.cat.models a b = none) (h' : (serve o s x text params).1.cat.models a b = some md) :
    (serve o s x text params).1.rows a b = Rows.none := by
  obtain ⟨q, d, specs, props, f, sp, e0, e1, -⟩ := serve_new h h'
  rw [serve_read.1 q e0]
  rcases e1 with rfl | rfl <;> simp [execute, runDdl, follow, h]

theorem Holds.create {S : Setup} (hl : S.lim ≤ 2 ^ 62) (hh : S.mdlHdr.length = HEADER) (hlo : HEADER < S.lim) {z z' : Sys}
    (hz : SysOk S z) {sp m : String} {md : Model} (hn : z.srv.cat.models sp m = none) {q : Q} (hu : Usual q)
    {out : List (Q × Answer)} (hx : z.query S q = .ok (z', out)) (hm : z'.srv.cat.models sp m = some md) (hpk : PkNonNull md) :
    LifeOk md ∧ Holds S z' sp m md (Tbl.empty md) := by
  rcases hz.query hl hu with e | ⟨z1, e, hz1, e2, e3, _, e5⟩
  · rw [e] at hx; cases hx
  rw [e] at hx
  cases hx
  have hm' := hm
  rw [e2] at hm'
  obtain ⟨_, _, _, _, _, spid, _, _, _, n1, _, n2⟩ := serve_new hn hm'
  have hwf := e5 _ n2
  have hok : LifeOk md := ⟨hz1.cons.models _ _ _ hm, hpk, by rw [n1]; simp, by rw [n1]; simp, hwf.2.2.2.1⟩
  obtain ⟨w, c1, i1, d1, r1⟩ := Journal.create_idle hh
  have hdrv : z'.drv sp m = w := by
    rw [e3]
    simp [hn, newFile, c1]
  refine ⟨hok, ?_, ⟨Tbl.empty md, ?_⟩, ?_⟩
  · unfold Srv.tbl
    have hr : z'.srv.rows sp m = Rows.none := by rw [e2]; exact serve_new_rows hn hm'
    rw [hm, hr]
    rfl
  · rw [hdrv]
    exact ⟨i1, r1 _ _ _, Batch.Sync.empty hok.mok, by intro r hr; simp [Tbl.empty] at hr,
      ⟨rfl, List.nodup_nil, by simp [Tbl.empty]⟩, by intro r hr; simp [Tbl.empty] at hr,
      by intro r hr; simp [Tbl.empty] at hr, by simp only [Tbl.empty]; omega⟩
  · rw [hdrv, d1, hh]; exact hlo

theorem install_ok {S : Setup} (hl : S.lim ≤ 2 ^ 62) (hh : S.gnsHdr.length = HEADER) (hash : Bytes) :
    install S hash = .full ∨ ∃ z, install S hash = .ok z ∧ SysOk S z ∧ z.srv = newServer hash := by
  obtain ⟨w, c1, i1, d1, r1⟩ := Journal.create_idle hh
  rw [install, c1]
  simp only [fits]
  by_cases hf : w.log.disk.length < S.lim
  · rw [if_pos hf]
    simp only [Batch.Run.bind]
    obtain ⟨s1, s2, _, s4⟩ := Gns.session_ok (os := (Start.init hash).ops) (c := Cat.empty)
      (c' := (Gns.session Cat.empty (Start.init hash).ops).1) (es := (Gns.session Cat.empty (Start.init hash).ops).2)
      rfl Gns.Cat.empty_consistent (rootOps_ok _)
    obtain ⟨r', a1, a2⟩ := s4 (fun _ => false) Cat.empty ⟨rfl, rfl, fun _ => .none⟩
    rcases commitEvs_ok hl i1 (r1 _ _ _) hf a1 s2 with e | ⟨w', e, j1, j2, j3, _⟩
    · rw [e]; exact .inl rfl
    · rw [e]
      refine .inr ⟨_, rfl, ⟨fun _ _ _ => rfl, s1, j1, j3, ⟨_, r', j2, a2⟩, ?_, List.nodup_nil⟩, rfl⟩
      intro a b
      simp only [rootOps_models, List.not_mem_nil, false_iff]
      simp [Cat.empty]
  · rw [if_neg hf]; exact .inl rfl

/-! ### Nothing goes wrong -/

/-- All tables and their files are in order. -/
def AllHold (S : Setup) (z : Sys) : Prop :=
  ∀ a b md, z.srv.cat.models a b = some md → LifeOk md ∧ ∃ t, Holds S z a b md t

theorem AllHold.flush_not_bad {S : Setup} (hl : S.lim ≤ 2 ^ 62) {z : Sys} (h : AllHold S z) (a b : String) (n : Nat) :
    z.flush S a b n ≠ .bad := by
  unfold Sys.flush
  cases ht : z.srv.tbl a b with
  | none => simp
  | some t =>
    simp only
    have ht' := ht
    unfold Srv.tbl at ht'
    cases hm : z.srv.cat.models a b with
    | none => simp [hm] at ht'
    | some md =>
      obtain ⟨h1, t', h2⟩ := h a b md hm
      have : t' = t := by have := h2.tbl; rw [ht] at this; cases this; rfl
      subst this
      obtain ⟨R, hg⟩ := h2.good
      rcases hg.flush h1 hl n with e | ⟨s', R', e, _⟩ <;> rw [e] <;> simp [Batch.Run.bind]

/-- All tables can be stored. -/
def AllKept (S : Setup) (z : Sys) : Prop :=
  ∀ a b md, z.srv.cat.models a b = some md → ∃ t, z.srv.tbl a b = some t ∧ (Batch.shutdown S.lim ⟨z.drv a b, t⟩ = .full ∨
    ∃ file w T, Batch.shutdown S.lim ⟨z.drv a b, t⟩ = .ok file ∧ Kept md file w T)

theorem AllHold.kept {S : Setup} (hl : S.lim ≤ 2 ^ 62) {z : Sys} (h : AllHold S z) : AllKept S z := by
  intro a b md hm
  obtain ⟨h1, t, h2⟩ := h _ _ _ hm
  obtain ⟨R, hg⟩ := h2.good
  refine ⟨t, h2.tbl, ?_⟩
  rcases hg.shutdown h1 hl h2.size with e | ⟨file, w, T, e, k, _⟩
  · exact .inl e
  · exact .inr ⟨file, w, T, e, k⟩

theorem AllKept.close_not_bad {S : Setup} {z : Sys} (hc : Consistent z.srv.cat) (h : AllKept S z) :
    ∀ (ks : List MKey) (f : Path → Bytes), (∀ k ∈ ks, (z.srv.cat.models k.1 k.2).isSome = true) → closeAll S z ks f ≠ .bad
  | [], f, _ => by simp [closeAll]
  | k :: ks, f, hk => by
    obtain ⟨md, hm⟩ := Option.isSome_iff_exists.1 (hk k (by simp))
    obtain ⟨t, ht, h2⟩ := h _ _ _ hm
    obtain ⟨p, hp⟩ := pathOf_models hc hm
    rw [closeAll, hp, ht]
    simp only
    rcases h2 with e | ⟨file, w, T, e, _⟩
    · rw [e]; simp [Batch.Run.bind]
    · rw [e]
      exact AllKept.close_not_bad hc h ks _ fun k hk' => hk k (by simp [hk'])

theorem openAll_not_bad {S : Setup} {c : Cat} {data : Path → Bytes} : ∀ (ks : List MKey) (l : Loaded),
    (∀ k ∈ ks, ∃ p md, pathOf c k = some (p, md) ∧ Batch.start S.lim md (data p) ≠ .bad) → openAll S c data ks l ≠ .bad
  | [], l, _ => by simp [openAll]
  | k :: ks, l, hk => by
    obtain ⟨p, md, h1, h2⟩ := hk k (by simp)
    rw [openAll, h1]
    simp only
    cases hs : Batch.start S.lim md (data p) with
    | bad => exact absurd hs h2
    | full => simp [Batch.Run.bind]
    | ok x => exact openAll_not_bad ks _ fun k hk' => hk k (by simp [hk'])

theorem AllKept.restart_not_bad {S : Setup} (hl : S.lim ≤ 2 ^ 62) {z : Sys} (h : SysOk S z) (ha : AllKept S z) {st : Start}
    {cl op : List MKey → List MKey} (hcl : ∀ l, (cl l).Perm l) (hop : ∀ l, (op l).Perm l) {data : Path → Bytes} :
    z.act S (.restart st cl op data) ≠ .bad := by
  obtain ⟨w, gw, t, r, c1, c2, c3, c4, c5⟩ := h.closed hl
  have hkeys : ∀ k ∈ cl z.keys, (z.srv.cat.models k.1 k.2).isSome = true :=
    fun k hk => (h.keys k.1 k.2).1 ((hcl _).mem_iff.1 hk)
  rw [Sys.act, Sys.stop, c1]
  simp only
  cases hca : closeAll S z (cl z.keys) data with
  | bad => exact absurd hca (ha.close_not_bad h.cons _ _ hkeys)
  | full => simp [Batch.Run.bind]
  | ok f =>
    obtain ⟨k1, _⟩ := closeAll_spec hca ((hcl z.keys).nodup_iff.2 h.nodup)
    simp only [Batch.Run.bind]
    rw [boot]
    simp only [c2, fits]
    by_cases hf : gw.log.disk.length < S.lim
    · rw [if_pos hf]
      simp only [Batch.Run.bind]
      have hopen : openAll S r f (op z.keys) (.none S) ≠ .bad := by
        refine openAll_not_bad _ _ fun k hk => ?_
        have hkz := (hop _).mem_iff.1 hk
        obtain ⟨p, md, t1, file, p1, p2, p3, p4⟩ := k1 k ((hcl _).mem_iff.2 hkz)
        refine ⟨p, md, by rw [pathOf_rebuilt c5, p1], ?_⟩
        obtain ⟨t', ht, h2⟩ := ha _ _ _ (pathOf_key p1).2.2
        have : t' = t1 := by rw [p2] at ht; cases ht; rfl
        subst this
        rw [p4]
        rcases h2 with e | ⟨file', w, T, e, kp⟩
        · rw [e] at p3; cases p3
        · rw [e] at p3
          cases p3
          rcases start_kept (lim := S.lim) kp with e | ⟨e, _⟩ <;> rw [e] <;> simp
      cases ho : openAll S r f (op z.keys) (.none S) with
      | bad => exact absurd ho hopen
      | full => simp
      | ok l =>
        simp only
        obtain ⟨s1, s2, _, s4⟩ := Gns.session_ok (os := st.ops) (c := r) (c' := (Gns.session r st.ops).1)
          (es := (Gns.session r st.ops).2) rfl (c5.consistent h.cons) (rootOps_ok st)
        obtain ⟨r', a1, a2⟩ := s4 t r c5.restart
        rcases commitEvs_ok hl c3 c4 hf a1 s2 with e | ⟨w', e, _⟩ <;> rw [e] <;> simp
    · rw [if_neg hf]; simp [Batch.Run.bind]

theorem AllHold.restart_not_bad {S : Setup} (hl : S.lim ≤ 2 ^ 62) {z : Sys} (h : SysOk S z) (ha : AllHold S z) {st : Start}
    {cl op : List MKey → List MKey} (hcl : ∀ l, (cl l).Perm l) (hop : ∀ l, (op l).Perm l) {data : Path → Bytes} :
    z.act S (.restart st cl op data) ≠ .bad :=
  (ha.kept hl).restart_not_bad hl h hcl hop

end Verif.Server
