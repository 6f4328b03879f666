import Verif.Server.Hub
import Verif.Server.WholeTheorems
/-!
The answers of the server are well-formed, so that a client can decode them.
-/
namespace Verif.Server
open Verif.Gns (Cat Client Model World ModelOk Consistent fget)
open Verif.Dml (Key Tbl Stmt Reply FloatOps Cells RowObj kget kdel resolve setRow keyCellAll keyCellSel keyOfCell allLoop readAll readFields
  exec execInsert execDelete execUpdate execSelect execSelectAll prepareInsert resolveWhere)
open Verif.Batch (TagOk TagsOk Vals StmtTags CTags)
open Verif.Net.Reply (FloatText)

/-! ### Values and keys of a table -/

/-- Every number in a row has a width of its kind, and every key is of the class of the primary key. -/
structure Good (t : Tbl) : Prop where
  vals : Vals TagOk t
  keys : ∀ e ∈ t.idx, e.1 = .illegal ∨ e.1.uniq = t.model.pkTag.uniq

/-- The values of a reply. -/
def ReplyTags : Reply → Prop
  | .row cs => TagsOk cs
  | .rows cols rs => ∀ r ∈ rs, r.length = cols ∧ TagsOk r
  | _ => True

/-- No more rows than the statement asks for. -/
def Within : Stmt → Reply → Prop
  | .selectAll _ n, .rows _ rs => rs.length ≤ n
  | .selectAll _ _, _ => True
  | _, .rows _ _ => False
  | _, _ => True

theorem keyCellSel_tag (k : Key) : TagOk (keyCellSel k) := by cases k <;> simp [keyCellSel, TagOk, Tag.cls]

theorem keyCellAll_tag {t : Tag} {k : Key} (h : k = .illegal ∨ k.uniq = t.uniq) : TagOk (keyCellAll t k) := by
  rcases h with rfl | h
  · cases t <;> simp [keyCellAll, TagOk, Tag.cls]
  · cases k <;> cases t <;> simp_all [keyCellAll, TagOk, Tag.cls, Key.uniq, Tag.uniq, Dml.Key.uniq]

theorem readFields_tags {pk : String} {p : Cell} (hp : TagOk p) {c : Cells} (hc : CTags c) : ∀ {ks : List String} {cs : List Cell},
    readFields pk p c ks = some cs → TagsOk cs
  | [], cs, h => by simp only [readFields] at h; cases h; trivial
  | k :: ks, cs, h => by
    rw [readFields] at h
    split at h
    · rename_i x hx
      simp only [Option.map_eq_some_iff] at h
      obtain ⟨l, h1, rfl⟩ := h
      exact ⟨hc k x hx, readFields_tags hp hc h1⟩
    · split at h
      · simp only [Option.map_eq_some_iff] at h
        obtain ⟨l, h1, rfl⟩ := h
        exact ⟨hp, readFields_tags hp hc h1⟩
      · cases h

theorem readAll_tags {pk : String} {p : Cell} (hp : TagOk p) {c : Cells} (hc : CTags c) : ∀ {ks : List String} {cs : List Cell},
    readAll pk p c ks = some cs → cs.length = ks.length ∧ TagsOk cs
  | [], cs, h => by simp only [readAll] at h; cases h; exact ⟨rfl, trivial⟩
  | k :: ks, cs, h => by
    rw [readAll] at h
    split at h
    · simp only [Option.map_eq_some_iff] at h
      obtain ⟨l, h1, rfl⟩ := h
      obtain ⟨a, b⟩ := readAll_tags hp hc h1
      exact ⟨by simp [a], hp, b⟩
    · split at h
      · rename_i x hx
        simp only [Option.map_eq_some_iff] at h
        obtain ⟨l, h1, rfl⟩ := h
        obtain ⟨a, b⟩ := readAll_tags hp hc h1
        exact ⟨by simp [a], hc k x hx, b⟩
      · cases h

theorem vals_setRow {t : Tbl} (h : Vals TagOk t) {i : Nat} {r : RowObj} (hr : CTags r.cells) : Vals TagOk (setRow t i r) := by
  intro x hx
  rcases List.mem_or_eq_of_mem_set hx with hx | rfl
  · exact h x hx
  · exact hr

theorem allLoop_tags {ks : List String} : ∀ {es : List (Key × Nat)} {t t' : Tbl} {rs : List (List Cell)}, Vals TagOk t →
    (∀ e ∈ es, e.1 = .illegal ∨ e.1.uniq = t.model.pkTag.uniq) → allLoop ks es t = (t', some rs) →
    ∀ r ∈ rs, r.length = ks.length ∧ TagsOk r
  | [], t, t', rs, _, _, h => by
    simp only [allLoop, Prod.mk.injEq, Option.some.injEq] at h
    obtain ⟨_, rfl⟩ := h
    simp
  | (k, i) :: es, t, t', rs, hv, hk, h => by
    rw [allLoop] at h
    split at h
    · cases h
    · rename_i r hr
      simp only at h
      have hc : CTags (resolve t.model.deltas r).cells := Batch.resolve_vals (P := TagOk) trivial (hv r (List.mem_of_getElem? hr))
      split at h
      · cases h
      · rename_i cs hcs
        have hcs' := readAll_tags (keyCellAll_tag (hk (k, i) (by simp))) hc hcs
        split at h
        · rename_i t2 rs2 h2
          simp only [Prod.mk.injEq, Option.some.injEq] at h
          obtain ⟨rfl, rfl⟩ := h
          have ih := allLoop_tags (vals_setRow hv hc) (fun e he => hk e (by simp [he])) h2
          intro x hx
          rcases List.mem_cons.1 hx with rfl | hx
          · exact hcs'
          · exact ih x hx
        · cases h

theorem kdel_mem {e : Key × Nat} : ∀ {l : List (Key × Nat)} {k : Key}, e ∈ kdel l k → e ∈ l
  | [], _, h => by simp [kdel] at h
  | (x, i) :: es, k, h => by
    rw [kdel] at h
    split at h
    · exact List.mem_cons_of_mem _ h
    · rcases List.mem_cons.1 h with rfl | h
      · simp
      · exact List.mem_cons_of_mem _ (kdel_mem h)

theorem allLoop_idx {ks : List String} : ∀ (es : List (Key × Nat)) (t : Tbl),
    (allLoop ks es t).1.idx = t.idx ∧ (allLoop ks es t).1.model = t.model
  | [], t => ⟨rfl, rfl⟩
  | (k, i) :: es, t => by
    rw [allLoop]
    split
    · exact ⟨rfl, rfl⟩
    · simp only
      split
      · exact ⟨rfl, rfl⟩
      · have ih := allLoop_idx (ks := ks) es (setRow t i (resolve t.model.deltas ‹RowObj›))
        split <;> (rename_i h2; rw [h2] at ih; exact ih)

/-- The key of a row that is inserted. -/
theorem prepareInsert_key {m : Model} (hm : ModelOk m) {d : Dml.InsData} (hd : d.Wf) {k : Key} {c : Cells}
    (h : prepareInsert m d = .ok (k, c)) : k = .illegal ∨ k.uniq = m.pkTag.uniq := by
  by_cases hok : Dml.InsertOk m.fields d
  · obtain ⟨b, c', h1, h2, h3⟩ := Dml.prepareCells_spec hm.fields hd
    have hb := h2.2 hok
    have hp := h3 hb
    obtain ⟨f, hf, hlay⟩ := hm.pk
    rw [prepareInsert, h1] at h
    simp only [hb, if_true] at h
    cases ha : Dml.assoc (Dml.pairs m.fields d) m.pk with
    | none => rw [(hp m.pk).1 ha] at h; cases h
    | some v =>
      rw [(hp m.pk).2 v f ha hf] at h
      simp only [Res.ok.injEq, Prod.mk.injEq] at h
      rw [Dml.keyOfCell_retag] at h
      obtain ⟨rfl, _⟩ := h
      obtain ⟨g, hg, hv⟩ := hok.2 _ (Dml.assoc_mem ha)
      simp only at hg
      rw [hf] at hg
      cases hg
      rcases hv with ⟨hn, _⟩ | hfit
      · left
        cases v <;> simp_all [keyOfCell]
      · right
        rw [hlay] at hfit
        exact Dml.keyOfCell_uniq (by simpa [Fits] using hfit) hm.uniq
  · rw [Dml.prepareInsert_bad hm hd hok] at h
    cases h

theorem exec_good {F : FloatOps} {order : List (Key × Nat) → List (Key × Nat)} (ho : ∀ l, (order l).Perm l) {t : Tbl} (h : Good t)
    (hm : ModelOk t.model) {st : Stmt} (hs : StmtTags st) (hw : ∀ d, st = .insert d → d.Wf) :
    Good (exec F order t st).1 ∧ ReplyTags (exec F order t st).2 := by
  have hv := Batch.exec_vals (F := F) (order := order) h.vals hs
  suffices hh : (∀ e ∈ (exec F order t st).1.idx, e.1 = .illegal ∨ e.1.uniq = (exec F order t st).1.model.pkTag.uniq) ∧
      ReplyTags (exec F order t st).2 from ⟨⟨hv, hh.1⟩, hh.2⟩
  clear hv
  cases st with
  | insert d =>
    simp only [exec]
    rw [execInsert]
    cases hp : prepareInsert t.model d with
    | ok kc =>
      obtain ⟨k, c⟩ := kc
      simp only
      cases kget t.idx k with
      | some _ => exact ⟨h.keys, trivial⟩
      | none =>
        refine ⟨?_, trivial⟩
        intro e he
        simp only [List.mem_append, List.mem_singleton] at he
        rcases he with he | rfl
        · exact h.keys e he
        · exact prepareInsert_key hm (hw d rfl) hp
    | _ => exact ⟨h.keys, trivial⟩
  | update as w =>
    simp only [exec]
    rw [execUpdate]
    split
    · exact ⟨h.keys, trivial⟩
    · split
      · exact ⟨h.keys, trivial⟩
      · simp only
        split <;> exact ⟨h.keys, trivial⟩
  | delete w =>
    simp only [exec]
    rw [execDelete]
    simp only
    split
    · exact ⟨h.keys, trivial⟩
    · split
      · exact ⟨h.keys, trivial⟩
      · exact ⟨fun e he => h.keys e (kdel_mem he), trivial⟩
  | select fs w =>
    simp only [exec]
    rw [execSelect]
    split
    · exact ⟨h.keys, trivial⟩
    · split
      · exact ⟨h.keys, trivial⟩
      · rename_i i r hr
        simp only
        refine ⟨h.keys, ?_⟩
        have hmem : r ∈ t.heap := by
          simp only [Option.bind_eq_some_iff, Option.map_eq_some_iff, Prod.mk.injEq] at hr
          obtain ⟨j, _, r', h1, _, rfl⟩ := hr
          exact List.mem_of_getElem? h1
        split
        · rename_i hcs
          exact readFields_tags (keyCellSel_tag _) (Batch.resolve_vals (P := TagOk) trivial (h.vals r hmem)) hcs
        · trivial
  | selectAll fs n =>
    simp only [exec]
    rw [execSelectAll]
    split
    · exact ⟨h.keys, trivial⟩
    · have hi := allLoop_idx (ks := fs.getD (Dml.colNames t.model.fields)) ((order t.idx).take n) t
      split
      · rename_i t' rs hl
        rw [hl] at hi
        refine ⟨by rw [hi.1, hi.2]; exact h.keys, ?_⟩
        exact allLoop_tags h.vals (fun e he => h.keys e ((ho t.idx).mem_iff.1 (List.mem_of_mem_take he))) hl
      · rename_i t' hl
        rw [hl] at hi
        exact ⟨by rw [hi.1, hi.2]; exact h.keys, trivial⟩

theorem allLoop_length {ks : List String} : ∀ {es : List (Key × Nat)} {t t' : Tbl} {rs : List (List Cell)},
    allLoop ks es t = (t', some rs) → rs.length = es.length
  | [], t, t', rs, h => by simp only [allLoop, Prod.mk.injEq, Option.some.injEq] at h; obtain ⟨_, rfl⟩ := h; rfl
  | (k, i) :: es, t, t', rs, h => by
    rw [allLoop] at h
    split at h
    · cases h
    · simp only at h
      split at h
      · cases h
      · split at h
        · rename_i h2
          simp only [Prod.mk.injEq, Option.some.injEq] at h
          obtain ⟨_, rfl⟩ := h
          simp [allLoop_length h2]
        · cases h

theorem exec_within {F : FloatOps} {order : List (Key × Nat) → List (Key × Nat)} {t : Tbl} {st : Stmt} :
    Within st (exec F order t st).2 := by
  cases st with
  | insert d =>
    simp only [exec, execInsert]
    repeat' split
    all_goals simp [Within]
  | update as w =>
    simp only [exec, execUpdate]
    repeat' split
    all_goals simp [Within]
  | delete w =>
    simp only [exec, execDelete]
    repeat' split
    all_goals simp [Within]
  | select fs w =>
    simp only [exec, execSelect]
    repeat' split
    all_goals simp [Within]
  | selectAll fs n =>
    simp only [exec]
    rw [execSelectAll]
    split
    · trivial
    · split
      · rename_i hl
        have := allLoop_length hl
        show _ ≤ n
        rw [this]
        exact List.length_take_le n _
      · trivial

theorem exec_same {F : FloatOps} {order : List (Key × Nat) → List (Key × Nat)} {t : Tbl} {st : Stmt} :
    (exec F order t st).1.model = t.model := by
  cases st with
  | insert d =>
    simp only [exec, execInsert]
    repeat' split
    all_goals rfl
  | update as w =>
    simp only [exec, execUpdate]
    repeat' split
    all_goals rfl
  | delete w =>
    simp only [exec, execDelete]
    repeat' split
    all_goals rfl
  | select fs w =>
    simp only [exec, execSelect]
    repeat' split
    all_goals rfl
  | selectAll fs n =>
    simp only [exec]
    rw [execSelectAll]
    split
    · rfl
    · have hi := allLoop_idx (ks := fs.getD (Dml.colNames t.model.fields)) ((order t.idx).take n) t
      split <;> (rename_i hl; rw [hl] at hi; exact hi.2)

/-! ### Changes of the declarations -/

theorem addFields_tag : ∀ {fs : Enc.Fields} {m : Model}, (Gns.addFields m fs).pkTag = m.pkTag
  | [], _ => rfl
  | (k, f) :: fs, m => by
    rw [Gns.addFields, addFields_tag]
    unfold Model.addField
    split <;> rfl

theorem updateFields_tag : ∀ {fs : Enc.Fields} {m : Model}, (Gns.updateFields m fs).pkTag = m.pkTag
  | [], _ => rfl
  | (k, f) :: fs, m => by
    rw [Gns.updateFields, updateFields_tag]
    unfold Model.updateField
    split <;> rfl

theorem removeFields_tag : ∀ {ks : List String} {m m' : Model}, Gns.removeFields m ks = some m' → m'.pkTag = m.pkTag
  | [], _, _, h => by cases h; rfl
  | k :: ks, m, m', h => by
    rw [Gns.removeFields] at h
    split at h
    · rename_i m1 b h1
      rw [removeFields_tag h]
      unfold Model.removeField at h1
      repeat' split at h1
      all_goals cases h1
      all_goals rfl
    · cases h

/-- No statement changes the type of the primary key of a model that stays. -/
theorem exec_pkTag {perm : Enc.Fields → Enc.Fields} {u : Client} {c : Cat} {w : World} {s : Gns.Stmt} (hc : Consistent c)
    {a b : String} {md md' : Model} (h : c.models a b = some md)
    (h' : (Gns.exec perm u c w s).cat.models a b = some md') : md'.pkTag = md.pkTag := by
  by_cases hs : ∀ x y k, s ≠ .alterModel x y k
  · rw [exec_keep hc hs h h']
  · have : ∃ x y k, s = .alterModel x y k := by
      refine Classical.byContradiction fun hn => hs fun x y k he => hn ⟨x, y, k, he⟩
    obtain ⟨x, y, k, rfl⟩ := this
    by_cases hxy : x = a ∧ y = b
    · obtain ⟨rfl, rfl⟩ := hxy
      have hreply : ∀ {r}, (c.reply r).cat.models x y = some md' → md'.pkTag = md.pkTag := by
        intro r hx
        simp only [Gns.Cat.reply] at hx
        rw [h] at hx
        cases hx
        rfl
      have hcommit : ∀ {w e r m'}, m'.pkTag = md.pkTag →
          (c.commit w e { c with models := Gns.upd2 c.models x y (some m') } r).cat.models x y = some md' → md'.pkTag = md.pkTag := by
        intro w e r m' hm' hx
        unfold Gns.Cat.commit at hx
        split at hx
        · simp [Gns.upd2] at hx
          rw [← hx]; exact hm'
        · exact hreply hx
      unfold Gns.exec at h'
      split at h'
      · simp only at h'
        unfold Gns.execAlterModel at h'
        rw [h] at h'
        simp only at h'
        repeat' split at h'
        all_goals first
          | exact hreply h'
          | exact hcommit addFields_tag h'
          | exact hcommit updateFields_tag h'
          | (rename_i hr; exact hcommit (removeFields_tag hr) h')
          | skip
        · unfold Gns.Cat.commit at h'
          split at h'
          · rw [h] at h'; cases h'; rfl
          · exact hreply h'
      · exact hreply h'
    · have := (exec_frame perm u c w (.alterModel x y k)).models a b (by
        simp only [DdlNames, Part.decl.injEq]
        rintro ⟨rfl, rfl⟩; exact hxy ⟨rfl, rfl⟩)
      rw [this, h] at h'
      cases h'
      rfl

/-! ### The server -/

def GoodSrv (s : Srv) : Prop := ∀ a b t, s.tbl a b = some t → Good t

/-- The values of an answer, and the number of rows. -/
def AnswerTags : Answer → Prop
  | .rows r => ReplyTags r ∧ ∀ cols rs, r = .rows cols rs → rs.length < 2 ^ 64
  | _ => True

theorem runDdl_good {o : Outside} {u : Client} {s : Srv} (hc : Consistent s.cat) (h : GoodSrv s) (d : Gns.Stmt) :
    GoodSrv (runDdl o u s d).1 := by
  intro a b t ht
  unfold Srv.tbl runDdl at ht
  simp only at ht
  cases h' : (Gns.exec o.perm u s.cat (worldFor s o.world d) d).cat.models a b with
  | none => rw [h'] at ht; cases ht
  | some md' =>
    rw [h'] at ht
    simp only [Option.map_some, Option.some.injEq] at ht
    subst ht
    cases h0 : s.cat.models a b with
    | none => 
      have : follow s.cat (Gns.exec o.perm u s.cat (worldFor s o.world d) d).cat s.rows a b = Rows.none := by simp [follow, h0]
      rw [this]
      exact ⟨fun r hr => (by cases hr), fun e he => (by cases he)⟩
    | some md =>
      have hf : follow s.cat (Gns.exec o.perm u s.cat (worldFor s o.world d) d).cat s.rows a b = s.rows a b := by simp [follow, h0, h']
      rw [hf]
      have hp := exec_pkTag hc h0 h'
      have hg := h a b _ (by unfold Srv.tbl; rw [h0]; rfl)
      exact ⟨hg.vals, by intro e he; simp only [hp]; exact hg.keys e he⟩

theorem serve_good {o : Outside} {s : Srv} {x : Sess} {text params : Bytes} (hc : Consistent s.cat) (h : GoodSrv s)
    (ho : ∀ l, (o.order l).Perm l) :
    GoodSrv (serve o s x text params).1 ∧ AnswerTags (serve o s x text params).2.2.1 := by
  cases hr : read o x text params with
  | none =>
    refine ⟨by rw [(serve_read.2 hr).1]; exact h, ?_⟩
    unfold read at hr
    unfold serve
    split at hr <;> rename_i hl <;> rw [hl]
    · trivial
    · simp only
      split at hr
      · cases hr
      · rename_i hn
        split <;> first | trivial | (rename_i hp; exact absurd hp (hn _))
  | some q =>
    cases q with
    | rows r =>
      cases ht : s.tbl r.space r.model with
      | none =>
        rw [serve_read.1 _ hr]
        simp only [execute, ht]
        exact ⟨h, trivial⟩
      | some t =>
        have hst : stmtOn r.space r.model (o, x, text, params) = some (asks r.stmt) := by simp [stmtOn, hr]
        have hm : ModelOk t.model := by
          unfold Srv.tbl at ht
          cases hmd : s.cat.models r.space r.model with
          | none => rw [hmd] at ht; cases ht
          | some md => rw [hmd] at ht; cases ht; exact hc.models _ _ _ hmd
        have hg := exec_good (F := o.floats) ho (h _ _ _ ht) hm (stmtOn_tags hst) (fun d hd => stmtOn_wf (by rw [hst, hd]))
        have hw := exec_within (F := o.floats) (order := o.order) (t := t) (st := asks r.stmt)
        rw [stmtOn_serve hst ht]
        have hmod : (Dml.exec o.floats o.order t (asks r.stmt)).1.model = t.model := exec_same
        refine ⟨?_, hg.2, ?_⟩
        · intro a b t' ht'
          by_cases hab : a = r.space ∧ b = r.model
          · obtain ⟨rfl, rfl⟩ := hab
            rw [tbl_setRows ht hmod] at ht'
            cases ht'
            exact hg.1
          · refine h a b t' ?_
            unfold Srv.tbl at ht' ⊢
            simp only [Srv.setRows, hab, if_false] at ht'
            exact ht'
        · intro cols rs he
          rw [he] at hw
          cases hq : asks r.stmt with
          | selectAll fs n =>
            rw [hq] at hw
            simp only [Within] at hw
            obtain ⟨_, _, stt⟩ := r
            cases stt with
            | selectAll fs' n' =>
              simp only [asks, Dml.Stmt.selectAll.injEq] at hq
              have := n'.toNat_lt
              omega
            | _ => simp [asks] at hq
          | _ => rw [hq] at hw; cases hw
    | ddl d => rw [serve_read.1 _ hr]; exact ⟨runDdl_good hc h d, trivial⟩
    | sysctl c =>
      rw [serve_read.1 _ hr]
      cases c with
      | user d => exact ⟨runDdl_good hc h d, trivial⟩
      | report => refine ⟨h, ?_⟩; simp only [execute]; split <;> trivial
    | use u =>
      rw [serve_read.1 _ hr]
      refine ⟨h, ?_⟩
      simp only [execute, runUse]
      repeat' split
      all_goals trivial
    | inspect i =>
      rw [serve_read.1 _ hr]
      simp only [execute]
      split <;> exact ⟨h, trivial⟩

/-! ### Replies -/

mutual
theorem reply_wf_cell (T : FloatText) : ∀ (c : Cell), TagOk c → (Net.Reply.encCell T c).length < 2 ^ 64 →
    1 ≤ (Net.Reply.encCell T c).length ∧ Enc.Wf c
  | .null, _, _ => ⟨by simp [Net.Reply.encCell], True.intro⟩
  | .bool _, _, _ => ⟨by simp [Net.Reply.encCell], True.intro⟩
  | .uint _ _, h, _ => ⟨by simp [Net.Reply.encCell], h⟩
  | .sint _ _, h, _ => ⟨by simp [Net.Reply.encCell], h⟩
  | .float _ _, h, _ => ⟨by simp [Net.Reply.encCell], h⟩
  | .bin b, _, hl => by
    simp only [Net.Reply.encCell, List.length_append, List.length_cons] at hl ⊢
    exact ⟨by omega, by rw [Enc.Wf]; omega⟩
  | .str s, _, hl => by
    simp only [Net.Reply.encCell, List.length_append, List.length_cons] at hl ⊢
    exact ⟨by omega, by rw [Enc.Wf]; omega⟩
  | .list l, h, hl => by
    simp only [Net.Reply.encCell, List.length_append, List.length_cons] at hl ⊢
    obtain ⟨a, b⟩ := reply_wf_list T l h (by omega)
    exact ⟨by omega, by omega, b⟩

theorem reply_wf_list (T : FloatText) : ∀ (l : List Cell), TagsOk l → (Net.Reply.encCells T l).length < 2 ^ 64 →
    l.length ≤ (Net.Reply.encCells T l).length ∧ Enc.WfList l
  | [], _, _ => ⟨by simp, True.intro⟩
  | c :: cs, h, hl => by
    simp only [Net.Reply.encCells, List.length_append, List.length_cons] at hl ⊢
    obtain ⟨a, b⟩ := reply_wf_list T cs h.2 (by omega)
    obtain ⟨a', b'⟩ := reply_wf_cell T c h.1 (by omega)
    exact ⟨by omega, b', b⟩
end

/-- No reply has more columns than 64 bits can count. -/
def FewCols : Net.Reply.Answer → Prop
  | .rows cols _ => cols < 2 ^ 64
  | _ => True

theorem told_wf (T : FloatText) {a : Answer} (h : AnswerTags a) {r : Net.Reply.Answer} (hr : told a = some r) (hf : FewCols r)
    (hl : (Net.Reply.send (r.resp T)).length < 2 ^ 64) : r.Wf := by
  cases a with
  | rows d =>
    cases d with
    | row cs =>
      cases hr
      simp only [Net.Reply.Answer.resp, Net.Reply.selectResp, Net.Reply.send, List.length_append, List.length_cons] at hl
      obtain ⟨a, b⟩ := reply_wf_list T cs h.1 (by omega)
      exact ⟨by omega, b⟩
    | rows n rs =>
      cases hr
      refine ⟨hf, h.2 _ _ rfl, fun r hr => ⟨(h.1 r hr).1, (reply_wf_list T r (h.1 r hr).2 ?_).2⟩⟩
      simp only [Net.Reply.Answer.resp, Net.Reply.selectAllResp, Net.Reply.send, List.length_append, List.length_cons] at hl
      have : (Net.Reply.encCells T r).length ≤ (rs.map (Net.Reply.encCells T)).flatten.length := by
        obtain ⟨a, b, rfl⟩ := List.append_of_mem hr
        simp
        omega
      omega
    | err e => cases hr; cases e <;> (show _ < 256; decide)
    | empty => cases hr; trivial
    | panic => cases hr
  | text s =>
    cases hr
    simp only [Net.Reply.Answer.resp, Net.Reply.stringResp, Net.Reply.send, List.length_append, List.length_cons] at hl
    show (encStr s).length < 2 ^ 64
    omega
  | ddl d =>
    cases d with
    | ok b => cases b <;> (cases hr; trivial)
    | err e => cases hr; cases e <;> (show _ < 256; decide)
    | panic => cases hr
    | hang => cases hr
  | lexError e => cases hr; cases e <;> (show _ < 256; decide)
  | syntaxError e => cases hr; cases e <;> (show _ < 256; decide)
  | notFound => cases hr; (show _ < 256; decide)
  | serverError => cases hr; (show _ < 256; decide)
  | empty => cases hr; trivial
  | null => cases hr; trivial
  | crash => cases hr

end Verif.Server
