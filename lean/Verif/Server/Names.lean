import Verif.Server.Model
import Verif.Gns.CatLemmas
import Verif.Lex.TextTheorems
import Verif.Ql.Sound
/-!
All names in the catalogue are words, and all types are legal, whatever queries are executed.
-/
namespace Verif.Server
open Verif.Lex (Token lex WordChar WordStart)
open Verif.Enc (Fields)
open Verif.Gns (Cat Client World upd upd2 Model Expanded FieldSpec)
open Verif.Ql (Query nm)

/-! ### Specification -/

/-- A letter, a digit or an underscore. -/
def NameChar (c : Char) : Prop := c.isAlphanum = true ∨ c = '_'

instance (c : Char) : Decidable (NameChar c) := by unfold NameChar; infer_instance

/-- A name as the lexer makes them. -/
def Proper (s : String) : Prop := s.toList ≠ [] ∧ ∀ c ∈ s.toList, NameChar c

/-- The catalogue has only words as names, and only legal types. -/
structure Tidy (c : Cat) : Prop where
  spaces : ∀ n s, c.spaces n = some s → Proper n ∧ ∀ m ∈ s.models, Proper m
  models : ∀ n m x, c.models n m = some x → Proper n ∧ Proper m ∧ ∀ e ∈ x.fields, Proper e.1 ∧ LegalType e.2.layers
  users : ∀ n h, c.users n = some h → Proper n

/-! ### The lexer -/

theorem nameChar_of {x : UInt8} (h : WordChar x) : NameChar (Char.ofNat x.toNat) :=
  Lex.forall_u8 (P := fun x => WordChar x → NameChar (Char.ofNat x.toNat))
    (by unfold WordChar WordStart; decide +kernel) x h

theorem nm_word {b : Bytes} (h0 : b ≠ []) (h : ∀ x ∈ b, WordChar x) : Proper (nm b) := by
  unfold nm Proper
  rw [String.toList_ofList]
  refine ⟨by simpa using h0, fun c hc => ?_⟩
  obtain ⟨x, hx, rfl⟩ := List.mem_map.1 hc
  exact nameChar_of (h x hx)

/-- Identifiers among tokens are words. -/
def Idents (ts : List Token) : Prop := ∀ b, Token.ident b ∈ ts → Proper (nm b)

theorem Idents.tail {t : Token} {ts : List Token} (h : Idents (t :: ts)) : Idents ts := fun b hb => h b (List.mem_cons_of_mem _ hb)
theorem Idents.head {b : Bytes} {ts : List Token} (h : Idents (.ident b :: ts)) : Proper (nm b) := h b List.mem_cons_self
theorem Idents.left {ts us : List Token} (h : Idents (ts ++ us)) : Idents ts := fun b hb => h b (List.mem_append_left _ hb)
theorem Idents.right {ts us : List Token} (h : Idents (ts ++ us)) : Idents us := fun b hb => h b (List.mem_append_right _ hb)

theorem wordToken_ident {w b : Bytes} (h : Lex.wordToken w = .ident b) : b = w := by
  cases (Lex.wordToken_iff _ _).1 h
  rfl

theorem scanParam_ident {pf : String → Option F64} {code : Nat} {q p' b : Bytes} :
    Lex.scanParam pf code q ≠ some (.ident b, p') := by
  unfold Lex.scanParam
  split
  · simp [Lex.nullTok]
  · repeat' split
    all_goals simp
  · simp
  · simp
  · unfold Lex.floatParam
    repeat' split
    all_goals simp
  · cases Num.u64LfOpt q <;> simp
  · cases Num.u64LfOpt q <;> simp
    cases Lex.block _ _ <;> simp
  · simp

theorem nextParam_ident {pf : String → Option F64} {p p' b : Bytes} : Lex.nextParam pf p ≠ some (.ident b, p') := by
  unfold Lex.nextParam
  split
  · simp
  · exact scanParam_ident

theorem lex_idents (pf : String → Option F64) : ∀ (n : Nat) (text params : Bytes) (ts : List Token), text.length = n →
    lex pf text params = .ok ts → Idents ts := by
  intro n
  induction n using Nat.strongRecOn with
  | _ n ih =>
    intro text params ts hn h
    cases text with
    | nil => rw [Lex.lex_nil] at h; cases h; intro b hb; cases hb
    | cons c rest =>
      subst hn
      rw [Lex.lex_cons] at h
      split at h
      · rename_i h1
        obtain ⟨ts', hts, rfl⟩ := Lex.push_ok h
        have := Lex.dropWhile_le (p := Lex.isIdent) rest
        have hr := ih (rest.dropWhile Lex.isIdent).length (by simp; omega) _ _ _ rfl hts
        intro b hb
        rcases List.mem_cons.1 hb with hb | hb
        · obtain rfl := wordToken_ident hb.symm
          refine nm_word (by simp) fun x hx => ?_
          rcases List.mem_cons.1 hx with rfl | hx
          · exact .inl ((Lex.isStart_iff _).1 h1)
          · exact (Lex.isIdent_iff _).1 (Lex.mem_takeWhile _ _ _ hx)
        · exact hr b hb
      · split at h
        · split at h
          · rename_i t p' hp
            obtain ⟨ts', hts, rfl⟩ := Lex.push_ok h
            have hr := ih rest.length (by simp) _ _ _ rfl hts
            intro b hb
            rcases List.mem_cons.1 hb with rfl | hb
            · exact absurd hp nextParam_ident
            · exact hr b hb
          · cases h
        · split at h
          · have := Lex.dropWhile_le (p := Lex.isBlank) rest
            exact ih (rest.dropWhile Lex.isBlank).length (by simp; omega) _ _ _ rfl h
          · split at h
            · obtain ⟨ts', hts, rfl⟩ := Lex.push_ok h
              have hr := ih rest.length (by simp) _ _ _ rfl hts
              intro b hb
              rcases List.mem_cons.1 hb with hb | hb
              · cases hb
              · exact hr b hb
            · cases h

/-! ### The parser -/

/-- The new names in a statement are words. -/
def StmtProper : Gns.Stmt → Prop
  | .createSpace n _ _ => Proper n
  | .createModel s m fs _ _ => Proper s ∧ Proper m ∧ ∀ f ∈ fs, Proper f.name
  | .alterModel _ _ (.add cs) => ∀ c ∈ cs, Proper c.name
  | .createUser n _ => Proper n
  | _ => True

open Verif.Ql.Gr

theorem Full.proper {ts : List Token} {s m : String} (h : Full ts s m) (hi : Idents ts) : Proper s ∧ Proper m := by
  cases h
  exact ⟨hi.head, hi.tail.tail.head⟩

theorem Fields.proper {ts : List Token} {fs : List FieldSpec} (h : Fields ts fs) (hi : Idents ts) : ∀ f ∈ fs, Proper f.name := by
  have one : ∀ {ts : List Token} {f : FieldSpec}, Ql.Gr.Field ts f → Idents ts → Proper f.name := by
    intro ts f h hi
    cases h with
    | plain _ => exact hi.head
    | null _ => exact hi.tail.head
    | primary _ => exact hi.tail.head
  induction h with
  | last h => intro f hf; simp at hf; subst hf; exact one h hi.left
  | more h _ ih =>
    intro f hf
    rcases List.mem_cons.1 hf with rfl | hf
    · exact one h hi.left
    · exact ih hi.right.tail f hf

theorem Column.proper {ts : List Token} {c : Expanded} (h : Column ts c) (hi : Idents ts) : Proper c.name := by
  cases h <;> exact hi.head

theorem ColumnList.proper {ts : List Token} {cs : List Expanded} (h : ColumnList ts cs) (hi : Idents ts) : ∀ c ∈ cs, Proper c.name := by
  induction h with
  | last h => intro f hf; simp at hf; subst hf; exact Column.proper h hi.left
  | more h _ ih =>
    intro f hf
    rcases List.mem_cons.1 hf with rfl | hf
    · exact Column.proper h hi.left
    · exact ih hi.right.tail f hf

theorem Columns.proper {ts : List Token} {cs : List Expanded} (h : Columns ts cs) (hi : Idents ts) : ∀ c ∈ cs, Proper c.name := by
  cases h with
  | one h => intro f hf; simp at hf; subst hf; exact Column.proper h hi
  | list h => exact ColumnList.proper h hi.tail

theorem Ddl.proper {ts : List Token} {s : Gns.Stmt} (h : Ddl ts s) (hi : Idents ts) : StmtProper s := by
  cases h with
  | createSpace _ _ => exact hi.tail.tail.right.head
  | createModel _ hn hf _ =>
    have h1 := hi.tail.tail.left
    exact ⟨(Full.proper hn h1.left.right).1, (Full.proper hn h1.left.right).2, Fields.proper hf h1.right.tail⟩
  | alterModel _ hk =>
    cases hk with
    | add hc => exact Columns.proper hc hi.tail.tail.right.tail
    | remove _ => trivial
    | update _ => trivial
  | alterSpace _ => trivial
  | dropSpace _ _ => trivial
  | dropModel _ _ _ => trivial

theorem Sys.proper {ts : List Token} {s : Gns.Stmt} (h : Sys ts (.user s)) (hi : Idents ts) : StmtProper s := by
  cases h with
  | createUser _ _ => exact hi.tail.tail.head
  | alterUser _ _ => trivial
  | dropUser _ => trivial

/-! ### The catalogue -/

/-- What is required of a column. -/
def ColOk (e : String × Field) : Prop := Proper e.1 ∧ LegalType e.2.layers

theorem finsert_cols {fs : Fields} {k : String} {f : Field} (h : ∀ e ∈ fs, ColOk e) (hk : Proper k) (hf : LegalType f.layers) :
    ∀ e ∈ (Gns.finsert fs k f).1, ColOk e := by
  unfold Gns.finsert
  split
  · exact h
  · intro e he
    rcases List.mem_append.1 he with he | he
    · exact h e he
    · simp at he; subst he; exact ⟨hk, hf⟩

theorem createLoop_cols : ∀ {ss : List FieldSpec} {fs fs' : Fields} {pk pk' : Option String} {n n' : Nat} {o o' : Bool},
    Gns.createLoop ss fs pk n o = .ok (fs', pk', n', o') → (∀ s ∈ ss, Proper s.name) → (∀ e ∈ fs, ColOk e) → ∀ e ∈ fs', ColOk e
  | [], fs, fs', pk, pk', n, n', o, o', h, _, hf => by rw [Gns.createLoop] at h; cases h; exact hf
  | s :: ss, fs, fs', pk, pk', n, n', o, o', h, hs, hf => by
    rw [Gns.createLoop] at h
    split at h
    · split at h
      · cases h
      · rename_i f hp
        exact createLoop_cols h (fun s hx => hs s (List.mem_cons_of_mem _ hx))
          (finsert_cols hf (hs s List.mem_cons_self) (Gns.parseLayers_legal hp).1)
    · cases h; exact hf

theorem processCreate_cols {u : Enc.Uuid} {ss : List FieldSpec} {p : Enc.Dict} {m : Model}
    (h : Gns.processCreate u ss p = .ok m) (hs : ∀ s ∈ ss, Proper s.name) : ∀ e ∈ m.fields, ColOk e := by
  unfold Gns.processCreate at h
  obtain ⟨⟨fs, pk, n, o⟩, h1, h2⟩ := Res.bind_eq_ok h
  have := createLoop_cols h1 hs (by simp)
  simp only at h2
  split at h2
  · split at h2
    · cases h2
    · split at h2
      · cases h2
      · split at h2
        · cases h2
        · split at h2
          · cases h2
          · cases h2; exact this
  · cases h2

theorem planAdd_cols (m : Model) : ∀ {es : List Expanded} {fs fs' : Fields} {o o' : Bool},
    Gns.planAdd m es fs o = .ok (fs', o') → (∀ e ∈ es, Proper e.name) → (∀ e ∈ fs, ColOk e) → ∀ e ∈ fs', ColOk e
  | [], fs, fs', o, o', h, _, hf => by rw [Gns.planAdd] at h; cases h; exact hf
  | x :: es, fs, fs', o, o', h, hs, hf => by
    rw [Gns.planAdd] at h
    split at h
    · obtain ⟨⟨ps, nu⟩, h1, h2⟩ := Res.bind_eq_ok h
      simp only at h2
      split at h2
      · cases h2
      · rename_i f hp
        exact planAdd_cols m h2 (fun s hx => hs s (List.mem_cons_of_mem _ hx))
          (finsert_cols hf (hs x List.mem_cons_self) (Gns.parseLayers_legal hp).1)
    · cases h; exact hf

theorem planUpdate_cols (m : Model) (hm : ∀ e ∈ m.fields, ColOk e) : ∀ {es : List Expanded} {fs fs' : Fields} {o o' a a' b b' : Bool},
    Gns.planUpdate m es fs o a b = .ok (fs', o', a', b') → (∀ e ∈ fs, ColOk e) → ∀ e ∈ fs', ColOk e
  | [], fs, fs', o, o', a, a', b, b', h, hf => by rw [Gns.planUpdate] at h; cases h; exact hf
  | x :: es, fs, fs', o, o', a, a', b, b', h, hf => by
    rw [Gns.planUpdate] at h
    split at h
    · split at h
      · cases h
      · split at h
        · cases h
        · rename_i cur hc
          obtain ⟨⟨ps, nu⟩, h1, h2⟩ := Res.bind_eq_ok h
          obtain ⟨⟨f, c, d⟩, h3, h4⟩ := Res.bind_eq_ok h2
          have hcur := hm _ (Gns.fget_mem hc)
          exact planUpdate_cols m hm h4 (finsert_cols hf hcur.1 (Gns.ldeltas_legal h3 hcur.2))
    · cases h; exact hf

theorem addFields_cols : ∀ {fs : Fields} {m : Model}, (∀ e ∈ m.fields, ColOk e) → (∀ e ∈ fs, ColOk e) →
    ∀ e ∈ (Gns.addFields m fs).fields, ColOk e
  | [], m, hm, _ => hm
  | (k, f) :: fs, m, hm, hf => by
    rw [Gns.addFields]
    refine addFields_cols ?_ fun e he => hf e (List.mem_cons_of_mem _ he)
    have := hf (k, f) List.mem_cons_self
    exact finsert_cols hm this.1 this.2

theorem updateFields_cols : ∀ {fs : Fields} {m : Model}, (∀ e ∈ m.fields, ColOk e) → (∀ e ∈ fs, ColOk e) →
    ∀ e ∈ (Gns.updateFields m fs).fields, ColOk e
  | [], m, hm, _ => hm
  | (k, f) :: fs, m, hm, hf => by
    rw [Gns.updateFields]
    refine updateFields_cols ?_ fun e he => hf e (List.mem_cons_of_mem _ he)
    have := hf (k, f) List.mem_cons_self
    simp only [Gns.Model.updateField, Gns.fupdate]
    split
    · intro e he
      rcases List.mem_append.1 he with he | he
      · exact hm e (Gns.mem_ferase he)
      · simp at he; subst he; exact this
    · exact hm

theorem removeFields_cols : ∀ {ns : List String} {m m' : Model}, Gns.removeFields m ns = some m' → (∀ e ∈ m.fields, ColOk e) →
    ∀ e ∈ m'.fields, ColOk e
  | [], m, m', h, hm => by rw [Gns.removeFields] at h; cases h; exact hm
  | k :: ks, m, m', h, hm => by
    rw [Gns.removeFields] at h
    split at h
    · rename_i m1 b h1
      refine removeFields_cols h ?_
      unfold Gns.Model.removeField at h1
      split at h1
      · rename_i fs hd
        cases h1
        unfold Gns.fdelete at hd
        split at hd
        · cases hd
          exact fun e he => hm e (Gns.mem_ferase he)
        · cases hd
      · cases h1
    · cases h

theorem Tidy.setSpace {c : Cat} (h : Tidy c) {n : String} {s : Gns.Space} (hn : Proper n) (hs : ∀ m ∈ s.models, Proper m) :
    Tidy { c with spaces := upd c.spaces n (some s) } where
  spaces := by
    intro x y hx
    simp only [upd] at hx
    split at hx
    · rename_i he
      cases hx
      exact ⟨he ▸ hn, hs⟩
    · exact h.spaces x y hx
  models := h.models
  users := h.users

theorem Tidy.dropSpace {c : Cat} (h : Tidy c) {n : String} : Tidy { c with spaces := upd c.spaces n none } where
  spaces := by
    intro x y hx
    simp only [upd] at hx
    split at hx
    · cases hx
    · exact h.spaces x y hx
  models := h.models
  users := h.users

theorem Tidy.setModel {c : Cat} (h : Tidy c) {s n : String} {m : Model} (hs : Proper s) (hn : Proper n) (hm : ∀ e ∈ m.fields, ColOk e) :
    Tidy { c with models := upd2 c.models s n (some m) } where
  spaces := h.spaces
  models := by
    intro x y z hx
    simp only [upd2] at hx
    split at hx
    · rename_i he
      cases hx
      obtain ⟨rfl, rfl⟩ := he
      exact ⟨hs, hn, hm⟩
    · exact h.models x y z hx
  users := h.users

theorem Tidy.dropModel {c : Cat} (h : Tidy c) {s n : String} : Tidy { c with models := upd2 c.models s n none } where
  spaces := h.spaces
  models := by
    intro x y z hx
    simp only [upd2] at hx
    split at hx
    · cases hx
    · exact h.models x y z hx
  users := h.users

theorem Tidy.setUser {c : Cat} (h : Tidy c) {n : String} {u : Option Bytes} (hn : u ≠ none → Proper n) :
    Tidy { c with users := upd c.users n u } where
  spaces := h.spaces
  models := h.models
  users := by
    intro x y hx
    simp only [upd] at hx
    split at hx
    · rename_i he
      exact he ▸ hn (by rw [hx]; simp)
    · exact h.users x y hx

theorem Tidy.dropModels {s : String} : ∀ {ns : List String} {ms ms' : String → String → Option Model},
    Gns.dropModels s ms ns = some ms' → ∀ x y z, ms' x y = some z → ms x y = some z
  | [], ms, ms', h, x, y, z, hz => by rw [Gns.dropModels] at h; cases h; exact hz
  | n :: ns, ms, ms', h, x, y, z, hz => by
    rw [Gns.dropModels] at h
    split at h
    · have := Tidy.dropModels h x y z hz
      simp only [upd2] at this
      split at this
      · cases this
      · exact this
    · cases h

theorem Tidy.commit {c next : Cat} {w : World} {e : Enc.Event} {r : Res Gns.QErr (Option Bool)} (h : Tidy c) (h' : Tidy next) :
    Tidy (c.commit w e next r).cat := by
  unfold Gns.Cat.commit
  split
  · exact h'
  · exact h

theorem plan_cols {perm : Fields → Fields} (hp : ∀ fs, ∀ e ∈ perm fs, e ∈ fs) {m : Model} (hm : ∀ e ∈ m.fields, ColOk e)
    {k : Gns.AlterKind} (hk : ∀ cs, k = .add cs → ∀ c ∈ cs, Proper c.name) {a : Gns.Action} {b : Bool}
    (h : Gns.plan perm m k = .ok (a, b)) : (∀ fs, a = .add fs → ∀ e ∈ fs, ColOk e) ∧ ∀ fs, a = .update fs → ∀ e ∈ fs, ColOk e := by
  cases k with
  | remove ns =>
    simp only [Gns.plan] at h
    split at h
    · obtain ⟨_, h1, h2⟩ := Res.bind_eq_ok h
      cases h2
      constructor <;> intro fs h <;> split at h <;> cases h
    · cases h
  | add es =>
    simp only [Gns.plan] at h
    obtain ⟨⟨fs, o⟩, h1, h2⟩ := Res.bind_eq_ok h
    have := planAdd_cols m h1 (hk es rfl) (by simp)
    simp only at h2
    split at h2
    · cases h2
      constructor <;> intro fs h <;> split at h <;> cases h
      exact this
    · cases h2
  | update es =>
    simp only [Gns.plan] at h
    obtain ⟨⟨fs, o, n, d⟩, h1, h2⟩ := Res.bind_eq_ok h
    have := planUpdate_cols m hm h1 (by simp)
    simp only at h2
    split at h2
    · cases h2
      constructor <;> intro fs h <;> split at h <;> cases h
      exact fun e he => this e (hp _ e he)
    · cases h2

theorem exec_tidy {perm : Fields → Fields} (hp : ∀ fs, ∀ e ∈ perm fs, e ∈ fs) {u : Client} {c : Cat} (hc : Tidy c) {w : World}
    {s : Gns.Stmt} (hs : StmtProper s) : Tidy (Gns.exec perm u c w s).cat := by
  unfold Gns.exec
  split
  · split
    · unfold Gns.execCreateSpace
      split
      · exact hc
      · split
        · exact hc
        · split
          · exact hc.commit (hc.setSpace hs (by simp))
          · exact hc
    · unfold Gns.execAlterSpace
      split
      · exact hc
      · rename_i sp hsp
        split
        · exact hc
        · exact hc
        · split
          · split
            · exact hc.setSpace (hc.spaces _ _ hsp).1 (hc.spaces _ _ hsp).2
            · exact hc
            · exact hc
            · exact hc
          · exact hc
    · unfold Gns.execDropSpaceForce
      split
      · exact hc
      · simp only
        split
        · split
          · rename_i ms hm
            exact ⟨hc.dropSpace.spaces, fun x y z hz => hc.models x y z (Tidy.dropModels hm x y z hz), hc.users⟩
          · exact hc.dropSpace
        · exact hc.dropSpace
    · unfold Gns.execDropSpace
      split
      · exact hc
      · split
        · exact hc.commit hc.dropSpace
        · exact hc
    · unfold Gns.execCreateModel
      obtain ⟨h1, h2, h3⟩ := hs
      split
      · rename_i m hm
        split
        · exact hc
        · rename_i sp hsp
          split
          · exact hc
          · split
            · refine hc.commit ((hc.setSpace (s := { sp with models := sp.models ++ [_] }) h1 ?_).setModel h1 h2 (processCreate_cols hm h3))
              intro x hx
              rcases List.mem_append.1 hx with hx | hx
              · exact (hc.spaces _ _ hsp).2 x hx
              · simp at hx; exact hx ▸ h2
            · exact hc
      · exact hc
      · exact hc
      · exact hc
    · rename_i sn mn k
      unfold Gns.execAlterModel
      split
      · exact hc
      · rename_i m hm
        obtain ⟨m1, m2, m3⟩ := hc.models _ _ _ hm
        have hk : ∀ cs, k = .add cs → ∀ c ∈ cs, Proper c.name := by rintro cs rfl; exact hs
        split
        · exact hc
        · split
          · exact hc
          · exact hc
          · exact hc
          · exact hc
          · exact hc
          · rename_i fs hpl
            exact hc.commit (hc.setModel m1 m2 (addFields_cols m3 ((plan_cols hp m3 hk hpl).1 _ rfl)))
          · rename_i fs hpl
            exact hc.commit (hc.setModel m1 m2 (updateFields_cols m3 ((plan_cols hp m3 hk hpl).2 _ rfl)))
          · split
            · rename_i m' hr
              exact hc.commit (hc.setModel m1 m2 (removeFields_cols hr m3))
            · exact hc.commit hc
    · unfold Gns.execDropModel
      split
      · exact hc
      · rename_i sp hsp
        split
        · split
          · exact hc
          · split
            · refine hc.commit ((hc.setSpace (s := { sp with models := sp.models.erase _ }) (hc.spaces _ _ hsp).1 ?_).dropModel)
              exact fun x hx => (hc.spaces _ _ hsp).2 x (List.mem_of_mem_erase hx)
            · exact hc
        · exact hc
    · unfold Gns.execCreateUser
      split
      · split
        · exact hc
        · exact hc.commit (hc.setUser fun _ => hs)
      · exact hc
    · unfold Gns.execAlterUser
      split <;> exact hc
    · unfold Gns.execDropUser
      split
      · exact hc
      · split
        · exact hc.commit (hc.setUser fun h => absurd rfl h)
        · exact hc
  · exact hc

/-- Every query leaves the catalogue tidy. -/
theorem serve_tidy {o : Outside} (hp : ∀ fs, ∀ e ∈ o.perm fs, e ∈ fs) {s : Srv} (hs : Tidy s.cat) (x : Sess) (text params : Bytes) :
    Tidy (serve o s x text params).1.cat := by
  unfold serve
  split
  · exact hs
  · rename_i toks hl
    have hi := lex_idents _ _ _ _ _ rfl hl
    split
    · rename_i q hq
      have hst := (Ql.parse_sound hq).1
      cases q with
      | ddl d =>
        cases hst with
        | ddl h => exact exec_tidy hp hs (Ddl.proper h hi)
      | sysctl c =>
        cases c with
        | user d =>
          cases hst with
          | sysctl h => exact exec_tidy hp hs (Sys.proper h hi.tail)
        | report => exact hs
      | use u => exact hs
      | inspect i =>
        simp only [execute]
        split <;> exact hs
      | rows q =>
        simp only [execute]
        split <;> exact hs
    · exact hs
    · exact hs
    · exact hs

end Verif.Server
