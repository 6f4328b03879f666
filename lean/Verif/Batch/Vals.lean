import Verif.Batch.Flush
/-!
The values in the rows have the form that the encoder expects.
-/
namespace Verif.Batch
open Verif.Gns (SDelta Model upd fget ModelOk PkNonNull)
open Verif.Enc (Fields)
open Verif.Lex (Lit)
open Verif.Dml (Key Cells RowObj DKind Delta Tbl kget kdel resolve setRow colNames cput FloatOps Stmt Asn Where AOp
  execInsert execDelete execUpdate execSelect execSelectAll exec run updLoop allLoop InsData prepareInsert resolveWhere
  ordLoop mapLoop prepareCells dcOp uintOp sintOp floatOp opFail asnStep cellOfLit restore cupdate)

mutual
/-- The width of every number in a value belongs to its kind. -/
def TagOk : Cell → Prop
  | .uint t _ => t.cls = .uint
  | .sint t _ => t.cls = .sint
  | .float t _ => t.cls = .float
  | .list l => TagsOk l
  | _ => True

/-- The same for all values of a list. -/
def TagsOk : List Cell → Prop
  | [] => True
  | c :: cs => TagOk c ∧ TagsOk cs
end

theorem tagsOk_append : ∀ {a b : List Cell}, TagsOk (a ++ b) ↔ TagsOk a ∧ TagsOk b
  | [], b => by simp [TagsOk]
  | x :: a, b => by simp [TagsOk, tagsOk_append (a := a), and_assoc]

/-- The values of an INSERT. -/
def InsData.Tags : InsData → Prop
  | .ordered ds => ∀ d ∈ ds, TagOk d
  | .map ds => ∀ d ∈ ds, TagOk d.2

/-- What the parser delivers. -/
def StmtTags : Stmt → Prop
  | .insert d => InsData.Tags d
  | _ => True

theorem tagOk_lit (l : Lit) : TagOk (cellOfLit l) := by cases l <;> simp [cellOfLit, TagOk, Tag.cls]

theorem vtfn_tag {l : Tag} {d : Cell} (hl : l.cls = d.kind ∨ d.isNull = true) (hd : TagOk d) : TagOk (vtfn l d).2 := by
  cases d <;> simp_all [vtfn, TagOk, Cell.kind, Cell.isNull]

mutual
theorem rvtData_tag : ∀ {ls : List Tag} {d d' : Cell} {b : Bool}, rvtData ls d = .ok (b, d') → TagOk d → TagOk d'
  | [], _, _, _, h, _ => by simp [rvtData] at h
  | l :: ls, d, d', b, h, hd => by
    by_cases hx : l = .list ∧ ∃ vs, d = .list vs
    · obtain ⟨rfl, vs, rfl⟩ := hx
      rw [rvtData] at h
      obtain ⟨⟨ok, vs'⟩, h1, h2⟩ := Res.bind_eq_ok h
      simp only [Res.ok.injEq, Prod.mk.injEq] at h2
      obtain ⟨rfl, rfl⟩ := h2
      simp only [TagOk] at hd ⊢
      exact rvtList_tag h1 hd
    · rw [rvtData] at h
      · split at h
        · rename_i hk
          simp only [Res.ok.injEq] at h
          have := vtfn_tag (.inl hk) hd
          rw [h] at this
          exact this
        · simp only [Res.ok.injEq, Prod.mk.injEq] at h
          obtain ⟨_, rfl⟩ := h
          exact hd
      · intro vs h2 h1
        exact hx ⟨h1, vs, h2⟩

theorem rvtList_tag : ∀ {ls : List Tag} {vs vs' : List Cell} {b : Bool}, rvtList ls vs = .ok (b, vs') → TagsOk vs →
    TagsOk vs'
  | ls, [], vs', b, h, _ => by
    rw [rvtList] at h
    cases h
    simp [TagsOk]
  | ls, v :: vs, vs', b, h, hv => by
    rw [rvtList] at h
    rw [TagsOk] at hv
    obtain ⟨⟨ok, v'⟩, h1, h2⟩ := Res.bind_eq_ok h
    have hv' := rvtData_tag h1 hv.1
    simp only at h2
    split at h2
    · obtain ⟨⟨ok2, vs2⟩, h3, h4⟩ := Res.bind_eq_ok h2
      simp only [Res.ok.injEq, Prod.mk.injEq] at h4
      obtain ⟨_, rfl⟩ := h4
      rw [TagsOk]
      exact ⟨hv', rvtList_tag h3 hv.2⟩
    · cases h2
      rw [TagsOk]
      exact ⟨hv', hv.2⟩
end

theorem vtData_tag {f : Field} {d d' : Cell} {b : Bool} (h : f.vtData d = .ok (b, d')) (hd : TagOk d) : TagOk d' := by
  rw [Field.vtData] at h
  cases hl : f.layers with
  | nil => rw [hl] at h; cases h
  | cons l ls =>
    rw [hl] at h
    simp only at h
    split at h
    · split at h
      · cases h; exact hd
      · rename_i hc
        simp only [Res.ok.injEq] at h
        have : TagOk (vtfn l d).2 := by
          refine vtfn_tag ?_ hd
          simp only [Bool.or_eq_true, Bool.and_eq_true, decide_eq_true_eq, Bool.not_eq_true', not_or, not_and] at hc
          by_cases hk : l.cls = d.kind
          · exact .inl hk
          · right
            have := hc.2 hk
            simpa using this
        rw [h] at this
        exact this
    · exact rvtData_tag h hd

/-- All cells of a row. -/
def CTags (c : Cells) : Prop := ∀ k x, c k = some x → TagOk x

theorem CTags.upd {c : Cells} (h : CTags c) {k : String} {x : Option Cell} (hx : ∀ y, x = some y → TagOk y) :
    CTags (upd c k x) := by
  intro j y hj
  simp only [Gns.upd] at hj
  split at hj
  · exact hx y hj
  · exact h j y hj

theorem CTags.cput {c : Cells} (h : CTags c) {k : String} {d : Cell} (hd : TagOk d) : CTags (cput c k d).1 := by
  rw [Dml.cput]
  cases c k with
  | some _ => exact h
  | none => exact h.upd (by rintro y h; cases h; exact hd)

theorem ordLoop_tags : ∀ {fs : Fields} {ds : List Cell} {ok b : Bool} {c c' : Cells}, ordLoop fs ds ok c = .ok (b, c') →
    (∀ d ∈ ds, TagOk d) → CTags c → CTags c'
  | fs, [], ok, b, c, c', h, _, hc => by rw [ordLoop.eq_def] at h; cases h; exact hc
  | fs, d :: ds, ok, b, c, c', h, hd, hc => by
    rw [ordLoop.eq_def] at h
    simp only at h
    split at h
    · cases fs with
      | nil => cases h
      | cons kf fs =>
        obtain ⟨k, f⟩ := kf
        obtain ⟨⟨v, d'⟩, h1, h2⟩ := Res.bind_eq_ok h
        exact ordLoop_tags h2 (fun x hx => hd x (by simp [hx])) (hc.cput (vtData_tag h1 (hd d (by simp))))
    · cases h; exact hc

theorem mapLoop_tags {fs : Fields} : ∀ {ds : List (String × Cell)} {n n' : Nat} {ok b : Bool} {c c' : Cells},
    mapLoop fs ds n ok c = .ok (n', b, c') → (∀ d ∈ ds, TagOk d.2) → CTags c → CTags c'
  | [], n, n', ok, b, c, c', h, _, hc => by rw [mapLoop] at h; cases h; exact hc
  | (k, d) :: ds, n, n', ok, b, c, c', h, hd, hc => by
    rw [mapLoop] at h
    split at h
    · cases hf : fget fs k with
      | none => rw [hf] at h; cases h; exact hc
      | some f =>
        rw [hf] at h
        obtain ⟨⟨v, d'⟩, h1, h2⟩ := Res.bind_eq_ok h
        exact mapLoop_tags h2 (fun x hx => hd x (by simp [hx])) (hc.cput (vtData_tag h1 (hd (k, d) (by simp))))
    · cases h; exact hc

theorem prepareInsert_tags {m : Model} {d : InsData} {k : Key} {c : Cells} (h : prepareInsert m d = .ok (k, c))
    (hd : InsData.Tags d) : CTags c := by
  have hz : CTags (fun _ => none) := by intro k x h; cases h
  rw [prepareInsert] at h
  cases hp : prepareCells m.fields d with
  | ok r =>
    obtain ⟨b, c'⟩ := r
    have hc' : CTags c' := by
      cases d with
      | ordered ds => exact ordLoop_tags (ok := decide (m.fields.length = ds.length)) hp hd hz
      | map ds =>
        have hp : (mapLoop m.fields ds 0 (decide (m.fields.length = ds.length)) (fun _ => none)).bind
          (fun (n, ok, c) => .ok (ok && decide (n = m.fields.length), c)) = .ok (b, c') := hp
        obtain ⟨⟨n, ok, c2⟩, h1, h2⟩ := Res.bind_eq_ok hp
        cases h2
        exact mapLoop_tags h1 hd hz
    rw [hp] at h
    simp only at h
    cases hq : c' m.pk with
    | none => rw [hq] at h; cases h
    | some p =>
      rw [hq] at h
      simp only at h
      split at h
      · cases h
        exact hc'.upd (by simp)
      · cases h
  | err e => rw [hp] at h; cases h
  | panic => rw [hp] at h; cases h
  | hang => rw [hp] at h; cases h

theorem uintOp_tag {t : Tag} {v r : UInt64} {op : AOp} {b : Bool} {c : Cell} (h : uintOp t v r op = .ok (b, c))
    (ht : t.cls = .uint) : TagOk c := by
  cases op <;> simp only [uintOp] at h
  case div => split at h <;> cases h; exact ht
  all_goals cases h; exact ht

theorem sintOp_tag {t : Tag} {v r : Int64} {op : AOp} {b : Bool} {c : Cell} (h : sintOp t v r op = .ok (b, c))
    (ht : t.cls = .sint) : TagOk c := by
  cases op <;> simp only [sintOp] at h
  case div => split at h <;> cases h; exact ht
  all_goals cases h; exact ht

theorem dcOp_tag {F : FloatOps} {op : AOp} {x y : Cell} {l : Lit} {b : Bool} (h : dcOp F op x l = .ok (b, y))
    (hx : TagOk x) : TagOk y := by
  cases l with
  | bool v => cases op <;> simp only [dcOp, opFail] at h <;> cases h <;> trivial
  | uint r =>
    cases x <;> simp only [dcOp] at h
    case uint t v => exact uintOp_tag h hx
    all_goals cases h
  | sint r =>
    cases x <;> simp only [dcOp] at h
    case sint t v => exact sintOp_tag h hx
    all_goals cases h
  | float r =>
    cases x <;> simp only [dcOp] at h
    case float t v => cases op <;> simp only [floatOp] at h <;> cases h <;> exact hx
    all_goals cases h
  | bin r => cases op <;> cases x <;> simp only [dcOp, opFail] at h <;> cases h <;> trivial
  | str r => cases op <;> cases x <;> simp only [dcOp, opFail] at h <;> cases h <;> trivial

theorem asnStep_tag {F : FloatOps} {f : Field} {x y : Cell} {op : AOp} {l : Lit}
    (h : asnStep F f x op l = .replace y ∨ asnStep F f x op l = .push y) (hx : TagOk x) : TagOk y := by
  unfold asnStep at h
  cases hl : f.layers with
  | nil => simp [hl] at h
  | cons t ts =>
    simp only [hl] at h
    split at h
    · cases hd : dcOp F op x l with
      | ok r =>
        obtain ⟨b, n⟩ := r
        rw [hd] at h
        rcases h with h | h <;> cases h
        exact dcOp_tag hd hx
      | err e => rw [hd] at h; rcases h with h | h <;> cases h
      | panic => rw [hd] at h; rcases h with h | h <;> cases h
      | hang => rw [hd] at h; rcases h with h | h <;> cases h
    · split at h
      · rcases h with h | h <;> cases h
        exact tagOk_lit l
      · split at h
        · cases ts with
          | nil => rcases h with h | h <;> cases h
          | cons e ts =>
            simp only at h
            split at h
            · cases x with
              | list vs =>
                rcases h with h | h <;> cases h
                simp only [TagOk] at hx ⊢
                rw [tagsOk_append]
                exact ⟨hx, by simp [TagsOk, tagOk_lit]⟩
              | _ => rcases h with h | h <;> cases h
            · rcases h with h | h <;> cases h
        · rcases h with h | h <;> cases h

/-- The cells at the end of an UPDATE, however it ends. -/
def updCells : Dml.UpdOut → Cells
  | .done c => c
  | .fail _ c rb => restore c rb
  | .panic c => c

theorem restore_tags : ∀ {rb : List (String × Cell)} {c : Cells}, CTags c → (∀ e ∈ rb, TagOk e.2) → CTags (restore c rb)
  | [], c, hc, _ => hc
  | e :: rb, c, hc, hr => by
    rw [restore, List.foldl_cons]
    refine restore_tags (rb := rb) ?_ (fun x hx => hr x (by simp [hx]))
    rw [cupdate]
    cases c e.1 with
    | none => exact hc
    | some _ => exact hc.upd (by rintro y h; cases h; exact hr e (by simp))

theorem updLoop_tags {F : FloatOps} {fs : Fields} : ∀ {as : List Asn} {c : Cells} {rb : List (String × Cell)}, CTags c →
    (∀ e ∈ rb, TagOk e.2) → CTags (updCells (updLoop F fs as c rb))
  | [], c, rb, hc, _ => by rw [updLoop]; exact hc
  | a :: as, c, rb, hc, hr => by
    rw [updLoop]
    cases hf : fget fs a.lhs with
    | none => exact restore_tags hc hr
    | some f =>
      cases hx : c a.lhs with
      | none => exact restore_tags hc hr
      | some x =>
        simp only
        cases hs : asnStep F f x a.op a.rhs with
        | replace new =>
          refine updLoop_tags (hc.upd ?_) ?_
          · rintro y h; cases h; exact asnStep_tag (.inl hs) (hc _ _ hx)
          · intro e he
            simp only [List.mem_append, List.mem_singleton] at he
            rcases he with he | rfl
            · exact hr e he
            · exact hc _ _ hx
        | push new =>
          refine updLoop_tags (hc.upd ?_) hr
          rintro y h; cases h; exact asnStep_tag (.inr hs) (hc _ _ hx)
        | fail => exact restore_tags hc hr
        | panic => exact hc

/-- Every statement leaves values of that form. -/
theorem exec_vals {F : FloatOps} {order : List (Key × Nat) → List (Key × Nat)} {t : Tbl} (h : Vals TagOk t) {s : Stmt}
    (hs : StmtTags s) : Vals TagOk (exec F order t s).1 := by
  have hset : ∀ (i : Nat) (r s : RowObj) (v : Nat) (q : List Delta), t.heap[i]? = some r → CTags s.cells →
      Vals TagOk { t with heap := t.heap.set i s, ver := v, queue := q } := by
    intro i r s v q hr hs x hx
    rcases List.mem_or_eq_of_mem_set hx with hx | rfl
    · exact h x hx
    · exact hs
  cases s with
  | insert d =>
    simp only [exec]
    rw [execInsert]
    cases hp : prepareInsert t.model d with
    | ok kc =>
      obtain ⟨k, c⟩ := kc
      simp only
      cases kget t.idx k with
      | some _ => exact h
      | none =>
        intro r hr
        simp only [List.mem_append, List.mem_singleton] at hr
        rcases hr with hr | rfl
        · exact h r hr
        · exact prepareInsert_tags hp hs
    | err e => exact h
    | panic => exact h
    | hang => exact h
  | update as w =>
    simp only [exec]
    rw [execUpdate]
    cases resolveWhere t.model w with
    | none => exact h
    | some k =>
      simp only
      cases kget t.idx k with
      | none => exact h
      | some i =>
        simp only [Option.bind_some]
        cases hr : t.heap[i]? with
        | none => exact h
        | some r =>
          simp only [Option.map_some]
          have hu := updLoop_tags (F := F) (fs := t.model.fields) (as := as) (c := r.cells) (rb := [])
            (h r (List.mem_of_getElem? hr)) (by simp)
          cases hu' : updLoop F t.model.fields as r.cells [] with
          | done c => rw [hu'] at hu; exact hset i r _ _ _ hr hu
          | fail e c rb => rw [hu'] at hu; exact hset i r _ _ _ hr hu
          | panic c => rw [hu'] at hu; exact hset i r _ _ _ hr hu
  | delete w =>
    simp only [exec]
    rw [execDelete]
    simp only
    cases resolveWhere t.model w with
    | none => exact h
    | some k =>
      simp only
      cases kget t.idx k with
      | none => exact h
      | some i => exact h
  | select fs w => exact h.lazy trivial (execSelect_lazy fs w)
  | selectAll fs n => exact h.lazy trivial (execSelectAll_lazy _ fs n)

/-- Values that come back from the file. -/
theorem zip_vals {P : Cell → Prop} : ∀ (l : List (String × Cell)) (c : Cells), (∀ e ∈ l, P e.2) → (∀ k x, c k = some x → P x) →
    ∀ k x, l.foldl (fun c e => (cput c e.1 e.2).1) c k = some x → P x
  | [], _, _, hc => hc
  | e :: l, c, hl, hc => by
    rw [List.foldl_cons]
    refine zip_vals l _ (fun x hx => hl x (by simp [hx])) ?_
    intro k x
    rw [cput]
    cases c e.1 with
    | none =>
      simp only [upd]
      split
      · intro h; cases h; exact hl e (by simp)
      · exact hc k x
    | some _ => exact hc k x

theorem rowFrom_vals {P : Cell → Prop} (hP : P .null) {m : Model} {schema : Nat} {e : Rec} (he : ∀ c ∈ e.cells, P c) :
    ∀ k x, (rowFrom m schema e).cells k = some x → P x := by
  refine resolve_vals hP ?_
  refine zip_vals _ _ ?_ (by simp)
  intro x hx
  exact he _ (List.of_mem_zip hx).2

end Verif.Batch
