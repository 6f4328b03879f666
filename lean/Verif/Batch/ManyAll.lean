import Verif.Batch.ManyTheorems
import Verif.Dml.ParErase
/-!
C78 with `SELECT ALL` statements among the others: they do not disturb the others, the file, or the restart.
-/
namespace Verif.Batch.Many
open Verif.Gns (Model)
open Verif.Dml (Key Delta Tbl FloatOps Stmt Reply abs exF exModel exRow exModel_ok whereId)
open Verif.Dml.Par (Pos St Sch sched Er Current without without_append without_noAll marks nobody mark)
open Verif.Conc (Ev upd)
open Verif.Journal (JW SErr openJournal HEADER)

/-- `y` is `x` without the `SELECT ALL` statements of the clients in `A`. -/
structure ErS (A : Nat → Bool) (x y : Sys) : Prop where
  s : Er A x.s y.s
  w : y.w = x.w
  cur : y.cur = x.cur

theorem Live.current {F : FloatOps} {m : Model} {lim : Nat} {x : Sys} {es : List (Ev Stmt Reply)} {R : Tbl}
    (h : Live F m lim x es R) : Current x.s.t := by
  intro r hr
  rw [(h.dur.log.rows r hr).schema, h.dur.log.model]

theorem ErS.client {F : FloatOps} {order : List (Key × Nat) → List (Key × Nat)} {lim : Nat} {A : Nat → Bool} {x x' y : Sys}
    (h : ErS A x y) (hc : Current x.s.t) {o : Sch} {e : Option (Ev Stmt Reply)} (hs : client F order lim x o = some (.ok (x', e))) :
    (without A e.toList = [] ∧ ErS (marks A e.toList) x' y) ∨
      ∃ y', Many.client F order lim y o = some (.ok (y', e)) ∧ without A e.toList = e.toList ∧ ErS (marks A e.toList) x' y' := by
  simp only [Many.client, Option.map_eq_some_iff] at hs
  obtain ⟨⟨s', e'⟩, h1, h2⟩ := hs
  obtain ⟨rfl, rfl, b1, b2, b3⟩ := bound_ok h2
  rcases h.s.sched hc h1 with ⟨a1, a2, _⟩ | ⟨u, c1, c2, c3⟩
  · exact .inl ⟨a1, a2, h.w, h.cur⟩
  · refine .inr ⟨{ y with s := u }, ?_, c2, c3, h.w, h.cur⟩
    simp only [Many.client, c1, Option.map_some]
    rw [bound, if_pos]
    simp only [h.w, c3.t]
    exact ⟨b1, b2, b3⟩

theorem ErS.act {F : FloatOps} {order : List (Key × Nat) → List (Key × Nat)} {lim : Nat} {A : Nat → Bool} {x x' y : Sys}
    (h : ErS A x y) (hc : Current x.s.t) {a : Act} {e : Option (Ev Stmt Reply)} (hs : act F order lim x a = some (.ok (x', e))) :
    (without A e.toList = [] ∧ ErS (marks A e.toList) x' y) ∨
      ∃ y', Many.act F order lim y a = some (.ok (y', e)) ∧ without A e.toList = e.toList ∧ ErS (marks A e.toList) x' y' := by
  have ht := h.s.t
  have hw := h.w
  have hcur := h.cur
  have hh := h.s.held
  cases a with
  | call n st => exact h.client hc hs
  | go n => exact h.client hc hs
  | ret n => exact h.client hc hs
  | begin n =>
    simp only [Many.act] at hs ⊢
    rw [hcur, ht]
    cases hx : x.cur with
    | some c => rw [hx] at hs; cases hs
    | none =>
      rw [hx] at hs
      simp only at hs ⊢
      split at hs
      · rename_i hn
        cases hs
        rw [if_pos hn]
        exact .inr ⟨_, rfl, rfl, h.s, hw, rfl⟩
      · cases hs
  | take =>
    simp only [Many.act] at hs ⊢
    rw [hcur, ht, hh]
    split at hs
    · rename_i n l rs hx
      split at hs
      · cases hs
      · rename_i d ds hq
        split at hs
        · cases hs
        · rename_i hn
          cases hs
          rw [if_neg hn]
          refine .inr ⟨_, rfl, rfl, ⟨?_, h.s.shared, rfl, h.s.excl, h.s.th, h.s.yes, h.s.no⟩, hw, rfl⟩
          rfl
    · cases hs
  | fin =>
    simp only [Many.act] at hs ⊢
    rw [hcur, ht, hw]
    split at hs
    · rename_i n rs hx
      split at hs
      · rename_i w hq
        obtain ⟨rfl, rfl, b1, b2, b3⟩ := bound_ok (Option.some.inj hs)
        refine .inr ⟨{ y with w := w, cur := none }, ?_, rfl, h.s, rfl, rfl⟩
        rw [bound, if_pos]
        simp only [ht]
        exact ⟨b1, b2, b3⟩
      · cases hs
    · cases hs

theorem ErS.act_bad {F : FloatOps} {order : List (Key × Nat) → List (Key × Nat)} {lim : Nat} {A : Nat → Bool} {x y : Sys}
    (h : ErS A x y) {a : Act} (hs : Many.act F order lim x a = some .bad) : Many.act F order lim y a = some .bad := by
  have hbad : ∀ o, Many.client F order lim x o ≠ some .bad := by
    intro o
    simp only [Many.client]
    cases sched F order x.s o with
    | none => simp
    | some r => simp [bound_bad]
  have ht := h.s.t
  have hw := h.w
  have hcur := h.cur
  have hh := h.s.held
  cases a with
  | call n st => exact absurd hs (hbad _)
  | go n => exact absurd hs (hbad _)
  | ret n => exact absurd hs (hbad _)
  | begin n =>
    simp only [Many.act] at hs
    split at hs
    · cases hs
    · split at hs <;> cases hs
  | take =>
    simp only [Many.act] at hs ⊢
    rw [hcur, ht, hh]
    split at hs
    · rename_i n l rs hx
      split at hs
      · rfl
      · split at hs <;> cases hs
    · cases hs
  | fin =>
    simp only [Many.act] at hs ⊢
    rw [hcur, ht, hw]
    split at hs
    · rename_i n rs hx
      split at hs
      · exact absurd (Option.some.inj hs) bound_bad
      · rename_i hq
        rfl
    · cases hs

/-- All that happens, without the `SELECT ALL`s. -/
theorem ErS.acts {F : FloatOps} {order : List (Key × Nat) → List (Key × Nat)} {m : Model} (hm : LifeOk m) {lim : Nat}
    (hlim : lim ≤ 2 ^ 62) : ∀ {as : List Act} {A : Nat → Bool} {x x' y : Sys} {es es' : List (Ev Stmt Reply)} {R : Tbl},
    ErS A x y → Live F m lim y es R → Many.acts F order lim as x = some (.ok (x', es')) → Allowed F m (es ++ without A es') →
    ∃ as' y', Many.acts F order lim as' y = some (.ok (y', without A es')) ∧ ErS (marks A es') x' y'
  | [], A, x, x', y, es, es', R, h, _, hs, _ => by
    cases hs
    exact ⟨[], y, rfl, h⟩
  | a :: as, A, x, x', y, es, es', R, h, hl, hs, ha => by
    rw [Many.acts] at hs
    cases h1 : Many.act F order lim x a with
    | none => rw [h1] at hs; cases hs
    | some r =>
      rw [h1] at hs
      cases r with
      | full => cases hs
      | bad => cases hs
      | ok z =>
        obtain ⟨z, e⟩ := z
        simp only at hs
        cases h2 : Many.acts F order lim as z with
        | none => rw [h2] at hs; cases hs
        | some r =>
          rw [h2] at hs
          cases r with
          | full => cases hs
          | bad => cases hs
          | ok q =>
            obtain ⟨q, es2⟩ := q
            cases hs
            have hmk : marks A (e.toList ++ es2) = marks (marks A e.toList) es2 := by simp [marks, List.foldl_append]
            have hcx : Current x.s.t := by have := hl.current; rw [h.s.t] at this; exact this
            rw [without_append] at ha ⊢
            rw [hmk]
            rcases h.act hcx h1 with ⟨a1, a2⟩ | ⟨y1, b1, b2, b3⟩
            · rw [a1, List.nil_append] at ha ⊢
              exact ErS.acts hm hlim a2 hl h2 ha
            · rw [b2] at ha ⊢
              rw [← List.append_assoc] at ha
              obtain ⟨R1, l1⟩ := (hl.act hm hlim a).2 y1 e b1 ha.left
              obtain ⟨as', y', c1, c2⟩ := ErS.acts hm hlim b3 l1 h2 ha
              refine ⟨a :: as', y', ?_, c2⟩
              rw [Many.acts, b1]
              simp only [c1]

theorem ErS.quiet {A : Nat → Bool} {x y : Sys} (h : ErS A x y) (hq : Quiet x) : A = nobody ∧ Quiet y := by
  have hA : A = nobody := by
    funext n
    cases ha : A n with
    | false => rfl
    | true =>
      have := h.s.yes n ha
      rw [hq.2 n] at this
      cases this
  subst hA
  exact ⟨rfl, h.cur.trans hq.1, fun n => by rw [h.s.th]; exact hq.2 n⟩

theorem Began.open {F : FloatOps} {order : List (Key × Nat) → List (Key × Nat)} {m : Model} {lim : Nat} {hdr : Bytes} {x : Sys}
    {es : List (Ev Stmt Reply)} (h : Began F order lim m hdr x es) : ErS nobody x x := by
  cases h
  · exact ⟨Er.start _, rfl, rfl⟩
  · exact ⟨Er.start _, rfl, rfl⟩

/-- The sessions before, without the `SELECT ALL`s. -/
theorem Began.erase {F : FloatOps} {order : List (Key × Nat) → List (Key × Nat)} {m : Model} (hm : LifeOk m) {lim : Nat}
    (hlim : lim ≤ 2 ^ 62) {hdr : Bytes} (hh : hdr.length = HEADER) (hlo : HEADER < lim) {x : Sys} {es : List (Ev Stmt Reply)}
    (h : Began F order lim m hdr x es) : Allowed F m (without nobody es) →
      Began F order lim m hdr x (without nobody es) ∧ marks nobody es = nobody := by
  induction h with
  | first hc => intro _; exact ⟨.first hc, rfl⟩
  | @next x y as es es' file v hb hs hq hd ho hah ih =>
    intro ha
    rw [without_append] at ha ⊢
    obtain ⟨i1, i2⟩ := ih ha.left
    rw [i2] at ha ⊢
    obtain ⟨R, l⟩ := i1.live hm hlim hh hlo ha.left
    obtain ⟨as', y', c1, c2⟩ := ErS.acts hm hlim hb.open l hs ha
    obtain ⟨q1, q2⟩ := c2.quiet hq
    refine ⟨.next i1 c1 q2 ?_ ho hah, ?_⟩
    · rw [c2.w, c2.s.t]; exact hd
    · have : marks nobody (es ++ es') = marks (marks nobody es) es' := by simp [marks, List.foldl_append]
      rw [this, i2, q1]

/-- **C78 (partial).** `C78_durable_partial` with `SELECT ALL` statements among the others: what is asked of the statements, and what
is said about them, does not concern the `SELECT ALL`s. They change nothing: the others see a map from keys to rows, and the file
is restored to exactly its rows. What a `SELECT ALL` shows is in `C57_select_all_partial`. -/
theorem C78_with_select_all_partial {F : FloatOps} {order : List (Key × Nat) → List (Key × Nat)} {m : Model} (hm : LifeOk m)
    {lim : Nat} (hlim : lim ≤ 2 ^ 62) {hdr : Bytes} (hh : hdr.length = HEADER) (hlo : HEADER < lim) {x y : Sys} {as : List Act}
    {es es' : List (Ev Stmt Reply)} {file : Bytes} (hb : Began F order lim m hdr x es)
    (hs : acts F order lim as x = some (.ok (y, es'))) (hq : Quiet y) (hd : shutdown lim ⟨y.w, y.s.t⟩ = .ok file)
    (ha : Allowed F m (without nobody (es ++ es'))) :
    ∃ A, SRun F m fresh (without nobody (es ++ es')) ⟨A, fun _ => .idle⟩ ∧
      ∃ w T, openJournal batchDecode (Tbl.empty m) file [] = .ok (w, T) ∧ abs T = A := by
  rw [without_append] at ha ⊢
  obtain ⟨b1, b2⟩ := hb.erase hm hlim hh hlo ha.left
  rw [b2] at ha ⊢
  obtain ⟨R, l⟩ := b1.live hm hlim hh hlo ha.left
  obtain ⟨as', y', c1, c2⟩ := ErS.acts hm hlim hb.open l hs ha
  refine C78_durable_partial hm hlim hh hlo b1 c1 (c2.quiet hq).2 ?_ ha
  rw [c2.w, c2.s.t]
  exact hd

/-- **C78 (partial).** With `SELECT ALL`s nothing fails either, except that the file or a counter becomes full. -/
theorem C78_never_fails_with_select_all_partial {F : FloatOps} {order : List (Key × Nat) → List (Key × Nat)} {m : Model}
    (hm : LifeOk m) {lim : Nat} (hlim : lim ≤ 2 ^ 62) {hdr : Bytes} (hh : hdr.length = HEADER) (hlo : HEADER < lim) {x y : Sys}
    {as : List Act} {es es' : List (Ev Stmt Reply)} (hb : Began F order lim m hdr x es)
    (hs : acts F order lim as x = some (.ok (y, es'))) (ha : Allowed F m (without nobody (es ++ es'))) :
    (∀ a, act F order lim y a ≠ some .bad) ∧
      (Quiet y → shutdown lim ⟨y.w, y.s.t⟩ ≠ .bad ∧ ∀ file, shutdown lim ⟨y.w, y.s.t⟩ = .ok file → start lim m file ≠ .bad) := by
  rw [without_append] at ha
  obtain ⟨b1, b2⟩ := hb.erase hm hlim hh hlo ha.left
  rw [b2] at ha
  obtain ⟨R, l⟩ := b1.live hm hlim hh hlo ha.left
  obtain ⟨as', y', c1, c2⟩ := ErS.acts hm hlim hb.open l hs ha
  obtain ⟨d1, d2⟩ := C78_never_fails_partial hm hlim hh hlo b1 c1 ha
  refine ⟨fun a h => d1 a (c2.act_bad h), fun hq => ?_⟩
  have := d2 (c2.quiet hq).2
  rw [c2.w, c2.s.t] at this
  exact this

/-! ### Example -/

/-- Two INSERTs; then a `SELECT ALL`, and while it reads the rows an UPDATE and a batch. -/
def exReadDo : List Act :=
  all 0 (exRow 1 .null) 4 ++ all 1 (exRow 2 .null) 4 ++
  [.call 3 (.selectAll none 10), .go 3, .call 2 exUpd1, .go 3, .go 2, .begin 2, .take, .go 2, .take, .go 2, .fin, .ret 2,
   .go 3, .go 3, .ret 3]

/-- The clients whose statements are answered, in this order. -/
def whom (es : List (Ev Stmt Reply)) : List Nat := es.filterMap fun e =>
  match e with
  | .ret n _ => some n
  | _ => none

def readDoB : Bool :=
  exReadDo.all (onlyB 4) &&
  match one exReadDo with
  | some (.ok (y, es)) => quietB 4 y && apartB exModel [] (without nobody es) && whom es == [0, 1, 2, 3] &&
    whom (without nobody es) == [0, 1, 2] &&
    match shutdown 100000 ⟨y.w, y.s.t⟩ with
    | .ok _ => true
    | _ => false
  | _ => false

theorem without_mem {A : Nat → Bool} {es : List (Ev Stmt Reply)} {n : Nat} {st : Stmt} (h : .call n st ∈ without A es) :
    .call n st ∈ es := by
  induction es generalizing A with
  | nil => exact h
  | cons e es ih =>
    rw [show e :: es = [e] ++ es from rfl, without_append] at h
    rcases List.mem_append.1 h with h | h
    · simp only [without] at h
      split at h
      · simp only [List.mem_cons, List.not_mem_nil, or_false] at h
        exact h ▸ List.mem_cons_self
      · cases h
    · exact List.mem_cons_of_mem _ (ih h)

theorem exReadDo_simple {n : Nat} {st : Stmt} (h : .call n st ∈ exReadDo) (ha : ∀ fs l, st ≠ .selectAll fs l) :
    st.Simple exModel ∧ StmtTags st ∧ ∀ fs l, st ≠ .selectAll fs l := by
  refine exDo_simple (n := n) (List.mem_append_left _ ?_)
  simp only [exReadDo, all, exUpd1, exRow, List.replicate, List.cons_append, List.nil_append, List.mem_cons,
    List.not_mem_nil, or_false, reduceCtorEq, false_or, Act.call.injEq] at h
  rcases h with ⟨rfl, rfl⟩ | ⟨rfl, rfl⟩ | ⟨rfl, rfl⟩ | ⟨rfl, rfl⟩
  · simp [exDo, exRow]
  · simp [exDo, exRow]
  · exact absurd rfl (ha _ _)
  · simp [exDo]; simp [exUpd1]

/-- The conditions hold although a `SELECT ALL` is answered. -/
example : ∃ x y as es file, Began exF id 100000 exModel exHdr x [] ∧ acts exF id 100000 as x = some (.ok (y, es)) ∧ Quiet y ∧
    shutdown 100000 ⟨y.w, y.s.t⟩ = .ok file ∧ Allowed exF exModel (without nobody es) ∧ whom es = [0, 1, 2, 3] := by
  have h : readDoB = true := by decide +kernel
  simp only [readDoB, Bool.and_eq_true] at h
  obtain ⟨o1, h⟩ := h
  obtain ⟨w, e1, _⟩ := Journal.create_idle (hdr := exHdr) rfl
  split at h
  · rename_i y es hr
    simp only [Bool.and_eq_true, beq_iff_eq] at h
    obtain ⟨⟨⟨⟨q, ap⟩, w1⟩, w2⟩, h⟩ := h
    split at h
    · rename_i file hf
      have hb := Began.first (F := exF) (order := id) (lim := 100000) (m := exModel) e1
      have hr' := hr
      rw [one, e1] at hr'
      refine ⟨_, y, exReadDo, es, file, hb, hr', quietB_spec hr o1 q, hf, allowed_of exModel_ok ap ?_, w1⟩
      intro n st hc
      refine exReadDo_simple (acts_calls hr n st (without_mem hc)) ?_
      rintro fs l rfl
      exact without_noAll es nobody n fs l hc
    · cases h
  · cases h

end Verif.Batch.Many
