import Verif.Gns.CatLemmas
/-!
C09 (a restart rebuilds the live catalogue) and C35 (the catalogue stays consistent).
-/
namespace Verif.Gns
open Verif.Enc (DVal Dict Uuid SpaceId ModelId Layout Fields Event)

/-! ### Specification -/

/-- A consistent catalogue: the models that a space lists exist, every model is listed by its space, no
name is listed twice, and each model is well formed. -/
structure Consistent (c : Cat) : Prop where
  listed : ∀ s sp n, c.spaces s = some sp → n ∈ sp.models → ∃ m, c.models s n = some m
  owned : ∀ s n m, c.models s n = some m → ∃ sp, c.spaces s = some sp ∧ n ∈ sp.models
  nodup : ∀ s sp, c.spaces s = some sp → sp.models.Nodup
  models : ∀ s n m, c.models s n = some m → ModelOk m

/-- The primary key of every model is not nullable. -/
def KeysNonNull (c : Cat) : Prop := ∀ s n m, c.models s n = some m → PkNonNull m

/-- `env` is a dictionary and the only property. -/
def EnvOnly (p : Dict) : Prop := (∃ m, get p ENV = some (.map m)) ∧ ∀ k, k ≠ ENV → get p k = none

/-- The properties of a rebuilt space: the same as those of the live space, or (if `env` was set to null)
none at all. -/
def SimProps (cleared : Bool) (p q : Dict) : Prop :=
  if cleared then ∀ k, get q k = none else Same p q ∧ EnvOnly p

inductive SimSpace (cleared : Bool) : Option Space → Option Space → Prop where
  | none : SimSpace cleared none none
  | some {u : Uuid} {ms : List String} {p q : Dict} (h : SimProps cleared p q) :
      SimSpace cleared (some ⟨u, ms, p⟩) (some ⟨u, ms, q⟩)

/-- `r` is a rebuilt copy of `c`: everything is equal, except for the properties of the spaces in
`cleared`. -/
structure Rebuilt (cleared : String → Bool) (c r : Cat) : Prop where
  models : r.models = c.models
  users : r.users = c.users
  spaces : ∀ n, SimSpace (cleared n) (c.spaces n) (r.spaces n)

/-- The event sets `env` to null. -/
def clearsEnv (p : Dict) : Bool :=
  match get p ENV with
  | some (.data .null) => true
  | _ => false

/-- Whether `env` of a space was set to null since the space was created. -/
def mark (t : String → Bool) : Event → String → Bool
  | .createSpace n _ _ => fun x => if x = n then false else t x
  | .alterSpace i p => fun x => if x = i.name then t x || clearsEnv p else t x
  | _ => t

def cleared (evs : List Event) : String → Bool := evs.foldl mark fun _ => false

/-- A value as the parser builds it: the width of a number belongs to its kind. -/
def TypedCell : Cell → Prop
  | .uint t _ => t.cls = .uint
  | .sint t _ => t.cls = .sint
  | .float t _ => t.cls = .float
  | .list l => TypedCells l
  | _ => True
where TypedCells : List Cell → Prop
  | [] => True
  | c :: cs => TypedCell c ∧ TypedCells cs

mutual
def Typed : Dict → Prop
  | [] => True
  | (_, v) :: es => TypedVal v ∧ Typed es
def TypedVal : DVal → Prop
  | .data c => TypedCell c
  | .map m => Typed m
end

/-- A statement as the parser builds it: the keys of a dictionary are distinct (they come from a hash
map), and the numbers are tagged correctly. -/
def StmtOk : Stmt → Prop
  | .createSpace _ p _ => Distinct p ∧ Typed p
  | .alterSpace _ p => Distinct p ∧ Typed p
  | _ => True

/-- The hash map of an update iterates over all its entries. -/
def Op.ok : Op → Prop
  | .stmt perm _ _ s => (∀ fs, (perm fs).Perm fs) ∧ StmtOk s
  | _ => True

/-- A forced `DROP SPACE` whose commit fails. -/
def Op.lostDrop : Op → Prop
  | .stmt _ _ w (.dropSpace _ true _) => w.commitOk = false
  | _ => False

/-- A `CREATE MODEL` whose primary key is nullable. -/
def Op.nullKey : Op → Prop
  | .stmt _ _ _ (.createModel _ _ fs _ _) => NullKey fs
  | _ => False

/-- Some column of an `ALTER MODEL` has `nullable: null`. -/
def Op.nullNullable : Op → Prop
  | .stmt _ _ _ (.alterModel _ _ (.add es)) => ∃ e ∈ es, get e.props "nullable" = some (.data .null)
  | .stmt _ _ _ (.alterModel _ _ (.update es)) => ∃ e ∈ es, get e.props "nullable" = some (.data .null)
  | _ => False

/-- The parts of a committed event that the encoding relies on. -/
def EvOk : Event → Prop
  | .createSpace _ _ p => Distinct p ∧ Typed p
  | .alterSpace _ p => Distinct p ∧ Typed p
  | .createModel _ _ l => FieldsOk l.fields
  | .alterAdd _ fs => FieldsOk fs
  | .alterUpdate _ fs => FieldsOk fs
  | _ => True

/-! ### Dictionaries -/

mutual
theorem prepareEntry_typed : ∀ (n : DVal) (c : Option DVal) (q : DVal), TypedVal n →
    prepareEntry c n = .put q → TypedVal q
  | .data v, c, q, ht, h => by
    match c with
    | none => rw [prepareEntry] at h; split at h <;> cases h; exact ht
    | some (.data c) =>
      rw [prepareEntry] at h
      split at h
      · cases h; exact True.intro
      · split at h <;> cases h; exact ht
    | some (.map c) => rw [prepareEntry] at h; cases h; exact True.intro
  | .map n, c, q, ht, h => by
    match c with
    | none =>
      rw [prepareEntry] at h
      split at h
      · rename_i p hp; cases h; exact prepare_typed n [] p ht hp
      · cases h
    | some (.data c) => rw [prepareEntry] at h; cases h
    | some (.map c) =>
      rw [prepareEntry] at h
      split at h
      · rename_i p hp; cases h; exact prepare_typed n c p ht hp
      · cases h
theorem prepare_typed : ∀ (new cur p : Dict), Typed new → prepare cur new = some p → Typed p
  | [], cur, p, _, h => by rw [prepare] at h; cases h; exact True.intro
  | (k, v) :: es, cur, p, ht, h => by
    rw [prepare] at h
    split at h
    · cases h
    · exact prepare_typed es cur p ht.2 h
    · rename_i q hq
      obtain ⟨ps, hp, rfl⟩ := Option.map_eq_some_iff.1 h
      exact ⟨prepareEntry_typed v _ q ht.1 hq, prepare_typed es cur ps ht.2 hp⟩
end

mutual
theorem flattenVal_ok : ∀ (v w : DVal), flattenVal v = some w → DistinctVal v → TypedVal v →
    DistinctVal w ∧ TypedVal w
  | .data c, w, h, hd, ht => by
    rw [flattenVal] at h
    split at h <;> cases h
    exact ⟨hd, ht⟩
  | .map m, w, h, hd, ht => by
    rw [flattenVal] at h
    cases h
    obtain ⟨a, b, _⟩ := flatten_ok m hd ht
    exact ⟨a, b⟩
theorem flatten_ok : ∀ (d : Dict), Distinct d → Typed d →
    Distinct (flatten d) ∧ Typed (flatten d) ∧ ∀ k, get d k = none → get (flatten d) k = none
  | [], _, _ => by rw [flatten]; exact ⟨True.intro, True.intro, fun _ _ => rfl⟩
  | (k, v) :: es, hd, ht => by
    obtain ⟨i1, i2, i3⟩ := flatten_ok es hd.2.2 ht.2
    rw [flatten]
    split
    · rename_i w hw
      obtain ⟨a, b⟩ := flattenVal_ok v w hw hd.2.1 ht.1
      refine ⟨⟨i3 _ hd.1, a, i1⟩, ⟨b, i2⟩, fun x hx => ?_⟩
      rw [get] at hx ⊢
      split at hx
      · cases hx
      · rename_i hk; rw [if_neg hk]; exact i3 x hx
    · refine ⟨i1, i2, fun x hx => i3 x ?_⟩
      rw [get] at hx
      split at hx
      · cases hx
      · exact hx
end

theorem createProps_ok {p q : Dict} (hd : Distinct p) (ht : Typed p) (h : createProps p = some q) :
    Distinct q ∧ Typed q ∧ EnvOnly q := by
  have key : ∀ m : Dict, Distinct [(ENV, .map m)] → Typed [(ENV, .map m)] → flatten [(ENV, .map m)] = q →
      Distinct q ∧ Typed q ∧ EnvOnly q := by
    rintro m h1 h2 rfl
    obtain ⟨a, b, c⟩ := flatten_ok _ h1 h2
    refine ⟨a, b, ⟨flatten m, by simp [flatten, flattenVal, get]⟩, fun k hk => ?_⟩
    simp [flatten, flattenVal, get, Ne.symm hk]
  rw [createProps] at h
  split at h
  · rename_i d hg
    split at h
    · rename_i hl
      obtain ⟨⟨k, v⟩, rfl⟩ := List.length_eq_one_iff.1 hl
      rw [get] at hg
      split at hg
      · rename_i hk
        cases hg
        subst hk
        split at h
        · split at h
          · cases h
            refine key [] ⟨rfl, True.intro, True.intro⟩ ⟨True.intro, True.intro⟩ ?_
            simp [put]
          · cases h
        · cases h
          exact key _ hd ht rfl
      · simp [get] at hg
    · cases h
  · split at h
    · cases h
      rename_i he
      cases p with
      | cons => simp at he
      | nil =>
        refine key [] ⟨rfl, True.intro, True.intro⟩ ⟨True.intro, True.intro⟩ ?_
        simp [put]
    · cases h

theorem alterPatch_ok {cur new p : Dict} (h : alterPatch cur new = .patch p) :
    prepare cur new = some p ∧ ((∃ m, new = [(ENV, .map m)]) ∨ new = [(ENV, .data .null)]) := by
  rw [alterPatch] at h
  split at h
  · rename_i m hg
    split at h
    · rename_i hl
      obtain ⟨⟨k, v⟩, rfl⟩ := List.length_eq_one_iff.1 hl
      rw [get] at hg
      split at hg
      · rename_i hk
        subst hk
        cases hg
        split at h
        · rename_i q hq; cases h; exact ⟨hq, .inl ⟨m, rfl⟩⟩
        · cases h
      · simp [get] at hg
    · cases h
  · rename_i c hg
    split at h
    · rename_i hl
      obtain ⟨⟨k, v⟩, rfl⟩ := List.length_eq_one_iff.1 hl.1
      rw [get] at hg
      split at hg
      · rename_i hk
        subst hk
        cases hg
        have := isNull_iff.1 hl.2
        subst this
        split at h
        · rename_i q hq; cases h; exact ⟨hq, .inr rfl⟩
        · cases h
      · simp [get] at hg
    · cases h
  · split at h <;> cases h

theorem rmerge_empty {q p : Dict} (hq : ∀ k, get q k = none) (hp : Distinct p) :
    ∃ r, rmerge q p = .ok (some r) ∧ Done q p r := by
  refine (C38_exact_behaviour q p hp).2 fun h => ?_
  cases h with
  | kind e => rw [hq] at e; cases e
  | mapForValue e => rw [hq] at e; cases e
  | nested e => rw [hq] at e; cases e

/-- The effect of a committed `ALTER SPACE` on the live and on the rebuilt properties. -/
theorem alter_sim {t : Bool} {cur q new p : Dict} (hd : Distinct new) (h : alterPatch cur new = .patch p)
    (hs : SimProps t cur q) :
    ∃ d r, alterApply cur p = .ok d ∧ rmerge q p = .ok (some r) ∧ SimProps (t || clearsEnv p) d r := by
  obtain ⟨hp, hf⟩ := alterPatch_ok h
  have hdp := (prepare_distinct new cur p hd hp).1
  have hnone := (prepare_distinct new cur p hd hp).2
  have hpo : ∀ k, k ≠ ENV → get p k = none := by
    intro k hk
    apply hnone
    rcases hf with ⟨m, rfl⟩ | rfl <;> simp [get, Ne.symm hk]
  -- the live side never fails
  obtain ⟨r0, _, hm, _, hdone, _⟩ := replay_patch hd hdp hp (Same.refl cur) (Same.refl p)
  have happ : alterApply cur p = .ok (putEnv r0) := by rw [alterApply, hm]; rfl
  cases t with
  | true =>
    have hq : ∀ k, get q k = none := hs
    obtain ⟨r, h1, h2⟩ := rmerge_empty hq hdp
    refine ⟨_, r, happ, h1, ?_⟩
    rw [Bool.true_or]
    show ∀ k, get r k = none
    intro k
    obtain ⟨h2⟩ := h2
    have h2 := h2 k
    rw [hq k] at h2
    by_cases hk : k = ENV
    · subst hk
      generalize hx : get p ENV = x at h2
      generalize get r ENV = y at h2
      cases h2 with
      | untouched => rfl
      | removed => rfl
      | lost => rfl
      | set hv =>
        -- a patch never holds a value under `env`
        exfalso
        rcases hf with ⟨m, rfl⟩ | rfl
        · simp only [prepare] at hp
          split at hp
          · cases hp
          · cases hp; simp [get] at hx
          · rename_i v hv'
            cases hp
            simp only [get, if_true] at hx
            cases hx
            match hc : get cur ENV with
            | none => rw [hc, prepareEntry] at hv'; split at hv' <;> cases hv'
            | some (.data _) => rw [hc, prepareEntry] at hv'; cases hv'
            | some (.map _) => rw [hc, prepareEntry] at hv'; split at hv' <;> cases hv'
        · simp only [prepare] at hp
          split at hp
          · cases hp
          · cases hp; simp [get] at hx
          · rename_i v hv'
            cases hp
            simp only [get, if_true] at hx
            cases hx
            match hc : get cur ENV with
            | none => rw [hc, prepareEntry] at hv'; simp [Cell.isNull] at hv'
            | some (.data _) =>
              rw [hc, prepareEntry, if_pos (by rfl)] at hv'
              cases hv'; exact hv rfl
            | some (.map _) =>
              rw [hc, prepareEntry] at hv'
              cases hv'; exact hv rfl
    · rw [hpo k hk] at h2
      generalize get r k = y at h2
      cases h2
      rfl
  | false =>
    obtain ⟨hsame, ⟨m0, hm0⟩, hother⟩ : Same cur q ∧ EnvOnly cur := hs
    obtain ⟨r1, r, hm1, hr, _, hsr⟩ := replay_patch hd hdp hp hsame (Same.refl p)
    rw [hm] at hm1
    cases hm1
    refine ⟨_, r, happ, hr, ?_⟩
    rw [Bool.false_or]
    obtain ⟨hdone⟩ := hdone
    have hro : ∀ k, k ≠ ENV → get r0 k = none := by
      intro k hk
      have h2 := hdone k
      rw [hother k hk] at h2
      have : get new k = none := by
        rcases hf with ⟨m, rfl⟩ | rfl <;> simp [get, Ne.symm hk]
      rw [this] at h2
      generalize get r0 k = y at h2
      cases h2
      rfl
    have h2 := hdone ENV
    rw [hm0] at h2
    rcases hf with ⟨m, rfl⟩ | rfl
    · simp only [get, if_true] at h2
      generalize hx : get r0 ENV = x at h2
      cases h2 with
      | nested h2 =>
        rename_i r'
        have hc : clearsEnv p = false := by
          rw [prepare, hm0] at hp
          split at hp
          · cases hp
          · rename_i hp'
            rw [prepareEntry] at hp'
            split at hp' <;> cases hp'
          · rename_i v hv
            rw [prepare] at hp
            cases hp
            rw [prepareEntry] at hv
            split at hv <;> cases hv
            simp [clearsEnv, get]
        rw [hc]
        have : putEnv r0 = r0 := by rw [putEnv, hx]
        rw [this]
        exact ⟨hsr, ⟨r', hx⟩, hro⟩
    · simp only [get, if_true] at h2
      have hx : get r0 ENV = none := by
        generalize hx : get r0 ENV = x at h2
        cases h2 with
        | removed => rfl
        | deleted => rfl
      have hc : clearsEnv p = true := by
        rw [prepare, hm0, prepareEntry, prepare] at hp
        cases hp
        simp [clearsEnv, get]
      rw [hc]
      show ∀ k, get r k = none
      intro k
      obtain ⟨hsr⟩ := hsr
      have h3 := hsr k
      have : get r0 k = none := by
        by_cases hk : k = ENV
        · rw [hk]; exact hx
        · exact hro k hk
      rw [this] at h3
      generalize get r k = y at h3
      cases h3
      rfl

/-! ### One step -/

/-- What a step does: the catalogue stays consistent, changes only with a committed event, and the event
has the same effect on a rebuilt copy. `nk`: the step may leave a nullable key; `np`: it may panic. -/
structure StepOk (nk np : Prop) (c : Cat) (o : Out) : Prop where
  cons : Consistent o.cat
  keep : o.ev = none → o.cat = c
  keys : ¬ nk → KeysNonNull c → KeysNonNull o.cat
  returns : ¬ np → o.reply.returns = true
  ev : ∀ e, o.ev = some e → EvOk e ∧
    ∀ t r, Rebuilt t c r → ∃ r', apply r e = .ok r' ∧ Rebuilt (mark t e) o.cat r'

theorem StepOk.reply {nk np : Prop} {c : Cat} {r : Res QErr (Option Bool)} (hc : Consistent c)
    (hr : ¬ np → r.returns = true) : StepOk nk np c (c.reply r) :=
  ⟨hc, fun _ => rfl, fun _ h => h, hr, fun _ h => by cases h⟩

theorem StepOk.commit {nk np : Prop} {c next : Cat} {w : World} {e : Event} {r : Res QErr (Option Bool)}
    (hc : Consistent c) (hn : Consistent next) (hk : ¬ nk → KeysNonNull c → KeysNonNull next)
    (hr : r.returns = true) (he : EvOk e)
    (hs : ∀ t r, Rebuilt t c r → ∃ r', apply r e = .ok r' ∧ Rebuilt (mark t e) next r') :
    StepOk nk np c (c.commit w e next r) := by
  rw [Cat.commit]
  split
  · exact ⟨hn, fun h => (by cases h), hk, fun _ => hr, fun e' h => by cases h; exact ⟨he, hs⟩⟩
  · exact .reply hc fun _ => rfl

theorem okReply_returns (f : Bool) : (okReply f).returns = true := rfl
theorem skipReply_returns (f : Bool) (e : QErr) : (skipReply f e).returns = true := by
  rw [skipReply]; split <;> rfl

theorem upd_self {α} (f : String → Option α) (k : String) (v : Option α) : upd f k v k = v := by simp [upd]
theorem upd_ne {α} (f : String → Option α) {k x : String} (v : Option α) (h : x ≠ k) : upd f k v x = f x := by
  simp [upd, h]

theorem simSpace_get {t : Bool} {a b : Option Space} (h : SimSpace t a b) {s : Space} (ha : a = some s) :
    ∃ q, b = some ⟨s.uuid, s.models, q⟩ ∧ SimProps t s.props q := by
  cases h with
  | none => cases ha
  | some h => cases ha; exact ⟨_, rfl, h⟩

theorem simSpace_none {t : Bool} {a b : Option Space} (h : SimSpace t a b) (ha : a = none) : b = none := by
  cases h with
  | none => rfl
  | some h => cases ha

theorem createSpace_ok {nk np : Prop} {c : Cat} {w : World} {n : String} {p : Dict} {f : Bool}
    (hc : Consistent c) (hp : Distinct p ∧ Typed p) : StepOk nk np c (execCreateSpace c w n p f) := by
  rw [execCreateSpace]
  split
  · exact .reply hc fun _ => rfl
  · rename_i q hq
    obtain ⟨q1, q2, q3⟩ := createProps_ok hp.1 hp.2 hq
    split
    · exact .reply hc fun _ => skipReply_returns ..
    · rename_i hn
      split
      · refine .commit hc ?_ (fun _ h => h) rfl ⟨q1, q2⟩ ?_
        · refine ⟨?_, ?_, ?_, hc.models⟩
          · intro s sp m h hm
            simp only [upd] at h
            split at h
            · cases h; simp at hm
            · exact hc.listed s sp m h hm
          · intro s m x h
            obtain ⟨sp, h1, h2⟩ := hc.owned s m x h
            refine ⟨sp, ?_, h2⟩
            simp only
            rw [upd_ne]
            · exact h1
            · rintro rfl; rw [hn] at h1; cases h1
          · intro s sp h
            simp only [upd] at h
            split at h
            · cases h; simp
            · exact hc.nodup s sp h
        · intro t r hr
          have hrn := simSpace_none (hr.spaces n) hn
          have ha : apply r (.createSpace n w.uuid q) =
              .ok { r with spaces := upd r.spaces n (some ⟨w.uuid, [], q⟩) } := by simp only [apply, hrn]
          refine ⟨_, ha, hr.models, hr.users, fun x => ?_⟩
          simp only [upd, mark]
          split
          · exact .some (show Same _ _ ∧ EnvOnly _ from ⟨Same.refl _, q3⟩)
          · exact hr.spaces x
      · exact .reply hc fun _ => rfl

theorem alterSpace_ok {nk np : Prop} {c : Cat} {w : World} {n : String} {p : Dict}
    (hc : Consistent c) (hp : Distinct p ∧ Typed p) : StepOk nk np c (execAlterSpace c w n p) := by
  rw [execAlterSpace]
  split
  · exact .reply hc fun _ => rfl
  · rename_i s hs
    split
    · exact .reply hc fun _ => rfl
    · exact .reply hc fun _ => rfl
    · rename_i q hq
      have hq' := (alterPatch_ok hq).1
      split
      · obtain ⟨r0, _, hm, _⟩ := replay_patch hp.1 (prepare_distinct _ _ _ hp.1 hq').1 hq'
          (Same.refl s.props) (Same.refl q)
        have ha : alterApply s.props q = .ok (putEnv r0) := by rw [alterApply, hm]; rfl
        rw [ha]
        simp only
        refine ⟨⟨?_, ?_, ?_, hc.models⟩, fun h => (by cases h), fun _ h => h, fun _ => rfl, ?_⟩
        · intro x sp m h hm
          simp only [upd] at h
          split at h
          · rename_i hx
            cases h
            exact hc.listed x s m (by rw [hx]; exact hs) hm
          · exact hc.listed x sp m h hm
        · intro x m y h
          obtain ⟨sp, h1, h2⟩ := hc.owned x m y h
          simp only [upd]
          split
          · rename_i hx
            rw [hx, hs] at h1
            cases h1
            exact ⟨_, rfl, h2⟩
          · exact ⟨sp, h1, h2⟩
        · intro x sp h
          simp only [upd] at h
          split at h
          · cases h; exact hc.nodup n s hs
          · exact hc.nodup x sp h
        · intro e he
          cases he
          refine ⟨⟨(prepare_distinct _ _ _ hp.1 hq').1, prepare_typed _ _ _ hp.2 hq'⟩, ?_⟩
          intro t r hr
          obtain ⟨b, hb, hsim⟩ := simSpace_get (hr.spaces n) hs
          obtain ⟨d, r', h1, h2, h3⟩ := alter_sim hp.1 hq hsim
          rw [ha] at h1
          cases h1
          have ha : apply r (.alterSpace ⟨n, s.uuid⟩ q) =
              .ok { r with spaces := upd r.spaces n (some ⟨s.uuid, s.models, r'⟩) } := by
            simp only [apply, hb, h2, Res.bind]
          refine ⟨_, ha, hr.models, hr.users, fun x => ?_⟩
          simp only [upd, mark]
          split
          · rename_i hx; subst hx; exact .some h3
          · exact hr.spaces x
      · exact .reply hc fun _ => rfl

theorem upd2_same {α} (f : String → String → Option α) (s m : String) (v : Option α) :
    upd2 f s m v s m = v := by simp [upd2]

theorem upd2_other {α} (f : String → String → Option α) {s m x y : String} (v : Option α)
    (h : ¬ (x = s ∧ y = m)) : upd2 f s m v x y = f x y := by simp [upd2, h]

theorem purge_eq (space : String) : ∀ (ns : List String) (ms : String → String → Option Model) (x y : String),
    purge space ms ns x y = if x = space ∧ y ∈ ns then none else ms x y
  | [], ms, x, y => by simp [purge]
  | n :: ns, ms, x, y => by
    rw [purge, purge_eq space ns]
    by_cases h : x = space ∧ y ∈ ns
    · simp [h]
    · rw [if_neg h]
      simp only [upd2]
      by_cases hy : y = n
      · simp [hy]
      · have : ¬ (x = space ∧ y ∈ n :: ns) := fun ⟨a, b⟩ => h ⟨a, by simpa [hy] using b⟩
        rw [if_neg this, if_neg (by simp [hy])]

theorem dropModels_eq (space : String) : ∀ (ns : List String) (ms : String → String → Option Model),
    ns.Nodup → (∀ n ∈ ns, ∃ m, ms space n = some m) → dropModels space ms ns = some (purge space ms ns)
  | [], ms, _, _ => rfl
  | n :: ns, ms, hn, h => by
    obtain ⟨m, hm⟩ := h n (by simp)
    rw [List.nodup_cons] at hn
    simp only [dropModels, hm, purge]
    refine dropModels_eq space ns _ hn.2 fun x hx => ?_
    obtain ⟨y, hy⟩ := h x (by simp [hx])
    refine ⟨y, ?_⟩
    rw [upd2_other]
    · exact hy
    · rintro ⟨_, rfl⟩; exact hn.1 hx

theorem dropped_consistent {c : Cat} {n : String} {s : Space} (hc : Consistent c) (hs : c.spaces n = some s) :
    Consistent { c with spaces := upd c.spaces n none, models := purge n c.models s.models } := by
  have hm : ∀ x y m, purge n c.models s.models x y = some m → c.models x y = some m ∧ x ≠ n := by
    intro x y m h
    rw [purge_eq] at h
    split at h
    · cases h
    · rename_i hx
      refine ⟨h, fun e => hx ⟨e, ?_⟩⟩
      obtain ⟨sp, h1, h2⟩ := hc.owned x y m h
      rw [e, hs] at h1
      cases h1
      exact h2
  refine ⟨?_, ?_, ?_, fun x y m h => hc.models x y m (hm x y m h).1⟩
  · intro x sp y h hy
    simp only [upd] at h
    split at h
    · cases h
    · rename_i hx
      simp only [purge_eq, hx, false_and, if_false]
      exact hc.listed x sp y h hy
  · intro x y m h
    obtain ⟨h1, h2⟩ := hm x y m h
    simp only [upd, if_neg h2]
    exact hc.owned x y m h1
  · intro x sp h
    simp only [upd] at h
    split at h
    · cases h
    · exact hc.nodup x sp h

theorem dropped_rebuilt {t : String → Bool} {c r : Cat} {n : String} {s : Space} (hs : c.spaces n = some s)
    (hr : Rebuilt t c r) : ∃ r', apply r (.dropSpace ⟨n, s.uuid⟩) = .ok r' ∧
      Rebuilt t { c with spaces := upd c.spaces n none, models := purge n c.models s.models } r' := by
  obtain ⟨b, hb, _⟩ := simSpace_get (hr.spaces n) hs
  have ha : apply r (.dropSpace ⟨n, s.uuid⟩) =
      .ok { r with spaces := upd r.spaces n none, models := purge n r.models s.models } := by
    simp only [apply, withSpace, hb, if_true, orErr, Res.bind]
  refine ⟨_, ha, ?_, hr.users, fun x => ?_⟩
  · simp only [hr.models]
  · simp only [upd]
    split
    · exact .none
    · exact hr.spaces x

theorem KeysNonNull.dropped {c : Cat} {n : String} {ns : List String} (h : KeysNonNull c)
    (sp : String → Option Space) : KeysNonNull { c with spaces := sp, models := purge n c.models ns } := by
  intro x y m hm
  simp only [purge_eq] at hm
  split at hm
  · cases hm
  · exact h x y m hm

theorem dropSpaceForce_ok {nk np : Prop} {c : Cat} {w : World} {n : String} {f : Bool}
    (hc : Consistent c) (hw : w.commitOk = true) : StepOk nk np c (execDropSpaceForce c w n f) := by
  rw [execDropSpaceForce]
  split
  · exact .reply hc fun _ => skipReply_returns ..
  · rename_i s hs
    rw [if_pos hw, dropModels_eq n s.models c.models (hc.nodup n s hs) fun x hx => hc.listed n s x hs hx]
    refine ⟨dropped_consistent hc hs, fun h => (by cases h), fun _ h => h.dropped _,
      fun _ => okReply_returns f, ?_⟩
    intro e he
    cases he
    exact ⟨True.intro, fun t r hr => dropped_rebuilt hs hr⟩

theorem dropSpace_ok {nk np : Prop} {c : Cat} {w : World} {n : String} {f : Bool}
    (hc : Consistent c) : StepOk nk np c (execDropSpace c w n f) := by
  rw [execDropSpace]
  split
  · exact .reply hc fun _ => skipReply_returns ..
  · rename_i s hs
    split
    · rename_i he
      have he : s.models = [] := by simpa using he
      have e : ({ c with spaces := upd c.spaces n none } : Cat) =
          { c with spaces := upd c.spaces n none, models := purge n c.models s.models } := by
        rw [he]; rfl
      rw [e]
      exact .commit hc (dropped_consistent hc hs) (fun _ h => h.dropped _) (okReply_returns f) True.intro
        fun t r hr => dropped_rebuilt hs hr
    · exact .reply hc fun _ => rfl

theorem createModel_ok {np : Prop} {c : Cat} {w : World} {s n : String} {specs : List FieldSpec} {p : Dict}
    {f : Bool} (hc : Consistent c) : StepOk (NullKey specs) np c (execCreateModel c w s n specs p f) := by
  obtain ⟨h1, h2, h3⟩ := @processCreate_spec w.uuid specs p
  rw [execCreateModel]
  split
  · rename_i m hm
    obtain ⟨m1, m2, m3, m4⟩ := h3 m hm
    split
    · exact .reply hc fun _ => rfl
    · rename_i sp hs
      split
      · exact .reply hc fun _ => skipReply_returns ..
      · rename_i hnc
        have hnc : n ∉ sp.models := by simpa using hnc
        have hnone : c.models s n = none := by
          cases h : c.models s n with
          | none => rfl
          | some x =>
            obtain ⟨sp', a, b⟩ := hc.owned s n x h
            rw [hs] at a; cases a
            exact absurd b hnc
        split
        · refine .commit hc ?_ ?_ (okReply_returns f) m1.fields ?_
          · refine ⟨?_, ?_, ?_, ?_⟩
            · intro x sp' y h hy
              simp only [upd] at h
              simp only [upd2]
              split at h
              · rename_i hx
                cases h
                simp only at hy
                split
                · exact ⟨m, rfl⟩
                · rename_i hxy
                  rcases List.mem_append.1 hy with hy | hy
                  · rw [hx]; exact hc.listed s sp y hs hy
                  · simp at hy; exact absurd ⟨hx, hy⟩ hxy
              · rename_i hx
                rw [if_neg (fun e => hx e.1)]
                exact hc.listed x sp' y h hy
            · intro x y z h
              simp only [upd2] at h
              simp only [upd]
              split at h
              · rename_i hxy
                rw [if_pos hxy.1]
                exact ⟨_, rfl, by simp [hxy.2]⟩
              · obtain ⟨sp', a, b⟩ := hc.owned x y z h
                split
                · rename_i hx
                  rw [hx, hs] at a; cases a
                  exact ⟨_, rfl, by simp [b]⟩
                · exact ⟨sp', a, b⟩
            · intro x sp' h
              simp only [upd] at h
              split at h
              · cases h
                refine List.nodup_append.2 ⟨hc.nodup s sp hs, by simp, ?_⟩
                intro a ha b hb
                simp at hb
                rintro rfl
                exact hnc (hb ▸ ha)
              · exact hc.nodup x sp' h
            · intro x y z h
              simp only [upd2] at h
              split at h
              · cases h; exact m1
              · exact hc.models x y z h
          · intro hnk hk x y z h
            simp only [upd2] at h
            split at h
            · cases h; exact m4 hnk
            · exact hk x y z h
          · intro t r hr
            obtain ⟨b, hb, hsim⟩ := simSpace_get (hr.spaces s) hs
            have ha : apply r (.createModel ⟨s, sp.uuid⟩ n ⟨m.uuid, m.pk, m.pkTag, m.fields⟩) = .ok { r with
                spaces := upd r.spaces s (some ⟨sp.uuid, sp.models ++ [n], b⟩)
                models := upd2 r.models s n (some ⟨m.uuid, m.pk, m.pkTag, m.fields, []⟩) } := by
              simp only [apply, hb, hr.models, hnone]
              rw [if_neg (by simpa using hnc)]
            refine ⟨_, ha, ?_, hr.users, fun x => ?_⟩
            · cases m
              simp at m3
              simp [m3, hr.models]
            · simp only [upd, mark]
              split
              · rename_i hx; subst hx; exact .some hsim
              · exact hr.spaces x
        · exact .reply hc fun _ => rfl
  · exact .reply hc fun _ => rfl
  · rename_i h; exact absurd h h1
  · rename_i h; exact absurd h h2

theorem dropModel_ok {nk np : Prop} {c : Cat} {w : World} {s n : String} {fo f : Bool} (hc : Consistent c) :
    StepOk nk np c (execDropModel c w s n fo f) := by
  rw [execDropModel]
  split
  · exact .reply hc fun _ => rfl
  · rename_i sp hs
    split
    · rename_i hcn
      have hin : n ∈ sp.models := by simpa using hcn
      have hnd := hc.nodup s sp hs
      obtain ⟨m, hm⟩ := hc.listed s sp n hs hin
      rw [hm]
      simp only
      split
      · refine .commit hc ?_ ?_ (okReply_returns f) True.intro ?_
        · refine ⟨?_, ?_, ?_, ?_⟩
          · intro x sp' y h hy
            simp only [upd] at h
            simp only [upd2]
            split at h
            · rename_i hx
              cases h
              simp only [List.Nodup.mem_erase_iff hnd] at hy
              rw [if_neg (fun e => hy.1 e.2), hx]
              exact hc.listed s sp y hs hy.2
            · rename_i hx
              rw [if_neg (fun e => hx e.1)]
              exact hc.listed x sp' y h hy
          · intro x y z h
            simp only [upd2] at h
            simp only [upd]
            split at h
            · cases h
            · rename_i hxy
              obtain ⟨sp', a, b⟩ := hc.owned x y z h
              split
              · rename_i hx
                rw [hx, hs] at a; cases a
                refine ⟨_, rfl, ?_⟩
                simp only [List.Nodup.mem_erase_iff hnd]
                exact ⟨fun e => hxy ⟨hx, e⟩, b⟩
              · exact ⟨sp', a, b⟩
          · intro x sp' h
            simp only [upd] at h
            split at h
            · cases h; exact hnd.erase n
            · exact hc.nodup x sp' h
          · intro x y z h
            simp only [upd2] at h
            split at h
            · cases h
            · exact hc.models x y z h
        · intro _ hk x y z h
          simp only [upd2] at h
          split at h
          · cases h
          · exact hk x y z h
        · intro t r hr
          obtain ⟨b, hb, hsim⟩ := simSpace_get (hr.spaces s) hs
          have ha : apply r (.dropModel ⟨⟨s, sp.uuid⟩, n, m.version, m.uuid⟩) = .ok { r with
              spaces := upd r.spaces s (some ⟨sp.uuid, sp.models.erase n, b⟩)
              models := upd2 r.models s n none } := by
            simp only [apply, withSpace, hb, if_true, orErr, Res.bind, hr.models, hm, hcn]
          refine ⟨_, ha, by simp [hr.models], hr.users, fun x => ?_⟩
          simp only [upd, mark]
          split
          · rename_i hx; subst hx; exact .some hsim
          · exact hr.spaces x
      · exact .reply hc fun _ => rfl
    · exact .reply hc fun _ => skipReply_returns ..

theorem setModel_consistent {c : Cat} {s n : String} {m m' : Model} (hc : Consistent c)
    (hm : c.models s n = some m) (hok : ModelOk m') :
    Consistent { c with models := upd2 c.models s n (some m') } := by
  refine ⟨?_, ?_, hc.nodup, ?_⟩
  · intro x sp y h hy
    simp only [upd2]
    split
    · exact ⟨_, rfl⟩
    · exact hc.listed x sp y h hy
  · intro x y z h
    simp only [upd2] at h
    split at h
    · rename_i hxy
      rw [hxy.1, hxy.2]
      exact hc.owned s n m hm
    · exact hc.owned x y z h
  · intro x y z h
    simp only [upd2] at h
    split at h
    · cases h; exact hok
    · exact hc.models x y z h

theorem setModel_keys {c : Cat} {s n : String} {m m' : Model} (hk : KeysNonNull c)
    (hm : c.models s n = some m) (hok : PkNonNull m → PkNonNull m') :
    KeysNonNull { c with models := upd2 c.models s n (some m') } := by
  intro x y z h
  simp only [upd2] at h
  split at h
  · cases h; exact hok (hk s n m hm)
  · exact hk x y z h

theorem checkNullable_returns {p : Dict} (h : get p "nullable" ≠ some (.data .null)) :
    checkNullable p ≠ .panic ∧ checkNullable p ≠ .hang := by
  rw [checkNullable]
  split
  · simp
  · rename_i h'; exact absurd h' h
  · simp
  · simp

theorem bind_returns {ε α β} {x : Res ε α} {f : α → Res ε β} (h : x ≠ .panic ∧ x ≠ .hang)
    (hf : ∀ a, x = .ok a → f a ≠ .panic ∧ f a ≠ .hang) : x.bind f ≠ .panic ∧ x.bind f ≠ .hang := by
  cases x with
  | ok a => exact hf a rfl
  | err e => simp
  | panic => exact absurd rfl h.1
  | hang => exact absurd rfl h.2

theorem planAdd_returns (m : Model) : ∀ (es : List Expanded) (fs : Fields) (o : Bool),
    (∀ e ∈ es, get e.props "nullable" ≠ some (.data .null)) →
    planAdd m es fs o ≠ .panic ∧ planAdd m es fs o ≠ .hang
  | [], fs, o, _ => by simp [planAdd]
  | e :: es, fs, o, h => by
    rw [planAdd]
    split
    · refine bind_returns (checkNullable_returns (h e (by simp))) fun a _ => ?_
      obtain ⟨ps, nu⟩ := a
      simp only
      split
      · simp
      · exact planAdd_returns m es _ _ fun x hx => h x (List.mem_cons_of_mem _ hx)
    · simp

theorem ldeltasLoop_returns : ∀ (ls : List LayerSpec) (cur : List Tag) (nl d : Bool),
    ldeltasLoop ls cur nl d ≠ .panic ∧ ldeltasLoop ls cur nl d ≠ .hang
  | [], cur, nl, d => by simp [ldeltasLoop]
  | _ :: _, [], nl, d => by simp [ldeltasLoop]
  | l :: ls, t :: ts, nl, d => by
    rw [ldeltasLoop]
    split
    · simp
    · split
      · split
        · exact bind_returns (ldeltasLoop_returns ls ts _ _) fun a _ => by simp
        · simp
      · split
        · split
          · exact bind_returns (ldeltasLoop_returns ls ts _ _) fun a _ => by simp
          · simp
        · simp

theorem planUpdate_returns (m : Model) : ∀ (es : List Expanded) (fs : Fields) (o nl d : Bool),
    (∀ e ∈ es, get e.props "nullable" ≠ some (.data .null)) →
    planUpdate m es fs o nl d ≠ .panic ∧ planUpdate m es fs o nl d ≠ .hang
  | [], fs, o, nl, d, _ => by simp [planUpdate]
  | e :: es, fs, o, nl, d, h => by
    rw [planUpdate]
    split
    · split
      · simp
      · split
        · simp
        · refine bind_returns (checkNullable_returns (h e (by simp))) fun a _ => ?_
          obtain ⟨ps, nu⟩ := a
          simp only
          refine bind_returns ?_ fun a _ => ?_
          · rw [ldeltas]
            split
            · simp
            · exact bind_returns (ldeltasLoop_returns _ _ _ _) fun a _ => by simp
          · obtain ⟨f, a, b⟩ := a
            exact planUpdate_returns m es _ _ _ _ fun x hx => h x (List.mem_cons_of_mem _ hx)
    · simp

theorem planRemove_returns (m : Model) : ∀ (ns : List String),
    planRemove m ns ≠ .panic ∧ planRemove m ns ≠ .hang
  | [] => by simp [planRemove]
  | n :: ns => by
    rw [planRemove]
    split
    · split
      · simp
      · exact planRemove_returns m ns
    · simp

/-- The panic of `ALTER MODEL`. -/
def NullNullable : AlterKind → Prop
  | .add es => ∃ e ∈ es, get e.props "nullable" = some (.data .null)
  | .update es => ∃ e ∈ es, get e.props "nullable" = some (.data .null)
  | .remove _ => False

theorem plan_returns {perm : Fields → Fields} {m : Model} {k : AlterKind} (h : ¬ NullNullable k) :
    plan perm m k ≠ .panic ∧ plan perm m k ≠ .hang := by
  cases k with
  | remove ns =>
    rw [plan]
    split
    · exact bind_returns (planRemove_returns m ns) fun a _ => by simp
    · simp
  | add es =>
    rw [plan]
    refine bind_returns (planAdd_returns m es _ _ fun e he hx => h ⟨e, he, hx⟩) fun a _ => ?_
    obtain ⟨fs, o⟩ := a
    cases o <;> simp
  | update es =>
    rw [plan]
    refine bind_returns (planUpdate_returns m es _ _ _ _ fun e he hx => h ⟨e, he, hx⟩) fun a _ => ?_
    obtain ⟨fs, o, a, b⟩ := a
    cases o <;> simp

theorem plan_add {perm : Fields → Fields} {m : Model} {k : AlterKind} {fs : Fields} {b : Bool}
    (h : plan perm m k = .ok (.add fs, b)) : FieldsOk fs ∧ ∀ x ∈ names fs, x ∉ names m.fields := by
  cases k with
  | remove ns =>
    rw [plan] at h
    split at h
    · obtain ⟨a, _, h2⟩ := Res.bind_eq_ok h
      simp only [Res.ok.injEq, Prod.mk.injEq] at h2
      obtain ⟨h2, _⟩ := h2
      split at h2 <;> cases h2
    · cases h
  | add es =>
    rw [plan] at h
    obtain ⟨⟨fs', o⟩, h1, h2⟩ := Res.bind_eq_ok h
    cases o with
    | false => simp at h2
    | true =>
      simp only [if_true, Res.ok.injEq, Prod.mk.injEq] at h2
      obtain ⟨h2, _⟩ := h2
      split at h2 <;> cases h2
      exact (planAdd_spec m h1 ⟨by simp, by simp⟩ (by simp)).2
  | update es =>
    rw [plan] at h
    obtain ⟨⟨fs', o, nl, d⟩, h1, h2⟩ := Res.bind_eq_ok h
    cases o with
    | false => simp at h2
    | true =>
      simp only [if_true, Res.ok.injEq, Prod.mk.injEq] at h2
      obtain ⟨h2, _⟩ := h2
      split at h2 <;> cases h2

theorem plan_update {perm : Fields → Fields} (hperm : ∀ fs, (perm fs).Perm fs) {m : Model} {k : AlterKind}
    {fs : Fields} {b : Bool} (hm : FieldsOk m.fields) (h : plan perm m k = .ok (.update fs, b)) :
    FieldsOk fs ∧ ∀ x ∈ names fs, x ∈ names m.fields ∧ x ≠ m.pk := by
  cases k with
  | remove ns =>
    rw [plan] at h
    split at h
    · obtain ⟨a, _, h2⟩ := Res.bind_eq_ok h
      simp only [Res.ok.injEq, Prod.mk.injEq] at h2
      obtain ⟨h2, _⟩ := h2
      split at h2 <;> cases h2
    · cases h
  | add es =>
    rw [plan] at h
    obtain ⟨⟨fs', o⟩, h1, h2⟩ := Res.bind_eq_ok h
    cases o with
    | false => simp at h2
    | true =>
      simp only [if_true, Res.ok.injEq, Prod.mk.injEq] at h2
      obtain ⟨h2, _⟩ := h2
      split at h2 <;> cases h2
  | update es =>
    rw [plan] at h
    obtain ⟨⟨fs', o, nl, d⟩, h1, h2⟩ := Res.bind_eq_ok h
    cases o with
    | false => simp at h2
    | true =>
      simp only [if_true, Res.ok.injEq, Prod.mk.injEq] at h2
      obtain ⟨h2, _⟩ := h2
      split at h2 <;> cases h2
      obtain ⟨a, b⟩ := planUpdate_spec m hm h1 ⟨by simp, by simp⟩ (by simp)
      have hp := hperm fs'
      have hn : (names (perm fs')).Perm (names fs') := hp.map _
      exact ⟨⟨hn.nodup_iff.2 a.1, fun e he => a.2 e (hp.mem_iff.1 he)⟩, fun x hx => b x (hn.mem_iff.1 hx)⟩

theorem plan_remove {perm : Fields → Fields} {m : Model} {k : AlterKind} {ns : List String} {b : Bool}
    (h : plan perm m k = .ok (.remove ns, b)) : ns.Nodup ∧ ∀ x ∈ ns, x ∈ names m.fields ∧ x ≠ m.pk := by
  cases k with
  | remove ns' =>
    rw [plan] at h
    split at h
    · rename_i hn
      obtain ⟨a, h1, h2⟩ := Res.bind_eq_ok h
      simp only [Res.ok.injEq, Prod.mk.injEq] at h2
      obtain ⟨h2, _⟩ := h2
      split at h2 <;> cases h2
      exact ⟨hn, planRemove_spec m h1⟩
    · cases h
  | add es =>
    rw [plan] at h
    obtain ⟨⟨fs', o⟩, h1, h2⟩ := Res.bind_eq_ok h
    cases o with
    | false => simp at h2
    | true =>
      simp only [if_true, Res.ok.injEq, Prod.mk.injEq] at h2
      obtain ⟨h2, _⟩ := h2
      split at h2 <;> cases h2
  | update es =>
    rw [plan] at h
    obtain ⟨⟨fs', o, nl, d⟩, h1, h2⟩ := Res.bind_eq_ok h
    cases o with
    | false => simp at h2
    | true =>
      simp only [if_true, Res.ok.injEq, Prod.mk.injEq] at h2
      obtain ⟨h2, _⟩ := h2
      split at h2 <;> cases h2

theorem alterModel_ok {nk : Prop} {perm : Fields → Fields} (hperm : ∀ fs, (perm fs).Perm fs) {c : Cat}
    {w : World} {s n : String} {k : AlterKind} (hc : Consistent c) :
    StepOk nk (NullNullable k) c (execAlterModel perm c w s n k) := by
  rw [execAlterModel]
  split
  · exact .reply hc fun _ => rfl
  · rename_i m hm
    have hmo := hc.models s n m hm
    obtain ⟨sp, hs, _⟩ := hc.owned s n m hm
    rw [hs]
    simp only
    have hwm : ∀ {t r}, Rebuilt t c r → withModel r ⟨⟨s, sp.uuid⟩, n, m.version, m.uuid⟩ = some m := by
      intro t r hr
      obtain ⟨b, hb, _⟩ := simSpace_get (hr.spaces s) hs
      simp only [withModel, withSpace, hb, if_true, hr.models, hm]
    split
    · exact .reply hc fun _ => rfl
    · rename_i h
      refine .reply hc fun hnp => absurd h (plan_returns hnp).1
    · rename_i h
      refine .reply hc fun hnp => absurd h (plan_returns hnp).2
    · exact .reply hc fun _ => rfl
    · exact .reply hc fun _ => rfl
    · rename_i fs h
      obtain ⟨h1, h2⟩ := plan_add h
      obtain ⟨a, b⟩ := addFields_ok hmo h1 h2
      refine .commit hc (setModel_consistent hc hm a) (fun _ hk => setModel_keys hk hm b) rfl h1 ?_
      intro t r hr
      have ha : apply r (.alterAdd ⟨⟨s, sp.uuid⟩, n, m.version, m.uuid⟩ fs) =
          .ok { r with models := upd2 r.models s n (some (addFields m fs)) } := by
        simp only [apply, hwm hr, orErr, Res.bind, (replayAdd_spec h1 h2).1]
      exact ⟨_, ha, by simp [hr.models], hr.users, hr.spaces⟩
    · rename_i fs h
      obtain ⟨h1, h2⟩ := plan_update hperm hmo.fields h
      obtain ⟨u, a, b⟩ := replayUpdate_spec hmo h1.2 h2
      refine .commit hc (setModel_consistent hc hm a) (fun _ hk => setModel_keys hk hm b) rfl h1 ?_
      intro t r hr
      have ha : apply r (.alterUpdate ⟨⟨s, sp.uuid⟩, n, m.version, m.uuid⟩ fs) =
          .ok { r with models := upd2 r.models s n (some (updateFields m fs)) } := by
        simp only [apply, hwm hr, orErr, Res.bind, u]
      exact ⟨_, ha, by simp [hr.models], hr.users, hr.spaces⟩
    · rename_i ns h
      obtain ⟨h1, h2⟩ := plan_remove h
      obtain ⟨m', u, a, b⟩ := removeFields_spec hmo h1 h2
      rw [u]
      refine .commit hc (setModel_consistent hc hm a) (fun _ hk => setModel_keys hk hm b) rfl True.intro ?_
      intro t r hr
      have ha : apply r (.alterRemove ⟨⟨s, sp.uuid⟩, n, m.version, m.uuid⟩ ns) =
          .ok { r with models := upd2 r.models s n (some m') } := by
        simp only [apply, hwm hr, orErr, Res.bind, u]
      exact ⟨_, ha, by simp [hr.models], hr.users, hr.spaces⟩

theorem users_consistent {c : Cat} (hc : Consistent c) (us : String → Option Bytes) :
    Consistent { c with users := us } := ⟨hc.listed, hc.owned, hc.nodup, hc.models⟩

theorem createUser_ok {nk np : Prop} {c : Cat} {w : World} {n : String} {o : Dict} (hc : Consistent c) :
    StepOk nk np c (execCreateUser c w n o) := by
  rw [execCreateUser]
  split
  · split
    · exact .reply hc fun _ => rfl
    · rename_i h
      refine .commit hc (users_consistent hc _) (fun _ h => h) rfl True.intro fun t r hr => ?_
      have ha : apply r (.createUser n w.hash) = .ok { r with users := upd r.users n (some w.hash) } := by
        simp only [apply, hr.users, h]
      exact ⟨_, ha, hr.models, by simp [hr.users], hr.spaces⟩
  · exact .reply hc fun _ => rfl

theorem alterUser_ok {nk np : Prop} {c : Cat} {w : World} {n : String} {o : Dict} {b : Bool}
    (hc : Consistent c) : StepOk nk np c (execAlterUser c w b n o) := by
  rw [execAlterUser]
  split
  · exact .reply hc fun _ => rfl
  · split
    · split
      · rename_i h
        refine .commit hc (users_consistent hc _) (fun _ h => h) rfl True.intro fun t r hr => ?_
        have ha : apply r (.alterUser n w.hash) = .ok { r with users := upd r.users n (some w.hash) } := by
          simp only [apply, hr.users, h]
        exact ⟨_, ha, hr.models, by simp [hr.users], hr.spaces⟩
      · exact .reply hc fun _ => rfl
    · exact .reply hc fun _ => rfl

theorem dropUser_ok {nk np : Prop} {c : Cat} {w : World} {n u : String} (hc : Consistent c) :
    StepOk nk np c (execDropUser c w u n) := by
  rw [execDropUser]
  split
  · exact .reply hc fun _ => rfl
  · split
    · rename_i h
      refine .commit hc (users_consistent hc _) (fun _ h => h) rfl True.intro fun t r hr => ?_
      have ha : apply r (.dropUser n) = .ok { r with users := upd r.users n none } := by
        simp only [apply, hr.users, h]
      exact ⟨_, ha, hr.models, by simp [hr.users], hr.spaces⟩
    · exact .reply hc fun _ => rfl

/-- A second `initRoot`, which does not happen (the assertion of `initialize_new`). -/
def Op.secondRoot (c : Cat) : Op → Prop
  | .initRoot _ => ∃ h, c.users ROOT = some h
  | _ => False

theorem step_ok {c : Cat} (o : Op) (hc : Consistent c) (ho : o.ok) (hl : ¬ o.lostDrop) :
    StepOk o.nullKey (o.nullNullable ∨ o.secondRoot c) c (o.run c) := by
  cases o with
  | stmt perm u w s =>
    obtain ⟨h1, h2⟩ := ho
    show StepOk _ _ c (exec perm u c w s)
    rw [exec.eq_def]
    split
    · have weaken : ∀ {o p q}, StepOk (Op.nullKey (.stmt perm u w s)) p c o → (p → q) →
          StepOk (Op.nullKey (.stmt perm u w s)) q c o :=
        fun h hpq => ⟨h.cons, h.keep, h.keys, fun hn => h.returns fun hp => hn (hpq hp), h.ev⟩
      match s, h2, hl with
      | .createSpace n p f, h2, hl => exact createSpace_ok hc h2
      | .alterSpace n p, h2, hl => exact alterSpace_ok hc h2
      | .dropSpace n true f, h2, hl => exact dropSpaceForce_ok hc (by simpa [Op.lostDrop] using hl)
      | .dropSpace n false f, h2, hl => exact dropSpace_ok hc
      | .createModel s n fs p f, h2, hl => exact createModel_ok hc
      | .alterModel s n k, h2, hl =>
        refine weaken (alterModel_ok h1 hc) fun h => .inl ?_
        cases k with
        | add es => exact h
        | update es => exact h
        | remove ns => exact h
      | .dropModel s n fo f, h2, hl => exact dropModel_ok hc
      | .createUser n o, h2, hl => exact createUser_ok hc
      | .alterUser n o, h2, hl => exact alterUser_ok hc
      | .dropUser n, h2, hl => exact dropUser_ok hc
    · exact .reply hc fun _ => rfl
  | initRoot h =>
    simp only [Op.run]
    split
    · rename_i x hx
      exact .reply hc fun hn => absurd (.inr ⟨x, hx⟩) hn
    · rename_i hx
      refine ⟨users_consistent hc _, fun h => (by cases h), fun _ h => h, fun _ => rfl, ?_⟩
      intro e he
      cases he
      refine ⟨True.intro, fun t r hr => ?_⟩
      have ha : apply r (.createUser ROOT h) = .ok { r with users := upd r.users ROOT (some h) } := by
        simp only [apply, hr.users, hx]
      exact ⟨_, ha, hr.models, by simp [hr.users], hr.spaces⟩
  | setRoot h =>
    simp only [Op.run]
    split
    · rename_i hx
      refine ⟨users_consistent hc _, fun h => (by cases h), fun _ h => h, fun _ => rfl, ?_⟩
      intro e he
      cases he
      refine ⟨True.intro, fun t r hr => ?_⟩
      have ha : apply r (.alterUser ROOT h) = .ok { r with users := upd r.users ROOT (some h) } := by
        simp only [apply, hr.users, hx]
      exact ⟨_, ha, hr.models, by simp [hr.users], hr.spaces⟩
    · exact .reply hc fun _ => rfl

end Verif.Gns
