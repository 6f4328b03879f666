import Verif.Gns.Restart
/-!
C09 (a restart rebuilds the catalogue), C35 (the catalogue stays consistent), C28 (only root changes the
catalogue), C29 (the root account), C44 (changing the password of a user).
-/
namespace Verif.Gns
open Verif.Enc (DVal Dict Uuid SpaceId ModelId Layout Fields Event)

/-! ### A server and its clients, for the examples -/

/-- The root client. -/
def rootClient : Client := ⟨ROOT, true⟩
/-- Everything works. -/
def fine (n : Fin 256) : World := ⟨true, true, ⟨n.val, by have := n.isLt; omega⟩, [1, 2, 3], true⟩
/-- The commit to the log fails. -/
def broken : World := { fine 0 with commitOk := false }
/-- A statement of root. -/
def rootDoes (w : World) (s : Stmt) : Op := .stmt id rootClient w s

/-- `primary id: uint64, name: string` -/
def exFields : List FieldSpec :=
  [⟨"id", [⟨encStr "uint64", true⟩], false, true⟩, ⟨"name", [⟨encStr "string", true⟩], true, false⟩]

/-- First session of the example: a space with a model, one column more, and a user. -/
def exDay1 : List Op :=
  [.initRoot [9],
   rootDoes (fine 1) (.createSpace "s" [(ENV, .map [("a", .data (.uint .uint64 1))])] false),
   rootDoes (fine 2) (.createModel "s" "m" exFields [] false),
   rootDoes (fine 3) (.alterModel "s" "m" (.add [⟨"age", [⟨encStr "uint8", true⟩], []⟩])),
   rootDoes (fine 4) (.createUser "u" [("password", .data (.str "secret"))])]

/-- Second session: root has a new password, one key is removed, a column is dropped, one statement fails. -/
def exDay2 : List Op :=
  [.setRoot [10],
   rootDoes (fine 5) (.alterSpace "s" [(ENV, .map [("a", .data .null), ("b", .data (.bool true))])]),
   rootDoes (fine 6) (.alterModel "s" "m" (.remove ["name"])),
   rootDoes broken (.dropModel "s" "m" false false),
   rootDoes (fine 7) (.dropUser "u")]

theorem exDays_ok : ∀ s ∈ [exDay1, exDay2], ∀ o ∈ s, o.ok ∧ ¬ o.lostDrop := by
  have hd : ∀ (w : World) (s : Stmt), StmtOk s → (rootDoes w s).ok :=
    fun _ _ h => ⟨fun fs => List.Perm.refl fs, h⟩
  intro s hs o ho
  simp only [List.mem_cons, List.not_mem_nil, or_false] at hs
  rcases hs with rfl | rfl <;> simp only [exDay1, exDay2, List.mem_cons, List.not_mem_nil, or_false] at ho <;>
    rcases ho with rfl | rfl | rfl | rfl | rfl <;>
    refine ⟨by first | exact True.intro | exact hd _ _ True.intro | exact hd _ _ (by simp [StmtOk, Distinct, DistinctVal, Typed, TypedVal, TypedCell, get, Tag.cls]), fun h => by cases h⟩

/-! ### C09 -/

theorem payload_bound {ess : List (List Event)} {n : Nat}
    (h : Journal.sizeBound (ess.map (·.map toEv)) < n) : ∀ e ∈ ess.flatten, e.encode.length < n := by
  intro e he
  obtain ⟨es, hes, he⟩ := List.mem_flatten.1 he
  have sum_le : ∀ {l : List Nat} {x : Nat}, x ∈ l → x ≤ l.sum := by
    intro l
    induction l with
    | nil => intro x hx; cases hx
    | cons y l ih =>
      intro x hx
      rw [List.sum_cons]
      rcases List.mem_cons.1 hx with rfl | hx
      · omega
      · have := ih hx; omega
  have h1 : 40 + e.encode.length ≤ ((es.map toEv).map fun e => 40 + e.payload.length).sum :=
    sum_le (List.mem_map.2 ⟨toEv e, List.mem_map.2 ⟨e, he, rfl⟩, rfl⟩)
  have h2 : 128 + ((es.map toEv).map fun e => 40 + e.payload.length).sum ≤
      ((ess.map (·.map toEv)).map fun s => 128 + (s.map fun e => 40 + e.payload.length).sum).sum :=
    sum_le (List.mem_map.2 ⟨es.map toEv, List.mem_map.2 ⟨es, hes, rfl⟩, rfl⟩)
  rw [Journal.sizeBound] at h
  omega

theorem code_lt (e : Event) : e.code < 11 := by cases e <;> simp [Event.code]

/-- **C09, partial.** Take any history of a server: sessions of statements of any clients, with clean
shutdowns and starts between them, in which any commit and any creation of a file may fail. Every start
succeeds, and after the last session the log on disk opens and gives a catalogue with exactly the same
models (with their columns in the same order, primary keys and schema versions), the same users, and the
same spaces with the same models and properties.

Missing (`C09_env_null_violated`, `C09_failed_drop_violated`): the properties of a space whose `env` was
once set to null are empty after the restart; histories in which the commit of a forced `DROP SPACE`
fails are excluded. The size bound is that of C01, with 2^62. -/
theorem C09_restart_rebuilds_the_catalogue_partial {ss : List (List Op)} (hne : ss ≠ [])
    (ho : ∀ s ∈ ss, ∀ o ∈ s, o.ok ∧ ¬ o.lostDrop) :
    ∃ c first rest, life [] Cat.empty ss = some (c, first :: rest) ∧ (first :: rest).length = ss.length ∧
      ∀ hdr : Bytes, hdr.length = 64 →
      Journal.sizeBound ((first :: rest).map (·.map toEv)) + 64 < 2 ^ 62 →
      ∃ file w r,
        Journal.lifetime (Journal.eventLogDecode 11 gnsApply) Cat.empty hdr (first.map toEv)
          (rest.map (·.map toEv)) = some file ∧
        Journal.openJournal (Journal.eventLogDecode 11 gnsApply) Cat.empty file [] = .ok (w, r) ∧
        Rebuilt (cleared (first :: rest).flatten) c r := by
  obtain ⟨c, ess, r, h1, h2, h3, h4, -, h6, h7⟩ := life_ok (log := []) hne Cat.empty_consistent
    ⟨Cat.empty, rfl, rfl, rfl, fun _ => .none⟩ (by simp) ho
  cases ess with
  | nil =>
    simp only [List.length_nil] at h2
    exact absurd (List.length_eq_zero_iff.1 h2.symm) hne
  | cons first rest =>
    refine ⟨c, first, rest, h1, h2, fun hdr hh hsz => ?_⟩
    have hwf : ∀ e ∈ (first :: rest).flatten, Enc.WfEvent e := fun e he =>
      wf_event e (h4 e (by simpa using he)) (payload_bound (n := 2 ^ 62) (by omega) e he)
    have hrep := replay_of_applyAll (by simpa using h6) hwf
    have hflat : ((first :: rest).map (·.map toEv)).flatten = (first :: rest).flatten.map toEv := by
      rw [List.map_flatten]
    rw [← hflat] at hrep
    obtain ⟨file, w, hf, ho⟩ := Journal.C01_clean_restart (apply := gnsApply) (kinds := 11) (hdr := hdr)
      (first := first.map toEv) (rest := rest.map (·.map toEv)) (by omega) hh
      (by
        intro s hs e he
        have hs : s ∈ (first :: rest).map (·.map toEv) := hs
        obtain ⟨es, _, rfl⟩ := List.mem_map.1 hs
        obtain ⟨x, _, rfl⟩ := List.mem_map.1 he
        exact code_lt x)
      (by
        have : (2 : Nat) ^ 62 < 2 ^ 63 := by decide
        exact Nat.lt_trans hsz this)
      hrep
    exact ⟨file, w, r, hf, ho, by simpa using h7⟩

/-- If no space had its `env` set to null, the rebuilt spaces have the same properties. -/
theorem C09_without_null_env_partial {t : String → Bool} {c r : Cat} (h : Rebuilt t c r) {n : String}
    (ht : t n = false) :
    (c.spaces n = none ∧ r.spaces n = none) ∨
    ∃ s s', c.spaces n = some s ∧ r.spaces n = some s' ∧ s'.uuid = s.uuid ∧ s'.models = s.models ∧
      Same s.props s'.props := by
  have hs := h.spaces n
  generalize c.spaces n = a at hs
  generalize r.spaces n = b at hs
  cases hs with
  | none => exact .inl ⟨rfl, rfl⟩
  | some hp =>
    rw [ht] at hp
    exact .inr ⟨_, _, rfl, rfl, rfl, rfl, hp.1⟩

/-- The example history: the start between the sessions succeeds, the model has its two columns, and no
`env` was cleared. -/
example : ∃ c ess, life [] Cat.empty [exDay1, exDay2] = some (c, ess) ∧
    (c.models "s" "m").map (fun m => m.fields.map (·.1)) = some ["id", "age"] ∧
    (c.models "s" "m").map (·.version) = some 2 ∧ c.users "u" = none ∧ c.users ROOT = some [10] ∧
    cleared ess.flatten "s" = false ∧ ess.map (·.length) = [5, 4] ∧
    Journal.sizeBound (ess.map (·.map toEv)) + 64 < 2 ^ 62 := by
  refine ⟨_, _, rfl, ?_⟩
  decide +kernel

/-- The history of the first violation: `env` is set to null and then set again. -/
def exNullEnv : List Op :=
  [.initRoot [9],
   rootDoes (fine 1) (.createSpace "s" [] false),
   rootDoes (fine 2) (.alterSpace "s" [(ENV, .data .null)]),
   rootDoes (fine 3) (.alterSpace "s" [(ENV, .map [("a", .data (.bool true))])])]

/-- The value of a key under `env`, if it is a Boolean. -/
def envBool (c : Cat) (s k : String) : Option Bool :=
  match c.spaces s with
  | none => none
  | some s =>
    match get s.props ENV with
    | some (.map m) =>
      match get m k with
      | some (.data (.bool b)) => some b
      | _ => none
    | _ => none

/-- **C09 is violated.** `alter space s with {env: null}` followed by `{env: {a: true}}`: both are
acknowledged and `a` is set in the live space; after a clean restart it is gone. -/
theorem C09_env_null_violated :
    ∃ c es, life [] Cat.empty [exNullEnv] = some (c, [es]) ∧ envBool c "s" "a" = some true ∧
      ∀ hdr : Bytes, hdr.length = 64 → ∃ file w r,
        Journal.lifetime (Journal.eventLogDecode 11 gnsApply) Cat.empty hdr (es.map toEv) [] = some file ∧
        Journal.openJournal (Journal.eventLogDecode 11 gnsApply) Cat.empty file [] = .ok (w, r) ∧
        envBool r "s" "a" = none := by
  have hok : ∀ s ∈ [exNullEnv], ∀ o ∈ s, o.ok ∧ ¬ o.lostDrop := by
    intro s hs o ho
    simp only [List.mem_cons, List.not_mem_nil, or_false] at hs
    subst hs
    simp only [exNullEnv, List.mem_cons, List.not_mem_nil, or_false] at ho
    rcases ho with rfl | rfl | rfl | rfl <;>
      refine ⟨by first | exact True.intro | exact ⟨fun fs => List.Perm.refl fs, by simp [StmtOk, Distinct, DistinctVal, Typed, TypedVal, TypedCell, get]⟩, fun h => by cases h⟩
  obtain ⟨c, first, rest, h1, h2, h3⟩ := C09_restart_rebuilds_the_catalogue_partial (by simp) hok
  have hr : rest = [] := by
    cases rest with
    | nil => rfl
    | cons => simp at h2
  subst hr
  have hc : (life [] Cat.empty [exNullEnv]).map (fun (c, ess) => (envBool c "s" "a", cleared ess.flatten "s",
      decide (Journal.sizeBound (ess.map (·.map toEv)) + 64 < 2 ^ 62))) = some (some true, true, true) := by
    decide +kernel
  rw [h1] at hc
  simp only [Option.map_some, Option.some.injEq, Prod.mk.injEq, decide_eq_true_eq] at hc
  refine ⟨c, first, h1, hc.1, fun hdr hh => ?_⟩
  obtain ⟨file, w, r, a, b, d⟩ := h3 hdr hh hc.2.2
  refine ⟨file, w, r, a, b, ?_⟩
  have hs := d.spaces "s"
  rw [hc.2.1] at hs
  rw [envBool]
  generalize c.spaces "s" = x at hs
  generalize r.spaces "s" = y at hs
  cases hs with
  | none => rfl
  | some hp =>
    rename_i p q
    have : get q ENV = none := hp ENV
    simp only [this]

/-- The history of the second violation: the commit of a forced `DROP SPACE` fails. -/
def exLostDrop : List Op :=
  [.initRoot [9],
   rootDoes (fine 1) (.createSpace "s" [] false),
   rootDoes (fine 2) (.createModel "s" "m" exFields [] false),
   rootDoes broken (.dropSpace "s" true false)]

/-- **C09 is violated.** The statement was answered with an error, but the space is gone until the next
start, which brings it back. -/
theorem C09_failed_drop_violated :
    ∃ c es r, session Cat.empty exLostDrop = (c, es) ∧ applyAll Cat.empty es = .ok r ∧
      (c.spaces "s").isNone = true ∧ (r.spaces "s").isSome = true := by
  refine ⟨_, _, _, rfl, rfl, ?_⟩
  decide +kernel

/-! ### C35 -/

/-- **C35, partial.** After any history (sessions of any statements, any failures, any starts in between)
every model is listed by its existing space, every listed model exists, every model has distinct columns
of well-formed types and its primary key is one of them, of a permitted type. Missing: the exclusion of
failed forced `DROP SPACE` (`C35_failed_drop_violated`). -/
theorem C35_consistent_partial {ss : List (List Op)} {c : Cat} {ess : List (List Event)}
    (ho : ∀ s ∈ ss, ∀ o ∈ s, o.ok ∧ ¬ o.lostDrop) (h : life [] Cat.empty ss = some (c, ess)) :
    Consistent c := by
  by_cases hne : ss = []
  · subst hne
    cases h
    exact Cat.empty_consistent
  · obtain ⟨c', ess', r, h1, -, h3, -⟩ := life_ok (log := []) hne Cat.empty_consistent
      ⟨Cat.empty, rfl, rfl, rfl, fun _ => .none⟩ (by simp) ho
    rw [h] at h1
    cases h1
    exact h3

/-- **C35, partial.** Primary keys are never nullable. Missing: the exclusion of `CREATE MODEL` without a
`primary` column whose first column is marked null (`C35_nullable_primary_key_violated`). -/
theorem C35_primary_keys_not_null_partial {ss : List (List Op)} {c : Cat} {ess : List (List Event)}
    (ho : ∀ s ∈ ss, ∀ o ∈ s, o.ok ∧ ¬ o.lostDrop) (hn : ∀ s ∈ ss, ∀ o ∈ s, ¬ o.nullKey)
    (h : life [] Cat.empty ss = some (c, ess)) : KeysNonNull c := by
  have hk : KeysNonNull Cat.empty := fun _ _ _ h => by cases h
  by_cases hne : ss = []
  · subst hne
    cases h
    exact hk
  · obtain ⟨c', ess', r, h1, -, -, -, h5, -⟩ := life_ok (log := []) hne Cat.empty_consistent
      ⟨Cat.empty, rfl, rfl, rfl, fun _ => .none⟩ (by simp) ho
    rw [h] at h1
    cases h1
    exact h5 hn hk

/-- **C35, partial.** In a consistent catalogue every statement returns; none aborts. Missing: the
exclusion of `nullable: null` (`C35_null_nullable_violated`). A statement that is not acknowledged
changes nothing. -/
theorem C35_statements_return_partial {c : Cat} (hc : Consistent c) {perm : Fields → Fields} {u : Client}
    {w : World} {s : Stmt} (ho : (Op.stmt perm u w s).ok) (hl : ¬ (Op.stmt perm u w s).lostDrop)
    (hn : ¬ (Op.stmt perm u w s).nullNullable) :
    (exec perm u c w s).reply.returns = true ∧
    ((exec perm u c w s).ev = none → (exec perm u c w s).cat = c) ∧
    Consistent (exec perm u c w s).cat := by
  have h := step_ok (.stmt perm u w s) hc ho hl
  have hn' : ¬ ((Op.stmt perm u w s).nullNullable ∨ Op.secondRoot c (.stmt perm u w s)) := by
    rintro (h | h)
    · exact hn h
    · exact h
  exact ⟨h.returns hn', h.keep, h.cons⟩

example : (∀ s ∈ [exDay1, exDay2], ∀ o ∈ s, ¬ o.nullKey) ∧
    (life [] Cat.empty [exDay1, exDay2]).isSome = true := by
  refine ⟨?_, by decide +kernel⟩
  intro s hs o ho
  simp only [List.mem_cons, List.not_mem_nil, or_false] at hs
  rcases hs with rfl | rfl <;> simp only [exDay1, exDay2, List.mem_cons, List.not_mem_nil, or_false] at ho <;>
    rcases ho with rfl | rfl | rfl | rfl | rfl <;> intro h <;>
    first | cases h; done | exact absurd (And.left (show NullKey exFields from h) _ (List.mem_cons_self ..)) (by simp)

/-- **C35.** `IF NOT EXISTS` and `IF EXISTS` turn the error about an object that is there, or is missing, into the answer `false`;
with or without them, nothing is changed and nothing is written to the log. When the object is made or removed the answer is `true` with
them and empty without. -/
theorem C35_if_exists {c : Cat} {perm : Fields → Fields} {u : Client} (hu : u.root = true) (w : World) (flag : Bool) :
    (∀ n p, (c.spaces n).isSome = true → (createProps p).isSome = true →
      exec perm u c w (.createSpace n p flag) = ⟨c, if flag = true then .ok (some false) else .err .alreadyExists, none⟩) ∧
    (∀ n force, (c.spaces n).isNone = true →
      exec perm u c w (.dropSpace n force flag) = ⟨c, if flag = true then .ok (some false) else .err .notFound, none⟩) ∧
    (∀ sp n force s, c.spaces sp = some s → n ∉ s.models →
      exec perm u c w (.dropModel sp n force flag) = ⟨c, if flag = true then .ok (some false) else .err .notFound, none⟩) ∧
    (∀ n p, (c.spaces n).isNone = true → (createProps p).isSome = true → w.initOk = true → w.commitOk = true →
      (exec perm u c w (.createSpace n p flag)).reply = .ok (if flag = true then some true else none)) ∧
    (∀ n s, c.spaces n = some s → s.models = [] → w.commitOk = true →
      (exec perm u c w (.dropSpace n false flag)).reply = .ok (if flag = true then some true else none)) := by
  refine ⟨fun n p h1 h2 => ?_, fun n force h => ?_, fun sp n force s h1 h2 => ?_, fun n p h1 h2 h3 h4 => ?_, fun n s h1 h2 h3 => ?_⟩
  · obtain ⟨x, hx⟩ := Option.isSome_iff_exists.1 h1
    obtain ⟨y, hy⟩ := Option.isSome_iff_exists.1 h2
    cases flag <;> simp [exec, hu, execCreateSpace, hx, hy, Cat.reply, skipReply]
  · rw [Option.isNone_iff_eq_none] at h
    cases flag <;> cases force <;> simp [exec, hu, execDropSpace, execDropSpaceForce, h, Cat.reply, skipReply]
  · cases flag <;> simp [exec, hu, execDropModel, h1, h2, Cat.reply, skipReply]
  · rw [Option.isNone_iff_eq_none] at h1
    obtain ⟨y, hy⟩ := Option.isSome_iff_exists.1 h2
    cases flag <;> simp [exec, hu, execCreateSpace, h1, hy, h3, h4, Cat.commit, okReply]
  · cases flag <;> simp [exec, hu, execDropSpace, h1, h2, h3, Cat.commit, okReply]

/-- A space that is there, and one that is not. -/
example : ((session Cat.empty [rootDoes (fine 1) (.createSpace "s" [] false)]).1.spaces "s").isSome = true ∧
    ((session Cat.empty [rootDoes (fine 1) (.createSpace "s" [] false)]).1.spaces "t").isNone = true ∧
    (createProps []).isSome = true := by decide +kernel

/-- **C35 is violated.** After a failed forced `DROP SPACE` the model has no space, and the next
`ALTER MODEL` on it aborts. -/
theorem C35_failed_drop_violated :
    ∃ c es, session Cat.empty exLostDrop = (c, es) ∧ (c.models "s" "m").isSome = true ∧
      (c.spaces "s").isNone = true ∧
      (exec id rootClient c (fine 3) (.alterModel "s" "m" (.remove ["name"]))).reply = .panic := by
  refine ⟨_, _, rfl, ?_⟩
  decide +kernel

/-- `null id: uint64, name: string` -/
def exNullKey : List FieldSpec :=
  [⟨"id", [⟨encStr "uint64", true⟩], true, false⟩, ⟨"name", [⟨encStr "string", true⟩], false, false⟩]

/-- **C35 is violated.** A model whose first column is marked null, without a `primary` column: the
statement is accepted and the primary key is nullable. -/
theorem C35_nullable_primary_key_violated :
    ∃ c es, session Cat.empty
        [rootDoes (fine 1) (.createSpace "s" [] false),
         rootDoes (fine 2) (.createModel "s" "m" exNullKey [] false)] = (c, es) ∧
      (c.models "s" "m").map (fun m => (m.pk, (fget m.fields m.pk).map (·.nullable))) =
        some ("id", some true) := by
  refine ⟨_, _, rfl, ?_⟩
  decide +kernel

/-- **C35 is violated.** `alter model s.m add x { type: string, nullable: null }` aborts. -/
theorem C35_null_nullable_violated :
    ∃ c es, session Cat.empty exDay1 = (c, es) ∧
      (exec id rootClient c (fine 9) (.alterModel "s" "m"
        (.add [⟨"x", [⟨encStr "string", true⟩], [("nullable", .data .null)]⟩]))).reply = .panic := by
  refine ⟨_, _, rfl, ?_⟩
  decide +kernel

/-! ### C28 -/

/-- **C28, partial.** A DDL or user statement of a client that is not root has no effect on the catalogue
or the log. Missing: the statements that are not DDL, and the way from the text to the statement. -/
theorem C28_only_root_partial (perm : Fields → Fields) {u : Client} (hu : u.root = false) (c : Cat) (w : World)
    (s : Stmt) : exec perm u c w s = ⟨c, .err .permDenied, none⟩ := by
  rw [exec.eq_def, if_neg (by simp [hu])]
  rfl

/-- The same statement of root does have an effect. -/
example : ((exec id rootClient Cat.empty (fine 1) (.createSpace "s" [] false)).cat.spaces "s").isSome = true ∧
    ((exec id ⟨"u", false⟩ Cat.empty (fine 1) (.createSpace "s" [] false)).cat.spaces "s").isSome = false := by
  decide +kernel

/-! ### C29 -/

/-- `VerifyUser` (`core/system_db.rs:59-64`). -/
inductive Verify where
  | notFound | incorrect | okay | okayRoot
  deriving DecidableEq, Repr

/-- `verify_user` (`core/system_db.rs:82-104`). `check password hash` is `rcrypt::verify`; its error (a
malformed hash) is a panic in the code and does not occur for hashes made by `rcrypt::hash`. -/
def verifyUser (check : Bytes → Bytes → Bool) (c : Cat) (name : String) (password : Bytes) : Verify :=
  match c.users name with
  | none => .notFound
  | some h =>
    if password.isEmpty then .incorrect
    else if check password h then (if name = ROOT then .okayRoot else .okay)
    else .incorrect

/-- The end of the handshake (`net/protocol/mod.rs:292-315`): the state of the new client, or `none` for
`RejectAuth`. -/
def login (check : Bytes → Bytes → Bool) (c : Cat) (name password : Bytes) : Option Client :=
  match decStr name with
  | none => none
  | some n =>
    match verifyUser check c n password with
    | .okay => some ⟨n, false⟩
    | .okayRoot => some ⟨n, true⟩
    | .incorrect => none
    | .notFound => none

/-- **C29.** A login succeeds exactly for the name of an existing account with a non-empty password that
matches the stored hash, and gives root rights exactly to the account `root`. -/
theorem C29_login_exact (check : Bytes → Bytes → Bool) (c : Cat) (name password : Bytes) (u : Client) :
    login check c name password = some u ↔
      decStr name = some u.name ∧ u.root = decide (u.name = ROOT) ∧
      ∃ h, c.users u.name = some h ∧ password ≠ [] ∧ check password h = true := by
  obtain ⟨un, ur⟩ := u
  rw [login]
  split
  · rename_i h; simp [h]
  · rename_i n h
    rw [h]
    simp only [Option.some.injEq, verifyUser]
    constructor
    · intro hl
      split at hl
      · rename_i hv
        split at hv
        · cases hv
        · rename_i hh hu
          cases hl
          split at hv
          · cases hv
          · rename_i hp
            split at hv
            · rename_i hck
              split at hv
              · cases hv
              · rename_i hr
                exact ⟨rfl, by simp [hr], hh, hu, by simpa using hp, hck⟩
            · cases hv
      · rename_i hv
        split at hv
        · cases hv
        · rename_i hh hu
          cases hl
          split at hv
          · cases hv
          · rename_i hp
            split at hv
            · rename_i hck
              split at hv
              · rename_i hr
                exact ⟨rfl, by simp [hr], hh, hu, by simpa using hp, hck⟩
              · cases hv
            · cases hv
      · cases hl
      · cases hl
    · rintro ⟨hn, hr, hh, hu, hp, hck⟩
      subst hn
      have hr2 : ur = decide (n = ROOT) := hr
      clear hr
      subst hr2
      rw [hu]
      simp only [hck, if_true]
      rw [if_neg (by simpa using hp)]
      by_cases h : n = ROOT <;> simp [h]

/-- All statements come from clients that logged in: the root clients are those named `root`. -/
def Op.authentic : Op → Prop
  | .stmt _ u _ _ => u.root = decide (u.name = ROOT)
  | _ => True

/-- The hash of root's password after a sequence of steps: the one given in the configuration. -/
def rootHash (h : Bytes) : List Op → Bytes
  | [] => h
  | .setRoot h' :: os => rootHash h' os
  | _ :: os => rootHash h os

theorem root_stmt {perm : Fields → Fields} {u : Client} {c : Cat} {w : World} {s : Stmt} {h : Bytes}
    (hu : u.root = decide (u.name = ROOT)) (hc : c.users ROOT = some h) :
    (exec perm u c w s).cat.users ROOT = some h := by
  have reply : ∀ r, (c.reply r).cat.users ROOT = some h := fun r => hc
  have commit : ∀ e (n : Cat) r, n.users ROOT = some h → (c.commit w e n r).cat.users ROOT = some h := by
    intro e n r hn
    rw [Cat.commit]
    split
    · exact hn
    · exact hc
  rw [exec.eq_def]
  split
  · rename_i hroot
    have hname : u.name = ROOT := by simpa [hroot] using hu.symm
    split
    · rw [execCreateSpace]
      repeat' split
      all_goals first | exact reply _ | exact commit _ _ _ hc
    · rw [execAlterSpace]
      repeat' split
      all_goals first | exact reply _ | exact hc
    · rw [execDropSpaceForce]
      split
      · exact reply _
      · dsimp only
        repeat' split
        all_goals first | exact reply _ | exact hc
    · rw [execDropSpace]
      repeat' split
      all_goals first | exact reply _ | exact commit _ _ _ hc
    · rw [execCreateModel]
      repeat' split
      all_goals first | exact reply _ | exact commit _ _ _ hc
    · rw [execAlterModel]
      repeat' split
      all_goals first | exact reply _ | exact commit _ _ _ hc
    · rw [execDropModel]
      repeat' split
      all_goals first | exact reply _ | exact commit _ _ _ hc
    · rw [execCreateUser]
      split
      · split
        · exact reply _
        · rename_i n _ _ _ hx
          refine commit _ _ _ ?_
          show upd c.users n _ ROOT = _
          rw [upd, if_neg]
          · exact hc
          · rintro rfl; rw [hc] at hx; cases hx
      · exact reply _
    · rw [execAlterUser, if_pos hroot]
      exact reply _
    · rw [execDropUser]
      split
      · exact reply _
      · rename_i n hx
        split
        · refine commit _ _ _ ?_
          show upd c.users n _ ROOT = _
          rw [upd, if_neg]
          · exact hc
          · rintro rfl; exact hx hname
        · exact reply _
  · exact hc

theorem root_session : ∀ {os : List Op} {c c' : Cat} {es : List Event} {h : Bytes},
    session c os = (c', es) → (∀ o ∈ os, o.authentic) → c.users ROOT = some h →
    c'.users ROOT = some (rootHash h os)
  | [], c, c', es, h, hs, _, hc => by cases hs; exact hc
  | o :: os, c, c', es, h, hs, ha, hc => by
    rw [session] at hs
    generalize hx : session (o.run c).cat os = x at hs
    obtain ⟨c1, es1⟩ := x
    simp only [Prod.mk.injEq] at hs
    obtain ⟨rfl, rfl⟩ := hs
    have ha' : ∀ o ∈ os, o.authentic := fun o ho => ha o (List.mem_cons_of_mem _ ho)
    cases o with
    | stmt perm u w s => exact root_session (os := os) hx ha' (root_stmt (ha (.stmt perm u w s) (by simp)) hc)
    | initRoot h' =>
      have : (Op.run c (.initRoot h')).cat = c := by rw [Op.run, hc]; rfl
      rw [this] at hx
      exact root_session (os := os) hx ha' hc
    | setRoot h' =>
      refine root_session (os := os) (h := h') hx ha' ?_
      rw [Op.run, hc]
      simp [upd]

theorem root_life : ∀ {ss : List (List Op)} {log : List Event} {c c' : Cat} {ess : List (List Event)}
    {h : Bytes}, life log c ss = some (c', ess) → Consistent c →
    (∃ r, applyAll Cat.empty log = .ok r ∧ Rebuilt (cleared log) c r) →
    (∀ s ∈ ss, ∀ o ∈ s, o.ok ∧ ¬ o.lostDrop) → (∀ s ∈ ss, ∀ o ∈ s, o.authentic) →
    c.users ROOT = some h → c'.users ROOT = some (rootHash h ss.flatten)
  | [], log, c, c', ess, h, hl, _, _, _, _, hc => by cases hl; exact hc
  | s :: ss, log, c, c', ess, h, hl, hcon, ⟨r, hr1, hr2⟩, ho, ha, hc => by
    have append : ∀ (a b : List Op) (h : Bytes), rootHash h (a ++ b) = rootHash (rootHash h a) b := by
      intro a b
      induction a with
      | nil => intro h; rfl
      | cons o a ih => intro h; cases o <;> exact ih _
    rw [life] at hl
    generalize hx : session c s = x at hl
    obtain ⟨c1, es⟩ := x
    simp only at hl
    have h1 := root_session hx (ha s (by simp)) hc
    obtain ⟨i1, -, -, i4⟩ := session_ok hx hcon (ho s (by simp))
    obtain ⟨r1, a1, a2⟩ := i4 _ r hr2
    rw [← cleared_append] at a2
    have happ := applyAll_append hr1 a1
    split at hl
    · rename_i he
      cases hl
      have : ss = [] := by simpa using he
      subst this
      simpa using h1
    · rw [happ] at hl
      simp only at hl
      obtain ⟨⟨c2, ess2⟩, hl2, hx2⟩ := Option.map_eq_some_iff.1 hl
      cases hx2
      have := root_life hl2 (a2.consistent i1) ⟨r1, happ, a2.restart⟩
        (fun x hx => ho x (List.mem_cons_of_mem _ hx)) (fun x hx => ha x (List.mem_cons_of_mem _ hx))
        (by rw [a2.users]; exact h1)
      rw [List.flatten_cons, append]
      exact this

/-- **C29.** In a new installation with root password hash `h`, after any history of statements of clients
that logged in, failures and restarts, the root account exists, and its password hash is the one that was
last given in the configuration: no statement changes it. (The two excluded histories of C35 are not about
users; `C29_session` has no exclusions.) -/
theorem C29_root_survives {h : Bytes} {first : List Op} {rest : List (List Op)} {c : Cat}
    {ess : List (List Event)} (hl : life [] Cat.empty ((.initRoot h :: first) :: rest) = some (c, ess))
    (ho : ∀ s ∈ first :: rest, ∀ o ∈ s, o.ok ∧ ¬ o.lostDrop)
    (ha : ∀ s ∈ first :: rest, ∀ o ∈ s, o.authentic) :
    c.users ROOT = some (rootHash h (first :: rest).flatten) := by
  have hsplit : ∀ p : Op → Prop, p (.initRoot h) → (∀ s ∈ first :: rest, ∀ o ∈ s, p o) →
      ∀ s ∈ (.initRoot h :: first) :: rest, ∀ o ∈ s, p o := by
    intro p h0 hp s hs o ho
    rcases List.mem_cons.1 hs with rfl | hs
    · rcases List.mem_cons.1 ho with rfl | ho
      · exact h0
      · exact hp first (by simp) o ho
    · exact hp s (List.mem_cons_of_mem _ hs) o ho
  have ho' := hsplit (fun o => o.ok ∧ ¬ o.lostDrop) ⟨True.intro, id⟩ ho
  have ha' := hsplit Op.authentic True.intro ha
  -- the first session
  rw [life] at hl
  generalize hx : session Cat.empty (.initRoot h :: first) = x at hl
  obtain ⟨c1, es⟩ := x
  simp only at hl
  have hroot : c1.users ROOT = some (rootHash h first) := by
    rw [session] at hx
    generalize hy : session (Op.run Cat.empty (.initRoot h)).cat first = y at hx
    obtain ⟨c2, es2⟩ := y
    simp only [Prod.mk.injEq] at hx
    obtain ⟨rfl, -⟩ := hx
    exact root_session hy (ha first (by simp)) (by simp [Op.run, Cat.empty, upd])
  obtain ⟨i1, -, -, i4⟩ := session_ok hx Cat.empty_consistent (ho' _ (by simp))
  obtain ⟨r1, a1, a2⟩ := i4 _ Cat.empty (⟨rfl, rfl, fun _ => .none⟩ : Rebuilt (cleared []) _ _)
  have append : ∀ (a b : List Op) (h : Bytes), rootHash h (a ++ b) = rootHash (rootHash h a) b := by
    intro a b
    induction a with
    | nil => intro h; rfl
    | cons o a ih => intro h; cases o <;> exact ih _
  split at hl
  · rename_i he
    cases hl
    have : rest = [] := by simpa using he
    subst this
    simpa using hroot
  · rw [List.nil_append, a1] at hl
    simp only at hl
    obtain ⟨⟨c2, ess2⟩, hl2, hx2⟩ := Option.map_eq_some_iff.1 hl
    cases hx2
    rw [List.flatten_cons, append]
    exact root_life hl2 (a2.consistent i1) ⟨r1, a1, a2.restart⟩
      (fun x hx => ho x (List.mem_cons_of_mem _ hx)) (fun x hx => ha x (List.mem_cons_of_mem _ hx))
      (by rw [a2.users]; exact hroot)

/-- **C29** within one session, for any catalogue and any statements at all. -/
theorem C29_session {os : List Op} {c c' : Cat} {es : List Event} {h : Bytes}
    (hs : session c os = (c', es)) (ha : ∀ o ∈ os, o.authentic) (hc : c.users ROOT = some h) :
    c'.users ROOT = some (rootHash h os) := root_session hs ha hc

/-- Attempts to drop, to replace and to change the root account: all refused. -/
example : (session Cat.empty [.initRoot [9], rootDoes (fine 1) (.dropUser ROOT),
      rootDoes (fine 2) (.createUser ROOT [("password", .data (.str "x"))]),
      rootDoes (fine 3) (.alterUser ROOT [("password", .data (.str "x"))]),
      .stmt id ⟨"u", false⟩ (fine 4) (.dropUser ROOT)]).1.users ROOT = some [9] ∧
    login (fun p h => p == h) ⟨fun _ => none, fun _ _ => none, fun n => if n = ROOT then some [9] else none⟩
      (encStr "root") [9] = some ⟨"root", true⟩ := by
  decide +kernel

/-- A client that is not what `login` makes could remove the account, so the hypothesis matters. -/
example : (session Cat.empty [.initRoot [9], .stmt id ⟨"u", true⟩ (fine 4) (.dropUser ROOT)]).1.users ROOT = none := by
  decide +kernel

/-! ### C44 -/

/-- **C44 is violated.** `sysctl alter user` never succeeds: root is refused with an authentication
error and everyone else with a permission error; the password stays as it was. -/
theorem C44_alter_user_never_works_violated (perm : Fields → Fields) (u : Client) (c : Cat) (w : World)
    (n : String) (o : Dict) :
    (exec perm u c w (.alterUser n o)).cat = c ∧ (exec perm u c w (.alterUser n o)).ev = none ∧
    (exec perm u c w (.alterUser n o)).reply = .err (if u.root then .authError else .permDenied) := by
  rw [exec.eq_def]
  cases h : u.root with
  | true =>
    rw [if_pos rfl]
    simp only [execAlterUser]
    exact ⟨rfl, rfl, rfl⟩
  | false => exact ⟨rfl, rfl, rfl⟩

/-- **C44, partial.** What does work is to drop the user and to create it again: then the new password,
and only it, is stored. Missing: the account does not exist in between, and if the second commit fails it
is lost. -/
theorem C44_drop_and_create_partial (perm : Fields → Fields) {c : Cat} {w w' : World} {n : String} {old : Bytes}
    {pass : String} (hn : n ≠ ROOT) (hu : c.users n = some old) (hw : w.commitOk = true)
    (hw' : w'.commitOk = true) :
    let c1 := (exec perm rootClient c w (.dropUser n)).cat
    let o := exec perm rootClient c1 w' (.createUser n [("password", .data (.str pass))])
    c1.users n = none ∧ o.reply = .ok none ∧ o.cat.users n = some w'.hash := by
  have h1 : (exec perm rootClient c w (.dropUser n)).cat = { c with users := upd c.users n none } := by
    rw [exec.eq_def, if_pos (show rootClient.root = true from rfl)]
    simp only [execDropUser]
    rw [if_neg (fun h => hn h.symm), hu]
    simp [Cat.commit, hw]
  simp only [h1]
  refine ⟨by simp [upd], ?_⟩
  have h2 : exec perm rootClient { c with users := upd c.users n none } w'
      (.createUser n [("password", .data (.str pass))]) =
      ⟨{ c with users := upd (upd c.users n none) n (some w'.hash) }, .ok none, some (.createUser n w'.hash)⟩ := by
    rw [exec.eq_def, if_pos (show rootClient.root = true from rfl)]
    simp only [execCreateUser]
    rw [if_pos (by simp [passwordOk, get, del])]
    simp [upd, Cat.commit, hw']
  rw [h2]
  exact ⟨rfl, by simp [upd]⟩

example : (session Cat.empty exDay1).1.users "u" = some [1, 2, 3] ∧ (fine 1).commitOk = true := by
  decide +kernel

end Verif.Gns
