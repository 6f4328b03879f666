import Verif.Server.UpgradeLemmas
import Verif.Server.WholeTheorems
/-!
C58: the upgrade of an installation of an earlier version keeps everything, now and after later restarts.
-/
namespace Verif.Server
open Verif.Lex (ascii)
open Verif.Gns (Cat Model Consistent PkNonNull SimSpace)
open Verif.Journal (HEADER)
open Verif.Dml (FloatOps Reply SpecStep SpecRun abs Tbl Key)
open Verif.Batch (LifeOk)

/-! ### Specification -/

/-- Between the upgrade and the first restart the table is only read. -/
def Quiet (sp m : String) : Act → Prop
  | .query q => ∀ st, stmtOn sp m q = some st → Reads st
  | .flush _ _ _ => True
  | .restart _ _ _ _ => False

/-! ### Proof -/

theorem Saved.acts {S : Setup} (hl : S.lim ≤ 2 ^ 62) {F : FloatOps} {sp m : String} {md : Model} (hm : LifeOk md) {t : Tbl} :
    ∀ {as : List Act} {z z' : Sys}, SysOk S z → Saved S z sp m md t → (∀ a ∈ as, ActOk a ∧ ActSpares F sp m a ∧ Quiet sp m a) →
    ∀ {o : List (Q × Answer)}, z.acts S as = .ok (z', o) →
    ∃ rs : List Reply, answersTo sp m o = rs.map .rows ∧ Saved S z' sp m md t ∧
      SpecRun F md (abs t) (stmtsOn sp m as) (abs t) (rs.map Reply.norm)
  | [], z, z', hz, h, _, o, hx => by
    cases hx
    exact ⟨[], rfl, h, .nil⟩
  | a :: as, z, z', hz, h, ha, o, hx => by
    rw [Sys.acts] at hx
    obtain ⟨⟨z1, o1⟩, h1, h2⟩ := bind_ok hx
    obtain ⟨⟨z2, o2⟩, h3, h4⟩ := bind_ok h2
    cases h4
    obtain ⟨a1, a2, a3⟩ := ha a (by simp)
    have hz1 := hz.act hl a1 h1
    have ha' : ∀ a ∈ as, ActOk a ∧ ActSpares F sp m a ∧ Quiet sp m a := fun x hx => ha x (by simp [hx])
    have happ : answersTo sp m (o1 ++ o2) = answersTo sp m o1 ++ answersTo sp m o2 := by simp [answersTo]
    rw [happ]
    cases a with
    | query q =>
      obtain ⟨s1, s2, s3⟩ := a2
      obtain ⟨g1, g2⟩ := h.query hl hm hz a1 s1 s2 s3 a3 h1
      obtain ⟨rs, k1, k2, k3⟩ := Saved.acts hl hm hz1 g1 ha' h3
      have hout : ∃ ans, o1 = [(q, ans)] := by
        rcases hz.query hl a1 with e | ⟨z1, e, _⟩
        · rw [Sys.act, e] at h1; cases h1
        · rw [Sys.act, e] at h1; cases h1; exact ⟨_, rfl⟩
      obtain ⟨ans, rfl⟩ := hout
      cases hst : stmtOn sp m q with
      | some st =>
        obtain ⟨r, e1, e2⟩ := g2 st hst
        have hlist : stmtsOn sp m (.query q :: as) = st :: stmtsOn sp m as := by simp [stmtsOn, hst]
        rw [hlist]
        refine ⟨r :: rs, ?_, k2, .cons e2 k3⟩
        rw [e1, k1]
        simp [answersTo, hst]
      | none =>
        have hlist : stmtsOn sp m (.query q :: as) = stmtsOn sp m as := by simp [stmtsOn, hst]
        rw [hlist]
        refine ⟨rs, ?_, k2, k3⟩
        rw [k1]
        simp [answersTo, hst]
    | flush x y n =>
      rw [Sys.act] at h1
      obtain ⟨z3, f1, f2⟩ := bind_ok h1
      cases f2
      obtain ⟨rs, k1, k2, k3⟩ := Saved.acts hl hm hz1 (h.flush f1) ha' h3
      have hlist : stmtsOn sp m (.flush x y n :: as) = stmtsOn sp m as := by simp [stmtsOn]
      rw [hlist]
      exact ⟨rs, by rw [k1]; rfl, k2, k3⟩
    | restart => exact absurd a3 id

theorem specRun_append {F : FloatOps} {m : Model} : ∀ {A B C : Dml.ATable} {s1 s2 : List Dml.Stmt} {r1 r2 : List Reply},
    SpecRun F m A s1 B r1 → SpecRun F m B s2 C r2 → SpecRun F m A (s1 ++ s2) C (r1 ++ r2)
  | _, _, _, _, _, _, _, .nil, h => h
  | _, _, _, _, _, _, _, .cons a b, h => .cons a (specRun_append b h)

/-! ### Theorems -/

/-- **C58 (partial).** Whatever was loaded from the old files, if no model had its columns changed: the upgrade succeeds unless
a file would be too large; the server then has all that was loaded, and it can be shut down and started again. -/
theorem C58_upgrade_succeeds_partial {S : Setup} (hl : S.lim ≤ 2 ^ 62) (hg : S.gnsHdr.length = HEADER)
    (hmd : S.mdlHdr.length = HEADER) {order : List (Key × Nat) → List (Key × Nat)} (ho : ∀ l, (order l).Perm l) {x : Old}
    (hx : OldOk x) :
    recreate S order x = .full ∨ ∃ z, recreate S order x = .ok z ∧ z.srv = x.srv ∧
      ∀ st cl op data, (∀ l, (cl l).Perm l) → (∀ l, (op l).Perm l) → z.act S (.restart st cl op data) ≠ .bad := by
  rcases recreate_ok hl hg hmd ho hx with e | ⟨z, e, h1, h2, h3⟩
  · exact .inl e
  · refine .inr ⟨z, e, h2, ?_⟩
    intro st cl op data hcl hop
    refine AllKept.restart_not_bad hl h1 ?_ hcl hop
    intro a b md hm
    rw [h2] at hm
    obtain ⟨t, hs⟩ := h3 a b md hm
    exact ⟨t, hs.tbl, .inr (hs.kept hl)⟩

/-- **C58 (partial).** The rows of a model survive the upgrade and all later restarts. Let the server be upgraded, let the rows of
`sp.m` only be read until the first restart (`before`), and let anything happen after it, as in C56 (`after`: statements, batches and
restarts, but no change of the declaration of the model). The answers to the queries on the model, before and after, are those of a
map from keys to rows that starts with the rows of the old installation. Missing: changes of the rows before the first restart, and
models whose columns were changed in the old installation; the code gets both wrong. -/
theorem C58_rows_survive_partial {S : Setup} {F : FloatOps} (hl : S.lim ≤ 2 ^ 62) (hg : S.gnsHdr.length = HEADER)
    (hmd : S.mdlHdr.length = HEADER) {order : List (Key × Nat) → List (Key × Nat)} (ho : ∀ l, (order l).Perm l) {x : Old}
    (hx : OldOk x) {sp m : String} {t : Tbl} (ht : x.srv.tbl sp m = some t) {z0 z1 z2 z3 : Sys} {before after : List Act}
    {o1 o2 o3 : List (Q × Answer)} {st : Start} {cl op : List MKey → List MKey} (hcl : ∀ l, (cl l).Perm l)
    (hop : ∀ l, (op l).Perm l) {data : Path → Bytes} (h0 : recreate S order x = .ok z0)
    (h1 : z0.acts S before = .ok (z1, o1)) (hb : ∀ a ∈ before, ActOk a ∧ ActSpares F sp m a ∧ Quiet sp m a)
    (h2 : z1.act S (.restart st cl op data) = .ok (z2, o2))
    (h3 : z2.acts S after = .ok (z3, o3)) (ha : ∀ a ∈ after, ActOk a ∧ ActSpares F sp m a)
    (hf : UpdatesFine F t.model (stmtsOn sp m after) (abs t)) :
    ∃ (rs : List Reply) (t' : Tbl), answersTo sp m (o1 ++ o2 ++ o3) = rs.map .rows ∧ z3.srv.tbl sp m = some t' ∧
      SpecRun F t.model (abs t) (stmtsOn sp m (before ++ after)) (abs t') (rs.map Reply.norm) := by
  rcases recreate_ok hl hg hmd ho hx with e | ⟨z, e, k1, k2, k3⟩
  · rw [e] at h0; cases h0
  rw [e] at h0
  cases h0
  obtain ⟨md, hm⟩ : ∃ md, x.srv.cat.models sp m = some md := by
    unfold Srv.tbl at ht
    cases hm : x.srv.cat.models sp m with
    | none => simp [hm] at ht
    | some md => exact ⟨md, rfl⟩
  obtain ⟨t0, hs⟩ := k3 sp m md hm
  have htt : t0 = t := by
    have := hs.tbl
    rw [k2, ht] at this
    cases this
    rfl
  subst htt
  have hlife := hx.life hm
  obtain rfl : t0.model = md := hs.inv.model
  obtain ⟨rs1, q1, q2, q3⟩ := hs.acts hl hlife k1 hb h1
  have k4 := k1.acts hl (fun a h => (hb a h).1) h1
  obtain ⟨t1, p1, p2⟩ := q2.restart hl k4 hcl hop h2
  have k5 : SysOk S z2 := k4.act hl (a := .restart st cl op data) ⟨hcl, hop⟩ h2
  have ho2 : o2 = [] := (k4.restart_kept hl hcl hop h2).1
  subst ho2
  rw [← p2] at hf
  obtain ⟨rs2, t', r1, r2, r3⟩ := p1.acts hl hlife k5 (fun a h => (ha a h).1) (fun a h => (ha a h).2) hf h3
  rw [p2] at r3
  refine ⟨rs1 ++ rs2, t', ?_, r2.tbl, ?_⟩
  · have : answersTo sp m (o1 ++ [] ++ o3) = answersTo sp m o1 ++ answersTo sp m o3 := by simp [answersTo]
    rw [this, q1, r1, List.map_append]
  · have : stmtsOn sp m (before ++ after) = stmtsOn sp m before ++ stmtsOn sp m after := by simp [stmtsOn]
    rw [this, List.map_append]
    exact specRun_append q3 r3

/-- **C58 (partial).** The catalogue survives the upgrade and the first restart: the models, the users other than root, and the spaces,
whose properties are the same or were empty. -/
theorem C58_catalogue_survives_partial {S : Setup} (hl : S.lim ≤ 2 ^ 62) (hg : S.gnsHdr.length = HEADER)
    (hmd : S.mdlHdr.length = HEADER) {order : List (Key × Nat) → List (Key × Nat)} (ho : ∀ l, (order l).Perm l) {x : Old}
    (hx : OldOk x) {z0 z1 : Sys} {o : List (Q × Answer)} {st : Start} {cl op : List MKey → List MKey}
    (hcl : ∀ l, (cl l).Perm l) (hop : ∀ l, (op l).Perm l) {data : Path → Bytes} (h0 : recreate S order x = .ok z0)
    (h1 : z0.act S (.restart st cl op data) = .ok (z1, o)) :
    z1.srv.cat.models = x.srv.cat.models ∧ (∀ u, u ≠ Gns.ROOT → z1.srv.cat.users u = x.srv.cat.users u) ∧
      ∀ n, ∃ cleared, SimSpace cleared (x.srv.cat.spaces n) (z1.srv.cat.spaces n) := by
  rcases recreate_ok hl hg hmd ho hx with e | ⟨z, e, k1, k2, k3⟩
  · rw [e] at h0; cases h0
  rw [e] at h0
  cases h0
  obtain ⟨c1, c2⟩ := k1.restart_cat hl h1
  rw [k2] at c1 c2
  exact ⟨by rw [(k1.restart_kept hl hcl hop h1).2.2.1, k2], c1, c2⟩

/-- **C58 is violated.** The server is stopped after the old files were moved and before the new ones are written, as by a loss of power.
The next start finds neither and sets up a new, empty installation. -/
theorem C58_crash_violated {S : Setup} (hl : S.lim ≤ 2 ^ 62) (hg : S.gnsHdr.length = HEADER)
    {order : List (Key × Nat) → List (Key × Nat)} {hash : Bytes} {x : Old} {z : Sys}
    (h : loadOld S order hash x (movedFiles 3) = .ok z) : z.srv = newServer hash ∧ z.srv.cat.models = fun _ _ => none := by
  have h' : install S hash = .ok z := h
  rcases install_ok hl hg hash with e | ⟨z1, e, _, k⟩
  · rw [e] at h'; cases h'
  · rw [e] at h'
    cases h'
    rw [k]
    exact ⟨rfl, rfl⟩

/-- **C58 is violated.** The server is stopped between the moves: `sys.db` is still in place, so the next start takes the installation
for an old one, but the data files are gone, and it does not start any more. -/
theorem C58_stuck_violated {S : Setup} {order : List (Key × Nat) → List (Key × Nat)} {hash : Bytes} {x : Old} {n : Nat} (h1 : 1 ≤ n)
    (h2 : n ≤ 2) : loadOld S order hash x (movedFiles n) = .bad := by
  obtain rfl | rfl : n = 1 ∨ n = 2 := by omega
  · rfl
  · rfl

/-- **C58 is violated.** The first start after the upgrade does not look at the root password of the settings: the old password is
in force until the next start. -/
theorem C58_root_password_violated {S : Setup} (hl : S.lim ≤ 2 ^ 62) (hg : S.gnsHdr.length = HEADER)
    (hmd : S.mdlHdr.length = HEADER) {order : List (Key × Nat) → List (Key × Nat)} (ho : ∀ l, (order l).Perm l) {x : Old}
    (hx : OldOk x) {hash : Bytes} {z : Sys} (h : loadOld S order hash x (movedFiles 0) = .ok z) :
    z.srv.cat.users Gns.ROOT = x.srv.cat.users Gns.ROOT := by
  have h' : recreate S order x = .ok z := h
  rcases recreate_ok hl hg hmd ho hx with e | ⟨z1, e, _, k, _⟩
  · rw [e] at h'; cases h'
  · rw [e] at h'
    cases h'
    rw [k]

section Example

private def ofl : FloatOps := ⟨fun a _ => a, fun a _ => a, fun a _ => a, fun a _ => a⟩
private def out : Outside :=
  ⟨Gns.fine 1, id, List.reverse, ofl, fun _ => none, fun _ => "", fun _ => [], fun _ => 0, true, fun _ => [], fun _ => [],
    fun sp => sp.models⟩
private def root : Sess := ⟨⟨"root", true⟩, some "s"⟩
private def asRoot (text : String) (params : Bytes) : Act := .query (out, root, ascii text, params)
private def setup : Setup := ⟨100000, List.replicate 64 0, List.replicate 64 1⟩
private def again : Act := .restart .same id List.reverse (fun _ => [])
private def number : Cell → Nat
  | .uint _ v => v.toNat
  | _ => 1000
private def seen : Answer → Option (List (List Nat))
  | .rows .empty => some []
  | .rows (.row cs) => some [cs.map number]
  | .rows (.rows _ rs) => some (rs.map (·.map number))
  | _ => none

/-- The model `s.m(primary id: uint64, n: uint8)`, whose columns were changed as in `ds`. -/
private def model (ds : List Gns.SDelta) : Model :=
  ⟨2, "id", .uint64, [("id", ⟨[.uint64], false⟩), ("n", ⟨[.uint8], false⟩)], ds⟩
private def row (id n : UInt64) (schema rev : Nat) : Dml.RowObj :=
  ⟨.uint id, fun k => if k = "n" then some (.uint .uint8 n) else none, schema, rev⟩
/-- An old installation: the rows 7 and 8 with the versions 1 and 3. The versions are not counted on (`v1/raw/batch_jrnl/restore.rs`
does not set the version of the model). -/
private def old (ds : List Gns.SDelta) : Old :=
  ⟨⟨⟨fun n => if n = "s" then some ⟨1, ["m"], [("env", .map [])]⟩ else none,
      fun a b => if a = "s" ∧ b = "m" then some (model ds) else none,
      fun u => if u = "root" then some [1] else none⟩,
      fun a b => if a = "s" ∧ b = "m" then
        ⟨[row 7 4 ds.length 1, row 8 5 ds.length 3], [(.uint 7, 0), (.uint 8, 1)], 0, []⟩ else Rows.none⟩,
    ["s"], [("s", "m")], ["root"]⟩

private def upgraded (ds : List Gns.SDelta) (as : List Act) : Option (List (Option (List (List Nat)))) :=
  match (recreate setup List.reverse (old ds)).bind fun z => z.acts setup as with
  | .ok (_, o) => some ((answersTo "s" "m" o).map seen)
  | _ => none

/-- Two restarts after the upgrade, and rows that are read, updated, deleted and inserted. -/
example : upgraded [] [asRoot "select n from m where id = ?" [2, 56, 10], again,
      asRoot "update m set n = ? where id = ?" [2, 57, 10, 2, 56, 10], asRoot "delete from m where id = ?" [2, 55, 10],
      asRoot "insert into m(?, ?)" [2, 54, 10, 2, 49, 10], again, asRoot "select all id, n from m limit ?" [2, 57, 10]] =
    some [some [[5]], some [], some [], some [], some [[6, 1], [8, 9]]] := by
  decide +kernel

/-- **C58 is violated.** An UPDATE of an old row before the first restart is acknowledged, and the server does not start again: the
row that is read has a later version than the change. -/
theorem C58_update_violated :
    upgraded [] [asRoot "update m set n = ? where id = ?" [2, 57, 10, 2, 56, 10], asRoot "select n from m where id = ?" [2, 56, 10]]
      = some [some [], some [[9]]] ∧
    Batch.isBad ((recreate setup List.reverse (old [])).bind fun z => z.acts setup
      [asRoot "update m set n = ? where id = ?" [2, 57, 10, 2, 56, 10], again]) = true := by
  decide +kernel

/-- **C58 is violated.** A row that is deleted before the first restart is back after it. -/
theorem C58_delete_violated :
    upgraded [] [asRoot "delete from m where id = ?" [2, 56, 10], asRoot "select n from m where id = ?" [2, 56, 10], again,
      asRoot "select n from m where id = ?" [2, 56, 10]] = some [some [], none, some [[5]]] := by
  decide +kernel

/-- **C58 is violated.** A new row that is inserted before the first restart is still there after it. But then the counter of versions goes
on from this row (`__set_delta_version`, `mdl_journal.rs:608-610`, takes the last version of the last batch), below those of the old rows.
An old row that is updated then is acknowledged, and the server does not start again; one that is deleted is back. -/
theorem C58_insert_violated :
    upgraded [] [asRoot "insert into m(?, ?)" [2, 54, 10, 2, 49, 10], again, asRoot "select all id, n from m limit ?" [2, 57, 10],
      asRoot "delete from m where id = ?" [2, 56, 10], again, asRoot "select n from m where id = ?" [2, 56, 10]]
      = some [some [], some [[6, 1], [7, 4], [8, 5]], some [], some [[5]]] ∧
    Batch.isBad ((recreate setup List.reverse (old [])).bind fun z => z.acts setup
      [asRoot "insert into m(?, ?)" [2, 54, 10, 2, 49, 10], again, asRoot "update m set n = ? where id = ?" [2, 57, 10, 2, 56, 10],
        again]) = true := by
  decide +kernel

/-- **C58 is violated.** A column had been added and another one removed in the old installation. After the upgrade and a restart the
columns `x` and `y` are added. The old rows do not get `y`: they say that they have seen two changes. (They would not get `x` in any
case, which is C33.) Without the earlier changes they do. -/
theorem C58_columns_violated :
    upgraded [.add "n", .rem "z"] [again, asRoot "alter model s.m add x { type: uint8, nullable: true }" [],
      asRoot "alter model s.m add y { type: uint8, nullable: true }" [], asRoot "select y from m where id = ?" [2, 56, 10]]
      = some [none] ∧
    upgraded [] [again, asRoot "alter model s.m add x { type: uint8, nullable: true }" [],
      asRoot "alter model s.m add y { type: uint8, nullable: true }" [], asRoot "select y from m where id = ?" [2, 56, 10]]
      = some [some [[1000]]] := by
  decide +kernel

private theorem model_of {ds : List Gns.SDelta} {a b : String} {m : Model} (h : (old ds).srv.cat.models a b = some m) :
    a = "s" ∧ b = "m" ∧ m = model ds := by
  simp only [old] at h
  split at h
  · rename_i hab
    cases h
    exact ⟨hab.1, hab.2, rfl⟩
  · cases h

/-- The conditions hold for it. -/
private theorem old_ok : OldOk (old []) := by
  have hsp : ∀ {n s}, (old []).srv.cat.spaces n = some s → n = "s" ∧ s = ⟨1, ["m"], [("env", .map [])]⟩ := by
    intro n s h
    simp only [old] at h
    split at h
    · cases h; exact ⟨by assumption, rfl⟩
    · cases h
  refine ⟨?_, ⟨?_, ?_, ?_, ?_⟩, ?_, by decide, ?_, by decide, ?_, by decide, ?_, ?_, ?_, ?_⟩
  · intro a b h
    simp only [old] at h ⊢
    split at h
    · cases h
    · rename_i hab; simp [hab]
  · intro s sp n h hn
    obtain ⟨rfl, rfl⟩ := hsp h
    simp only [List.mem_singleton] at hn
    subst hn
    exact ⟨model [], rfl⟩
  · intro s n m h
    obtain ⟨rfl, rfl, _⟩ := model_of h
    exact ⟨_, rfl, by simp⟩
  · intro s sp h
    obtain ⟨rfl, rfl⟩ := hsp h
    simp
  · intro s n m h
    obtain ⟨_, _, rfl⟩ := model_of h
    exact ⟨⟨by decide, by
      intro e he
      simp only [model, List.mem_cons, List.not_mem_nil, or_false] at he
      rcases he with rfl | rfl
      · exact ⟨0, .uint64, by decide, rfl⟩
      · exact ⟨0, .uint8, by decide, rfl⟩⟩, ⟨⟨[.uint64], false⟩, by decide, rfl⟩, by decide⟩
  · intro n
    simp only [old, List.mem_singleton]
    by_cases h : n = "s" <;> simp [h]
  · intro a b
    simp only [old, List.mem_singleton, Prod.mk.injEq]
    by_cases h : a = "s" ∧ b = "m" <;> simp [h]
  · intro n
    simp only [old, List.mem_singleton]
    by_cases h : n = "root" <;> simp [h]
  · intro n s h
    obtain ⟨rfl, rfl⟩ := hsp h
    rfl
  · intro n s h
    obtain ⟨rfl, rfl⟩ := hsp h
    refine ⟨by simp [Gns.Distinct, Gns.DistinctVal, Gns.get], by simp [Gns.Typed, Gns.TypedVal], .inl ⟨⟨[], rfl⟩, ?_⟩⟩
    intro k hk
    simp [Gns.get, Gns.ENV] at hk ⊢
    exact fun h => hk h.symm
  · intro a b m h
    obtain ⟨_, _, rfl⟩ := model_of h
    refine ⟨rfl, ?_, by decide⟩
    intro f hf
    have : Gns.fget (model []).fields (model []).pk = some ⟨[.uint64], false⟩ := by decide
    rw [this] at hf
    cases hf
    rfl
  · intro a b t h
    unfold Srv.tbl at h
    cases hm : (old []).srv.cat.models a b with
    | none => rw [hm] at h; cases h
    | some m =>
      rw [hm] at h
      obtain ⟨rfl, rfl, rfl⟩ := model_of hm
      simp only [old, and_self, if_true, Option.map_some, Option.some.injEq, List.length_nil] at h
      subst h
      have hrow : ∀ (id n : UInt64) (r : Nat), n.toNat < 2 ^ 8 → Dml.RowOk (model []).fields (model []).pk (row id n 0 r).cells := by
        intro id n r hn k
        constructor
        · intro f hf hk
          simp only [model, Gns.fget] at hf hk
          by_cases hkn : k = "n"
          · subst hkn
            simp only [row, if_true]
            have : f = ⟨[.uint8], false⟩ := by
              simp at hf
              exact hf.symm
            subst this
            exact ⟨_, rfl, .inr (by rw [Fits]; exact hn)⟩
          · have h1 : ¬ "id" = k := fun h => hk h.symm
            have h2 : ¬ "n" = k := fun h => hkn h.symm
            simp [h1, h2] at hf
        · rintro (hf | rfl)
          · by_cases hkn : k = "n"
            · subst hkn
              exact absurd hf (by decide)
            · simp [row, hkn]
          · rfl
      refine ⟨⟨rfl, by decide, ?_⟩, ?_, ?_, rfl⟩
      · intro e he
        simp only [List.mem_cons, List.not_mem_nil, or_false] at he
        rcases he with rfl | rfl
        · exact ⟨rfl, _, rfl, rfl, rfl, hrow 7 4 1 (by decide)⟩
        · exact ⟨rfl, _, rfl, rfl, rfl, hrow 8 5 3 (by decide)⟩
      · intro r hr k c hc
        simp only [List.mem_cons, List.not_mem_nil, or_false] at hr
        rcases hr with rfl | rfl
        all_goals
          simp only [row] at hc
          split at hc
          · cases hc; rfl
          · cases hc
      · intro r hr
        simp only [List.mem_cons, List.not_mem_nil, or_false] at hr
        rcases hr with rfl | rfl <;> simp [row]

/-- So the theorems apply to it. -/
example : ∃ z, recreate setup List.reverse (old []) = .ok z ∧ z.srv = (old []).srv := by
  rcases C58_upgrade_succeeds_partial (S := setup) (by decide) (by decide) (by decide) (order := List.reverse) (fun l => List.reverse_perm l)
    old_ok with e | ⟨z, e, h, _⟩
  · have h : (match recreate setup List.reverse (old []) with | .full => true | _ => false) = false := by decide +kernel
    rw [e] at h
    cases h
  · exact ⟨z, e, h⟩

end Example

end Verif.Server
