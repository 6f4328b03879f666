import Verif.Server.Upgrade
/-!
Lemmas for C58.
-/
namespace Verif.Server
open Verif.Enc (Event Uuid)
open Verif.Gns (Cat Model Consistent Rebuilt EvOk ModelOk PkNonNull Space EnvOnly Distinct Typed)
open Verif.Journal (JW HEADER)
open Verif.Dml (Key Inv abs Tbl)
open Verif.Batch (Good Kept LifeOk TagOk Vals Sync Exact batchDecode)

/-- What was loaded is in order: the lists have all names, each once; a space has the properties that the server gives it, or none;
no model has had its columns changed. The names of the models of a space are a set in the code; here they are in the order in which
the models are written. -/
structure OldOk (x : Old) : Prop where
  neat : Neat x.srv
  cons : Consistent x.srv.cat
  spaces : ∀ n, n ∈ x.spaces ↔ (x.srv.cat.spaces n).isSome = true
  snodup : x.spaces.Nodup
  keys : ∀ a b, (a, b) ∈ x.keys ↔ (x.srv.cat.models a b).isSome = true
  knodup : x.keys.Nodup
  users : ∀ n, n ∈ x.users ↔ (x.srv.cat.users n).isSome = true
  unodup : x.users.Nodup
  order : ∀ n s, x.srv.cat.spaces n = some s → s.models = (x.keys.filter fun k => k.1 = n).map (·.2)
  props : ∀ n s, x.srv.cat.spaces n = some s → Distinct s.props ∧ Typed s.props ∧
    (EnvOnly s.props ∨ ∀ k, Gns.get s.props k = none)
  plain : ∀ a b m, x.srv.cat.models a b = some m → m.deltas = [] ∧ PkNonNull m ∧ m.fields.length < 2 ^ 64
  tables : ∀ a b t, x.srv.tbl a b = some t → Inv t.model t ∧ Vals TagOk t ∧ (∀ r ∈ t.heap, r.revised < 2 ^ 64) ∧ t.queue = []

/-- The part of a catalogue that has these names. -/
def part (c : Cat) (ns : List String) (ks : List MKey) (us : List String) : Cat :=
  ⟨fun n => if n ∈ ns then (c.spaces n).map fun s => ⟨s.uuid, (ks.filter fun k => k.1 = n).map (·.2), s.props⟩ else none,
    fun a b => if (a, b) ∈ ks then c.models a b else none,
    fun u => if u ∈ us then c.users u else none⟩

theorem part_space {c : Cat} {ns : List String} {n : String} {s : Space} (h : c.spaces n = some s) (hn : n ∉ ns) :
    Gns.apply (part c ns [] []) (.createSpace n s.uuid s.props) = .ok (part c (ns ++ [n]) [] []) := by
  have h0 : (part c ns [] []).spaces n = none := by simp [part, hn]
  rw [Gns.apply]
  simp only [h0, Res.ok.injEq]
  simp only [part, Cat.mk.injEq, and_true]
  funext x
  simp only [Gns.upd]
  by_cases hx : x = n
  · subst hx; simp [h]
  · simp [hx]

theorem part_model {c : Cat} {ns : List String} {ks : List MKey} {k : MKey} {p : Path} {m : Model} (h : pathOf c k = some (p, m))
    (hd : m.deltas = []) (hn : k.1 ∈ ns) (hk : k ∉ ks) :
    Gns.apply (part c ns ks []) (modelEv p m) = .ok (part c ns (ks ++ [k]) []) := by
  unfold pathOf at h
  split at h
  · rename_i s m' hs hm
    cases h
    have h0 : (part c ns ks []).spaces k.1 = some ⟨s.uuid, (ks.filter fun x => x.1 = k.1).map (·.2), s.props⟩ := by
      simp [part, hn, hs]
    have h1 : (part c ns ks []).models k.1 k.2 = none := by simp [part, hk]
    have h2 : ¬ (k.2 ∈ (ks.filter fun x => x.1 = k.1).map (·.2)) := by
      simp only [List.mem_map, List.mem_filter, decide_eq_true_eq, not_exists, not_and]
      rintro x ⟨hx, hx1⟩ hx2
      have : x = k := Prod.ext hx1 hx2
      exact hk (this ▸ hx)
    rw [modelEv, Gns.apply]
    simp only [h0, h1, List.contains_eq_mem, h2, decide_false, Bool.false_eq_true, if_false, Res.ok.injEq]
    simp only [part, Cat.mk.injEq]
    refine ⟨?_, ?_, trivial⟩
    · funext x
      simp only [Gns.upd]
      by_cases hx : x = k.1
      · subst hx; simp [hs, hn, List.filter_append]
      · have : ¬ k.1 = x := fun h => hx h.symm
        simp [hx, this, List.filter_append]
    · funext a b
      simp only [Gns.upd2]
      by_cases hab : a = k.1 ∧ b = k.2
      · obtain ⟨rfl, rfl⟩ := hab
        simp only [and_self, if_true, List.mem_append, List.mem_singleton, or_true, hm, ← hd]
      · have : (a, b) ≠ k := by
          rintro rfl
          exact hab ⟨rfl, rfl⟩
        simp [hab, this]
  · cases h

theorem part_user {c : Cat} {ns : List String} {ks : List MKey} {us : List String} {u : String} {h : Bytes}
    (hu : c.users u = some h) (hn : u ∉ us) :
    Gns.apply (part c ns ks us) (.createUser u h) = .ok (part c ns ks (us ++ [u])) := by
  have h0 : (part c ns ks us).users u = none := by simp [part, hn]
  rw [Gns.apply]
  simp only [h0, Res.ok.injEq]
  simp only [part, Cat.mk.injEq, true_and]
  funext x
  simp only [Gns.upd]
  by_cases hx : x = u
  · subst hx; simp [hu]
  · simp [hx]

theorem part_spaces {c : Cat} : ∀ {l ns : List String}, (∀ n ∈ l, (c.spaces n).isSome = true) → (ns ++ l).Nodup →
    Gns.applyAll (part c ns [] []) (spaceEvs c l) = .ok (part c (ns ++ l) [] [])
  | [], ns, _, _ => by simp [spaceEvs, Gns.applyAll]
  | n :: l, ns, h, hn => by
    obtain ⟨s, hs⟩ := Option.isSome_iff_exists.1 (h n (by simp))
    have hnn : n ∉ ns := by
      rw [List.nodup_append] at hn
      intro hx
      exact hn.2.2 n hx n (by simp) rfl
    have e : spaceEvs c (n :: l) = .createSpace n s.uuid s.props :: spaceEvs c l := by simp [spaceEvs, hs]
    rw [e, Gns.applyAll, part_space hs hnn]
    simp only [Res.bind]
    rw [part_spaces (fun x hx => h x (by simp [hx])) (by simpa using hn)]
    simp

theorem part_users {c : Cat} {ns : List String} {ks : List MKey} : ∀ {l us : List String}, (∀ n ∈ l, (c.users n).isSome = true) →
    (us ++ l).Nodup → Gns.applyAll (part c ns ks us) (userEvs c l) = .ok (part c ns ks (us ++ l))
  | [], us, _, _ => by simp [userEvs, Gns.applyAll]
  | n :: l, us, h, hn => by
    obtain ⟨s, hs⟩ := Option.isSome_iff_exists.1 (h n (by simp))
    have hnn : n ∉ us := by
      rw [List.nodup_append] at hn
      intro hx
      exact hn.2.2 n hx n (by simp) rfl
    have e : userEvs c (n :: l) = .createUser n s :: userEvs c l := by simp [userEvs, hs]
    rw [e, Gns.applyAll, part_user hs hnn]
    simp only [Res.bind]
    rw [part_users (fun x hx => h x (by simp [hx])) (by simpa using hn)]
    simp

theorem part_all {x : Old} (h : OldOk x) : part x.srv.cat x.spaces x.keys x.users = x.srv.cat := by
  obtain ⟨⟨⟨spaces, models, users⟩, rows⟩, ns, ks, us⟩ := x
  simp only [part, Cat.mk.injEq]
  refine ⟨?_, ?_, ?_⟩
  · funext n
    have h1 := h.spaces n
    have h2 := h.order n
    simp only at h1 h2
    cases hs : spaces n with
    | none => simp
    | some s =>
      rw [hs] at h1
      simp only [Option.isSome_some, iff_true] at h1
      simp only [h1, if_true, Option.map_some, Option.some.injEq]
      rw [← h2 s hs]
  · funext a b
    have h1 := h.keys a b
    simp only at h1
    split
    · rfl
    · rename_i hn
      rw [h1] at hn
      simp only [Bool.not_eq_true, Option.isSome_eq_false_iff, Option.isNone_iff_eq_none] at hn
      exact hn.symm
  · funext u
    have h1 := h.users u
    simp only at h1
    split
    · rfl
    · rename_i hn
      rw [h1] at hn
      simp only [Bool.not_eq_true, Option.isSome_eq_false_iff, Option.isNone_iff_eq_none] at hn
      exact hn.symm

/-- The log of the new catalogue rebuilds it. -/
theorem rebuilt_self {x : Old} (h : OldOk x) : ∃ t, Rebuilt t x.srv.cat x.srv.cat := by
  classical
  refine ⟨fun n => decide (∀ s, x.srv.cat.spaces n = some s → ∀ k, Gns.get s.props k = none), rfl, rfl, ?_⟩
  intro n
  cases hs : x.srv.cat.spaces n with
  | none => exact .none
  | some s =>
    obtain ⟨u, ms, p⟩ := s
    refine .some ?_
    unfold Gns.SimProps
    split
    · rename_i hd
      simp only [Option.some.injEq, decide_eq_true_eq] at hd
      exact hd _ rfl
    · rename_i hd
      simp only [Option.some.injEq, decide_eq_true_eq] at hd
      refine ⟨Gns.Same.refl _, ?_⟩
      rcases (h.props n _ hs).2.2 with hp | hp
      · exact hp
      · exact absurd (fun s hs => by subst hs; exact hp) hd

/-- A table that is stored, although the server does not count on. -/
structure Saved (S : Setup) (z : Sys) (sp m : String) (md : Model) (t : Tbl) : Prop where
  model : z.srv.cat.models sp m = some md
  tbl : z.srv.tbl sp m = some t
  queue : t.queue = []
  inv : Inv md t
  size : (z.drv sp m).log.disk.length < S.lim
  idle : (z.drv sp m).Idle
  file : ∃ R, Journal.Reached batchDecode (Tbl.empty md) (z.drv sp m) R ∧ Sync R R ∧ Inv md R ∧ Exact md R ∧ Vals TagOk R ∧
    abs R = abs t

/-- A model and its file after the loop. -/
def Stored (S : Setup) (x : Old) (d : String → String → JW) (k : MKey) : Prop :=
  ∃ md t, x.srv.cat.models k.1 k.2 = some md ∧ x.srv.tbl k.1 k.2 = some t ∧ (d k.1 k.2).log.disk.length < S.lim ∧ (d k.1 k.2).Idle ∧
    ∃ R, Journal.Reached batchDecode (Tbl.empty md) (d k.1 k.2) R ∧ Sync R R ∧ Inv md R ∧ Exact md R ∧ Vals TagOk R ∧ abs R = abs t

theorem OldOk.life {x : Old} (h : OldOk x) {a b : String} {m : Model} (hm : x.srv.cat.models a b = some m) : LifeOk m := by
  obtain ⟨h1, h2, h3⟩ := h.plain a b m hm
  exact ⟨h.cons.models _ _ _ hm, h2, by rw [h1]; simp, by rw [h1]; simp, h3⟩

theorem OldOk.tbl {x : Old} (h : OldOk x) {a b : String} {m : Model} (hm : x.srv.cat.models a b = some m) :
    ∃ t, x.srv.tbl a b = some t ∧ t.model = m ∧ Inv m t ∧ Vals TagOk t ∧ (∀ r ∈ t.heap, r.revised < 2 ^ 64) ∧ t.queue = [] := by
  have ht : ∃ t, x.srv.tbl a b = some t ∧ t.model = m := by
    unfold Srv.tbl
    rw [hm]
    exact ⟨_, rfl, rfl⟩
  obtain ⟨t, ht, hmod⟩ := ht
  obtain ⟨h1, h2, h3, h4⟩ := h.tables a b t ht
  rw [hmod] at h1
  exact ⟨t, ht, hmod, h1, h2, h3, h4⟩

theorem recreateModels_ok {S : Setup} (hl : S.lim ≤ 2 ^ 62) (hh : S.mdlHdr.length = HEADER) {order : List (Key × Nat) → List (Key × Nat)}
    (ho : ∀ l, (order l).Perm l) {x : Old} (h : OldOk x) : ∀ {l ks : List MKey} {gw : JW} {d : String → String → JW},
    x.keys = ks ++ l → gw.Idle → Journal.Reached gdec Cat.empty gw (part x.srv.cat x.spaces ks []) → gw.log.disk.length < S.lim →
    (∀ k ∈ ks, Stored S x d k) →
    recreateModels S order x.srv l gw d = .full ∨ ∃ gw' d', recreateModels S order x.srv l gw d = .ok (gw', d') ∧ gw'.Idle ∧
      Journal.Reached gdec Cat.empty gw' (part x.srv.cat x.spaces x.keys []) ∧ gw'.log.disk.length < S.lim ∧
      ∀ k ∈ x.keys, Stored S x d' k
  | [], ks, gw, d, hk, hi, hr, hs, hst => by
    simp only [List.append_nil] at hk
    exact .inr ⟨gw, d, rfl, hi, by rw [hk]; exact hr, hs, by rw [hk]; exact hst⟩
  | k :: l, ks, gw, d, hk, hi, hr, hs, hst => by
    have hmem : k ∈ x.keys := by rw [hk]; simp
    obtain ⟨m, hm⟩ := Option.isSome_iff_exists.1 ((h.keys k.1 k.2).1 hmem)
    obtain ⟨p, hp⟩ := pathOf_models h.cons hm
    obtain ⟨t, ht, hmod, t1, t2, t3, t4⟩ := h.tbl hm
    have hlife := h.life hm
    obtain ⟨s, hsp, _⟩ := h.cons.owned _ _ _ hm
    have hnk : k ∉ ks := by
      have := h.knodup
      rw [hk, List.nodup_append] at this
      intro hx
      exact this.2.2 k hx k (by simp) rfl
    have hap := part_model hp (h.plain _ _ _ hm).1 ((h.spaces k.1).2 (by rw [hsp]; rfl)) hnk
    rw [recreateModels]
    simp only [hp, ht]
    have hall : Gns.applyAll (part x.srv.cat x.spaces ks []) [modelEv p m] = .ok (part x.srv.cat x.spaces (ks ++ [k]) []) := by
      simp only [Gns.applyAll, hap, Res.bind]
    rcases commitEvs_ok hl hi hr hs hall (by
        intro e he
        simp only [List.mem_singleton] at he
        subst he
        exact hlife.model.fields) with e | ⟨gw', e, i1, i2, i3, _⟩
    · rw [e]; exact .inl rfl
    · rw [e]
      simp only [Batch.Run.bind]
      obtain ⟨w0, c0, i0, d0, r0⟩ := Journal.create_idle hh
      have hnew : newFile S.mdlHdr = w0 := by rw [newFile, c0]
      obtain ⟨w1, c1, j1, j2⟩ := Batch.commitFull_reached ho hlife i0 (r0 _ _ _) t1 t2 t3
      rw [hnew, c1]
      simp only [fits]
      by_cases hf : w1.log.disk.length < S.lim
      · rw [if_pos hf]
        simp only
        refine recreateModels_ok hl hh ho h (ks := ks ++ [k]) (by rw [hk]; simp) i1 i2 i3 ?_
        intro k' hk'
        rcases List.mem_append.1 hk' with hk' | hk'
        · have hne : ¬ (k'.1 = k.1 ∧ k'.2 = k.2) := by
            rintro ⟨e1, e2⟩
            have : k' = k := Prod.ext e1 e2
            exact hnk (this ▸ hk')
          obtain ⟨md, t', q⟩ := hst k' hk'
          refine ⟨md, t', ?_⟩
          simp only [hne, if_false]
          exact q
        · simp only [List.mem_singleton] at hk'
          subst hk'
          refine ⟨m, t, hm, ht, ?_⟩
          simp only [and_self, if_true]
          exact ⟨hf, j1, j2 (by omega)⟩
      · rw [if_neg hf]; exact .inl rfl

theorem recreate_ok {S : Setup} (hl : S.lim ≤ 2 ^ 62) (hg : S.gnsHdr.length = HEADER) (hh : S.mdlHdr.length = HEADER)
    {order : List (Key × Nat) → List (Key × Nat)} (ho : ∀ l, (order l).Perm l) {x : Old} (h : OldOk x) :
    recreate S order x = .full ∨ ∃ z, recreate S order x = .ok z ∧ SysOk S z ∧ z.srv = x.srv ∧
      ∀ a b md, x.srv.cat.models a b = some md → ∃ t, Saved S z a b md t := by
  obtain ⟨w, c1, i1, d1, r1⟩ := Journal.create_idle hg
  rw [recreate, c1]
  simp only [fits]
  by_cases hf : w.log.disk.length < S.lim
  · rw [if_pos hf]
    simp only [Batch.Run.bind]
    have hempty : part x.srv.cat [] [] [] = Cat.empty := by simp [part, Cat.empty]
    have hsp := part_spaces (c := x.srv.cat) (l := x.spaces) (ns := []) (fun n hn => (h.spaces n).1 hn) (by simpa using h.snodup)
    rw [hempty] at hsp
    have hev : ∀ e ∈ spaceEvs x.srv.cat x.spaces, EvOk e := by
      intro e he
      simp only [spaceEvs, List.mem_filterMap, Option.map_eq_some_iff] at he
      obtain ⟨n, _, s, hs, rfl⟩ := he
      exact ⟨(h.props n s hs).1, (h.props n s hs).2.1⟩
    rcases commitEvs_ok hl i1 (r1 _ _ _) hf hsp hev with e | ⟨gw, e, j1, j2, j3, _⟩
    · rw [e]; exact .inl rfl
    · rw [e]
      simp only
      rcases recreateModels_ok hl hh ho h (l := x.keys) (ks := []) (d := fun _ _ => newFile S.mdlHdr) rfl j1 (by simpa using j2) j3
        (by simp) with e | ⟨gw2, d, e, k1, k2, k3, k4⟩
      · rw [e]; exact .inl rfl
      · rw [e]
        simp only
        have hus := part_users (c := x.srv.cat) (ns := x.spaces) (ks := x.keys) (l := x.users) (us := [])
          (fun n hn => (h.users n).1 hn) (by simpa using h.unodup)
        rw [List.nil_append, part_all h] at hus
        have hev2 : ∀ e ∈ userEvs x.srv.cat x.users, EvOk e := by
          intro e he
          simp only [userEvs, List.mem_filterMap, Option.map_eq_some_iff] at he
          obtain ⟨n, _, s, hs, rfl⟩ := he
          trivial
        rcases commitEvs_ok hl k1 k2 k3 hus hev2 with e | ⟨gw3, e, l1, l2, l3, _⟩
        · rw [e]; exact .inl rfl
        · rw [e]
          refine .inr ⟨_, rfl, ⟨h.neat, h.cons, l1, l3, ?_, h.keys, h.knodup⟩, rfl, ?_⟩
          · obtain ⟨t, ht⟩ := rebuilt_self h
            exact ⟨t, _, l2, ht⟩
          · intro a b md hmd
            obtain ⟨md', t, q1, q2, q3, q4, q5⟩ := k4 (a, b) ((h.keys a b).2 (by rw [hmd]; rfl))
            simp only at q1 q2 q3 q4 q5
            rw [hmd] at q1
            cases q1
            obtain ⟨t', s1, _, s3, _, _, s6⟩ := h.tbl hmd
            rw [q2] at s1
            cases s1
            exact ⟨t, hmd, q2, s6, s3, q3, q4, q5⟩
  · rw [if_neg hf]; exact .inl rfl

/-- The first restart makes everything regular. -/
theorem Saved.restart {S : Setup} (hl : S.lim ≤ 2 ^ 62) {z z' : Sys} (h : SysOk S z) {st : Start}
    {cl op : List MKey → List MKey} (hcl : ∀ l, (cl l).Perm l) (hop : ∀ l, (op l).Perm l) {data : Path → Bytes}
    {out : List (Q × Answer)} (hx : z.act S (.restart st cl op data) = .ok (z', out)) {sp m : String} {md : Model} {t : Tbl}
    (hs : Saved S z sp m md t) : ∃ t', Holds S z' sp m md t' ∧ abs t' = abs t := by
  refine (h.restart_kept hl hcl hop hx).2.2.2 sp m md t hs.model hs.tbl ?_
  intro file hf
  obtain ⟨R, r1, r2, r3, r4, r5, r6⟩ := hs.file
  have hsz := hs.size
  obtain ⟨w1, w2, e1, hk⟩ := Batch.kept_close hs.idle r1 r2 r3 r4 r5 (by omega)
  rw [Batch.shutdown, hs.queue] at hf
  simp only [List.length_nil, Batch.flushSome, hs.queue, Nat.min_self, if_true, Batch.Run.bind, e1] at hf
  cases hf
  exact ⟨w2, R, hk, r6⟩

/-! ### Reading -/

theorem setRow_same {t : Tbl} {i : Nat} {r : Dml.RowObj} (h : t.heap[i]? = some r) : Dml.setRow t i r = t := by
  obtain ⟨m, heap, idx, ver, q⟩ := t
  simp only [Dml.setRow, Tbl.mk.injEq, true_and, and_true]
  simp only at h
  obtain ⟨h1, h2⟩ := List.getElem?_eq_some_iff.1 h
  subst h2
  exact List.set_getElem_self h1

theorem allLoop_same {m : Model} {t : Tbl} (ht : Inv m t) (ks : List String) : ∀ (l : List (Key × Nat)), (∀ e ∈ l, e ∈ t.idx) →
    (Dml.allLoop ks l t).1 = t
  | [], _ => rfl
  | (k, i) :: l, h => by
    obtain ⟨_, r, h1, _, h2, _⟩ := ht.rows _ (h (k, i) (by simp))
    simp only at h1
    have ih := allLoop_same ht ks l fun e he => h e (by simp [he])
    rw [Dml.allLoop]
    simp only [h1]
    have hr : Dml.resolve t.model.deltas r = r := Dml.resolve_id (by rw [ht.model]; exact h2)
    simp only [hr, setRow_same h1]
    split
    · rfl
    · rcases hx : Dml.allLoop ks l t with ⟨t', o⟩
      rw [hx] at ih
      simp only at ih
      subst ih
      cases o <;> rfl

/-- A statement that only reads. -/
def Reads : Dml.Stmt → Prop
  | .select _ _ => True
  | .selectAll _ _ => True
  | _ => False

theorem exec_reads {F : Dml.FloatOps} {order : List (Key × Nat) → List (Key × Nat)} (ho : ∀ l, (order l).Perm l) {m : Model} {t : Tbl}
    (ht : Inv m t) {st : Dml.Stmt} (hs : Reads st) : (Dml.exec F order t st).1 = t := by
  cases st with
  | select fs w =>
    simp only [Dml.exec, Dml.execSelect]
    split
    · rfl
    · rename_i k _
      rcases Dml.lookup_row ht k with ⟨h1, _⟩ | ⟨i, r, h1, h2, _, _, _, h4, _⟩
      · simp [h1]
      · simp only [h1, h2, Option.bind_some, Option.map_some]
        rw [Dml.resolve_id (by rw [ht.model]; exact h4), setRow_same h2]
  | selectAll fs n =>
    simp only [Dml.exec, Dml.execSelectAll]
    split
    · rfl
    · have := allLoop_same ht (fs.getD (Dml.colNames t.model.fields)) ((order t.idx).take n)
        fun e he => (ho _).mem_iff.1 (List.mem_of_mem_take he)
      split
      · rename_i h; rw [h] at this; exact this
      · rename_i h; rw [h] at this; exact this
  | insert => exact absurd hs id
  | update => exact absurd hs id
  | delete => exact absurd hs id

theorem Saved.query {S : Setup} (hl : S.lim ≤ 2 ^ 62) {F : Dml.FloatOps} {z z' : Sys} {sp m : String} {md : Model} {t : Tbl}
    (hm : LifeOk md) (hz : SysOk S z) (h : Saved S z sp m md t) {q : Q} (hu : Usual q) (hs : Spares sp m q)
    (hF : q.1.floats = F) (ho : ∀ l, (q.1.order l).Perm l) (hr : ∀ st, stmtOn sp m q = some st → Reads st)
    {out : List (Q × Answer)} (hx : z.query S q = .ok (z', out)) :
    Saved S z' sp m md t ∧ ∀ st, stmtOn sp m q = some st → ∃ r, out = [(q, .rows r)] ∧
      Dml.SpecStep F md (abs t) st (abs t) r.norm := by
  rcases hz.query hl hu with e | ⟨z1, e, _, e2, e3, _, _⟩
  · rw [e] at hx; cases hx
  rw [e] at hx
  cases hx
  have hdrv : z'.drv sp m = z.drv sp m := by rw [e3]; simp [h.model]
  have fin : z'.srv.tbl sp m = some t → Saved S z' sp m md t := by
    intro ht
    have hm' : z'.srv.cat.models sp m = some md := by
      have h0 := ht
      unfold Srv.tbl at h0
      cases hx : z'.srv.cat.models sp m with
      | none => simp [hx] at h0
      | some md' =>
        rw [hx] at h0
        simp only [Option.map_some, Option.some.injEq] at h0
        have := h.inv.model
        rw [← h0] at this
        simp only at this
        rw [this]
    exact ⟨hm', ht, h.queue, h.inv, by rw [hdrv]; exact h.size, by rw [hdrv]; exact h.idle, by rw [hdrv]; exact h.file⟩
  obtain ⟨o, x, text, params⟩ := q
  simp only at e2 ho hF
  cases hst : stmtOn sp m (o, x, text, params) with
  | some st =>
    have hserve := stmtOn_serve hst h.tbl
    have hread := hr st hst
    have hsame := exec_reads (F := F) ho h.inv hread
    have hok' : Dml.StmtOk F md (abs t) st := by
      cases st with
      | insert d => exact absurd hread id
      | update as w => exact absurd hread id
      | _ => trivial
    have hspec := (Dml.exec_spec hm.model hm.pk ho h.inv (F := F) hok').2
    rw [hsame] at hspec
    refine ⟨fin ?_, ?_⟩
    · rw [e2, hserve, hF]
      have := tbl_setRows (t' := (Dml.exec F o.order t st).1) h.tbl (by rw [hsame])
      rw [this, hsame]
    · intro st' hst'
      cases hst'
      exact ⟨(Dml.exec F o.order t st).2, by simp only [hserve, hF], hspec⟩
  | none =>
    refine ⟨fin ?_, by simp⟩
    rw [e2]
    have ht := h.tbl
    cases hrd : read o x text params with
    | none => rw [(serve_read.2 hrd).1]; exact ht
    | some a =>
      rcases hs a hrd with hh | ⟨g1, g2⟩
      · rw [hst] at hh; cases hh
      · have f1 := execute_frame (o := o) hz.neat (x := x) g1
        have f2 := execute_frame (o := o) hz.neat (x := x) g2
        rw [serve_read.1 a hrd]
        simp only [Same] at f1 f2
        unfold Srv.tbl at ht ⊢
        rw [f1, f2]
        exact ht

theorem Saved.flush {S : Setup} {z z' : Sys} {sp m : String} {md : Model} {t : Tbl}
    (h : Saved S z sp m md t) {a b : String} {n : Nat} (hx : z.flush S a b n = .ok z') : Saved S z' sp m md t := by
  unfold Sys.flush at hx
  split at hx
  · cases hx; exact h
  · rename_i t1 ht1
    obtain ⟨⟨s, r⟩, h1, h2⟩ := bind_ok hx
    cases h2
    by_cases hab : sp = a ∧ m = b
    · obtain ⟨rfl, rfl⟩ := hab
      have : t1 = t := by have := h.tbl; rw [ht1] at this; cases this; rfl
      subst this
      simp only [Batch.flushSome, h.queue, List.length_nil, Nat.min_zero, if_true] at h1
      cases h1
      refine ⟨h.model, ?_, h.queue, h.inv, ?_, ?_, ?_⟩
      · exact tbl_setRows ht1 rfl
      · simp only [and_self, if_true]; exact h.size
      · simp only [and_self, if_true]; exact h.idle
      · simp only [and_self, if_true]; exact h.file
    · refine ⟨h.model, by rw [← h.tbl]; exact tbl_setRows_other hab, h.queue, h.inv, ?_, ?_, ?_⟩
      · simp only [hab, if_false]; exact h.size
      · simp only [hab, if_false]; exact h.idle
      · simp only [hab, if_false]; exact h.file

/-- A new installation from an old one can be started again. -/
theorem Saved.kept {S : Setup} (hl : S.lim ≤ 2 ^ 62) {z : Sys} {sp m : String} {md : Model} {t : Tbl} (h : Saved S z sp m md t) :
    ∃ file w T, Batch.shutdown S.lim ⟨z.drv sp m, t⟩ = .ok file ∧ Kept md file w T := by
  obtain ⟨R, r1, r2, r3, r4, r5, r6⟩ := h.file
  have hsz := h.size
  obtain ⟨w1, w2, e1, hk⟩ := Batch.kept_close h.idle r1 r2 r3 r4 r5 (by omega)
  refine ⟨_, w2, R, ?_, hk⟩
  rw [Batch.shutdown, h.queue]
  simp only [List.length_nil, Batch.flushSome, h.queue, Nat.min_self, if_true, Batch.Run.bind, e1]

theorem rootOps_rest (c : Cat) (st : Start) : (Gns.session c st.ops).1.spaces = c.spaces ∧
    ∀ u, u ≠ Gns.ROOT → (Gns.session c st.ops).1.users u = c.users u := by
  have key : ∀ h u, u ≠ Gns.ROOT → Gns.upd c.users Gns.ROOT h u = c.users u := fun h u hu => by simp [Gns.upd, hu]
  cases st <;> simp only [Start.ops, Gns.session, Gns.Op.run]
  · split
    · exact ⟨rfl, fun _ _ => rfl⟩
    · exact ⟨rfl, key _⟩
  · split
    · exact ⟨rfl, key _⟩
    · exact ⟨rfl, fun _ _ => rfl⟩
  · exact ⟨trivial, fun _ _ => trivial⟩

/-- The spaces and the users after a restart. -/
theorem SysOk.restart_cat {S : Setup} (hl : S.lim ≤ 2 ^ 62) {z z' : Sys} (h : SysOk S z) {st : Start}
    {cl op : List MKey → List MKey} {data : Path → Bytes}
    {out : List (Q × Answer)} (hx : z.act S (.restart st cl op data) = .ok (z', out)) :
    (∀ u, u ≠ Gns.ROOT → z'.srv.cat.users u = z.srv.cat.users u) ∧
      ∀ n, ∃ cleared, Gns.SimSpace cleared (z.srv.cat.spaces n) (z'.srv.cat.spaces n) := by
  obtain ⟨w, gw, t, r, c1, c2, c3, c4, c5⟩ := h.closed hl
  rw [Sys.act] at hx
  obtain ⟨d, x1, x2⟩ := bind_ok hx
  obtain ⟨z1, x3, x4⟩ := bind_ok x2
  cases x4
  rw [Sys.stop, c1] at x1
  simp only at x1
  obtain ⟨f, y1, y2⟩ := bind_ok x1
  cases y2
  rw [boot] at x3
  simp only [c2] at x3
  obtain ⟨gw1, v1, v2⟩ := bind_ok x3
  obtain ⟨l, v3, v4⟩ := bind_ok v2
  obtain ⟨gw2, v5, v6⟩ := bind_ok v4
  cases v6
  obtain ⟨q1, q2⟩ := rootOps_rest r st
  refine ⟨fun u hu => ?_, fun n => ⟨t n, ?_⟩⟩
  · rw [← c5.users]; exact q2 u hu
  · have := c5.spaces n
    simp only [q1]
    exact this

end Verif.Server
