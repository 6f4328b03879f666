import Verif.Gns.CatTheorems
import Verif.Enc.Theorems
import Verif.Journal.Theorems
/-!
C09 and C35: the property theorems, for whole histories of the server.
-/
namespace Verif.Gns
open Verif.Enc (DVal Dict Uuid SpaceId ModelId Layout Fields Event)

theorem Cat.empty_consistent : Consistent Cat.empty := by
  refine ⟨?_, ?_, ?_, ?_⟩ <;> simp [Cat.empty]

theorem applyAll_append {c r : Cat} : ∀ {a b : List Event} {c1 : Cat}, applyAll c a = .ok c1 →
    applyAll c1 b = .ok r → applyAll c (a ++ b) = .ok r := by
  intro a
  induction a generalizing c with
  | nil => intro b c1 h h'; cases h; exact h'
  | cons e es ih =>
    intro b c1 h h'
    obtain ⟨c2, h1, h2⟩ := Res.bind_eq_ok h
    show (apply c e).bind _ = _
    rw [h1]
    exact ih h2 h'

theorem cleared_append (a b : List Event) : cleared (a ++ b) = b.foldl mark (cleared a) := by
  simp [cleared]

/-- One session, on any rebuilt copy. -/
theorem session_ok : ∀ {os : List Op} {c c' : Cat} {es : List Event}, session c os = (c', es) →
    Consistent c → (∀ o ∈ os, o.ok ∧ ¬ o.lostDrop) →
    Consistent c' ∧ (∀ e ∈ es, EvOk e) ∧
    ((∀ o ∈ os, ¬ o.nullKey) → KeysNonNull c → KeysNonNull c') ∧
    ∀ t r, Rebuilt t c r → ∃ r', applyAll r es = .ok r' ∧ Rebuilt (es.foldl mark t) c' r'
  | [], c, c', es, h, hc, _ => by
    cases h
    exact ⟨hc, by simp, fun _ h => h, fun t r hr => ⟨r, rfl, hr⟩⟩
  | o :: os, c, c', es, h, hc, ho => by
    obtain ⟨ho1, ho2⟩ := ho o (by simp)
    have hs := step_ok o hc ho1 ho2
    rw [session] at h
    generalize hx : session (o.run c).cat os = x at h
    obtain ⟨c1, es1⟩ := x
    simp only [Prod.mk.injEq] at h
    obtain ⟨rfl, rfl⟩ := h
    obtain ⟨i1, i2, i3, i4⟩ := session_ok hx hs.cons fun o ho' => ho o (List.mem_cons_of_mem _ ho')
    refine ⟨i1, ?_, ?_, ?_⟩
    · intro e he
      rcases List.mem_append.1 he with he | he
      · exact (hs.ev e (by simpa using he)).1
      · exact i2 e he
    · intro hn hk
      exact i3 (fun o ho' => hn o (List.mem_cons_of_mem _ ho')) (hs.keys (hn o (by simp)) hk)
    · intro t r hr
      cases hev : (o.run c).ev with
      | none =>
        have := hs.keep hev
        rw [this] at i4
        exact i4 t r hr
      | some e =>
        obtain ⟨r1, h1, h2⟩ := (hs.ev e hev).2 t r hr
        obtain ⟨r', h3, h4⟩ := i4 _ r1 h2
        refine ⟨r', ?_, h4⟩
        show (apply r e).bind _ = _
        rw [h1]
        exact h3

/-- A rebuilt catalogue is a rebuilt copy of itself, and as consistent as the live one. -/
theorem Rebuilt.restart {t : String → Bool} {c r : Cat} (h : Rebuilt t c r) : Rebuilt t r r := by
  refine ⟨rfl, rfl, fun n => ?_⟩
  have hs := h.spaces n
  generalize c.spaces n = a at hs
  generalize r.spaces n = b at hs
  cases hs with
  | none => exact .none
  | some hp =>
    refine .some ?_
    rename_i p q
    cases ht : t n with
    | true => rw [ht] at hp; exact hp
    | false =>
      rw [ht] at hp
      obtain ⟨⟨hs⟩, ⟨m, hm⟩, ho⟩ : Same p q ∧ EnvOnly p := hp
      refine show Same q q ∧ EnvOnly q from ⟨Same.refl _, ?_, fun k hk => ?_⟩
      · have := hs ENV
        rw [hm] at this
        generalize get q ENV = y at this
        cases this with
        | map h => exact ⟨_, rfl⟩
      · have := hs k
        rw [ho k hk] at this
        generalize get q k = y at this
        cases this
        rfl

theorem Rebuilt.consistent {t : String → Bool} {c r : Cat} (h : Rebuilt t c r) (hc : Consistent c) :
    Consistent r := by
  refine ⟨?_, ?_, ?_, ?_⟩
  · intro s sp n hs hn
    have := h.spaces s
    rw [hs] at this
    generalize hx : c.spaces s = x at this
    cases this with
    | some _ => rw [h.models]; exact hc.listed s _ n hx hn
  · intro s n m hm
    rw [h.models] at hm
    obtain ⟨sp, a, b⟩ := hc.owned s n m hm
    obtain ⟨q, hq, _⟩ := simSpace_get (h.spaces s) a
    exact ⟨_, hq, b⟩
  · intro s sp hs
    have := h.spaces s
    rw [hs] at this
    generalize hx : c.spaces s = x at this
    cases this with
    | some _ => have := hc.nodup s _ hx; exact this
  · intro s n m hm
    rw [h.models] at hm
    exact hc.models s n m hm

/-- Sessions with restarts between them. -/
theorem life_ok : ∀ {ss : List (List Op)} {log : List Event} {c : Cat}, ss ≠ [] → Consistent c →
    (∃ r, applyAll Cat.empty log = .ok r ∧ Rebuilt (cleared log) c r) → (∀ e ∈ log, EvOk e) →
    (∀ s ∈ ss, ∀ o ∈ s, o.ok ∧ ¬ o.lostDrop) →
    ∃ c' ess r', life log c ss = some (c', ess) ∧ ess.length = ss.length ∧ Consistent c' ∧
      (∀ e ∈ log ++ ess.flatten, EvOk e) ∧
      ((∀ s ∈ ss, ∀ o ∈ s, ¬ o.nullKey) → KeysNonNull c → KeysNonNull c') ∧
      applyAll Cat.empty (log ++ ess.flatten) = .ok r' ∧ Rebuilt (cleared (log ++ ess.flatten)) c' r'
  | [], log, c, h, _, _, _, _ => absurd rfl h
  | s :: ss, log, c, _, hc, ⟨r, hr1, hr2⟩, hl, ho => by
    generalize hx : session c s = x
    obtain ⟨c1, es⟩ := x
    obtain ⟨i1, i2, i3, i4⟩ := session_ok hx hc (ho s (by simp))
    obtain ⟨r1, h1, h2⟩ := i4 _ r hr2
    rw [← cleared_append] at h2
    have ha := applyAll_append hr1 h1
    have hle : ∀ e ∈ log ++ es, EvOk e := by
      intro e he
      rcases List.mem_append.1 he with he | he
      · exact hl e he
      · exact i2 e he
    rw [life, hx]
    simp only
    cases ss with
    | nil =>
      have e : log ++ [es].flatten = log ++ es := by simp
      refine ⟨c1, [es], r1, rfl, rfl, i1, ?_, fun hn => i3 (hn s (by simp)), ?_, ?_⟩ <;> rw [e]
      · exact hle
      · exact ha
      · exact h2
    | cons s' ss =>
      rw [if_neg (by simp), ha]
      simp only
      obtain ⟨c', ess, r', j1, j2, j3, j4, j5, j6, j7⟩ := life_ok (ss := s' :: ss) (log := log ++ es) (c := r1)
        (by simp) (h2.consistent i1) ⟨r1, ha, h2.restart⟩ hle fun x hx => ho x (List.mem_cons_of_mem _ hx)
      rw [j1]
      refine ⟨c', es :: ess, r', rfl, by simp [j2], j3, ?_, ?_, ?_, ?_⟩
      · simpa using j4
      · intro hn hk
        refine j5 (fun x hx => hn x (List.mem_cons_of_mem _ hx)) ?_
        intro a b m hm
        rw [h2.models] at hm
        exact i3 (hn s (by simp)) hk a b m hm
      · simpa using j6
      · simpa using j7

/-! ### The log on disk -/

/-- The event as it is committed to the journal. -/
def toEv (e : Event) : Journal.Ev := ⟨e.code, e.encode⟩

/-- `decode_apply` of the catalogue log (`gns/mod.rs:72-90`): decode, apply, and only then check that the
payload was consumed. -/
def gnsApply (c : Cat) (e : Journal.Ev) : Res Journal.SErr Cat :=
  match Enc.decodeEvent e.kind e.payload with
  | .ok (ev, rest) =>
    match apply c ev with
    | .ok c => if rest = [] then .ok c else .err .apply
    | .err _ => .err .apply
    | .panic => .panic
    | .hang => .hang
  | .err _ => .err .apply
  | .panic => .panic
  | .hang => .hang

/-- An event of an unknown kind aborts the start. -/
theorem gnsApply_unknown (c : Cat) (e : Journal.Ev) (h : 11 ≤ e.kind) : gnsApply c e = .panic := by
  simp only [gnsApply, Enc.decodeEvent_unknown e.kind e.payload h]

mutual
theorem wf_cell : ∀ (c : Cell), TypedCell c → (Enc.encCell c).length < 2 ^ 64 → Enc.Wf c
  | .null, _, _ => True.intro
  | .bool _, _, _ => True.intro
  | .uint _ _, h, _ => h
  | .sint _ _, h, _ => h
  | .float _ _, h, _ => h
  | .bin b, _, hl => by
    simp only [Enc.encCell, List.length_append] at hl
    rw [Enc.Wf]; omega
  | .str s, _, hl => by
    simp only [Enc.encCell, List.length_append] at hl
    rw [Enc.Wf]; omega
  | .list l, h, hl => by
    simp only [Enc.encCell, List.length_append] at hl
    obtain ⟨a, b⟩ := wf_list l h (by omega)
    exact ⟨by omega, b⟩
theorem wf_list : ∀ (l : List Cell), TypedCell.TypedCells l → (Enc.encList l).length < 2 ^ 64 →
    l.length ≤ (Enc.encList l).length ∧ Enc.WfList l
  | [], _, _ => ⟨by simp, True.intro⟩
  | c :: cs, h, hl => by
    simp only [Enc.encList, List.length_append, List.length_cons] at hl ⊢
    obtain ⟨a, b⟩ := wf_list cs h.2 (by omega)
    exact ⟨by omega, wf_cell c h.1 (by omega), b⟩
end

theorem get_none_all {es : Dict} {k : String} (h : get es k = none) : (es.all fun e => e.1 != k) = true := by
  induction es with
  | nil => rfl
  | cons e es ih =>
    obtain ⟨x, v⟩ := e
    rw [get] at h
    split at h
    · cases h
    · rename_i hx
      simp only [List.all_cons, Bool.and_eq_true, bne_iff_ne, ne_eq]
      exact ⟨hx, ih h⟩

mutual
theorem wf_val : ∀ (v : DVal) (k : String), DistinctVal v → TypedVal v → (Enc.encEntry k v).length < 2 ^ 64 →
    (encStr k).length < 2 ^ 64 ∧ Enc.WfVal v
  | .data c, k, _, ht, hl => by
    simp only [Enc.encEntry, List.length_append, List.length_cons] at hl
    exact ⟨by omega, wf_cell c ht (by omega)⟩
  | .map d, k, hd, ht, hl => by
    simp only [Enc.encEntry, List.length_append, List.length_cons] at hl
    obtain ⟨a, b⟩ := wf_dict d hd ht (by omega)
    exact ⟨by omega, by omega, b⟩
theorem wf_dict : ∀ (d : Dict), Distinct d → Typed d → (Enc.encDict d).length < 2 ^ 64 →
    d.length ≤ (Enc.encDict d).length ∧ Enc.WfDict d
  | [], _, _, _ => ⟨by simp, True.intro⟩
  | (k, v) :: es, hd, ht, hl => by
    simp only [Enc.encDict, List.length_append, le_length, List.length_cons] at hl ⊢
    obtain ⟨a, b⟩ := wf_dict es hd.2.2 ht.2 (by omega)
    obtain ⟨x, y⟩ := wf_val v k hd.2.1 ht.1 (by omega)
    exact ⟨by omega, x, y, get_none_all hd.1, b⟩
end

theorem wf_layers : ∀ {ts : List Tag}, LegalType ts → Enc.WfLayers ts
  | [], h => by obtain ⟨n, t, _, h⟩ := h; simp at h
  | [t], h => by
    rcases legal_cons h with ⟨_, h⟩ | ⟨_, n, u, _, h⟩
    · show t.cls ≠ .list
      cases t <;> simp_all [Tag.cls]
    · simp at h
  | t :: u :: ts, h => by
    rcases legal_cons h with ⟨h, _⟩ | ⟨h, h2⟩
    · cases h
    · exact ⟨by rw [h]; rfl, wf_layers h2⟩

theorem wf_fields : ∀ {fs : Fields}, FieldsOk fs → (Enc.encFields fs).length < 2 ^ 64 →
    fs.length ≤ (Enc.encFields fs).length ∧ Enc.WfFields fs
  | [], _, _ => ⟨by simp, True.intro⟩
  | (k, f) :: es, h, hl => by
    have h1 := h.1
    simp only [names_cons, List.nodup_cons] at h1
    simp only [Enc.encFields, List.length_append, List.length_cons, le_length, List.length_nil,
      Enc.encLayers_length] at hl ⊢
    obtain ⟨a, b⟩ := wf_fields (fs := es) ⟨h1.2, fun e he => h.2 e (List.mem_cons_of_mem _ he)⟩ (by omega)
    refine ⟨by omega, by omega, by omega, wf_layers (h.2 (k, f) (by simp)), ?_, b⟩
    simp only [List.all_eq_true, bne_iff_ne, ne_eq]
    rintro e he rfl
    exact h1.1 (List.mem_map.2 ⟨e, he, rfl⟩)

theorem names_small : ∀ (ns : List String), (Enc.encNames ns).length < 2 ^ 62 →
    8 * ns.length ≤ (Enc.encNames ns).length ∧ ∀ n ∈ ns, (encStr n).length < 2 ^ 64
  | [], _ => by simp
  | n :: ns, h => by
    simp only [Enc.encNames, List.length_append, Enc.slen, le_length, List.length_cons] at h ⊢
    obtain ⟨a, b⟩ := names_small ns (by omega)
    refine ⟨by omega, ?_⟩
    intro x hx
    rcases List.mem_cons.1 hx with rfl | hx
    · omega
    · exact b x hx

/-- Every committed event is one that its encoding preserves, if it is not absurdly large. -/
theorem wf_event (e : Event) (h : EvOk e) (hl : e.encode.length < 2 ^ 62) : Enc.WfEvent e := by
  cases e with
  | createSpace n u p =>
    simp only [Event.encode, List.length_append] at hl
    obtain ⟨a, b⟩ := wf_dict p h.1 h.2 (by omega)
    exact ⟨by omega, by omega, b⟩
  | alterSpace i p =>
    simp only [Event.encode, List.length_append, SpaceId.obj] at hl
    obtain ⟨a, b⟩ := wf_dict p h.1 h.2 (by omega)
    exact ⟨by omega, by omega, b⟩
  | dropSpace i =>
    simp only [Event.encode, List.length_append, SpaceId.obj] at hl
    show _ < _
    omega
  | createModel i n l =>
    simp only [Event.encode, List.length_append, SpaceId.obj, Layout.obj] at hl
    obtain ⟨a, b⟩ := wf_fields h (by omega)
    exact ⟨by omega, by omega, by omega, by omega, b⟩
  | alterAdd i fs =>
    simp only [Event.encode, List.length_append, SpaceId.obj, ModelId.obj] at hl
    obtain ⟨a, b⟩ := wf_fields h (by omega)
    exact ⟨by omega, by omega, by omega, b⟩
  | alterUpdate i fs =>
    simp only [Event.encode, List.length_append, SpaceId.obj, ModelId.obj] at hl
    obtain ⟨a, b⟩ := wf_fields h (by omega)
    exact ⟨by omega, by omega, by omega, b⟩
  | alterRemove i ns =>
    simp only [Event.encode, List.length_append, SpaceId.obj, ModelId.obj] at hl
    obtain ⟨a, b⟩ := names_small ns (by omega)
    exact ⟨by omega, by omega, by omega, b⟩
  | dropModel i =>
    simp only [Event.encode, List.length_append, SpaceId.obj, ModelId.obj] at hl
    exact ⟨by omega, by omega⟩
  | createUser n p =>
    simp only [Event.encode, List.length_append] at hl
    exact ⟨by omega, by omega⟩
  | alterUser n p =>
    simp only [Event.encode, List.length_append] at hl
    exact ⟨by omega, by omega⟩
  | dropUser n =>
    simp only [Event.encode, List.length_append] at hl
    show _ < _
    omega

theorem replay_of_applyAll : ∀ {es : List Event} {c r : Cat}, applyAll c es = .ok r →
    (∀ e ∈ es, Enc.WfEvent e) → Journal.replay gnsApply c (es.map toEv) = .ok r
  | [], c, r, h, _ => by
    cases h
    rfl
  | e :: es, c, r, h, hw => by
    obtain ⟨c1, h1, h2⟩ := Res.bind_eq_ok h
    show (gnsApply c (toEv e)).bind _ = _
    have : gnsApply c (toEv e) = .ok c1 := by
      simp only [gnsApply, toEv, Enc.C08_nothing_left_over e (hw e (by simp)), h1]
      simp
    rw [this]
    exact replay_of_applyAll h2 fun x hx => hw x (List.mem_cons_of_mem _ hx)

end Verif.Gns
