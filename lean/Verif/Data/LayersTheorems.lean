import Verif.Data.Layers
import Verif.Lex.RawTheorems
/-!
C30 (only values of the declared type are stored) and C39 (declared types are recognised exactly).
-/
namespace Verif

open Lex (ascii)

/-! ### Specification -/

/-- The documented name of a type. -/
def Tag.typeName : Tag → String
  | .bool => "bool" | .uint8 => "uint8" | .uint16 => "uint16" | .uint32 => "uint32"
  | .uint64 => "uint64" | .sint8 => "sint8" | .sint16 => "sint16" | .sint32 => "sint32"
  | .sint64 => "sint64" | .float32 => "float32" | .float64 => "float64" | .binary => "binary"
  | .string => "string" | .list => "list"

/-- A legal column type: any number of `list` layers around one layer that is not a list. -/
def LegalType (ts : List Tag) : Prop := ∃ n t, t ≠ .list ∧ ts = List.replicate n .list ++ [t]

/-- A value that is not a list fits a type that is not a list. -/
def ScalarFits : Tag → Cell → Prop
  | .bool, .bool _ => True
  | .uint8, .uint _ v => v.toNat < 2 ^ 8
  | .uint16, .uint _ v => v.toNat < 2 ^ 16
  | .uint32, .uint _ v => v.toNat < 2 ^ 32
  | .uint64, .uint _ _ => True
  | .sint8, .sint _ v => -2 ^ 7 ≤ v.toInt ∧ v.toInt < 2 ^ 7
  | .sint16, .sint _ v => -2 ^ 15 ≤ v.toInt ∧ v.toInt < 2 ^ 15
  | .sint32, .sint _ v => -2 ^ 31 ≤ v.toInt ∧ v.toInt < 2 ^ 31
  | .sint64, .sint _ _ => True
  | .float32, .float _ v => v.mag ≤ F64.f32Max.mag   -- not NaN and not beyond the largest single
  | .float64, .float _ v => v.mag < 0x7FF0000000000000   -- finite
  | .binary, .bin _ => True
  | .string, .str _ => True
  | _, _ => False

/-- A value fits a type. -/
def Fits : List Tag → Cell → Prop
  | [t], v => ScalarFits t v
  | .list :: ts, .list vs => ∀ v ∈ vs, Fits ts v
  | _, _ => False

/-- The same value, with its numbers marked as having the declared width. -/
def retag : List Tag → Cell → Cell
  | [t], .uint _ v => .uint t v
  | [t], .sint _ v => .sint t v
  | [t], .float _ v => .float t v
  | _ :: ts, .list vs => .list (vs.map (retag ts))
  | _, v => v

mutual
/-- No null occurs inside a list, at any depth. -/
def Cell.noNullInside : Cell → Bool
  | .list vs => noNullList vs
  | _ => true
def noNullList : List Cell → Bool
  | [] => true
  | v :: vs => !v.isNull && v.noNullInside && noNullList vs
end

/-! ### Helper lemmas -/

theorem tyLut_facts : ∀ x ∈ tyLut, getLayer x.1 = some x.2 ∧ x.1 = ascii x.2.typeName := by
  decide +kernel

theorem tyLut_mem (t : Tag) : (ascii t.typeName, t) ∈ tyLut := by
  cases t <;> decide +kernel

theorem noNullList_iff {vs : List Cell} :
    noNullList vs = true ↔ ∀ v ∈ vs, v.isNull = false ∧ v.noNullInside = true := by
  induction vs with
  | nil => simp [noNullList]
  | cons v vs ih => simp [noNullList, ih, and_assoc]

theorem uintCheck_iff (t t' : Tag) (v : UInt64) (h : t.cls = .uint) :
    uintCheck t v = true ↔ ScalarFits t (.uint t' v) := by
  have := v.toNat_lt
  cases t <;> simp_all [uintCheck, ScalarFits, Tag.cls] <;> omega

theorem sintCheck_iff (t t' : Tag) (v : Int64) (h : t.cls = .sint) :
    sintCheck t v = true ↔ ScalarFits t (.sint t' v) := by
  have h1 := v.toInt_lt
  have h2 := v.le_toInt
  cases t <;> simp_all [sintCheck, ScalarFits, Tag.cls] <;> omega

theorem le_between {lo hi v : F64} (hlo : lo.isNan = false) (hhi : hi.isNan = false)
    (hn : lo.neg = true) (hp : hi.neg = false) (hm : lo.mag = hi.mag) (hm' : hi.mag < 0x7FF0000000000000) :
    (lo.le v && v.le hi) = true ↔ v.mag ≤ hi.mag := by
  unfold F64.le F64.key
  simp only [hlo, hhi, hn, hp, hm, Bool.not_false, Bool.true_and, Bool.and_true, Bool.and_eq_true,
    decide_eq_true_eq, if_true, Bool.false_eq_true, if_false, Bool.not_eq_true']
  have hnan : v.isNan = false ↔ v.mag ≤ 0x7FF0000000000000 := by
    unfold F64.isNan; simp
  rw [hnan]
  split <;> omega

theorem floatCheck_iff (t t' : Tag) (v : F64) (h : t.cls = .float) :
    floatCheck t v = true ↔ ScalarFits t (.float t' v) := by
  cases t <;> simp only [Tag.cls, reduceCtorEq] at h
  · exact le_between (by decide +kernel) (by decide +kernel) (by decide +kernel) (by decide +kernel)
      (by decide +kernel) (by decide +kernel)
  · have := le_between (lo := F64.f64Min) (hi := F64.f64Max) (v := v) (by decide +kernel)
      (by decide +kernel) (by decide +kernel) (by decide +kernel) (by decide +kernel) (by decide +kernel)
    unfold floatCheck ScalarFits
    simp only
    rw [this]
    have : F64.f64Max.mag = 0x7FEFFFFFFFFFFFFF := by decide +kernel
    omega

/-- The check on a value that is not a list and not null. -/
theorem vtfn_scalar {t : Tag} {d : Cell} (ht : t ≠ .list) (hd : d.isNull = false) (hk : t.cls = d.kind) :
    ((vtfn t d).1 = true ↔ ScalarFits t d) ∧ (vtfn t d).2 = retag [t] d := by
  cases d with
  | null => simp [Cell.isNull] at hd
  | bool b => cases t <;> simp_all [Tag.cls, Cell.kind, vtfn, ScalarFits, retag]
  | uint t' v => exact ⟨by simpa [vtfn] using uintCheck_iff t t' v hk, rfl⟩
  | sint t' v => exact ⟨by simpa [vtfn] using sintCheck_iff t t' v hk, rfl⟩
  | float t' v => exact ⟨by simpa [vtfn] using floatCheck_iff t t' v hk, rfl⟩
  | bin b => cases t <;> simp_all [Tag.cls, Cell.kind, vtfn, ScalarFits, retag]
  | str b => cases t <;> simp_all [Tag.cls, Cell.kind, vtfn, ScalarFits, retag]
  | list l => cases t <;> simp_all [Tag.cls, Cell.kind]

theorem scalarFits_kind {t : Tag} {d : Cell} (h : ScalarFits t d) : t.cls = d.kind ∧ t ≠ .list := by
  unfold ScalarFits at h
  split at h <;> first | exact ⟨rfl, by simp⟩ | exact absurd h (by simp)

/-- Neither check panics, and both decide `Fits`. -/
theorem rvtData_spec (n : Nat) (t : Tag) (ht : t ≠ .list) : ∀ (d : Cell), d.isNull = false →
    d.noNullInside = true → ∃ b d', rvtData (List.replicate n .list ++ [t]) d = .ok (b, d') ∧
      (b = true ↔ Fits (List.replicate n .list ++ [t]) d) ∧
      (b = true → d' = retag (List.replicate n .list ++ [t]) d) := by
  induction n with
  | zero =>
    intro d hd hn
    simp only [List.replicate_zero, List.nil_append]
    have hfit : Fits [t] d = ScalarFits t d := by unfold Fits; rfl
    rw [hfit]
    have hr : rvtData [t] d = if t.cls = d.kind then .ok (vtfn t d) else .ok (false, d) := by
      cases t <;> cases d <;> first | rfl | exact absurd rfl ht
    rw [hr]
    by_cases hk : t.cls = d.kind
    · have := vtfn_scalar ht hd hk
      rw [if_pos hk]
      exact ⟨(vtfn t d).1, (vtfn t d).2, rfl, this.1, fun _ => this.2⟩
    · rw [if_neg hk]
      exact ⟨false, d, rfl, by simpa using fun h => hk (scalarFits_kind h).1, by simp⟩
  | succ n ih =>
    intro d hd hn
    have hrep : List.replicate (n + 1) Tag.list ++ [t] = .list :: (List.replicate n .list ++ [t]) := by
      simp [List.replicate_succ]
    rw [hrep]
    generalize hts : List.replicate n Tag.list ++ [t] = ts at *
    have hne : ts ≠ [] := by rw [← hts]; simp
    cases d with
    | list vs =>
      have hfit : Fits (.list :: ts) (.list vs) = ∀ v ∈ vs, Fits ts v := by
        cases ts with
        | nil => exact absurd rfl hne
        | cons a ts => rfl
      have hret : retag (.list :: ts) (.list vs) = .list (vs.map (retag ts)) := by
        cases ts <;> rfl
      have hvs := noNullList_iff.mp (show noNullList vs = true from hn)
      have key : ∀ vs : List Cell, (∀ v ∈ vs, v.isNull = false ∧ v.noNullInside = true) →
          ∃ b vs', rvtList ts vs = .ok (b, vs') ∧ (b = true ↔ ∀ v ∈ vs, Fits ts v) ∧
            (b = true → vs' = vs.map (retag ts)) := by
        intro vs
        induction vs with
        | nil => intro _; exact ⟨true, [], by simp [rvtList], by simp, by simp⟩
        | cons v vs ih2 =>
          intro hall
          obtain ⟨b, v', e1, e2, e3⟩ := ih v (hall v (by simp)).1 (hall v (by simp)).2
          cases b with
          | false =>
            refine ⟨false, v' :: vs, by simp [rvtList, e1], ?_, by simp⟩
            simp only [Bool.false_eq_true, false_iff] at e2 ⊢
            intro h; exact e2 (h v (by simp))
          | true =>
            obtain ⟨b2, vs', f1, f2, f3⟩ := ih2 (fun w hw => hall w (by simp [hw]))
            refine ⟨b2, v' :: vs', by simp [rvtList, e1, f1], ?_, ?_⟩
            · simp only [List.mem_cons, forall_eq_or_imp, f2]
              exact ⟨fun h => ⟨e2.mp rfl, h⟩, fun h => h.2⟩
            · intro hb; rw [List.map_cons, f3 hb, e3 rfl]
      obtain ⟨b, vs', e1, e2, e3⟩ := key vs hvs
      refine ⟨b, .list vs', by simp [rvtData, e1], by rw [hfit]; exact e2, fun hb => by rw [hret, e3 hb]⟩
    | null => simp [Cell.isNull] at hd
    | _ =>
      refine ⟨false, _, by simp [rvtData, Tag.cls, Cell.kind]; rfl, ?_, by simp⟩
      cases ts with
      | nil => exact absurd rfl hne
      | cons a ts => simp [Fits]

/-! ### Property theorems -/

/-- **C30.** For every legal column type, nullable or not, and every value (whose lists contain no
null, which the parser guarantees): the check answers without a panic, accepts the value exactly if
it is null and the column is nullable or it fits the declared type, and an accepted value is
stored unchanged except that its numbers take the declared width. -/
theorem C30_insert_accepts_exactly_the_type (layers : List Tag) (hl : LegalType layers) (nullable : Bool)
    (d : Cell) (hd : d.noNullInside = true) :
    ∃ b d', (⟨layers, nullable⟩ : Field).vtData d = .ok (b, d') ∧
      (b = true ↔ (d.isNull = true ∧ nullable = true) ∨ Fits layers d) ∧
      (b = true → d' = retag layers d) := by
  obtain ⟨n, t, ht, rfl⟩ := hl
  by_cases hnull : d.isNull = true
  · have : d = .null := by cases d <;> simp_all [Cell.isNull]
    subst this
    have hnf : ¬ Fits (List.replicate n .list ++ [t]) .null := by
      cases n with
      | zero => simp only [List.replicate_zero, List.nil_append, Fits]; cases t <;> simp [ScalarFits]
      | succ n => cases n <;> simp [List.replicate_succ, Fits]
    have hret : retag (List.replicate n .list ++ [t]) .null = .null := by
      cases n with
      | zero => simp [retag]
      | succ n => cases n <;> simp [List.replicate_succ, retag]
    obtain ⟨l, ls, hls⟩ : ∃ l ls, List.replicate n Tag.list ++ [t] = l :: ls := by
      cases n with
      | zero => exact ⟨t, [], rfl⟩
      | succ n => exact ⟨_, _, by rw [List.replicate_succ, List.cons_append]⟩
    cases nullable with
    | true =>
      refine ⟨true, .null, ?_, by simp [Cell.isNull], fun _ => hret.symm⟩
      unfold Field.vtData
      simp [hls, Cell.isNull, vtfn]
    | false =>
      refine ⟨false, .null, ?_, by simp [hnf], by simp⟩
      unfold Field.vtData
      simp [hls, Cell.isNull]
  · have hn : d.isNull = false := by simpa using hnull
    cases n with
    | zero =>
      simp only [List.replicate_zero, List.nil_append]
      have hfit : Fits [t] d = ScalarFits t d := by unfold Fits; rfl
      rw [hfit]
      by_cases hk : t.cls = d.kind
      · have := vtfn_scalar ht hn hk
        refine ⟨(vtfn t d).1, (vtfn t d).2, ?_, ?_, fun _ => this.2⟩
        · unfold Field.vtData; simp [hn, hk]
        · rw [this.1]; simp [hn]
      · refine ⟨false, d, ?_, ?_, by simp⟩
        · unfold Field.vtData; simp [hn, hk]
        · simpa [hn] using fun h => hk (scalarFits_kind h).1
    | succ n =>
      obtain ⟨b, d', e1, e2, e3⟩ := rvtData_spec (n + 1) t ht d hn hd
      refine ⟨b, d', ?_, by rw [e2]; simp [hn], e3⟩
      rw [← e1]
      unfold Field.vtData
      simp [List.replicate_succ, hn]

/-- Non-vacuity of C30: a list of lists of `uint8`; a good value, and one that is out of range in an
inner list. -/
example : LegalType [.list, .list, .uint8] ∧
    (Cell.list [.list [.uint .uint64 7], .list []]).noNullInside = true ∧
    Fits [.list, .list, .uint8] (.list [.list [.uint .uint64 7], .list []]) ∧
    ¬ Fits [.list, .list, .uint8] (.list [.list [.uint .uint64 256], .list []]) := by
  refine ⟨⟨2, .uint8, by simp, rfl⟩, by decide, ?_, ?_⟩
  · simp [Fits, ScalarFits]
  · simp [Fits, ScalarFits]

/-- **C39, names.** For every byte string and every type: the name is taken as that type exactly if
it is the documented name of the type. -/
theorem C39_type_name_exact (k : Bytes) (t : Tag) : getLayer k = some t ↔ k = ascii t.typeName := by
  constructor
  · intro h
    unfold getLayer at h
    split at h
    · rename_i n t' hm
      split at h
      · cases h
        rename_i he
        subst he
        exact (tyLut_facts _ (List.mem_of_getElem? hm)).2
      · cases h
    · cases h
  · rintro rfl
    exact (tyLut_facts _ (tyLut_mem t)).1

example : getLayer (ascii "uint8") = some .uint8 ∧ getLayer (ascii "UINT8") = none := by decide +kernel

theorem parseLayersLoop_spec (ls : List LayerSpec) (view : List Tag) :
    let x := parseLayersLoop ls true false view
    ∀ ts, ((x.2.1 && (x.2.2.1 && x.1.isEmpty)) = true ∧ x.2.2.2 = view ++ ts) ↔
      (LegalType ts ∧ ls = ts.map fun t => ⟨ascii t.typeName, true⟩) := by
  intro x ts
  induction ls generalizing view ts with
  | nil =>
    simp only [x, parseLayersLoop]
    constructor
    · simp
    · rintro ⟨⟨n, t, -, rfl⟩, h⟩; simp at h
  | cons l ls ih =>
    simp only [x]
    unfold parseLayersLoop
    simp only [Bool.not_false, Bool.and_self, if_true, Bool.true_and]
    cases hg : getLayer l.ty with
    | none =>
      have hstop : parseLayersLoop ls false false view = (ls, false, false, view) := by
        cases ls <;> simp [parseLayersLoop]
      rw [hstop]
      simp only [Bool.false_and, Bool.false_eq_true, false_and, false_iff]
      rintro ⟨-, h⟩
      cases ts with
      | nil => simp at h
      | cons t ts =>
        simp only [List.map_cons, List.cons.injEq] at h
        have := (C39_type_name_exact l.ty t).2 (by rw [h.1])
        rw [hg] at this; cases this
    | some t =>
      have hty := (C39_type_name_exact l.ty t).1 hg
      have hnm : ∀ t', ascii t.typeName = ascii t'.typeName → t = t' := by
        intro t' h
        have h1 := (C39_type_name_exact (ascii t.typeName) t).2 rfl
        rw [h, (C39_type_name_exact (ascii t'.typeName) t').2 rfl] at h1
        exact (Option.some.inj h1).symm
      cases hp : l.propsEmpty with
      | false =>
        have hstop : ∀ f v, parseLayersLoop ls false f v = (ls, false, f, v) := by
          intro f v; cases ls <;> simp [parseLayersLoop]
        simp only [hstop, Bool.false_and, Bool.false_eq_true, false_and, false_iff]
        rintro ⟨-, h⟩
        cases ts with
        | nil => simp at h
        | cons t ts =>
          simp only [List.map_cons, List.cons.injEq] at h
          rw [h.1] at hp; simp at hp
      | true =>
        have hl : l = ⟨ascii t.typeName, true⟩ := by cases l; simp_all
        by_cases hlist : t = .list
        · subst hlist
          simp only [ne_eq, not_true, decide_false]
          cases ts with
          | nil =>
            constructor
            · rintro ⟨-, h⟩
              exfalso
              have mono : ∀ (ls : List LayerSpec) o f v, v.length ≤ (parseLayersLoop ls o f v).2.2.2.length := by
                intro ls
                induction ls with
                | nil => intro o f v; simp [parseLayersLoop]
                | cons a ls ih =>
                  intro o f v
                  unfold parseLayersLoop
                  split
                  · simp only
                    split
                    · refine Nat.le_trans ?_ (ih _ _ _); simp
                    · exact ih _ _ _
                  · simp
              have := mono ls true false (view ++ [.list])
              rw [h] at this; simp at this; omega
            · rintro ⟨-, h⟩; simp at h
          | cons t' ts =>
            have := ih (view ++ [.list]) ts
            simp only [List.append_assoc, List.singleton_append] at this
            by_cases ht' : t' = .list
            · subst ht'
              rw [this]
              have e1 : LegalType (.list :: ts) ↔ LegalType ts := by
                constructor
                · rintro ⟨n, t, h1, h2⟩
                  cases n with
                  | zero => simp at h2; exact absurd h2.1.symm h1
                  | succ n => exact ⟨n, t, h1, by simpa [List.replicate_succ] using h2⟩
                · rintro ⟨n, t, h1, rfl⟩
                  exact ⟨n + 1, t, h1, by simp [List.replicate_succ]⟩
              rw [e1, List.map_cons, hl]
              simp
            · constructor
              · rintro ⟨-, h⟩
                exfalso
                have pre : ∀ (ls : List LayerSpec) o f v, v <+: (parseLayersLoop ls o f v).2.2.2 := by
                  intro ls
                  induction ls with
                  | nil => intro o f v; simp [parseLayersLoop]
                  | cons a ls ih =>
                    intro o f v
                    unfold parseLayersLoop
                    split
                    · simp only
                      split
                      · exact (List.prefix_append _ _).trans (ih _ _ _)
                      · exact ih _ _ _
                    · simp
                have hpre := pre ls true false (view ++ [.list])
                rw [h] at hpre
                rw [List.prefix_append_right_inj] at hpre
                simp only [List.cons_prefix_cons] at hpre
                exact ht' hpre.1.symm
              · rintro ⟨-, h⟩
                simp only [List.map_cons, List.cons.injEq] at h
                rw [hl] at h
                simp only [LayerSpec.mk.injEq, and_true] at h
                exact absurd (hnm t' h.1).symm ht'
        · have hstop : parseLayersLoop ls true true (view ++ [t]) = (ls, true, true, view ++ [t]) := by
            cases ls <;> simp [parseLayersLoop]
          simp only [ne_eq, hlist, not_false_eq_true, decide_true]
          rw [hstop]
          simp only [Bool.true_and, List.isEmpty_iff, List.append_cancel_left_eq]
          constructor
          · rintro ⟨rfl, rfl⟩
            exact ⟨⟨0, t, hlist, rfl⟩, by simp [hl]⟩
          · rintro ⟨⟨n, t', h1, rfl⟩, h⟩
            cases n with
            | zero =>
              simp only [List.replicate_zero, List.nil_append, List.map_cons, List.map_nil,
                List.cons.injEq] at h
              rw [hl] at h
              simp only [LayerSpec.mk.injEq, and_true] at h
              exact ⟨h.2, by simp [hnm t' h.1]⟩
            | succ n =>
              simp only [List.replicate_succ, List.cons_append, List.map_cons, List.cons.injEq] at h
              rw [hl] at h
              simp only [LayerSpec.mk.injEq, and_true] at h
              exact absurd (hnm _ h.1) hlist

/-- **C39, nesting.** For every list of layer specifications (innermost first, as the parser
delivers them): it is accepted exactly if no layer has properties and the layers, read from outside
in, are documented names that form a legal type; and then the column gets exactly that type. -/
theorem C39_declaration_exact (spec : List LayerSpec) (nullable : Bool) (f : Field) :
    parseLayers spec nullable = some f ↔
      LegalType f.layers ∧ f.nullable = nullable ∧
      spec.reverse = f.layers.map fun t => ⟨ascii t.typeName, true⟩ := by
  have key := parseLayersLoop_spec spec.reverse [] f.layers
  simp only [List.nil_append] at key
  unfold parseLayers
  generalize parseLayersLoop spec.reverse true false [] = x at *
  obtain ⟨a, b, c, d⟩ := x
  simp only at key ⊢
  rw [and_left_comm, ← key]
  cases f with
  | mk ls nb =>
    split
    · rename_i h
      simp only [Option.some.injEq, Field.mk.injEq, h, true_and]
      constructor
      · rintro ⟨rfl, rfl⟩; exact ⟨rfl, rfl⟩
      · rintro ⟨rfl, rfl⟩; exact ⟨rfl, rfl⟩
    · rename_i h
      simp [h]

example : parseLayers [⟨ascii "string", true⟩, ⟨ascii "list", true⟩] true = some ⟨[.list, .string], true⟩ ∧
    parseLayers [⟨ascii "list", true⟩, ⟨ascii "string", true⟩] true = none := by decide +kernel

end Verif
