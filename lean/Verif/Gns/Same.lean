import Verif.Gns.DictTheorems
/-!
Dictionaries with the same content. A decoded hash map iterates in another order than the one that was
encoded, so replayed properties are compared with `Same`, at every depth.
-/
namespace Verif.Gns
open Verif.Enc (DVal Dict)

mutual
inductive Same : Dict → Dict → Prop where
  | mk {a b : Dict} (h : ∀ k, SameAt (get a k) (get b k)) : Same a b
inductive SameAt : Option DVal → Option DVal → Prop where
  | none : SameAt none none
  | data {c : Cell} : SameAt (some (.data c)) (some (.data c))
  | map {a b : Dict} (h : Same a b) : SameAt (some (.map a)) (some (.map b))
end

mutual
theorem Same.refl_aux : ∀ (d : Dict) (k : String), SameAt (get d k) (get d k)
  | [], _ => .none
  | (x, v) :: es, k => by
    rw [get]
    split
    · exact SameAt.refl_val v
    · exact Same.refl_aux es k
theorem SameAt.refl_val : ∀ (v : DVal), SameAt (some v) (some v)
  | .data _ => .data
  | .map d => .map (.mk (Same.refl_aux d))
end

theorem Same.refl (d : Dict) : Same d d := .mk (Same.refl_aux d)

theorem SameAt.refl : ∀ (v : Option DVal), SameAt v v
  | .none => .none
  | .some v => .refl_val v

mutual
theorem Same.symm : ∀ {a b : Dict}, Same a b → Same b a
  | _, _, .mk h => .mk fun k => (h k).symm
theorem SameAt.symm : ∀ {a b : Option DVal}, SameAt a b → SameAt b a
  | _, _, .none => .none
  | _, _, .data => .data
  | _, _, .map h => .map h.symm
end

mutual
theorem Same.trans : ∀ {a b c : Dict}, Same a b → Same b c → Same a c
  | _, _, _, .mk h, .mk h' => .mk fun k => (h k).trans (h' k)
theorem SameAt.trans : ∀ {a b c : Option DVal}, SameAt a b → SameAt b c → SameAt a c
  | _, _, _, .none, .none => .none
  | _, _, _, .data, .data => .data
  | _, _, _, .map h, .map h' => .map (h.trans h')
end

/-! The result of carrying out a request is determined up to `Same`. -/

mutual
theorem Done.same : ∀ {a n r : Dict}, Done a n r → ∀ {b n' r' : Dict}, Done b n' r' → Same a b → Same n n' → Same r r'
  | _, _, _, .mk h, _, _, _, .mk h', .mk s, .mk s' => .mk fun k => (h k).same (h' k) (s k) (s' k)
theorem DoneAt.same : ∀ {a n r : Option DVal}, DoneAt a n r → ∀ {b n' r' : Option DVal}, DoneAt b n' r' →
    SameAt a b → SameAt n n' → SameAt r r'
  | _, _, _, .untouched, _, _, _, h', s, .none => by cases h'; exact s
  | _, _, _, .removed, _, _, _, h', s, .data => by
    cases h' with
    | removed => exact .none
    | set h => exact absurd rfl h
    | replaced h => exact absurd rfl h
    | deleted h => exact .none
  | _, _, _, .set h, _, _, _, h', .none, .data => by
    cases h' with
    | removed => exact absurd rfl h
    | set => exact .data
  | _, _, _, .replaced h hk, _, _, _, h', .data, .data => by
    cases h' with
    | removed => exact absurd rfl h
    | replaced => exact .data
  | _, _, _, .nested h, _, _, _, h', .map s, .map s' => by
    cases h' with
    | nested h' => exact .map (h.same h' s s')
  | _, _, _, .lost, _, _, _, h', .none, .map s' => by
    cases h' with
    | lost => exact .none
  | _, _, _, .deleted h, _, _, _, h', .map s, .data => by
    cases h' with
    | removed => exact .none
    | deleted => exact .none
end

theorem Refused.same {a n : Dict} (h : Refused a n) : ∀ {b : Dict}, Same a b → ∀ {n'}, Same n n' → Refused b n' := by
  induction h with
  | @kind a n k c v e1 e2 hn hk =>
    intro b ⟨s⟩ n' ⟨s'⟩
    have h1 := s k
    have h2 := s' k
    rw [e1] at h1
    rw [e2] at h2
    generalize e3 : get b k = x at h1
    generalize e4 : get n' k = y at h2
    cases h1
    cases h2
    exact .kind e3 e4 hn hk
  | @mapForValue a n k c m e1 e2 =>
    intro b ⟨s⟩ n' ⟨s'⟩
    have h1 := s k
    have h2 := s' k
    rw [e1] at h1
    rw [e2] at h2
    generalize e3 : get b k = x at h1
    generalize e4 : get n' k = y at h2
    cases h1
    cases h2
    exact .mapForValue e3 e4
  | @nested a n k c m e1 e2 _ ih =>
    intro b ⟨s⟩ n' ⟨s'⟩
    have h1 := s k
    have h2 := s' k
    rw [e1] at h1
    rw [e2] at h2
    generalize e3 : get b k = x at h1
    generalize e4 : get n' k = y at h2
    cases h1 with
    | map h1 =>
      cases h2 with
      | map h2 => exact .nested e3 e4 (ih h1 h2)

/-! ### A patch is its own patch -/

mutual
theorem prepareEntry_idem : ∀ (n : DVal) (c : Option DVal) (q : DVal), prepareEntry c n = .put q →
    prepareEntry c q = .put q
  | .data v, c, q, h => by
    match c with
    | none =>
      rw [prepareEntry] at h
      split at h
      · cases h
      · rename_i hn
        cases h
        rw [prepareEntry, if_neg hn]
    | some (.data c) =>
      rw [prepareEntry] at h
      split at h
      · cases h; rfl
      · rename_i hn
        split at h
        · rename_i hk
          cases h
          rw [prepareEntry, if_neg hn, if_pos hk]
        · cases h
    | some (.map c) =>
      rw [prepareEntry] at h
      cases h; rfl
  | .map n, c, q, h => by
    match c with
    | none =>
      rw [prepareEntry] at h
      split at h
      · rename_i p hp
        cases h
        rw [prepareEntry, prepare_idem n [] p hp]
      · cases h
    | some (.data c) => rw [prepareEntry] at h; cases h
    | some (.map c) =>
      rw [prepareEntry] at h
      split at h
      · rename_i p hp
        cases h
        rw [prepareEntry, prepare_idem n c p hp]
      · cases h
theorem prepare_idem : ∀ (new cur p : Dict), prepare cur new = some p → prepare cur p = some p
  | [], cur, p, h => by rw [prepare] at h; cases h; rw [prepare]
  | (k, v) :: es, cur, p, h => by
    rw [prepare] at h
    split at h
    · cases h
    · exact prepare_idem es cur p h
    · rename_i q hq
      obtain ⟨ps, hp, rfl⟩ := Option.map_eq_some_iff.1 h
      rw [prepare, prepareEntry_idem v _ q hq, prepare_idem es cur ps hp]
      rfl
end

mutual
theorem prepareEntry_distinct : ∀ (n : DVal) (c : Option DVal) (q : DVal), DistinctVal n →
    prepareEntry c n = .put q → DistinctVal q
  | .data v, c, q, _, h => by
    match c with
    | none => rw [prepareEntry] at h; split at h <;> cases h; exact True.intro
    | some (.data c) =>
      rw [prepareEntry] at h
      split at h
      · cases h; exact True.intro
      · split at h <;> cases h; exact True.intro
    | some (.map c) => rw [prepareEntry] at h; cases h; exact True.intro
  | .map n, c, q, hd, h => by
    match c with
    | none =>
      rw [prepareEntry] at h
      split at h
      · rename_i p hp
        cases h
        exact (prepare_distinct n [] p hd hp).1
      · cases h
    | some (.data c) => rw [prepareEntry] at h; cases h
    | some (.map c) =>
      rw [prepareEntry] at h
      split at h
      · rename_i p hp
        cases h
        exact (prepare_distinct n c p hd hp).1
      · cases h
theorem prepare_distinct : ∀ (new cur p : Dict), Distinct new → prepare cur new = some p →
    Distinct p ∧ ∀ k, get new k = none → get p k = none
  | [], cur, p, _, h => by rw [prepare] at h; cases h; exact ⟨True.intro, fun _ _ => rfl⟩
  | (k, v) :: es, cur, p, hd, h => by
    obtain ⟨h1, h2, h3⟩ := hd
    rw [prepare] at h
    split at h
    · cases h
    · obtain ⟨i1, i2⟩ := prepare_distinct es cur p h3 h
      refine ⟨i1, fun x hx => i2 x ?_⟩
      rw [get] at hx
      split at hx
      · cases hx
      · exact hx
    · rename_i q hq
      obtain ⟨ps, hp, rfl⟩ := Option.map_eq_some_iff.1 h
      obtain ⟨i1, i2⟩ := prepare_distinct es cur ps h3 hp
      refine ⟨⟨i2 k h1, prepareEntry_distinct v _ q h2 hq, i1⟩, fun x hx => ?_⟩
      rw [get] at hx ⊢
      split at hx
      · cases hx
      · rename_i hk
        rw [if_neg hk]
        exact i2 x hx
end

theorem rmerge_patch {cur new p : Dict} (h : prepare cur new = some p) :
    rmerge cur p = (merge cur p).bind fun r => .ok (some r) := by
  rw [rmerge, prepare_idem new cur p h]

/-- Replaying a committed patch on the same properties (in whatever order) has the effect that the live
statement had before it put `env` back. -/
theorem replay_patch {cur cur' new p p' : Dict} (hd : Distinct new) (hd' : Distinct p')
    (hp : prepare cur new = some p)
    (hs : Same cur cur') (hs' : Same p p') :
    ∃ r r', merge cur p = .ok r ∧ rmerge cur' p' = .ok (some r') ∧ Done cur new r ∧ Same r r' := by
  have hdp := (prepare_distinct new cur p hd hp).1
  have hnr : ¬ Refused cur p := fun h => by
    have := (prepare_none p cur hdp).2 h
    rw [prepare_idem new cur p hp] at this
    cases this
  obtain ⟨r, h1, h2⟩ := (C38_exact_behaviour cur p hdp).2 hnr
  have hnr' : ¬ Refused cur' p' := fun h => hnr (h.same hs.symm hs'.symm)
  obtain ⟨r', h3, h4⟩ := (C38_exact_behaviour cur' p' hd').2 hnr'
  rw [rmerge_patch hp] at h1
  obtain ⟨r0, h5, h6⟩ := Res.bind_eq_ok h1
  cases h6
  refine ⟨r, r', h5, h3, ?_, h2.same h4 hs hs'⟩
  have hnr'' : ¬ Refused cur new := fun h => by
    rw [(prepare_none new cur hd).2 h] at hp; cases hp
  obtain ⟨r1, h7, h8⟩ := (C38_exact_behaviour cur new hd).2 hnr''
  rw [rmerge, hp] at h7
  obtain ⟨r2, h9, h10⟩ := Res.bind_eq_ok h7
  cases h10
  rw [h5] at h9
  cases h9
  exact h8

end Verif.Gns
