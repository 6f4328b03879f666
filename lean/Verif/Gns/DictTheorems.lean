import Verif.Gns.Dict
/-!
C38: ALTER SPACE changes exactly the requested properties.
-/
namespace Verif.Gns
open Verif.Enc (DVal Dict)

/-! ### Maps -/

theorem get_put (d : Dict) (k x : String) (w : DVal) :
    get (put d k w) x = if k = x then some w else get d x := by
  induction d with
  | nil => simp [put, get]
  | cons e es ih =>
    obtain ⟨k', v⟩ := e
    rw [put]
    split
    · rename_i h
      subst h
      simp only [get]
      split <;> rfl
    · simp only [get, ih]
      split <;> rename_i h1
      · subst h1
        rw [if_neg (by rename_i h; exact fun hh => h hh.symm)]
      · rfl

theorem get_del (d : Dict) (k x : String) : get (del d k) x = if k = x then none else get d x := by
  induction d with
  | nil => simp [del, get]
  | cons e es ih =>
    obtain ⟨k', v⟩ := e
    rw [del]
    split
    · rename_i h
      subst h
      rw [ih]
      split
      · rfl
      · simp [get, *]
    · simp only [get, ih]
      split <;> rename_i h1
      · subst h1
        rw [if_neg (by rename_i h; exact fun hh => h hh.symm)]
      · rfl

mutual
/-- Keys are distinct, at every depth. -/
def Distinct : Dict → Prop
  | [] => True
  | (k, v) :: es => get es k = none ∧ DistinctVal v ∧ Distinct es

def DistinctVal : DVal → Prop
  | .data _ => True
  | .map m => Distinct m
end

/-! ### Specification -/

mutual
/-- `res` is `cur` with the request `new` carried out. -/
inductive Merged : Dict → Dict → Dict → Prop where
  | mk {cur new res : Dict} (h : ∀ k, MergedAt (get cur k) (get new k) (get res k)) :
    Merged cur new res

/-- What becomes of one entry: not mentioned, set to null, set to a value, or a nested dictionary. -/
inductive MergedAt : Option DVal → Option DVal → Option DVal → Prop where
  | untouched {c : Option DVal} : MergedAt c none c
  | removed {c : Option DVal} : MergedAt c (some (.data .null)) none
  | set {v : Cell} (h : v ≠ .null) : MergedAt none (some (.data v)) (some (.data v))
  | replaced {c v : Cell} (h : v ≠ .null) (hk : c.kind = v.kind) :
    MergedAt (some (.data c)) (some (.data v)) (some (.data v))
  | nested {c n r : Dict} (h : Merged c n r) : MergedAt (some (.map c)) (some (.map n)) (some (.map r))
  | added {n r : Dict} (h : Merged [] n r) : MergedAt none (some (.map n)) (some (.map r))
end

/-- The request would change the type of a property: another kind of value, a dictionary for a value,
or a value for a dictionary; at some depth. -/
inductive Clash : Dict → Dict → Prop where
  | kind {cur new : Dict} {k : String} {c v : Cell} : get cur k = some (.data c) →
    get new k = some (.data v) → v ≠ .null → c.kind ≠ v.kind → Clash cur new
  | mapForValue {cur new : Dict} {k : String} {c : Cell} {m : Dict} : get cur k = some (.data c) →
    get new k = some (.map m) → Clash cur new
  | valueForMap {cur new : Dict} {k : String} {c : Dict} {v : Cell} : get cur k = some (.map c) →
    get new k = some (.data v) → v ≠ .null → Clash cur new
  | nested {cur new : Dict} {k : String} {c n : Dict} : get cur k = some (.map c) →
    get new k = some (.map n) → Clash c n → Clash cur new

/-- The full property of the dictionary operations: a clash is refused; otherwise the request is carried
out. (`rmerge` answers `none` for a refusal.) -/
def MergesExactly (cur new : Dict) : Prop :=
  (Clash cur new → rmerge cur new = .ok none) ∧
  (¬ Clash cur new → ∃ res, rmerge cur new = .ok (some res) ∧ Merged cur new res)

/-! ### What the code does, for every request -/

/-- The request asks, at some depth, for a dictionary under a key that does not exist. -/
inductive AddsMap : Dict → Dict → Prop where
  | here {cur new : Dict} {k : String} {n : Dict} : get cur k = none → get new k = some (.map n) →
    AddsMap cur new
  | nested {cur new : Dict} {k : String} {c n : Dict} : get cur k = some (.map c) →
    get new k = some (.map n) → AddsMap c n → AddsMap cur new

/-- The request asks, at some depth, for a value in the place of a dictionary. -/
inductive ValueForMap : Dict → Dict → Prop where
  | here {cur new : Dict} {k : String} {c : Dict} {v : Cell} : get cur k = some (.map c) →
    get new k = some (.data v) → v ≠ .null → ValueForMap cur new
  | nested {cur new : Dict} {k : String} {c n : Dict} : get cur k = some (.map c) →
    get new k = some (.map n) → ValueForMap c n → ValueForMap cur new

mutual
/-- As `Merged`, with the two deviations of the code. -/
inductive Done : Dict → Dict → Dict → Prop where
  | mk {cur new res : Dict} (h : ∀ k, DoneAt (get cur k) (get new k) (get res k)) : Done cur new res

inductive DoneAt : Option DVal → Option DVal → Option DVal → Prop where
  | untouched {c : Option DVal} : DoneAt c none c
  | removed {c : Option DVal} : DoneAt c (some (.data .null)) none
  | set {v : Cell} (h : v ≠ .null) : DoneAt none (some (.data v)) (some (.data v))
  | replaced {c v : Cell} (h : v ≠ .null) (hk : c.kind = v.kind) :
    DoneAt (some (.data c)) (some (.data v)) (some (.data v))
  | nested {c n r : Dict} (h : Done c n r) : DoneAt (some (.map c)) (some (.map n)) (some (.map r))
  /-- A new dictionary is lost. -/
  | lost {n : Dict} : DoneAt none (some (.map n)) none
  /-- A dictionary for which a value is requested is deleted. -/
  | deleted {c : Dict} {v : Cell} (h : v ≠ .null) : DoneAt (some (.map c)) (some (.data v)) none
end

/-- The requests that the code refuses. -/
inductive Refused : Dict → Dict → Prop where
  | kind {cur new : Dict} {k : String} {c v : Cell} : get cur k = some (.data c) →
    get new k = some (.data v) → v ≠ .null → c.kind ≠ v.kind → Refused cur new
  | mapForValue {cur new : Dict} {k : String} {c : Cell} {m : Dict} : get cur k = some (.data c) →
    get new k = some (.map m) → Refused cur new
  | nested {cur new : Dict} {k : String} {c n : Dict} : get cur k = some (.map c) →
    get new k = some (.map n) → Refused c n → Refused cur new

theorem isNull_iff {c : Cell} : c.isNull = true ↔ c = .null := by cases c <;> simp [Cell.isNull]

/-- What `mergeEntry` does to the entry itself. -/
def mergeAt (c : Option DVal) : DVal → Res Unit (Option DVal)
  | .data v => .ok (if v.isNull then none else some (.data v))
  | .map m =>
    match c with
    | some (.map c) => (merge c m).bind fun r => .ok (some (.map r))
    | some (.data _) => .panic
    | none => (merge [] m).bind fun _ => .ok none

theorem mergeEntry_of_mergeAt {cur : Dict} {k : String} {v : DVal} {e : Option DVal}
    (h : mergeAt (get cur k) v = .ok e) :
    ∃ r, mergeEntry cur k v = .ok r ∧ get r k = e ∧ ∀ x, x ≠ k → get r x = get cur x := by
  cases v with
  | data c =>
    simp only [mergeAt] at h
    cases hn : c.isNull
    · simp [hn] at h
      subst h
      refine ⟨_, by simp only [mergeEntry, hn]; rfl, by simp [get_put], fun x hx => ?_⟩
      simp [get_put, Ne.symm hx]
    · simp [hn] at h
      subst h
      refine ⟨_, by simp only [mergeEntry, hn]; rfl, by simp [get_del], fun x hx => ?_⟩
      simp [get_del, Ne.symm hx]
  | map m =>
    rw [mergeAt.eq_def] at h
    rw [mergeEntry.eq_def]
    simp only at h ⊢
    split at h
    · rename_i c hc
      rw [hc]
      obtain ⟨r, h1, h2⟩ := Res.bind_eq_ok h
      cases h2
      refine ⟨put cur k (.map r), by simp only [h1]; rfl, by simp [get_put], fun x hx => ?_⟩
      simp [get_put, Ne.symm hx]
    · cases h
    · rename_i hc
      rw [hc]
      obtain ⟨r, h1, h2⟩ := Res.bind_eq_ok h
      cases h2
      exact ⟨cur, by simp only [h1]; rfl, hc, fun x hx => rfl⟩

mutual
theorem prepareEntry_put : ∀ (n : DVal) (c : Option DVal) (q : DVal), DistinctVal n →
    prepareEntry c n = .put q → ∃ e, mergeAt c q = .ok e ∧ DoneAt c (some n) e
  | .data v, c, q, _, h => by
    match c with
    | none =>
      rw [prepareEntry] at h
      split at h
      · cases h
      · rename_i hn
        cases h
        have : v ≠ .null := fun hh => hn (isNull_iff.2 hh)
        exact ⟨_, by simp only [mergeAt, hn]; rfl, .set this⟩
    | some (.data c) =>
      rw [prepareEntry] at h
      split at h
      · rename_i hn
        cases h
        have := isNull_iff.1 hn
        subst this
        exact ⟨none, rfl, .removed⟩
      · rename_i hn
        split at h
        · rename_i hk
          cases h
          have : v ≠ .null := fun hh => hn (isNull_iff.2 hh)
          exact ⟨_, by simp only [mergeAt, hn]; rfl, .replaced this hk⟩
        · cases h
    | some (.map c) =>
      rw [prepareEntry] at h
      cases h
      refine ⟨none, rfl, ?_⟩
      by_cases hn : v = .null
      · subst hn; exact .removed
      · exact .deleted hn
  | .map n, c, q, hd, h => by
    match c with
    | none =>
      rw [prepareEntry] at h
      split at h
      · rename_i p hp
        cases h
        obtain ⟨r, h1, -⟩ := prepare_merge n [] [] p hd hp (by simp)
        exact ⟨none, by simp only [mergeAt, h1]; rfl, .lost⟩
      · cases h
    | some (.data c) => rw [prepareEntry] at h; cases h
    | some (.map c) =>
      rw [prepareEntry] at h
      split at h
      · rename_i p hp
        cases h
        obtain ⟨r, h1, h2⟩ := prepare_merge n c c p hd hp (by simp)
        refine ⟨some (.map r), by simp only [mergeAt, h1]; rfl, .nested (.mk fun k => ?_)⟩
        cases hk : get n k with
        | none => rw [(h2 k).1 hk]; exact .untouched
        | some v => exact (h2 k).2 v hk
      · cases h

theorem prepare_merge : ∀ (new cur cur' p : Dict), Distinct new → prepare cur new = some p →
    (∀ k, get new k ≠ none → get cur' k = get cur k) →
    ∃ r, merge cur' p = .ok r ∧ ∀ k, (get new k = none → get r k = get cur' k) ∧
      ∀ v, get new k = some v → DoneAt (get cur k) (some v) (get r k)
  | [], cur, cur', p, _, h, _ => by
    rw [prepare] at h
    cases h
    exact ⟨cur', by rw [merge], fun k => ⟨fun _ => rfl, fun v hv => by simp [get] at hv⟩⟩
  | (k, v) :: es, cur, cur', p, hd, h, hc => by
    obtain ⟨h1, h2, h3⟩ := hd
    rw [prepare] at h
    have hc' : ∀ x, get es x ≠ none → get cur' x = get cur x := by
      intro x hx
      apply hc
      rw [get]
      split
      · simp
      · exact hx
    split at h
    · cases h
    · -- the entry is left out
      rename_i hs
      obtain ⟨r, e1, e2⟩ := prepare_merge es cur cur' p h3 h hc'
      refine ⟨r, e1, fun x => ?_⟩
      rw [get]
      split
      · rename_i hx
        subst hx
        refine ⟨by simp, fun w hw => ?_⟩
        cases hw
        have hr := (e2 k).1 h1
        have hck : get cur' k = get cur k := hc k (by simp [get])
        rw [hr, hck]
        revert hs
        generalize get cur k = c
        intro hs
        match c, v with
        | none, .data n =>
          rw [prepareEntry] at hs
          split at hs
          · rename_i hn
            rw [isNull_iff] at hn
            subst hn
            exact .removed
          · cases hs
        | none, .map n => rw [prepareEntry] at hs; split at hs <;> cases hs
        | some (.data c), .data n =>
          rw [prepareEntry] at hs
          split at hs
          · cases hs
          · split at hs <;> cases hs
        | some (.data c), .map n => rw [prepareEntry] at hs; cases hs
        | some (.map c), .data n => rw [prepareEntry] at hs; cases hs
        | some (.map c), .map n => rw [prepareEntry] at hs; split at hs <;> cases hs
      · exact e2 x
    · -- the entry is in the patch
      rename_i q hq
      obtain ⟨ps, hp, rfl⟩ := Option.map_eq_some_iff.1 h
      have hck : get cur' k = get cur k := hc k (by simp [get])
      obtain ⟨e, m1, m2⟩ := prepareEntry_put v (get cur k) q h2 hq
      rw [← hck] at m1
      obtain ⟨r', f1, f2, f3⟩ := mergeEntry_of_mergeAt m1
      obtain ⟨r, g1, g2⟩ := prepare_merge es cur r' ps h3 hp (fun x hx => by
        rw [f3 x (fun hh => hx (hh ▸ h1)), hc' x hx])
      refine ⟨r, by rw [merge, f1]; exact g1, fun x => ?_⟩
      rw [get]
      split
      · rename_i hx
        subst hx
        refine ⟨by simp, fun w hw => ?_⟩
        cases hw
        rw [(g2 k).1 h1, f2]
        exact m2
      · rename_i hx
        refine ⟨fun hh => ?_, (g2 x).2⟩
        rw [(g2 x).1 hh, f3 x (Ne.symm hx)]
end

mutual
theorem prepareEntry_refuse : ∀ (n : DVal) (c : Option DVal), DistinctVal n →
    (prepareEntry c n = .refuse ↔
      (∃ a v, c = some (.data a) ∧ n = .data v ∧ v ≠ .null ∧ a.kind ≠ v.kind) ∨
      (∃ a m, c = some (.data a) ∧ n = .map m) ∨
      (∃ a m, c = some (.map a) ∧ n = .map m ∧ Refused a m))
  | .data v, c, _ => by
    match c with
    | none => rw [prepareEntry]; split <;> simp
    | some (.data c) =>
      rw [prepareEntry]
      split
      · rename_i hn
        rw [isNull_iff] at hn
        simp [hn]
      · rename_i hn
        have : v ≠ .null := fun hh => hn (isNull_iff.2 hh)
        split <;> rename_i hk <;> simp [hk, this]
    | some (.map c) => rw [prepareEntry]; simp
  | .map n, c, hd => by
    match c with
    | none =>
      rw [prepareEntry]
      split
      · simp
      · rename_i hp
        have := (prepare_none n [] hd).1 hp
        cases this <;> rename_i h _ <;> simp [get] at h
    | some (.data c) => rw [prepareEntry]; simp
    | some (.map c) =>
      rw [prepareEntry]
      split
      · rename_i p hp
        simp
        intro hr
        have := (prepare_none n c hd).2 hr
        rw [hp] at this
        cases this
      · rename_i hp
        simp
        exact (prepare_none n c hd).1 hp

theorem prepare_none : ∀ (new cur : Dict), Distinct new → (prepare cur new = none ↔ Refused cur new)
  | [], cur, _ => by
    rw [prepare]
    simp
    intro h
    cases h <;> rename_i h _ _ <;> simp [get] at *
  | (k, v) :: es, cur, hd => by
    obtain ⟨h1, h2, h3⟩ := hd
    have ie := prepareEntry_refuse v (get cur k) h2
    have id := prepare_none es cur h3
    have lift : Refused cur es → Refused cur ((k, v) :: es) := by
      intro h
      have hg : ∀ x w, get es x = some w → get ((k, v) :: es) x = some w := by
        intro x w hx
        rw [get, if_neg, hx]
        intro hh
        subst hh
        rw [h1] at hx
        cases hx
      cases h with
      | kind a b c d => exact .kind a (hg _ _ b) c d
      | mapForValue a b => exact .mapForValue a (hg _ _ b)
      | nested a b c => exact .nested a (hg _ _ b) c
    have split : Refused cur ((k, v) :: es) → prepareEntry (get cur k) v = .refuse ∨ Refused cur es := by
      intro h
      cases h with
      | @kind _ _ x _ _ a b c d =>
        rw [get] at b
        split at b
        · rename_i hx
          subst hx
          cases b
          exact .inl (ie.2 (.inl ⟨_, _, a, rfl, c, d⟩))
        · exact .inr (.kind a b c d)
      | @mapForValue _ _ x _ _ a b =>
        rw [get] at b
        split at b
        · rename_i hx
          subst hx
          cases b
          exact .inl (ie.2 (.inr (.inl ⟨_, _, a, rfl⟩)))
        · exact .inr (.mapForValue a b)
      | @nested _ _ x _ _ a b c =>
        rw [get] at b
        split at b
        · rename_i hx
          subst hx
          cases b
          exact .inl (ie.2 (.inr (.inr ⟨_, _, a, rfl, c⟩)))
        · exact .inr (.nested a b c)
    rw [prepare]
    constructor
    · intro h
      split at h
      · rename_i hr
        rcases ie.1 hr with ⟨a, w, e1, e2, e3, e4⟩ | ⟨a, m, e1, e2⟩ | ⟨a, m, e1, e2, e3⟩
        · subst e2; exact .kind (k := k) (v := w) e1 (by simp [get]) e3 e4
        · subst e2; exact .mapForValue (k := k) (m := m) e1 (by simp [get])
        · subst e2; exact .nested (k := k) (n := m) e1 (by simp [get]) e3
      · exact lift (id.1 h)
      · rw [Option.map_eq_none_iff] at h
        exact lift (id.1 h)
    · intro h
      rcases split h with h | h
      · rw [h]
      · have := id.2 h
        split
        · rfl
        · exact this
        · rw [this]; rfl
end

/-- What the code does with any request: it refuses exactly the requests in `Refused`; otherwise it
carries the request out, except that new dictionaries are lost and a dictionary for which a value is
requested is deleted. It never aborts. -/
theorem C38_exact_behaviour (cur new : Dict) (hd : Distinct new) :
    (Refused cur new → rmerge cur new = .ok none) ∧
    (¬ Refused cur new → ∃ res, rmerge cur new = .ok (some res) ∧ Done cur new res) := by
  constructor
  · intro h
    rw [rmerge, (prepare_none new cur hd).2 h]
  · intro h
    cases hp : prepare cur new with
    | none => exact absurd ((prepare_none new cur hd).1 hp) h
    | some p =>
      obtain ⟨r, h1, h2⟩ := prepare_merge new cur cur p hd hp (by simp)
      refine ⟨r, by simp only [rmerge, hp, h1]; rfl, .mk fun k => ?_⟩
      cases hk : get new k with
      | none => rw [(h2 k).1 hk]; exact .untouched
      | some v => exact (h2 k).2 v hk

mutual
theorem done_merged : ∀ {cur new res : Dict}, Done cur new res → ¬ AddsMap cur new →
    ¬ ValueForMap cur new → Merged cur new res
  | _, _, _, .mk h, ha, hv => .mk fun k => done_mergedAt (h k)
      (fun _ hc hn => ha (.here hc hn))
      (fun _ v hc hn hne => hv (.here hc hn hne))
      (fun _ _ hc hn => ⟨fun h => ha (.nested hc hn h), fun h => hv (.nested hc hn h)⟩)

theorem done_mergedAt : ∀ {c n r : Option DVal}, DoneAt c n r →
    (∀ m, c = none → n = some (.map m) → False) →
    (∀ a v, c = some (.map a) → n = some (.data v) → v ≠ .null → False) →
    (∀ a m, c = some (.map a) → n = some (.map m) → ¬ AddsMap a m ∧ ¬ ValueForMap a m) →
    MergedAt c n r
  | _, _, _, .untouched, _, _, _ => .untouched
  | _, _, _, .removed, _, _, _ => .removed
  | _, _, _, .set h, _, _, _ => .set h
  | _, _, _, .replaced h hk, _, _, _ => .replaced h hk
  | _, _, _, .nested h, _, _, h3 => .nested (done_merged h (h3 _ _ rfl rfl).1 (h3 _ _ rfl rfl).2)
  | _, _, _, .lost, h1, _, _ => (h1 _ rfl rfl).elim
  | _, _, _, .deleted h, _, h2, _ => (h2 _ _ rfl rfl h).elim
end

theorem refused_clash {cur new : Dict} (h : Refused cur new) : Clash cur new := by
  induction h with
  | kind a b c d => exact .kind a b c d
  | mapForValue a b => exact .mapForValue a b
  | nested a b _ ih => exact .nested a b ih

theorem clash_refused {cur new : Dict} (h : Clash cur new) (hv : ¬ ValueForMap cur new) :
    Refused cur new := by
  induction h with
  | kind a b c d => exact .kind a b c d
  | mapForValue a b => exact .mapForValue a b
  | valueForMap a b c => exact absurd (.here a b c) hv
  | nested a b _ ih => exact .nested a b (ih fun h => hv (.nested a b h))

/-- C38, for every request that adds no new dictionary and asks for no value in the place of a
dictionary. Missing from the full property: exactly those two kinds of request, which the code gets
wrong (the `_violated` theorems below; `C38_exact_behaviour` says what it does with them). -/
theorem C38_alter_space_merges_partial (cur new : Dict) (hd : Distinct new) (ha : ¬ AddsMap cur new)
    (hv : ¬ ValueForMap cur new) : MergesExactly cur new := by
  obtain ⟨h1, h2⟩ := C38_exact_behaviour cur new hd
  refine ⟨fun h => h1 (clash_refused h hv), fun h => ?_⟩
  obtain ⟨res, h3, h4⟩ := h2 (fun hr => h (refused_clash hr))
  exact ⟨res, h3, done_merged h4 ha hv⟩

/-- The form of request that `ALTER SPACE` takes: only `env`, which is a dictionary or null. -/
def AlterForm (new : Dict) : Prop := (∃ m, new = [(ENV, .map m)]) ∨ new = [(ENV, .data .null)]

/-- The statement itself. A request without properties does nothing. A request that is not of the right
form, or that the dictionary operations refuse, is refused before anything is written. Otherwise a patch
is committed, and applying it to the properties carries the request out (`Done`); then an empty `env` is
put in the place of a removed one. -/
theorem C38_alter_space_statement (cur new : Dict) (hd : Distinct new) :
    (alterPatch cur new = .nothing ↔ new = []) ∧
    (alterPatch cur new = .refuse ↔ (new ≠ [] ∧ ¬ AlterForm new) ∨ (AlterForm new ∧ Refused cur new)) ∧
    (∀ p, alterPatch cur new = .patch p → AlterForm new ∧ ¬ Refused cur new ∧
      ∃ res, alterApply cur p = .ok (putEnv res) ∧ Done cur new res) := by
  have core : ∀ p, prepare cur new = some p → ¬ Refused cur new ∧
      ∃ res, alterApply cur p = .ok (putEnv res) ∧ Done cur new res := by
    intro p hp
    have hr : ¬ Refused cur new := fun h => by rw [(prepare_none new cur hd).2 h] at hp; cases hp
    refine ⟨hr, ?_⟩
    obtain ⟨res, h1, h2⟩ := (C38_exact_behaviour cur new hd).2 hr
    simp only [rmerge, hp] at h1
    obtain ⟨r, h3, h4⟩ := Res.bind_eq_ok h1
    cases h4
    exact ⟨_, by simp only [alterApply, h3]; rfl, h2⟩
  match new, hd, core with
  | [], _, _ => simp [alterPatch, get, AlterForm]
  | [(k, v)], hd, core =>
    by_cases hk : k = ENV
    · subst hk
      match v, hd, core with
      | .map m, hd, core =>
        have hf : AlterForm [(ENV, .map m)] := .inl ⟨m, rfl⟩
        have e : alterPatch cur [(ENV, .map m)] =
          (match prepare cur [(ENV, .map m)] with | some p => .patch p | none => .refuse) := by
          simp [alterPatch, get]; cases prepare cur [(ENV, .map m)] <;> rfl
        have hn := prepare_none [(ENV, .map m)] cur hd
        rw [e]
        split
        · rename_i p hp
          have := core p hp
          refine ⟨by simp, ⟨by simp, ?_⟩, ?_⟩
          · rintro (h | h)
            · exact absurd hf h.2
            · exact absurd h.2 this.1
          · intro q hq
            cases hq
            exact ⟨hf, this⟩
        · rename_i hp
          exact ⟨by simp, ⟨fun _ => .inr ⟨hf, hn.1 hp⟩, fun _ => rfl⟩, by simp⟩
      | .data c, hd, core =>
        by_cases hc : c.isNull = true
        · have hc' := isNull_iff.1 hc
          subst hc'
          have hf : AlterForm [(ENV, .data .null)] := .inr rfl
          have e : alterPatch cur [(ENV, .data .null)] =
            (match prepare cur [(ENV, .data .null)] with | some p => .patch p | none => .refuse) := by
            simp [alterPatch, get, Cell.isNull]; cases prepare cur [(ENV, .data .null)] <;> rfl
          have hn := prepare_none [(ENV, .data .null)] cur hd
          rw [e]
          split
          · rename_i p hp
            have := core p hp
            refine ⟨by simp, ⟨by simp, ?_⟩, ?_⟩
            · rintro (h | h)
              · exact absurd hf h.2
              · exact absurd h.2 this.1
            · intro q hq
              cases hq
              exact ⟨hf, this⟩
          · rename_i hp
            exact ⟨by simp, ⟨fun _ => .inr ⟨hf, hn.1 hp⟩, fun _ => rfl⟩, by simp⟩
        · have hf : ¬ AlterForm [(ENV, .data c)] := by
            rintro (⟨m, h⟩ | h)
            · simp at h
            · simp at h
              exact hc (isNull_iff.2 h)
          have e : alterPatch cur [(ENV, .data c)] = .refuse := by simp [alterPatch, get, hc]
          rw [e]
          exact ⟨by simp, ⟨fun _ => .inl ⟨by simp, hf⟩, fun _ => rfl⟩, by simp⟩
    · have hf : ¬ AlterForm [(k, v)] := by
        rintro (⟨m, h⟩ | h) <;> simp at h <;> exact hk h.1
      have e : alterPatch cur [(k, v)] = .refuse := by simp [alterPatch, get, hk]
      rw [e]
      exact ⟨by simp, ⟨fun _ => .inl ⟨by simp, hf⟩, fun _ => rfl⟩, by simp⟩
  | a :: b :: es, hd, core =>
    have hf : ¬ AlterForm (a :: b :: es) := by
      rintro (⟨m, h⟩ | h) <;> simp at h
    have e : alterPatch cur (a :: b :: es) = .refuse := by
      unfold alterPatch
      split <;> simp
    rw [e]
    exact ⟨by simp, ⟨fun _ => .inl ⟨by simp, hf⟩, fun _ => rfl⟩, by simp⟩

/-- C38: after the merge, `env` is the only property that the statement itself touches, and only if it is
missing: then it becomes the empty dictionary. -/
theorem C38_env_reset_only_if_missing (d : Dict) (k : String) :
    get (putEnv d) k = if k = ENV then (get d ENV).or (some (.map [])) else get d k := by
  rw [putEnv]
  split
  · rename_i v h
    split
    · rename_i hk; rw [hk, h]; rfl
    · rfl
  · rename_i h
    rw [get_put, h]
    by_cases hk : k = ENV
    · rw [if_pos hk.symm, if_pos hk]; rfl
    · rw [if_neg (Ne.symm hk), if_neg hk]

example : get (putEnv [("x", .data (.bool true))]) ENV = some (.map []) := by simp [putEnv, get, put, ENV]
example : get (putEnv [(ENV, .map [("a", .data (.bool true))])]) ENV = some (.map [("a", .data (.bool true))]) := by
  simp [putEnv, get]

example : alterPatch [(ENV, .map [("a", .data (.uint .uint64 1))])] [(ENV, .map [("a", .data .null)])] =
    .patch [(ENV, .map [("a", .data .null)])] := by
  simp [alterPatch, prepare, prepareEntry, get, Cell.isNull]

/-- A request that sets, replaces, removes and nests. -/
def exCur : Dict :=
  [("a", .data (.uint .uint64 1)), ("b", .data (.str "x")),
   ("m", .map [("c", .data (.bool true)), ("d", .data (.uint .uint64 2))])]
def exNew : Dict :=
  [("a", .data (.uint .uint64 5)), ("b", .data .null),
   ("m", .map [("c", .data .null), ("e", .data (.sint .sint64 3))]), ("n", .data (.str "y"))]

theorem exNew_map {k : String} {n : Dict} (h : get exNew k = some (.map n)) :
    k = "m" ∧ n = [("c", .data .null), ("e", .data (.sint .sint64 3))] := by
  simp only [get, exNew] at h
  split at h
  · simp at h
  split at h
  · simp at h
  split at h
  · rename_i hk
    exact ⟨hk.symm, by simpa using h.symm⟩
  split at h <;> simp at h

example : Distinct exNew := by simp [Distinct, DistinctVal, exNew, get]
example : ¬ AddsMap exCur exNew := by
  intro h
  cases h with
  | here a b =>
    obtain ⟨rfl, rfl⟩ := exNew_map b
    simp [get, exCur] at a
  | nested a b c =>
    obtain ⟨rfl, rfl⟩ := exNew_map b
    cases c <;> rename_i h1 h2 <;> simp only [get] at h2 <;> split at h2 <;> try simp at h2
    all_goals rename_i h2 _; simp only [get] at h2; split at h2 <;> try simp at h2
example : ¬ ValueForMap exCur exNew := by
  have hm : ∀ {k c}, get exCur k = some (.map c) →
      k = "m" ∧ c = [("c", .data (.bool true)), ("d", .data (.uint .uint64 2))] := by
    intro k c h
    simp only [get, exCur] at h
    split at h
    · simp at h
    split at h
    · simp at h
    split at h
    · rename_i hk
      exact ⟨hk.symm, by simpa using h.symm⟩
    simp at h
  intro h
  cases h with
  | here a b =>
    obtain ⟨rfl, rfl⟩ := hm a
    simp [get, exNew] at b
  | nested a b c =>
    obtain ⟨rfl, rfl⟩ := hm a
    cases c <;> rename_i h1 _ <;> simp only [get] at h1 <;> split at h1 <;> simp at h1

set_option hygiene false in
local macro "runm" loc:(Lean.Parser.Tactic.location)? : tactic => `(tactic| simp [rmerge, prepare, prepareEntry, merge, mergeEntry, get, put, del, Cell.isNull, Cell.kind, Res.bind, exCur, exNew] $[$loc]?)

example : rmerge exCur exNew = .ok (some
    [("a", .data (.uint .uint64 5)), ("m", .map [("d", .data (.uint .uint64 2)), ("e", .data (.sint .sint64 3))]),
     ("n", .data (.str "y"))]) := by runm
/-- A refused request. -/
example : rmerge exCur [("a", .data (.str "z"))] = .ok none := by runm

/-- The full property fails: a dictionary under a new key is acknowledged and lost. Here the space has
the empty `env` of a fresh space, and the request is `{ env: { a: { b: 1 } } }`. -/
theorem C38_new_dictionary_lost_violated :
    ∃ cur new, Distinct new ∧ ¬ Clash cur new ∧ rmerge cur new = .ok (some cur) ∧ ¬ MergesExactly cur new := by
  have hc : ¬ Clash [("env", .map [])] [("env", .map [("a", .map [("b", .data (.uint .uint64 1))])])] := by
    intro h
    cases h with
    | kind a b => simp only [get] at a; split at a <;> simp at a
    | mapForValue a b => simp only [get] at a; split at a <;> simp at a
    | valueForMap a b =>
      simp only [get] at a b
      split at b <;> simp_all
    | nested a b c =>
      simp only [get] at a
      split at a
      · simp at a
        subst a
        cases c <;> rename_i h _ <;> simp [get] at h
      · simp at a
  refine ⟨[("env", .map [])], [("env", .map [("a", .map [("b", .data (.uint .uint64 1))])])],
    by simp [Distinct, DistinctVal, get], hc, by runm, ?_⟩
  · intro h
    obtain ⟨res, h1, ⟨h2⟩⟩ := h.2 hc
    have e : rmerge [("env", .map [])] [("env", .map [("a", .map [("b", .data (.uint .uint64 1))])])] =
      .ok (some [("env", .map [])]) := by runm
    rw [e] at h1
    cases h1
    have h3 := h2 "env"
    simp only [get, if_true] at h3
    cases h3 with
    | nested h3 =>
      obtain ⟨h3⟩ := h3
      have h4 := h3 "a"
      simp only [get, if_true] at h4
      cases h4

/-- The full property fails: a value requested for an existing dictionary is accepted, and the
dictionary is deleted. Here the space has `env = { a: { b: 1 } }`, and the request is `{ env: { a: 2 } }`. -/
theorem C38_value_for_dictionary_violated :
    ∃ cur new, Distinct new ∧ Clash cur new ∧ rmerge cur new = .ok (some [("env", .map [])]) ∧
      ¬ MergesExactly cur new := by
  have hc : Clash [("env", .map [("a", .map [("b", .data (.uint .uint64 1))])])]
      [("env", .map [("a", .data (.uint .uint64 2))])] :=
    .nested (k := "env") rfl rfl (.valueForMap (k := "a") rfl rfl (by simp))
  refine ⟨_, _, ?_, hc, by runm, fun h => ?_⟩
  · simp [Distinct, DistinctVal, get]
  · have h1 := h.1 hc
    runm at h1

end Verif.Gns
