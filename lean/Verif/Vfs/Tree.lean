import Verif.Vfs.Spec
/-! The tree as a map from paths. -/
namespace Verif.Vfs

/-- The node at a path. -/
def get : List String → Node → Option Node
  | [], x => some x
  | _ :: _, .file _ => none
  | c :: cs, .dir d => (look d c).bind (get cs)

/-- What is at a path, without what is below it. -/
inductive VItem where
  | dir
  | file (f : VFile)
  deriving DecidableEq, Repr

def kind : Node → VItem
  | .file f => .file f
  | .dir _ => .dir

def view (d : Dir) (p : List String) : Option VItem := (get p (.dir d)).map kind

theorem look_del (d : Dir) (n m : String) : look (del d n) m = if m = n then none else look d m := by
  unfold look del
  induction d with
  | nil => simp
  | cons x d ih =>
    by_cases hx : x.1 = n
    · rw [List.filter_cons_of_neg (by simpa using hx), ih]
      by_cases hm : m = n
      · simp [hm]
      · simp only [if_neg hm]
        rw [List.find?_cons_of_neg (by simp; intro h; exact hm (h ▸ hx))]
    · rw [List.filter_cons_of_pos (by simpa using hx)]
      by_cases hm : x.1 = m
      · rw [List.find?_cons_of_pos (by simpa using hm), List.find?_cons_of_pos (by simpa using hm)]
        rw [if_neg (by intro h; exact hx (hm.trans h))]
      · rw [List.find?_cons_of_neg (by simpa using hm), List.find?_cons_of_neg (by simpa using hm), ih]

theorem look_put (d : Dir) (n m : String) (x : Node) : look (put d n x) m = if m = n then some x else look d m := by
  by_cases h : m = n
  · subst h; simp [put, look]
  · have : look (put d n x) m = look (del d n) m := by
      unfold put look
      rw [List.find?_cons_of_neg (by simpa using fun e => h e.symm)]
    rw [this, look_del, if_neg h, if_neg h]

theorem look_nil (n : String) : look [] n = none := rfl

theorem isEmpty_iff_look (d : Dir) : d.isEmpty = true ↔ ∀ n, look d n = none := by
  cases d with
  | nil => simp [look]
  | cons x d =>
    simp only [List.isEmpty_cons, Bool.false_eq_true, false_iff]
    intro h
    have := h x.1
    simp [look] at this

theorem get_append (p q : List String) (x : Node) : get (p ++ q) x = (get p x).bind (get q) := by
  induction p generalizing x with
  | nil => simp [get]
  | cons c p ih =>
    cases x with
    | file f => simp [get]
    | dir d =>
      simp only [List.cons_append, get]
      cases look d c with
      | none => rfl
      | some y => simp [ih]

theorem view_nil (d : Dir) : view d [] = some .dir := rfl

theorem view_eq_dir {d : Dir} {p : List String} : view d p = some .dir ↔ ∃ e, get p (.dir d) = some (.dir e) := by
  unfold view
  cases h : get p (.dir d) with
  | none => simp
  | some x => cases x <;> simp [kind]

theorem view_eq_file {d : Dir} {p : List String} {f : VFile} : view d p = some (.file f) ↔ get p (.dir d) = some (.file f) := by
  unfold view
  cases h : get p (.dir d) with
  | none => simp
  | some x => cases x <;> simp [kind]

theorem view_eq_none {d : Dir} {p : List String} : view d p = none ↔ get p (.dir d) = none := by
  unfold view; simp

/-- Nothing is below a file or below nothing. -/
theorem view_below {d : Dir} {p q : List String} (h : view d p ≠ some .dir) (hq : q ≠ []) : view d (p ++ q) = none := by
  unfold view
  rw [get_append]
  cases hp : get p (.dir d) with
  | none => rfl
  | some x =>
    cases x with
    | dir e => exact absurd (view_eq_dir.2 ⟨e, hp⟩) h
    | file f =>
      cases q with
      | nil => exact absurd rfl hq
      | cons c q => rfl

/-- The directory is not there. -/
theorem modify_none {α : Type} {f : Dir → Res Err (Dir × α)} : ∀ {cs : List String} {d : Dir}, view d cs ≠ some .dir →
    ∃ x, modify cs d f = .err x
  | [], d, h => absurd (view_nil d) h
  | c :: cs, d, h => by
    unfold modify
    cases hl : look d c with
    | none => exact ⟨_, rfl⟩
    | some x =>
      cases x with
      | file v => exact ⟨_, rfl⟩
      | dir e =>
        have : view e cs ≠ some .dir := by
          intro hv
          apply h
          unfold view at hv ⊢
          simpa [get, hl] using hv
        obtain ⟨x, hx⟩ := modify_none (f := f) this
        exact ⟨x, by simp [hx]⟩

/-- The directory is there. -/
theorem modify_some {α : Type} {f : Dir → Res Err (Dir × α)} : ∀ {cs : List String} {d e : Dir}, get cs (.dir d) = some (.dir e) →
    match f e with
    | .ok (e', a) => ∃ d', modify cs d f = .ok (d', a) ∧ (∀ r, get (cs ++ r) (.dir d') = get r (.dir e')) ∧
        ∀ p, ¬ cs <+: p → view d' p = view d p
    | .err x => modify cs d f = .err x
    | .panic => modify cs d f = .panic
    | .hang => modify cs d f = .hang
  | [], d, e, h => by
    simp only [get, Option.some.injEq, Node.dir.injEq] at h
    subst h
    unfold modify
    cases f d with
    | ok x => exact ⟨x.1, rfl, fun r => rfl, fun p hp => absurd (List.nil_prefix) hp⟩
    | err x => rfl
    | panic => rfl
    | hang => rfl
  | c :: cs, d, e, h => by
    simp only [get] at h
    cases hl : look d c with
    | none => rw [hl] at h; cases h
    | some x =>
      rw [hl] at h
      simp only [Option.bind_some] at h
      cases x with
      | file v => cases cs <;> simp [get] at h
      | dir g =>
        have ih := modify_some (f := f) h
        unfold modify
        rw [hl]
        simp only
        cases hf : f e with
        | err x => rw [hf] at ih; simp only at ih; simp only [ih]
        | panic => rw [hf] at ih; simp only at ih; simp only [ih]
        | hang => rw [hf] at ih; simp only at ih; simp only [ih]
        | ok y =>
          rw [hf] at ih
          obtain ⟨g', h1, h2, h3⟩ := ih
          refine ⟨put d c (.dir g'), by rw [h1], ?_, ?_⟩
          · intro r
            simp only [List.cons_append, get, look_put, if_true, Option.bind_some]
            exact h2 r
          · intro p hp
            cases p with
            | nil => rfl
            | cons b p =>
              unfold view
              simp only [get, look_put]
              by_cases hb : b = c
              · subst hb
                rw [if_pos rfl, hl]
                simp only [Option.bind_some]
                exact h3 p (fun hh => hp (List.cons_prefix_cons.2 ⟨rfl, hh⟩))
              · rw [if_neg hb]

/-- A change of one entry of the directory. -/
theorem modify_put {cs : List String} {d e d' : Dir} {t : String} {x : Option Node} (he : get cs (.dir d) = some (.dir e))
    (h2 : ∀ r, get (cs ++ r) (.dir d') = get r (.dir (match x with | some x => put e t x | none => del e t)))
    (h3 : ∀ p, ¬ cs <+: p → view d' p = view d p) (p : List String) :
    view d' p = if cs ++ [t] <+: p then (x.bind (get (p.drop (cs.length + 1)))).map kind else view d p := by
  by_cases hp : cs <+: p
  · obtain ⟨r, rfl⟩ := hp
    unfold view
    rw [h2 r]
    cases r with
    | nil =>
      rw [if_neg (by intro h; have := h.length_le; simp at this; omega)]
      rw [List.append_nil, he]
      cases x <;> rfl
    | cons b r =>
      by_cases hb : b = t
      · subst hb
        rw [if_pos (by simp)]
        have : (cs ++ b :: r).drop (cs.length + 1) = r := by
          rw [List.drop_append]; simp
        rw [this]
        cases x with
        | none => simp [get, look_del]
        | some x => simp [get, look_put]
      · rw [if_neg (by
          rw [List.prefix_append_right_inj]
          simp only [List.cons_prefix_cons, List.nil_prefix, and_true]
          exact fun h => hb h.symm)]
        rw [get_append, he]
        cases x with
        | none => simp [get, look_del, hb]
        | some x => simp [get, look_put, hb]
  · rw [h3 p hp, if_neg (fun h => hp (List.IsPrefix.trans (List.prefix_append ..) h))]

/-- A file or an empty directory is put in the place of a file or of nothing. -/
theorem view_put {cs : List String} {d d' : Dir} {t : String} {x : Node} (hx : ∀ r, r ≠ [] → get r x = none)
    (hold : view d (cs ++ [t]) ≠ some .dir)
    (h : ∀ p, view d' p = if cs ++ [t] <+: p then ((some x).bind (get (p.drop (cs.length + 1)))).map kind else view d p) :
    view d' = upd (view d) (cs ++ [t]) (some (kind x)) := by
  funext p
  rw [h p]
  unfold upd
  by_cases hp : cs ++ [t] <+: p
  · rw [if_pos hp]
    obtain ⟨r, rfl⟩ := hp
    have : (cs ++ [t] ++ r).drop (cs.length + 1) = r := by
      rw [List.drop_append]; simp
    rw [this]
    cases r with
    | nil => simp [get]
    | cons b r =>
      rw [if_neg (by simp)]
      rw [view_below hold (by simp)]
      simp [hx (b :: r) (by simp)]
  · rw [if_neg hp, if_neg (by intro e; exact hp (e ▸ List.prefix_refl _))]

/-- An entry of a directory that is there. -/
theorem get_entry {cs : List String} {d e : Dir} (he : get cs (.dir d) = some (.dir e)) (t : String) :
    get (cs ++ [t]) (.dir d) = look e t := by
  rw [get_append, he]
  simp only [Option.bind_some, get]
  cases look e t <;> rfl

theorem parent_dir {cs : List String} {d : Dir} {t : String} (h : view d (cs ++ [t]) ≠ none) : ∃ e, get cs (.dir d) = some (.dir e) := by
  by_cases hv : view d cs = some .dir
  · exact view_eq_dir.1 hv
  · exact absurd (view_below hv (by simp)) h

theorem file_below (v : VFile) : ∀ r, r ≠ [] → get r (.file v) = none := by
  intro r hr
  cases r with
  | nil => exact absurd rfl hr
  | cons => rfl

theorem empty_below : ∀ r, r ≠ [] → get r (.dir []) = none := by
  intro r hr
  cases r with
  | nil => exact absurd rfl hr
  | cons => rfl

theorem withFile_some {α : Type} {p : Path} {d : Dir} {v : VFile} {f : VFile → Res Err (VFile × α)} (h : view d p.full = some (.file v)) :
    match f v with
    | .ok (v', a) => ∃ d', withFile p d f = .ok (d', a) ∧ view d' = upd (view d) p.full (some (.file v'))
    | .err x => withFile p d f = .err x
    | .panic => withFile p d f = .panic
    | .hang => withFile p d f = .hang := by
  obtain ⟨e, he⟩ := parent_dir (d := d) (cs := p.comps) (t := p.target) (by rw [show p.comps ++ [p.target] = p.full from rfl, h]; simp)
  have hl : look e p.target = some (.file v) := by
    rw [← get_entry he]; exact view_eq_file.1 h
  have hm := modify_some (f := fun d => match look d p.target with
    | some (.file v) =>
      match f v with
      | .ok (v', a) => .ok (put d p.target (.file v'), a)
      | .err x => .err x
      | .panic => .panic
      | .hang => .hang
    | some (.dir _) => .err .isDir
    | none => .err .notFound) he
  simp only [hl] at hm
  unfold withFile
  cases hf : f v with
  | err x => rw [hf] at hm; exact hm
  | panic => rw [hf] at hm; exact hm
  | hang => rw [hf] at hm; exact hm
  | ok y =>
    rw [hf] at hm
    obtain ⟨d', h1, h2, h3⟩ := hm
    exact ⟨d', h1, view_put (file_below _) (by rw [show p.comps ++ [p.target] = p.full from rfl, h]; simp)
      (modify_put (x := some (.file y.1)) he h2 h3)⟩

theorem withFile_none {α : Type} {p : Path} {d : Dir} {f : VFile → Res Err (VFile × α)} (h : ∀ v, view d p.full ≠ some (.file v)) :
    ∃ x, withFile p d f = .err x := by
  unfold withFile
  by_cases hv : view d p.comps = some .dir
  · obtain ⟨e, he⟩ := view_eq_dir.1 hv
    have hm := modify_some (f := fun d => match look d p.target with
      | some (.file v) =>
        match f v with
        | .ok (v', a) => .ok (put d p.target (.file v'), a)
        | .err x => .err x
        | .panic => .panic
        | .hang => .hang
      | some (.dir _) => .err .isDir
      | none => .err .notFound) he
    cases hl : look e p.target with
    | none => simp only [hl] at hm; exact ⟨_, hm⟩
    | some x =>
      cases x with
      | dir g => simp only [hl] at hm; exact ⟨_, hm⟩
      | file v => exact absurd (view_eq_file.2 ((get_entry he _).trans hl)) (h v)
  · exact modify_none hv

/-- What `create` and `createDir` have in common. -/
theorem new_some {p : Path} {d : Dir} {x : Node} (hx : ∀ r, r ≠ [] → get r x = none) (h1 : view d p.comps = some .dir)
    (h2 : view d p.full = none) : ∃ d', modify p.comps d (fun d => match look d p.target with
      | some _ => .err .present
      | none => .ok (put d p.target x, ())) = .ok (d', ()) ∧ view d' = upd (view d) p.full (some (kind x)) := by
  obtain ⟨e, he⟩ := view_eq_dir.1 h1
  have hl : look e p.target = none := by
    rw [← get_entry he]; exact view_eq_none.1 h2
  have hm := modify_some (f := fun d => match look d p.target with
      | some _ => .err .present
      | none => .ok (put d p.target x, ())) he
  simp only [hl] at hm
  obtain ⟨d', g1, g2, g3⟩ := hm
  exact ⟨d', g1, view_put hx (by rw [show p.comps ++ [p.target] = p.full from rfl, h2]; simp) (modify_put (x := some x) he g2 g3)⟩

theorem new_none {p : Path} {d : Dir} {x : Node} (h : ¬ (view d p.comps = some .dir ∧ view d p.full = none)) :
    ∃ y, modify p.comps d (fun d => match look d p.target with
      | some _ => .err .present
      | none => .ok (put d p.target x, ())) = .err y := by
  by_cases h1 : view d p.comps = some .dir
  · obtain ⟨e, he⟩ := view_eq_dir.1 h1
    have hm := modify_some (f := fun d => match look d p.target with
      | some _ => .err .present
      | none => .ok (put d p.target x, ())) he
    cases hl : look e p.target with
    | none => exact absurd ⟨h1, view_eq_none.2 ((get_entry he _).trans hl)⟩ h
    | some z => simp only [hl] at hm; exact ⟨_, hm⟩
  · exact modify_none h1

/-- The entry is taken away, with everything below it. -/
theorem removed {p : Path} {d d' e : Dir} (he : get p.comps (.dir d) = some (.dir e))
    (h2 : ∀ r, get (p.comps ++ r) (.dir d') = get r (.dir (del e p.target))) (h3 : ∀ q, ¬ p.comps <+: q → view d' q = view d q)
    (q : List String) : view d' q = if p.full <+: q then none else view d q := by
  have := modify_put (t := p.target) (x := none) he h2 h3 q
  rw [this]
  rfl

theorem removeFile_some {p : Path} {d : Dir} {v : VFile} (h : view d p.full = some (.file v)) :
    ∃ d', removeFile p d = .ok (d', ()) ∧ ∀ q, view d' q = if p.full <+: q then none else view d q := by
  obtain ⟨e, he⟩ := parent_dir (d := d) (cs := p.comps) (t := p.target) (by rw [show p.comps ++ [p.target] = p.full from rfl, h]; simp)
  have hl : look e p.target = some (.file v) := by
    rw [← get_entry he]; exact view_eq_file.1 h
  have hm := modify_some (f := fun d => match look d p.target with
    | some (.file _) => .ok (del d p.target, ())
    | some (.dir _) => .err .isDir
    | none => .err .notFound) he
  simp only [hl] at hm
  obtain ⟨d', g1, g2, g3⟩ := hm
  exact ⟨d', g1, removed he g2 g3⟩

theorem removeFile_none {p : Path} {d : Dir} (h : ∀ v, view d p.full ≠ some (.file v)) : ∃ x, removeFile p d = .err x := by
  unfold removeFile
  by_cases hv : view d p.comps = some .dir
  · obtain ⟨e, he⟩ := view_eq_dir.1 hv
    have hm := modify_some (f := fun d => match look d p.target with
      | some (.file _) => .ok (del d p.target, ())
      | some (.dir _) => .err .isDir
      | none => .err .notFound) he
    cases hl : look e p.target with
    | none => simp only [hl] at hm; exact ⟨_, hm⟩
    | some x =>
      cases x with
      | dir g => simp only [hl] at hm; exact ⟨_, hm⟩
      | file v => exact absurd (view_eq_file.2 ((get_entry he _).trans hl)) (h v)
  · exact modify_none hv

theorem dirDelete_some {all : Bool} {p : Path} {d : Dir} (h : view d p.full = some .dir)
    (hall : all = true ∨ ∀ n, view d (p.full ++ [n]) = none) :
    ∃ d', dirDelete all p d = .ok (d', ()) ∧ ∀ q, view d' q = if p.full <+: q then none else view d q := by
  obtain ⟨e, he⟩ := parent_dir (d := d) (cs := p.comps) (t := p.target) (by rw [show p.comps ++ [p.target] = p.full from rfl, h]; simp)
  obtain ⟨g, hg⟩ := view_eq_dir.1 h
  have hl : look e p.target = some (.dir g) := by
    rw [← get_entry he]; exact hg
  have hm := modify_some (f := fun d => match look d p.target with
    | some (.dir e) => if all || e.isEmpty then .ok (del d p.target, ()) else .err .notEmpty
    | some (.file _) => .err .fileInPath
    | none => .err .notFound) he
  have hc : (all || g.isEmpty) = true := by
    rcases hall with h | h
    · simp [h]
    · rw [Bool.or_eq_true, isEmpty_iff_look]
      right
      intro n
      rw [← get_entry hg]
      exact view_eq_none.1 (h n)
  simp only [hl, hc, if_true] at hm
  obtain ⟨d', g1, g2, g3⟩ := hm
  exact ⟨d', g1, removed he g2 g3⟩

theorem dirDelete_none {all : Bool} {p : Path} {d : Dir}
    (h : ¬ (view d p.full = some .dir ∧ (all = true ∨ ∀ n, view d (p.full ++ [n]) = none))) : ∃ x, dirDelete all p d = .err x := by
  unfold dirDelete
  by_cases hv : view d p.comps = some .dir
  · obtain ⟨e, he⟩ := view_eq_dir.1 hv
    have hm := modify_some (f := fun d => match look d p.target with
      | some (.dir e) => if all || e.isEmpty then .ok (del d p.target, ()) else .err .notEmpty
      | some (.file _) => .err .fileInPath
      | none => .err .notFound) he
    cases hl : look e p.target with
    | none => simp only [hl] at hm; exact ⟨_, hm⟩
    | some x =>
      cases x with
      | file v => simp only [hl] at hm; exact ⟨_, hm⟩
      | dir g =>
        have hg : get p.full (.dir d) = some (.dir g) := (get_entry he _).trans hl
        by_cases hc : (all || g.isEmpty) = true
        · exfalso
          apply h
          refine ⟨view_eq_dir.2 ⟨g, hg⟩, ?_⟩
          rcases Bool.or_eq_true _ _ ▸ hc with h1 | h1
          · exact .inl h1
          · exact .inr fun n => view_eq_none.2 ((get_entry hg n).trans ((isEmpty_iff_look g).1 h1 n))
        · simp only [hl, hc] at hm
          exact ⟨_, hm⟩
  · exact modify_none hv

theorem view_cons (d : Dir) (c : String) (q : List String) : view d (c :: q) = ((look d c).bind (get q)).map kind := rfl

theorem createAhead_some : ∀ {cs : List String} {d : Dir}, cs ≠ [] → (∀ q, q <+: cs → ∀ v, view d q ≠ some (.file v)) →
    view d cs ≠ some .dir → ∃ d', createAhead cs d = .ok d' ∧ ∀ q, view d' q = if q <+: cs then some .dir else view d q
  | [], d, h, _, _ => absurd rfl h
  | c :: cs, d, _, hf, hd => by
    have key : ∀ (e d' : Dir) (_ : look d c = some (.dir e) ∨ (look d c = none ∧ e = [])) (_ : ∀ q, view d' q = if q <+: cs then some .dir else view e q) (q : List String),
        view (put d c (.dir d')) q = if q <+: c :: cs then some .dir else view d q := by
      intro e d' hl hv q
      cases q with
      | nil => rw [if_pos List.nil_prefix]; rfl
      | cons b q =>
        rw [view_cons, look_put]
        by_cases hb : b = c
        · subst hb
          rw [if_pos rfl]
          simp only [Option.bind_some, List.cons_prefix_cons, true_and]
          rw [show (get q (.dir d')).map kind = view d' q from rfl, hv q]
          split
          · rfl
          · rename_i hq
            rw [view_cons]
            rcases hl with hl | ⟨hl, rfl⟩
            · rw [hl]; rfl
            · rw [hl]
              unfold view
              cases q with
              | nil => exact absurd List.nil_prefix hq
              | cons => rfl
        · rw [if_neg hb, if_neg (by rw [List.cons_prefix_cons]; exact fun h => hb h.1)]
          rfl
    unfold createAhead
    cases hl : look d c with
    | none =>
      simp only
      by_cases hcs : cs = []
      · subst hcs
        refine ⟨put d c (.dir []), rfl, ?_⟩
        refine key [] [] (.inr ⟨hl, rfl⟩) ?_
        intro q
        cases q with
        | nil => rfl
        | cons => rfl
      · obtain ⟨d', h1, h2⟩ := createAhead_some (cs := cs) (d := []) hcs (by
          intro q _ v
          cases q with
          | nil => simp [view_nil]
          | cons => simp [view_cons, look_nil]) (by
          cases cs with
          | nil => exact absurd rfl hcs
          | cons => simp [view_cons, look_nil])
        exact ⟨put d c (.dir d'), by rw [h1], key [] d' (.inr ⟨hl, rfl⟩) h2⟩
    | some x =>
      cases x with
      | file v =>
        exfalso
        exact hf [c] (by simp) v (by simp [view_cons, hl, get, kind])
      | dir e =>
        simp only
        by_cases hcs : cs = []
        · subst hcs
          exfalso
          exact hd (by simp [view_cons, hl, get, kind])
        · rw [if_neg hcs]
          obtain ⟨d', h1, h2⟩ := createAhead_some (cs := cs) (d := e) hcs (by
            intro q hq v hv
            refine hf (c :: q) (List.cons_prefix_cons.2 ⟨rfl, hq⟩) v ?_
            rw [view_cons, hl]
            exact hv) (by
            intro hv
            apply hd
            rw [view_cons, hl]
            exact hv)
          exact ⟨put d c (.dir d'), by rw [h1], key e d' (.inl hl) h2⟩

theorem createAhead_file : ∀ {cs q : List String} {d : Dir} {v : VFile}, q <+: cs → view d q = some (.file v) → ∃ x, createAhead cs d = .err x
  | [], q, d, v, hq, h => by
    rw [List.prefix_nil.1 hq, view_nil] at h
    cases h
  | c :: cs, [], d, v, _, h => by rw [view_nil] at h; cases h
  | c :: cs, b :: q, d, v, hq, h => by
    obtain ⟨rfl, hq'⟩ := List.cons_prefix_cons.1 hq
    rw [view_cons] at h
    unfold createAhead
    cases hl : look d b with
    | none => rw [hl] at h; cases h
    | some x =>
      rw [hl] at h
      cases x with
      | file w => exact ⟨_, rfl⟩
      | dir e =>
        simp only
        split
        · exact ⟨_, rfl⟩
        · obtain ⟨x, hx⟩ := createAhead_file (d := e) (q := q) (v := v) hq' h
          exact ⟨x, by rw [hx]⟩

end Verif.Vfs
