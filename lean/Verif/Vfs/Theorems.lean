import Verif.Vfs.Tree
import Verif.Old.Log
/-!
C91: on the file system of the tests a program gets what it would get on a real one, if it does what is allowed (`Allowed`); the other
operations are answered differently.
-/
namespace Verif.Vfs

def VItem.item : VItem → Item
  | .dir => .dir
  | .file v => .file v.data

/-- The position in the file at a path. -/
def posAt (d : Dir) (q : List String) : Nat :=
  match view d q with
  | some (.file v) => v.pos
  | _ => 0

/-- The state as a program should see it. -/
def abs (s : St) : Real where
  items q := (view s.root q).map VItem.item
  fds := s.fds.map fun o => o.map fun p => (p.full, posAt s.root p.full)

/-- Descriptors are of files that are there, of different ones, with a position inside; all other files are at their beginning. -/
structure Inv (s : St) : Prop where
  opened : ∀ (i : Nat) p, s.fds[i]? = some (some p) → ∃ v, view s.root p.full = some (.file v) ∧ v.read = true ∧ v.write = true ∧
    v.pos ≤ v.data.length
  closed : ∀ q v, view s.root q = some (.file v) → (∀ (i : Nat) p, s.fds[i]? = some (some p) → p.full ≠ q) → v.pos = 0
  distinct : ∀ (i j : Nat) p q, s.fds[i]? = some (some p) → s.fds[j]? = some (some q) → p.full = q.full → i = j

theorem item_file {s : St} {q : List String} {b : Bytes} : (abs s).items q = some (.file b) ↔ ∃ v, view s.root q = some (.file v) ∧ v.data = b := by
  simp only [abs]
  cases h : view s.root q with
  | none => simp
  | some x => cases x <;> simp [VItem.item]

theorem item_dir {s : St} {q : List String} : (abs s).items q = some .dir ↔ view s.root q = some .dir := by
  simp only [abs]
  cases h : view s.root q with
  | none => simp
  | some x => cases x <;> simp [VItem.item]

theorem item_none {s : St} {q : List String} : (abs s).items q = none ↔ view s.root q = none := by
  simp [abs]

theorem fd_abs {s : St} {i : Nat} {x : List String × Nat} : (abs s).fds[i]? = some (some x) ↔
    ∃ p, s.fds[i]? = some (some p) ∧ x = (p.full, posAt s.root p.full) := by
  simp only [abs, List.getElem?_map]
  cases h : s.fds[i]? with
  | none => simp
  | some o => cases o <;> simp [eq_comm]

theorem posAt_file {d : Dir} {q : List String} {v : VFile} (h : view d q = some (.file v)) : posAt d q = v.pos := by
  unfold posAt; rw [h]

/-- A change that leaves the files under descriptors alone leaves the descriptors. -/
theorem fds_keep {s : St} {d' : Dir} (h : ∀ (i : Nat) p, s.fds[i]? = some (some p) → view d' p.full = view s.root p.full) :
    (abs { s with root := d' }).fds = (abs s).fds := by
  simp only [abs]
  apply List.ext_getElem?
  intro i
  simp only [List.getElem?_map]
  cases hi : s.fds[i]? with
  | none => rfl
  | some o =>
    cases o with
    | none => rfl
    | some p => simp [posAt, h i p hi]

theorem Inv.keep {s : St} (hs : Inv s) {d' : Dir} (h : ∀ (i : Nat) p, s.fds[i]? = some (some p) → view d' p.full = view s.root p.full)
    (hf : ∀ q v, view d' q = some (.file v) → view s.root q = some (.file v)) : Inv { s with root := d' } where
  opened i p hi := by
    obtain ⟨v, h1, h2⟩ := hs.opened i p hi
    exact ⟨v, (h i p hi).trans h1, h2⟩
  closed q v hv hn := hs.closed q v (hf q v hv) hn
  distinct := hs.distinct

theorem abs_upd {s : St} {d' : Dir} {q : List String} {x : Option VItem} (h : view d' = upd (view s.root) q x) :
    (abs { s with root := d' }).items = upd (abs s).items q (x.map VItem.item) := by
  funext p
  simp only [abs, h, upd]
  split <;> rfl

/-- A change of a file under a descriptor. -/
theorem fd_change {s : St} (hs : Inv s) {i : Nat} {p : Path} {d' : Dir} {v' : VFile} (hi : s.fds[i]? = some (some p))
    (h : view d' = upd (view s.root) p.full (some (.file v'))) (hr : v'.read = true) (hw : v'.write = true) (hp : v'.pos ≤ v'.data.length) :
    Inv { s with root := d' } ∧ abs { s with root := d' } =
      ⟨upd (abs s).items p.full (some (.file v'.data)), (abs s).fds.set i (some (p.full, v'.pos))⟩ := by
  have other : ∀ (j : Nat) q, s.fds[j]? = some (some q) → j ≠ i → view d' q.full = view s.root q.full := by
    intro j q hj hji
    rw [h, upd, if_neg (fun e => hji (hs.distinct j i q p hj hi e))]
  have this : view d' p.full = some (.file v') := by rw [h, upd, if_pos rfl]
  refine ⟨⟨?_, ?_, hs.distinct⟩, ?_⟩
  · intro j q hj
    by_cases hji : j = i
    · subst hji
      rw [hi] at hj
      simp only [Option.some.injEq] at hj
      subst hj
      exact ⟨v', this, hr, hw, hp⟩
    · obtain ⟨v, h1, h2⟩ := hs.opened j q hj
      exact ⟨v, (other j q hj hji).trans h1, h2⟩
  · intro q v hv hn
    have hq := hn i p hi
    refine hs.closed q v ?_ hn
    simp only [h, upd] at hv
    rwa [if_neg (fun e => hq e.symm)] at hv
  · have e1 := abs_upd h
    have e2 : (abs { s with root := d' }).fds = (abs s).fds.set i (some (p.full, v'.pos)) := by
      apply List.ext_getElem?
      intro j
      rw [List.getElem?_set]
      simp only [abs, List.getElem?_map, List.length_map]
      by_cases hji : i = j
      · subst hji
        have hlt : i < s.fds.length := (List.getElem?_eq_some_iff.1 hi).1
        rw [if_pos rfl, if_pos hlt, hi]
        simp only [Option.map_some, posAt, this]
      · rw [if_neg hji]
        cases hj : s.fds[j]? with
        | none => rfl
        | some o =>
          cases o with
          | none => rfl
          | some q => simp [posAt, other j q hj (fun e => hji e.symm)]
    cases hx : abs { s with root := d' } with
    | mk items fds =>
      rw [hx] at e1 e2
      simp only at e1 e2
      rw [e1, e2]
      rfl

theorem upd_self {β : Type} {f : List String → Option β} {p : List String} : upd f p (f p) = f := by
  funext q
  unfold upd
  split
  · rename_i h; rw [h]
  · rfl

theorem set_self {β : Type} {l : List β} {i : Nat} {x : β} (h : l[i]? = some x) : l.set i x = l := by
  apply List.ext_getElem?
  intro j
  rw [List.getElem?_set]
  split
  · rename_i e
    subst e
    have := (List.getElem?_eq_some_iff.1 h).1
    rw [if_pos this, h]
  · rfl

theorem getElem?_snoc {β : Type} {l : List β} {x y : β} {i : Nat} (h : (l ++ [x])[i]? = some y) : l[i]? = some y ∨ (i = l.length ∧ y = x) := by
  rw [List.getElem?_append] at h
  split at h
  · exact .inl h
  · rename_i hi
    have : i - l.length = 0 := by
      cases hk : i - l.length with
      | zero => rfl
      | succ k => rw [hk] at h; simp at h
    rw [this] at h
    simp at h
    exact .inr ⟨by omega, h.symm⟩

/-- The state of a file under a descriptor. -/
theorem at_abs {s : St} (hs : Inv s) {i : Nat} {q : List String} {pos : Nat} {data : Bytes} (h : (abs s).At i q pos data) :
    ∃ p v, s.fds[i]? = some (some p) ∧ q = p.full ∧ view s.root p.full = some (.file v) ∧ pos = v.pos ∧ data = v.data ∧ v.read = true ∧
      v.write = true ∧ v.pos ≤ v.data.length := by
  obtain ⟨p, h1, h2⟩ := fd_abs.1 h.1
  obtain ⟨v, h3, h4⟩ := hs.opened i p h1
  simp only [Prod.mk.injEq] at h2
  obtain ⟨v', h5, h6⟩ := item_file.1 h.2
  rw [h2.1, h3] at h5
  simp only [Option.some.injEq, VItem.file.injEq] at h5
  subst h5
  exact ⟨p, v, h1, h2.1, h3, h2.2.trans (posAt_file h3), h6.symm, h4⟩

theorem got_err {α : Type} {s : St} {k : α → Out} {r : Res Err (Dir × α)} (h : ∃ x, r = .err x) : s.got k r = (s, .fail) := by
  obtain ⟨x, rfl⟩ := h; rfl

/-- An operation on a descriptor that succeeds. -/
theorem onFd_ok {α : Type} {s : St} (hs : Inv s) {i : Nat} {p : Path} {v v' : VFile} {a : α} {k : α → Out} {f : VFile → Res Err (VFile × α)}
    (hi : s.fds[i]? = some (some p)) (hv : view s.root p.full = some (.file v)) (hf : f v = .ok (v', a)) (hr : v'.read = true)
    (hw : v'.write = true) (hp : v'.pos ≤ v'.data.length) :
    ∃ s', s.onFd i k f = (s', k a) ∧ Inv s' ∧
      abs s' = ⟨upd (abs s).items p.full (some (.file v'.data)), (abs s).fds.set i (some (p.full, v'.pos))⟩ := by
  have hw' := withFile_some (f := f) hv
  rw [hf] at hw'
  obtain ⟨d', h1, h2⟩ := hw'
  obtain ⟨h3, h4⟩ := fd_change hs hi h2 hr hw hp
  refine ⟨{ s with root := d' }, ?_, h3, h4⟩
  unfold St.onFd
  rw [hi]
  simp only [h1, St.got]

theorem onFd_err {α : Type} {s : St} {i : Nat} {p : Path} {v : VFile} {k : α → Out} {f : VFile → Res Err (VFile × α)} {x : Err}
    (hi : s.fds[i]? = some (some p)) (hv : view s.root p.full = some (.file v)) (hf : f v = .err x) : s.onFd i k f = (s, .fail) := by
  have hw' := withFile_some (f := f) hv
  rw [hf] at hw'
  unfold St.onFd
  rw [hi]
  simp only [hw', St.got]

/-- No descriptor: nothing is done. -/
theorem onFd_none {α : Type} {s : St} {i : Nat} {k : α → Out} {f : VFile → Res Err (VFile × α)} (h : ∀ p, s.fds[i]? ≠ some (some p)) :
    s.onFd i k f = (s, .fail) := by
  unfold St.onFd
  split
  · rename_i p hp; exact absurd hp (h p)
  · rfl

theorem At.fds {r : Real} {i : Nat} {p : List String} {pos : Nat} {data : Bytes} (h : r.At i p pos data) :
    upd r.items p (some (.file data)) = r.items ∧ r.fds.set i (some (p, pos)) = r.fds := by
  refine ⟨?_, set_self h.1⟩
  rw [← h.2]
  exact upd_self

-- a position behind the end: the gap is filled with zeros
example : (⟨true, true, [1], 3⟩ : VFile).fwrite [9, 8] = .ok (⟨true, true, [1, 0, 0, 9, 8], 5⟩, 2) := by decide

theorem fwrite_patch {v : VFile} (hw : v.write = true) (hp : v.pos ≤ v.data.length) (b : Bytes) :
    v.fwrite b = .ok ({ v with data := patch v.data v.pos b, pos := v.pos + b.length }, b.length) := by
  unfold VFile.fwrite patch
  rw [hw]
  simp only [Bool.not_true, Bool.false_eq_true, if_false, Res.ok.injEq, Prod.mk.injEq, and_true, VFile.mk.injEq, true_and]
  have h0 : v.pos - v.data.length = 0 := by omega
  rw [h0, List.replicate_zero, List.append_nil]
  split
  · rename_i h
    rw [List.take_append_of_le_length hp]
    congr 1
    rw [List.drop_eq_nil_of_le (by simp; omega), List.drop_eq_nil_of_le (by omega)]
  · rfl

theorem truncate_resize {v : VFile} (hw : v.write = true) {n : Nat} (hp : v.pos ≤ v.data.length) (hn : v.pos ≤ n) :
    v.truncate n = .ok ({ v with data := resize v.data n }, ()) := by
  unfold VFile.truncate resize
  rw [hw]
  simp only [Bool.not_true, Bool.false_eq_true, if_false, Res.ok.injEq, Prod.mk.injEq, and_true, VFile.mk.injEq, true_and]
  have e : (if n > v.data.length then v.data ++ List.replicate (n - v.data.length) 0 else v.data.take n) =
      v.data.take n ++ List.replicate (n - v.data.length) 0 := by
    split
    · rw [List.take_of_length_le (by omega)]
    · have : n - v.data.length = 0 := by omega
      rw [this]; simp
  rw [e]
  refine ⟨rfl, ?_⟩
  rw [if_neg]
  simp only [List.length_append, List.length_take, List.length_replicate]
  omega

theorem patch_length {data : Bytes} {pos : Nat} {b : Bytes} (hp : pos ≤ data.length) : pos + b.length ≤ (patch data pos b).length := by
  unfold patch
  simp only [List.length_append, List.length_take, List.length_replicate, List.length_drop]
  omega

theorem resize_length {data : Bytes} {n : Nat} : (resize data n).length = n := by
  unfold resize
  simp only [List.length_append, List.length_take, List.length_replicate]
  omega

/-- A new descriptor. -/
theorem new_fd {s : St} (hs : Inv s) {d' : Dir} {p : Path} {v : VFile} (hn : ∀ (i : Nat) q, s.fds[i]? = some (some q) → q.full ≠ p.full)
    (h : view d' = upd (view s.root) p.full (some (.file v))) (hr : v.read = true) (hw : v.write = true) (hp : v.pos = 0) :
    Inv ⟨d', s.fds ++ [some p]⟩ ∧ abs ⟨d', s.fds ++ [some p]⟩ =
      ⟨upd (abs s).items p.full (some (.file v.data)), (abs s).fds ++ [some (p.full, 0)]⟩ := by
  have this : view d' p.full = some (.file v) := by rw [h, upd, if_pos rfl]
  have other : ∀ (i : Nat) q, s.fds[i]? = some (some q) → view d' q.full = view s.root q.full := by
    intro i q hi
    rw [h, upd, if_neg (hn i q hi)]
  refine ⟨⟨?_, ?_, ?_⟩, ?_⟩
  · intro i q hi
    rcases getElem?_snoc hi with hi | ⟨_, e⟩
    · obtain ⟨w, h1, h2⟩ := hs.opened i q hi
      exact ⟨w, (other i q hi).trans h1, h2⟩
    · simp only [Option.some.injEq] at e
      subst e
      exact ⟨v, this, hr, hw, by omega⟩
  · intro q w hv hq
    by_cases e : q = p.full
    · subst e
      rw [this] at hv
      simp only [Option.some.injEq, VItem.file.injEq] at hv
      rw [← hv]; exact hp
    · refine hs.closed q w ?_ ?_
      · simpa [h, upd, e] using hv
      · intro i x hi
        refine hq i x ?_
        rw [List.getElem?_append_left (List.getElem?_eq_some_iff.1 hi).1]
        exact hi
  · intro i j x y hi hj e
    rcases getElem?_snoc hi with hi' | ⟨hi', ei⟩ <;> rcases getElem?_snoc hj with hj' | ⟨hj', ej⟩
    · exact hs.distinct i j x y hi' hj' e
    · simp only [Option.some.injEq] at ej
      subst ej
      exact absurd e (hn i x hi')
    · simp only [Option.some.injEq] at ei
      subst ei
      exact absurd e.symm (hn j y hj')
    · omega
  · have e1 := abs_upd h
    have e2 := fds_keep (d' := d') other
    simp only [abs] at e1 e2
    simp only [abs, List.map_append, List.map_cons, List.map_nil, Option.map_some, posAt_file this, hp]
    rw [e1, e2]
    rfl

theorem below_file {s : St} {p q : List String} {v : VFile} (h : view s.root p = some (.file v)) (hq : p <+: q) (hn : q ≠ p) :
    view s.root q = none := by
  obtain ⟨r, rfl⟩ := hq
  cases r with
  | nil => simp at hn
  | cons c r => exact view_below (by rw [h]; simp) (by simp)

/-- One operation. -/
theorem sim {s : St} (hs : Inv s) {op : Op} (ha : Allowed (abs s) op) :
    Inv (step s op).1 ∧ Spec (abs s) op (step s op).2 (abs (step s op).1) := by
  cases op with
  | rename p q => exact absurd ha id
  | createDir p =>
    by_cases hc : view s.root p.comps = some .dir ∧ view s.root p.full = none
    · obtain ⟨d', h1, h2⟩ := new_some (x := .dir []) empty_below hc.1 hc.2
      have hst : step s (.createDir p) = ({ s with root := d' }, .done) := by
        show s.got _ (createDir p s.root) = _
        rw [show createDir p s.root = .ok (d', ()) from h1]; rfl
      have hk : ∀ (i : Nat) x, s.fds[i]? = some (some x) → view d' x.full = view s.root x.full := by
        intro i x hi
        obtain ⟨v, hv, _⟩ := hs.opened i x hi
        rw [h2, upd, if_neg]
        intro e
        rw [e, hc.2] at hv
        cases hv
      rw [hst]
      refine ⟨hs.keep hk ?_, .inl ⟨⟨item_dir.2 hc.1, item_none.2 hc.2⟩, rfl, ?_⟩⟩
      · intro q v hv
        rw [h2, upd] at hv
        split at hv
        · cases hv
        · exact hv
      · have e1 := abs_upd h2
        have e2 := fds_keep hk
        cases hx : abs { s with root := d' } with
        | mk items fds =>
          rw [hx] at e1 e2
          simp only at e1 e2
          rw [e1, e2]
          rfl
    · have hst : step s (.createDir p) = (s, .fail) := got_err (new_none hc)
      rw [hst]
      exact ⟨hs, .inr ⟨fun h => hc ⟨item_dir.1 h.1, item_none.1 h.2⟩, rfl, rfl⟩⟩
  | createDirAll p =>
    by_cases hc : ∀ q, q <+: p.full → ∀ v, view s.root q ≠ some (.file v)
    · obtain ⟨d', h1, h2⟩ := createAhead_some (cs := p.full) (d := s.root) (by simp [Path.full]) hc (fun h => ha (item_dir.2 h))
      have hst : step s (.createDirAll p) = ({ s with root := d' }, .done) := by
        show s.got _ (createDirAll p s.root) = _
        unfold createDirAll
        rw [h1]; rfl
      have hk : ∀ (i : Nat) x, s.fds[i]? = some (some x) → view d' x.full = view s.root x.full := by
        intro i x hi
        obtain ⟨v, hv, _⟩ := hs.opened i x hi
        rw [h2, if_neg]
        intro e
        exact hc _ e v hv
      rw [hst]
      refine ⟨hs.keep hk ?_, .inl ⟨?_, rfl, fds_keep hk, ?_⟩⟩
      · intro q v hv
        rw [h2] at hv
        split at hv
        · cases hv
        · exact hv
      · intro q hq b hb
        obtain ⟨v, hv, _⟩ := item_file.1 hb
        exact hc q hq v hv
      · intro q
        simp only [abs, h2]
        split <;> rfl
    · have : ∃ q v, q <+: p.full ∧ view s.root q = some (.file v) := by
        apply Classical.byContradiction
        intro hn
        apply hc
        intro q hq v hv
        exact hn ⟨q, v, hq, hv⟩
      obtain ⟨q, v, hq, hv⟩ := this
      obtain ⟨x, hx⟩ := createAhead_file hq hv
      have hst : step s (.createDirAll p) = (s, .fail) := by
        show s.got _ (createDirAll p s.root) = _
        unfold createDirAll
        rw [hx]; rfl
      rw [hst]
      exact ⟨hs, .inr ⟨fun h => h q hq v.data (item_file.2 ⟨v, hv, rfl⟩), rfl, rfl⟩⟩
  | removeDir p =>
    by_cases hc : view s.root p.full = some .dir ∧ ∀ n, view s.root (p.full ++ [n]) = none
    · obtain ⟨d', h1, h2⟩ := dirDelete_some (all := false) hc.1 (.inr hc.2)
      have hst : step s (.removeDir p) = ({ s with root := d' }, .done) := by
        show s.got _ (dirDelete false p s.root) = _
        rw [h1]; rfl
      have hb : ∀ q, p.full <+: q → q ≠ p.full → view s.root q = none := by
        rintro q ⟨r, rfl⟩ hn
        cases r with
        | nil => simp at hn
        | cons c r =>
          cases r with
          | nil => exact hc.2 c
          | cons b r =>
            have := view_below (d := s.root) (p := p.full ++ [c]) (q := b :: r) (by rw [hc.2 c]; simp) (by simp)
            simpa using this
      have hk : ∀ (i : Nat) x, s.fds[i]? = some (some x) → view d' x.full = view s.root x.full := by
        intro i x hi
        obtain ⟨v, hv, _⟩ := hs.opened i x hi
        rw [h2, if_neg]
        intro e
        by_cases hx : x.full = p.full
        · rw [hx, hc.1] at hv; cases hv
        · rw [hb _ e hx] at hv; cases hv
      rw [hst]
      refine ⟨hs.keep hk ?_, .inl ⟨⟨item_dir.2 hc.1, fun n => item_none.2 (hc.2 n)⟩, rfl, ?_⟩⟩
      · intro q v hv
        rw [h2] at hv
        split at hv
        · cases hv
        · exact hv
      · have e0 : view d' = upd (view s.root) p.full none := by
          funext q
          rw [h2, upd]
          by_cases e : q = p.full
          · rw [if_pos e, if_pos (e ▸ List.prefix_refl _)]
          · rw [if_neg e]
            split
            · rename_i e'; exact (hb q e' e).symm
            · rfl
        have e1 := abs_upd e0
        have e2 := fds_keep hk
        cases hx : abs { s with root := d' } with
        | mk items fds =>
          rw [hx] at e1 e2
          simp only at e1 e2
          rw [e1, e2]
          rfl
    · have hst : step s (.removeDir p) = (s, .fail) := got_err (dirDelete_none (by simpa using hc))
      rw [hst]
      exact ⟨hs, .inr ⟨fun h => hc ⟨item_dir.1 h.1, fun n => item_none.1 (h.2 n)⟩, rfl, rfl⟩⟩
  | removeDirAll p =>
    by_cases hc : view s.root p.full = some .dir
    · obtain ⟨d', h1, h2⟩ := dirDelete_some (all := true) hc (.inl rfl)
      have hst : step s (.removeDirAll p) = ({ s with root := d' }, .done) := by
        show s.got _ (dirDelete true p s.root) = _
        rw [h1]; rfl
      have hk : ∀ (i : Nat) x, s.fds[i]? = some (some x) → view d' x.full = view s.root x.full := by
        intro i x hi
        rw [h2, if_neg]
        exact ha i x.full _ (fd_abs.2 ⟨x, hi, rfl⟩)
      rw [hst]
      refine ⟨hs.keep hk ?_, .inl ⟨item_dir.2 hc, rfl, fds_keep hk, ?_⟩⟩
      · intro q v hv
        rw [h2] at hv
        split at hv
        · cases hv
        · exact hv
      · intro q
        simp only [abs, h2]
        split <;> rfl
    · have hst : step s (.removeDirAll p) = (s, .fail) := got_err (dirDelete_none (by simpa using hc))
      rw [hst]
      exact ⟨hs, .inr ⟨fun h => hc (item_dir.1 h), rfl, rfl⟩⟩
  | removeFile p =>
    by_cases hc : ∃ v, view s.root p.full = some (.file v)
    · obtain ⟨v, hv⟩ := hc
      obtain ⟨d', h1, h2⟩ := removeFile_some hv
      have hst : step s (.removeFile p) = ({ s with root := d' }, .done) := by
        show s.got _ (removeFile p s.root) = _
        rw [h1]; rfl
      have hk : ∀ (i : Nat) x, s.fds[i]? = some (some x) → view d' x.full = view s.root x.full := by
        intro i x hi
        obtain ⟨w, hw, _⟩ := hs.opened i x hi
        rw [h2, if_neg]
        intro e
        rw [below_file hv e (ha i x.full _ (fd_abs.2 ⟨x, hi, rfl⟩))] at hw
        cases hw
      rw [hst]
      refine ⟨hs.keep hk ?_, .inl ⟨⟨v.data, item_file.2 ⟨v, hv, rfl⟩⟩, rfl, ?_⟩⟩
      · intro q w hw
        rw [h2] at hw
        split at hw
        · cases hw
        · exact hw
      · have e0 : view d' = upd (view s.root) p.full none := by
          funext q
          rw [h2, upd]
          by_cases e : q = p.full
          · rw [if_pos e, if_pos (e ▸ List.prefix_refl _)]
          · rw [if_neg e]
            split
            · rename_i e'; exact (below_file hv e' e).symm
            · rfl
        have e1 := abs_upd e0
        have e2 := fds_keep hk
        cases hx : abs { s with root := d' } with
        | mk items fds =>
          rw [hx] at e1 e2
          simp only at e1 e2
          rw [e1, e2]
          rfl
    · have hst : step s (.removeFile p) = (s, .fail) := got_err (removeFile_none (fun v hv => hc ⟨v, hv⟩))
      rw [hst]
      refine ⟨hs, .inr ⟨?_, rfl, rfl⟩⟩
      rintro ⟨b, hb⟩
      obtain ⟨v, hv, _⟩ := item_file.1 hb
      exact hc ⟨v, hv⟩
  | readAll p =>
    by_cases hc : ∃ v, view s.root p.full = some (.file v)
    · obtain ⟨v, hv⟩ := hc
      obtain ⟨d', h1, h2⟩ := withFile_some (f := fun f => Res.ok (f, f.data)) hv
      have e0 : view d' = view s.root := by rw [h2, ← hv]; exact upd_self
      have hst : step s (.readAll p) = ({ s with root := d' }, .bytes v.data) := by
        show s.got _ (withFile p s.root fun f => .ok (f, f.data)) = _
        rw [h1]; rfl
      rw [hst]
      refine ⟨hs.keep (fun i x _ => by rw [e0]) (fun q w hw => by rwa [e0] at hw), .inl ⟨⟨v.data, item_file.2 ⟨v, hv, rfl⟩⟩, v.data,
        item_file.2 ⟨v, hv, rfl⟩, rfl, ?_⟩⟩
      simp only [abs, posAt, e0]
    · have hst : step s (.readAll p) = (s, .fail) := got_err (withFile_none (fun v hv => hc ⟨v, hv⟩))
      rw [hst]
      refine ⟨hs, .inr ⟨?_, rfl, rfl⟩⟩
      rintro ⟨b, hb⟩
      obtain ⟨v, hv, _⟩ := item_file.1 hb
      exact hc ⟨v, hv⟩
  | create p =>
    by_cases hc : view s.root p.comps = some .dir ∧ view s.root p.full = none
    · obtain ⟨d', h1, h2⟩ := new_some (x := .file ⟨true, true, [], 0⟩) (file_below _) hc.1 hc.2
      have hst : step s (.create p) = (⟨d', s.fds ++ [some p]⟩, .fd s.fds.length) := by
        simp only [step, show create p s.root = .ok (d', ()) from h1, St.got]
      rw [hst]
      obtain ⟨g1, g2⟩ := new_fd hs (p := p) (v := ⟨true, true, [], 0⟩) (by
        intro i q hi e
        obtain ⟨v, hv, _⟩ := hs.opened i q hi
        rw [e, hc.2] at hv
        cases hv) h2 rfl rfl rfl
      exact ⟨g1, .inl ⟨⟨item_dir.2 hc.1, item_none.2 hc.2⟩, by simp [abs], g2⟩⟩
    · have hst : step s (.create p) = (s, .fail) := by
        have : s.got (fun _ => .fd s.fds.length) (create p s.root) = (s, .fail) := got_err (new_none hc)
        simp only [step, this]
      rw [hst]
      exact ⟨hs, .inr ⟨fun h => hc ⟨item_dir.1 h.1, item_none.1 h.2⟩, rfl, rfl⟩⟩
  | openRw p =>
    by_cases hc : ∃ v, view s.root p.full = some (.file v)
    · obtain ⟨v, hv⟩ := hc
      obtain ⟨d', h1, h2⟩ := withFile_some (f := fun f => Res.ok ({ f with read := true, write := true }, ())) hv
      have hst : step s (.openRw p) = (⟨d', s.fds ++ [some p]⟩, .fd s.fds.length) := by
        simp only [step, show openRw p s.root = .ok (d', ()) from h1, St.got]
      rw [hst]
      have hn : ∀ (i : Nat) q, s.fds[i]? = some (some q) → q.full ≠ p.full := fun i q hi => ha i q.full _ (fd_abs.2 ⟨q, hi, rfl⟩)
      obtain ⟨g1, g2⟩ := new_fd hs hn h2 rfl rfl (hs.closed _ v hv hn)
      refine ⟨g1, .inl ⟨⟨v.data, item_file.2 ⟨v, hv, rfl⟩⟩, by simp [abs], ?_⟩⟩
      rw [g2]
      have : upd (abs s).items p.full (some (.file v.data)) = (abs s).items := by
        rw [← item_file.2 ⟨v, hv, rfl⟩]; exact upd_self
      simp only [this]
    · have hst : step s (.openRw p) = (s, .fail) := by
        have : s.got (fun _ => .fd s.fds.length) (openRw p s.root) = (s, .fail) := got_err (withFile_none (fun v hv => hc ⟨v, hv⟩))
        simp only [step, this]
      rw [hst]
      refine ⟨hs, .inr ⟨?_, rfl, rfl⟩⟩
      rintro ⟨b, hb⟩
      obtain ⟨v, hv, _⟩ := item_file.1 hb
      exact hc ⟨v, hv⟩
  | close i =>
    by_cases hi : ∃ p, s.fds[i]? = some (some p)
    · obtain ⟨p, hi⟩ := hi
      obtain ⟨v, hv, _⟩ := hs.opened i p hi
      obtain ⟨d', h1, h2⟩ := withFile_some (f := fun f => Res.ok ({ f with pos := 0, write := false, read := false }, ())) hv
      have hst : step s (.close i) = (⟨d', s.fds.set i none⟩, .done) := by
        simp only [step, hi]
        unfold close
        rw [h1]
        rfl
      rw [hst]
      have hset : ∀ (j : Nat) x, (s.fds.set i none)[j]? = some (some x) → s.fds[j]? = some (some x) ∧ j ≠ i := by
        intro j x hj
        rw [List.getElem?_set] at hj
        split at hj
        · split at hj <;> simp at hj
        · rename_i h; exact ⟨hj, fun e => h e.symm⟩
      have other : ∀ (j : Nat) q, s.fds[j]? = some (some q) → j ≠ i → view d' q.full = view s.root q.full := by
        intro j q hj hji
        rw [h2, upd, if_neg (fun e => hji (hs.distinct j i q p hj hi e))]
      refine ⟨⟨?_, ?_, ?_⟩, ?_⟩
      · intro j x hj
        obtain ⟨hj, hji⟩ := hset j x hj
        obtain ⟨w, g1, g2⟩ := hs.opened j x hj
        exact ⟨w, (other j x hj hji).trans g1, g2⟩
      · intro q w hw hn
        simp only [h2, upd] at hw
        split at hw
        · simp only [Option.some.injEq, VItem.file.injEq] at hw
          rw [← hw]
        · rename_i hq
          refine hs.closed q w hw ?_
          intro j x hj e
          by_cases hji : j = i
          · subst hji
            rw [hi] at hj
            simp only [Option.some.injEq] at hj
            subst hj
            exact hq e.symm
          · refine hn j x ?_ e
            show (s.fds.set i none)[j]? = _
            rw [List.getElem?_set, if_neg (fun e => hji e.symm)]
            exact hj
      · intro j k x y hj hk e
        exact hs.distinct j k x y (hset j x hj).1 (hset k y hk).1 e
      · intro x hx
        refine ⟨rfl, ?_⟩
        have e1 : (abs ⟨d', s.fds.set i none⟩).items = (abs s).items := by
          have := abs_upd h2
          simp only [Option.map_some, VItem.item] at this
          rw [← item_file.2 ⟨v, hv, rfl⟩, upd_self] at this
          exact this
        have e2 : (abs ⟨d', s.fds.set i none⟩).fds = (abs s).fds.set i none := by
          simp only [abs]
          apply List.ext_getElem?
          intro j
          rw [List.getElem?_set, List.getElem?_map, List.getElem?_set, List.length_map, List.getElem?_map]
          by_cases hji : i = j
          · subst hji
            rw [if_pos rfl, if_pos rfl]
            split <;> rfl
          · rw [if_neg hji, if_neg hji]
            cases hj : s.fds[j]? with
            | none => rfl
            | some o =>
              cases o with
              | none => rfl
              | some q => simp [posAt, other j q hj (fun e => hji e.symm)]
        cases hx' : abs ⟨d', s.fds.set i none⟩ with
        | mk items fds =>
          rw [hx'] at e1 e2
          simp only at e1 e2
          rw [e1, e2]
    · have hst : step s (.close i) = (s, .fail) := by
        simp only [step]
        split
        · rename_i p hp; exact absurd ⟨p, hp⟩ hi
        · rfl
      rw [hst]
      refine ⟨hs, ?_⟩
      intro x hx
      obtain ⟨p, hp, _⟩ := fd_abs.1 hx
      exact absurd ⟨p, hp⟩ hi
  | read i n =>
    by_cases hi : ∃ p, s.fds[i]? = some (some p)
    · obtain ⟨p, hi⟩ := hi
      obtain ⟨v, hv, hr, hw, hp⟩ := hs.opened i p hi
      by_cases hn : v.pos + n ≤ v.data.length
      · obtain ⟨s', g1, g2, g3⟩ := onFd_ok hs (k := Out.bytes) (f := fun f => f.fread n) (v' := { v with pos := v.pos + n }) hi hv (by
          simp only [VFile.fread, hr, Bool.not_true, Bool.false_eq_true, if_false]
          rw [if_neg (by omega), if_neg (by omega)]) hr hw hn
        have hst : step s (.read i n) = (s', .bytes ((v.data.drop v.pos).take n)) := g1
        rw [hst]
        refine ⟨g2, ?_⟩
        intro q pos data hat
        obtain ⟨p', v', k1, rfl, k2, rfl, rfl, _⟩ := at_abs hs hat
        rw [hi] at k1
        simp only [Option.some.injEq] at k1
        subst k1
        rw [hv] at k2
        simp only [Option.some.injEq, VItem.file.injEq] at k2
        subst k2
        rw [if_pos hn]
        refine ⟨rfl, ?_⟩
        rw [g3]
        simp only [(At.fds hat).1]
      · have g1 := onFd_err (k := Out.bytes) (f := fun f => f.fread n) (x := .eof) hi hv (by
          simp only [VFile.fread, hr, Bool.not_true, Bool.false_eq_true, if_false]
          rw [if_neg (by omega), if_pos (by omega)])
        have hst : step s (.read i n) = (s, .fail) := g1
        rw [hst]
        refine ⟨hs, ?_⟩
        intro q pos data hat
        obtain ⟨p', v', k1, rfl, k2, rfl, rfl, _⟩ := at_abs hs hat
        rw [hi] at k1
        simp only [Option.some.injEq] at k1
        subst k1
        rw [hv] at k2
        simp only [Option.some.injEq, VItem.file.injEq] at k2
        subst k2
        rw [if_neg hn]
        refine ⟨rfl, v.pos, ?_⟩
        rw [(At.fds hat).2]
    · have hst : step s (.read i n) = (s, .fail) := onFd_none (fun p hp => hi ⟨p, hp⟩)
      rw [hst]
      refine ⟨hs, ?_⟩
      intro q pos data hat
      obtain ⟨p', _, k1, _⟩ := at_abs hs hat
      exact absurd ⟨p', k1⟩ hi
  | write i b =>
    by_cases hi : ∃ p, s.fds[i]? = some (some p)
    · obtain ⟨p, hi⟩ := hi
      obtain ⟨v, hv, hr, hw, hp⟩ := hs.opened i p hi
      obtain ⟨s', g1, g2, g3⟩ := onFd_ok hs (k := Out.num) (f := fun f => f.fwrite b) hi hv (fwrite_patch hw hp b) hr hw (patch_length hp)
      have hst : step s (.write i b) = (s', .num b.length) := g1
      rw [hst]
      refine ⟨g2, ?_⟩
      intro q pos data hat
      obtain ⟨p', v', k1, rfl, k2, rfl, rfl, _⟩ := at_abs hs hat
      rw [hi] at k1
      simp only [Option.some.injEq] at k1
      subst k1
      rw [hv] at k2
      simp only [Option.some.injEq, VItem.file.injEq] at k2
      subst k2
      exact ⟨rfl, g3⟩
    · have hst : step s (.write i b) = (s, .fail) := onFd_none (fun p hp => hi ⟨p, hp⟩)
      rw [hst]
      refine ⟨hs, ?_⟩
      intro q pos data hat
      obtain ⟨p', _, k1, _⟩ := at_abs hs hat
      exact absurd ⟨p', k1⟩ hi
  | truncate i n =>
    by_cases hi : ∃ p, s.fds[i]? = some (some p)
    · obtain ⟨p, hi⟩ := hi
      obtain ⟨v, hv, hr, hw, hp⟩ := hs.opened i p hi
      have hn : v.pos ≤ n := by
        have := ha p.full _ (fd_abs.2 ⟨p, hi, rfl⟩)
        rwa [posAt_file hv] at this
      obtain ⟨s', g1, g2, g3⟩ := onFd_ok hs (k := fun _ => Out.done) (f := fun f => f.truncate n) hi hv (truncate_resize hw hp hn) hr hw
        (by simp only [resize_length]; exact hn)
      have hst : step s (.truncate i n) = (s', .done) := g1
      rw [hst]
      refine ⟨g2, ?_⟩
      intro q pos data hat
      obtain ⟨p', v', k1, rfl, k2, rfl, rfl, _⟩ := at_abs hs hat
      rw [hi] at k1
      simp only [Option.some.injEq] at k1
      subst k1
      rw [hv] at k2
      simp only [Option.some.injEq, VItem.file.injEq] at k2
      subst k2
      refine ⟨rfl, ?_⟩
      rw [g3]
      simp only [(At.fds hat).2]
    · have hst : step s (.truncate i n) = (s, .fail) := onFd_none (fun p hp => hi ⟨p, hp⟩)
      rw [hst]
      refine ⟨hs, ?_⟩
      intro q pos data hat
      obtain ⟨p', _, k1, _⟩ := at_abs hs hat
      exact absurd ⟨p', k1⟩ hi
  | len i =>
    by_cases hi : ∃ p, s.fds[i]? = some (some p)
    · obtain ⟨p, hi⟩ := hi
      obtain ⟨v, hv, hr, hw, hp⟩ := hs.opened i p hi
      obtain ⟨s', g1, g2, g3⟩ := onFd_ok hs (k := Out.num) (f := fun f => .ok (f, f.data.length)) hi hv rfl hr hw hp
      have hst : step s (.len i) = (s', .num v.data.length) := g1
      rw [hst]
      refine ⟨g2, ?_⟩
      intro q pos data hat
      obtain ⟨p', v', k1, rfl, k2, rfl, rfl, _⟩ := at_abs hs hat
      rw [hi] at k1
      simp only [Option.some.injEq] at k1
      subst k1
      rw [hv] at k2
      simp only [Option.some.injEq, VItem.file.injEq] at k2
      subst k2
      refine ⟨rfl, ?_⟩
      rw [g3]
      simp only [(At.fds hat).1, (At.fds hat).2]
    · have hst : step s (.len i) = (s, .fail) := onFd_none (fun p hp => hi ⟨p, hp⟩)
      rw [hst]
      refine ⟨hs, ?_⟩
      intro q pos data hat
      obtain ⟨p', _, k1, _⟩ := at_abs hs hat
      exact absurd ⟨p', k1⟩ hi
  | cursor i =>
    by_cases hi : ∃ p, s.fds[i]? = some (some p)
    · obtain ⟨p, hi⟩ := hi
      obtain ⟨v, hv, hr, hw, hp⟩ := hs.opened i p hi
      obtain ⟨s', g1, g2, g3⟩ := onFd_ok hs (k := Out.num) (f := fun f => .ok (f, f.pos)) hi hv rfl hr hw hp
      have hst : step s (.cursor i) = (s', .num v.pos) := g1
      rw [hst]
      refine ⟨g2, ?_⟩
      intro q pos data hat
      obtain ⟨p', v', k1, rfl, k2, rfl, rfl, _⟩ := at_abs hs hat
      rw [hi] at k1
      simp only [Option.some.injEq] at k1
      subst k1
      rw [hv] at k2
      simp only [Option.some.injEq, VItem.file.injEq] at k2
      subst k2
      refine ⟨rfl, ?_⟩
      rw [g3]
      simp only [(At.fds hat).1, (At.fds hat).2]
    · have hst : step s (.cursor i) = (s, .fail) := onFd_none (fun p hp => hi ⟨p, hp⟩)
      rw [hst]
      refine ⟨hs, ?_⟩
      intro q pos data hat
      obtain ⟨p', _, k1, _⟩ := at_abs hs hat
      exact absurd ⟨p', k1⟩ hi
  | seek i n =>
    by_cases hi : ∃ p, s.fds[i]? = some (some p)
    · obtain ⟨p, hi⟩ := hi
      obtain ⟨v, hv, hr, hw, hp⟩ := hs.opened i p hi
      have hn : n ≤ v.data.length := ha p.full v.pos v.data ⟨fd_abs.2 ⟨p, hi, by rw [posAt_file hv]⟩, item_file.2 ⟨v, hv, rfl⟩⟩
      obtain ⟨s', g1, g2, g3⟩ := onFd_ok hs (k := fun _ => Out.done) (f := fun f => f.seek n) (v' := { v with pos := n }) hi hv (by
        simp only [VFile.seek]
        rw [if_neg (by omega)]) hr hw hn
      have hst : step s (.seek i n) = (s', .done) := g1
      rw [hst]
      refine ⟨g2, ?_⟩
      intro q pos data hat
      obtain ⟨p', v', k1, rfl, k2, rfl, rfl, _⟩ := at_abs hs hat
      rw [hi] at k1
      simp only [Option.some.injEq] at k1
      subst k1
      rw [hv] at k2
      simp only [Option.some.injEq, VItem.file.injEq] at k2
      subst k2
      refine ⟨rfl, ?_⟩
      rw [g3]
      simp only [(At.fds hat).1]
    · have hst : step s (.seek i n) = (s, .fail) := onFd_none (fun p hp => hi ⟨p, hp⟩)
      rw [hst]
      refine ⟨hs, ?_⟩
      intro q pos data hat
      obtain ⟨p', _, k1, _⟩ := at_abs hs hat
      exact absurd ⟨p', k1⟩ hi

/-! ## Programs -/

/-- `VirtualFS::new` (`vfs.rs:311-315`). -/
def St.init : St := ⟨[], []⟩

theorem init_inv : Inv St.init := by
  refine ⟨?_, ?_, ?_⟩
  · intro i p h; simp [St.init] at h
  · intro q v h
    cases q with
    | nil => cases h
    | cons c q => cases h
  · intro i j p q h; simp [St.init] at h

/-- A program gets these answers from a real file system. -/
inductive Trace : Real → List Op → List Out → Prop where
  | nil (r : Real) : Trace r [] []
  | cons {r r' : Real} {op : Op} {out : Out} {ops : List Op} {outs : List Out} :
      Spec r op out r' → Trace r' ops outs → Trace r (op :: ops) (out :: outs)

/-- Every operation is allowed when it is done. -/
def AllowedRun : St → List Op → Prop
  | _, [] => True
  | s, op :: ops => Allowed (abs s) op ∧ AllowedRun (step s op).1 ops

theorem trace_of {s : St} (hs : Inv s) {ops : List Op} (h : AllowedRun s ops) : Trace (abs s) ops (run s ops) := by
  induction ops generalizing s with
  | nil => exact .nil _
  | cons op ops ih =>
    have := sim hs h.1
    exact .cons this.2 (ih this.1 h.2)

/-- C91: from the empty file system every program of allowed operations gets the answers of a real file system; nothing panics or hangs. -/
theorem C91_partial {ops : List Op} (h : AllowedRun St.init ops) :
    Trace ⟨fun q => if q = [] then some .dir else none, []⟩ ops (run St.init ops) := by
  have e : abs St.init = ⟨fun q => if q = [] then some .dir else none, []⟩ := by
    unfold abs
    simp only [St.init, List.map_nil, Real.mk.injEq, and_true]
    funext q
    cases q with
    | nil => rfl
    | cons c q => rfl
  rw [← e]
  exact trace_of init_inv h

def fileF : Path := ⟨[], "f"⟩
def fileG : Path := ⟨["a", "b"], "g"⟩
def dirB : Path := ⟨["a"], "b"⟩

/-- A program: directories, a file that is written, read, cut and opened again. -/
def prog : List Op := [.createDirAll dirB, .create fileG, .write 0 [1, 2, 3], .seek 0 1, .read 0 2, .read 0 1, .cursor 0, .seek 0 0, .truncate 0 2,
  .len 0, .close 0, .openRw fileG, .read 1 2, .write 1 [9], .close 1, .readAll fileG, .removeDir dirB, .removeFile fileG, .removeDir dirB,
  .createDir ⟨["x"], "y"⟩, .create fileF, .removeDirAll ⟨[], "a"⟩, .readAll fileG]

example : run St.init prog = [.done, .fd 0, .num 3, .done, .bytes [2, 3], .fail, .num 3, .done, .done, .num 2, .done, .fd 1, .bytes [1, 2], .num 1, .done,
    .bytes [1, 2, 9], .fail, .done, .done, .fail, .fd 2, .done, .fail] := by decide +kernel

/-- `Allowed` for examples. -/
def allowedB (s : St) : Op → Bool
  | .createDirAll p => view s.root p.full != some .dir
  | .removeDirAll p => s.fds.all fun o => match o with
      | some q => !p.full.isPrefixOf q.full
      | none => true
  | .removeFile p => s.fds.all fun o => match o with
      | some q => q.full != p.full
      | none => true
  | .rename .. => false
  | .openRw p => s.fds.all fun o => match o with
      | some q => q.full != p.full
      | none => true
  | .truncate i n => match s.fds[i]? with
      | some (some q) => posAt s.root q.full ≤ n
      | _ => true
  | .seek i n => match s.fds[i]? with
      | some (some q) => match view s.root q.full with
        | some (.file v) => n ≤ v.data.length
        | _ => true
      | _ => true
  | _ => true

theorem allowedB_sound {s : St} {op : Op} (h : allowedB s op = true) : Allowed (abs s) op := by
  cases op with
  | createDirAll p => simp only [allowedB, bne_iff_ne, ne_eq] at h; exact fun e => h (item_dir.1 e)
  | rename p q => cases h
  | removeDirAll p =>
    intro i q n hi hq
    obtain ⟨x, hx, e⟩ := fd_abs.1 hi
    have := List.all_eq_true.1 h _ (List.mem_of_getElem? hx)
    simp only [Prod.mk.injEq] at e
    rw [e.1] at hq
    simp [List.isPrefixOf_iff_prefix.2 hq] at this
  | removeFile p =>
    intro i q n hi
    obtain ⟨x, hx, e⟩ := fd_abs.1 hi
    have := List.all_eq_true.1 h _ (List.mem_of_getElem? hx)
    simp only [Prod.mk.injEq] at e
    rw [e.1]
    simpa using this
  | openRw p =>
    intro i q n hi
    obtain ⟨x, hx, e⟩ := fd_abs.1 hi
    have := List.all_eq_true.1 h _ (List.mem_of_getElem? hx)
    simp only [Prod.mk.injEq] at e
    rw [e.1]
    simpa using this
  | truncate i n =>
    intro q pos hi
    obtain ⟨x, hx, e⟩ := fd_abs.1 hi
    simp only [Prod.mk.injEq] at e
    simp only [allowedB, hx, decide_eq_true_eq] at h
    rw [e.2]; exact h
  | seek i n =>
    intro p pos data hat
    obtain ⟨x, hx, e⟩ := fd_abs.1 hat.1
    obtain ⟨v, hv, e'⟩ := item_file.1 hat.2
    simp only [Prod.mk.injEq] at e
    rw [e.1] at hv
    simp only [allowedB, hx, hv, decide_eq_true_eq] at h
    rw [← e']; exact h
  | _ => trivial

def allowedRunB : St → List Op → Bool
  | _, [] => true
  | s, op :: ops => allowedB s op && allowedRunB (step s op).1 ops

theorem allowedRunB_sound {s : St} {ops : List Op} (h : allowedRunB s ops = true) : AllowedRun s ops := by
  induction ops generalizing s with
  | nil => trivial
  | cons op ops ih =>
    simp only [allowedRunB, Bool.and_eq_true] at h
    exact ⟨allowedB_sound h.1, ih h.2⟩

example : AllowedRun St.init prog := allowedRunB_sound (by decide +kernel)

/-! ## Where it differs -/

/-- C91: a file cannot be renamed; the thread waits for itself. -/
theorem C91_rename_violated : ∃ ops p q, let s := runSt St.init ops
    (step s (.rename p q)).2 = .hang ∧ ¬ Spec (abs s) (.rename p q) (step s (.rename p q)).2 (abs (step s (.rename p q)).1) := by
  refine ⟨[.create fileF, .write 0 [1], .close 0], fileF, ⟨[], "h"⟩, rfl, ?_⟩
  intro h
  have := (h [1] rfl rfl (by decide)).1
  exact absurd this (by decide)

/-- C91: a position behind the end is refused. -/
theorem C91_seek_violated : ∃ ops, let s := runSt St.init ops
    ¬ Spec (abs s) (.seek 0 5) (step s (.seek 0 5)).2 (abs (step s (.seek 0 5)).1) := by
  refine ⟨[.create fileF], ?_⟩
  intro _ h
  have := (h fileF.full 0 [] ⟨rfl, rfl⟩).1
  exact absurd this (by decide)

/-- C91: if a file is cut before the position, the position is moved, and the next write leaves no gap. -/
theorem C91_truncate_violated : ∃ ops, let s := runSt St.init ops
    ¬ Spec (abs s) (.truncate 0 1) (step s (.truncate 0 1)).2 (abs (step s (.truncate 0 1)).1) := by
  refine ⟨[.create fileF, .write 0 [1, 2, 3]], ?_⟩
  intro _ h
  have h2 := congrArg Real.fds (h fileF.full 3 [1, 2, 3] ⟨rfl, rfl⟩).2
  have : ([some (fileF.full, 1)] : List (Option (List String × Nat))) = [some (fileF.full, 3)] := h2
  simp at this

/-- C91: a directory with its parents cannot be made if it is there. -/
theorem C91_create_all_violated : ∃ ops, let s := runSt St.init ops
    ¬ Spec (abs s) (.createDirAll dirB) (step s (.createDirAll dirB)).2 (abs (step s (.createDirAll dirB)).1) := by
  refine ⟨[.createDirAll dirB], ?_⟩
  intro _ h
  rcases h with ⟨_, h, _⟩ | ⟨h, _⟩
  · exact absurd h (by decide)
  · apply h
    intro q hq b hb
    rcases q with _ | ⟨c, _ | ⟨d, _ | ⟨e, q⟩⟩⟩
    · cases hb
    · have : c = "a" := by simpa [dirB, Path.full] using hq
      subst this; cases hb
    · have : c = "a" ∧ d = "b" := by simpa [dirB, Path.full] using hq
      obtain ⟨rfl, rfl⟩ := this
      cases hb
    · have := hq.length_le
      simp [dirB, Path.full] at this

/-- C91: two descriptors of a file have one position, and if one of them is closed the other cannot be used any more. -/
theorem C91_two_violated : ∃ ops, let s := runSt St.init ops
    (¬ Spec (abs s) (.openRw fileF) (step s (.openRw fileF)).2 (abs (step s (.openRw fileF)).1)) ∧
      run s [.openRw fileF, .cursor 1, .close 1, .write 0 [4]] = [.fd 1, .num 3, .done, .fail] := by
  refine ⟨[.create fileF, .write 0 [1, 2, 3]], ?_, by decide +kernel⟩
  intro h
  rcases h with ⟨_, _, h⟩ | ⟨h, _⟩
  · have h2 := congrArg Real.fds h
    have : ([some (fileF.full, 3), some (fileF.full, 3)] : List (Option (List String × Nat))) = [some (fileF.full, 3), some (fileF.full, 0)] := h2
    simp at this
  · exact h ⟨[1, 2, 3], rfl⟩

/-- C91: a descriptor of a file that was removed cannot be closed: the thread panics. -/
theorem C91_close_violated : ∃ ops, let s := runSt St.init ops
    (step s (.close 0)).2 = .panic ∧ ¬ Spec (abs s) (.close 0) (step s (.close 0)).2 (abs (step s (.close 0)).1) := by
  refine ⟨[.create fileF, .removeFile fileF], rfl, ?_⟩
  intro h
  have := (h (fileF.full, 0) rfl).1
  exact absurd this (by decide)

/-- Two bytes are read, the position is set one back and a byte is read, with a buffered reader: on the file system of the tests, where it has
no buffer (`fs.rs:462-473, 487-503`). -/
def backVirtual (data : Bytes) : Res Err Bytes :=
  (VFile.fread ⟨true, true, data, 0⟩ 2).bind fun (f, _) => (f.seek (f.pos - 1)).bind fun (f, _) => (f.fread 1).bind fun (_, b) => .ok b

/-- On a file (`Old.Rd`): the position is that of the file below the buffer (`fs.rs:239-246, 281-291`). -/
def backReal (data : Bytes) : Option Bytes :=
  (Old.Rd.read ⟨data, 0, []⟩ 2).bind fun (_, r) => ((r.seekBack 1).read 1).map (·.1)

/-- C91: a buffered reader gives the second byte again on the file system of the tests, and the third one on a file. The recovery of old logs
(`v1/raw/journal/raw.rs:277-295`) sets the position back. -/
theorem C91_buffered_violated : ∃ data, backVirtual data = .ok [2] ∧ backReal data = some [3] := ⟨[1, 2, 3], by decide +kernel, by decide +kernel⟩

end Verif.Vfs
