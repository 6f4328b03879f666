/-
The ways in which a step of a thread changes the memory of the concurrent index, and that each keeps the invariant.
-/
import Verif.Trie.Conc.Write
set_option linter.unusedSectionVars false
namespace Verif.Trie.Conc
open Verif.Conc
variable {K V : Type} [DecidableEq K]
variable {hash : K → UInt64} {s s' s1 : St K V} {g g' : Gh} {t : Tid}
variable {e e' : ESt (K → Option V) (Op K V) (Option V)}

/-- At most one step of the indivisible map. -/
def Adv (e : ESt (K → Option V) (Op K V) (Option V)) (o : Option (Ev (Op K V) (Option V)))
    (e' : ESt (K → Option V) (Op K V) (Option V)) : Prop :=
  (o = none ∧ e' = e) ∨ EStep dict e o e'

/-- The invariant holds again, the indivisible map has followed, and what was allocated is still at the end of the same
path. -/
def Good (hash : K → UInt64) (s : St K V) (g : Gh) (e : ESt (K → Option V) (Op K V) (Option V)) (s' : St K V)
    (o : Option (Ev (Op K V) (Option V))) : Prop :=
  ∃ g' e', Inv hash s' g' e' ∧ Adv e o e' ∧ ∀ b, s.heap b ≠ none → g'.path b = g.path b

theorem eta (e : ESt (K → Option V) (Op K V) (Option V)) (t : Tid) : (⟨e.q, upd e.thr t (e.thr t)⟩ : ESt _ _ _) = e := by
  cases e with | mk q thr =>
  simp only [ESt.mk.injEq, true_and]
  funext u
  by_cases h : u = t
  · subst h; simp
  · simp [h]

/-! ## Steps that only read -/

theorem Inv.stay (hi : Inv hash s g e) (t : Tid) (pc : Pc K V) (hpin : busy pc = true → (s.thr t).pinned = true)
    (hok : PcOk hash s g t pc) (hown : owns pc = none) (habs : AbsOk s pc (e.thr t)) : Good hash s g e (s.at t pc) none := by
  have := hi.quiet t pc (e.thr t) (.inl rfl) hpin hok hown habs
  rw [eta] at this
  exact ⟨g, e, this, .inl ⟨rfl, rfl⟩, fun _ _ => rfl⟩

/-- The operation ends without having changed anything. -/
theorem Inv.late (hi : Inv hash s g e) {t : Tid} {op : Op K V} {S : Option V → Prop} (he : e.thr t = .pend op S)
    (hpin : (s.thr t).pinned = true) {r : Option V} (hr : S r) : Good hash s g e (s.at t (.ret r)) none :=
  ⟨g, _, hi.quiet t (.ret r) (.done r) (.inr ⟨r, rfl⟩) (fun _ => hpin) trivial rfl rfl, .inr (.late he hr), fun _ _ => rfl⟩

theorem Inv.readNode (hi : Inv hash s g e) {σ : Slot} (hσ : SlotOk s g t σ) {w : Word} (hl : s.load σ = some w) {c : Addr}
    (hw : w.p = .node c) : Safe g t c ∧ g.path c = g.slot σ ∧ ∃ f, s.heap c = some (.branch f) := by
  cases σ with
  | root =>
    obtain ⟨h1, h2, h3⟩ := hi.sh.node .root w c trivial hl hw
    exact ⟨.inl h1, h2, h3⟩
  | of b i =>
    obtain ⟨h1 | ⟨D, h1, hD⟩, f, hf⟩ := hσ
    · obtain ⟨h1, h2, h3⟩ := hi.sh.node (.of b i) w c h1 hl hw
      exact ⟨.inl h1, h2, h3⟩
    · obtain ⟨f', hf', rfl⟩ := load_of hl
      exact hi.sh.goneN b D f' t i c h1 hf' hD hw

theorem Inv.readLeaf (hi : Inv hash s g e) {σ : Slot} (hσ : SlotOk s g t σ) {w : Word} (hl : s.load σ = some w) {a : Addr}
    (hw : w.p = .leaf a) : Safe g t a ∧ ∃ l, s.heap a = some (.leaf l) := by
  cases σ with
  | root =>
    obtain ⟨h1, l, h2, _⟩ := hi.sh.leaf .root w a trivial hl hw
    exact ⟨.inl h1, l, h2⟩
  | of b i =>
    obtain ⟨h1 | ⟨D, h1, hD⟩, f, hf⟩ := hσ
    · obtain ⟨h1, l, h2, _⟩ := hi.sh.leaf (.of b i) w a h1 hl hw
      exact ⟨.inl h1, l, h2⟩
    · obtain ⟨f', hf', rfl⟩ := load_of hl
      exact hi.sh.goneL b D f' t i a h1 hf' hD hw

/-- A list that is read at a place that is not frozen. -/
theorem Inv.readLeafAt (hi : Inv hash s g e) {σ : Slot} (hσ : SlotOk s g t σ) {w : Word} (hl : s.load σ = some w) {a : Addr}
    (hw : w.p = .leaf a) (hp : w.pend = false) : LeafAt hash s g t σ a := by
  obtain ⟨p, q⟩ := w
  simp only at hp
  subst hp
  obtain ⟨h1, l, h2, h3⟩ := hi.sh.leaf σ _ a (hi.sh.unfrozen hσ hl) hl hw
  exact ⟨.inl h1, l, h2, h3⟩

/-- Whatever a pending operation reads, even where the tree was cut off, was the case at some instant since its call. -/
theorem Inv.readTerm (hi : Inv hash s g e) {σ : Slot} (hσ : SlotOk s g t σ) {w : Word} (hl : s.load σ = some w)
    {op : Op K V} {S : Option V → Prop} (he : e.thr t = .pend op S) (ho : OnP (hash (key op)) (g.slot σ)) (hw : w.p.term) :
    Covers S op (s.val w.p (key op)) := by
  cases σ with
  | root => exact hi.seen.covers he (hi.sh.val .root w _ trivial hl hw ho)
  | of b i =>
    obtain ⟨h1 | ⟨D, h1, hD⟩, f, hf⟩ := hσ
    · exact hi.seen.covers he (hi.sh.val (.of b i) w _ h1 hl hw ho)
    · obtain ⟨f', hf', rfl⟩ := load_of hl
      exact hi.seen.gone t op S b D f' i he h1 hD hf' hw ho

theorem Covers.get {S : Option V → Prop} {k : K} {x : Option V} (h : Covers S (.get k) x) : S x :=
  h (fun _ => x) x rfl rfl

theorem Covers.delete {S : Option V → Prop} {k : K} (h : Covers S (.delete k) none) : S none :=
  h (fun _ => none) none rfl (by simp [now, dict])

theorem Covers.refresh {S : Option V → Prop} {k : K} {v : V} (h : Covers S (opOf .refresh k v) none) : S none :=
  h (fun _ => none) none rfl (by simp [now, dict, opOf])

theorem Covers.fresh {S : Option V → Prop} {k : K} {v x : V} (h : Covers S (opOf .fresh k v) (some x)) : S (some x) :=
  h (fun _ => some x) (some x) rfl (by simp [now, dict, opOf])

/-- The step down to a child. -/
theorem Inv.down (hi : Inv hash s g e) {σ : Slot} (hσ : SlotOk s g t σ) {w : Word} (hl : s.load σ = some w) {c : Addr}
    (hw : w.p = .node c) {k : K} (ho : OnP (hash k) (g.slot σ)) :
    SlotOk s g t (.of c (chunk (hash k) (LG * (g.slot σ).length))) ∧
      OnP (hash k) (g.slot (.of c (chunk (hash k) (LG * (g.slot σ).length)))) ∧
      (g.slot (.of c (chunk (hash k) (LG * (g.slot σ).length)))).length = (g.slot σ).length + 1 ∧
      (g.slot σ).length ≤ 15 ∧ LevOk s g t (σ, c) := by
  obtain ⟨h1, h2, f, h3⟩ := hi.readNode hσ hl hw
  refine ⟨⟨h1, f, h3⟩, ?_, ?_, ?_, ⟨hσ, h1, h2, f, h3⟩⟩
  · have : g.slot (.of c (chunk (hash k) (LG * (g.slot σ).length))) = chunk (hash k) (LG * (g.slot σ).length) :: g.slot σ := by
      rw [← h2]; rfl
    rw [this]
    exact ⟨rfl, ho⟩
  · show (_ :: g.path c).length = _
    rw [h2]; rfl
  · rw [← h2]; exact hi.sh.depth c f h3

/-! ## Exchanges -/

theorem Inv.write (hi : Inv hash s g e) (t : Tid) {σ : Slot} {p0 p' : Ptr} {new : Option (Addr × Cell K V)} {old : Option Addr}
    (h : WriteOk hash s s1 g e.q e'.q σ p0 p' new old) (hpin : (s.thr t).pinned = true) {pc : Pc K V}
    (he : ∀ u, u ≠ t → EMono (e.thr u) (e'.thr u)) (het : ∀ op S, e'.thr t = .pend op S → e.thr t = .pend op S)
    (hcur : ∀ t op S r, e'.thr t = .pend op S → now dict e'.q op r → S r)
    (hok : PcOk hash s1 (g.put (new.map (·.1)) old s.pinnedNow σ) t pc) (habs : AbsOk s1 pc (e'.thr t))
    (hown : ∀ a, owns pc = some a → old = some a) :
    Inv hash (s1.at t pc) (g.put (new.map (·.1)) old s.pinnedNow σ) e' := by
  obtain ⟨hr, hp, ht⟩ := h.put.rest
  have hsh := hi.sh.write h
  have hmono : ∀ u op S, e'.thr u = .pend op S → ∃ S0, e.thr u = .pend op S0 ∧ ∀ r, S0 r → S r := by
    intro u op S hu
    by_cases hut : u = t
    · subst hut
      exact ⟨S, het op S hu, fun _ h => h⟩
    · have := he u hut
      rw [hu] at this
      generalize e.thr u = b at this
      cases this with
      | pend hS => exact ⟨_, rfl, hS⟩
  have hk1 : ∀ u, Keeps s1 (s1.at t pc) (g.put (new.map (·.1)) old s.pinnedNow σ)
      (g.put (new.map (·.1)) old s.pinnedNow σ) u :=
    fun u => ⟨fun _ h => h, fun _ _ => rfl, fun _ _ _ h => h, fun _ f _ h => ⟨f, h, fun _ _ => rfl⟩⟩
  have hgone : ∀ u a, owns (s.thr u).pc = some a → old ≠ some a := by
    intro u a ha ho
    obtain ⟨⟨D, hD⟩, _⟩ := (hi.tok u).own a ha
    rw [h.oldLive hi.sh ho] at hD
    cases hD
  refine hi.move t (hsh.at t pc) ?_ (fun u hu => by simp [St.at, hu, ht])
    (fun u hu hup => ?_) he (fun u _ hu => by show u ∈ s1.pinnedNow; rw [hp]; exact hu) (fun u _ a ha => ?_) ?_ (fun u _ a ha hu => ?_)
  · have := hi.seen.write hi.sh h hcur hmono
    exact ⟨this.cur, this.gone⟩
  · have := h.keeps hi.sh ((hi.tok u).now hup)
    exact ⟨this.safe, this.path, this.leaf, this.branch⟩
  · obtain ⟨⟨D, hD⟩, h2⟩ := (hi.tok u).own a ha
    have hal : s.heap a ≠ none := by
      intro hx
      rw [(hi.sh.free a).1 hx] at hD; cases hD
    exact ⟨⟨D, by rw [h.stOld hal (hgone u a ha)]; exact hD⟩, by show a ∉ s1.retired.map (·.1); rw [hr]; exact h2⟩
  · constructor
    · simp only [St.at, upd_same]; exact (hk1 t).pcOk hok
    · simp only [St.at, upd_same, ht]; exact fun _ => hpin
    · simp only [St.at, upd_same, ht, hp]; exact (hi.tok t).now
    · simp only [St.at, upd_same, hr]
      intro a ha
      have ho := hown a ha
      refine ⟨⟨_, h.stGone hi.sh ho⟩, fun hx => ?_⟩
      obtain ⟨⟨a', w⟩, h1, h2⟩ := List.mem_map.1 hx
      simp only at h2
      subst h2
      obtain ⟨D, hD, _⟩ := hi.sh.ret _ w h1
      rw [h.oldLive hi.sh ho] at hD
      cases hD
    · simp only [St.at, upd_same]; exact (hk1 t).absOk hok (EMono.refl _) habs
  · simp only [St.at, upd_same] at ha
    exact hgone u a hu (hown a ha)

/-- An exchange that changes nothing in the map. -/
theorem Inv.writeSame (hi : Inv hash s g e) (t : Tid) {σ : Slot} {p0 p' : Ptr} {new : Option (Addr × Cell K V)} {old : Option Addr}
    (h : WriteOk hash s s1 g e.q e.q σ p0 p' new old) (hpin : (s.thr t).pinned = true) {pc : Pc K V}
    (hok : PcOk hash s1 (g.put (new.map (·.1)) old s.pinnedNow σ) t pc) (habs : AbsOk s1 pc (e.thr t))
    (hown : ∀ a, owns pc = some a → old = some a) : Good hash s g e (s1.at t pc) none :=
  ⟨_, e, hi.write t h hpin (fun _ _ => EMono.refl _) (fun _ _ h => h) hi.seen.cur hok habs hown, .inl ⟨rfl, rfl⟩,
    fun _ hb => h.pathOld hb⟩

/-- An exchange by which an operation happens. -/
theorem Inv.writeLin (hi : Inv hash s g e) {t : Tid} {op : Op K V} {S : Option V → Prop} (het : e.thr t = .pend op S) {σ : Slot}
    {p0 p' : Ptr} {new : Option (Addr × Cell K V)} {old : Option Addr}
    (h : WriteOk hash s s1 g e.q (dict.apply e.q op).1 σ p0 p' new old) (hpin : (s.thr t).pinned = true) {pc : Pc K V}
    (hok : PcOk hash s1 (g.put (new.map (·.1)) old s.pinnedNow σ) t pc) (habs : AbsOk s1 pc (.done (dict.apply e.q op).2))
    (hown : ∀ a, owns pc = some a → old = some a) : Good hash s g e (s1.at t pc) none := by
  refine ⟨_, _, hi.write (e' := ⟨(dict.apply e.q op).1, upd (fun u => see dict (dict.apply e.q op).1 (e.thr u)) t
    (.done (dict.apply e.q op).2)⟩) t h hpin (fun u hu => ?_) (fun op' S' h' => ?_) (fun u op' S' r h' hn => ?_) hok ?_ hown,
    .inr (.lin het), fun _ hb => h.pathOld hb⟩
  · simp only [upd_other _ _ hu]; exact EMono.see _ _
  · simp only [upd_same] at h'; cases h'
  · by_cases hu : u = t
    · subst hu; simp only [upd_same] at h'; cases h'
    · simp only [upd_other _ _ hu] at h'
      generalize e.thr u = b at h'
      cases b with
      | idle => cases h'
      | done r => cases h'
      | pend op0 S0 => cases h'; exact .inr hn
  · simp only [upd_same]; exact habs

/-! ### One list for another -/

theorem WriteOk.swap {m' : K → Option V} {σ : Slot} (hlive : g.Live σ) {p0 : Ptr}
    (hld : s.load σ = some ⟨p0, false⟩) {old : Option Addr} (hold : (p0 = .null ∧ old = none) ∨ ∃ b, p0 = .leaf b ∧ old = some b)
    {l : List (K × V)} {n : Addr} {new : Option (Addr × Cell K V)} {p' : Ptr}
    (hnew : (l = [] ∧ p' = .null ∧ new = none) ∨
      (l ≠ [] ∧ p' = .leaf n ∧ new = some (n, .leaf l) ∧ s.heap n = none ∧ LeafOk hash l (g.slot σ)))
    (hv : ∀ k', OnP (hash k') (g.slot σ) → m' k' = (find l k').map (·.2))
    (hv' : ∀ k', ¬ OnP (hash k') (g.slot σ) → m' k' = e.q k') :
    WriteOk hash s (s.put new σ ⟨p', false⟩) g e.q m' σ p0 p' new old := by
  have hfresh : ∀ n c, new = some (n, c) → s.heap n = none := by
    intro n' c hn
    rcases hnew with ⟨_, _, h⟩ | ⟨_, _, h, h', _⟩
    · rw [h] at hn; cases hn
    · rw [h] at hn; cases hn; exact h'
  have hterm : ∀ c, p0 ≠ .node c := by
    rintro c rfl
    rcases hold with ⟨h, _⟩ | ⟨b, h, _⟩ <;> cases h
  have hbr : ∀ n f, new ≠ some (n, .branch f) := by
    intro n' f hn
    rcases hnew with ⟨_, _, h⟩ | ⟨_, _, h, _⟩ <;> rw [h] at hn <;> cases hn
  have hput := put_facts (w := ⟨p', false⟩) hld hfresh
  refine ⟨hlive, hld, hput, hfresh, ?_, ?_, ?_, ?_, ?_, ?_, ?_, ?_, ?_, ?_, ?_, ?_⟩
  · intro x hx
    rcases hold with ⟨_, h⟩ | ⟨b, h, h'⟩
    · rw [h] at hx; cases hx
    · rw [h'] at hx; cases hx; exact .inl h
  · exact fun c hc => absurd hc (hterm c)
  · intro n' l' hn
    rcases hnew with ⟨_, _, h⟩ | ⟨h0, _, h, _⟩
    · rw [h] at hn; cases hn
    · rw [h] at hn; cases hn; exact h0
  · rintro c rfl
    rcases hnew with ⟨_, h, _⟩ | ⟨_, h, _⟩ <;> cases h
  · rintro a rfl
    rcases hnew with ⟨_, h, _⟩ | ⟨_, h, h2, _, h3⟩
    · cases h
    · cases h
      exact ⟨l, h3, .inl h2⟩
  · exact fun n f hn => absurd hn (hbr n f)
  · exact fun n f i c hn => absurd hn (hbr n f)
  · exact fun n f i c hn => absurd hn (hbr n f)
  · exact fun c f i hc => absurd hc (hterm c)
  · intro k ht ho
    rw [hv k ho]
    rcases hnew with ⟨h1, h2, _⟩ | ⟨_, h2, h3, _⟩
    · subst h1; subst h2; rfl
    · subst h2
      simp only [St.val, St.list, hput.hNew _ _ h3]
  · exact fun n f i k hn => absurd hn (hbr n f)
  · rintro k (h | ⟨c, h⟩)
    · exact hv' k h
    · exact absurd h (hterm c)

/-! ### A branch for a list -/

theorem WriteOk.split (hs : Shared hash s g e.q) {σ : Slot} (hlive : g.Live σ) {a n : Addr}
    (hld : s.load σ = some ⟨.leaf a, false⟩) (hn : s.heap n = none) {x : K × V} (ha : s.heap a = some (.leaf [x]))
    (ho : OnP (hash x.1) (g.slot σ)) (hlen : (g.slot σ).length < 16) {i : Fin 16}
    (hi : i = chunk (hash x.1) (LG * (g.slot σ).length)) {f : Fin 16 → Word}
    (hf : f = fun j => if j = i then ⟨.leaf a, false⟩ else ⟨.null, false⟩) :
    WriteOk hash s (s.put (some (n, .branch f)) σ ⟨.node n, false⟩) g e.q e.q σ (.leaf a) (.node n) (some (n, .branch f)) none := by
  have hfresh : ∀ n' c, (some (n, Cell.branch f) : Option (Addr × Cell K V)) = some (n', c) → s.heap n' = none := by
    rintro n' c h
    cases h; exact hn
  have hput := put_facts (w := ⟨.node n, false⟩) hld hfresh
  have hfi : ∀ j, j = i → f j = ⟨.leaf a, false⟩ := by intro j hj; rw [hf]; simp [hj]
  have hfn : ∀ j, j ≠ i → f j = ⟨.null, false⟩ := by intro j hj; rw [hf]; simp [hj]
  obtain ⟨h1, l, h2, h3⟩ := hs.leaf σ _ a hlive hld rfl
  rw [ha] at h2
  cases h2
  refine ⟨hlive, hld, hput, hfresh, fun x hx => (by cases hx), fun c hc => (by cases hc), fun n' l hn => (by cases hn), ?_,
    fun a h => (by cases h), ?_, ?_, ?_, fun c f i h => (by cases h), fun k ht => absurd rfl (ht n), ?_, ?_⟩
  · intro c hc
    cases hc
    exact ⟨f, rfl⟩
  · intro n' f' h
    cases h
    exact ⟨rfl, by omega⟩
  · intro n' f' j c h hc
    cases h
    by_cases hj : j = i
    · rw [hfi j hj] at hc; cases hc
    · rw [hfn j hj] at hc; cases hc
  · intro n' f' j a' h hc
    cases h
    by_cases hj : j = i
    · rw [hfi j hj] at hc
      cases hc
      refine ⟨h1, by simp, [x], ha, ⟨by simp, by simp, ?_, fun _ => rfl⟩⟩
      intro y hy
      simp only [List.mem_singleton] at hy
      subst hy
      exact ⟨by rw [hj, hi], ho⟩
    · rw [hfn j hj] at hc; cases hc
  · intro n' f' j k h ht hok
    cases h
    have hval := hs.val σ _ k hlive hld (by intro c hc; cases hc) hok.2
    by_cases hj : j = i
    · rw [hfi j hj, hval]
      simp only [St.val, St.list, ha, hput.hLeaf a _ ha]
    · rw [hfn j hj, hval]
      simp only [St.val, St.list, ha, find]
      have : x.1 ≠ k := by
        rintro rfl
        apply hj
        rw [hok.1, hi]
      simp [this]
  · exact fun k _ => rfl

/-! ### Something for a branch -/

theorem WriteOk.shrink (hs : Shared hash s g e.q) {σ : Slot} (hlive : g.Live σ) {c : Addr}
    (hld : s.load σ = some ⟨.node c, false⟩) {acc : Fin 16 → Ptr} {fc : Fin 16 → Word} (hfc : s.heap c = some (.branch fc))
    (hacc : ∀ j, fc j = ⟨acc j, true⟩) {p' : Ptr} {new : Option (Addr × Cell K V)}
    (hcase : (p' = .null ∧ new = none ∧ ∀ j, acc j = .null) ∨
      (∃ a l j, p' = .leaf a ∧ new = none ∧ acc j = .leaf a ∧ (∀ j', j' ≠ j → acc j' = .null) ∧
        s.heap a = some (.leaf l) ∧ l.length = 1) ∨
      (∃ n, p' = .node n ∧ new = some (n, .branch fun j => ⟨acc j, false⟩) ∧ s.heap n = none)) :
    WriteOk hash s (s.put new σ ⟨p', false⟩) g e.q e.q σ (.node c) p' new (some c) := by
  obtain ⟨hcl, hcp, _⟩ := hs.node σ _ c hlive hld rfl
  have hlb : ∀ j, s.load (.of c j) = some ⟨acc j, true⟩ := by intro j; simp [St.load, hfc, hacc j]
  have hslot : ∀ j, g.slot (.of c j) = j :: g.slot σ := by intro j; rw [← hcp]; rfl
  have hcL : ∀ j, g.Live (.of c j) := fun _ => hcl
  have hfresh : ∀ n c, new = some (n, c) → s.heap n = none := by
    intro n' c' hn
    rcases hcase with ⟨_, h, _⟩ | ⟨_, _, _, _, h, _⟩ | ⟨n, _, h, h'⟩
    · rw [h] at hn; cases hn
    · rw [h] at hn; cases hn
    · rw [h] at hn; cases hn; exact h'
  have hbr : ∀ n f, new = some (n, .branch f) → p' = .node n ∧ f = fun j => ⟨acc j, false⟩ := by
    intro n' f hn
    rcases hcase with ⟨_, h, _⟩ | ⟨_, _, _, _, h, _⟩ | ⟨n, h0, h, h'⟩
    · rw [h] at hn; cases hn
    · rw [h] at hn; cases hn
    · rw [h] at hn; cases hn; exact ⟨h0, rfl⟩
  have hput := put_facts (w := ⟨p', false⟩) hld hfresh
  refine ⟨hlive, hld, hput, hfresh, ?_, ?_, ?_, ?_, ?_, ?_, ?_, ?_, ?_, ?_, ?_, fun k _ => rfl⟩
  · intro x hx; cases hx; exact .inr rfl
  · intro c' hc; cases hc; rfl
  · intro n' l hn
    rcases hcase with ⟨_, h, _⟩ | ⟨_, _, _, _, h, _⟩ | ⟨n, _, h, h'⟩ <;> rw [h] at hn <;> cases hn
  · rintro c' rfl
    rcases hcase with ⟨h, _⟩ | ⟨_, _, _, h, _⟩ | ⟨n, h0, h, h'⟩
    · cases h
    · cases h
    · cases h0; exact ⟨_, h⟩
  · rintro a rfl
    rcases hcase with ⟨h, _⟩ | ⟨a', l, j, h, _, h2, h3, h4, h5⟩ | ⟨n, h0, h, h'⟩
    · cases h
    · cases h
      obtain ⟨h6, l', h7, h8⟩ := hs.leaf (.of c j) _ a (hcL j) (hlb j) h2
      rw [h4] at h7
      cases h7
      refine ⟨l, ⟨h8.ne, h8.nodup, fun x hx => ?_, fun _ => h5⟩, .inr ⟨h4, h6, ?_⟩⟩
      · have := h8.on x hx
        rw [hslot] at this
        exact this.2
      · intro hca
        cases hca
        rw [hfc] at h4; cases h4
    · cases h0
  · intro n f hn
    refine ⟨(hbr n f hn).1, ?_⟩
    rw [← hcp]; exact hs.depth c fc hfc
  · intro n f j c' hn hc
    rw [(hbr n f hn).2] at hc
    obtain ⟨h1, h2, f', h3⟩ := hs.node (.of c j) _ c' (hcL j) (hlb j) hc
    refine ⟨h1, ?_, by rw [h2, hslot], f', h3⟩
    intro hcc
    cases hcc
    rw [hcp, hslot] at h2
    have := congrArg List.length h2
    simp at this
  · intro n f j a hn hc
    rw [(hbr n f hn).2] at hc
    obtain ⟨h1, l, h2, h3⟩ := hs.leaf (.of c j) _ a (hcL j) (hlb j) hc
    refine ⟨h1, ?_, l, h2, by rw [← hslot]; exact h3⟩
    intro hcc
    cases hcc
    rw [hfc] at h2; cases h2
  · intro c' f j hc hf
    cases hc
    rw [hfc] at hf
    cases hf
    refine ⟨by rw [hacc j], fun c' hc => ?_⟩
    rw [hacc j] at hc
    simp only at hc
    rcases hcase with ⟨_, _, h⟩ | ⟨a, l, j0, _, _, h2, h3, _⟩ | ⟨n, h0, h, h'⟩
    · rw [h j] at hc; cases hc
    · by_cases hj : j = j0
      · subst hj; rw [h2] at hc; cases hc
      · rw [h3 j hj] at hc; cases hc
    · exact ⟨n, _, h, hc⟩
  · intro k ht ho
    have hj : OnP (hash k) (g.slot (.of c (chunk (hash k) (LG * (g.slot σ).length)))) := by
      rw [hslot]; exact ⟨rfl, ho⟩
    have hv := hs.val (.of c (chunk (hash k) (LG * (g.slot σ).length))) _ k (hcL _) (hlb _)
    rcases hcase with ⟨h1, _, h⟩ | ⟨a, l, j0, h1, _, h2, h3, h4, h5⟩ | ⟨n, h0, h, h'⟩
    · rw [hv (by intro c hc; rw [h] at hc; cases hc) hj, h1, h]
      rfl
    · subst h1
      by_cases hj0 : chunk (hash k) (LG * (g.slot σ).length) = j0
      · rw [hj0] at hv hj
        rw [hv (by intro c hc; rw [h2] at hc; cases hc) hj]
        simp only [h2, St.val, St.list, h4, hput.hLeaf a l h4]
      · have hnl := h3 _ hj0
        rw [hv (by intro c hc; rw [hnl] at hc; cases hc) hj]
        simp only [hnl, St.val, St.list, hput.hLeaf a l h4]
        obtain ⟨_, l', h7, h8⟩ := hs.leaf (.of c j0) _ a (hcL j0) (hlb j0) h2
        rw [h4] at h7
        cases h7
        have : find l k = none := by
          rw [find_none]
          rintro y hy rfl
          have := h8.on y hy
          rw [hslot] at this
          exact hj0 this.1.symm
        rw [this]; rfl
    · subst h0; exact absurd rfl (ht n)
  · intro n f j k hn ht ho
    rw [(hbr n f hn).2] at ht ⊢
    simp only at ht ⊢
    rw [hs.val (.of c j) _ k (hcL j) (hlb j) ht (by rw [hslot]; exact ho)]
    cases hp : acc j with
    | null => rfl
    | node c' => rfl
    | leaf a =>
      obtain ⟨_, l, h2, _⟩ := hs.leaf (.of c j) _ a (hcL j) (hlb j) hp
      simp only [St.val, St.list, h2, hput.hLeaf a l h2]

/-! ## Freezing -/

theorem Inv.freeze (hi : Inv hash s g e) {t : Tid} {c : Addr} {i : Fin 16} {w : Word} (_ : Safe g t c)
    (hl : s.load (.of c i) = some w) (hpin : (s.thr t).pinned = true) {pc : Pc K V}
    (hok : PcOk hash (s.store (.of c i) ⟨w.p, true⟩) g t pc)
    (habs : AbsOk (s.store (.of c i) ⟨w.p, true⟩) pc (e.thr t)) (hown : owns pc = none) :
    Good hash s g e ((s.store (.of c i) ⟨w.p, true⟩).at t pc) none := by
  have hsh := hi.sh
  obtain ⟨fc, hfc, hfci⟩ := load_of hl
  have hload : ∀ τ, (s.store (.of c i) ⟨w.p, true⟩).load τ = if τ = .of c i then some ⟨w.p, true⟩ else s.load τ :=
    fun τ => store_load hl τ _
  have hloadI : ∀ τ v, (s.store (.of c i) ⟨w.p, true⟩).load τ = some v → ∃ v0, s.load τ = some v0 ∧ v0.p = v.p := by
    intro τ v hv
    rw [hload] at hv
    split at hv
    · rename_i he
      subst he
      cases hv
      exact ⟨w, hl, rfl⟩
    · exact ⟨v, hv, rfl⟩
  have hloadF : ∀ τ v, s.load τ = some v → ∃ v1, (s.store (.of c i) ⟨w.p, true⟩).load τ = some v1 ∧ v1.p = v.p := by
    intro τ v hv
    rw [hload]
    split
    · rename_i he
      subst he
      rw [hl] at hv
      cases hv
      exact ⟨_, rfl, rfl⟩
    · exact ⟨v, hv, rfl⟩
  have hbr : ∀ b f, s.heap b = some (.branch f) → ∃ f', (s.store (.of c i) ⟨w.p, true⟩).heap b = some (.branch f') ∧
      (∀ j, (f' j).p = (f j).p) ∧ (∀ j, (f j).pend = true → f' j = f j) := by
    intro b f hb
    refine ⟨_, store_branch hb _ _, fun j => ?_, fun j hj => ?_⟩
    · by_cases he : Slot.of b j = .of c i
      · simp only [he, if_true]
        cases he
        rw [hfc] at hb
        cases hb
        rw [hfci]
      · simp only [he, if_false]
    · by_cases he : Slot.of b j = .of c i
      · simp only [he, if_true]
        cases he
        rw [hfc] at hb
        cases hb
        rw [hfci] at hj ⊢
        cases w with | mk p q => simp only at hj; rw [hj]
      · simp only [he, if_false]
  have hbrI : ∀ b f', (s.store (.of c i) ⟨w.p, true⟩).heap b = some (.branch f') → ∃ f, s.heap b = some (.branch f) ∧
      (∀ j, (f' j).p = (f j).p) ∧ (∀ j, (f j).pend = true → f' j = f j) := by
    intro b f' hb
    cases hx : s.heap b with
    | none => rw [store_none hx] at hb; cases hb
    | some x =>
      cases x with
      | leaf l => rw [store_leaf hx] at hb; cases hb
      | branch f =>
        obtain ⟨f2, h1, h2⟩ := hbr b f hx
        rw [hb] at h1
        cases h1
        exact ⟨f, rfl, h2⟩
  have hlf : ∀ a l, s.heap a = some (.leaf l) → (s.store (.of c i) ⟨w.p, true⟩).heap a = some (.leaf l) :=
    fun a l h => store_leaf h _ _
  have hlfI : ∀ a l, (s.store (.of c i) ⟨w.p, true⟩).heap a = some (.leaf l) → s.heap a = some (.leaf l) := by
    intro a l ha
    cases hx : s.heap a with
    | none => rw [store_none hx] at ha; cases ha
    | some x =>
      cases x with
      | leaf l' => rw [store_leaf hx] at ha; exact ha
      | branch f => rw [store_branch hx] at ha; cases ha
  have hval : ∀ p k, (s.store (.of c i) ⟨w.p, true⟩).val p k = s.val p k := by
    intro p k
    cases p with
    | null => rfl
    | node _ => rfl
    | leaf a =>
      simp only [St.val, St.list]
      cases hx : s.heap a with
      | none => rw [store_none hx]
      | some x =>
        cases x with
        | leaf l => rw [store_leaf hx]
        | branch f => rw [store_branch hx]
  obtain ⟨hr, hp, ht⟩ := store_rest s (.of c i) ⟨w.p, true⟩
  have hk : ∀ u, Keeps s (s.store (.of c i) ⟨w.p, true⟩) g g u := fun u =>
    ⟨fun _ h => h, fun _ _ => rfl, fun a l _ h => hlf a l h, fun b f _ h => by
      obtain ⟨f', h1, _, h2⟩ := hbr b f h
      exact ⟨f', h1, h2⟩⟩
  have hk1 : ∀ u, Keeps (s.store (.of c i) ⟨w.p, true⟩) ((s.store (.of c i) ⟨w.p, true⟩).at t pc) g g u :=
    fun u => ⟨fun _ h => h, fun _ _ => rfl, fun _ _ _ h => h, fun _ f _ h => ⟨f, h, fun _ _ => rfl⟩⟩
  have hS : Shared hash (s.store (.of c i) ⟨w.p, true⟩) g e.q := by
    refine ⟨?_, ?_, ?_, ?_, ?_, ?_, ?_, ?_, ?_, ?_, ?_, ?_, ?_, ?_, ?_⟩
    · rw [store_root]; simp only [reduceCtorEq, if_false]; exact hsh.rootPend
    · intro a
      rw [← hsh.free a]
      cases hx : s.heap a with
      | none => rw [store_none hx]
      | some x =>
        cases x with
        | leaf l => rw [store_leaf hx]
        | branch f => rw [store_branch hx]; simp
    · exact fun a ha => hsh.ne a (hlfI a _ ha)
    · intro b f' hb
      obtain ⟨f, hf, _⟩ := hbrI b f' hb
      exact hsh.depth b f hf
    · intro τ v c' hτ hv hc'
      obtain ⟨v0, h1, h2⟩ := hloadI τ v hv
      obtain ⟨h3, h4, f, h5⟩ := hsh.node τ v0 c' hτ h1 (by rw [h2]; exact hc')
      obtain ⟨f', h6, _⟩ := hbr c' f h5
      exact ⟨h3, h4, f', h6⟩
    · intro τ v a hτ hv ha
      obtain ⟨v0, h1, h2⟩ := hloadI τ v hv
      obtain ⟨h3, l, h4, h5⟩ := hsh.leaf τ v0 a hτ h1 (by rw [h2]; exact ha)
      exact ⟨h3, l, hlf a l h4, h5⟩
    · intro b f' hb hf'
      obtain ⟨f, hf, _⟩ := hbrI b f' hf'
      obtain ⟨σ, v, h1, h2, h3⟩ := hsh.up b f hb hf
      obtain ⟨v1, h4, h5⟩ := hloadF σ v h2
      exact ⟨σ, v1, h1, h4, by rw [h5]; exact h3⟩
    · intro b b' f f' hb hb' hf hf' hpa
      obtain ⟨f0, h0, _⟩ := hbrI b f hf
      obtain ⟨f0', h0', _⟩ := hbrI b' f' hf'
      exact hsh.uniq b b' f0 f0' hb hb' h0 h0' hpa
    · intro τ v k hτ hv ht ho
      obtain ⟨v0, h1, h2⟩ := hloadI τ v hv
      rw [hval, ← h2]
      exact hsh.val τ v0 k hτ h1 (by rw [h2]; exact ht) ho
    · intro b D f' hb hf' j
      obtain ⟨f, hf, _, h2⟩ := hbrI b f' hf'
      have := hsh.frozen b D f hb hf j
      rw [h2 j this]; exact this
    · intro b D f' u j c' hb hf' hu hc'
      obtain ⟨f, hf, h2, _⟩ := hbrI b f' hf'
      obtain ⟨h3, h4, f2, h5⟩ := hsh.goneN b D f u j c' hb hf hu (by rw [← h2]; exact hc')
      obtain ⟨f3, h6, _⟩ := hbr c' f2 h5
      exact ⟨h3, h4, f3, h6⟩
    · intro b D f' u j a hb hf' hu ha
      obtain ⟨f, hf, h2, _⟩ := hbrI b f' hf'
      obtain ⟨h3, l, h4⟩ := hsh.goneL b D f u j a hb hf hu (by rw [← h2]; exact ha)
      exact ⟨h3, l, hlf a l h4⟩
    · rw [hp]; exact hsh.pinned
    · rw [hr]; exact hsh.ret
    · rw [hr]; exact hsh.nodup
  refine ⟨g, e, hi.move t (hS.at t pc) ⟨hi.seen.cur, ?_⟩ (fun u hu => by simp [St.at, hu, ht])
    (fun u _ _ => ⟨(hk u).safe, (hk u).path, (hk u).leaf, (hk u).branch⟩) (fun _ _ => EMono.refl _)
    (fun u _ hu => by show u ∈ (s.store (.of c i) ⟨w.p, true⟩).pinnedNow; rw [hp]; exact hu) (fun u _ a ha => ?_) ?_
    (fun u _ a ha => ?_), .inl ⟨rfl, rfl⟩, fun _ _ => rfl⟩
  · intro u op S b D f' j hu hb hD hf' htm ho
    obtain ⟨f, hf, h2, _⟩ := hbrI b f' hf'
    have := hi.seen.gone u op S b D f j hu hb hD hf (by rw [← h2]; exact htm) ho
    rw [h2]
    show Covers S op ((s.store (.of c i) ⟨w.p, true⟩).val (f j).p (key op))
    rw [hval]
    exact this
  · have := (hi.tok u).own a ha
    exact ⟨this.1, by show a ∉ (s.store (.of c i) ⟨w.p, true⟩).retired.map (·.1); rw [hr]; exact this.2⟩
  · constructor
    · simp only [St.at, upd_same]; exact (hk1 t).pcOk hok
    · simp only [St.at, upd_same, ht]; exact fun _ => hpin
    · simp only [St.at, upd_same, ht, hp]; exact (hi.tok t).now
    · simp only [St.at, upd_same, hown]; intro a ha; cases ha
    · simp only [St.at, upd_same]; exact (hk1 t).absOk hok (EMono.refl _) habs
  · simp only [St.at, upd_same, hown] at ha; cases ha

end Verif.Trie.Conc
