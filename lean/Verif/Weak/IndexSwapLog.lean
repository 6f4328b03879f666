/-
A successful exchange in the primary index under weak memory keeps the invariant of the words.
-/
import Verif.Weak.IndexSwap
set_option linter.unusedSectionVars false
namespace Verif.Weak.Index
open Verif.Conc Verif.Trie Verif.Trie.Conc

variable {K V : Type} [DecidableEq K]
variable {hash : K → UInt64} {s s' : St K V} {g : Gh} {v w : View K} {t : Tid} {k : K}
variable {σ : Slot} {last : Msg K} {p0 p : Ptr} {new : Option (Addr × Cell K V)} {op : Option (Op K V)} {old : Option Addr}

theorem SwapOk.same (h : SwapOk hash s s' g t σ last p0 p new op old) {τ : Slot} (h1 : τ ≠ σ)
    (h2 : ∀ n f i, new = some (n, .branch f) → τ ≠ .of n i) : s'.log τ = s.log τ := by
  rw [h.log']
  simp only [logPut, if_neg h1]
  split
  · split
    · rename_i e
      subst e
      exact absurd rfl (h2 _ _ _ rfl)
    · rfl
  · rfl

/-- Where a word of memory comes from. -/
theorem SwapOk.loadInv (h : SwapOk hash s s' g t σ last p0 p new op old) {τ : Slot} {x : Word} (hx : s'.mem.load τ = some x) :
    (τ = σ ∧ x = ⟨p, false⟩) ∨ (∃ n f i, new = some (n, .branch f) ∧ τ = .of n i ∧ x = f i) ∨
      (τ ≠ σ ∧ (∀ n f i, new = some (n, .branch f) → τ ≠ .of n i) ∧ s.mem.load τ = some x ∧ s'.log τ = s.log τ) := by
  rw [h.mem'] at hx
  by_cases e : τ = σ
  · subst e
    rw [h.wr.put.ld] at hx
    exact .inl ⟨rfl, (Option.some.inj hx).symm⟩
  · right
    by_cases hn : ∃ n c i, new = some (n, c) ∧ τ = .of n i
    · obtain ⟨n, c, i, hn, rfl⟩ := hn
      cases c with
      | leaf l => simp [St.load, h.wr.put.hNew n _ hn] at hx
      | branch f =>
        rw [h.wr.put.ldNew n f i hn] at hx
        exact .inl ⟨n, f, i, hn, rfl, (Option.some.inj hx).symm⟩
    · right
      rw [h.wr.put.ldOld τ e (fun n c i h1 h2 => hn ⟨n, c, i, h1, h2⟩)] at hx
      have h2 : ∀ n f i, new = some (n, .branch f) → τ ≠ .of n i := fun n f i h1 h2 => hn ⟨n, _, i, h1, h2⟩
      exact ⟨e, h2, hx, h.same e h2⟩

/-- Values that pointers of words lead to are kept. -/
theorem SwapOk.valOld (h : SwapOk hash s s' g t σ last p0 p new op old) {τ : Slot} {j : Nat} {m : Msg K} (hm : (s.log τ)[j]? = some m)
    (k : K) : s'.mem.val m.w.p k = s.mem.val m.w.p k := by
  cases e : m.w.p with
  | null => rfl
  | node _ => rfl
  | leaf a =>
    obtain ⟨l, hl, _⟩ := h.hl.leaf τ j m a hm e
    rw [h.mem']
    exact h.wr.val hl k

/-- Below the place of the exchange there is no place that is not frozen. -/
theorem SwapOk.below (h : SwapOk hash s s' g t σ last p0 p new op old) {c : Slot} {q : Ptr} (hc : s.mem.load c = some ⟨q, false⟩)
    (ho : OnP (hash k) (g.slot σ)) (hoc : OnP (hash k) (g.slot c)) (hlt : (g.slot σ).length < (g.slot c).length) :
    ∃ n f i, new = some (n, .branch f) ∧ (∃ b, (f i).p = .node b) ∧ OnP (hash k) (i :: g.slot σ) ∧
      (g.slot σ).length + 1 < (g.slot c).length := by
  have hs := h.hl.sh
  have hcl := h.hl.unfrozen hc
  obtain ⟨C, hC⟩ := hs.above h.wr.live h.wr.ld ho _ rfl hcl hc hoc hlt
  have hC' : p0 = .node C := hC
  obtain ⟨hCl, hCp, fC, hCf⟩ := hs.node σ _ C h.wr.live h.wr.ld hC
  -- the pointer of the branch on the way
  let i := chunk (hash k) (LG * (g.slot σ).length)
  have hoi : OnP (hash k) (i :: g.slot σ) := ⟨rfl, ho⟩
  have hsl : g.slot (.of C i) = i :: g.slot σ := by show i :: g.path C = _; rw [hCp]
  have hld : s.mem.load (.of C i) = some (fC i) := by simp [St.load, hCf]
  have hfr := h.wr.oldBr C fC i hC' hCf
  have hne : c ≠ .of C i := by
    rintro rfl
    rw [hld] at hc
    cases hx : fC i with
    | mk q' b' =>
      rw [hx] at hc hfr
      cases hc
      exact absurd hfr.1 (by simp)
  have hlen : (g.slot σ).length + 1 < (g.slot c).length := by
    rcases Nat.lt_or_ge ((g.slot σ).length + 1) (g.slot c).length with h1 | h1
    · exact h1
    · have : (g.slot c).length = (g.slot (.of C i)).length := by rw [hsl]; simp only [List.length_cons]; omega
      exact absurd (hs.slot_inj hcl (τ := .of C i) hCl hc hld (hoc.eq (by rw [hsl]; exact hoi) this)) hne
  obtain ⟨b, hb⟩ := hs.above (σ := .of C i) hCl hld (by rw [hsl]; exact hoi) _ rfl hcl hc hoc
    (by rw [hsl]; simp only [List.length_cons]; omega)
  obtain ⟨n, f', hn, hf'⟩ := hfr.2 b hb
  exact ⟨n, f', i, hn, ⟨b, hf'⟩, hoi, hlen⟩

theorem SwapOk.loc (h : SwapOk hash s s' g t σ last p0 p new op old) (hsh : Shared hash s'.mem (ghOf s g new old σ) (mapOf s'.chg))
    {c d : Slot} {q : Ptr} {j : Nat} {m : Msg K} (hc : s'.mem.load c = some ⟨q, false⟩) (hm : (s'.log d)[j]? = some m)
    (hoc : OnP (hash k) ((ghOf s g new old σ).slot c)) (hr : Rel hash (ghOf s g new old σ) k d m.w.p ((ghOf s g new old σ).slot c).length)
    (hb : Index.birth (s'.log c) ≤ m.time) : d = c := by
  rcases h.loadInv hc with ⟨rfl, hq⟩ | ⟨n, f, i, hn, rfl, hq⟩ | ⟨hne, hnn, hc0, hlog⟩
  · -- the place of the exchange
    rw [h.slot h.σlog] at hoc hr
    rcases h.cases hm with ⟨rfl, _, _⟩ | ⟨n, f, i, hn, rfl, _, _⟩ | hm'
    · rfl
    · exfalso
      have := hr.2
      rw [h.slotNew hn i] at this
      simp only [List.length_cons] at this
      rcases this with h1 | h1 <;> omega
    · rw [h.birth h.σlog] at hb
      exact h.hl.loc c p0 k d j m h.wr.ld hm' hoc (Rel.back h hm' hr) hb
  · -- a place of the new branch
    rw [h.slotNew hn i] at hoc hr
    rw [h.newLog hn i] at hb
    have hb' : s.chg.length + 1 ≤ m.time := hb
    rcases h.cases hm with ⟨rfl, _, rfl⟩ | ⟨n', f', i', hn', rfl, _, _⟩ | hm'
    · exfalso
      have h2 := hr.2
      rw [h.slot h.σlog] at h2
      simp only [List.length_cons] at h2
      rcases h2 with h1 | h1
      · omega
      · exact h1.1 n (h.wr.brNew n f hn).1
    · rw [hn] at hn'
      cases hn'
      have h1 := hr.1
      have h2 := hr.2
      rw [h.slotNew hn i'] at h1
      have := hoc.eq h1 (by simp)
      cases this
      rfl
    · have := (h.hl.time _ _ _ hm').1
      omega
  · -- any other place
    have hcn : s.log c ≠ [] := by
      obtain ⟨m0, h0, _⟩ := h.hl.last c _ hc0
      intro e
      rw [e] at h0
      cases h0
    rw [h.slot hcn] at hoc hr
    rcases h.cases hm with ⟨rfl, _, rfl⟩ | ⟨n, f, i, hn, rfl, _, rfl⟩ | hm'
    · have h1 := hr.1
      have h2 := hr.2
      rw [h.slot h.σlog] at h1 h2
      rcases Nat.lt_or_ge (g.slot d).length (g.slot c).length with hlt | hge
      · exfalso
        obtain ⟨n, f, i, hn, _⟩ := h.below hc0 h1 hoc hlt
        rcases h2 with h2 | h2
        · omega
        · exact h2.1 n (h.wr.brNew n f hn).1
      · have : (g.slot d).length = (g.slot c).length := by rcases h2 with h2 | h2 <;> omega
        exact h.hl.sh.slot_inj h.wr.live (h.hl.unfrozen hc0) h.wr.ld hc0 (h1.eq hoc this)
    · exfalso
      have h1 := hr.1
      have h2 := hr.2
      rw [h.slotNew hn i] at h1 h2
      simp only [List.length_cons] at h2
      obtain ⟨n', f', i', hn', ⟨b, hb'⟩, ho', hlen⟩ := h.below hc0 h1.2 hoc (by rcases h2 with h2 | h2 <;> omega)
      rw [hn] at hn'
      cases hn'
      rcases h2 with h2 | h2
      · omega
      · have : i = i' := by rw [h1.1, ho'.1]
        subst this
        exact h2.1 b hb'
    · rw [h.birth hcn] at hb
      exact h.hl.loc c q k d j m hc0 hm' hoc (Rel.back h hm' hr) hb

theorem SwapOk.miss (h : SwapOk hash s s' g t σ last p0 p new op old) (hk : ∀ x, op = some x → opKey x ≠ k) :
    Index.lastChg s'.chg k (s.chg.length + 1) = Index.lastChg s.chg k s.chg.length := by
  rw [h.chg']
  refine lastChg_miss fun c hc => ?_
  cases e : op with
  | none => rw [entryOf, e] at hc; cases hc
  | some x =>
    rw [entryOf, e] at hc
    cases hc
    exact hk x e

/-- The invariant of the words. -/
theorem SwapOk.lok (h : SwapOk hash s s' g t σ last p0 p new op old) : LOk hash s' (ghOf s g new old σ) := by
  have hsh : Shared hash s'.mem (ghOf s g new old σ) (mapOf s'.chg) := by
    rw [h.mem', h.chg']
    exact h.hl.sh.write h.wr
  have hput : s'.mem = s.mem.put new σ ⟨p, false⟩ := h.mem'
  have hleaf : ∀ a l, s.mem.heap a = some (.leaf l) → s'.mem.heap a = some (.leaf l) := fun a l ha => by
    rw [hput]; exact h.wr.put.hLeaf a l ha
  have hbr : ∀ b f, s.mem.heap b = some (.branch f) → ∃ f', s'.mem.heap b = some (.branch f') := fun b f hb => by
    rw [hput]; exact ⟨_, h.wr.put.hBranch b f hb⟩
  have hTop : mapAt s'.chg (s.chg.length + 1) = mapOf (s.chg ++ [entryOf s t op]) := by
    rw [h.chg', mapAt_all']
  refine ⟨hsh, ?_, ?_, ?_, ?_, ?_, ?_, ?_, ?_, ?_, ?_, ?_⟩
  · intro τ x hx
    rcases h.loadInv hx with ⟨rfl, rfl⟩ | ⟨n, f, i, hn, rfl, rfl⟩ | ⟨_, _, h1, h2⟩
    · exact ⟨_, by rw [h.newσ, List.getLast?_concat], rfl⟩
    · exact ⟨_, by rw [h.newLog hn i]; rfl, rfl⟩
    · rw [h2]; exact h.hl.last τ x h1
  · intro τ hx
    have e1 : τ ≠ σ := by
      rintro rfl
      rw [hput, h.wr.put.ld] at hx
      cases hx
    have e2 : ∀ n f i, new = some (n, .branch f) → τ ≠ .of n i := by
      rintro n f i hn rfl
      rw [hput, h.wr.put.ldNew n f i hn] at hx
      cases hx
    rw [h.same e1 e2]
    by_cases hn : ∃ n c i, new = some (n, c) ∧ τ = .of n i
    · obtain ⟨n, c, i, hn, rfl⟩ := hn
      exact h.freshLog hn i
    · rw [hput, h.wr.put.ldOld τ e1 (fun n c i h1 h2 => hn ⟨n, c, i, h1, h2⟩)] at hx
      exact h.hl.noLog τ hx
  · intro τ j m c hm hc
    rcases h.cases hm with ⟨rfl, _, rfl⟩ | ⟨n, f, i, hn, rfl, _, rfl⟩ | hm'
    · obtain ⟨f, hf⟩ := h.wr.nodeNew c hc
      refine ⟨⟨f, by rw [hput]; exact h.wr.put.hNew c _ hf⟩, ?_⟩
      rw [h.slot h.σlog]
      exact WriteOk.pathNew c _ hf
    · obtain ⟨_, _, h3, f', h4⟩ := h.wr.brNode n f i c hn hc
      refine ⟨hbr c f' h4, ?_⟩
      rw [h.slotNew hn i, h.path (by rw [h4]; simp)]
      exact h3
    · obtain ⟨⟨f, h1⟩, h2⟩ := h.hl.node τ j m c hm' hc
      exact ⟨hbr c f h1, by rw [h.slot' hm', h.path (by rw [h1]; simp)]; exact h2⟩
  · intro τ j m a hm ha
    rcases h.cases hm with ⟨rfl, _, rfl⟩ | ⟨n, f, i, hn, rfl, _, rfl⟩ | hm'
    · obtain ⟨l, h1, h2⟩ := h.wr.leafNew a ha
      rw [h.slot h.σlog]
      rcases h2 with h2 | h2
      · exact ⟨l, by rw [hput]; exact h.wr.put.hNew a _ h2, h1⟩
      · exact ⟨l, hleaf a l h2.1, h1⟩
    · obtain ⟨_, _, l, h3, h4⟩ := h.wr.brLeaf n f i a hn ha
      rw [h.slotNew hn i]
      exact ⟨l, hleaf a l h3, h4⟩
    · obtain ⟨l, h1, h2⟩ := h.hl.leaf τ j m a hm' ha
      exact ⟨l, hleaf a l h1, by rw [h.slot' hm']; exact h2⟩
  · intro τ j m k hm ht ho
    rcases h.cases hm with ⟨rfl, _, rfl⟩ | ⟨n, f, i, hn, rfl, _, rfl⟩ | hm'
    · rw [h.slot h.σlog] at ho
      show mapAt s'.chg (s.chg.length + 1) k = _
      rw [hTop, hput]
      exact h.wr.val1 k ht ho
    · rw [h.slotNew hn i] at ho
      show mapAt s'.chg (s.chg.length + 1) k = _
      rw [hTop, hput]
      exact h.wr.val2 n f i k hn ht ho
    · rw [h.slot' hm'] at ho
      rw [h.valOld hm', h.chg', mapAt_append (h.hl.time _ _ _ hm').1]
      exact h.hl.val τ j m k hm' ht ho
  · intro τ j m hm
    rw [h.chgLen]
    rcases h.cases hm with ⟨rfl, _, rfl⟩ | ⟨n, f, i, hn, rfl, _, rfl⟩ | hm'
    · rw [h.birth h.σlog]
      have := (h.hl.time _ _ _ (last_get h.lst))
      have hm : (msgOf s t τ last p new op).time = s.chg.length + 1 := rfl
      omega
    · rw [h.newLog hn i]; exact ⟨Nat.le_refl _, Nat.le_refl _⟩
    · have := h.hl.time _ _ _ hm'
      rw [h.birth (by intro e; rw [e] at hm'; cases hm')]
      omega
  · intro τ j m hm
    rcases h.cases hm with ⟨rfl, _, rfl⟩ | ⟨n, f, i, hn, rfl, _, rfl⟩ | hm'
    · exact h.msgView
    · exact VOk.bot
    · exact h.keep (h.hl.view τ j m hm')
  · intro τ j m hm hj
    rcases h.cases hm with ⟨rfl, _, rfl⟩ | ⟨n, f, i, hn, rfl, rfl, rfl⟩ | hm'
    · have hmade : ∀ a, ((viewOf s t τ op).join last.view).ini a = true → (msgOf s t τ last p new op).view.ini a = true := by
        intro a ha
        simp only [msgOf]
        cases new with
        | none => exact ha
        | some x => simp [madeBy, View.made, ha]
      have hmev : ∀ k, (msgOf s t τ last p new op).view.ev k = ((viewOf s t τ op).join last.view).ev k := by
        intro k
        simp only [msgOf]
        cases new <;> rfl
      have hnew : ∀ a c, new = some (a, c) → (msgOf s t τ last p new op).view.ini a = true := by
        intro a c hn
        simp [msgOf, hn, madeBy, View.made]
      refine ⟨fun a ha => ?_, fun ht k ho => ?_⟩
      · rcases ha with ha | ha
        · rcases h.kini a ha with ⟨c, hc⟩ | h1
          · exact hnew a c hc
          · exact hmade a (both_ini h1)
        · obtain ⟨f, hf⟩ := h.wr.nodeNew a ha
          exact hnew a _ hf
      · rw [h.slot h.σlog] at ho
        rw [hmev]
        show Index.lastChg s'.chg k (s.chg.length + 1) ≤ _
        by_cases hk : ∀ x, op = some x → opKey x ≠ k
        · rw [h.miss hk]
          exact Nat.le_trans (h.kev k ht ho hk) (h.both_ev k)
        · cases e : op with
          | none => rw [e] at hk; exact absurd (fun x hx => by cases hx) hk
          | some x =>
            have hx : opKey x = k := Classical.byContradiction fun hx => hk (fun y hy => by rw [e] at hy; cases hy; exact hx)
            refine Nat.le_trans (lastChg_le _) ?_
            refine Nat.le_trans ?_ (join_ev_l k)
            show _ ≤ if k = opKey x then s.chg.length + 1 else (s.thr t).view.ev k
            rw [if_pos hx.symm]
            exact Nat.le_refl _
    · rcases hj with hj | hj
      · cases hj
      · omega
    · exact Knows.step h hm' (h.hl.knows τ j m hm' hj)
  · intro j m hm
    rcases h.cases hm with ⟨_, _, rfl⟩ | ⟨n, f, i, hn, e, _, rfl⟩ | hm'
    · rfl
    · cases e
    · exact h.hl.rootPend j m hm'
  · intro c q k d j m hc hm hoc hr hb
    exact h.loc hsh hc hm hoc hr hb
  · intro τ m k hτ hm ht ho
    rw [h.chgLen]
    obtain ⟨x, hx⟩ : ∃ x, s'.mem.load τ = some x := by
      cases e : s'.mem.load τ with
      | some x => exact ⟨x, rfl⟩
      | none =>
        exfalso
        have hne : s.mem.load τ ≠ none → False := by
          intro hn
          cases e' : s.mem.load τ with
          | none => exact hn e'
          | some y =>
            obtain ⟨m0, h0, _⟩ := h.hl.last τ y e'
            obtain ⟨y', hy'⟩ := h.hl.load_of_log (last_get h0)
            by_cases eσ : τ = σ
            · subst eσ; rw [hput, h.wr.put.ld] at e; cases e
            · have : ∀ n c i, new = some (n, c) → τ ≠ .of n i := by
                rintro n c i hnw rfl
                rw [h.freshLog hnw i] at h0
                cases h0
              rw [hput, h.wr.put.ldOld τ eσ this] at e
              exact hn e
        rcases h.cases (last_get hm) with ⟨rfl, _, _⟩ | ⟨n, f, i, hn, rfl, _, _⟩ | hm'
        · rw [hput, h.wr.put.ld] at e; cases e
        · rw [hput, h.wr.put.ldNew n f i hn] at e; cases e
        · obtain ⟨y, hy⟩ := h.hl.load_of_log hm'
          exact hne (by rw [hy]; simp)
    have hx' := hx
    rw [hput] at hx'
    rcases h.wr.liveInv h.hl.sh hτ hx' with ⟨rfl, _⟩ | ⟨n, f, i, hn, rfl, _⟩ | ⟨hne, hτ0, hx0, hsl, hoth⟩
    · rw [h.newσ, List.getLast?_concat] at hm
      cases hm
      rfl
    · rw [h.newLog hn i] at hm
      cases hm
      rfl
    · have e2 : ∀ n f i, new = some (n, .branch f) → τ ≠ .of n i := by
        rintro n f i hn rfl
        simp [St.load, h.wr.fresh n _ hn] at hx0
      rw [h.same hne e2] at hm
      have hm0 := last_get hm
      rw [h.slot' hm0] at ho
      rw [h.lastChg (h.hl.time _ _ _ hm0).1, h.hl.live τ m k hτ0 hm ht ho]
      symm
      refine h.miss fun y hy hk => ?_
      obtain ⟨h1, h2, _⟩ := h.opk y hy
      rw [hk] at h1
      have hw := h.hl.last_word hm
      rw [hx0] at hw
      cases hw
      exact hne (h.hl.sh.term_inj hτ0 h.wr.live hx0 h.wr.ld ho h1 ht h2)

end Verif.Weak.Index
