import Verif.Ord.Model

/-!
Lemmas about the linked list of the ordered index: the cycle through the sentinel as a list of addresses, and what
`link` and `unlink` do to it.
-/
namespace Verif.Ord
open Verif

variable {K V : Type}

/-! ### Segments of the linked list, over the two pointer fields -/

/-- From `a` the pointers `P` lead through `xs` to `b`, and the pointers `N` lead back. -/
def Seg (P N : Nat → Nat) : Nat → List Nat → Nat → Prop
  | a, [], b => P a = b ∧ N b = a
  | a, x :: xs, b => P a = x ∧ N x = a ∧ Seg P N x xs b

/-- The last of `a :: xs`. -/
def lst : Nat → List Nat → Nat
  | a, [] => a
  | _, x :: xs => lst x xs

/-- The first of `xs ++ [b]`. -/
def hd : List Nat → Nat → Nat
  | [], b => b
  | x :: _, _ => x

theorem lst_mem : ∀ (a : Nat) (xs : List Nat), lst a xs ∈ a :: xs
  | a, [] => by simp [lst]
  | a, x :: xs => by
    rw [lst]
    exact List.mem_cons_of_mem _ (lst_mem x xs)

theorem lst_snoc : ∀ (a : Nat) (xs : List Nat) (x : Nat), lst a (xs ++ [x]) = x
  | a, [], x => rfl
  | a, y :: xs, x => by simpa [lst] using lst_snoc y xs x

theorem hd_mem (xs : List Nat) (b : Nat) : hd xs b ∈ xs ++ [b] := by
  cases xs <;> simp [hd]

theorem seg_append {P N : Nat → Nat} : ∀ {xs : List Nat} {a y : Nat} {ys : List Nat} {b : Nat},
    Seg P N a (xs ++ y :: ys) b ↔ Seg P N a xs y ∧ Seg P N y ys b
  | [], a, y, ys, b => by simp [Seg, and_assoc]
  | x :: xs, a, y, ys, b => by
    simp only [List.cons_append, Seg]
    rw [seg_append (xs := xs)]
    simp [and_assoc]

theorem seg_last {P N : Nat → Nat} : ∀ {xs : List Nat} {a b : Nat}, Seg P N a xs b →
    N b = lst a xs ∧ P (lst a xs) = b
  | [], a, b, h => ⟨h.2, h.1⟩
  | x :: xs, a, b, h => seg_last (xs := xs) h.2.2

theorem seg_head {P N : Nat → Nat} {xs : List Nat} {a b : Nat} (h : Seg P N a xs b) :
    P a = hd xs b ∧ N (hd xs b) = a := by
  cases xs with
  | nil => exact h
  | cons x xs => exact ⟨h.1, h.2.1⟩

theorem seg_frame {P N P' N' : Nat → Nat} : ∀ {xs : List Nat} {a b : Nat}, Seg P N a xs b →
    (∀ z ∈ a :: xs, P' z = P z) → (∀ z ∈ xs ++ [b], N' z = N z) → Seg P' N' a xs b
  | [], a, b, h, hp, hn => ⟨by rw [hp a (by simp)]; exact h.1, by rw [hn b (by simp)]; exact h.2⟩
  | x :: xs, a, b, h, hp, hn => by
    refine ⟨by rw [hp a (by simp)]; exact h.1, by rw [hn x (by simp)]; exact h.2.1, ?_⟩
    exact seg_frame h.2.2 (fun z hz => hp z (List.mem_cons_of_mem _ hz)) (fun z hz => hn z (by
      simp only [List.cons_append]
      exact List.mem_cons_of_mem _ hz))

/-- The same segment with another end. -/
theorem seg_retarget {P N P' N' : Nat → Nat} : ∀ {xs : List Nat} {a b c : Nat}, Seg P N a xs b →
    (a :: xs).Nodup → (∀ z ∈ a :: xs, z ≠ lst a xs → P' z = P z) → (∀ z ∈ xs, N' z = N z) →
    P' (lst a xs) = c → N' c = lst a xs → Seg P' N' a xs c
  | [], a, b, c, _, _, _, _, h1, h2 => ⟨h1, h2⟩
  | x :: xs, a, b, c, h, nd, hp, hn, h1, h2 => by
    have nd' := List.nodup_cons.mp nd
    refine ⟨?_, by rw [hn x (by simp)]; exact h.2.1, ?_⟩
    · rw [hp a (by simp) (fun hh => nd'.1 (by rw [hh]; exact lst_mem x xs))]; exact h.1
    · exact seg_retarget h.2.2 nd'.2 (fun z hz => hp z (List.mem_cons_of_mem _ hz))
        (fun z hz => hn z (List.mem_cons_of_mem _ hz)) h1 h2

/-- What `link` does to a cycle: the node is put at the end. -/
theorem seg_link {P N P' N' : Nat → Nat} {s x : Nat} {xs : List Nat} (h : Seg P N s xs s)
    (nd : (s :: xs).Nodup) (hx : x ∉ s :: xs)
    (hP : ∀ z ∈ s :: xs, z ≠ lst s xs → P' z = P z) (hN : ∀ z ∈ xs, N' z = N z)
    (h1 : P' (lst s xs) = x) (h2 : N' x = lst s xs) (h3 : P' x = s) (h4 : N' s = x) :
    Seg P' N' s (xs ++ [x]) s :=
  seg_append.mpr ⟨seg_retarget h nd hP hN h1 h2, h3, h4⟩

/-- What `unlink` does to a cycle. -/
theorem seg_unlink {P N P' N' : Nat → Nat} {s x : Nat} {ys zs : List Nat} (h : Seg P N s (ys ++ x :: zs) s)
    (nd : (s :: (ys ++ x :: zs)).Nodup)
    (hP : ∀ z ∈ s :: (ys ++ zs), z ≠ lst s ys → P' z = P z)
    (hN : ∀ z ∈ s :: (ys ++ zs), z ≠ hd zs s → N' z = N z)
    (h1 : P' (lst s ys) = hd zs s) (h2 : N' (hd zs s) = lst s ys) : Seg P' N' s (ys ++ zs) s := by
  obtain ⟨ha, hb⟩ := seg_append.mp h
  have nd1 : (s :: ys).Nodup := by
    have : (s :: ys) ++ x :: zs = s :: (ys ++ x :: zs) := by simp
    exact (List.nodup_append.mp (this ▸ nd)).1
  have dis : ∀ z ∈ s :: ys, z ∉ zs := by
    have hh : (s :: ys) ++ x :: zs = s :: (ys ++ x :: zs) := by simp
    intro z hz hz'
    exact (List.nodup_append.mp (hh ▸ nd)).2.2 z hz z (by simp [hz']) rfl
  cases zs with
  | nil =>
    rw [List.append_nil] at *
    refine seg_retarget ha nd1 (fun z hz hne => hP z (by simpa using hz) hne)
      (fun z hz => hN z (by simp [hz]) (fun hh => ?_)) h1 h2
    simp only [hd] at hh
    exact (List.nodup_cons.mp nd1).1 (hh ▸ hz)
  | cons z zs =>
    have ndz : (z :: zs).Nodup := by
      have hh : (s :: ys) ++ x :: z :: zs = s :: (ys ++ x :: z :: zs) := by simp
      exact (List.nodup_cons.mp (List.nodup_append.mp (hh ▸ nd)).2.1).2
    refine seg_append.mpr ⟨?_, ?_⟩
    · refine seg_retarget ha nd1 (fun w hw hne => hP w (by simp at hw; simp; grind) hne) (fun w hw => ?_) h1 h2
      exact hN w (by simp [hw]) (fun hh => dis w (by simp [hw]) (by simp only [hd] at hh; simp [hh]))
    · refine seg_frame hb.2.2 (fun w hw => hP w (by simp at hw; simp; grind) (fun hh => ?_)) (fun w hw => ?_)
      · exact dis _ (hh ▸ lst_mem s ys) hw
      · refine hN w (by simp at hw; simp; grind) (fun hh => ?_)
        simp only [hd] at hh
        subst hh
        rcases List.mem_append.mp hw with hw | hw
        · exact (List.nodup_cons.mp ndz).1 hw
        · simp at hw
          exact dis s (by simp) (by simp [hw])

/-! ### Loads and stores that succeed -/

theorem load_ok {h : Heap K V} {a : Nat} (ha : a ∈ h.live) : h.load a = .ok (h.mem a) := by
  simp [Heap.load, ha]

theorem setN_ok {h : Heap K V} {a x : Nat} (ha : a ∈ h.live) :
    h.setN a x = .ok (h.put a { h.mem a with n := x }) := by simp [Heap.setN, ha]

theorem setP_ok {h : Heap K V} {a x : Nat} (ha : a ∈ h.live) :
    h.setP a x = .ok (h.put a { h.mem a with p := x }) := by simp [Heap.setP, ha]

theorem setKV_ok {h : Heap K V} {a : Nat} {x : Option (K × V)} (ha : a ∈ h.live) :
    h.setKV a x = .ok (h.put a { h.mem a with kv := x }) := by simp [Heap.setKV, ha]

theorem free_ok {h : Heap K V} {a : Nat} (ha : a ∈ h.live) :
    h.free a = .ok { h with live := h.live.erase a } := by simp [Heap.free, ha]

theorem kvAt_ok {h : Heap K V} {a : Nat} {e : K × V} (ha : a ∈ h.live) (he : (h.mem a).kv = some e) :
    h.kvAt a = .ok e := by
  simp [Heap.kvAt, load_ok ha, he]

@[simp] theorem put_live (h : Heap K V) (a : Nat) (d : Node K V) : (h.put a d).live = h.live := rfl

theorem put_mem (h : Heap K V) (a : Nat) (d : Node K V) (x : Nat) :
    (h.put a d).mem x = if x = a then d else h.mem x := rfl

theorem kv_putN (h : Heap K V) (a x z : Nat) :
    ((h.put a { h.mem a with n := x }).mem z).kv = (h.mem z).kv := by
  rw [put_mem]
  split
  · rename_i hh
    rw [hh]
  · rfl

theorem kv_putP (h : Heap K V) (a x z : Nat) :
    ((h.put a { h.mem a with p := x }).mem z).kv = (h.mem z).kv := by
  rw [put_mem]
  split
  · rename_i hh
    rw [hh]
  · rfl

/-- The `p` and `n` fields of all cells. -/
def Heap.P (h : Heap K V) (a : Nat) : Nat := (h.mem a).p
def Heap.N (h : Heap K V) (a : Nat) : Nat := (h.mem a).n

/-- `link` puts the node at the end of the cycle and changes no key or value. -/
theorem link_spec {h : Heap K V} {s x : Nat} {xs : List Nat} (hc : Seg h.P h.N s xs s) (nd : (s :: xs).Nodup)
    (hx : x ∉ s :: xs) (hl : ∀ z ∈ s :: xs, z ∈ h.live) (hxl : x ∈ h.live) :
    ∃ h', h.link s x = .ok h' ∧ h'.live = h.live ∧ Seg h'.P h'.N s (xs ++ [x]) s ∧
      (∀ z, (h'.mem z).kv = (h.mem z).kv) ∧ (∀ z, z ∉ s :: xs → z ≠ x → h'.mem z = h.mem z) := by
  have hs : s ∈ h.live := hl s (by simp)
  have hN : (h.mem s).n = lst s xs := (seg_last hc).1
  have hlm := lst_mem s xs
  have hsx : x ≠ s := fun hh => hx (by simp [hh])
  have hxl2 : lst s xs ≠ x := fun hh => hx (hh ▸ hlm)
  unfold Heap.link
  rw [load_ok hs, Res.bind_eq, Res.bind, setN_ok hxl, Res.bind_eq, Res.bind, setP_ok (by simpa using hxl),
    Res.bind_eq, Res.bind, setN_ok (by simpa using hs), Res.bind_eq, Res.bind,
    load_ok (by simpa using hxl), Res.bind_eq, Res.bind]
  have hval : ((((h.put x { h.mem x with n := (h.mem s).n }).put x
      { (h.put x { h.mem x with n := (h.mem s).n }).mem x with p := s }).put s
      { ((h.put x { h.mem x with n := (h.mem s).n }).put x
      { (h.put x { h.mem x with n := (h.mem s).n }).mem x with p := s }).mem s with n := x }).mem x).n
      = lst s xs := by
    simp [put_mem, hsx, hN]
  rw [hval, setP_ok (by simpa using hl _ hlm)]
  refine ⟨_, rfl, rfl, ?_, ?_, ?_⟩
  · refine seg_link hc nd hx ?_ ?_ ?_ ?_ ?_ ?_
    · intro z hz hne
      have hzx : z ≠ x := fun hh => hx (hh ▸ hz)
      simp only [Heap.P, put_mem, hne, if_false, hzx]
      split <;> simp_all
    · intro z hz
      have hzx : z ≠ x := fun hh => hx (hh ▸ List.mem_cons_of_mem _ hz)
      have hzs : z ≠ s := fun hh => (List.nodup_cons.mp nd).1 (hh ▸ hz)
      simp only [Heap.N, put_mem, hzx, hzs, if_false]
      split <;> simp_all
    · simp [Heap.P, put_mem]
    · simp [Heap.N, put_mem, hsx, hxl2.symm, hN]
    · simp [Heap.P, put_mem, hsx, hxl2.symm]
    · by_cases hh : s = lst s xs
      · simp [Heap.N, put_mem, ← hh]
      · simp [Heap.N, put_mem, hh]
  · intro z
    exact (kv_putP ..).trans ((kv_putN ..).trans ((kv_putP ..).trans (kv_putN ..)))
  · intro z hz hzx
    have hzs : z ≠ s := fun hh => hz (by simp [hh])
    have hzl : z ≠ lst s xs := fun hh => hz (hh ▸ hlm)
    simp [put_mem, hzs, hzl, hzx]

/-- `unlink` takes the node out of the cycle and changes no key or value. -/
theorem unlink_spec {h : Heap K V} {s x : Nat} {ys zs : List Nat} (hc : Seg h.P h.N s (ys ++ x :: zs) s)
    (nd : (s :: (ys ++ x :: zs)).Nodup) (hl : ∀ z ∈ s :: (ys ++ x :: zs), z ∈ h.live) :
    ∃ h', h.unlink x = .ok h' ∧ h'.live = h.live ∧ Seg h'.P h'.N s (ys ++ zs) s ∧
      (∀ z, (h'.mem z).kv = (h.mem z).kv) ∧ (∀ z, z ∉ s :: (ys ++ zs) → h'.mem z = h.mem z) := by
  have hx : x ∈ h.live := hl x (by simp)
  obtain ⟨ha, hb⟩ := seg_append.mp hc
  have hn : (h.mem x).n = lst s ys := (seg_last ha).1
  have hp : (h.mem x).p = hd zs s := (seg_head hb).1
  have hlm : lst s ys ∈ s :: (ys ++ x :: zs) := by
    have := lst_mem s ys
    simp at this ⊢
    grind
  have hhm : hd zs s ∈ s :: (ys ++ x :: zs) := by
    have := hd_mem zs s
    simp at this ⊢
    grind
  have hnx : x ∉ s :: (ys ++ zs) := by
    intro hh
    have nd2 : (s :: ys ++ x :: zs).Nodup := by simpa using nd
    simp only [List.nodup_append, List.nodup_cons] at nd2
    rcases List.mem_cons.mp hh with hh | hh
    · exact nd2.2.2 s (by simp) x (by simp) hh.symm
    · rcases List.mem_append.mp hh with hh | hh
      · exact nd2.2.2 x (by simp [hh]) x (by simp) rfl
      · exact nd2.2.1.1 hh
  have hlx : lst s ys ≠ x := fun hh => hnx (by
    have := lst_mem s ys
    rw [hh] at this
    simp at this ⊢
    grind)
  have hhx : hd zs s ≠ x := fun hh => hnx (by
    have := hd_mem zs s
    rw [hh] at this
    simp at this ⊢
    grind)
  unfold Heap.unlink
  rw [load_ok hx, Res.bind_eq, Res.bind, hp, setN_ok (hl _ hhm), Res.bind_eq, Res.bind,
    load_ok (by simpa using hx), Res.bind_eq, Res.bind]
  simp only [put_mem, hhx.symm, if_false, hn, hp]
  rw [setP_ok (by simpa using hl _ hlm)]
  refine ⟨_, rfl, rfl, ?_, ?_, ?_⟩
  · refine seg_unlink hc nd ?_ ?_ ?_ ?_
    · intro z hz hne
      simp only [Heap.P, put_mem, hne, if_false]
      split <;> simp_all
    · intro z hz hne
      simp only [Heap.N, put_mem, hne, if_false]
      split <;> simp_all
    · simp [Heap.P, put_mem]
    · simp only [Heap.N, put_mem]
      split <;> simp_all
  · intro z
    exact (kv_putP ..).trans (kv_putN ..)
  · intro z hz
    have h1 : z ≠ lst s ys := fun hh => hz (by
      have := lst_mem s ys
      rw [← hh] at this
      simp at this ⊢
      grind)
    have h2 : z ≠ hd zs s := fun hh => hz (by
      have := hd_mem zs s
      rw [← hh] at this
      simp at this ⊢
      grind)
    simp [put_mem, h1, h2]

end Verif.Ord
