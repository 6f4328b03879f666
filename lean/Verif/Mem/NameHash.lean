import Verif.Base.Utf8
import Verif.Mem.Raw
/-!
Model of how names are hashed and compared: the hasher of the maps with names of columns
(`idx/meta/hash.rs`, used by `DcFieldIndex`, `core/index/row.rs:43`, and `ModelPrivate`,
`core/model/mod.rs:413-416`), and the keys of the map of models, `EntityID` and `EntityIDRef`
(`core/util.rs`). C84. Paths are relative to `/repo/server/src/engine`.

The model is that of a little-endian machine with words of 64 bits.
-/
namespace Verif.Mem.NameHash

/-! ### The hasher -/

/-- `PRIME64` (`idx/meta/hash.rs:33`). -/
def PRIME64 : BitVec 64 := 0x517CC1B727220A95#64

/-- `hash64` (`idx/meta/hash.rs:181-183`). -/
def hash64 (state word : BitVec 64) : BitVec 64 := (state.rotateLeft 5 ^^^ word) * PRIME64

/-- `from_ne_bytes` of up to eight bytes, then `as u64`. -/
def word : Bytes → Nat
  | [] => 0
  | b :: bs => b.toNat + 256 * word bs

/-- The loop of `h_bytes` (`idx/meta/hash.rs:101-109`): the state and the bytes left over. The indices are
within the slice by the condition of the loop, which the pattern stands for. -/
def loop8 (s : BitVec 64) : Bytes → BitVec 64 × Bytes
  | a :: b :: c :: d :: e :: f :: g :: h :: r => loop8 (hash64 s (BitVec.ofNat 64 (word [a, b, c, d, e, f, g, h]))) r
  | r => (s, r)

/-- One `if` of `h_bytes` (`idx/meta/hash.rs:111-122`): `n` bytes are hashed if there are as many. -/
def part (n : Nat) (p : BitVec 64 × Bytes) : BitVec 64 × Bytes :=
  if n ≤ p.2.length then (hash64 p.1 (BitVec.ofNat 64 (word (p.2.take n))), p.2.drop n) else p

/-- `<u64 as HashWord>::h_bytes` (`idx/meta/hash.rs:99-129`), which `usize` uses (`:143-153`). -/
def hBytes (s : BitVec 64) (bytes : Bytes) : BitVec 64 :=
  let p := part 2 (part 4 (loop8 s bytes))
  match p.2 with
  | [] => p.1
  | b :: _ => hash64 p.1 (BitVec.ofNat 64 (word [b]))

/-- `<u64 as HashWord>::h_word` of a byte (`idx/meta/hash.rs:133-135`). -/
def hByte (s : BitVec 64) (b : UInt8) : BitVec 64 := hash64 s (BitVec.ofNat 64 b.toNat)

/-- The hash of a text: `Hash for str` writes the bytes and then the byte 255 (`core::hash`);
`Hash for RawStr` (`mem/rawslice.rs:90-94`) and `Box<str>` do the same. The state begins with 0
(`idx/meta/hash.rs:95`, `:189-191`). -/
def hashName (name : Bytes) : BitVec 64 := hByte (hBytes 0 name) 255

example : hashName (encStr "username") = 0x5c990c05c74bc223#64 ∧
    hashName (encStr "a_longer_name__") = 0x7cf2bd3b53b090f3#64 := by decide +kernel

/-! ### No state and no word is lost -/

theorem mul_prime_inj {a b : BitVec 64} (h : a * PRIME64 = b * PRIME64) : a = b := by
  have e : PRIME64 * 0x2040003d780970bd#64 = 1#64 := by decide +kernel
  have h' := congrArg (· * 0x2040003d780970bd#64) h
  simp only [BitVec.mul_assoc, e] at h'
  simpa using h'

theorem rotl_inj {a b : BitVec 64} (h : a.rotateLeft 5 = b.rotateLeft 5) : a = b := by
  apply BitVec.eq_of_getLsbD_eq
  intro i hi
  by_cases h5 : i < 59
  · have := congrArg (·.getLsbD (i + 5)) h
    simp only [BitVec.getLsbD_rotateLeft] at this
    rw [show decide (i + 5 < 5 % 64) = false from decide_eq_false (by omega),
      show decide (i + 5 < 64) = true from decide_eq_true (by omega)] at this
    simpa using this
  · have := congrArg (·.getLsbD (i - 59)) h
    simp only [BitVec.getLsbD_rotateLeft] at this
    rw [show decide (i - 59 < 5 % 64) = true from decide_eq_true (by omega)] at this
    simp only [cond_true] at this
    rwa [show 64 - 5 % 64 + (i - 59) = i by omega] at this

theorem xor_right {a b c : BitVec 64} (h : a ^^^ c = b ^^^ c) : a = b := by
  have := congrArg (· ^^^ c) h
  simpa [BitVec.xor_assoc] using this

theorem xor_left {a b c : BitVec 64} (h : c ^^^ a = c ^^^ b) : a = b :=
  xor_right (c := c) (by rw [BitVec.xor_comm, h, BitVec.xor_comm])

theorem hash64_state {s t w : BitVec 64} (h : hash64 s w = hash64 t w) : s = t :=
  rotl_inj (xor_right (mul_prime_inj h))

theorem hash64_word {s v w : BitVec 64} (h : hash64 s v = hash64 s w) : v = w :=
  xor_left (mul_prime_inj h)

/-! ### The words of a name -/

/-- The lengths of the pieces of the last bytes, fewer than eight. -/
def tailLens (n : Nat) : List Nat :=
  (if 4 ≤ n then [4] else []) ++ (if 2 ≤ n % 4 then [2] else []) ++ (if n % 2 = 1 then [1] else [])

/-- The lengths of the pieces that a name of `n` bytes is cut into: as many eights as there are, then 4, 2
and 1. -/
def lens (n : Nat) : List Nat := List.replicate (n / 8) 8 ++ tailLens (n % 8)

/-- Pieces of the given lengths. -/
def cut : List Nat → Bytes → List Bytes
  | [], _ => []
  | n :: ns, bs => bs.take n :: cut ns (bs.drop n)

/-- The words of a name. -/
def words (bs : Bytes) : List (BitVec 64) := (cut (lens bs.length) bs).map fun p => BitVec.ofNat 64 (word p)

theorem tail_eq (s : BitVec 64) : ∀ bs : Bytes, bs.length < 8 →
    (match (part 2 (part 4 (s, bs))).2 with
     | [] => (part 2 (part 4 (s, bs))).1
     | b :: _ => hash64 (part 2 (part 4 (s, bs))).1 (BitVec.ofNat 64 (word [b]))) =
    ((cut (tailLens bs.length) bs).map fun p => BitVec.ofNat 64 (word p)).foldl hash64 s
  | [], _ => by simp [part, tailLens, cut]
  | [_], _ => by simp [part, tailLens, cut]
  | [_, _], _ => by simp [part, tailLens, cut]
  | [_, _, _], _ => by simp [part, tailLens, cut]
  | [_, _, _, _], _ => by simp [part, tailLens, cut]
  | [_, _, _, _, _], _ => by simp [part, tailLens, cut]
  | [_, _, _, _, _, _], _ => by simp [part, tailLens, cut]
  | [_, _, _, _, _, _, _], _ => by simp [part, tailLens, cut]
  | _ :: _ :: _ :: _ :: _ :: _ :: _ :: _ :: _, h => by simp at h; omega

theorem hBytes_words (s : BitVec 64) (bs : Bytes) : hBytes s bs = (words bs).foldl hash64 s := by
  induction s, bs using loop8.induct with
  | case1 s a b c d e f g h r ih =>
    have hl : lens (r.length + 8) = 8 :: lens r.length := by
      rw [lens, lens, show (r.length + 8) / 8 = r.length / 8 + 1 by omega, List.replicate_succ,
        show (r.length + 8) % 8 = r.length % 8 by omega]; rfl
    rw [words, show (a :: b :: c :: d :: e :: f :: g :: h :: r).length = r.length + 8 from rfl, hl]
    exact ih
  | case2 s r hr =>
    have hl : loop8 s r = (s, r) := by
      unfold loop8; split
      · exact absurd rfl (hr _ _ _ _ _ _ _ _ _)
      · rfl
    have hn : r.length < 8 := by
      rcases r with _|⟨_,_|⟨_,_|⟨_,_|⟨_,_|⟨_,_|⟨_,_|⟨_,_|⟨_,_⟩⟩⟩⟩⟩⟩⟩⟩
      all_goals first
        | (simp; done)
        | exact absurd rfl (hr _ _ _ _ _ _ _ _ _)
    have hw : lens r.length = tailLens r.length := by
      rw [lens, Nat.div_eq_of_lt hn, Nat.mod_eq_of_lt hn]; rfl
    rw [words, hw, ← tail_eq s r hn, hBytes, hl]

/-- Two lists differ at one place. -/
def OneOff {α : Type} (l m : List α) : Prop := ∃ p x y q, l = p ++ x :: q ∧ m = p ++ y :: q ∧ x ≠ y

theorem foldl_state {l : List (BitVec 64)} {s t : BitVec 64} (h : l.foldl hash64 s = l.foldl hash64 t) : s = t := by
  induction l generalizing s t with
  | nil => exact h
  | cons w l ih => exact hash64_state (ih h)

theorem foldl_oneOff {l m : List (BitVec 64)} (h : OneOff l m) (s : BitVec 64) :
    l.foldl hash64 s ≠ m.foldl hash64 s := by
  obtain ⟨p, x, y, q, rfl, rfl, hxy⟩ := h
  simp only [List.foldl_append, List.foldl_cons]
  exact fun e => hxy (hash64_word (foldl_state e))

theorem word_inj : ∀ {a b : Bytes}, a.length = b.length → word a = word b → a = b
  | [], [], _, _ => rfl
  | x :: a, y :: b, hl, h => by
    simp only [word] at h
    have hx := x.toNat_lt; have hy := y.toNat_lt
    have h1 : x.toNat = y.toNat := by omega
    have h2 : word a = word b := by omega
    rw [UInt8.toNat_inj.1 h1, word_inj (by simpa using hl) h2]

theorem word_lt : ∀ a : Bytes, word a < 256 ^ a.length
  | [] => by decide
  | x :: a => by
    have := word_lt a; have hx := x.toNat_lt
    simp only [word, List.length_cons, Nat.pow_succ]; omega

theorem ofNat_word_ne {a b : Bytes} (hl : a.length = b.length) (h8 : a.length ≤ 8) (h : a ≠ b) :
    BitVec.ofNat 64 (word a) ≠ BitVec.ofNat 64 (word b) := by
  intro e
  have hp : 256 ^ a.length ≤ 2 ^ 64 :=
    Nat.le_trans (Nat.pow_le_pow_right (by decide) h8) (by decide)
  have ha := word_lt a; have hb := word_lt b
  rw [← hl] at hb
  have e' := congrArg BitVec.toNat e
  rw [BitVec.toNat_ofNat, BitVec.toNat_ofNat, Nat.mod_eq_of_lt (by omega), Nat.mod_eq_of_lt (by omega)] at e'
  exact h (word_inj hl e')

theorem cut_set {c : UInt8} : ∀ {ns : List Nat} {bs : Bytes} {i : Nat}, (∀ n ∈ ns, n ≤ 8) → ns.sum = bs.length →
    ∀ x, bs[i]? = some x → x ≠ c →
    OneOff ((cut ns bs).map fun p => BitVec.ofNat 64 (word p))
      ((cut ns (bs.set i c)).map fun p => BitVec.ofNat 64 (word p))
  | [], bs, i, _, hs, x, hx, _ => by
    have : bs = [] := List.length_eq_zero_iff.1 (by simpa using hs.symm)
    subst this; simp at hx
  | n :: ns, bs, i, h8, hs, x, hx, hc => by
    have hi : i < bs.length := (List.getElem?_eq_some_iff.1 hx).1
    simp only [cut, List.map_cons]
    by_cases hin : i < n
    · refine ⟨[], _, BitVec.ofNat 64 (word ((bs.set i c).take n)),
        (cut ns (bs.drop n)).map fun p => BitVec.ofNat 64 (word p), rfl, ?_, ?_⟩
      · rw [List.drop_set_of_lt hin]; rfl
      · refine ofNat_word_ne (by simp) ?_ ?_
        · have := h8 n (List.mem_cons_self ..); simp; omega
        · intro e
          have := congrArg (·[i]?) e
          simp only [List.getElem?_take, hin, if_true, List.getElem?_set_self hi, hx, Option.some.injEq] at this
          exact hc this
    · obtain ⟨p, u, v, q, h1, h2, h3⟩ := cut_set (c := c) (ns := ns) (bs := bs.drop n) (i := i - n)
        (fun m hm => h8 m (List.mem_cons_of_mem _ hm)) (by simp at hs ⊢; omega) x
        (by rw [List.getElem?_drop, show n + (i - n) = i by omega]; exact hx) hc
      refine ⟨BitVec.ofNat 64 (word (bs.take n)) :: p, u, v, q, by rw [h1]; rfl, ?_, h3⟩
      rw [List.take_set_of_le (by omega), List.drop_set, if_neg hin, h2]; rfl

theorem tailLens_facts : ∀ n < 8, (∀ m ∈ tailLens n, m ≤ 8) ∧ (tailLens n).sum = n := by decide

theorem lens_le (n : Nat) : ∀ m ∈ lens n, m ≤ 8 := by
  intro m hm
  rcases List.mem_append.1 hm with h | h
  · rw [(List.mem_replicate.1 h).2]; exact Nat.le_refl _
  · exact (tailLens_facts (n % 8) (by omega)).1 m h

theorem lens_sum (n : Nat) : (lens n).sum = n := by
  rw [lens, List.sum_append, (tailLens_facts (n % 8) (by omega)).2, List.sum_replicate_nat]
  omega

/-- C84: a name in which one byte is another never has the same hash. Each step of the hasher is a
bijection in the state and in the word. -/
theorem C84_single_byte (name : Bytes) (i : Nat) (x c : UInt8) (hx : name[i]? = some x) (hc : x ≠ c) :
    hashName (name.set i c) ≠ hashName name := by
  intro e
  have e := hash64_state e
  rw [hBytes_words, hBytes_words] at e
  have h := cut_set (c := c) (lens_le name.length) (lens_sum _) x hx hc
  refine foldl_oneOff h 0 ?_
  rw [words, words] at e
  rw [← e, List.length_set]

example : hashName (encStr "user_name") ≠ hashName (encStr "user_mame") :=
  C84_single_byte (encStr "user_mame") 5 109 110 (by decide +kernel) (by decide)

/-- C84: names of the same length, which is 1, 2, 4 or 8, have the same hash only if they are equal. -/
theorem C84_one_word (a b : Bytes) (hl : a.length = b.length) (h : a.length ∈ [1, 2, 4, 8]) :
    hashName a = hashName b ↔ a = b := by
  refine ⟨fun e => ?_, fun e => by rw [e]⟩
  have e := hash64_state e
  rw [hBytes_words, hBytes_words, words, words, ← hl] at e
  have key : lens a.length = [a.length] := by
    simp only [List.mem_cons, List.not_mem_nil, or_false] at h
    rcases h with h | h | h | h <;> rw [h] <;> rfl
  rw [key] at e
  have e := hash64_word e
  rw [List.take_length, hl, List.take_length] at e
  refine Decidable.byContradiction fun hn => ofNat_word_ne hl ?_ hn e
  simp only [List.mem_cons, List.not_mem_nil, or_false] at h
  omega

/-! ### Names that all hash alike -/

/-- Ten pairs of texts of sixteen letters, digits and underscores. -/
def pairs : List (String × String) :=
  [("yigvospi_a_cbaaa", "vtnjiocd6Y0_8p1Q"), ("wcfuamjqf000p0aa", "ejefjqhz9UER8Fch"),
   ("meggayflataa0a0p", "ejkcvabbv94pRZJ4"), ("alucknzla0a0_baa", "spnticyu6OlQ8_FQ"),
   ("nnszmxqzdaaaa0aa", "tdlyzzio9173FGfk"), ("hlcmxajq_aeda0aa", "guidnkrv8vz9BBaz"),
   ("drpscoexda0paeab", "dbqnryhzxaJ8EzYc"), ("vyphnuwaavadpaaa", "cfypgasnP8Uz5V6F"),
   ("qjivoaczadaa_0a0", "decqijnjMzpD5IwC"), ("hmavmulepabaad0a", "rrgcpujs7oxHkxBL")]

/-- Every way to take one text of each pair. -/
def choices : List (String × String) → List Bytes
  | [] => [[]]
  | (a, b) :: ps => (choices ps).map (encStr a ++ ·) ++ (choices ps).map (encStr b ++ ·)

/-- The bytes of identifiers: letters, digits and the underscore. -/
def identByte (b : UInt8) : Bool := (65 ≤ b && b ≤ 90) || (97 ≤ b && b ≤ 122) || (48 ≤ b && b ≤ 57) || b == 95

/-- The two texts of each pair take the hasher from the same state to the same state, and are different. -/
def collide (s : BitVec 64) : List (String × String) → Bool
  | [] => true
  | (a, b) :: ps =>
    (encStr a).length == 16 && (encStr b).length == 16 && (encStr a != encStr b) &&
      (encStr a).all identByte && (encStr b).all identByte &&
      (hBytes s (encStr a) == hBytes s (encStr b)) && collide (hBytes s (encStr a)) ps

theorem words_append16 (a r : Bytes) (h : a.length = 16) (s : BitVec 64) :
    hBytes s (a ++ r) = hBytes (hBytes s a) r := by
  match a, h with
  | [a1, a2, a3, a4, a5, a6, a7, a8, b1, b2, b3, b4, b5, b6, b7, b8], _ => simp only [List.cons_append, List.nil_append, hBytes, loop8]; rfl

/-- The state after the first text of each pair. -/
def endState (s : BitVec 64) : List (String × String) → BitVec 64
  | [] => s
  | (a, _) :: ps => endState (hBytes s (encStr a)) ps

theorem choices_alike : ∀ (ps : List (String × String)) (s : BitVec 64), collide s ps = true →
    (choices ps).length = 2 ^ ps.length ∧ (choices ps).Nodup ∧
    ∀ n ∈ choices ps, n.length = 16 * ps.length ∧ n.all identByte = true ∧ hBytes s n = endState s ps
  | [], s, _ => by simp [choices, endState]; rfl
  | (a, b) :: ps, s, h => by
    simp only [collide, Bool.and_eq_true, beq_iff_eq, bne_iff_ne] at h
    obtain ⟨⟨⟨⟨⟨⟨ha, hb⟩, hne⟩, ia⟩, ib⟩, hab⟩, hr⟩ := h
    obtain ⟨h1, h2, h3⟩ := choices_alike ps _ hr
    refine ⟨by simp [choices, h1, Nat.pow_succ]; omega, ?_, ?_⟩
    · rw [choices, List.nodup_append]
      refine ⟨?_, ?_, ?_⟩
      · exact List.Pairwise.map _ (fun x y hxy e => hxy (List.append_cancel_left e)) h2
      · exact List.Pairwise.map _ (fun x y hxy e => hxy (List.append_cancel_left e)) h2
      · intro x hx y hy e
        obtain ⟨u, _, rfl⟩ := List.mem_map.1 hx
        obtain ⟨v, _, rfl⟩ := List.mem_map.1 hy
        exact hne (List.append_inj e (ha.trans hb.symm)).1
    · intro n hn
      rcases List.mem_append.1 hn with hn | hn
      · obtain ⟨u, hu, rfl⟩ := List.mem_map.1 hn
        have := h3 u hu
        refine ⟨by simp [ha, this.1]; omega, by rw [List.all_append, ia, this.2.1]; rfl, ?_⟩
        rw [words_append16 _ _ ha, this.2.2]; rfl
      · obtain ⟨u, hu, rfl⟩ := List.mem_map.1 hn
        have := h3 u hu
        refine ⟨by simp [hb, this.1]; omega, by rw [List.all_append, ib, this.2.1]; rfl, ?_⟩
        rw [words_append16 _ _ hb, ← hab, this.2.2]; rfl

/-- C84, violated: the hasher has no seed, so names of columns can be chosen that all have the same hash.
Here are 1024 names of 160 letters, digits and underscores, which begin with `y` or `v`. -/
theorem C84_flood_violated : ∃ (names : List Bytes) (h : BitVec 64), names.length = 1024 ∧ names.Nodup ∧
    ∀ n ∈ names, n.length = 160 ∧ n.all identByte = true ∧ n.head? ∈ [some 121, some 118] ∧ hashName n = h := by
  have h := choices_alike pairs 0 (by decide +kernel)
  refine ⟨choices pairs, hByte (endState 0 pairs) 255, h.1, h.2.1, fun n hn => ⟨(h.2.2 n hn).1, (h.2.2 n hn).2.1, ?_, ?_⟩⟩
  · rcases List.mem_append.1 hn with hn | hn
    · obtain ⟨u, _, rfl⟩ := List.mem_map.1 hn
      rw [List.head?_append, show (encStr "yigvospi_a_cbaaa").head? = some 121 by decide +kernel]; simp
    · obtain ⟨u, _, rfl⟩ := List.mem_map.1 hn
      rw [List.head?_append, show (encStr "vtnjiocd6Y0_8p1Q").head? = some 118 by decide +kernel]; simp
  · rw [hashName, (h.2.2 n hn).2.2]

/-! ### The keys of the map of models -/

/-- `EntityID` (`core/util.rs:32-37`), and `EntityIDRef` (`:92-98`), which has the same fields. -/
structure Id where
  sp : Ptr
  sl : Nat
  ep : Ptr
  el : Nat
  deriving DecidableEq

/-- `to_owned().into_boxed_str().into_boxed_bytes()`: a block with the bytes; an empty text has none. -/
def boxed (bs : Bytes) (h : Heap UInt8) : Ptr × Heap UInt8 :=
  let (p, h) := alloc bs.length h
  (p, h.store p (bs.map some))

/-- `EntityID::new` (`core/util.rs:40-49`). -/
def Id.new (space entity : String) (h : Heap UInt8) : Id × Heap UInt8 :=
  let (sp, h) := boxed (encStr space) h
  let (ep, h) := boxed (encStr entity) h
  (⟨sp, (encStr space).length, ep, (encStr entity).length⟩, h)

/-- `slice::from_raw_parts`: nothing is read if the length is 0. -/
def bytesAt (p : Ptr) (n : Nat) (h : Heap UInt8) : Out Bytes :=
  if n = 0 then .ok [] else do
    let b ← h.deref p
    slice b 0 n

/-- `space` (`core/util.rs:50-52`, `:110-112`). -/
def Id.space (i : Id) (h : Heap UInt8) : Out Bytes := bytesAt i.sp i.sl h

/-- `entity` (`core/util.rs:53-55`, `:113-115`). -/
def Id.entity (i : Id) (h : Heap UInt8) : Out Bytes := bytesAt i.ep i.el h

/-- `Drop for EntityID` (`core/util.rs:58-65`). -/
def Id.drop (i : Id) (h : Heap UInt8) : Out (Heap UInt8) := do
  let h ← dealloc i.sp i.sl h
  dealloc i.ep i.el h

/-- `PartialEq` (`core/util.rs:67-71`, `:118-122`): the second names are compared if the first are equal. -/
def Id.eq (i j : Id) (h : Heap UInt8) : Out Bool := do
  let a ← i.space h
  let b ← j.space h
  if a = b then do
    let c ← i.entity h
    let d ← j.entity h
    .ok (c = d)
  else .ok false

/-- `Hash` (`core/util.rs:75-80`, `:126-131`): what is written to the hasher. -/
def Id.stream (i : Id) (h : Heap UInt8) : Out Bytes := do
  let a ← i.space h
  let b ← i.entity h
  .ok (a ++ 255 :: (b ++ [255]))

/-- A lookup in the map of models (`HashMap<EntityID, Model>`, `core/mod.rs:88`), whose hasher is seeded at
random: the keys whose hash is that of the key asked for are compared with it. The standard map looks at
fewer of them, in another order. -/
def find {V : Type} (H : Bytes → Nat) (h : Heap UInt8) (q : Id) : List (Id × V) → Out (Option V)
  | [] => .ok none
  | (k, v) :: m => do
    let x ← k.stream h
    let y ← q.stream h
    if H x = H y then do
      let e ← k.eq q h
      if e then .ok (some v) else find H h q m
    else find H h q m

/-- The memory behind an id holds two names. -/
def Id.Holds (i : Id) (h : Heap UInt8) (space entity : String) : Prop :=
  i.space h = .ok (encStr space) ∧ i.entity h = .ok (encStr entity)

theorem no_ff (s : String) : (255 : UInt8) ∉ encStr s := by
  obtain ⟨m, hm⟩ := s.isValidUTF8
  rw [encStr, hm, List.utf8Encode]
  simp only [List.data_toByteArray, List.mem_flatMap, not_exists, not_and]
  intro c _ hc
  unfold String.utf8EncodeChar at hc
  have hv : c.val.toNat < 1114112 := by
    have := c.valid; simp only [UInt32.isValidChar, Nat.isValidChar] at this; omega
  have ne : ∀ n : Nat, n < 255 → (255 : UInt8) ≠ UInt8.ofNat n := by
    intro n hn e
    have := congrArg UInt8.toNat e
    simp only [UInt8.toNat_ofNat'] at this
    rw [Nat.mod_eq_of_lt (by omega)] at this
    exact absurd this (by change (255 : Nat) ≠ n; omega)
  simp only at hc
  split at hc
  · simp only [List.mem_singleton] at hc; exact ne _ (by omega) hc
  · split at hc
    · simp only [List.mem_cons, List.not_mem_nil, or_false] at hc
      rcases hc with hc | hc <;> exact ne _ (by omega) hc
    · split at hc
      · simp only [List.mem_cons, List.not_mem_nil, or_false] at hc
        rcases hc with hc | hc | hc <;> exact ne _ (by omega) hc
      · simp only [List.mem_cons, List.not_mem_nil, or_false] at hc
        rcases hc with hc | hc | hc | hc <;> exact ne _ (by omega) hc

theorem split_ff : ∀ {a b c d : Bytes}, 255 ∉ a → 255 ∉ c → a ++ 255 :: b = c ++ 255 :: d → a = c ∧ b = d
  | [], _, [], _, _, _, h => ⟨rfl, (List.cons.inj h).2⟩
  | [], _, x :: c, _, _, hc, h => absurd (List.cons.inj h).1 fun e => hc (e ▸ List.mem_cons_self ..)
  | x :: a, _, [], _, ha, _, h => absurd (List.cons.inj h).1 fun e => ha (e ▸ List.mem_cons_self ..)
  | x :: a, _, y :: c, _, ha, hc, h => by
    obtain ⟨e1, e2⟩ := List.cons.inj h
    obtain ⟨e3, e4⟩ := split_ff (fun m => ha (List.mem_cons_of_mem _ m)) (fun m => hc (List.mem_cons_of_mem _ m)) e2
    exact ⟨by rw [e1, e3], e4⟩

/-- C84: two pairs of names write the same bytes to the hasher only if they are equal; where the first name
ends is not lost, since no text has the byte 255. -/
theorem C84_streams (s e s' e' : String) :
    encStr s ++ 255 :: (encStr e ++ [255]) = encStr s' ++ 255 :: (encStr e' ++ [255]) ↔ s = s' ∧ e = e' := by
  constructor
  · intro h
    obtain ⟨h1, h2⟩ := split_ff (no_ff s) (no_ff s') h
    exact ⟨encStr_inj h1, encStr_inj (List.append_cancel_right h2)⟩
  · rintro ⟨rfl, rfl⟩; rfl

example : ¬ (encStr "ab" ++ 255 :: (encStr "c" ++ [255]) = encStr "a" ++ 255 :: (encStr "bc" ++ [255])) := by
  rw [C84_streams]; decide

theorem slice_map (xs : Bytes) : ∀ (n : Nat) (pre : Bytes), xs.length = n →
    slice ((pre ++ xs).map some) pre.length n = .ok xs := by
  induction xs with
  | nil => intro n pre h; subst h; simp [slice]
  | cons x xs ih =>
    intro n pre h
    cases n with
    | zero => simp at h
    | succ n =>
      have := ih n (pre ++ [x]) (by simpa using h)
      simp only [List.append_assoc, List.singleton_append, List.length_append, List.length_singleton] at this
      have hr : readSlot ((pre ++ x :: xs).map some) pre.length = .ok x := by
        rw [readSlot, List.getElem?_map, List.getElem?_append_right (Nat.le_refl _)]; simp
      rw [slice, hr, Out.ok_bind, this]; rfl

/-- What `boxed` does to a heap whose fresh addresses are free. -/
theorem boxed_facts (bs : Bytes) (h : Heap UInt8) (hf : h.Fresh) :
    (boxed bs h).2.Fresh ∧ h.next ≤ (boxed bs h).2.next ∧ (boxed bs h).2.dropped = h.dropped ∧
    (∀ i, i < h.next → (boxed bs h).2.blocks i = h.blocks i) ∧
    (bs = [] → boxed bs h = (none, h)) ∧
    (bs ≠ [] → (boxed bs h).1 = some h.next ∧ (boxed bs h).2.blocks h.next = some (bs.map some) ∧
      (boxed bs h).2.next = h.next + 1) := by
  cases bs with
  | nil => exact ⟨hf, Nat.le_refl _, rfl, fun _ _ => rfl, fun _ => rfl, fun e => absurd rfl e⟩
  | cons b bs =>
    have e : boxed (b :: bs) h = (some h.next, { h.set h.next (some ((b :: bs).map some)) with next := h.next + 1 }) := by
      simp only [boxed, alloc, List.length_cons, Nat.add_one_ne_zero, if_false, Heap.store, Heap.set]
      congr 2
      funext q; by_cases hq : q = h.next <;> simp [hq]
    rw [e]
    refine ⟨?_, Nat.le_succ _, rfl, ?_, fun e => absurd e (List.cons_ne_nil _ _), fun _ => ⟨rfl, ?_, rfl⟩⟩
    · intro i hi
      have : i ≠ h.next := fun e => by simp only at hi; omega
      simp only [Heap.set, this, if_false]; exact hf i (by simp only at hi; omega)
    · intro i hi
      have : i ≠ h.next := by omega
      simp [Heap.set, this]
    · simp [Heap.set]

theorem bytesAt_boxed (bs : Bytes) (h h' : Heap UInt8) (hf : h.Fresh)
    (hk : ∀ i, i < (boxed bs h).2.next → h'.blocks i = (boxed bs h).2.blocks i) :
    bytesAt (boxed bs h).1 bs.length h' = .ok bs := by
  by_cases hb : bs = []
  · subst hb; rfl
  · obtain ⟨h1, h2, h3⟩ := (boxed_facts bs h hf).2.2.2.2.2 hb
    have hl : bs.length ≠ 0 := fun e => hb (List.length_eq_zero_iff.1 e)
    rw [bytesAt, if_neg hl, h1, Heap.deref, hk _ (by omega), h2]
    exact slice_map bs _ [] rfl

/-- C84: a new id holds the two names, and no block that was there before changes. -/
theorem C84_new (s e : String) (h : Heap UInt8) (hf : h.Fresh) :
    (Id.new s e h).1.Holds (Id.new s e h).2 s e ∧ (Id.new s e h).2.Fresh ∧
    (∀ i, i < h.next → (Id.new s e h).2.blocks i = h.blocks i) := by
  have f1 := boxed_facts (encStr s) h hf
  have f2 := boxed_facts (encStr e) _ f1.1
  refine ⟨⟨?_, ?_⟩, f2.1, fun i hi => ?_⟩
  · exact bytesAt_boxed (encStr s) h _ hf fun i hi => f2.2.2.2.1 i hi
  · exact bytesAt_boxed (encStr e) _ _ f1.1 fun i hi => rfl
  · exact (f2.2.2.2.1 i (Nat.lt_of_lt_of_le hi f1.2.1)).trans (f1.2.2.2.1 i hi)

theorem dealloc_boxed (bs : Bytes) (h g : Heap UInt8) (hf : h.Fresh)
    (hk : bs ≠ [] → g.blocks h.next = some (bs.map some)) :
    dealloc (boxed bs h).1 bs.length g =
      .ok (if bs = [] then g else g.set h.next none) := by
  by_cases hb : bs = []
  · subst hb; rfl
  · obtain ⟨h1, _, _⟩ := (boxed_facts bs h hf).2.2.2.2.2 hb
    have hl : bs.length ≠ 0 := fun e => hb (List.length_eq_zero_iff.1 e)
    simp [dealloc, h1, hk hb, hb]

/-- C84: dropping an id frees the blocks that it was made with, and nothing else. -/
theorem C84_drop (s e : String) (h : Heap UInt8) (hf : h.Fresh) :
    ∃ h', (Id.new s e h).1.drop (Id.new s e h).2 = .ok h' ∧ h'.blocks = h.blocks := by
  have f1 := boxed_facts (encStr s) h hf
  have f2 := boxed_facts (encStr e) _ f1.1
  have d1 := dealloc_boxed (encStr s) h (Id.new s e h).2 hf fun hb => by
    obtain ⟨_, h2, h3⟩ := f1.2.2.2.2.2 hb
    exact (f2.2.2.2.1 _ (by omega)).trans h2
  have d2 := dealloc_boxed (encStr e) (boxed (encStr s) h).2
    (if encStr s = [] then (Id.new s e h).2 else (Id.new s e h).2.set h.next none) f1.1 fun hb => by
    obtain ⟨_, h2, _⟩ := f2.2.2.2.2.2 hb
    by_cases hs : encStr s = []
    · rw [if_pos hs]; exact h2
    · rw [if_neg hs]
      obtain ⟨_, _, h3⟩ := f1.2.2.2.2.2 hs
      simp only [Heap.set]
      rw [if_neg (by omega)]; exact h2
  refine ⟨_, (show _ = _ by unfold Id.drop; exact (congrArg (· >>= _) d1).trans d2), ?_⟩
  · funext i
    have hi : (Id.new s e h).2.blocks i = (boxed (encStr e) (boxed (encStr s) h).2).2.blocks i := rfl
    by_cases hs : encStr s = [] <;> by_cases he : encStr e = []
    · simp only [hs, he, if_true]
      rw [hi, he, (f1.2.2.2.2.1 hs)]; rfl
    · have e1 := f1.2.2.2.2.1 hs
      have en : (boxed (encStr s) h).2.next = h.next := by rw [e1]
      have eb : (boxed (encStr s) h).2.blocks i = h.blocks i := by rw [e1]
      rw [if_neg he, if_pos hs, en]
      simp only [Heap.set]
      rw [hi]
      by_cases hn : i = h.next
      · rw [if_pos hn, hn]; exact (hf _ (Nat.le_refl _)).symm
      · rw [if_neg hn]
        obtain ⟨_, _, h3⟩ := f2.2.2.2.2.2 he
        by_cases hlt : i < h.next
        · exact (f2.2.2.2.1 i (by omega)).trans eb
        · rw [f2.1 i (by omega), hf i (by omega)]
    · simp only [hs, he, if_true, if_false, Heap.set]
      rw [hi, he]
      obtain ⟨_, _, h3⟩ := f1.2.2.2.2.2 hs
      by_cases hn : i = h.next
      · simp only [hn, if_true]; exact (hf _ (Nat.le_refl _)).symm
      · simp only [hn, if_false]
        change (boxed (encStr s) h).2.blocks i = _
        by_cases hlt : i < h.next
        · exact f1.2.2.2.1 i hlt
        · rw [f1.1 i (by omega), hf i (by omega)]
    · simp only [hs, he, if_false, Heap.set]
      rw [hi]
      obtain ⟨_, _, h3⟩ := f1.2.2.2.2.2 hs
      obtain ⟨_, _, h4⟩ := f2.2.2.2.2.2 he
      by_cases hn : i = h.next
      · simp only [hn, if_true]
        rw [hf _ (Nat.le_refl _)]; simp
      · by_cases hm : i = h.next + 1
        · rw [h3]; simp only [hm, if_true]; rw [hf _ (by omega)]
        · rw [h3]; simp only [hn, hm, if_false]
          by_cases hlt : i < h.next
          · exact (f2.2.2.2.1 i (by omega)).trans (f1.2.2.2.1 i hlt)
          · rw [f2.1 i (by omega), hf i (by omega)]

theorem eq_holds {i j : Id} {h : Heap UInt8} {s e s' e' : String} (hi : i.Holds h s e) (hj : j.Holds h s' e') :
    i.eq j h = .ok (decide (s = s' ∧ e = e')) := by
  unfold Id.eq
  rw [hi.1, hj.1, hi.2, hj.2]
  simp only [Out.ok_bind]
  by_cases hs : s = s'
  · subst hs
    simp only [if_true, true_and]
    congr 1
    exact decide_eq_decide.2 ⟨encStr_inj, fun h => by rw [h]⟩
  · rw [if_neg fun h => hs (encStr_inj h)]
    simp [hs]

/-- C84: two ids write the same bytes to the hasher if and only if they hold the same names. -/
theorem C84_hashed {i j : Id} {h : Heap UInt8} {s e s' e' : String} (hi : i.Holds h s e) (hj : j.Holds h s' e') :
    i.stream h = j.stream h ↔ s = s' ∧ e = e' := by
  unfold Id.stream
  rw [hi.1, hi.2, hj.1, hj.2]
  simp only [Out.ok_bind, Out.ok.injEq]
  exact C84_streams s e s' e'

/-- C84: whatever the hash function is, a lookup in the map of models gives the first entry whose key
holds the two names asked for, and reads only memory that is there. -/
theorem C84_find {V : Type} (H : Bytes → Nat) (h : Heap UInt8) (q : Id) (s e : String) (hq : q.Holds h s e)
    (m : List (Id × V)) (name : Id → String × String) (hm : ∀ k v, (k, v) ∈ m → k.Holds h (name k).1 (name k).2) :
    find H h q m = .ok ((m.find? fun kv => decide (name kv.1 = (s, e))).map (·.2)) := by
  induction m with
  | nil => rfl
  | cons kv m ih =>
    obtain ⟨k, v⟩ := kv
    have hk := hm k v (List.mem_cons_self ..)
    have ih := ih fun k v h => hm k v (List.mem_cons_of_mem _ h)
    have sk : k.stream h = .ok (encStr (name k).1 ++ 255 :: (encStr (name k).2 ++ [255])) := by
      rw [Id.stream, hk.1, hk.2]; rfl
    have sq : q.stream h = .ok (encStr s ++ 255 :: (encStr e ++ [255])) := by
      rw [Id.stream, hq.1, hq.2]; rfl
    rw [find, sk, sq, Out.ok_bind, Out.ok_bind, eq_holds hk hq, Out.ok_bind, ih, List.find?_cons]
    by_cases hn : name k = (s, e)
    · simp [hn]
    · have hn' : ¬ ((name k).1 = s ∧ (name k).2 = e) := fun h => hn (Prod.ext h.1 h.2)
      simp [hn, hn']

/-! ### Borrowing an `EntityIDRef` from an `EntityID` -/

/-- The fields of the two structures. -/
inductive Fld | sp | sl | ep | el
  deriving DecidableEq

/-- A word of a structure in memory. -/
inductive W | ptr (p : Ptr) | len (n : Nat)

/-- The value of a field. -/
def Id.get (i : Id) : Fld → W
  | .sp => .ptr i.sp
  | .sl => .len i.sl
  | .ep => .ptr i.ep
  | .el => .len i.el

/-- `transmute` of a reference (`core/util.rs:142-146`): the words are written in the order that the
compiler chose for the one structure, and are read in the order that it chose for the other. `none`: a
length is read as a pointer. -/
def borrow (own ref : List Fld) (i : Id) : Option Id :=
  let at_ (f : Fld) : Option W := ((ref.zip (own.map i.get)).find? fun p => decide (p.1 = f)).map (·.2)
  match at_ .sp, at_ .sl, at_ .ep, at_ .el with
  | some (.ptr a), some (.len b), some (.ptr c), some (.len d) => some ⟨a, b, c, d⟩
  | _, _, _, _ => none

/-- The order of the fields in the source. -/
def inOrder : List Fld := [.sp, .sl, .ep, .el]

/-- C84: the reference that is borrowed from an id is the id, if the compiler puts the fields of the two
structures in the same order; the language does not say so, as neither is `repr(C)`. -/
theorem C84_borrow_partial (i : Id) (l : List Fld) (hl : l.Perm inOrder) : borrow l l i = some i := by
  have hz : ∀ (l : List Fld) (f : Fld), f ∈ l →
      (((l.zip (l.map i.get)).find? fun p => decide (p.1 = f)).map (·.2)) = some (i.get f) := by
    intro l f hf
    induction l with
    | nil => simp at hf
    | cons g l ih =>
      simp only [List.map_cons, List.zip_cons_cons, List.find?_cons]
      by_cases hg : g = f
      · simp [hg]
      · simp only [hg, decide_false]
        exact ih ((List.mem_cons.1 hf).resolve_left fun e => hg e.symm)
  have hm : ∀ f : Fld, f ∈ l := fun f => hl.mem_iff.2 (by cases f <;> decide)
  unfold borrow
  simp only [hz l _ (hm _)]
  rfl

/-- C84, violated: with another order of the fields the borrowed reference reads behind the end of a name. -/
theorem C84_borrow_order_violated : ∃ (own ref : List Fld) (i j : Id) (h : Heap UInt8),
    own.Perm inOrder ∧ ref.Perm inOrder ∧ i.Holds h "a" "users" ∧ borrow own ref i = some j ∧ j.space h = .ub := by
  refine ⟨inOrder, [.sp, .el, .ep, .sl], ⟨some 0, 1, some 1, 5⟩, ⟨some 0, 5, some 1, 1⟩,
    ⟨fun i => if i = 0 then some [some 97] else
      if i = 1 then some [some 117, some 115, some 101, some 114, some 115] else none, 2, []⟩, ?_, ?_, ⟨?_, ?_⟩, ?_, ?_⟩
  · decide
  · decide
  all_goals decide +kernel

/-! ### A case -/

/-- An empty heap. -/
def noHeap : Heap UInt8 := ⟨fun _ => none, 0, []⟩

/-- Two models with names that are alike when put together. -/
def sample : List (Id × Nat) × Heap UInt8 :=
  let (a, h) := Id.new "ab" "c" noHeap
  let (b, h) := Id.new "a" "bc" h
  ([(a, 1), (b, 2)], h)

/-- A key to look for. -/
def ask (s e : String) : Out (Option Nat) :=
  let (q, h) := Id.new s e sample.2
  find (fun _ => 0) h q sample.1

example : ask "a" "bc" = .ok (some 2) ∧ ask "ab" "c" = .ok (some 1) ∧ ask "abc" "" = .ok none := by
  refine ⟨?_, ?_, ?_⟩ <;> decide +kernel

end Verif.Mem.NameHash
