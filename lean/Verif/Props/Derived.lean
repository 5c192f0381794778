import Verif.Model.Derived
import Verif.Props.BitVector
import Verif.Props.IntVector
import Verif.Props.BlockIO
import Verif.Props.Storage
/-! Properties C85–C88: derived `Hash` and `Ord`. -/
namespace Succinct
open Spec

/-! ### C85: hashing -/

theorem Endian.bytes_inj (T : Endian) {k x y : Nat} (hx : x < 256 ^ k) (hy : y < 256 ^ k)
    (h : T.bytes k x = T.bytes k y) : x = y := by
  have := congrArg T.val h
  rwa [T.val_bytes, T.val_bytes, Nat.mod_eq_of_lt hx, Nat.mod_eq_of_lt hy] at this

theorem IsBlk.eight (h : IsBlk w) : 256 ^ (w / 8) = 2 ^ w := by
  obtain ⟨k, -, h, rfl⟩ := h
  have e : 2 ^ k = 8 * 2 ^ (k - 3) := by rw [show 8 = 2 ^ 3 from rfl, ← Nat.pow_add]; congr 1; omega
  rw [show 256 = 2 ^ 8 from rfl, ← Nat.pow_mul]
  congr 1
  rw [e, Nat.mul_div_cancel_left _ (by decide)]

theorem flatMap_bytes_inj (h : IsBlk w) (T : Endian) {u v : List (BitVec w)} {r r' : List (BitVec 8)}
    (hl : u.length = v.length)
    (he : (u.flatMap fun b => T.bytes (w / 8) b.toNat) ++ r = (v.flatMap fun b => T.bytes (w / 8) b.toNat) ++ r') :
    u = v ∧ r = r' := by
  induction u generalizing v with
  | nil => cases v with
    | nil => exact ⟨rfl, he⟩
    | cons => simp at hl
  | cons a u ih => cases v with
    | nil => simp at hl
    | cons b v =>
      rw [List.flatMap_cons, List.flatMap_cons, List.append_assoc, List.append_assoc] at he
      obtain ⟨h1, h2⟩ := List.append_inj he (by rw [T.length_bytes, T.length_bytes])
      obtain ⟨h3, h4⟩ := ih (by simpa using hl) h2
      have h5 : a = b := BitVec.eq_of_toNat_eq (T.bytes_inj (by rw [h.eight]; exact a.isLt) (by rw [h.eight]; exact b.isLt) h1)
      exact ⟨by rw [h3, h5], h4⟩

/-- No byte feed of a vector is a proper prefix of another's, and equal feeds come from equal structures. -/
theorem VB.hashBytes_inj (h : IsBlk w) (T : Endian) {s t : VB w} (hs : s.len < 2 ^ 64) (ht : t.len < 2 ^ 64)
    (hs2 : s.vec.length < 2 ^ c.usz) (ht2 : t.vec.length < 2 ^ c.usz) {r r' : List (BitVec 8)}
    (he : hashBytes c T (s.hashCalls T) ++ r = hashBytes c T (t.hashCalls T) ++ r') : s = t ∧ r = r' := by
  obtain ⟨n, u⟩ := s
  obtain ⟨m, v⟩ := t
  simp only [VB.hashCalls, hashBytes, HashCall.bytes, List.flatMap_cons, List.flatMap_nil, List.append_nil, List.append_assoc] at he hs ht hs2 ht2
  obtain ⟨h1, he⟩ := List.append_inj he (by rw [T.length_bytes, T.length_bytes])
  obtain ⟨h2, he⟩ := List.append_inj he (by rw [T.length_bytes, T.length_bytes])
  have e1 := T.bytes_inj (by omega) (by omega) h1
  have hu : 256 ^ (c.usz / 8) = 2 ^ c.usz := (IsBlk.usz c).eight
  have e2 := T.bytes_inj (by rw [hu]; exact hs2) (by rw [hu]; exact ht2) h2
  obtain ⟨e3, e4⟩ := flatMap_bytes_inj h T e2 he
  exact ⟨by rw [e1, e3], e4⟩

/-- C85 for `BitVector`. Vectors with the same bits make the same hasher calls, so every hasher gives them the
same hash; vectors with different bits feed different bytes, neither a prefix of the other, so that fields hashed
before or after cannot make up for the difference. -/
theorem C85_bit_vector (c : Cfg) (h : IsBlk w) (T : Endian) {s t : VB w} (hs : BvReach c w s bs) (ht : BvReach c w t bt) :
    (bs = bt → ∀ {H : Type} (K : HasherOps H) (x : H), K.feed x (s.hashCalls T) = K.feed x (t.hashCalls T)) ∧
    (∀ r r', hashBytes c T (s.hashCalls T) ++ r = hashBytes c T (t.hashCalls T) ++ r' → bs = bt ∧ r = r') := by
  have hR := hs.rep h
  have hR' := ht.rep h
  have l1 := hR.len
  have l2 := hR'.len
  have f1 := hR.fits.lt h.pos
  have f2 := hR'.fits.lt h.pos
  refine ⟨fun e => ?_, fun r r' he => ?_⟩
  · rw [(C15_equality_is_extensional h hs ht).2 e]
    exact fun _ _ => rfl
  · obtain ⟨e, er⟩ := VB.hashBytes_inj h T (by omega) (by omega) (by rw [hR.blocks]; exact hR.fits.2)
      (by rw [hR'.blocks]; exact hR'.fits.2) he
    exact ⟨(C15_equality_is_extensional h hs ht).1 e, er⟩

/-- C85 for `IntVector`: the element width is part of what is hashed. -/
theorem C85_int_vector (c : Cfg) (h : IsBlk w) (T : Endian) {s t : IV w} (hs : IvReach c w k s xs) (ht : IvReach c w k' t ys) :
    (k = k' → xs = ys → ∀ {H : Type} (K : HasherOps H) (x : H), K.feed x (s.hashCalls T) = K.feed x (t.hashCalls T)) ∧
    (∀ r r', hashBytes c T (s.hashCalls T) ++ r = hashBytes c T (t.hashCalls T) ++ r' → k = k' ∧ xs = ys ∧ r = r') := by
  have hR := hs.rep h
  have hR' := ht.rep h
  have l1 := hR.len
  have l2 := hR'.len
  have f1 := hR.rep.fits.lt h.pos
  have f2 := hR'.rep.fits.lt h.pos
  have hwu := h.lt_usz c
  have p1 := hR.rep.len
  have p2 := hR'.rep.len
  have q1 := Nat.le_mul_of_pos_right s.base.len hR.pos
  have q2 := Nat.le_mul_of_pos_right t.base.len hR'.pos
  refine ⟨fun e1 e2 => ?_, fun r r' he => ?_⟩
  · rw [(C26_equality h hs ht).2 ⟨e1, e2⟩]
    exact fun _ _ => rfl
  · have he' : T.bytes (c.usz / 8) s.elementBits ++ (hashBytes c T (s.base.hashCalls T) ++ r) =
        T.bytes (c.usz / 8) t.elementBits ++ (hashBytes c T (t.base.hashCalls T) ++ r') := by
      simpa only [IV.hashCalls, hashBytes, HashCall.bytes, List.flatMap_cons, List.append_assoc] using he
    obtain ⟨h1, he⟩ := List.append_inj he' (by rw [T.length_bytes, T.length_bytes])
    have hu : 256 ^ (c.usz / 8) = 2 ^ c.usz := (IsBlk.usz c).eight
    have e1 := T.bytes_inj (by rw [hu, hR.eb]; have := hR.le; omega) (by rw [hu, hR'.eb]; have := hR'.le; omega) h1
    obtain ⟨e2, er⟩ := VB.hashBytes_inj h T (by omega) (by omega) (by rw [hR.rep.blocks]; exact hR.rep.fits.2)
      (by rw [hR'.rep.blocks]; exact hR'.rep.fits.2) he
    have est : s = t := by cases s; cases t; simp_all
    obtain ⟨e3, e4⟩ := (C26_equality h hs ht).1 est
    exact ⟨e3, e4, er⟩

example : hashBytes ⟨true, .p32, true⟩ .little (VB.hashCalls .little (⟨9, [0xA5#8, 1#8]⟩ : VB 8)) =
    [9, 0, 0, 0, 0, 0, 0, 0, 2, 0, 0, 0, 0xA5, 1] := by decide
example : hashBytes ⟨true, .p64, true⟩ .big (IV.hashCalls .big (⟨5, ⟨3, [0x1234#16]⟩⟩ : IV 16)) =
    [0, 0, 0, 0, 0, 0, 0, 5, 0, 0, 0, 0, 0, 0, 0, 3, 0, 0, 0, 0, 0, 0, 0, 1, 0x12, 0x34] := by decide

/-- The blocks of a vector: each holds the next `w` bits, and the last is filled up with zeros. -/
theorem VR.vec_eq (h : IsBlk w) (hR : VR c w eb s bits) :
    s.vec = (List.range (blocksFor w bits.length)).map fun i => BitVec.ofNat w (bitsVal ((bits.drop (i * w)).take w)) := by
  apply List.ext_getElem
  · rw [hR.blocks, List.length_map, List.length_range]
  · intro i h1 h2
    rw [List.getElem_map, List.getElem_range]
    apply BitVec.eq_of_getLsbD_eq
    intro j hj
    have hb := hR.bit (i * w + j)
    rw [vbit, Nat.mul_comm i w, Nat.mul_add_div h.pos, Nat.div_eq_of_lt hj, Nat.add_zero, Nat.mul_add_mod, Nat.mod_eq_of_lt hj,
      List.getElem?_eq_getElem h1] at hb
    rw [BitVec.getLsbD_ofNat, testBit_bitsVal]
    simp only [Option.getD_some] at hb
    rw [hb, List.getElem?_take, if_pos hj, List.getElem?_drop, Nat.mul_comm i w]
    simp [hj]

/-- A hasher that treats all calls as bytes, as `Hasher`'s default methods do, takes the bytes in the order of the calls. -/
theorem HasherOps.feed_bytes (c : Cfg) (T : Endian) {K : HasherOps H} {upd : H → BitVec 8 → H}
    (hK : ∀ x m, K.call x m = (m.bytes c T).foldl upd x) (cs : List HashCall) (x : H) :
    K.feed x cs = (hashBytes c T cs).foldl upd x := by
  unfold HasherOps.feed
  induction cs generalizing x with
  | nil => rfl
  | cons m cs ih => rw [List.foldl_cons, ih, hK, hashBytes, hashBytes, List.flatMap_cons, List.foldl_append]

/-- C85. What a hasher that treats all calls as bytes receives from a `BitVector`: the length, the number of blocks, and
the bits in blocks. -/
theorem C85_bit_vector_bytes (c : Cfg) (h : IsBlk w) (T : Endian) {s : VB w} (hs : BvReach c w s bits) {K : HasherOps H}
    {upd : H → BitVec 8 → H} (hK : ∀ x m, K.call x m = (m.bytes c T).foldl upd x) (x : H) :
    K.feed x (s.hashCalls T) = (T.bytes 8 bits.length ++ (T.bytes (c.usz / 8) (blocksFor w bits.length) ++
      (List.range (blocksFor w bits.length)).flatMap fun i => T.bytes (w / 8) (bitsVal ((bits.drop (i * w)).take w)))).foldl upd x := by
  have hR := hs.rep h
  have hl := hR.len
  rw [HasherOps.feed_bytes c T hK]
  simp only [VB.hashCalls, hashBytes, List.flatMap_cons, List.flatMap_nil, List.append_nil, HashCall.bytes]
  rw [show s.len = bits.length by omega, hR.blocks]
  conv => lhs; rw [hR.vec_eq h]
  rw [List.flatMap_map, List.flatMap_def, List.flatMap_def]
  congr 4
  apply List.map_congr_left
  intro i _
  rw [BitVec.toNat_ofNat, Nat.mod_eq_of_lt]
  exact Nat.lt_of_lt_of_le (bitsVal_lt _) (Nat.pow_le_pow_right (by omega) (List.length_take_le _ _))

/-- C85. What such a hasher receives from an `IntVector`: the element width, the number of elements, the number of
blocks, and the elements' bits in blocks. -/
theorem C85_int_vector_bytes (c : Cfg) (h : IsBlk w) (T : Endian) {s : IV w} (hs : IvReach c w k s xs) {K : HasherOps H}
    {upd : H → BitVec 8 → H} (hK : ∀ x m, K.call x m = (m.bytes c T).foldl upd x) (x : H) :
    K.feed x (s.hashCalls T) = (T.bytes (c.usz / 8) k ++ (T.bytes 8 xs.length ++ (T.bytes (c.usz / 8) (blocksFor w (xs.length * k)) ++
      (List.range (blocksFor w (xs.length * k))).flatMap fun i =>
        T.bytes (w / 8) (bitsVal (((packBits k xs).drop (i * w)).take w))))).foldl upd x := by
  have hR := hs.rep h
  rw [HasherOps.feed_bytes c T hK]
  simp only [IV.hashCalls, VB.hashCalls, hashBytes, List.flatMap_cons, List.flatMap_nil, List.append_nil, HashCall.bytes]
  rw [hR.eb, hR.len, hR.rep.blocks, length_packBits]
  conv => lhs; rw [hR.rep.vec_eq h]
  rw [List.flatMap_map, length_packBits, List.flatMap_def, List.flatMap_def]
  congr 5
  apply List.map_congr_left
  intro i _
  rw [BitVec.toNat_ofNat, Nat.mod_eq_of_lt]
  exact Nat.lt_of_lt_of_le (bitsVal_lt _) (Nat.pow_le_pow_right (by omega) (List.length_take_le _ _))

/-- A hasher that collects bytes, fed with nine bits. -/
example : (HasherOps.feed ⟨fun x m => x ++ m.bytes ⟨true, .p32, true⟩ .little, fun x => x.length⟩ []
    (VB.hashCalls .little (⟨9, [0xA5#8, 1#8]⟩ : VB 8)) : List (BitVec 8)) = [9, 0, 0, 0, 0, 0, 0, 0, 2, 0, 0, 0, 0xA5, 1] := by decide

/-! ### C86: addresses -/

/-- C86. Comparing the addresses of two bits compares the bits' positions. -/
theorem C86_address_order (c : Cfg) (h : IsBlk w) {i j : Nat} {a b : Address}
    (ha : Address.new c w i = .ok a) (hb : Address.new c w j = .ok b) :
    Address.cmp a b = compare i j := by
  have hw := h.pos
  have key : ∀ {i : Nat} {a : Address}, Address.new c w i = .ok a → a = ⟨i / w, i % w⟩ := by
    intro i a ha
    rw [addrNew_eq c h] at ha
    split at ha
    · exact (Res.ok.inj ha).symm
    · cases ha
  obtain rfl := key ha
  obtain rfl := key hb
  have e1 := Nat.div_add_mod i w
  have e2 := Nat.div_add_mod j w
  have m1 := Nat.mod_lt i hw
  have m2 := Nat.mod_lt j hw
  unfold Address.cmp
  show (compare (i / w) (j / w)).then (compare (i % w) (j % w)) = _
  rcases Nat.lt_trichotomy (i / w) (j / w) with hlt | heq | hgt
  · rw [Nat.compare_eq_lt.2 hlt, (Nat.compare_eq_lt (a := i)).2]
    · rfl
    · have := Nat.mul_le_mul_left w hlt
      rw [Nat.mul_succ] at this
      omega
  · rw [Nat.compare_eq_eq.2 heq]
    rw [heq] at e1
    show compare (i % w) (j % w) = _
    rcases Nat.lt_trichotomy (i % w) (j % w) with h1 | h1 | h1
    · rw [Nat.compare_eq_lt.2 h1, Nat.compare_eq_lt.2 (by omega)]
    · rw [Nat.compare_eq_eq.2 h1, Nat.compare_eq_eq.2 (by omega)]
    · rw [Nat.compare_eq_gt.2 h1, Nat.compare_eq_gt.2 (by omega)]
  · rw [Nat.compare_eq_gt.2 hgt, (Nat.compare_eq_gt (a := i)).2]
    · rfl
    · have := Nat.mul_le_mul_left w hgt
      rw [Nat.mul_succ] at this
      omega

example : Address.cmp ⟨3, 7⟩ ⟨4, 0⟩ = .lt ∧ compare (3 * 8 + 7) (4 * 8 + 0) = Ordering.lt := by decide

/-! ### C87, C88: what the order of vectors is -/

/-- the highest differing bit decides -/
theorem lt_iff_testBit {x y : Nat} : x < y ↔
    ∃ p, x.testBit p = false ∧ y.testBit p = true ∧ ∀ q, p < q → x.testBit q = y.testBit q := by
  constructor
  · intro h
    induction y using Nat.strongRecOn generalizing x with
    | ind y ih =>
      by_cases hd : x / 2 < y / 2
      · obtain ⟨p, h1, h2, h3⟩ := ih (y / 2) (by omega) hd
        refine ⟨p + 1, by rw [Nat.testBit_succ]; exact h1, by rw [Nat.testBit_succ]; exact h2, fun q hq => ?_⟩
        obtain ⟨q, rfl⟩ : ∃ q', q = q' + 1 := ⟨q - 1, by omega⟩
        rw [Nat.testBit_succ, Nat.testBit_succ]
        exact h3 q (by omega)
      · have he : x / 2 = y / 2 := by omega
        refine ⟨0, ?_, ?_, fun q hq => ?_⟩
        · rw [Nat.testBit_zero]; simp; omega
        · rw [Nat.testBit_zero]; simp; omega
        · obtain ⟨q, rfl⟩ : ∃ q', q = q' + 1 := ⟨q - 1, by omega⟩
          rw [Nat.testBit_succ, Nat.testBit_succ, he]
  · rintro ⟨p, h1, h2, h3⟩
    induction p generalizing x y with
    | zero =>
      have he : x / 2 = y / 2 := Nat.eq_of_testBit_eq fun q => by
        rw [← Nat.testBit_succ, ← Nat.testBit_succ]; exact h3 _ (by omega)
      rw [Nat.testBit_zero] at h1 h2
      have := of_decide_eq_false h1
      have := of_decide_eq_true h2
      omega
    | succ p ih =>
      rw [Nat.testBit_succ] at h1 h2
      have := ih h1 h2 fun q hq => by
        rw [← Nat.testBit_succ, ← Nat.testBit_succ]; exact h3 _ (by omega)
      omega

theorem lt_of_compare {x y : BitVec w} (h : compare x y = .lt) : x.toNat < y.toNat := by
  change compareOfLessAndEq x y = .lt at h
  unfold compareOfLessAndEq at h
  split at h
  · rename_i h1; exact BitVec.lt_def.1 h1
  · split at h <;> cases h

theorem compare_of_lt {x y : BitVec w} (h : x.toNat < y.toNat) : compare x y = .lt := by
  change compareOfLessAndEq x y = .lt
  unfold compareOfLessAndEq
  rw [if_pos (BitVec.lt_def.2 h)]

/-- lexicographic comparison of lists of the same length -/
theorem compareLex_lt {u v : List (BitVec w)} (hl : u.length = v.length) : List.compareLex compare u v = .lt ↔
    ∃ i : Nat, (∀ j : Nat, j < i → u[j]? = v[j]?) ∧ ∃ x y : BitVec w, u[i]? = some x ∧ v[i]? = some y ∧ x.toNat < y.toNat := by
  induction u generalizing v with
  | nil => cases v with
    | nil => simp [List.compareLex_nil_nil]
    | cons => simp at hl
  | cons a u ih => cases v with
    | nil => simp at hl
    | cons b v =>
      rw [List.compareLex_cons_cons, Ordering.then_eq_lt, ih (by simpa using hl)]
      constructor
      · rintro (h | ⟨h, i, h1, x, y, h2, h3, h4⟩)
        · exact ⟨0, fun j hj => absurd hj (by omega), a, b, rfl, rfl, lt_of_compare h⟩
        · obtain rfl : a = b := Std.LawfulEqCmp.eq_of_compare h
          refine ⟨i + 1, fun j hj => ?_, x, y, by simpa using h2, by simpa using h3, h4⟩
          rcases j with _ | j
          · rfl
          · simpa using h1 j (by omega)
      · rintro ⟨i, h1, x, y, h2, h3, h4⟩
        rcases i with _ | i
        · simp only [List.getElem?_cons_zero, Option.some.injEq] at h2 h3
          subst h2; subst h3
          exact Or.inl (compare_of_lt h4)
        · have h0 := h1 0 (by omega)
          simp only [List.getElem?_cons_zero, Option.some.injEq] at h0
          subst h0
          refine Or.inr ⟨Std.ReflCmp.compare_self, i, fun j hj => ?_, x, y, by simpa using h2, by simpa using h3, h4⟩
          simpa using h1 (j + 1) (by omega)

/-- `bs` comes before `bt` in the order of blocks of `w` bits: at the deciding position `p` only `bt` has a one;
the two agree at all positions in earlier blocks, and at the later positions of the same block. -/
def BlockBefore (w : Nat) (bs bt : List Bool) : Prop :=
  ∃ p : Nat, bs[p]? = some false ∧ bt[p]? = some true ∧
    (∀ q : Nat, q / w < p / w → bs[q]? = bt[q]?) ∧ (∀ q : Nat, p < q → q / w = p / w → bs[q]? = bt[q]?)

theorem VR.cmp_lt (h : IsBlk w) {s t : VB w} (hs : VR c w eb s bs) (ht : VR c w eb t bt) (hl : bs.length = bt.length) :
    List.compareLex compare s.vec t.vec = .lt ↔ BlockBefore w bs bt := by
  have hw := h.pos
  have hlen : s.vec.length = t.vec.length := by rw [hs.blocks, ht.blocks, hl]
  have bit1 : ∀ {i j : Nat} {x : BitVec w}, s.vec[i]? = some x → j < w → x.toNat.testBit j = bs[i * w + j]?.getD false := by
    intro i j x hx hj
    rw [← hs.bit]
    simp [vbit, mul_add_div' hj, mul_add_mod' hj, hx, BitVec.getLsbD]
  have bit2 : ∀ {i j : Nat} {x : BitVec w}, t.vec[i]? = some x → j < w → x.toNat.testBit j = bt[i * w + j]?.getD false := by
    intro i j x hx hj
    rw [← ht.bit]
    simp [vbit, mul_add_div' hj, mul_add_mod' hj, hx, BitVec.getLsbD]
  -- same length lists: agreement through `getD`
  have agree : ∀ q : Nat, bs[q]?.getD false = bt[q]?.getD false → bs[q]? = bt[q]? := by
    intro q hq
    by_cases hb : q < bs.length
    · rw [List.getElem?_eq_getElem hb, List.getElem?_eq_getElem (by omega)] at hq ⊢
      exact congrArg some hq
    · rw [List.getElem?_eq_none (by omega), List.getElem?_eq_none (by omega)]
  rw [compareLex_lt hlen]
  constructor
  · rintro ⟨i, h1, x, y, h2, h3, h4⟩
    obtain ⟨j, g1, g2, g3⟩ := lt_iff_testBit.1 h4
    have hj : j < w := by
      rcases Nat.lt_or_ge j w with hj | hj
      · exact hj
      · rw [Nat.testBit_lt_two_pow (Nat.lt_of_lt_of_le y.isLt (Nat.pow_le_pow_right (by omega) hj))] at g2; cases g2
    have e2 := bit2 h3 hj
    rw [g2] at e2
    have hlt : i * w + j < bt.length := by
      rcases Nat.lt_or_ge (i * w + j) bt.length with h' | h'
      · exact h'
      · rw [List.getElem?_eq_none h'] at e2; cases e2
    have e1 := bit1 h2 hj
    rw [g1] at e1
    refine ⟨i * w + j, ?_, ?_, fun q hq => ?_, fun q hq hqw => ?_⟩
    · rw [List.getElem?_eq_getElem (by omega)] at e1 ⊢; exact congrArg some e1.symm
    · rw [List.getElem?_eq_getElem hlt] at e2 ⊢; exact congrArg some e2.symm
    · rw [mul_add_div' hj] at hq
      apply agree
      rw [← hs.bit, ← ht.bit]
      unfold vbit
      rw [h1 _ hq]
    · rw [mul_add_div' hj] at hqw
      obtain ⟨q', r, hr, he, hq', hr'⟩ := divmod_cases w q hw
      obtain rfl : q' = i := by omega
      apply agree
      rw [he, ← bit1 h2 hr, ← bit2 h3 hr]
      exact g3 r (by omega)
  · rintro ⟨p, h1, h2, h3, h4⟩
    obtain ⟨i, j, hj, he, hi, hj'⟩ := divmod_cases w p hw
    have hp : p < bs.length := by
      rcases Nat.lt_or_ge p bs.length with h' | h'
      · exact h'
      · rw [List.getElem?_eq_none h'] at h1; cases h1
    have hib : i < s.vec.length := by rw [hs.blocks, lt_blocksFor hw]; omega
    have hit : i < t.vec.length := by omega
    refine ⟨i, fun k hk => ?_, s.vec[i], t.vec[i], List.getElem?_eq_getElem hib, List.getElem?_eq_getElem hit, ?_⟩
    · rw [List.getElem?_eq_getElem (show k < s.vec.length by omega), List.getElem?_eq_getElem (show k < t.vec.length by omega)]
      congr 1
      apply BitVec.eq_of_toNat_eq
      apply Nat.eq_of_testBit_eq
      intro r
      by_cases hr : r < w
      · rw [bit1 (List.getElem?_eq_getElem (show k < s.vec.length by omega)) hr,
          bit2 (List.getElem?_eq_getElem (show k < t.vec.length by omega)) hr, h3 _ (by rw [mul_add_div' hr]; omega)]
      · rw [Nat.testBit_lt_two_pow (Nat.lt_of_lt_of_le (BitVec.isLt _) (Nat.pow_le_pow_right (by omega) (by omega))),
          Nat.testBit_lt_two_pow (Nat.lt_of_lt_of_le (BitVec.isLt _) (Nat.pow_le_pow_right (by omega) (by omega)))]
    · rw [lt_iff_testBit]
      refine ⟨j, ?_, ?_, fun r hr => ?_⟩
      · rw [bit1 (List.getElem?_eq_getElem hib) hj, ← he, h1]; rfl
      · rw [bit2 (List.getElem?_eq_getElem hit) hj, ← he, h2]; rfl
      · by_cases hrw : r < w
        · rw [bit1 (List.getElem?_eq_getElem hib) hrw, bit2 (List.getElem?_eq_getElem hit) hrw,
            h4 _ (by omega) (by rw [mul_add_div' hrw]; omega)]
        · rw [Nat.testBit_lt_two_pow (Nat.lt_of_lt_of_le (BitVec.isLt _) (Nat.pow_le_pow_right (by omega) (by omega))),
            Nat.testBit_lt_two_pow (Nat.lt_of_lt_of_le (BitVec.isLt _) (Nat.pow_le_pow_right (by omega) (by omega)))]

/-- C87, exactly: the order of `BitVector`s. Shorter vectors come first; between vectors of the same length the
first differing block decides, and in it the *last* differing bit. -/
theorem C87_exact (c : Cfg) (h : IsBlk w) {s t : VB w} (hs : BvReach c w s bs) (ht : BvReach c w t bt) :
    VB.cmp s t = .lt ↔ bs.length < bt.length ∨ bs.length = bt.length ∧ BlockBefore w bs bt := by
  have hR := hs.rep h
  have hR' := ht.rep h
  have l1 := hR.len
  have l2 := hR'.len
  rw [Nat.mul_one] at l1 l2
  unfold VB.cmp
  rw [Ordering.then_eq_lt, Nat.compare_eq_lt, Nat.compare_eq_eq, l1, l2]
  constructor
  · rintro (h1 | ⟨h1, h2⟩)
    · exact Or.inl h1
    · exact Or.inr ⟨h1, (hR.cmp_lt h hR' h1).1 h2⟩
  · rintro (h1 | ⟨h1, h2⟩)
    · exact Or.inl h1
    · exact Or.inr ⟨h1, (hR.cmp_lt h hR' h1).2 h2⟩

theorem BlockBefore.small {bs bt : List Bool} (hl : bs.length = bt.length) (h1 : bs.length ≤ w) (h2 : bs.length ≤ w') :
    BlockBefore w bs bt → BlockBefore w' bs bt := by
  rintro ⟨p, g1, g2, g3, g4⟩
  have hp : p < bs.length := by
    rcases Nat.lt_or_ge p bs.length with h' | h'
    · exact h'
    · rw [List.getElem?_eq_none h'] at g1; cases g1
  have hpw : p / w' = 0 := Nat.div_eq_of_lt (by omega)
  refine ⟨p, g1, g2, fun q hq => absurd hq (by rw [hpw]; exact Nat.not_lt_zero _), fun q hq hqw => ?_⟩
  by_cases hb : q < bs.length
  · exact g4 q hq (by rw [Nat.div_eq_of_lt (by omega), Nat.div_eq_of_lt (by omega)])
  · rw [List.getElem?_eq_none (by omega), List.getElem?_eq_none (by omega)]

theorem ordering_ext {a b : Ordering} (h1 : a = .lt ↔ b = .lt) (h2 : a.swap = .lt ↔ b.swap = .lt) : a = b := by
  revert h1 h2
  cases a <;> cases b <;> decide

/-- C87, the part that holds: as long as the vectors fit in one block of either type, the order does not depend
on the block type (it is the numeric order). Missing for the full claim: longer vectors
(`C87_counterexample`). -/
theorem C87_one_block_partial (c c' : Cfg) (h : IsBlk w) (h' : IsBlk w') {s t : VB w} {s' t' : VB w'}
    (hs : BvReach c w s bs) (ht : BvReach c w t bt) (hs' : BvReach c' w' s' bs) (ht' : BvReach c' w' t' bt)
    (h1 : bs.length ≤ w) (h2 : bs.length ≤ w') : VB.cmp s t = VB.cmp s' t' := by
  apply ordering_ext
  · rw [C87_exact c h hs ht, C87_exact c' h' hs' ht']
    constructor
    · rintro (h3 | ⟨h3, h4⟩)
      · exact Or.inl h3
      · exact Or.inr ⟨h3, h4.small h3 h1 h2⟩
    · rintro (h3 | ⟨h3, h4⟩)
      · exact Or.inl h3
      · exact Or.inr ⟨h3, h4.small h3 h2 h1⟩
  · rw [← VB.cmp_swap, ← VB.cmp_swap, C87_exact c h ht hs, C87_exact c' h' ht' hs']
    constructor
    · rintro (h3 | ⟨h3, h4⟩)
      · exact Or.inl h3
      · exact Or.inr ⟨h3, h4.small h3 (by omega) (by omega)⟩
    · rintro (h3 | ⟨h3, h4⟩)
      · exact Or.inl h3
      · exact Or.inr ⟨h3, h4.small h3 (by omega) (by omega)⟩

/-- Made by `with_fill(n, false)` and setting the bits in `ps`. -/
def withOnes (c : Cfg) (w n : Nat) (ps : List Nat) : Res (VB w) := do
  let s ← BV.withFill c w n false
  ps.foldlM (fun s p => (bvBitVecMut c w).setBit s p true) s

/-- C87, counterexample: of the nine-bit vectors with a one at 0 and at 8, `BitVector<u8>` puts the second first,
`BitVector<u16>` the first. -/
theorem C87_counterexample (d a : Bool) : let c : Cfg := ⟨d, .p64, a⟩
    (do let a ← withOnes c 8 9 [0]; let b ← withOnes c 8 9 [8]; .ok (VB.cmp a b)) = .ok .gt ∧
    (do let a ← withOnes c 16 9 [0]; let b ← withOnes c 16 9 [8]; .ok (VB.cmp a b)) = .ok .lt := by
  cases d <;> cases a <;> decide

/-- C88, exactly: the order of `IntVector`s. Narrower elements first, then shorter vectors, then the block order of
the packed bits. -/
theorem C88_exact (c : Cfg) (h : IsBlk w) {s t : IV w} (hs : IvReach c w k s xs) (ht : IvReach c w k' t ys) :
    IV.cmp s t = .lt ↔ k < k' ∨ k = k' ∧ (xs.length < ys.length ∨
      xs.length = ys.length ∧ BlockBefore w (packBits k xs) (packBits k ys)) := by
  have hR := hs.rep h
  have hR' := ht.rep h
  unfold IV.cmp VB.cmp
  rw [Ordering.then_eq_lt, Ordering.then_eq_lt, Nat.compare_eq_lt, Nat.compare_eq_eq, Nat.compare_eq_lt, Nat.compare_eq_eq,
    hR.eb, hR'.eb, hR.len, hR'.len]
  constructor
  · rintro (h1 | ⟨rfl, h1 | ⟨h1, h2⟩⟩)
    · exact Or.inl h1
    · exact Or.inr ⟨rfl, Or.inl h1⟩
    · exact Or.inr ⟨rfl, Or.inr ⟨h1, (hR.rep.cmp_lt h hR'.rep (by rw [length_packBits, length_packBits, h1])).1 h2⟩⟩
  · rintro (h1 | ⟨rfl, h1 | ⟨h1, h2⟩⟩)
    · exact Or.inl h1
    · exact Or.inr ⟨rfl, Or.inl h1⟩
    · exact Or.inr ⟨rfl, Or.inr ⟨h1, (hR.rep.cmp_lt h hR'.rep (by rw [length_packBits, length_packBits, h1])).2 h2⟩⟩

/-- Lexicographic order of lists of numbers of the same length: the first difference decides. -/
def LexBefore (xs ys : List Nat) : Prop :=
  ∃ i : Nat, (∀ j : Nat, j < i → xs[j]? = ys[j]?) ∧ ∃ x y, xs[i]? = some x ∧ ys[i]? = some y ∧ x < y

/-- The blocks of a vector of block-sized elements are its elements. -/
theorem IR.vec_full (h : IsBlk w) {s : IV w} (hR : IR c w w s xs) : s.base.vec.map BitVec.toNat = xs := by
  have hw := h.pos
  have hlen : s.base.vec.length = xs.length := by
    rw [hR.rep.blocks, length_packBits]
    have h1 := (blocksFor_le hw (n := xs.length * w) (i := xs.length)).2 (Nat.le_refl _)
    have h2 := le_blocksFor_mul (xs.length * w) hw
    have h3 := Nat.le_of_mul_le_mul_right h2 hw
    omega
  apply List.ext_getElem (by rw [List.length_map, hlen])
  intro i h1 h2
  rw [List.getElem_map]
  apply Nat.eq_of_testBit_eq
  intro j
  by_cases hj : j < w
  · have e := hR.rep.bit (i * w + j)
    rw [getD_packBits w hw, mul_add_div' hj, mul_add_mod' hj, List.getElem?_eq_getElem h2] at e
    have hi : i < s.base.vec.length := by rw [List.length_map] at h1; exact h1
    rw [vbit, mul_add_div' hj, mul_add_mod' hj, List.getElem?_eq_getElem hi] at e
    simpa [BitVec.getLsbD] using e
  · rw [Nat.testBit_lt_two_pow (Nat.lt_of_lt_of_le (BitVec.isLt _) (Nat.pow_le_pow_right (by omega) (by omega))),
      Nat.testBit_lt_two_pow (Nat.lt_of_lt_of_le (hR.lt _ (List.getElem_mem h2)) (Nat.pow_le_pow_right (by omega) (by omega)))]

/-- C88, the part that holds: vectors of block-sized elements of the same length are ordered lexicographically by
their elements. Missing for the full claim: narrower elements (`C88_counterexample`). -/
theorem C88_lexicographic_partial (c : Cfg) (h : IsBlk w) {s t : IV w} (hs : IvReach c w w s xs) (ht : IvReach c w w t ys)
    (hl : xs.length = ys.length) : IV.cmp s t = .lt ↔ LexBefore xs ys := by
  have hR := hs.rep h
  have hR' := ht.rep h
  have e1 := hR.vec_full h
  have e2 := hR'.vec_full h
  have hlen : s.base.vec.length = t.base.vec.length := by
    rw [← List.length_map (f := BitVec.toNat), e1, hl, ← e2, List.length_map]
  unfold IV.cmp VB.cmp
  rw [Nat.compare_eq_eq.2 (hR.eb.trans hR'.eb.symm), Nat.compare_eq_eq.2 (by rw [hR.len, hR'.len, hl])]
  show List.compareLex compare s.base.vec t.base.vec = .lt ↔ _
  rw [compareLex_lt hlen, ← e1, ← e2]
  unfold LexBefore
  constructor
  · rintro ⟨i, h1, x, y, h2, h3, h4⟩
    exact ⟨i, fun j hj => by rw [List.getElem?_map, List.getElem?_map, h1 j hj], x.toNat, y.toNat,
      by rw [List.getElem?_map, h2]; rfl, by rw [List.getElem?_map, h3]; rfl, h4⟩
  · rintro ⟨i, h1, x, y, h2, h3, h4⟩
    rw [List.getElem?_map, Option.map_eq_some_iff] at h2 h3
    obtain ⟨x, h2, rfl⟩ := h2
    obtain ⟨y, h3, rfl⟩ := h3
    refine ⟨i, fun j hj => ?_, x, y, h2, h3, h4⟩
    have e := h1 j hj
    rw [List.getElem?_map, List.getElem?_map] at e
    cases hu : s.base.vec[j]? <;> cases hv : t.base.vec[j]? <;> rw [hu, hv] at e <;> simp_all
    exact BitVec.eq_of_toNat_eq e

/-- An `IntVector` made by pushing `xs`. -/
def ofElems (c : Cfg) (w k : Nat) (xs : List Nat) : Res (IV w) := do
  let s ← IV.new w k
  xs.foldlM (fun s x => s.push c (BitVec.ofNat w x)) s

/-- C88, counterexample: with 4-bit elements in `u8` blocks, `[1, 0]` comes before `[0, 1]`. -/
theorem C88_counterexample (d a : Bool) : let c : Cfg := ⟨d, .p64, a⟩
    (do let a ← ofElems c 8 4 [1, 0]; let b ← ofElems c 8 4 [0, 1]; .ok (IV.cmp a b)) = .ok .lt ∧
    (do let a ← ofElems c 8 8 [1, 0]; let b ← ofElems c 8 8 [0, 1]; .ok (IV.cmp a b)) = .ok .gt := by
  cases d <;> cases a <;> decide

/-! Each theorem of this file that has hypotheses is applied to concrete data in `Verif/Instances/Derived.lean`. -/

end Succinct
