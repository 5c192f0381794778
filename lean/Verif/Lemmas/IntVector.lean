import Verif.Lemmas.BitVector
import Verif.Spec.IntVector
/-! `IntVector`: elements and bits; one call refines the list semantics. -/
namespace Succinct
open Spec

/-! ### packing -/

@[simp] theorem length_packBits (k : Nat) (xs : List Nat) : (packBits k xs).length = xs.length * k := by
  unfold packBits
  induction xs with
  | nil => simp
  | cons x xs ih => rw [List.flatMap_cons, List.length_append, ih, length_natBits, List.length_cons, Nat.succ_mul, Nat.add_comm]

theorem packBits_append (k : Nat) (xs ys : List Nat) : packBits k (xs ++ ys) = packBits k xs ++ packBits k ys := by
  simp [packBits]

theorem packBits_cons (k x : Nat) (xs : List Nat) : packBits k (x :: xs) = natBits k x ++ packBits k xs := by
  simp [packBits]

theorem packBits_replicate (k n x : Nat) : packBits k (List.replicate n x) = (List.replicate n (natBits k x)).flatten := by
  unfold packBits
  rw [List.flatMap_def, List.map_replicate]

theorem natBits_mod (k x : Nat) : natBits k (x % 2 ^ k) = natBits k x := natBits_congr (Nat.mod_mod _ _)

theorem getD_packBits (k : Nat) (hk : 0 < k) (xs : List Nat) (i : Nat) :
    (packBits k xs)[i]?.getD false = (xs[i / k]?.getD 0).testBit (i % k) := by
  induction xs generalizing i with
  | nil => simp [packBits]
  | cons x xs ih =>
    rw [packBits_cons, List.getElem?_append, length_natBits]
    split
    · next hi =>
      rw [getElem?_natBits, if_pos hi, Nat.div_eq_of_lt hi, Nat.mod_eq_of_lt hi]; rfl
    · next hi =>
      rw [ih]
      have h1 : i / k = (i - k) / k + 1 := by
        rw [← Nat.add_div_right _ hk]; congr 1; omega
      have h2 : i % k = (i - k) % k := Nat.mod_eq_sub_mod (by omega)
      rw [h1, ← h2]; rfl

theorem packBits_take (k : Nat) (xs : List Nat) (m : Nat) : packBits k (xs.take m) = (packBits k xs).take (m * k) := by
  induction xs generalizing m with
  | nil => simp [packBits]
  | cons x xs ih =>
    rcases m with _ | m
    · simp [packBits]
    · rw [List.take_succ_cons, packBits_cons, packBits_cons, ih, Nat.succ_mul, List.take_append, length_natBits,
        Nat.add_sub_cancel, List.take_of_length_le (l := natBits k x) (by simp)]

theorem packBits_drop (k : Nat) (xs : List Nat) (m : Nat) : packBits k (xs.drop m) = (packBits k xs).drop (m * k) := by
  induction xs generalizing m with
  | nil => simp [packBits]
  | cons x xs ih =>
    rcases m with _ | m
    · simp
    · rw [List.drop_succ_cons, packBits_cons, ih, Nat.succ_mul, List.drop_append, length_natBits,
        Nat.add_sub_cancel, List.drop_of_length_le (l := natBits k x) (by simp), List.nil_append]

theorem packBits_elem (k : Nat) (xs : List Nat) (i : Nat) (hi : i < xs.length) :
    ((packBits k xs).drop (i * k)).take k = natBits k xs[i] := by
  rw [← packBits_drop, List.drop_eq_getElem_cons hi, packBits_cons, List.take_left' (by simp)]

theorem packBits_set (k : Nat) (xs : List Nat) (i x : Nat) (hi : i < xs.length) :
    packBits k (xs.set i x) = overwrite (packBits k xs) (i * k) (natBits k x) := by
  unfold overwrite
  rw [length_natBits, ← packBits_take, ← Nat.succ_mul, ← packBits_drop, List.set_eq_take_append_cons_drop, if_pos hi,
    packBits_append, packBits_cons, List.append_assoc]

theorem length_unpack (k : Nat) (bits : List Bool) : (unpack k bits).length = bits.length / k := by simp [unpack]

theorem getElem_unpack (k : Nat) (bits : List Bool) (i : Nat) (hi : i < (unpack k bits).length) :
    (unpack k bits)[i] = bitsVal ((bits.drop (i * k)).take k) := by simp [unpack]

theorem unpack_lt (k : Nat) (bits : List Bool) : ∀ x ∈ unpack k bits, x < 2 ^ k := by
  intro x hx
  simp only [unpack, List.mem_map] at hx
  obtain ⟨i, -, rfl⟩ := hx
  exact span_lt _ _ _ _ (Nat.le_refl _)

theorem packBits_unpack (k : Nat) (hk : 0 < k) (bits : List Bool) : packBits k (unpack k bits) = floorTo k bits := by
  have hlen : (floorTo k bits).length = bits.length / k * k := by
    unfold floorTo
    rw [List.length_take, Nat.min_eq_left (Nat.div_mul_le_self _ _)]
  apply bits_ext
  · rw [length_packBits, length_unpack, hlen]
  · intro i hi
    rw [length_packBits, length_unpack] at hi
    have hik : i / k < bits.length / k := (Nat.div_lt_iff_lt_mul hk).2 hi
    rw [getD_packBits k hk, List.getElem?_eq_getElem (by rw [length_unpack]; exact hik), Option.getD_some, getElem_unpack,
      testBit_span, floorTo, List.getElem?_take, if_pos hi, Nat.div_mul_self_eq_mod_sub_self]
    have h1 := Nat.mod_lt i hk
    have h2 := Nat.mod_le i k
    simp [h1, show i - i % k + i % k = i by omega]

theorem unpack_packBits (k : Nat) (hk : 0 < k) (xs : List Nat) (h : ∀ x ∈ xs, x < 2 ^ k) :
    unpack k (packBits k xs) = xs := by
  apply List.ext_getElem
  · rw [length_unpack, length_packBits, Nat.mul_div_cancel _ hk]
  · intro i h1 h2
    rw [getElem_unpack, packBits_elem k xs i h2, bitsVal_natBits, Nat.mod_eq_of_lt (h _ (List.getElem_mem h2))]

theorem packBits_inj (k : Nat) (hk : 0 < k) (xs ys : List Nat) (hx : ∀ x ∈ xs, x < 2 ^ k) (hy : ∀ x ∈ ys, x < 2 ^ k)
    (h : packBits k xs = packBits k ys) : xs = ys := by
  rw [← unpack_packBits k hk xs hx, h, unpack_packBits k hk ys hy]

/-! ### representation relations -/

/-- bit-level: the vector holds these bits (a whole number of elements) -/
structure ivR (c : Cfg) (w : Nat) (s : IV w) (bits : List Bool) : Prop where
  pos : 1 ≤ s.elementBits
  le : s.elementBits ≤ w
  rep : VR c w s.elementBits s.base bits

/-- element-level: the vector has element width `k` and these elements -/
structure IR (c : Cfg) (w k : Nat) (s : IV w) (xs : List Nat) : Prop where
  eb : s.elementBits = k
  pos : 1 ≤ k
  le : k ≤ w
  lt : ∀ x ∈ xs, x < 2 ^ k
  rep : VR c w k s.base (packBits k xs)

theorem IR.ivR (h : IR c w k s xs) : ivR c w s (packBits k xs) :=
  ⟨by rw [h.eb]; exact h.pos, by rw [h.eb]; exact h.le, by rw [h.eb]; exact h.rep⟩

theorem IR.len (h : IR c w k s xs) : s.base.len = xs.length := by
  have h1 := h.rep.len
  rw [length_packBits] at h1
  exact Nat.eq_of_mul_eq_mul_right h.pos h1

/-- a new base holding whole elements -/
theorem IR.ofBits (h : IR c w k s xs) {b : VB w} {bits : List Bool} (hb : VR c w k b bits) :
    IR c w k ⟨k, b⟩ (unpack k bits) := by
  refine ⟨rfl, h.pos, h.le, unpack_lt k bits, ?_⟩
  have : packBits k (unpack k bits) = bits := by
    rw [packBits_unpack k h.pos, floorTo, ← hb.len, Nat.mul_div_cancel _ h.pos, hb.len, List.take_length]
  rw [this]; exact hb

theorem unpack_floorTo (k : Nat) (hk : 0 < k) (bits : List Bool) : unpack k (floorTo k bits) = unpack k bits := by
  rw [← packBits_unpack k hk, unpack_packBits k hk _ (unpack_lt k bits)]

theorem IR.ofFloor (h : IR c w k s xs) {b : VB w} {bits : List Bool} (hb : VR c w k b (floorTo k bits)) :
    IR c w k ⟨k, b⟩ (unpack k bits) := by
  have := h.ofBits hb
  rwa [unpack_floorTo k h.pos] at this

theorem IR.ofElems (h : IR c w k s xs) {b : VB w} {ys : List Nat} (hy : ∀ y ∈ ys, y < 2 ^ k)
    (hb : VR c w k b (packBits k ys)) : IR c w k ⟨k, b⟩ ys :=
  ⟨rfl, h.pos, h.le, hy, hb⟩

/-! ### as a bit vector -/

theorem iv_bitLen (c : Cfg) (h : IsBlk w) {s : IV w} {bits} (hR : ivR c w s bits) :
    (ivBitVec c w).bitLen s = .ok bits.length := by
  have hlt := hR.rep.fits.lt h.pos
  have hl := hR.rep.len
  show mulN c 64 s.elementBits s.base.len = _
  rw [Nat.mul_comm] at hl
  rw [mulN_ok (by omega), hl]

theorem iv_pad (c : Cfg) (h : IsBlk w) : BVPadLaw (ivBitVec c w) (ivR c w) :=
  ⟨fun hR i hi => (hR.rep.getBlock_eq h i).trans (if_pos hi)⟩

theorem iv_block (c : Cfg) (h : IsBlk w) : BVBlockLaw c (ivBitVec c w) (ivR c w) where
  blockLen := fun hR => congrArg Res.ok hR.rep.blocks
  getBlock := fun hR i hi => (iv_pad c h).block hR i hi
  getBlock_panic := fun hR i hi _ => (hR.rep.getBlock_eq h i).trans (if_neg (by omega))

theorem iv_law (c : Cfg) (h : IsBlk w) : BVLaw c (ivBitVec c w) (ivR c w) :=
  BVLaw.ofBlocks h (iv_block c h) (fun hR => hR.rep.fits) (fun hR => iv_bitLen c h hR) rfl rfl

theorem iv_mut_law (c : Cfg) (h : IsBlk w) : BVMutLaw c (ivBitVecMut c w) (ivR c w) :=
  BVMutLaw.ofBlocks h (iv_block c h) (fun hR => hR.rep.fits) (fun hR => iv_bitLen c h hR)
    (fun {s bits} hR i v hi => by
      obtain ⟨b, hb, -, hR'⟩ := hR.rep.setBlock_ok h hi v
      refine ⟨{ s with base := b }, ?_, ⟨hR.pos, hR.le, hR'⟩⟩
      show IV.setBlock c s i v = _
      unfold IV.setBlock
      rw [hb]; rfl)
    (fun {s bits} hR i v hi _ _ => by
      show IV.setBlock c s i v = _
      unfold IV.setBlock
      rw [hR.rep.setBlock_panic hi v]; rfl) rfl rfl

/-! ### one call -/

theorem checkValueRandom_eq (c : Cfg) (h : IsBlk w) {k : Nat} (hk : k ≤ w) (x : BitVec w) :
    IV.checkValueRandom c k x = if x.toNat < 2 ^ k then .ok () else .panic := by
  unfold IV.checkValueRandom
  rw [lowMask_ok c h hk, Res.ok_bind, maskB_toNat hk]
  have : 0 < 2 ^ k := Nat.two_pow_pos k
  split
  · rw [assertR_true (by omega)]
  · rw [assertR_false (by omega)]

/-- one call on the model of `IntVector` -/
def ivStep (c : Cfg) (s : IV w) : IvOp w → Res (IvOut × IV w)
  | .push x => do let s ← s.push c x; .ok (.unit, s)
  | .pop => do let (o, s) ← s.pop c; .ok (.optNum (o.map BitVec.toNat), s)
  | .set i x => do let s ← s.set c i x; .ok (.unit, s)
  | .setRandom off n i x => do let s ← s.setRandom c off n i x; .ok (.unit, s)
  | .setBlock i x => do let s ← (ivBitVecMut c w).setBlock s i x; .ok (.unit, s)
  | .truncate n => do let s ← s.truncate c n; .ok (.unit, s)
  | .blockTruncate n => do let s ← s.blockTruncate c n; .ok (.unit, s)
  | .resize n x => do let s ← s.resize c n x; .ok (.unit, s)
  | .blockResize n x => do let s ← s.blockResize c n x; .ok (.unit, s)
  | .clear => .ok (.unit, s.clear)
  | .len => .ok (.num s.len, s)
  | .isEmpty => .ok (.flag s.isEmpty, s)
  | .get i => do let x ← s.get c i; .ok (.num x.toNat, s)
  | .getRandom off n i => do let x ← s.getRandom c off n i; .ok (.num x.toNat, s)

section
variable {c : Cfg} {w k : Nat} {s : IV w} {xs : List Nat}

theorem IR.push_ok (h : IsBlk w) (hR : IR c w k s xs) (x : BitVec w) (hf : Fits c.usz w (xs.length * k + k))
    (hx : x.toNat < 2 ^ k) : ∃ s', s.push c x = .ok s' ∧ IR c w k s' (xs ++ [x.toNat]) := by
  obtain ⟨b, hb, hb'⟩ := hR.rep.pushBits_ok h hR.pos hR.le (by rw [length_packBits]; exact hf) x
  refine ⟨⟨k, b⟩, ?_, hR.ofElems ?_ ?_⟩
  · unfold IV.push IV.checkValue
    rw [hR.eb, checkValueRandom_eq c h hR.le, if_pos hx, Res.ok_bind, hb]; rfl
  · intro y hy
    rcases List.mem_append.1 hy with hy | hy
    · exact hR.lt y hy
    · rw [List.mem_singleton.1 hy]; exact hx
  · rw [packBits_append, packBits_cons]
    simpa [packBits] using hb'

theorem IR.push_panic (h : IsBlk w) (hR : IR c w k s xs) (x : BitVec w) (hx : ¬ x.toNat < 2 ^ k) :
    s.push c x = .panic := by
  unfold IV.push IV.checkValue
  rw [hR.eb, checkValueRandom_eq c h hR.le, if_neg hx]; rfl

theorem IR.pop_eq (h : IsBlk w) (hR : IR c w k s xs) :
    ∃ o s', s.pop c = .ok (o, s') ∧ o.map BitVec.toNat = xs.getLast? ∧ IR c w k s' xs.dropLast := by
  unfold IV.pop
  rw [hR.eb]
  by_cases hne : xs = []
  · subst hne
    have := hR.rep
    rw [show packBits k [] = [] from rfl] at this
    rw [this.popBits_nil hR.pos, Res.ok_bind]
    exact ⟨none, _, rfl, rfl, rfl, hR.pos, hR.le, hR.lt, hR.rep⟩
  · have hlen : 0 < xs.length := List.length_pos_iff.2 hne
    have hbne : packBits k xs ≠ [] := by
      intro h0
      have := congrArg List.length h0
      rw [length_packBits, List.length_nil] at this
      rcases Nat.mul_eq_zero.1 this with h1 | h1
      · omega
      · have := hR.pos; omega
    obtain ⟨b, hb, hb'⟩ := hR.rep.popBits_ok h hR.pos hR.le hbne
    rw [hb, Res.ok_bind]
    have hsub : (packBits k xs).length - k = (xs.length - 1) * k := by
      rw [length_packBits, Nat.sub_mul, Nat.one_mul]
    rw [hsub] at hb' ⊢
    refine ⟨_, _, rfl, ?_, hR.ofElems ?_ ?_⟩
    · have h1 : (packBits k xs).drop ((xs.length - 1) * k) = natBits k (xs.getLast hne) := by
        rw [← packBits_drop, List.drop_eq_getElem_cons (by omega), List.drop_of_length_le (by omega), packBits_cons,
          List.getLast_eq_getElem]
        simp [packBits]
      have hlt := hR.lt _ (List.getLast_mem hne)
      have h2 := Nat.pow_le_pow_right (n := 2) (by omega) hR.le
      rw [h1, bitsVal_natBits, List.getLast?_eq_some_getLast hne, Option.map_some, BitVec.toNat_ofNat,
        Nat.mod_eq_of_lt hlt, Nat.mod_eq_of_lt (by omega)]
    · intro y hy; exact hR.lt y (List.mem_of_mem_take (List.dropLast_eq_take ▸ hy))
    · rw [List.dropLast_eq_take, packBits_take]; exact hb'

theorem IR.computeAddress (h : IsBlk w) (hR : IR c w k s xs) {i : Nat} (hi : i < xs.length) :
    s.computeAddress i = .ok (i * k) := by
  have hlt := hR.rep.fits.lt h.pos
  rw [length_packBits] at hlt
  have : i * k ≤ xs.length * k := Nat.mul_le_mul_right k (by omega)
  unfold IV.computeAddress checkedMul
  rw [hR.eb, if_pos (by omega)]; rfl

theorem span_end {i n k : Nat} (hi : i < n) : i * k + k ≤ n * k := by
  rw [← Nat.succ_mul]; exact Nat.mul_le_mul_right k hi

theorem span_end' {i n k : Nat} (hk : 0 < k) (hi : n ≤ i) : n * k < i * k + k := by
  have := Nat.mul_le_mul_right k hi
  omega

theorem ofNat_elem (hR : IR c w k s xs) {i : Nat} (hi : i < xs.length) :
    (BitVec.ofNat w (bitsVal (((packBits k xs).drop (i * k)).take k))).toNat = xs[i] := by
  have hlt := hR.lt _ (List.getElem_mem hi)
  have h2 := Nat.pow_le_pow_right (n := 2) (by omega) hR.le
  rw [packBits_elem k xs i hi, bitsVal_natBits, BitVec.toNat_ofNat, Nat.mod_eq_of_lt hlt, Nat.mod_eq_of_lt (by omega)]

theorem IR.get_ok (h : IsBlk w) (hR : IR c w k s xs) {i : Nat} (hi : i < xs.length) :
    ∃ x, s.get c i = .ok x ∧ x.toNat = xs[i] := by
  have hw := h.pos
  have he := span_end (k := k) hi
  unfold IV.get IV.isBlockSized
  rw [hR.eb]
  by_cases hkw : k = w
  · subst hkw
    rw [if_pos (by simp)]
    have hu := hR.rep.fits.2
    rw [length_packBits, blocksFor_mul _ _ hw] at hu
    rw [asUsize, Nat.mod_eq_of_lt (by omega), hR.rep.getBlock_eq h, length_packBits, blocksFor_mul _ _ hw, if_pos hi]
    exact ⟨_, rfl, ofNat_elem hR hi⟩
  · rw [if_neg (by simpa using hkw), hR.computeAddress h hi, Res.ok_bind,
      hR.rep.getBits_ok h hR.pos hR.le (by rw [length_packBits]; exact he)]
    exact ⟨_, rfl, ofNat_elem hR hi⟩

theorem IR.get_panic (h : IsBlk w) (hR : IR c w k s xs) {i : Nat} (hi : xs.length ≤ i)
    (hu : k = w → i < 2 ^ c.usz) : s.get c i = .panic := by
  have hw := h.pos
  have he := span_end' hR.pos hi
  unfold IV.get IV.isBlockSized
  rw [hR.eb]
  by_cases hkw : k = w
  · subst hkw
    rw [if_pos (by simp), asUsize, Nat.mod_eq_of_lt (hu rfl), hR.rep.getBlock_eq h, length_packBits,
      blocksFor_mul _ _ hw, if_neg (by omega)]
  · rw [if_neg (by simpa using hkw), IV.computeAddress, checkedMul, hR.eb]
    split
    · next hm =>
      rw [expectR_some, Res.ok_bind, hR.rep.getBits_panic h hR.le hm (by rw [length_packBits]; exact he)]
    · rfl

theorem IR.set_ok (h : IsBlk w) (hR : IR c w k s xs) {i : Nat} (hi : i < xs.length) {x : BitVec w}
    (hx : x.toNat < 2 ^ k) : ∃ s', s.set c i x = .ok s' ∧ IR c w k s' (xs.set i x.toNat) := by
  have hw := h.pos
  have he := span_end (k := k) hi
  have hlt : ∀ y ∈ xs.set i x.toNat, y < 2 ^ k := by
    intro y hy
    rcases List.mem_or_eq_of_mem_set hy with hy | rfl
    · exact hR.lt y hy
    · exact hx
  unfold IV.set IV.isBlockSized
  rw [hR.eb]
  by_cases hkw : k = w
  · subst hkw
    rw [if_pos (by simp)]
    have hu := hR.rep.fits.2
    rw [length_packBits, blocksFor_mul _ _ hw] at hu
    obtain ⟨b, hb, -, hb'⟩ := hR.rep.setBlock_ok h (i := i) (by rw [length_packBits, blocksFor_mul _ _ hw]; exact hi) x
    rw [asUsize, Nat.mod_eq_of_lt (by omega), hb, Res.ok_bind]
    refine ⟨_, rfl, hR.ofElems hlt ?_⟩
    rw [packBits_set k xs i _ hi]
    rwa [List.take_of_length_le (by rw [length_blockBits, length_packBits]; omega)] at hb'
  · obtain ⟨b, hb, -, hb'⟩ := hR.rep.setBits_ok h (p := i * k) hR.pos hR.le (by rw [length_packBits]; exact he) x
    rw [if_neg (by simpa using hkw), IV.checkValue, hR.eb, checkValueRandom_eq c h hR.le, if_pos hx, Res.ok_bind,
      hR.computeAddress h hi, Res.ok_bind, hb, Res.ok_bind]
    refine ⟨_, rfl, hR.ofElems hlt ?_⟩
    rw [packBits_set k xs i _ hi]; exact hb'

theorem IR.set_panic (h : IsBlk w) (hR : IR c w k s xs) {i : Nat} {x : BitVec w}
    (hix : ¬ (i < xs.length ∧ x.toNat < 2 ^ k)) (hu : k = w → i < 2 ^ c.usz) : s.set c i x = .panic := by
  have hw := h.pos
  unfold IV.set IV.isBlockSized
  rw [hR.eb]
  by_cases hkw : k = w
  · subst hkw
    have hi : xs.length ≤ i := by
      have := x.isLt
      omega
    rw [if_pos (by simp), asUsize, Nat.mod_eq_of_lt (hu rfl),
      hR.rep.setBlock_panic (by rw [length_packBits, blocksFor_mul _ _ hw]; exact hi)]; rfl
  · rw [if_neg (by simpa using hkw), IV.checkValue, hR.eb, checkValueRandom_eq c h hR.le]
    split
    · next hx =>
      have he := span_end' hR.pos (show xs.length ≤ i by omega)
      rw [Res.ok_bind, IV.computeAddress, checkedMul, hR.eb]
      split
      · next hm =>
        rw [expectR_some, Res.ok_bind, hR.rep.setBits_panic h hR.le hm (by rw [length_packBits]; exact he)]; rfl
      · rfl
    · rfl

theorem addressRandom_ok (hf : Fits c.usz w n) (h : IsBlk w) {off m i : Nat} (hp : off + i * m ≤ n) :
    IV.computeAddressRandom off m i = .ok (off + i * m) := by
  have hlt := hf.lt h.pos
  unfold IV.computeAddressRandom checkedMul
  rw [if_pos (by omega)]
  simp only [Option.bind_some, checkedAdd]
  rw [if_pos (by omega), expectR_some, Nat.add_comm]

theorem addressRandom_cases (off m i : Nat) : IV.computeAddressRandom off m i = .panic ∨
    (IV.computeAddressRandom off m i = .ok (off + i * m) ∧ off + i * m < 2 ^ 64) := by
  unfold IV.computeAddressRandom checkedMul
  split
  · simp only [Option.bind_some, checkedAdd]
    split
    · right; rw [expectR_some, Nat.add_comm]; exact ⟨rfl, by omega⟩
    · left; rfl
  · left; rfl

theorem IR.getRandom_ok (h : IsBlk w) (hR : IR c w k s xs) {off n i : Nat} (h1 : 1 ≤ n) (hn : n ≤ w)
    (hp : off + i * n + n ≤ xs.length * k) :
    ∃ x, s.getRandom c off n i = .ok x ∧
      x.toNat = bitsVal (((packBits k xs).drop (off + i * n)).take n) := by
  have hf := hR.rep.fits
  rw [length_packBits] at hf
  unfold IV.getRandom
  rw [addressRandom_ok hf h (by omega), Res.ok_bind, hR.eb,
    hR.rep.getBits_ok h h1 hn (by rw [length_packBits]; omega)]
  refine ⟨_, rfl, ?_⟩
  rw [BitVec.toNat_ofNat, Nat.mod_eq_of_lt (span_lt _ _ _ _ hn)]

theorem IR.getRandom_panic (h : IsBlk w) (hR : IR c w k s xs) {off n i : Nat} (hn : n ≤ w)
    (hp : xs.length * k < off + i * n + n) : s.getRandom c off n i = .panic := by
  unfold IV.getRandom
  rcases addressRandom_cases off n i with ha | ⟨ha, hlt⟩
  · rw [ha]; rfl
  · rw [ha, Res.ok_bind, hR.eb, hR.rep.getBits_panic h hn hlt (by rw [length_packBits]; omega)]

theorem IR.setRandom_ok (h : IsBlk w) (hR : IR c w k s xs) {off n i : Nat} (h1 : 1 ≤ n) (hn : n ≤ w)
    (hp : off + i * n + n ≤ xs.length * k) {x : BitVec w} (hx : x.toNat < 2 ^ n) :
    ∃ s', s.setRandom c off n i x = .ok s' ∧
      IR c w k s' (unpack k (overwrite (packBits k xs) (off + i * n) (natBits n x.toNat))) := by
  have hf := hR.rep.fits
  rw [length_packBits] at hf
  unfold IV.setRandom
  obtain ⟨b, hb, -, hb'⟩ := hR.rep.setBits_ok h (p := off + i * n) h1 hn (by rw [length_packBits]; omega) x
  rw [checkValueRandom_eq c h hn, if_pos hx, Res.ok_bind, addressRandom_ok hf h (by omega), Res.ok_bind, hR.eb, hb,
    Res.ok_bind]
  exact ⟨_, rfl, hR.ofBits hb'⟩

theorem IR.setRandom_panic (h : IsBlk w) (hR : IR c w k s xs) {off n i : Nat} (hn : n ≤ w) {x : BitVec w}
    (hp : ¬ (off + i * n + n ≤ xs.length * k ∧ x.toNat < 2 ^ n)) : s.setRandom c off n i x = .panic := by
  unfold IV.setRandom
  rw [checkValueRandom_eq c h hn]
  split
  · rw [Res.ok_bind]
    rcases addressRandom_cases off n i with ha | ⟨ha, hlt⟩
    · rw [ha]; rfl
    · rw [ha, Res.ok_bind, hR.eb, hR.rep.setBits_panic h hn hlt (by rw [length_packBits]; omega)]; rfl
  · rfl

theorem IR.setBlock_ok (h : IsBlk w) (hR : IR c w k s xs) {i : Nat} (hi : i < blocksFor w (xs.length * k))
    (x : BitVec w) : ∃ s', (ivBitVecMut c w).setBlock s i x = .ok s' ∧
      IR c w k s' (unpack k (overwrite (packBits k xs) (i * w) ((blockBits x).take (xs.length * k - i * w)))) := by
  obtain ⟨b, hb, -, hb'⟩ := hR.rep.setBlock_ok h (i := i) (by rw [length_packBits]; exact hi) x
  refine ⟨⟨k, b⟩, ?_, hR.ofBits (by rwa [length_packBits] at hb')⟩
  show IV.setBlock c s i x = _
  unfold IV.setBlock
  rw [hR.eb, hb]; rfl

theorem IR.setBlock_panic (hR : IR c w k s xs) {i : Nat} (hi : ¬ i < blocksFor w (xs.length * k))
    (x : BitVec w) : (ivBitVecMut c w).setBlock s i x = .panic := by
  show IV.setBlock c s i x = _
  unfold IV.setBlock
  rw [hR.eb, hR.rep.setBlock_panic (by rw [length_packBits]; omega)]; rfl

theorem IR.truncate_ok (h : IsBlk w) (hR : IR c w k s xs) (n : Nat) :
    ∃ s', s.truncate c n = .ok s' ∧ IR c w k s' (xs.take n) := by
  obtain ⟨b, hb, hb'⟩ := hR.rep.truncate_eq h hR.pos n
  refine ⟨⟨k, b⟩, by unfold IV.truncate; rw [hR.eb, hb]; rfl, hR.ofElems ?_ ?_⟩
  · intro y hy; exact hR.lt y (List.mem_of_mem_take hy)
  · rw [packBits_take]; exact hb'

theorem IR.blockTruncate_ok (h : IsBlk w) (hR : IR c w k s xs) (n : Nat) :
    ∃ s', s.blockTruncate c n = .ok s' ∧ IR c w k s' (unpack k ((packBits k xs).take (n * w))) := by
  obtain ⟨b, hb, hb'⟩ := hR.rep.blockTruncate_eq h hR.pos hR.le n
  refine ⟨⟨k, b⟩, by unfold IV.blockTruncate; rw [hR.eb, hb]; rfl, ?_⟩
  split at hb'
  · exact hR.ofFloor hb'
  · next hn =>
    have := hR.ofBits hb'
    rwa [List.take_of_length_le]
    rw [← blocksFor_le h.pos]; omega

theorem IR.resize_ok (h : IsBlk w) (hR : IR c w k s xs) {n : Nat} (hf : Fits c.usz w (n * k)) (x : BitVec w) :
    ∃ s', s.resize c n x = .ok s' ∧
      IR c w k s' (xs.take n ++ List.replicate (n - xs.length) (x.toNat % 2 ^ k)) := by
  obtain ⟨b, hb, hb'⟩ := hR.rep.resize_ok h hR.pos hR.le hf x
  refine ⟨⟨k, b⟩, by unfold IV.resize; rw [hR.eb, hb]; rfl, hR.ofElems ?_ ?_⟩
  · intro y hy
    rcases List.mem_append.1 hy with hy | hy
    · exact hR.lt y (List.mem_of_mem_take hy)
    · rw [(List.mem_replicate.1 hy).2]; exact Nat.mod_lt _ (Nat.two_pow_pos k)
  · rw [packBits_append, packBits_take, packBits_replicate, natBits_mod, ← hR.len]; exact hb'

theorem IR.blockResize_ok (h : IsBlk w) (hR : IR c w k s xs) {n : Nat} (hf : Fits c.usz w (n * w)) (x : BitVec w) :
    ∃ s', s.blockResize c n x = .ok s' ∧
      IR c w k s' (unpack k ((padTo w (packBits k xs)).take (n * w) ++
        (List.replicate (n - blocksFor w (xs.length * k)) (blockBits x)).flatten)) := by
  obtain ⟨b, hb, hb'⟩ := hR.rep.blockResize_ok h hR.pos hR.le hf x
  rw [length_packBits] at hb'
  exact ⟨⟨k, b⟩, by unfold IV.blockResize; rw [hR.eb, hb]; rfl, hR.ofFloor hb'⟩

theorem IR.clear (h : IsBlk w) (hR : IR c w k s xs) : IR c w k s.clear [] :=
  ⟨hR.eb, hR.pos, hR.le, by simp, VR.nil c h k⟩

end

theorem ivStep_refines (c : Cfg) (h : IsBlk w) {s : IV w} {xs} (hR : IR c w k s xs) (op : IvOp w)
    (hok : op.Ok c.usz w k xs) : Refines (IR c w k) (ivStep c s op) (ivSpec w k xs op) := by
  cases op with
  | push x =>
    unfold ivSpec; simp only [ivStep]
    split
    · next hx => exact refines_unit (hR.push_ok h x hok hx)
    · next hx => exact by rw [hR.push_panic h x hx]; rfl
  | pop =>
    obtain ⟨o, s', h1, h2, h3⟩ := hR.pop_eq h
    exact ⟨s', by simp only [ivStep, h1, Res.ok_bind, h2], h3⟩
  | set i x =>
    unfold IvOp.Ok at hok
    unfold ivSpec; simp only [ivStep]
    split
    · next hx => exact refines_unit (hR.set_ok h hx.1 hx.2)
    · next hx => exact by rw [hR.set_panic h hx hok.2]; rfl
  | setRandom off n i x =>
    unfold IvOp.Ok at hok
    unfold ivSpec; simp only [ivStep]
    split
    · next hx => exact refines_unit (hR.setRandom_ok h hok.2.2.1 hok.2.2.2 hx.1 hx.2)
    · next hx => exact by rw [hR.setRandom_panic h hok.2.2.2 hx]; rfl
  | setBlock i x =>
    unfold ivSpec; simp only [ivStep]
    split
    · next hi => exact refines_unit (hR.setBlock_ok h hi x)
    · next hi => exact by rw [hR.setBlock_panic hi x]; rfl
  | truncate n => exact refines_unit (hR.truncate_ok h n)
  | blockTruncate n => exact refines_unit (hR.blockTruncate_ok h n)
  | resize n x => exact refines_unit (hR.resize_ok h hok x)
  | blockResize n x => exact refines_unit (hR.blockResize_ok h hok x)
  | clear => exact ⟨_, rfl, hR.clear h⟩
  | len => exact ⟨s, by simp only [ivStep, IV.len, hR.len], hR⟩
  | isEmpty =>
    refine ⟨s, ?_, hR⟩
    simp only [ivStep, IV.isEmpty, IV.len, hR.len]
    cases xs <;> simp
  | get i =>
    unfold IvOp.Ok at hok
    unfold ivSpec; simp only [ivStep]
    by_cases hi : i < xs.length
    · obtain ⟨x, h1, h2⟩ := hR.get_ok h hi
      rw [h1, List.getElem?_eq_getElem hi, ← h2]
      exact ⟨s, rfl, hR⟩
    · rw [hR.get_panic h (by omega) hok.2, List.getElem?_eq_none (by omega)]; rfl
  | getRandom off n i =>
    unfold IvOp.Ok at hok
    unfold ivSpec; simp only [ivStep]
    split
    · next hx =>
      obtain ⟨x, h1, h2⟩ := hR.getRandom_ok h hok.2.2.1 hok.2.2.2 hx
      exact ⟨s, by rw [h1, Res.ok_bind, h2], hR⟩
    · next hx => exact by rw [hR.getRandom_panic h hok.2.2.2 (by omega)]; rfl

/-- a sequence of calls -/
def ivRun (c : Cfg) (s : IV w) : List (IvOp w) → Res (List IvOut × IV w)
  | [] => .ok ([], s)
  | op :: ops => do
    let (o, s) ← ivStep c s op
    let (os, s) ← ivRun c s ops
    .ok (o :: os, s)

theorem ivRun_refines (c : Cfg) (h : IsBlk w) (ops : List (IvOp w)) {s : IV w} {xs} (hR : IR c w k s xs)
    (hok : ivOpsOk c.usz w k xs ops) : Refines (IR c w k) (ivRun c s ops) (ivSpecRun w k xs ops) := by
  induction ops generalizing s xs with
  | nil => exact ⟨s, rfl, hR⟩
  | cons op ops ih =>
    have h1 := ivStep_refines c h hR op hok.1
    have h2 := hok.2
    unfold ivRun ivSpecRun
    rcases hsp : ivSpec w k xs op with _ | ⟨o, xs'⟩
    · rw [hsp] at h1
      have h1 : ivStep c s op = .panic := h1
      exact by rw [h1]; rfl
    · rw [hsp] at h1
      obtain ⟨s', hs', hR'⟩ := h1
      have h3 := ih hR' (h2 _ hsp)
      rcases hsp2 : ivSpecRun w k xs' ops with _ | ⟨os, xs''⟩
      · rw [hsp2] at h3
        have h3 : ivRun c s' ops = .panic := h3
        simp only [hs', Res.ok_bind, h3, Option.bind_eq_bind, Option.bind_some, hsp2, Option.bind_none]
        rfl
      · rw [hsp2] at h3
        obtain ⟨s'', hs'', hR''⟩ := h3
        simp only [hs', Res.ok_bind, hs'', Option.bind_eq_bind, Option.bind_some, hsp2]
        exact ⟨s'', rfl, hR''⟩

/-! ### constructors -/

/-- constructors of the model -/
def ivInit (c : Cfg) (k : Nat) : IvInit w → Res (IV w)
  | .new => IV.new w k
  | .withCapacity n => IV.withCapacity c w k n
  | .blockWithCapacity _ => IV.blockWithCapacity w k
  | .withFill n x => IV.withFill c k n x
  | .blockWithFill n x => IV.blockWithFill c k n x

theorem checkElementBits_eq (w k : Nat) :
    IV.checkElementBits w k = if 1 ≤ k ∧ k ≤ w then .ok () else .panic := by
  unfold IV.checkElementBits
  by_cases h0 : k = 0
  · subst h0; rfl
  · rw [assertR_true h0, Res.ok_bind]
    by_cases hw : k ≤ w
    · rw [assertR_true hw, if_pos ⟨by omega, hw⟩]
    · rw [assertR_false hw, if_neg (by omega)]

theorem create_ok {k : Nat} (h1 : 1 ≤ k) (hw : k ≤ w) (b : VB w) : IV.create k b = .ok ⟨k, b⟩ := by
  unfold IV.create
  rw [checkElementBits_eq, if_pos ⟨h1, hw⟩]; rfl

theorem create_panic {k : Nat} (h : ¬ (1 ≤ k ∧ k ≤ w)) (b : VB w) : IV.create k b = .panic := by
  unfold IV.create
  rw [checkElementBits_eq, if_neg h]; rfl

theorem ivInit_ok (c : Cfg) (h : IsBlk w) {k : Nat} (h1 : 1 ≤ k) (hw : k ≤ w) (i : IvInit w) (hok : i.Ok c.usz k) :
    ∃ s, ivInit c k i = .ok s ∧ IR c w k s (i.elems k) := by
  have base : ∀ {b : VB w} {ys}, (∀ y ∈ ys, y < 2 ^ k) → VR c w k b (packBits k ys) → IR c w k ⟨k, b⟩ ys :=
    fun hy hb => ⟨rfl, h1, hw, hy, hb⟩
  cases i with
  | new => exact ⟨_, create_ok h1 hw _, base (by simp [IvInit.elems]) (VR.nil c h k)⟩
  | withCapacity n =>
    refine ⟨_, ?_, base (by simp [IvInit.elems]) (VR.nil c h k)⟩
    show IV.withCapacity c w k n = _
    unfold IV.withCapacity VB.withCapacity
    rw [lenToBlockLen_ok h hok, Res.ok_bind, expectR_some, Res.ok_bind, Res.ok_bind, create_ok h1 hw]; rfl
  | blockWithCapacity n => exact ⟨_, create_ok h1 hw _, base (by simp [IvInit.elems]) (VR.nil c h k)⟩
  | withFill n x =>
    obtain ⟨b, hb, hb'⟩ := withFill_ok c h h1 hw hok x
    refine ⟨⟨k, b⟩, ?_, base ?_ ?_⟩
    · show IV.withFill c k n x = _
      unfold IV.withFill
      rw [hb, Res.ok_bind, create_ok h1 hw]
    · intro y hy
      rw [(List.mem_replicate.1 hy).2]; exact Nat.mod_lt _ (Nat.two_pow_pos k)
    · unfold IvInit.elems
      rw [packBits_replicate, natBits_mod]; exact hb'
  | blockWithFill n x =>
    obtain ⟨b, hb, hb'⟩ := blockWithFill_ok c h h1 hw hok x
    refine ⟨⟨k, b⟩, ?_, base (unpack_lt _ _) ?_⟩
    · show IV.blockWithFill c k n x = _
      unfold IV.blockWithFill
      rw [hb, Res.ok_bind, create_ok h1 hw]
    · unfold IvInit.elems
      rw [packBits_unpack k h1]; exact hb'

end Succinct
