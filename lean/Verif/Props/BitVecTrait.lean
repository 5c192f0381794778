import Verif.Lemmas.Instances
/-!
# C09–C13, C74, C75: bit vector traits over block arrays, `Vec<bool>` and integers
-/
namespace Succinct
open Spec

/-! ### C09: reads -/

theorem vec_view (c : Cfg) (h : IsBlk w) (v : List (BitVec w)) (hv : Fits c.usz w (arrayBits v).length) :
    BlockView c w (vecBitVec c w).bitLen (vecBitVec c w).getBlock v (arrayBits v).length
      (fun i => (arrayBits v)[i]?.getD false) :=
  (vec_block c h).view (fun hR => hR.2) (fun hR => vec_bitLen c h hR) ⟨rfl, hv⟩

theorem C09_get_bit (c : Cfg) (h : IsBlk w) (v : List (BitVec w)) (hv : Fits c.usz w (arrayBits v).length)
    (i : Nat) (hi : i < 2 ^ 64) :
    (vecBitVec c w).getBit v i = if i < (arrayBits v).length then .ok ((arrayBits v)[i]?.getD false) else .panic := by
  rw [(vec_law c h).getBit ⟨rfl, hv⟩ i hi, expectR_eq_ite]

theorem C09_get_bits (c : Cfg) (h : IsBlk w) (v : List (BitVec w)) (hv : Fits c.usz w (arrayBits v).length)
    (p n : Nat) (hp : p < 2 ^ 64) (h1 : 1 ≤ n) (hn : n ≤ w) :
    (vecBitVec c w).getBits v p n =
      if p + n ≤ (arrayBits v).length
      then .ok (BitVec.ofNat w (bitsVal (((arrayBits v).drop p).take n))) else .panic := by
  split
  · next hl => exact (vec_law c h).getBits ⟨rfl, hv⟩ p n h1 hn hl
  · next hl => exact (vec_view c h v hv).getBits_panic h hp hn (by omega)

/-- The value read is an `n`-bit number whose bit `j` is bit `p+j` of the array. -/
theorem C09_get_bits_bit (c : Cfg) (h : IsBlk w) (v : List (BitVec w)) (hv : Fits c.usz w (arrayBits v).length)
    (p n : Nat) (h1 : 1 ≤ n) (hn : n ≤ w) (hl : p + n ≤ (arrayBits v).length) :
    ∃ y, (vecBitVec c w).getBits v p n = .ok y ∧ y.toNat < 2 ^ n ∧
      ∀ j < n, some (y.toNat.testBit j) = (arrayBits v)[p + j]? := by
  have hlt := (hv.lt h.pos)
  refine ⟨_, (vec_law c h).getBits ⟨rfl, hv⟩ p n h1 hn hl, ?_⟩
  rw [BitVec.toNat_ofNat, Nat.mod_eq_of_lt (span_lt _ _ _ _ hn)]
  refine ⟨span_lt _ _ _ _ (Nat.le_refl _), fun j hj => ?_⟩
  rw [testBit_span, List.getElem?_eq_getElem (show p + j < (arrayBits v).length by omega)]
  simp [hj]

example : (vecBitVec ⟨true, .p64, true⟩ 8).getBits [0xA5#8, 0x3C#8] 6 5 = .ok 0x12#8 ∧
    (vecBitVec ⟨true, .p64, true⟩ 8).getBits [0xA5#8, 0x3C#8] 12 5 = .panic ∧
    (vecBitVec ⟨true, .p64, true⟩ 8).getBit [0xA5#8, 0x3C#8] 15 = .ok false ∧
    Fits 64 8 (arrayBits [0xA5#8, 0x3C#8]).length := by decide

/-! ### C10: writes -/

theorem C10_set_bit (c : Cfg) (h : IsBlk w) (v : List (BitVec w)) (hv : Fits c.usz w (arrayBits v).length)
    (i : Nat) (hi : i < 2 ^ 64) (x : Bool) :
    (i < (arrayBits v).length → ∃ v', (vecBitVecMut c w).setBit v i x = .ok v' ∧
      v'.length = v.length ∧ arrayBits v' = (arrayBits v).set i x) ∧
    ((arrayBits v).length ≤ i → (vecBitVecMut c w).setBit v i x = .panic) := by
  refine ⟨fun hl => ?_, fun hl => (vec_mut_law c h).setBit_panic ⟨rfl, hv⟩ i x hl hi⟩
  obtain ⟨v', hv', hR⟩ := (vec_mut_law c h).setBit ⟨rfl, hv⟩ i x hl
  refine ⟨v', hv', ?_, hR.1.symm⟩
  have h1 := hR.length
  rw [List.length_set, length_arrayBits] at h1
  exact (Nat.eq_of_mul_eq_mul_right h.pos h1).symm

theorem C10_set_bits (c : Cfg) (h : IsBlk w) (v : List (BitVec w)) (hv : Fits c.usz w (arrayBits v).length)
    (p n : Nat) (hp : p < 2 ^ 64) (h1 : 1 ≤ n) (hn : n ≤ w) (x : BitVec w) :
    (p + n ≤ (arrayBits v).length → ∃ v', (vecBitVecMut c w).setBits v p n x = .ok v' ∧
      v'.length = v.length ∧ arrayBits v' = overwrite (arrayBits v) p (natBits n x.toNat)) ∧
    ((arrayBits v).length < p + n → (vecBitVecMut c w).setBits v p n x = .panic) := by
  refine ⟨fun hl => ?_, fun hl => ?_⟩
  · obtain ⟨v', hv', hR⟩ := (vec_mut_law c h).setBits ⟨rfl, hv⟩ p n x h1 hn hl
    refine ⟨v', hv', ?_, hR.1.symm⟩
    have h1 := hR.length
    rw [length_overwrite (by rw [length_natBits]; exact hl), length_arrayBits] at h1
    exact (Nat.eq_of_mul_eq_mul_right h.pos h1).symm
  · have hw := h.pos
    have hlu := h.lt_usz c
    have bv := vec_view c h v hv
    by_cases ho : p + n < 2 ^ 64
    · exact (vec_mut_law c h).setBits_panic ⟨rfl, hv⟩ p n x hn ho hl
    · -- the bound check wraps in release builds; the index check of the `Vec` still panics
      show dfltSetBits c (vecBitVec c w).bitLen (vecBitVec c w).getBlock _ v p n x = .panic
      unfold dfltSetBits
      rw [addN, if_neg ho, overflow]
      by_cases hd : c.debug
      · rw [if_pos hd]; rfl
      · rw [if_neg hd, Res.ok_bind, bv.len, Res.ok_bind]
        by_cases hl : (p + n) % 2 ^ 64 ≤ (arrayBits v).length
        · rw [assertR_true hl, Res.ok_bind, addrNew_eq c h]
          by_cases hu : p / w < 2 ^ c.usz
          · rw [if_pos hu, Res.ok_bind]
            obtain ⟨q, r, hr, he, hq, hr'⟩ := divmod_cases w p hw
            simp only [hq, hr']
            have hge : blocksFor w (arrayBits v).length ≤ q := by
              rw [blocksFor_le hw]
              have := hv.lt hw
              blk_cases h <;> omega
            rw [hq] at hu
            rw [subN_ok (by omega), Res.ok_bind, bv.blk_panic q hge hu]
            split
            · rfl
            · rw [subN_ok (by omega)]; rfl
          · rw [if_neg hu]; rfl
        · rw [assertR_false hl]; rfl

example : (vecBitVecMut ⟨true, .p64, true⟩ 8).setBits [0xA5#8, 0x3C#8] 6 5 0x0B#8 = .ok [0xE5#8, 0x3A#8] ∧
    (vecBitVecMut ⟨true, .p64, true⟩ 8).setBits [0xA5#8, 0x3C#8] 12 5 1#8 = .panic ∧
    (vecBitVecMut ⟨true, .p64, true⟩ 8).setBit [0xA5#8, 0x3C#8] 8 true = .ok [0xA5#8, 0x3D#8] := by decide

/-! ### C11: zero-width accesses -/

theorem blkGetBits_zero (c : Cfg) (h : IsBlk w) (x : BitVec w) {i : Nat} (hi : i ≤ w) :
    blkGetBits c x i 0 = .ok 0 := by
  obtain ⟨y, hy, hyb⟩ := blkGetBits_eq c h x (start := i) (len := 0) (by omega)
  rw [hy]
  congr 1
  apply BitVec.eq_of_getLsbD_eq
  intro j _
  rw [hyb]; simp

theorem blkWithBits_zero (c : Cfg) (h : IsBlk w) (x v : BitVec w) {i : Nat} (hi : i ≤ w) :
    blkWithBits c x i 0 v = .ok x := by
  obtain ⟨y, hy, hyb⟩ := blkWithBits_eq c h x (start := i) (len := 0) v (by omega)
  rw [hy]
  congr 1
  apply BitVec.eq_of_getLsbD_eq
  intro j _
  rw [hyb, if_neg (by omega)]

/-- Zero-width accesses strictly inside the vector. The full property also covers `p = bit_len`,
which is false: `C11_end_panics`. -/
theorem C11_zero_width_partial (c : Cfg) (h : IsBlk w) (v : List (BitVec w))
    (hv : Fits c.usz w (arrayBits v).length) (p : Nat) (hp : p < (arrayBits v).length) (x : BitVec w) :
    (vecBitVec c w).getBits v p 0 = .ok 0 ∧ (vecBitVecMut c w).setBits v p 0 x = .ok v := by
  have hw := h.pos
  have hlu := h.lt_usz c
  have bv := vec_view c h v hv
  have hlt := hv.lt hw
  obtain ⟨q, r, hr, he, hq, hr'⟩ := divmod_cases w p hw
  have hqb : q < blocksFor w (arrayBits v).length := (lt_blocksFor hw).2 (by omega)
  have hql : q < v.length := by rwa [length_arrayBits, blocksFor_mul _ _ hw] at hqb
  have hqu := hv.2
  constructor
  · show dfltGetBits c (vecBitVec c w).bitLen (vecBitVec c w).getBlock v p 0 = _
    unfold dfltGetBits
    rw [addN_ok (by omega), Res.ok_bind, bv.len, Res.ok_bind, assertR_true (by omega), Res.ok_bind,
      addrNew_ok c h (by omega), Res.ok_bind, subN_ok (by simp only [hr']; omega), Res.ok_bind,
      if_pos (by omega)]
    show (vecGet v (p / w) >>= fun block => blkGetBits c block (p % w) 0) = _
    rw [vecGet, hq, List.getElem?_eq_getElem hql, expectR_some, Res.ok_bind, blkGetBits_zero c h _ (by omega)]
  · show dfltSetBits c (vecBitVec c w).bitLen (vecBitVec c w).getBlock _ v p 0 x = _
    unfold dfltSetBits
    rw [addN_ok (by omega), Res.ok_bind, bv.len, Res.ok_bind, assertR_true (by omega), Res.ok_bind,
      addrNew_ok c h (by omega), Res.ok_bind, subN_ok (by simp only [hr']; omega), Res.ok_bind,
      if_pos (by omega)]
    show (vecGet v (p / w) >>= fun old => blkWithBits c old (p % w) 0 x >>= fun new => vecSet v (p / w) new) = _
    rw [vecGet, hq, List.getElem?_eq_getElem hql, expectR_some, Res.ok_bind, blkWithBits_zero c h _ _ (by omega),
      Res.ok_bind, vecSet, if_pos hql, List.set_getElem_self]

/-- FINDING: `get_bits(bit_len, 0)` and `set_bits(bit_len, 0, _)` always panic on a block array,
although the empty span is in bounds (`start + count <= bit_len` holds). -/
theorem C11_end_panics (c : Cfg) (h : IsBlk w) (v : List (BitVec w))
    (hv : Fits c.usz w (arrayBits v).length) (x : BitVec w) :
    (vecBitVec c w).getBits v (arrayBits v).length 0 = .panic ∧
    (vecBitVecMut c w).setBits v (arrayBits v).length 0 x = .panic := by
  have hw := h.pos
  have hlu := h.lt_usz c
  have bv := vec_view c h v hv
  have hlt := hv.lt hw
  have hq : (arrayBits v).length / w = v.length := by rw [length_arrayBits, Nat.mul_div_cancel _ hw]
  have hr : (arrayBits v).length % w = 0 := by rw [length_arrayBits, Nat.mul_mod_left]
  have hqu := hv.2
  rw [length_arrayBits, blocksFor_mul _ _ hw] at hqu
  constructor
  · show dfltGetBits c (vecBitVec c w).bitLen (vecBitVec c w).getBlock v _ 0 = _
    unfold dfltGetBits
    rw [addN_ok (by omega), Res.ok_bind, bv.len, Res.ok_bind, assertR_true (by omega), Res.ok_bind,
      addrNew_ok c h (by omega), Res.ok_bind, subN_ok (by simp only [hr]; omega), Res.ok_bind,
      if_pos (by omega)]
    show (vecGet v _ >>= _) = _
    simp only [hq, vecGet]
    rw [List.getElem?_eq_none (by omega)]; rfl
  · show dfltSetBits c (vecBitVec c w).bitLen (vecBitVec c w).getBlock _ v _ 0 x = _
    unfold dfltSetBits
    rw [addN_ok (by omega), Res.ok_bind, bv.len, Res.ok_bind, assertR_true (by omega), Res.ok_bind,
      addrNew_ok c h (by omega), Res.ok_bind, subN_ok (by simp only [hr]; omega), Res.ok_bind,
      if_pos (by omega)]
    show (vecGet v _ >>= _) = _
    simp only [hq, vecGet]
    rw [List.getElem?_eq_none (by omega)]; rfl

example : (vecBitVec ⟨true, .p64, true⟩ 8).getBits [0xA5#8] 7 0 = .ok 0 ∧
    (vecBitVec ⟨true, .p64, true⟩ 8).getBits [0xA5#8] 8 0 = .panic := by decide

/-! ### C12: the two views agree -/

/-- Any implementation whose `get_block` follows the block law and whose `get_bit`/`get_bits` are
the trait defaults satisfies the bit-level law. -/
theorem C12_defaults_from_get_block (h : IsBlk w) {o : BitVecOps w S} {R : S → List Bool → Prop}
    (hb : BVBlockLaw c o R) (hfits : ∀ {s bits}, R s bits → Fits c.usz w bits.length)
    (hlen : ∀ {s bits}, R s bits → o.bitLen s = .ok bits.length)
    (hgb : o.getBit = dfltGetBit c o.bitLen o.getBlock)
    (hgbs : o.getBits = dfltGetBits c o.bitLen o.getBlock) : BVLaw c o R :=
  BVLaw.ofBlocks h hb hfits hlen hgb hgbs

/-- The default `get_block` assembled from `get_bit`: bit `j` of the result is bit `pos*w+j` of the
vector, and zero past the end. -/
theorem C12_get_block_from_get_bit (h : IsBlk w) {bitLen blockLen : S → Res Nat}
    {getBit : S → Nat → Res Bool} {s : S} {bits : List Bool} (hf : Fits c.usz w bits.length)
    (hlen : bitLen s = .ok bits.length) (hbl : blockLen s = .ok (blocksFor w bits.length))
    (hget : ∀ i < bits.length, getBit s i = expectR bits[i]?) (pos : Nat) :
    (dfltGetBlock c bitLen blockLen getBit s pos : Res (BitVec w)) =
      if pos < blocksFor w bits.length
      then .ok (BitVec.ofNat w (bitsVal ((bits.drop (pos * w)).take w))) else .panic := by
  split
  · next hp =>
    obtain ⟨b, hb, hbit⟩ := dfltGetBlock_ok (c := c) (getBit := getBit) (f := fun i => bits[i]?.getD false) h hf hlen hbl
      (fun i hi => by rw [hget i hi, expectR_eq_ite, if_pos hi]) hp
    rw [hb]
    congr 1
    apply eq_ofNat_span (Nat.le_refl _)
    intro j
    rw [hbit]
    by_cases hn : pos * w + j < bits.length
    · simp [hn]
    · simp [hn]
  · next hp =>
    unfold dfltGetBlock
    rw [hbl, Res.ok_bind, assertR_false (by omega)]; rfl

/-- `Vec<bool>` (which uses the defaults in the other direction) is lawful in every respect. -/
theorem C12_vec_bool (c : Cfg) : BVLaw c (boolVecBitVec c) (boolR c) ∧
    BVBlockLaw c (boolVecBitVec c) (boolR c) ∧ BVPadLaw (boolVecBitVec c) (boolR c) ∧
    BVMutLaw c (boolVecBitVecMut c) (boolR c) ∧
    BVPushLaw 8 (boolVecBitVecPush c) (boolR c) (boolFit c) :=
  ⟨boolVec_law c, boolVec_block c, boolVec_pad c, boolVec_mut_law c, boolVec_push_law c⟩

/-- Block arrays are lawful in every respect. -/
theorem C12_block_array (c : Cfg) (h : IsBlk w) : BVLaw c (vecBitVec c w) (vecR c w) ∧
    BVBlockLaw c (vecBitVec c w) (vecR c w) ∧ BVPadLaw (vecBitVec c w) (vecR c w) ∧
    BVMutLaw c (vecBitVecMut c w) (vecR c w) :=
  ⟨vec_law c h, vec_block c h, vec_pad c h, vec_mut_law c h⟩

/-- The default `set_block` from `set_bit` writes exactly the in-range bits of the block. -/
theorem C12_set_block_from_set_bit (h : IsBlk w) {o : BitVecOps w S} {setBit : S → Nat → Bool → Res S}
    {R : S → List Bool → Prop}
    (hfits : ∀ {s bits}, R s bits → Fits c.usz w bits.length)
    (hlen : ∀ {s bits}, R s bits → o.bitLen s = .ok bits.length)
    (hbl : ∀ {s bits}, R s bits → o.blockLen s = .ok (blocksFor w bits.length))
    (hset : ∀ {s bits}, R s bits → ∀ i v, i < bits.length → ∃ s', setBit s i v = .ok s' ∧ R s' (bits.set i v))
    {s : S} {bits : List Bool} (hR : R s bits) {pos : Nat} (v : BitVec w) (hpos : pos < blocksFor w bits.length) :
    ∃ s', dfltSetBlock c o.bitLen o.blockLen setBit s pos v = .ok s' ∧
      R s' (overwrite bits (pos * w) ((blockBits v).take (bits.length - pos * w))) :=
  dfltSetBlock_ok h hfits hlen hbl hset hR v hpos

/-- a 10-element `Vec<bool>` -/
def tenBits : List Bool := [true, false, true, false, false, false, false, true, true, false]

example : boolR ⟨true, .p64, true⟩ tenBits tenBits ∧
    (boolVecBitVec ⟨true, .p64, true⟩).getBlock tenBits 0 = .ok 0x85#8 ∧
    (boolVecBitVec ⟨true, .p64, true⟩).getBlock tenBits 1 = .ok 0x01#8 ∧
    (boolVecBitVec ⟨true, .p64, true⟩).getBlock tenBits 2 = .panic ∧
    (boolVecBitVec ⟨true, .p64, true⟩).getBits tenBits 7 3 = .ok 3#8 :=
  ⟨⟨rfl, by decide, by decide⟩, by decide, by decide, by decide, by decide⟩

/-! ### C13: integers as bit vectors -/

theorem C13_prim_read (c : Cfg) (h : IsBlk w) (x : BitVec w) (p : Nat) (hp : p < 2 ^ 64) :
    (primBitVec c w).bitLen x = .ok w ∧ (primBitVec c w).blockLen x = .ok 1 ∧
    (primBitVec c w).getBlock x p = (if p = 0 then .ok x else .panic) ∧
    (primBitVec c w).getBit x p = (if p < w then .ok (x.toNat.testBit p) else .panic) ∧
    (∀ n, p + n < 2 ^ 64 → (primBitVec c w).getBits x p n =
      if p + n ≤ w then .ok (BitVec.ofNat w (bitsVal (((blockBits x).drop p).take n))) else .panic) := by
  have hlu := h.lt_usz c
  refine ⟨rfl, rfl, ?_, ?_, ?_⟩
  · show (assertR (p = 0) >>= fun _ => Res.ok x) = _
    unfold assertR; split <;> rfl
  · rw [(prim_law c h).getBit rfl p hp, expectR_eq_ite, length_blockBits, getD_blockBits]; rfl
  · intro n hn
    rw [prim_getBits_eq _ _ _ _ hn]
    split
    · next hl =>
      have := h.le
      obtain ⟨y, hy, hyb⟩ := blkGetBits_eq c h x hl
      rw [asUsize, Nat.mod_eq_of_lt (by omega), hy]
      congr 1
      apply eq_ofNat_span (by omega)
      intro j
      rw [hyb, getD_blockBits]
    · rfl

theorem C13_prim_write (c : Cfg) (h : IsBlk w) : BVMutLaw c (primBitVecMut c w) (primR w) :=
  prim_mut_law c h

theorem C13_prim_law (c : Cfg) (h : IsBlk w) : BVLaw c (primBitVec c w) (primR w) ∧
    BVBlockLaw c (primBitVec c w) (primR w) ∧ BVPadLaw (primBitVec c w) (primR w) :=
  ⟨prim_law c h, prim_block c h, prim_pad c h⟩

/-- FINDING: on a 64-bit target in release mode the bound check of `u64::get_bits` wraps: two bits
are "read" from position `2^64-1`. -/
theorem C13_release_wrap_counterexample :
    (primBitVec ⟨false, .p64, false⟩ 64).getBits 5#64 (2 ^ 64 - 1) 2 ≠ .panic ∧
    (primBitVec ⟨true, .p64, true⟩ 64).getBits 5#64 (2 ^ 64 - 1) 2 = .panic := by
  constructor <;> decide

example : (primBitVec ⟨true, .p64, true⟩ 8).getBits 0xA5#8 5 3 = .ok 5#8 ∧
    (primBitVecMut ⟨true, .p64, true⟩ 8).setBits 0xA5#8 1 4 0xF#8 = .ok 0xBF#8 := by decide

/-! ### C74: over-wide requests -/

/-- Requests wider than two blocks always panic; requests wider than one block panic when the
start is block-aligned and overflow checks are on. The full property (every `count > nbits`) is
false: `C74_truncates`. -/
theorem C74_wide_partial (c : Cfg) (h : IsBlk w) (v : List (BitVec w))
    (hv : Fits c.usz w (arrayBits v).length) (p n : Nat) (hn : n < 2 ^ c.usz)
    (hw2 : 2 * w < n ∨ (w < n ∧ c.debug = true ∧ p % w = 0)) :
    (vecBitVec c w).getBits v p n = .panic := by
  have hw := h.pos
  have hlu := h.lt_usz c
  have bv := vec_view c h v hv
  show dfltGetBits c (vecBitVec c w).bitLen (vecBitVec c w).getBlock v p n = _
  unfold dfltGetBits
  rcases ha : addN c 64 p n with l | _ | _
  · rw [Res.ok_bind, bv.len, Res.ok_bind]
    by_cases hl : l ≤ (arrayBits v).length
    · rw [assertR_true hl, Res.ok_bind, addrNew_eq c h]
      by_cases hu : p / w < 2 ^ c.usz
      · have hr := Nat.mod_lt p hw
        rw [if_pos hu, Res.ok_bind, subN_ok (by simp only; omega), Res.ok_bind,
          if_neg (by simp only; omega), subN_ok (by simp only; omega), Res.ok_bind]
        simp only
        rcases hb1 : (vecBitVec c w).getBlock v (p / w) with b1 | _ | _
        · rw [Res.ok_bind]
          rcases hi2 : addN c c.usz (p / w) 1 with i2 | _ | _
          · rw [Res.ok_bind]
            rcases hb2 : (vecBitVec c w).getBlock v i2 with b2 | _ | _
            · rw [Res.ok_bind]
              obtain ⟨y1, hy1, -⟩ := blkGetBits_eq c h b1 (start := p % w) (len := w - p % w) (by omega)
              rw [hy1, Res.ok_bind]
              by_cases he : w < n - (w - p % w)
              · rw [blkGetBits_panic c b2 (by omega) (by omega)]; rfl
              · obtain ⟨y2, hy2, -⟩ := blkGetBits_eq c h b2 (start := 0) (len := n - (w - p % w)) (by omega)
                rw [hy2, Res.ok_bind]
                have : p % w = 0 ∧ c.debug = true := by
                  rcases hw2 with h2 | ⟨_, h3, h4⟩
                  · omega
                  · exact ⟨h4, h3⟩
                rw [shlB, if_neg (by omega), overflow, if_pos this.2]; rfl
            · rfl
            · exact absurd hb2 (by
                show vecGet v i2 ≠ _
                unfold vecGet expectR; split <;> simp)
          · rfl
          · exact absurd hi2 (by unfold addN overflow; split <;> (try split) <;> simp)
        · rfl
        · exact absurd hb1 (by
            show vecGet v _ ≠ _
            unfold vecGet expectR; split <;> simp)
      · rw [if_neg hu]; rfl
    · rw [assertR_false hl]; rfl
  · rfl
  · exact absurd ha (by unfold addN overflow; split <;> (try split) <;> simp)

/-- FINDING: a 9-bit read from a `[u8]` at offset 1 is answered, in every build, with the low 8
bits only; at offset 0 the release build returns the two parts or-ed together; a 9-bit write at
offset 1 is accepted. -/
theorem C74_truncates (p : Ptr) :
    (∀ d a, (vecBitVec ⟨d, p, a⟩ 8).getBits [0xFF#8, 0xFF#8] 1 9 = .ok 0xFF#8) ∧
    (vecBitVec ⟨false, p, false⟩ 8).getBits [0x00#8, 0xFF#8] 0 9 = .ok 0x01#8 ∧
    (∀ d a, (vecBitVecMut ⟨d, p, a⟩ 8).setBits [0#8, 0xFF#8] 1 9 0xFF#8 = .ok [0xFE#8, 0xFD#8]) := by
  refine ⟨?_, ?_, ?_⟩
  · intro d a; cases d <;> cases a <;> cases p <;> decide
  · cases p <;> decide
  · intro d a; cases d <;> cases a <;> cases p <;> decide

/-! ### C75: block writes through the bit-level default -/

theorem C75_vec_bool_set_block_partial (c : Cfg) {v bits : List Bool} (hR : boolR c v bits) (i : Nat)
    (hi : i < 2 ^ c.usz) (hu : i * 8 < 2 ^ 64) (x : BitVec 8) :
    (i < blocksFor 8 bits.length → ∃ v', (boolVecBitVecMut c).setBlock v i x = .ok v' ∧
      v' = overwrite bits (i * 8) ((blockBits x).take (bits.length - i * 8))) ∧
    (blocksFor 8 bits.length ≤ i → (boolVecBitVecMut c).setBlock v i x = .panic) := by
  refine ⟨fun h => ?_, fun h => (boolVec_mut_law c).setBlock_panic hR i x h hi hu⟩
  obtain ⟨v', h1, h2⟩ := (boolVec_mut_law c).setBlock hR i x h
  exact ⟨v', h1, h2.1.symm⟩

/-- FINDING: `Vec<bool>::set_block(2^61, b)` on a 64-bit target silently overwrites block 0. -/
theorem C75_set_block_alias (d a : Bool) :
    (boolVecBitVecMut ⟨d, .p64, a⟩).setBlock (List.replicate 8 false) (2 ^ 61) 0xFF#8 =
      .ok (List.replicate 8 true) := by
  cases d <;> cases a <;> decide

/-! Each theorem of this file that has hypotheses is applied to concrete data in `Verif/Instances/BitVecTrait.lean`. -/

end Succinct
