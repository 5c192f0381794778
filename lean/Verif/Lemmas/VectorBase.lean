import Verif.Model.VectorBase
import Verif.Lemmas.Instances
/-! Representation relation of `VectorBase` and the effect of each operation on it. -/
namespace Succinct
open Spec

/-! ### arrays of blocks -/

theorem vbit_append (u v : List (BitVec w)) (hw : 0 < w) (i : Nat) :
    vbit (u ++ v) i = if i < u.length * w then vbit u i else vbit v (i - u.length * w) := by
  rw [← getD_arrayBits _ hw, ← getD_arrayBits _ hw, ← getD_arrayBits _ hw, arrayBits_append,
    List.getElem?_append, length_arrayBits]
  split <;> rfl

theorem vbit_take (v : List (BitVec w)) (hw : 0 < w) (n i : Nat) :
    vbit (v.take n) i = (decide (i < n * w) && vbit v i) := by
  unfold vbit
  rw [List.getElem?_take]
  have : i / w < n ↔ i < n * w := Nat.div_lt_iff_lt_mul hw
  by_cases h : i < n * w
  · rw [if_pos (this.2 h)]; simp [h]
  · rw [if_neg (fun hh => h (this.1 hh))]; simp [h]

theorem vbit_set (v : List (BitVec w)) (hw : 0 < w) (k : Nat) (b : BitVec w) (hk : k < v.length) (i : Nat) :
    vbit (v.set k b) i = if k * w ≤ i ∧ i < k * w + w then b.getLsbD (i - k * w) else vbit v i := by
  have h1 : k * w + w ≤ v.length * w := by
    have := Nat.mul_le_mul_right w (show k + 1 ≤ v.length from hk)
    rwa [Nat.succ_mul] at this
  rw [← getD_arrayBits _ hw, ← getD_arrayBits _ hw, arrayBits_set v hw k b hk,
    getD_overwrite (by simpa using h1), getD_blockBits, length_blockBits]

theorem vbit_replicate (n : Nat) (b : BitVec w) (hw : 0 < w) (i : Nat) :
    vbit (List.replicate n b) i = (decide (i < n * w) && b.getLsbD (i % w)) := by
  unfold vbit
  rw [List.getElem?_replicate]
  have : i / w < n ↔ i < n * w := Nat.div_lt_iff_lt_mul hw
  by_cases h : i < n * w
  · rw [if_pos (this.2 h)]; simp [h]
  · rw [if_neg (fun hh => h (this.1 hh))]; simp [h]

theorem vbit_replicate_zero (n : Nat) (i : Nat) : vbit (List.replicate n (0 : BitVec w)) i = false := by
  unfold vbit
  rw [List.getElem?_replicate]
  split <;> simp

theorem vec_ext {u v : List (BitVec w)} (hl : u.length = v.length) (h : ∀ i, vbit u i = vbit v i) :
    u = v := by
  apply List.ext_getElem hl
  intro k h1 h2
  apply BitVec.eq_of_getLsbD_eq
  intro j hj
  have := h (k * w + j)
  unfold vbit at this
  rwa [mul_add_div' hj, mul_add_mod' hj, List.getElem?_eq_getElem h1, List.getElem?_eq_getElem h2] at this

theorem arrayBits_take (v : List (BitVec w)) (hw : 0 < w) (n : Nat) :
    arrayBits (v.take n) = (arrayBits v).take (n * w) := by
  apply List.ext_getElem?
  intro i
  rw [getElem?_arrayBits _ hw, List.getElem?_take, getElem?_arrayBits _ hw, vbit_take _ hw, List.length_take]
  by_cases h : i < n * w
  · rw [if_pos h]
    by_cases h2 : i < v.length * w
    · rw [if_pos h2, if_pos]
      · simp [h]
      · rcases Nat.le_total n v.length with hn | hn
        · rw [Nat.min_eq_left hn]; exact h
        · rw [Nat.min_eq_right hn]; exact h2
    · rw [if_neg h2, if_neg]
      have := Nat.mul_le_mul_right w (Nat.min_le_right n v.length)
      omega
  · rw [if_neg h, if_neg]
    have := Nat.mul_le_mul_right w (Nat.min_le_left n v.length)
    omega

theorem arrayBits_inj {u v : List (BitVec w)} (hw : 0 < w) (h : arrayBits u = arrayBits v) : u = v := by
  have hl : u.length = v.length := by
    have := congrArg List.length h
    rw [length_arrayBits, length_arrayBits] at this
    exact Nat.eq_of_mul_eq_mul_right hw this
  exact vec_ext hl fun i => by rw [← getD_arrayBits _ hw, ← getD_arrayBits _ hw, h]

/-! ### the representation relation -/

/-- `s` holds exactly the bits `bits`, as `s.len` elements of `eb` bits, in the least number of
blocks and with zero padding. -/
structure VR (c : Cfg) (w eb : Nat) (s : VB w) (bits : List Bool) : Prop where
  len : s.len * eb = bits.length
  blocks : s.vec.length = blocksFor w bits.length
  bit : ∀ i, vbit s.vec i = bits[i]?.getD false
  fits : Fits c.usz w bits.length

theorem length_padTo {w : Nat} (hw : 0 < w) (bits : List Bool) : (padTo w bits).length = blocksFor w bits.length * w := by
  have := le_blocksFor_mul bits.length hw
  simp [padTo]; omega

theorem getD_padTo (w : Nat) (bits : List Bool) (i : Nat) : (padTo w bits)[i]?.getD false = bits[i]?.getD false := by
  unfold padTo
  rw [List.getElem?_append]
  split
  · rfl
  · rw [List.getElem?_replicate, List.getElem?_eq_none (l := bits) (by omega)]
    split <;> rfl

theorem VR.array (hw : 0 < w) (h : VR c w eb s bits) : arrayBits s.vec = padTo w bits := by
  apply bits_ext
  · rw [length_arrayBits, length_padTo hw, h.blocks]
  · intro i _
    rw [getD_arrayBits _ hw, h.bit, getD_padTo]

theorem VR.vecR (hw : 0 < w) (h : VR c w eb s bits) : vecR c w s.vec (padTo w bits) :=
  ⟨(h.array hw).symm, by rw [length_padTo hw]; exact h.fits.pad hw⟩

theorem VR.mulN (hw : 0 < w) (h : VR c w eb s bits) : Succinct.mulN c 64 s.len eb = .ok bits.length := by
  have := h.fits.lt hw
  have := h.len
  rw [mulN_ok (by omega), h.len]

theorem VR.eq_of_bits (heb : 0 < eb) (h : VR c w eb s bits) (h' : VR c' w eb s' bits) : s = s' := by
  cases s; cases s'
  have e1 := h.len
  have e2 := h'.len
  simp only at e1 e2
  have : _ = _ := Nat.eq_of_mul_eq_mul_right heb (e1.trans e2.symm)
  subst this
  congr 1
  exact vec_ext (h.blocks.trans h'.blocks.symm) fun i => (h.bit i).trans (h'.bit i).symm

theorem VR.bits_of_eq (h : VR c w eb s bits) (h' : VR c' w eb s bits') : bits = bits' := by
  apply bits_ext
  · rw [← h.len, h'.len]
  · intro i _
    rw [← h.bit, h'.bit]

/-- the empty vector -/
theorem VR.nil (c : Cfg) (h : IsBlk w) (eb : Nat) : VR c w eb ⟨0, []⟩ [] := by
  have hw := h.pos
  have h0 : blocksFor w 0 = 0 := by
    have := blocksFor_mul w 0 hw
    rwa [Nat.zero_mul] at this
  refine ⟨by simp, by simp [h0], fun i => by simp [vbit], ?_⟩
  exact (fits_blk c h).mono (by simp)

theorem VR.nil_iff (heb : 0 < eb) (h : VR c w eb s bits) : s.len = 0 ↔ bits = [] := by
  have := h.len
  constructor
  · intro h0; rw [h0, Nat.zero_mul] at this; exact List.length_eq_zero_iff.1 this.symm
  · rintro rfl
    rw [List.length_nil] at this
    rcases Nat.mul_eq_zero.1 this with h | h <;> omega

/-! ### `clear_extra_bits`, `set_len_from_blocks` -/

theorem clearExtraBits_ok (c : Cfg) (h : IsBlk w) {s : VB w} {eb n : Nat} (hn : s.len * eb = n)
    (hb : s.vec.length = blocksFor w n) (hf : Fits c.usz w n) :
    ∃ s', VB.clearExtraBits c s eb = .ok s' ∧ s'.len = s.len ∧ s'.vec.length = s.vec.length ∧
      (∀ i, vbit s'.vec i = (decide (i < n) && vbit s.vec i)) := by
  have hw := h.pos
  have hlt := hf.lt hw
  unfold VB.clearExtraBits
  rw [mulN_ok (by omega), Res.ok_bind, hn]
  rcases hv : s.vec.getLast? with _ | last
  · have : s.vec = [] := by simpa using hv
    refine ⟨s, rfl, rfl, rfl, fun i => ?_⟩
    simp [this, vbit]
  · have hne : s.vec ≠ [] := by intro h0; simp [h0] at hv
    have hpos : 0 < s.vec.length := List.length_pos_iff.2 hne
    simp only
    rw [lastBlockBits_eq c h, Res.ok_bind]
    have hk : (if n % w = 0 then w else n % w) = n - (s.vec.length - 1) * w ∧
        (s.vec.length - 1) * w < n ∧ n ≤ (s.vec.length - 1) * w + w := by
      have h1 := (lt_blocksFor (w := w) (n := n) (i := s.vec.length - 1) hw).1 (by omega)
      have h2 := le_blocksFor_mul n hw
      rw [← hb] at h2
      have h3 : s.vec.length * w = (s.vec.length - 1) * w + w := by
        rw [← Nat.succ_mul]; congr 1; omega
      rw [h3] at h2
      refine ⟨?_, h1, h2⟩
      generalize hr : n - (s.vec.length - 1) * w = r
      have hn' : n = (s.vec.length - 1) * w + r := by omega
      by_cases hrw : r = w
      · have : n % w = 0 := by rw [hn', hrw, ← Nat.succ_mul, Nat.mul_mod_left]
        rw [if_pos this, hrw]
      · have : n % w = r := by rw [hn', mul_add_mod' (by omega)]
        rw [this, if_neg (by omega)]
    obtain ⟨hk, hlo, hhi⟩ := hk
    rw [hk, lowMask_ok c h (by omega), Res.ok_bind]
    refine ⟨_, rfl, rfl, by simp, fun i => ?_⟩
    simp only
    rw [vbit_set _ hw _ _ (by omega)]
    have hlast : s.vec[s.vec.length - 1]? = some last := by
      rw [← hv, List.getLast?_eq_getElem?]
    split
    · next hi =>
      rw [BitVec.getLsbD_and, getLsbD_maskB]
      have : vbit s.vec i = last.getLsbD (i - (s.vec.length - 1) * w) := by
        unfold vbit
        rw [show i = (s.vec.length - 1) * w + (i - (s.vec.length - 1) * w) by omega,
          mul_add_div' (by omega), mul_add_mod' (by omega), hlast]
        simp
      rw [this]
      by_cases hin : i < n
      · simp [hin, show i - (s.vec.length - 1) * w < w by omega,
          show i - (s.vec.length - 1) * w < n - (s.vec.length - 1) * w by omega]
      · simp [hin, show ¬ (i - (s.vec.length - 1) * w < n - (s.vec.length - 1) * w) by omega]
    · next hi =>
      by_cases hin : i < n
      · simp [hin]
      · rw [vbit_of_ge hw]
        · simp
        · have h2 := le_blocksFor_mul n hw
          have h3 : s.vec.length * w = (s.vec.length - 1) * w + w := by
            rw [← Nat.succ_mul]; congr 1; omega
          omega

theorem clearExtraBits_VR (c : Cfg) (h : IsBlk w) {s : VB w} {eb n : Nat} (hn : s.len * eb = n)
    (hb : s.vec.length = blocksFor w n) (hf : Fits c.usz w n) :
    ∃ s', VB.clearExtraBits c s eb = .ok s' ∧ s'.len = s.len ∧ VR c w eb s' ((arrayBits s.vec).take n) := by
  have hw := h.pos
  obtain ⟨s', hs', hl, hbl, hbit⟩ := clearExtraBits_ok c h hn hb hf
  have hlen : ((arrayBits s.vec).take n).length = n := by
    rw [List.length_take, length_arrayBits, hb]
    have := le_blocksFor_mul n hw
    omega
  refine ⟨s', hs', hl, by rw [hlen, hl, hn], by rw [hlen, hbl, hb], fun i => ?_, by rw [hlen]; exact hf⟩
  rw [hbit, List.getElem?_take]
  split
  · next hi => rw [getD_arrayBits _ hw]; simp [hi]
  · next hi => simp [hi]

theorem floor_blocks (h : IsBlk w) {eb m : Nat} (he1 : 1 ≤ eb) (hew : eb ≤ w) :
    blocksFor w (m * w / eb * eb) = m ∧ m * w / eb * eb ≤ m * w := by
  have hw := h.pos
  have h1 := Nat.div_mul_le_self (m * w) eb
  refine ⟨?_, h1⟩
  apply Nat.le_antisymm
  · rw [blocksFor_le hw]; exact h1
  · rcases m with _ | m
    · omega
    · show m < _
      rw [lt_blocksFor hw]
      have h2 := Nat.div_add_mod ((m + 1) * w) eb
      have h3 := Nat.mod_lt ((m + 1) * w) (show 0 < eb by omega)
      rw [Nat.mul_comm eb] at h2
      rw [Nat.succ_mul] at *
      omega

theorem setLenFromBlocks_VR (c : Cfg) (h : IsBlk w) {s : VB w} {eb : Nat} (he1 : 1 ≤ eb) (hew : eb ≤ w)
    (hf : Fits c.usz w (s.vec.length * w)) :
    ∃ s', VB.setLenFromBlocks c s eb = .ok s' ∧ VR c w eb s' (floorTo eb (arrayBits s.vec)) := by
  have hw := h.pos
  have hlt := hf.lt hw
  obtain ⟨hb, hle⟩ := floor_blocks h (m := s.vec.length) he1 hew
  unfold VB.setLenFromBlocks
  rw [mulNbits_ok c h (by omega), Res.ok_bind, divN_ok (by omega), Res.ok_bind]
  obtain ⟨s', hs', -, hR⟩ := clearExtraBits_VR c h (s := { s with len := s.vec.length * w / eb }) (eb := eb)
    (n := s.vec.length * w / eb * eb) rfl hb.symm (hf.mono hle)
  refine ⟨s', hs', ?_⟩
  unfold floorTo
  rw [length_arrayBits]
  exact hR

/-! ### reading and writing -/

theorem VR.getBlock_eq (h : IsBlk w) (hR : VR c w eb s bits) (i : Nat) :
    VB.getBlock s i = if i < blocksFor w bits.length
      then .ok (BitVec.ofNat w (bitsVal ((bits.drop (i * w)).take w))) else .panic := by
  have hw := h.pos
  unfold VB.getBlock vecGet
  split
  · next hi =>
    rw [← hR.blocks] at hi
    rw [List.getElem?_eq_getElem hi, expectR_some]
    congr 1
    apply eq_ofNat_span (Nat.le_refl _)
    intro j
    rw [← hR.bit]
    by_cases hj : j < w
    · simp [vbit, mul_add_div' hj, mul_add_mod' hj, hi, hj]
    · simp [hj, BitVec.getLsbD_of_ge s.vec[i] j (by omega)]
  · next hi =>
    rw [List.getElem?_eq_none (by rw [hR.blocks]; omega)]; rfl

theorem VR.getBits_ok (h : IsBlk w) (hR : VR c w eb s bits) {p n : Nat} (h1 : 1 ≤ n) (hn : n ≤ w)
    (hp : p + n ≤ bits.length) :
    VB.getBits c s eb p n = .ok (BitVec.ofNat w (bitsVal ((bits.drop p).take n))) := by
  have hw := h.pos
  have hlt := hR.fits.lt hw
  have hpl := length_padTo hw bits
  have hle := le_blocksFor_mul bits.length hw
  unfold VB.getBits
  rw [addN_ok (by omega), Res.ok_bind, hR.mulN hw, Res.ok_bind, assertR_true hp, Res.ok_bind,
    (vec_law c h).getBits (hR.vecR hw) p n h1 hn (by omega)]
  congr 1
  apply eq_ofNat_span hn
  intro j
  rw [BitVec.getLsbD_ofNat, testBit_span, getD_padTo]
  by_cases hj : j < n
  · simp [hj, show j < w by omega]
  · simp [hj]

theorem VR.getBits_panic (h : IsBlk w) (hR : VR c w eb s bits) {p n : Nat} (hn : n ≤ w) (hp : p < 2 ^ 64)
    (hl : bits.length < p + n) : VB.getBits c s eb p n = .panic := by
  have hw := h.pos
  have hlt := hR.fits.lt hw
  unfold VB.getBits
  by_cases ho : p + n < 2 ^ 64
  · rw [addN_ok ho, Res.ok_bind, hR.mulN hw, Res.ok_bind, assertR_false (by omega)]; rfl
  · rw [addN, if_neg ho, overflow]
    by_cases hd : c.debug
    · rw [if_pos hd]; rfl
    · rw [if_neg hd, Res.ok_bind, hR.mulN hw, Res.ok_bind]
      by_cases hl : (p + n) % 2 ^ 64 ≤ bits.length
      · rw [assertR_true hl, Res.ok_bind]
        have hv := (hR.vecR hw)
        have bv := (vec_block c h).view (fun hR => hR.2) (fun hR => vec_bitLen c h hR) hv
        exact bv.getBits_panic h hp hn (by have := hv.2.lt hw; omega)
      · rw [assertR_false hl]; rfl

theorem vbit_of_overwrite (hw : 0 < w) {v : List (BitVec w)} {bits : List Bool} {p n : Nat} {x : Nat}
    (hv : vecR c w v (overwrite (padTo w bits) p (natBits n x))) (hp : p + n ≤ bits.length) (i : Nat) :
    vbit v i = (overwrite bits p (natBits n x))[i]?.getD false := by
  have hpl := length_padTo hw bits
  have hle := le_blocksFor_mul bits.length hw
  rw [← getD_arrayBits _ hw, ← hv.1, getD_overwrite (by simp; omega), getD_overwrite (by simp; omega), getD_padTo]

theorem VR.setBits_ok (h : IsBlk w) (hR : VR c w eb s bits) {p n : Nat} (h1 : 1 ≤ n) (hn : n ≤ w)
    (hp : p + n ≤ bits.length) (x : BitVec w) :
    ∃ s', VB.setBits c s eb p n x = .ok s' ∧ s'.len = s.len ∧
      VR c w eb s' (overwrite bits p (natBits n x.toNat)) := by
  have hw := h.pos
  have hlt := hR.fits.lt hw
  have hpl := length_padTo hw bits
  have hle := le_blocksFor_mul bits.length hw
  unfold VB.setBits
  obtain ⟨v, hv, hvR⟩ := (vec_mut_law c h).setBits (hR.vecR hw) p n x h1 hn (by omega)
  rw [addN_ok (by omega), Res.ok_bind, hR.mulN hw, Res.ok_bind, assertR_true hp, Res.ok_bind, hv, Res.ok_bind]
  have hlen : (overwrite bits p (natBits n x.toNat)).length = bits.length := length_overwrite (by simpa using hp)
  refine ⟨_, rfl, rfl, ?_, ?_, vbit_of_overwrite hw hvR hp, ?_⟩
  · rw [hlen]; exact hR.len
  · have := hvR.length
    rw [length_overwrite (by simp; omega), hpl] at this
    rw [hlen]
    exact (Nat.eq_of_mul_eq_mul_right hw this).symm
  · rw [hlen]; exact hR.fits

theorem VR.setBits_panic (h : IsBlk w) (hR : VR c w eb s bits) {p n : Nat} (hn : n ≤ w) (hp : p < 2 ^ 64)
    (hl : bits.length < p + n) (x : BitVec w) : VB.setBits c s eb p n x = .panic := by
  have hw := h.pos
  have hlt := hR.fits.lt hw
  unfold VB.setBits
  by_cases ho : p + n < 2 ^ 64
  · rw [addN_ok ho, Res.ok_bind, hR.mulN hw, Res.ok_bind, assertR_false (by omega)]; rfl
  · rw [addN, if_neg ho, overflow]
    by_cases hd : c.debug
    · rw [if_pos hd]; rfl
    · rw [if_neg hd, Res.ok_bind, hR.mulN hw, Res.ok_bind]
      by_cases hl : (p + n) % 2 ^ 64 ≤ bits.length
      · rw [assertR_true hl, Res.ok_bind]
        have hv := (hR.vecR hw)
        have bv := (vec_block c h).view (fun hR => hR.2) (fun hR => vec_bitLen c h hR) hv
        have hfl := hv.2.lt hw
        have : (vecBitVecMut c w).setBits s.vec p n x = .panic :=
          bv.setBits_panic h x hp hn (by omega)
        rw [this]; rfl
      · rw [assertR_false hl]; rfl

/-- `get_bit` / `set_bit` (element width 1) -/
theorem VR.getBit_eq (h : IsBlk w) (hR : VR c w 1 s bits) (i : Nat) : VB.getBit c s i = expectR bits[i]? := by
  have hw := h.pos
  have hl := hR.len
  rw [Nat.mul_one] at hl
  have hlt := hR.fits.lt hw
  have hpl := length_padTo hw bits
  have hle := le_blocksFor_mul bits.length hw
  unfold VB.getBit
  rw [hl, expectR_eq_ite]
  split
  · next hi =>
    rw [assertR_true hi, Res.ok_bind, (vec_law c h).getBit (hR.vecR hw) i (by omega), expectR_eq_ite,
      if_pos (by omega), getD_padTo]
  · next hi => rw [assertR_false hi]; rfl

theorem VR.setBit_ok (h : IsBlk w) (hR : VR c w 1 s bits) {i : Nat} (hi : i < bits.length) (x : Bool) :
    ∃ s', VB.setBit c s i x = .ok s' ∧ s'.len = s.len ∧ VR c w 1 s' (bits.set i x) := by
  have hw := h.pos
  have hl := hR.len
  rw [Nat.mul_one] at hl
  have hpl := length_padTo hw bits
  have hle := le_blocksFor_mul bits.length hw
  obtain ⟨v, hv, hvR⟩ := (vec_mut_law c h).setBit (hR.vecR hw) i x (by omega)
  unfold VB.setBit
  rw [assertR_true (by omega), Res.ok_bind, hv, Res.ok_bind]
  refine ⟨_, rfl, rfl, ?_, ?_, fun k => ?_, ?_⟩
  · rw [List.length_set]; exact hR.len
  · have := hvR.length
    rw [List.length_set, hpl] at this
    rw [List.length_set]
    exact (Nat.eq_of_mul_eq_mul_right hw this).symm
  · rw [← getD_arrayBits _ hw, ← hvR.1, getD_set _ _ _ _ (by omega), getD_set _ _ _ _ hi, getD_padTo]
  · rw [List.length_set]; exact hR.fits

theorem VR.setBit_panic (hR : VR c w 1 s bits) {i : Nat} (hi : bits.length ≤ i) (x : Bool) :
    VB.setBit c s i x = .panic := by
  have hl := hR.len
  rw [Nat.mul_one] at hl
  unfold VB.setBit
  rw [hl, assertR_false (by omega)]; rfl

/-- `set_block` for any element width -/
theorem VR.setBlock_ok (h : IsBlk w) (hR : VR c w eb s bits) {i : Nat} (hi : i < blocksFor w bits.length)
    (x : BitVec w) :
    ∃ s', VB.setBlock c s eb i x = .ok s' ∧ s'.len = s.len ∧
      VR c w eb s' (overwrite bits (i * w) ((blockBits x).take (bits.length - i * w))) := by
  have hw := h.pos
  have hlt := hR.fits.lt hw
  have hiv : i < s.vec.length := by rw [hR.blocks]; exact hi
  have hin := (lt_blocksFor hw).1 hi
  have hu := hR.fits.2
  have hle : i * w + ((blockBits x).take (bits.length - i * w)).length ≤ bits.length := by simp; omega
  have hlen := length_overwrite hle
  have hbitv : ∀ k, (decide (k < bits.length) && vbit (s.vec.set i x) k) =
      (overwrite bits (i * w) ((blockBits x).take (bits.length - i * w)))[k]?.getD false := by
    intro k
    rw [vbit_set _ hw _ _ hiv, getD_overwrite hle, hR.bit]
    simp only [List.length_take, length_blockBits, List.getElem?_take]
    by_cases hk : k < bits.length
    · by_cases hk2 : i * w ≤ k ∧ k < i * w + w
      · rw [if_pos hk2, if_pos (by omega), if_pos (by omega), getD_blockBits]; simp [hk]
      · rw [if_neg hk2, if_neg (by omega)]; simp [hk]
    · rw [if_neg (by omega : ¬ (i * w ≤ k ∧ k < i * w + min (bits.length - i * w) w)),
        List.getElem?_eq_none (by omega)]
      simp [hk]
  unfold VB.setBlock
  rw [vecSet, if_pos hiv, Res.ok_bind, addN_ok (by omega), Res.ok_bind]
  split
  · next hlast =>
    obtain ⟨s', hs', hl, hR'⟩ := clearExtraBits_VR c h (s := ⟨s.len, s.vec.set i x⟩) (eb := eb) hR.len
      (by rw [List.length_set]; exact hR.blocks) hR.fits
    refine ⟨s', hs', hl, ?_⟩
    have : (arrayBits (s.vec.set i x)).take bits.length =
        overwrite bits (i * w) ((blockBits x).take (bits.length - i * w)) := by
      apply bits_ext
      · rw [hlen, List.length_take, length_arrayBits, List.length_set, hR.blocks]
        have := le_blocksFor_mul bits.length hw
        omega
      · intro k hk
        rw [← hbitv, List.getElem?_take]
        rw [List.length_take] at hk
        rw [if_pos (by omega), getD_arrayBits _ hw]
        simp [show k < bits.length by omega]
    rw [← this]; exact hR'
  · next hlast =>
    rw [List.length_set] at hlast
    refine ⟨_, rfl, rfl, ?_, ?_, fun k => ?_, ?_⟩
    · rw [hlen]; exact hR.len
    · rw [hlen, List.length_set]; exact hR.blocks
    · rw [← hbitv]
      by_cases hk : k < bits.length
      · simp [hk]
      · simp only [hk, decide_false, Bool.false_and]
        rw [vbit_set _ hw _ _ hiv, if_neg, hR.bit, List.getElem?_eq_none (by omega)]
        · rfl
        · have h2 : (i + 1) * w < bits.length := (lt_blocksFor hw).1 (by rw [← hR.blocks]; omega)
          rw [Nat.succ_mul] at h2
          omega
    · rw [hlen]; exact hR.fits

theorem VR.setBlock_panic (hR : VR c w eb s bits) {i : Nat} (hi : blocksFor w bits.length ≤ i)
    (x : BitVec w) : VB.setBlock c s eb i x = .panic := by
  unfold VB.setBlock
  rw [vecSet, if_neg (by rw [hR.blocks]; omega)]; rfl

/-! ### growing and shrinking -/

/-- a fresh zero block -/
theorem vbit_grow (v : List (BitVec w)) (hw : 0 < w) (b : Bool) (i : Nat) :
    vbit (if b then v ++ [0] else v) i = vbit v i := by
  cases b
  · rfl
  · rw [if_pos rfl, vbit_append _ _ hw]
    split
    · rfl
    · next hi =>
      rw [vbit_of_ge (v := v) hw (by omega)]
      exact vbit_replicate_zero 1 _

theorem grow_blocks (hw : 0 < w) {n k L : Nat} (hL : L = blocksFor w n) (hk1 : 1 ≤ k) (hkw : k ≤ w) :
    (if n + k > L * w then L + 1 else L) = blocksFor w (n + k) := by
  have h1 := le_blocksFor_mul n hw
  rw [← hL] at h1
  split
  · next h =>
    apply Nat.le_antisymm
    · show L < _
      rw [lt_blocksFor hw]; omega
    · rw [blocksFor_le hw, Nat.succ_mul]; omega
  · next h =>
    apply Nat.le_antisymm
    · rw [hL]; exact blocksFor_mono (by omega)
    · rw [blocksFor_le hw]; omega

theorem length_ite_append (v : List α) (x : α) (p : Prop) [Decidable p] :
    (if p then v ++ [x] else v).length = if p then v.length + 1 else v.length := by
  split <;> simp

/-- zero elements appended to the length, before the value is written -/
theorem VR.grow (h : IsBlk w) (he1 : 1 ≤ eb) (hew : eb ≤ w) (hR : VR c w eb s bits)
    (hf : Fits c.usz w (bits.length + eb)) :
    VR c w eb ⟨s.len + 1, if bits.length + eb > s.vec.length * w then s.vec ++ [0] else s.vec⟩
      (bits ++ List.replicate eb false) := by
  have hw := h.pos
  have hl := hR.len
  refine ⟨?_, ?_, fun i => ?_, ?_⟩
  · simp only [List.length_append, List.length_replicate]
    rw [Nat.succ_mul, hl]
  · simp only [List.length_append, List.length_replicate]
    rw [length_ite_append, hR.blocks, grow_blocks hw rfl he1 hew]
  · simp only
    have := vbit_grow s.vec hw (decide (bits.length + eb > s.vec.length * w)) i
    simp only [decide_eq_true_eq] at this
    rw [this, hR.bit, List.getElem?_append]
    split
    · rfl
    · rw [List.getElem?_eq_none (by omega), List.getElem?_replicate]
      split <;> rfl
  · simpa using hf

theorem overwrite_append_right (l m new : List α) (h : new.length = m.length) :
    overwrite (l ++ m) l.length new = l ++ new := by
  unfold overwrite
  rw [List.take_left, List.drop_of_length_le (by simp [h])]
  simp

theorem VR.pushBits_ok (h : IsBlk w) (he1 : 1 ≤ eb) (hew : eb ≤ w) (hR : VR c w eb s bits)
    (hf : Fits c.usz w (bits.length + eb)) (x : BitVec w) :
    ∃ s', VB.pushBits c s eb x = .ok s' ∧ VR c w eb s' (bits ++ natBits eb x.toNat) := by
  have hw := h.pos
  have hlt := hf.lt hw
  have hl := hR.len
  have hsl : s.len + 1 < 2 ^ 64 := by
    have := Nat.le_mul_of_pos_right s.len (show 0 < eb by omega)
    omega
  have hg := hR.grow h he1 hew hf
  unfold VB.pushBits
  have hmul : eb * (s.len + 1) = bits.length + eb := by
    rw [Nat.mul_comm, Nat.succ_mul, hl]
  rw [addN_ok hsl, Res.ok_bind, mulN_ok (by rw [hmul]; omega), Res.ok_bind, hmul,
    mulNbits_ok c h (by have := hR.fits.1; rw [hR.blocks]; omega), Res.ok_bind]
  simp only [Res.ok_bind]
  rw [hR.mulN hw, Res.ok_bind]
  obtain ⟨s', hs', -, hR'⟩ := hg.setBits_ok h (p := bits.length) (n := eb) he1 hew (by simp) x
  refine ⟨s', hs', ?_⟩
  rwa [overwrite_append_right _ _ _ (by simp)] at hR'

theorem VR.pushBit_ok (h : IsBlk w) (hR : VR c w 1 s bits) (hf : Fits c.usz w (bits.length + 1)) (x : Bool) :
    ∃ s', VB.pushBit c s x = .ok s' ∧ VR c w 1 s' (bits ++ [x]) := by
  have hw := h.pos
  have hlt := hf.lt hw
  have hl := hR.len
  rw [Nat.mul_one] at hl
  have hg := hR.grow h (Nat.le_refl 1) h.pos hf
  unfold VB.pushBit
  rw [addN_ok (by omega), Res.ok_bind, mulNbits_ok c h (by have := hR.fits.1; rw [hR.blocks]; omega), Res.ok_bind]
  simp only [Res.ok_bind]
  rw [← hl] at hg
  obtain ⟨s', hs', -, hR'⟩ := hg.setBit_ok h (i := bits.length) (by simp) x
  rw [← hl] at hR'
  refine ⟨s', by rw [← hs', hl], ?_⟩
  have : (bits ++ List.replicate 1 false).set s.len x = bits ++ [x] := by
    rw [hl, List.set_append_right _ _ (Nat.le_refl _)]; simp
  rw [← this]; exact hR'

/-- dropping the last element after it has been zeroed -/
theorem VR.shrink (h : IsBlk w) (hew : eb ≤ w) {s : VB w} {front back : List Bool}
    (hR : VR c w eb s (front ++ back)) (hbk : back.length = eb) (h0 : ∀ b ∈ back, b = false) :
    VR c w eb ⟨s.len - 1, if s.vec.length > blocksFor w front.length then s.vec.dropLast else s.vec⟩ front := by
  have hw := h.pos
  have hl := hR.len
  rw [List.length_append, hbk] at hl
  have hbl := hR.blocks
  rw [List.length_append, hbk] at hbl
  have hfb : ∀ i, vbit s.vec i = front[i]?.getD false := by
    intro i
    rw [hR.bit, List.getElem?_append]
    split
    · rfl
    · next hi =>
      rw [List.getElem?_eq_none (l := front) (by omega)]
      rcases hb : back[i - front.length]? with _ | b
      · rfl
      · rw [h0 b (List.mem_of_getElem? hb)]; rfl
  have h1 := blocksFor_mono (w := w) (show front.length ≤ front.length + eb by omega)
  have h2 : blocksFor w (front.length + eb) ≤ blocksFor w front.length + 1 := by
    rw [blocksFor_le hw, Nat.succ_mul]
    have := le_blocksFor_mul front.length hw
    omega
  refine ⟨?_, ?_, fun i => ?_, hR.fits.mono (by simp)⟩
  · simp only
    rw [Nat.sub_mul, hl, Nat.one_mul]; omega
  · simp only
    split
    · rw [List.length_dropLast]; omega
    · omega
  · simp only
    split
    · next hgt =>
      rw [List.dropLast_eq_take, vbit_take _ hw, hfb]
      by_cases hi : i < (s.vec.length - 1) * w
      · simp [hi]
      · rw [List.getElem?_eq_none]
        · simp
        · have := le_blocksFor_mul front.length hw
          rw [show s.vec.length - 1 = blocksFor w front.length by omega] at hi
          omega
    · exact hfb i

theorem VR.ceilDivNbits (h : IsBlk w) {m n : Nat} (hf : Fits c.usz w n) (hm : m ≤ n) :
    Succinct.ceilDivNbits c w m = .ok (blocksFor w m) := by
  have hw := h.pos
  have h1 := (hf.mono hm).lt hw
  have h2 := (hf.mono hm).2
  rw [ceilDivNbits_eq c h (by omega)]
  unfold blocksFor at h2
  rw [Nat.mod_eq_of_lt h2]; rfl

theorem VR.popBits_ok (h : IsBlk w) (he1 : 1 ≤ eb) (hew : eb ≤ w) (hR : VR c w eb s bits) (hne : bits ≠ []) :
    ∃ s', VB.popBits c s eb =
        .ok (some (BitVec.ofNat w (bitsVal (bits.drop (bits.length - eb)))), s') ∧
      VR c w eb s' (bits.take (bits.length - eb)) := by
  have hw := h.pos
  have hl := hR.len
  have hlt := hR.fits.lt hw
  have hsl : s.len ≠ 0 := fun h0 => hne ((hR.nil_iff (by omega)).1 h0)
  have hge : eb ≤ bits.length := by
    rw [← hl]; exact Nat.le_mul_of_pos_left eb (by omega)
  have hmul : eb * (s.len - 1) = bits.length - eb := by
    rw [Nat.mul_comm, Nat.sub_mul, hl, Nat.one_mul]
  unfold VB.popBits
  rw [if_neg hsl, subN_ok (by omega), Res.ok_bind, mulN_ok (by omega), Res.ok_bind, hmul,
    VR.ceilDivNbits h hR.fits (by omega), Res.ok_bind, hR.getBits_ok h he1 hew (by omega), Res.ok_bind]
  obtain ⟨s1, hs1, hl1, hR1⟩ := hR.setBits_ok h (p := bits.length - eb) he1 hew (by omega) 0
  have hsplit : overwrite bits (bits.length - eb) (natBits eb (0 : BitVec w).toNat) =
      bits.take (bits.length - eb) ++ natBits eb (0 : BitVec w).toNat := by
    unfold overwrite
    rw [List.drop_of_length_le (by simp; omega), List.append_nil]
  rw [hsplit] at hR1
  have hsh := hR1.shrink h hew (by simp) (by
    intro b hb
    simp [natBits] at hb
    exact hb.2)
  rw [hs1, Res.ok_bind, subN_ok (by omega), Res.ok_bind]
  have hfl : (bits.take (bits.length - eb)).length = bits.length - eb := by simp
  rw [hfl] at hsh
  refine ⟨_, ?_, hsh⟩
  rw [List.take_of_length_le (l := bits.drop (bits.length - eb)) (by simp; omega)]

theorem VR.popBits_nil (heb : 0 < eb) (hR : VR c w eb s []) : VB.popBits c s eb = .ok (none, s) := by
  unfold VB.popBits
  rw [if_pos ((hR.nil_iff heb).2 rfl)]

theorem VR.popBit_eq (h : IsBlk w) (hR : VR c w 1 s bits) :
    ∃ s', VB.popBit c s = .ok (bits.getLast?, s') ∧ VR c w 1 s' bits.dropLast := by
  have hw := h.pos
  have hl := hR.len
  rw [Nat.mul_one] at hl
  unfold VB.popBit
  by_cases h0 : s.len = 0
  · rw [if_pos h0]
    have : bits = [] := (hR.nil_iff (by omega)).1 h0
    subst this
    exact ⟨s, rfl, hR⟩
  · rw [if_neg h0, subN_ok (by omega), Res.ok_bind, hR.getBit_eq h, hl, expectR_eq_ite, if_pos (by omega), Res.ok_bind]
    obtain ⟨s1, hs1, hl1, hR1⟩ := hR.setBit_ok h (i := bits.length - 1) (by omega) false
    rw [hs1, Res.ok_bind, VR.ceilDivNbits h hR.fits (by omega), Res.ok_bind]
    have hsplit : bits.set (bits.length - 1) false = bits.dropLast ++ [false] := by
      apply bits_ext
      · simp; omega
      intro i hi
      rw [List.length_set] at hi
      rw [getD_set _ _ _ _ (by omega), List.getElem?_append, List.length_dropLast]
      by_cases hi2 : i = bits.length - 1
      · subst hi2; simp
      · rw [if_neg hi2, if_pos (by omega), List.getElem?_dropLast, if_pos (by omega)]
    rw [hsplit] at hR1
    have hsh := hR1.shrink h h.pos (by simp) (by simp)
    rw [List.length_dropLast, hl1, hl] at hsh
    refine ⟨_, ?_, hsh⟩
    rw [List.getLast?_eq_getElem?]
    have : bits[bits.length - 1]? = some (bits[bits.length - 1]?.getD false) := by
      rw [List.getElem?_eq_getElem (by omega)]; rfl
    rw [← this]

theorem VR.truncate_eq (h : IsBlk w) (heb : 0 < eb) (hR : VR c w eb s bits) (m : Nat) :
    ∃ s', VB.truncate c s eb m = .ok s' ∧ VR c w eb s' (bits.take (m * eb)) := by
  have hw := h.pos
  have hl := hR.len
  have hlt := hR.fits.lt hw
  unfold VB.truncate
  split
  · next hm =>
    have hlt2 : m * eb < bits.length := by rw [← hl]; exact Nat.mul_lt_mul_of_pos_right hm heb
    rw [mulN_ok (by omega), Res.ok_bind, VR.ceilDivNbits h hR.fits (by omega), Res.ok_bind]
    obtain ⟨s', hs', -, hR'⟩ := clearExtraBits_VR c h (s := ⟨m, s.vec.take (blocksFor w (m * eb))⟩) (eb := eb)
      (n := m * eb) rfl (by
        rw [List.length_take, hR.blocks]
        have := blocksFor_mono (w := w) (show m * eb ≤ bits.length by omega)
        omega) (hR.fits.mono (by omega))
    refine ⟨s', hs', ?_⟩
    have : (arrayBits (s.vec.take (blocksFor w (m * eb)))).take (m * eb) = bits.take (m * eb) := by
      rw [arrayBits_take _ hw, List.take_take, Nat.min_eq_left (le_blocksFor_mul _ hw), hR.array hw, padTo,
        List.take_append_of_le_length (by omega)]
    rw [← this]; exact hR'
  · next hm =>
    refine ⟨s, rfl, ?_⟩
    rw [List.take_of_length_le]
    · exact hR
    · rw [← hl]; exact Nat.mul_le_mul_right eb (by omega)

theorem VR.pushBlock_ok (h : IsBlk w) (he1 : 1 ≤ eb) (hew : eb ≤ w) (hR : VR c w eb s bits)
    (hf : Fits c.usz w (blocksFor w bits.length * w + w)) (x : BitVec w) :
    ∃ s', VB.pushBlock c s eb x = .ok s' ∧ VR c w eb s' (floorTo eb (padTo w bits ++ blockBits x)) := by
  have hw := h.pos
  obtain ⟨s', hs', hR'⟩ := setLenFromBlocks_VR c h (s := ⟨s.len, s.vec ++ [x]⟩) he1 hew (by
    simp only [List.length_append, List.length_singleton]
    rw [Nat.succ_mul, hR.blocks]; exact hf)
  refine ⟨s', hs', ?_⟩
  rw [arrayBits_append, hR.array hw, arrayBits_cons] at hR'
  simpa [arrayBits] using hR'

theorem VR.popBlock_ok (h : IsBlk w) (he1 : 1 ≤ eb) (hew : eb ≤ w) (hR : VR c w eb s bits) :
    ∃ s', VB.popBlock c s eb = .ok (s.vec.getLast?, s') ∧
      VR c w eb s' (floorTo eb ((padTo w bits).take ((blocksFor w bits.length - 1) * w))) := by
  have hw := h.pos
  obtain ⟨s', hs', hR'⟩ := setLenFromBlocks_VR c h (s := ⟨s.len, s.vec.dropLast⟩) he1 hew (by
    simp only [List.length_dropLast]
    rw [hR.blocks]
    exact (hR.fits.pad hw).mono (Nat.mul_le_mul_right _ (by omega)))
  refine ⟨s', by unfold VB.popBlock; rw [hs', Res.ok_bind], ?_⟩
  simp only [List.dropLast_eq_take] at hR'
  rwa [arrayBits_take _ hw, hR.array hw, hR.blocks] at hR'

theorem VR.blockTruncate_eq (h : IsBlk w) (he1 : 1 ≤ eb) (hew : eb ≤ w) (hR : VR c w eb s bits) (m : Nat) :
    ∃ s', VB.blockTruncate c s eb m = .ok s' ∧
      VR c w eb s' (if m < blocksFor w bits.length then floorTo eb (bits.take (m * w)) else bits) := by
  have hw := h.pos
  unfold VB.blockTruncate
  rw [hR.blocks]
  split
  · next hm =>
    have hmn := (lt_blocksFor hw).1 hm
    obtain ⟨s', hs', hR'⟩ := setLenFromBlocks_VR c h (s := ⟨s.len, s.vec.take m⟩) he1 hew (by
      simp only [List.length_take]
      rw [hR.blocks, Nat.min_eq_left (by omega)]
      exact hR.fits.mono (by omega))
    refine ⟨s', hs', ?_⟩
    simp only at hR'
    rw [arrayBits_take _ hw, hR.array hw, padTo, List.take_append_of_le_length (by omega)] at hR'
    exact hR'
  · exact ⟨s, rfl, hR⟩

theorem arrayBits_replicate (n : Nat) (x : BitVec w) :
    arrayBits (List.replicate n x) = (List.replicate n (blockBits x)).flatten := by
  unfold arrayBits
  rw [List.flatMap_def, List.map_replicate]

theorem VR.blockResize_ok (h : IsBlk w) (he1 : 1 ≤ eb) (hew : eb ≤ w) (hR : VR c w eb s bits) {m : Nat}
    (hf : Fits c.usz w (m * w)) (x : BitVec w) :
    ∃ s', VB.blockResize c s eb m x = .ok s' ∧
      VR c w eb s' (floorTo eb ((padTo w bits).take (m * w) ++
        (List.replicate (m - blocksFor w bits.length) (blockBits x)).flatten)) := by
  have hw := h.pos
  obtain ⟨s', hs', hR'⟩ := setLenFromBlocks_VR c h (s := ⟨s.len, vecResize s.vec m x⟩) he1 hew (by
    have : (vecResize s.vec m x).length = m := by
      simp only [vecResize, List.length_append, List.length_take, List.length_replicate]; omega
    simp only [this]; exact hf)
  refine ⟨s', hs', ?_⟩
  simp only [vecResize] at hR'
  rw [arrayBits_append, arrayBits_take _ hw, hR.array hw, arrayBits_replicate, hR.blocks] at hR'
  exact hR'

theorem floorTo_one (bits : List Bool) : floorTo 1 bits = bits := by simp [floorTo]

theorem blockWithFill_ok (c : Cfg) (h : IsBlk w) (he1 : 1 ≤ eb) (hew : eb ≤ w) {m : Nat}
    (hf : Fits c.usz w (m * w)) (x : BitVec w) :
    ∃ s', VB.blockWithFill c eb m x = .ok s' ∧
      VR c w eb s' (floorTo eb (List.replicate m (blockBits x)).flatten) := by
  obtain ⟨s', hs', hR'⟩ := setLenFromBlocks_VR c h (s := ⟨0, List.replicate m x⟩) he1 hew (by
    simpa using hf)
  refine ⟨s', hs', ?_⟩
  simp only at hR'
  rwa [arrayBits_replicate] at hR'

/-! ### element-wise fill -/

theorem lenToBlockLen_ok (h : IsBlk w) {m : Nat} (hf : Fits c.usz w (m * eb)) :
    lenToBlockLen c w eb m = .ok (some (blocksFor w (m * eb))) := by
  have hw := h.pos
  have := hf.lt hw
  unfold lenToBlockLen checkedMul
  rw [if_pos (by omega)]
  simp only
  rw [checkedCeilDivNbits_eq c h (by omega), toUsize]
  show Res.ok (if blocksFor w (m * eb) < 2 ^ c.usz then some (blocksFor w (m * eb)) else none) = _
  rw [if_pos hf.2]

/-- writing the elements `a..m` one after another -/
theorem fill_loop (h : IsBlk w) (he1 : 1 ≤ eb) (hew : eb ≤ w) {s : VB w} {bits : List Bool} {a m : Nat}
    (ham : a ≤ m) (hlen : bits.length = a * eb) (x : BitVec w) (zs : List Bool) (hzl : zs.length = (m - a) * eb)
    (hR : VR c w eb s (bits ++ zs)) :
    ∃ s', (forRange a m s fun i s => do
        let p ← mulN c 64 i eb
        VB.setBits c s eb p eb x) = .ok s' ∧
      VR c w eb s' (bits ++ (List.replicate (m - a) (natBits eb x.toNat)).flatten) := by
  have hw := h.pos
  have hlt := hR.fits.lt hw
  rw [List.length_append, hlen, hzl, ← Nat.add_mul, show a + (m - a) = m by omega] at hlt
  have hfl : ∀ n, (List.replicate n (natBits eb x.toNat)).flatten.length = n * eb := by
    intro n; simp
  obtain ⟨s', hs', hR'⟩ := forRange_inv (s := s)
    (f := fun i s => do
        let p ← mulN c 64 i eb
        VB.setBits c s eb p eb x)
    (fun k s => VR c w eb s (bits ++ (List.replicate (k - a) (natBits eb x.toNat)).flatten ++
      zs.drop ((k - a) * eb))) ham (by simpa using hR) (by
      intro k s hka hkm hR
      have h1 : k * eb + eb ≤ m * eb := by rw [← Nat.succ_mul]; exact Nat.mul_le_mul_right eb hkm
      have h2 : a * eb + (k - a) * eb = k * eb := by rw [← Nat.add_mul]; congr 1; omega
      have h3 : a * eb + (m - a) * eb = m * eb := by rw [← Nat.add_mul]; congr 1; omega
      have hlb : (bits ++ (List.replicate (k - a) (natBits eb x.toNat)).flatten).length = k * eb := by
        rw [List.length_append, hfl, hlen, h2]
      obtain ⟨s', hs', -, hR'⟩ := hR.setBits_ok h (p := k * eb) (n := eb) he1 hew (by
        rw [List.length_append, hlb, List.length_drop, hzl]; omega) x
      refine ⟨s', by rw [mulN_ok (by omega), Res.ok_bind, hs'], ?_⟩
      have : overwrite (bits ++ (List.replicate (k - a) (natBits eb x.toNat)).flatten ++ zs.drop ((k - a) * eb))
          (k * eb) (natBits eb x.toNat) =
          bits ++ (List.replicate (k + 1 - a) (natBits eb x.toNat)).flatten ++ zs.drop ((k + 1 - a) * eb) := by
        unfold overwrite
        rw [List.take_left' hlb, show k + 1 - a = (k - a) + 1 by omega, List.replicate_succ', List.flatten_append]
        simp only [List.flatten_cons, List.flatten_nil, List.append_nil, List.append_assoc]
        congr 3
        rw [← List.append_assoc, List.drop_append, List.drop_of_length_le (by rw [hlb]; simp), List.nil_append,
          List.drop_drop, hlb, length_natBits, Nat.succ_mul]
        congr 1; omega
      rw [← this]; exact hR')
  refine ⟨s', hs', ?_⟩
  have : zs.drop ((m - a) * eb) = [] := List.drop_of_length_le (by omega)
  rw [this, List.append_nil] at hR'
  exact hR'

theorem withFill_ok (c : Cfg) (h : IsBlk w) (he1 : 1 ≤ eb) (hew : eb ≤ w) {m : Nat}
    (hf : Fits c.usz w (m * eb)) (x : BitVec w) :
    ∃ s', VB.withFill c eb m x = .ok s' ∧ VR c w eb s' (List.replicate m (natBits eb x.toNat)).flatten := by
  have hw := h.pos
  unfold VB.withFill
  rw [lenToBlockLen_ok h hf, Res.ok_bind, expectR_some, Res.ok_bind]
  have hz : VR c w eb ⟨m, List.replicate (blocksFor w (m * eb)) 0⟩ ([] ++ List.replicate (m * eb) false) := by
    refine ⟨by simp, by simp, fun i => ?_, by simpa using hf⟩
    rw [vbit_replicate_zero, List.nil_append, List.getElem?_replicate]
    split <;> rfl
  obtain ⟨s', hs', hR'⟩ := fill_loop (c := c) h he1 hew (a := 0) (m := m) (bits := []) (Nat.zero_le _) (by simp) x
    (List.replicate (m * eb) false) (by simp) hz
  exact ⟨s', hs', by simpa using hR'⟩

theorem VR.resize_ok (h : IsBlk w) (he1 : 1 ≤ eb) (hew : eb ≤ w) (hR : VR c w eb s bits) {m : Nat}
    (hf : Fits c.usz w (m * eb)) (x : BitVec w) :
    ∃ s', VB.resize c s eb m x = .ok s' ∧
      VR c w eb s' (bits.take (m * eb) ++ (List.replicate (m - s.len) (natBits eb x.toNat)).flatten) := by
  have hw := h.pos
  have hl := hR.len
  unfold VB.resize
  rw [lenToBlockLen_ok h hf, Res.ok_bind, expectR_some, Res.ok_bind]
  have hrl : (vecResize s.vec (blocksFor w (m * eb)) 0).length = blocksFor w (m * eb) := by
    simp only [vecResize, List.length_append, List.length_take, List.length_replicate]; omega
  simp only
  split
  · next hm =>
    have hle : m * eb ≤ bits.length := by rw [← hl]; exact Nat.mul_le_mul_right eb hm
    have hbm := blocksFor_mono (w := w) hle
    obtain ⟨s', hs', -, hR'⟩ := clearExtraBits_VR c h (s := ⟨m, vecResize s.vec (blocksFor w (m * eb)) 0⟩)
      (eb := eb) (n := m * eb) rfl hrl hf
    refine ⟨s', hs', ?_⟩
    have : (arrayBits (vecResize s.vec (blocksFor w (m * eb)) 0)).take (m * eb) = bits.take (m * eb) := by
      unfold vecResize
      rw [hR.blocks, show blocksFor w (m * eb) - blocksFor w bits.length = 0 by omega, List.replicate_zero,
        List.append_nil, arrayBits_take _ hw, List.take_take, Nat.min_eq_left (le_blocksFor_mul _ hw), hR.array hw,
        padTo, List.take_append_of_le_length (by omega)]
    rw [show m - s.len = 0 by omega]
    simp only [List.replicate_zero, List.flatten_nil, List.append_nil]
    rw [← this]; exact hR'
  · next hm =>
    have hle : bits.length ≤ m * eb := by rw [← hl]; exact Nat.mul_le_mul_right eb (by omega)
    have hbm := blocksFor_mono (w := w) hle
    have hz : VR c w eb ⟨m, vecResize s.vec (blocksFor w (m * eb)) 0⟩
        (bits ++ List.replicate ((m - s.len) * eb) false) := by
      have hlen : (bits ++ List.replicate ((m - s.len) * eb) false).length = m * eb := by
        rw [List.length_append, List.length_replicate, ← hl, ← Nat.add_mul]; congr 1; omega
      refine ⟨hlen.symm, by rw [hlen]; exact hrl, fun i => ?_, by rw [hlen]; exact hf⟩
      simp only
      unfold vecResize
      rw [List.take_of_length_le (by rw [hR.blocks]; omega), vbit_append _ _ hw, List.getElem?_append]
      split
      · rw [hR.bit]
        split
        · rfl
        · rw [List.getElem?_eq_none (by omega), List.getElem?_replicate]
          split <;> rfl
      · next hi =>
        rw [vbit_replicate_zero, if_neg, List.getElem?_replicate]
        · split <;> rfl
        · have := le_blocksFor_mul bits.length hw
          rw [hR.blocks] at hi
          omega
    obtain ⟨s', hs', hR'⟩ := fill_loop (c := c) h he1 hew (a := s.len) (m := m) (bits := bits) (by omega) hl.symm x
      (List.replicate ((m - s.len) * eb) false) (by simp) hz
    refine ⟨s', hs', ?_⟩
    rw [List.take_of_length_le hle]
    exact hR'

end Succinct
