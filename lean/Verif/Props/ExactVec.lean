import Verif.Props.Exact
import Verif.Props.ExactSpan
import Verif.Props.BitVector
import Verif.Props.IntVector
import Verif.Lemmas.Slice
import Verif.Lemmas.Unwind
/-!
# C99: indices and lengths that wrap or are truncated

What C17, C18, C35, C75, C76 and C81 leave open: the indices and lengths for which an intermediate product or cast loses
bits. Each theorem covers all of them and says exactly what happens.
-/
namespace Succinct
open Spec

/-! ### blocks of slices -/

/-- C99, `get_block` of a slice (bit_slice.rs:110-112, 136-138) at every index: the bit position is the product
modulo `2^64`, and it is then treated like any other position. -/
theorem C99_slice_get_block {o : BitVecOps w S} {R : S → List Bool → Prop} (h : IsBlk w) (hl : BVLaw c o R)
    (hs : sliceR R s bits) (i : Nat) :
    (sliceBitVec c o).getBlock s i =
      if i * w % 2 ^ 64 + w ≤ bits.length then .ok (BitVec.ofNat w (bitsVal (window bits (i * w % 2 ^ 64) w)))
      else .panic := by
  obtain ⟨B, hon, rfl⟩ := hs
  show Slice.getBlock c o s i = _
  unfold Slice.getBlock
  rw [mulNbits_eq c h, Res.ok_bind, length_window hon.inside]
  split
  · rename_i hp; exact slice_getBits h hl hon h.pos (Nat.le_refl _) hp
  · rename_i hp; exact slice_getBits_panic (by omega)

/-- C99, `set_block` of a slice (bit_slice.rs:155-158) at every index. -/
theorem C99_slice_set_block {o : BitVecMutOps w S} {R : S → List Bool → Prop} (h : IsBlk w)
    (hl : BVLaw c o.toBitVecOps R) (hm : BVWriteLaw o R) (hs : sliceR R s bits) (i : Nat) (v : BitVec w) :
    (i * w % 2 ^ 64 + w ≤ bits.length → ∃ s', (sliceBitVecMut c o).setBlock s i v = .ok s' ∧
      sliceR R s' (overwrite bits (i * w % 2 ^ 64) (blockBits v))) ∧
    (bits.length < i * w % 2 ^ 64 + w → (sliceBitVecMut c o).setBlock s i v = .panic) := by
  have e : (sliceBitVecMut c o).setBlock s i v = (sliceBitVecMut c o).setBits s (i * w % 2 ^ 64) w v := by
    show Slice.setBlock c o s i v = _
    unfold Slice.setBlock
    rw [mulNbits_eq c h, Res.ok_bind]; rfl
  rw [e]
  refine ⟨fun hp => (slice_write_law h hl hm).setBits hs _ w v h.pos (Nat.le_refl _) hp, fun hp => ?_⟩
  obtain ⟨B, hon, rfl⟩ := hs
  rw [length_window hon.inside] at hp
  exact slice_setBits_panic hp v

/-- On a 64-bit target a 20-bit slice has two blocks of eight bits: its third is refused, block `2^61 + 1` is block 1. -/
example : (sliceBitVec ⟨true, .p64, true⟩ (bvBitVec ⟨true, .p64, true⟩ 8)).getBlock ⟨⟨24, [1#8, 2#8, 3#8]⟩, 0, 20⟩ 2 = .panic ∧
    (sliceBitVec ⟨true, .p64, true⟩ (bvBitVec ⟨true, .p64, true⟩ 8)).getBlock ⟨⟨24, [1#8, 2#8, 3#8]⟩, 0, 20⟩ (2 ^ 61 + 1) = .ok 2#8 ∧
    (sliceBitVecMut ⟨true, .p64, true⟩ (bvBitVecMut ⟨true, .p64, true⟩ 8)).setBlock ⟨⟨24, [1#8, 2#8, 3#8]⟩, 0, 20⟩ (2 ^ 61 + 1) 7#8 =
      .ok ⟨⟨24, [1#8, 7#8, 3#8]⟩, 0, 20⟩ := by decide +kernel

/-! ### elements of `IntVector` -/

/-- C99, `get` and `set` of `IntVector` (int_vector.rs:305-333) at every `u64` index: elements as wide as a block are
found at the index truncated to `usize`; narrower ones at the index itself. Beyond the length both panic, and
`set` also for a value that does not fit. -/
theorem C99_int_vector_index (c : Cfg) (h : IsBlk w) {s : IV w} (hr : IvReach c w k s xs) (i : Nat) :
    let j := if k = w then i % 2 ^ c.usz else i
    (j < xs.length → (∃ x, s.get c i = .ok x ∧ some x.toNat = xs[j]?) ∧
      ∀ x : BitVec w, x.toNat < 2 ^ k → ∃ s', s.set c i x = .ok s' ∧ s'.len = xs.length ∧
        ∀ m < 2 ^ c.usz, (do let y ← s'.get c m; .ok y.toNat) = expectR (xs.set j x.toNat)[m]?) ∧
    (xs.length ≤ j → s.get c i = .panic ∧ ∀ x, s.set c i x = .panic) ∧
    (∀ x : BitVec w, 2 ^ k ≤ x.toNat → s.set c i x = .panic) := by
  intro j
  have hR := hr.rep h
  have hj : s.get c i = s.get c j ∧ ∀ x, s.set c i x = s.set c j x := by
    show s.get c i = s.get c (if k = w then i % 2 ^ c.usz else i) ∧
      ∀ x, s.set c i x = s.set c (if k = w then i % 2 ^ c.usz else i) x
    by_cases hk : k = w
    · have e : asUsize c (i % 2 ^ c.usz) = asUsize c i := Nat.mod_mod _ _
      rw [if_pos hk]
      unfold IV.get IV.set IV.isBlockSized
      rw [hR.eb, if_pos (by simpa using hk), if_pos (by simpa using hk), e]
      refine ⟨rfl, fun x => ?_⟩
      rw [if_pos (by simpa using hk), if_pos (by simpa using hk)]
    · rw [if_neg hk]; exact ⟨rfl, fun _ => rfl⟩
  have hju : k = w → j < 2 ^ c.usz := by
    intro hk
    show (if k = w then i % 2 ^ c.usz else i) < _
    rw [if_pos hk]; exact Nat.mod_lt _ (Nat.two_pow_pos _)
  rw [hj.1]
  refine ⟨fun hjl => ⟨?_, fun x hx => ?_⟩, fun hjl => ⟨hR.get_panic h hjl hju, fun x => ?_⟩, fun x hx => ?_⟩
  · obtain ⟨x, h1, h2⟩ := hR.get_ok h hjl
    exact ⟨x, h1, by rw [h2, List.getElem?_eq_getElem hjl]⟩
  · obtain ⟨s', h1, h2⟩ := hR.set_ok h hjl hx
    refine ⟨s', by rw [hj.2]; exact h1, ?_, fun m hm => ?_⟩
    · have := h2.len; rwa [List.length_set] at this
    · by_cases hml : m < (xs.set j x.toNat).length
      · obtain ⟨y, h3, h4⟩ := h2.get_ok h hml
        rw [h3, List.getElem?_eq_getElem hml, ← h4]; rfl
      · rw [h2.get_panic h (by omega) (fun _ => hm), List.getElem?_eq_none (by omega)]; rfl
  · rw [hj.2]; exact hR.set_panic h (by omega) hju
  · rw [hj.2]; exact hR.set_panic h (by omega) hju

example : (⟨8, ⟨2, [5#8, 6#8]⟩⟩ : IV 8).get ⟨true, .p32, true⟩ (3 * 2 ^ 32 + 1) = .ok 6#8 ∧
    (⟨8, ⟨2, [5#8, 6#8]⟩⟩ : IV 8).set ⟨true, .p32, true⟩ (3 * 2 ^ 32 + 1) 9#8 = .ok ⟨8, ⟨2, [5#8, 9#8]⟩⟩ := by
  decide +kernel

/-- C99, `get_random` of `IntVector` (int_vector.rs:125-133) at every offset, width and index: an address that is not a
`u64` panics, every other one reads like `get_bits` (C98), whatever the width. -/
theorem C99_get_random (c : Cfg) (h : IsBlk w) {s : IV w} (hr : IvReach c w k s xs) {off n i : Nat}
    (hn : n < 2 ^ c.usz) :
    s.getRandom c off n i =
      if 2 ^ 64 ≤ off + i * n ∨ xs.length * k < off + i * n + n then .panic
      else if n = 0 then
        if off = xs.length * k ∧ xs.length * k % w = 0 then .panic else .ok 0
      else if n ≤ w then .ok (BitVec.ofNat w (bitsVal (window (packBits k xs) (off + i * n) n)))
      else if 2 * w < (off + i * n) % w + n then .panic
      else if (off + i * n) % w ≠ 0 then .ok (BitVec.ofNat w (bitsVal (window (packBits k xs) (off + i * n) w)))
      else if c.debug then .panic
      else .ok (BitVec.ofNat w (bitsVal (window (packBits k xs) (off + i * n) w)) |||
        BitVec.ofNat w (bitsVal (window (packBits k xs) (off + i * n + w) (n - w)))) := by
  have hR := hr.rep h
  have hw := h.pos
  have hlt := hR.rep.fits.lt hw
  rw [length_packBits] at hlt
  unfold IV.getRandom
  by_cases h1 : 2 ^ 64 ≤ off + i * n
  · rw [if_pos (Or.inl h1)]
    rcases addressRandom_cases off n i with ha | ⟨ha, hlt⟩
    · rw [ha]; rfl
    · omega
  have ha : IV.computeAddressRandom off n i = .ok (off + i * n) := by
    unfold IV.computeAddressRandom checkedMul
    rw [if_pos (by omega), Option.bind_some, checkedAdd, if_pos (by omega), expectR_some, Nat.add_comm]
  rw [ha, Res.ok_bind, hR.eb]
  obtain ⟨p, hp⟩ : ∃ p, off + i * n = p := ⟨_, rfl⟩
  rw [hp] at h1 ⊢
  have hvR := hR.rep.vecR hw
  have hpl := length_padTo hw (packBits k xs)
  have hle := le_blocksFor_mul (packBits k xs).length hw
  have hvf := hvR.2.lt hw
  have hin := C98_get_bits h (vec_law c h) (vec_block c h) rfl hvR (start := p) (count := n) (by omega) hn
  unfold VB.getBits
  rw [hR.rep.mulN hw, length_packBits]
  rw [length_packBits] at hle hpl
  have hu64 : 2 ^ c.usz ≤ 2 ^ 64 := Nat.pow_le_pow_right (by omega) c.usz_le
  by_cases h2 : xs.length * k < p + n
  · rw [if_pos (Or.inr h2)]
    by_cases ho : p + n < 2 ^ 64
    · rw [addN_ok ho, Res.ok_bind, Res.ok_bind, assertR_false (by omega)]; rfl
    · rw [if_pos (by omega)] at hin
      unfold addN overflow
      rw [if_neg ho]
      split
      · rfl
      · rw [Res.ok_bind, Res.ok_bind, hin]
        unfold assertR
        split <;> rfl
  · rw [if_neg (show ¬ (2 ^ 64 ≤ p ∨ xs.length * k < p + n) by omega), addN_ok (by omega), Res.ok_bind, Res.ok_bind,
      assertR_true (by omega), Res.ok_bind, hin, if_neg (show ¬ (padTo w (packBits k xs)).length < p + n by omega)]
    have hwin : ∀ q m, q + m ≤ xs.length * k → window (padTo w (packBits k xs)) q m = window (packBits k xs) q m := by
      intro q m hq
      unfold window padTo
      rw [List.drop_append_of_le_length (by rw [length_packBits]; omega),
        List.take_append_of_le_length (by rw [List.length_drop, length_packBits]; omega)]
    by_cases h0 : n = 0
    · rw [if_pos h0, if_pos h0]
      subst h0
      rw [Nat.mul_zero, Nat.add_zero] at hp
      subst hp
      rw [hpl]
      have hmm : blocksFor w (xs.length * k) * w % w = 0 := Nat.mul_mod_left _ _
      have hbl := blocksFor_mul_lt (n := xs.length * k) hw
      by_cases h3 : off = xs.length * k ∧ xs.length * k % w = 0
      · obtain ⟨q, r, hr1, he, hq, hr'⟩ := divmod_cases w (xs.length * k) hw
        have hb : blocksFor w (xs.length * k) = q := by
          rw [he, show r = 0 by omega, Nat.add_zero, blocksFor_mul _ _ hw]
        rw [if_pos h3, if_pos ⟨by rw [hb]; omega, hmm⟩]
      · rw [if_neg h3, if_neg]
        rintro ⟨h4, -⟩
        have h5 : off = xs.length * k := by omega
        refine h3 ⟨h5, ?_⟩
        rw [← h5, h4]; exact hmm
    · rw [if_neg h0, if_neg h0]
      by_cases h3 : n ≤ w
      · rw [if_pos h3, if_pos h3, hwin _ _ (by omega)]
      · rw [if_neg h3, if_neg h3, hwin p w (by omega)]
        rw [hwin (p + w) (n - w) (by omega)]

/-- two 12-bit elements: reading a single 16-bit field at bit 4 of a byte vector gives its low byte, at bit 8 it mixes
the bytes or panics -/
example :
    (⟨4, ⟨6, [0x21#8, 0x43#8, 0x65#8]⟩⟩ : IV 8).getRandom ⟨true, .p64, true⟩ 4 12 0 = .ok 0x32#8 ∧
    (⟨4, ⟨6, [0x21#8, 0x43#8, 0x65#8]⟩⟩ : IV 8).getRandom ⟨false, .p64, false⟩ 8 16 0 = .ok 0x67#8 ∧
    (⟨4, ⟨6, [0x21#8, 0x43#8, 0x65#8]⟩⟩ : IV 8).getRandom ⟨true, .p64, true⟩ 8 16 0 = .panic ∧
    (⟨4, ⟨6, [0x21#8, 0x43#8, 0x65#8]⟩⟩ : IV 8).getRandom ⟨true, .p64, true⟩ 24 0 7 = .panic := by decide +kernel

private theorem vr_overwrite (hw : 0 < w) {s : VB w} {bits l : List Bool} {p : Nat} (hR : VR c w eb s bits) {v : List (BitVec w)}
    (hv : vecR c w v (overwrite (padTo w bits) p l)) (hp : p + l.length ≤ bits.length) :
    VR c w eb ⟨s.len, v⟩ (overwrite bits p l) := by
  have hpl := length_padTo hw bits
  have hle := le_blocksFor_mul bits.length hw
  have hlen : (overwrite bits p l).length = bits.length := length_overwrite hp
  refine ⟨by rw [hlen]; exact hR.len, ?_, fun i => ?_, by rw [hlen]; exact hR.fits⟩
  · have := hv.length
    rw [length_overwrite (by omega), hpl] at this
    rw [hlen]
    exact (Nat.eq_of_mul_eq_mul_right hw this).symm
  · rw [← getD_arrayBits _ hw, ← hv.1, getD_overwrite (by omega), getD_overwrite (by omega), getD_padTo]

private theorem checkValueRandom_wide (h : IsBlk w) {n : Nat} (hn : n < 2 ^ c.usz) (hw : w < n) (h2 : n ≤ 2 * w) (x : BitVec w) :
    IV.checkValueRandom c n x = if c.asserts = false ∧ (n = 2 * w → x = 0) then .ok () else .panic := by
  have hwp := h.pos
  unfold IV.checkValueRandom
  obtain ⟨h3, h4⟩ := C97_low_mask c h hn
  cases hd : c.asserts
  · obtain ⟨m, hm, hb⟩ := h4 (Or.inl hd)
    rw [hm, Res.ok_bind]
    by_cases h5 : n = 2 * w
    · have e : m = 0 := by
        apply BitVec.eq_of_getLsbD_eq
        intro i hi
        rw [hb i hi, h5, Nat.mul_div_cancel _ hwp, Nat.mul_mod_left]
        simp
      rw [e]
      by_cases hx : x = 0
      · subst hx; rw [assertR_true (Nat.le_refl _), if_pos ⟨rfl, fun _ => rfl⟩]
      · rw [assertR_false, if_neg (fun hh => hx (hh.2 h5))]
        intro h6
        exact hx (BitVec.eq_of_toNat_eq (by simpa using h6))
    · have e : m = BitVec.allOnes w := by
        apply BitVec.eq_of_getLsbD_eq
        intro i hi
        rw [hb i hi, show n / w = 1 by rw [Nat.div_eq_iff hwp]; omega]
        simp [hi]
      have := x.isLt
      rw [e, BitVec.toNat_allOnes, assertR_true (by omega), if_pos ⟨rfl, fun h6 => absurd h6 h5⟩]
  · rw [h3 hd hw, if_neg (by simp)]
    rfl

/-- C99, `set_random` of `IntVector` (int_vector.rs:151-160) at every offset, width and index: for a width above the block size
it panics with debug assertions; without them a value written at the start of a block is written twice, or with overflow
checks it panics, elsewhere the value is extended with zeros, and of two whole blocks only zero can be written. -/
theorem C99_set_random (c : Cfg) (h : IsBlk w) {s : IV w} (hr : IvReach c w k s xs) {off n i : Nat}
    (hn : n < 2 ^ c.usz) (x : BitVec w) :
    let bits := packBits k xs
    let p := off + i * n
    let allowed := p + n ≤ bits.length ∧ (n ≤ w → x.toNat < 2 ^ n) ∧ ¬ (n = 0 ∧ p = bits.length ∧ bits.length % w = 0) ∧
      (w < n → c.asserts = false ∧ (p % w = 0 → c.debug = false) ∧ p % w + n ≤ 2 * w ∧ (n = 2 * w → x = 0))
    (allowed → ∃ s' ys, s.setRandom c off n i x = .ok s' ∧ IR c w k s' ys ∧
      packBits k ys = overwrite bits p (if n ≤ w ∨ p % w ≠ 0 then natBits n x.toNat else blockBits x ++ natBits (n - w) x.toNat)) ∧
    (¬ allowed → s.setRandom c off n i x = .panic) := by
  intro bits p allowed
  have hR := hr.rep h
  have hw := h.pos
  have hlt := hR.rep.fits.lt hw
  have hbe : bits.length = xs.length * k := length_packBits k xs
  have hvR := hR.rep.vecR hw
  have hpl : (padTo w bits).length = _ := length_padTo hw bits
  have hle := le_blocksFor_mul bits.length hw
  have hvf := hvR.2.lt hw
  have hlt' : bits.length + w < 2 ^ 64 := hlt
  have hvf' : (padTo w bits).length + w < 2 ^ 64 := hvf
  have fin : ∀ {v : List (BitVec w)} {l : List Bool}, vecR c w v (overwrite (padTo w bits) p l) → p + l.length ≤ bits.length →
      ∃ ys, IR c w k ⟨k, ⟨s.base.len, v⟩⟩ ys ∧ packBits k ys = overwrite bits p l := by
    intro v l hv hp
    have hV : VR c w k ⟨s.base.len, v⟩ (overwrite bits p l) := vr_overwrite hw hR.rep hv hp
    refine ⟨_, hR.ofBits hV, ?_⟩
    rw [packBits_unpack k hR.pos, floorTo, ← hV.len, Nat.mul_div_cancel _ hR.pos, hV.len, List.take_length]
  have ha : p < 2 ^ 64 → IV.computeAddressRandom off n i = .ok p := by
    intro hp
    unfold IV.computeAddressRandom checkedMul
    rw [if_pos (show i * n < 2 ^ 64 by omega), Option.bind_some, checkedAdd, if_pos (by omega), expectR_some, Nat.add_comm]
  have hnp : 2 ^ 64 ≤ p → IV.computeAddressRandom off n i = .panic := by
    intro hp
    rcases addressRandom_cases off n i with ha | ⟨ha, hlt⟩
    · exact ha
    · omega
  have hsp : p < 2 ^ 64 → bits.length < p + n → VB.setBits c s.base k p n x = .panic := by
    intro hp1 hp2
    unfold VB.setBits
    rw [hR.rep.mulN hw]
    by_cases ho : p + n < 2 ^ 64
    · rw [addN_ok ho, Res.ok_bind, Res.ok_bind, assertR_false (by show ¬ p + n ≤ bits.length; omega)]; rfl
    · have hin := (C98_set_bits h (vec_law c h) (vec_block c h) (vec_mut_law c h) rfl hvR (start := p) (count := n) hp1 hn x).1
        (Or.inl (by show (padTo w bits).length < p + n; omega))
      unfold addN overflow
      rw [if_neg ho]
      split
      · rfl
      · rw [Res.ok_bind, Res.ok_bind, hin]
        unfold assertR
        split <;> rfl
  have hsb : p + n ≤ bits.length → VB.setBits c s.base k p n x = (do
      let v ← (vecBitVecMut c w).setBits s.base.vec p n x
      .ok { s.base with vec := v }) := by
    intro hp
    unfold VB.setBits
    rw [addN_ok (by omega), Res.ok_bind, hR.rep.mulN hw, Res.ok_bind, assertR_true (by exact hp), Res.ok_bind]
  have hC := fun hp1 : p < 2 ^ 64 =>
    C98_set_bits h (vec_law c h) (vec_block c h) (vec_mut_law c h) rfl hvR (start := p) (count := n) hp1 hn x
  have hend : p + n ≤ bits.length → ((n = 0 ∧ p = bits.length ∧ bits.length % w = 0) ↔
      (n = 0 ∧ p = (padTo w bits).length ∧ (padTo w bits).length % w = 0)) := by
    intro hp
    have hmm : blocksFor w bits.length * w % w = 0 := Nat.mul_mod_left _ _
    rw [hpl]
    constructor
    · rintro ⟨h0, h1, h2⟩
      refine ⟨h0, ?_, hmm⟩
      obtain ⟨q, r, hr1, he, hq, hr'⟩ := divmod_cases w bits.length hw
      have hb : blocksFor w bits.length = q := by
        rw [he, show r = 0 by omega, Nat.add_zero, blocksFor_mul _ _ hw]
      rw [hb]; omega
    · rintro ⟨h0, h1, -⟩
      have : p = bits.length := by omega
      exact ⟨h0, this, by rw [← this, h1]; exact hmm⟩
  have hcheck : ∀ P : Prop, (n ≤ w → (x.toNat < 2 ^ n ↔ P)) → (w < n → n ≤ 2 * w → ((c.asserts = false ∧ (n = 2 * w → x = 0)) ↔ P)) → n ≤ 2 * w →
      (P → IV.checkValueRandom c n x = .ok ()) ∧ (¬ P → IV.checkValueRandom c n x = .panic) := by
    intro P h1 h2 h3
    by_cases hnw : n ≤ w
    · rw [checkValueRandom_eq c h hnw]
      exact ⟨fun hP => if_pos ((h1 hnw).2 hP), fun hP => if_neg (fun hh => hP ((h1 hnw).1 hh))⟩
    · rw [checkValueRandom_wide h hn (by omega) h3]
      exact ⟨fun hP => if_pos ((h2 (by omega) h3).2 hP), fun hP => if_neg (fun hh => hP ((h2 (by omega) h3).1 hh))⟩
  have hnd : IV.checkValueRandom c n x ≠ .diverge := by
    obtain ⟨h3, h4⟩ := C97_low_mask c h hn
    unfold IV.checkValueRandom
    by_cases h5 : c.asserts = false ∨ n ≤ w
    · obtain ⟨m, hm, -⟩ := h4 h5
      rw [hm, Res.ok_bind, assertR]
      split <;> simp
    · rw [h3 (by cases hd : c.asserts <;> simp_all) (by omega)]
      exact fun h => nomatch h
  refine ⟨?_, ?_⟩
  · rintro ⟨h1, h2, h3, h4⟩
    have hn2 : n ≤ 2 * w := by
      rcases Nat.lt_or_ge w n with h5 | h5
      · have := (h4 h5).2.2.1; omega
      · omega
    have hck : IV.checkValueRandom c n x = .ok () := by
      refine (hcheck True (fun hh => ⟨fun _ => trivial, fun _ => h2 hh⟩) (fun h5 _ => ⟨fun _ => trivial, fun _ => ?_⟩) hn2).1 trivial
      exact ⟨(h4 h5).1, (h4 h5).2.2.2⟩
    unfold IV.setRandom
    rw [hck, Res.ok_bind, ha (by omega), Res.ok_bind, hR.eb, hsb h1]
    obtain ⟨-, hc2, hc3⟩ := hC (by omega)
    have hpp : p + n ≤ (padTo w bits).length := by omega
    by_cases hcase : n ≤ w ∨ p % w ≠ 0
    · rw [if_pos hcase]
      obtain ⟨v, hv1, hv2⟩ := hc2 hpp (fun hh => h3 ((hend h1).2 hh)) (by
        rcases Nat.lt_or_ge w n with h5 | h5
        · exact Or.inr ⟨by omega, (h4 h5).2.2.1⟩
        · exact Or.inl h5)
      rw [hv1, Res.ok_bind]
      obtain ⟨ys, hy1, hy2⟩ := fin hv2 (by rw [length_natBits]; exact h1)
      exact ⟨_, ys, rfl, hy1, hy2⟩
    · rw [if_neg hcase]
      obtain ⟨v, hv1, hv2⟩ := hc3 hpp (by omega) hn2 (by omega) ((h4 (by omega)).2.1 (by omega))
      rw [hv1, Res.ok_bind]
      obtain ⟨ys, hy1, hy2⟩ := fin hv2 (by simp [length_natBits]; omega)
      exact ⟨_, ys, rfl, hy1, hy2⟩
  · intro hna
    unfold IV.setRandom
    cases hck : IV.checkValueRandom c n x with
    | panic => rfl
    | diverge => exact absurd hck hnd
    | ok u =>
      rw [Res.ok_bind]
      by_cases hp1 : p < 2 ^ 64
      · rw [ha hp1, Res.ok_bind, hR.eb]
        by_cases hp2 : p + n ≤ bits.length
        · rw [hsb hp2]
          have hp3 : ¬ (padTo w bits).length < p + n := by omega
          have : (vecBitVecMut c w).setBits s.base.vec p n x = .panic := by
            apply (hC hp1).1
            apply Classical.byContradiction
            intro hno
            apply hna
            have e1 : ¬ (n = 0 ∧ p = bits.length ∧ bits.length % w = 0) := fun hh => hno (Or.inr (Or.inl ((hend hp2).1 hh)))
            refine ⟨hp2, fun hh => ?_, e1, fun hh => ?_⟩
            · rw [checkValueRandom_eq c h hh] at hck
              apply Classical.byContradiction
              intro h9
              rw [if_neg h9] at hck
              cases hck
            · have e2 : p % w + n ≤ 2 * w := by
                apply Classical.byContradiction
                intro h9
                exact hno (Or.inr (Or.inr (Or.inl ⟨hh, by omega⟩)))
              rw [checkValueRandom_wide h hn hh (by omega)] at hck
              have e3 : p % w = 0 → c.debug = false := by
                intro h9
                cases hd : c.debug
                · rfl
                · exact absurd (Or.inr (Or.inr (Or.inr ⟨hh, h9, hd⟩))) hno
              by_cases h9 : c.asserts = false ∧ (n = 2 * w → x = 0)
              · exact ⟨h9.1, e3, e2, h9.2⟩
              · rw [if_neg h9] at hck; cases hck
          rw [this]; rfl
        · rw [hsp hp1 (by omega)]; rfl
      · rw [hnp (by omega)]; rfl

/-- bytes of 4-bit elements: a 12-bit field at the start of a block gets the value twice, one at bit 4 gets it once -/
example :
    (⟨4, ⟨6, [0x21#8, 0x43#8, 0x65#8]⟩⟩ : IV 8).setRandom ⟨false, .p64, false⟩ 8 12 0 0xAB#8 = .ok ⟨4, ⟨6, [0x21#8, 0xAB#8, 0x6B#8]⟩⟩ ∧
    (⟨4, ⟨6, [0x21#8, 0x43#8, 0x65#8]⟩⟩ : IV 8).setRandom ⟨false, .p64, false⟩ 4 12 0 0xAB#8 = .ok ⟨4, ⟨6, [0xB1#8, 0x0A#8, 0x65#8]⟩⟩ ∧
    (⟨4, ⟨6, [0x21#8, 0x43#8, 0x65#8]⟩⟩ : IV 8).setRandom ⟨true, .p64, true⟩ 4 12 0 0xAB#8 = .panic ∧
    (⟨4, ⟨6, [0x21#8, 0x43#8, 0x65#8]⟩⟩ : IV 8).setRandom ⟨false, .p64, false⟩ 0 16 0 1#8 = .panic ∧
    (⟨4, ⟨6, [0x21#8, 0x43#8, 0x65#8]⟩⟩ : IV 8).setRandom ⟨true, .p64, false⟩ 4 12 0 0xAB#8 = .ok ⟨4, ⟨6, [0xB1#8, 0x0A#8, 0x65#8]⟩⟩ ∧
    (⟨4, ⟨6, [0x21#8, 0x43#8, 0x65#8]⟩⟩ : IV 8).setRandom ⟨true, .p64, false⟩ 8 12 0 0xAB#8 = .panic ∧
    (⟨4, ⟨6, [0x21#8, 0x43#8, 0x65#8]⟩⟩ : IV 8).setRandom ⟨false, .p64, true⟩ 4 12 0 0xAB#8 = .panic := by decide +kernel

/-! ### lengths near `2^64` -/

private theorem empty_truncate (c : Cfg) (n : Nat) : VB.truncate c (⟨0, []⟩ : VB w) 1 n = .ok ⟨0, []⟩ := by
  unfold VB.truncate; rw [if_neg (by simp)]

private theorem empty_blocks (c : Cfg) (h : IsBlk w) (len : Nat) :
    VB.setLenFromBlocks c (⟨len, []⟩ : VB w) 1 = .ok ⟨0, []⟩ := by
  unfold VB.setLenFromBlocks VB.clearExtraBits
  rw [mulNbits_eq c h, Res.ok_bind]
  simp [divN, mulN]

/-- C99, `BitVector::with_fill` and `resize` (bit_vector.rs:46-53, 78-94) at the lengths within `w - 1` of `2^64`: debug
builds panic; release builds round the length up to zero blocks and return, or leave, an empty vector, whatever
it held before. -/
theorem C99_fill_wraps (c : Cfg) (h : IsBlk w) {n : Nat} (hn : n < 2 ^ 64) (hw : 2 ^ 64 ≤ n + (w - 1)) (b : Bool) :
    (c.debug = true → BV.withFill c w n b = .panic ∧ ∀ s : VB w, BV.resize c s n b = .panic) ∧
    (c.debug = false → BV.withFill c w n b = .ok ⟨0, []⟩ ∧
      ∀ {s : VB w} {bits : List Bool}, BvReach c w s bits → BV.resize c s n b = .ok ⟨0, []⟩) := by
  refine ⟨fun hd => C17_too_large_partial c h n b (Or.inr ⟨hw, hd⟩), fun hd => ?_⟩
  obtain ⟨-, hc⟩ := (C97_ceil_div_nbits c h hn).2.2 hw hd
  refine ⟨?_, fun {s bits} hr => ?_⟩
  · unfold BV.withFill BV.blockWithFill VB.blockWithFill
    rw [hc, Res.ok_bind, expectR_some, Res.ok_bind]
    simp only [List.replicate_zero, empty_blocks c h, Res.ok_bind, empty_truncate]
  · have hR := hr.rep h
    have hwp := h.pos
    unfold BV.resize BV.blockResize VB.blockResize
    rw [hc, Res.ok_bind, expectR_some, Res.ok_bind]
    have he : ∀ (v : List (BitVec w)) f, vecResize v 0 f = [] := by
      intro v f; simp [vecResize]
    simp only [he, empty_blocks c h]
    split
    · rw [Res.ok_bind, empty_truncate]
    · rw [lastBlockBits_eq c h, Res.ok_bind]
      have hmod := Nat.mod_lt s.len hwp
      rw [subN_ok (by split <;> omega), Res.ok_bind]
      have hl := hR.len
      rw [Nat.mul_one] at hl
      have hpush : ∀ m, bits.length + m ≤ blocksFor w bits.length * w →
          ∃ t', Succinct.forRange 0 m s (fun _ s => VB.pushBit c s true) = .ok t' := by
        intro m hm
        obtain ⟨t', h1, -⟩ := forRange_inv (lo := 0) (hi := m) (s := s) (f := fun _ s => VB.pushBit c s true)
          (fun j t => ∃ tb, bvR c w t tb ∧ tb.length = bits.length + j) (Nat.zero_le _) ⟨bits, hR, rfl⟩
          (by
            rintro j t - hj ⟨tb, ht, htb⟩
            have hfit : Fits c.usz w (tb.length + 1) := (hR.fits.pad hwp).mono (by omega)
            obtain ⟨t1, h1, h2⟩ := (bv_push_law c h).pushBit ht true hfit
            exact ⟨t1, h1, _, h2, by rw [List.length_append, List.length_singleton]; omega⟩)
        exact ⟨t', h1⟩
      obtain ⟨q, r, hr1, hqe, hq, hr'⟩ := divmod_cases w s.len hwp
      have hrem : bits.length + (w - if s.len % w = 0 then w else s.len % w) ≤ blocksFor w bits.length * w := by
        have := le_blocksFor_mul bits.length hwp
        split
        · omega
        · have : q + 1 ≤ blocksFor w bits.length := (lt_blocksFor hwp).2 (by omega)
          have := Nat.mul_le_mul_right w this
          rw [Nat.succ_mul] at this
          omega
      obtain ⟨t', ht'⟩ := hpush _ hrem
      rw [ht', Res.ok_bind]
      simp only [Res.ok_bind]
      exact empty_truncate c n

example : BV.withFill ⟨false, .p64, false⟩ 8 (2 ^ 64 - 7) true = .ok ⟨0, []⟩ ∧
    BV.resize ⟨false, .p32, false⟩ (⟨11, [0xff#8, 0x05#8]⟩ : VB 8) (2 ^ 64 - 1) true = .ok ⟨0, []⟩ ∧
    BV.resize ⟨true, .p32, true⟩ (⟨11, [0xff#8, 0x05#8]⟩ : VB 8) (2 ^ 64 - 1) true = .panic := by decide +kernel

/-! ### blocks of `Vec<bool>` -/

private theorem overwrite_cons {l : List Bool} {p : Nat} (hp : p < l.length) (b : Bool) (bs : List Bool) :
    overwrite l p (b :: bs) = overwrite (l.set p b) (p + 1) bs := by
  unfold overwrite
  apply List.ext_getElem?
  intro i
  simp only [List.getElem?_append, List.length_append, List.length_take, List.length_set, List.length_cons,
    List.getElem?_take, List.getElem?_set, List.getElem?_drop, List.getElem?_cons]
  by_cases h1 : i < p
  · simp [show i < min p l.length by omega, show i < min (p + 1) l.length by omega, show i < p + 1 by omega, h1,
      show i < min (p + 1) l.length + bs.length by omega, show i < min p l.length + (bs.length + 1) by omega,
      show p ≠ i by omega]
  · by_cases h2 : i = p
    · subst h2
      simp [Nat.min_eq_left (Nat.le_of_lt hp), show min (i + 1) l.length = i + 1 by omega, hp]
      omega
    · rw [show min p l.length = p by omega, show min (p + 1) l.length = p + 1 by omega]
      by_cases h3 : i < p + 1 + bs.length
      · simp [show ¬ i < p by omega, show ¬ i < p + 1 by omega, h3, show i < p + (bs.length + 1) by omega,
          show ¬ i - p = 0 by omega, show i - p - 1 = i - (p + 1) by omega]
      · simp [h3, show ¬ i < p + (bs.length + 1) by omega, show p ≠ p + 1 + bs.length + (i - (p + 1 + bs.length)) by omega]
        congr 1
        omega

private theorem overwrite_nil (l : List Bool) (p : Nat) : overwrite l p [] = l := by
  unfold overwrite; rw [List.append_nil, List.length_nil, Nat.add_zero, List.take_append_drop]

private theorem natBits_cons (n x : Nat) : natBits (n + 1) x = x.testBit 0 :: natBits n (x / 2) := by
  unfold natBits
  rw [List.range_succ_eq_map, List.map_cons, List.map_map]
  congr 1
  apply List.map_congr_left
  intro i _
  rw [Function.comp_apply, Nat.testBit_succ]

private theorem lift_ok (a : α) (s : σ) : (PM.lift (Res.ok a) : PM σ α) s = .ok a s := rfl

private theorem boolLoop (c : Cfg) (start : Nat) : ∀ (n i : Nat) (t : BitVec 8) (v : List Bool),
    start + i + n ≤ 2 ^ 64 → v.length < 2 ^ c.usz →
    (start + i + n ≤ v.length → ∃ t', PM.loopL n i t (fun i value => do
        let bit := value &&& 1 != 0
        let p ← PM.lift (addN c 64 start i)
        boolVecSetBitP c p bit
        PM.lift (shrB c value 1)) v = .ok t' (overwrite v (start + i) (natBits n t.toNat))) ∧
    (0 < n → v.length < start + i + n → PM.loopL n i t (fun i value => do
        let bit := value &&& 1 != 0
        let p ← PM.lift (addN c 64 start i)
        boolVecSetBitP c p bit
        PM.lift (shrB c value 1)) v = .panic (overwrite v (start + i) (natBits (v.length - (start + i)) t.toNat))) := by
  intro n
  induction n with
  | zero =>
    intro i t v _ _
    refine ⟨fun _ => ⟨t, ?_⟩, fun hlt => absurd hlt (by omega)⟩
    rw [show natBits 0 t.toNat = [] from rfl, overwrite_nil]; rfl
  | succ n ih =>
    intro i t v h64 hv
    have hstep : ∀ k : BitVec 8 → PM (List Bool) (BitVec 8), ((do
        let bit := t &&& 1 != 0
        let p ← PM.lift (addN c 64 start i)
        boolVecSetBitP c p bit
        PM.lift (shrB c t 1)) >>= k) v =
          if start + i < v.length then k (t >>> 1) (v.set (start + i) (t.toNat.testBit 0)) else .panic v := by
      intro k
      have ha : (PM.lift (addN c 64 start i) : PM (List Bool) Nat) v = .ok (start + i) v := by
        rw [addN_ok (by omega)]; rfl
      have hb : (t &&& 1 != 0) = t.toNat.testBit 0 := and_one_ne_zero t (by omega)
      split
      · rename_i hlt
        refine PM.bind_ok (a := t >>> 1) ?_
        show (PM.lift (addN c 64 start i) >>= fun p => boolVecSetBitP c p (t &&& 1 != 0) >>= fun _ => PM.lift (shrB c t 1)) v = _
        rw [PM.bind_ok ha, hb, PM.bind_ok (PM.ok_of_unit (boolVecSetBitP_res c v _ _)
          (by rw [boolVec_setBit c hv, if_pos hlt])), shrB_ok (by omega)]
        rfl
      · refine PM.bind_panic ?_
        show (PM.lift (addN c 64 start i) >>= fun p => boolVecSetBitP c p (t &&& 1 != 0) >>= fun _ => PM.lift (shrB c t 1)) v = _
        rw [PM.bind_ok ha]
        exact PM.bind_panic (boolVecSetBitP_panic c hv (by omega) _)
    rw [PM.loopL, hstep]
    have ht : (t >>> 1).toNat = t.toNat / 2 := by rw [BitVec.toNat_ushiftRight, Nat.shiftRight_eq_div_pow]
    have hl := List.length_set (as := v) (i := start + i) (a := t.toNat.testBit 0)
    obtain ⟨h1, h2⟩ := ih (i + 1) (t >>> 1) (v.set (start + i) (t.toNat.testBit 0)) (by omega) (by rw [hl]; exact hv)
    rw [hl, ht] at h2
    rw [hl, ht] at h1
    refine ⟨fun hle => ?_, fun _ hlt => ?_⟩
    · rw [if_pos (by omega), natBits_cons, overwrite_cons (by omega)]
      exact h1 (by omega)
    · split
      · rename_i hs
        rw [show v.length - (start + i) = v.length - (start + (i + 1)) + 1 by omega, natBits_cons, overwrite_cons hs]
        exact h2 (by omega) (by omega)
      · rw [show v.length - (start + i) = 0 by omega, show natBits 0 t.toNat = [] from rfl, overwrite_nil]

private theorem take_natBits (m n x : Nat) : (natBits n x).take m = natBits (min m n) x := by
  apply List.ext_getElem?
  intro i
  rw [List.getElem?_take, getElem?_natBits, getElem?_natBits]
  split
  · split
    · rw [if_pos (by omega)]
    · rw [if_neg (by omega)]
  · rw [if_neg (by omega)]

/-- C99, `set_block` of `Vec<bool>` (traits.rs:138-151) at every `usize` index, with the vector a panic leaves behind. An
index below `block_len` writes the block as far as the vector reaches. Any other index writes at eight times the
index modulo `2^64`: all eight bits if they are there; otherwise those that are there, and then it panics. -/
theorem C99_vec_bool_set_block (c : Cfg) {v : List Bool} (hR : boolR c v v) {i : Nat} (hi : i < 2 ^ c.usz) (x : BitVec 8) :
    (i < blocksFor 8 v.length →
      boolVecSetBlockP c i x v = .ok () (overwrite v (i * 8) ((blockBits x).take (v.length - i * 8)))) ∧
    (blocksFor 8 v.length ≤ i → boolVecSetBlockP c i x v =
      if i * 8 % 2 ^ 64 + 8 ≤ v.length then .ok () (overwrite v (i * 8 % 2 ^ 64) (blockBits x))
      else .panic (overwrite v (i * 8 % 2 ^ 64) ((blockBits x).take (v.length - i * 8 % 2 ^ 64)))) := by
  obtain ⟨-, hf, hv⟩ := id hR
  have hu64 := c.usz_le
  refine ⟨fun h => ?_, fun h => ?_⟩
  · obtain ⟨v', h1, h2⟩ := (boolVec_mut_law c).setBlock hR i x h
    rw [h2.1]
    exact PM.ok_of_unit (boolVecSetBlockP_res c v i x) h1
  · have hflt := hf.lt (w := 8) (by omega)
    have hle := le_blocksFor_mul v.length (w := 8) (by omega)
    obtain ⟨start, hs⟩ : ∃ start, i * 8 % 2 ^ 64 = start := ⟨_, rfl⟩
    have hs8 : start + 8 ≤ 2 ^ 64 := by omega
    have hmul : mulNbits c 8 i = .ok start := by rw [mulNbits_eq c isBlk8, hs]
    rw [hs]
    obtain ⟨h1, h2⟩ := boolLoop c start 8 0 x v (by omega) hv
    rw [Nat.add_zero] at h1 h2
    have hfin : (PM.lift (mulNbits c 8 i) >>= fun start => PM.loopL 8 0 x (fun i value => do
        let bit := value &&& 1 != 0
        let p ← PM.lift (addN c 64 start i)
        boolVecSetBitP c p bit
        PM.lift (shrB c value 1)) >>= fun _ => pure ()) v =
        if start + 8 ≤ v.length then .ok () (overwrite v start (blockBits x))
        else .panic (overwrite v start ((blockBits x).take (v.length - start))) := by
      rw [hmul, PM.bind_ok (lift_ok start v)]
      split
      · rename_i hl
        obtain ⟨t', h3⟩ := h1 hl
        rw [PM.bind_ok h3]; rfl
      · rw [PM.bind_panic (h2 (by omega) (by omega)), show (blockBits x).take (v.length - start) =
          natBits (v.length - start) x.toNat by unfold blockBits; rw [take_natBits, Nat.min_eq_left (by omega)]]
        rfl
    have hbl : (PM.eval (boolVecBitVec c).blockLen) v = .ok (blocksFor 8 v.length) v := by
      unfold PM.eval; rw [boolVec_blockLen c hf]
    have hlim : ∀ p1, p1 ≠ blocksFor 8 v.length ∨ v.length = 0 →
        (if p1 = blocksFor 8 v.length then (do
          let n ← PM.eval (boolVecBitVec c).bitLen
          PM.lift (lastBlockBits c 8 n)) else pure 8 : PM (List Bool) Nat) v = .ok 8 v := by
      intro p1 hp1
      split
      · have h0 : v.length = 0 := by omega
        have he : PM.eval (boolVecBitVec c).bitLen v = .ok v.length v := rfl
        rw [PM.bind_ok he, h0, lastBlockBits_eq c isBlk8]
        rfl
      · rfl
    by_cases hov : i + 1 < 2 ^ c.usz
    · rw [← hfin]
      unfold boolVecSetBlockP dfltSetBlockP
      rw [addN_ok hov, PM.bind_ok (lift_ok _ v), PM.bind_ok hbl, PM.bind_ok (hlim _ (Or.inl (by omega)))]
    · by_cases hd : c.debug = true
      · have hst : v.length ≤ start := by
          rcases c.usz_cases with hu | hu <;> rw [hu] at hov hi <;> omega
        rw [if_neg (by omega), show v.length - start = 0 by omega, List.take_zero, overwrite_nil]
        unfold boolVecSetBlockP dfltSetBlockP addN overflow
        rw [if_neg hov, if_pos hd]
        rfl
      · rw [← hfin]
        unfold boolVecSetBlockP dfltSetBlockP
        have : addN c c.usz i 1 = .ok 0 := by
          unfold addN overflow
          rw [if_neg hov, if_neg hd, show i + 1 = 2 ^ c.usz by omega, Nat.mod_self]
        rw [this, PM.bind_ok (lift_ok _ v), PM.bind_ok hbl, PM.bind_ok (hlim _ (by omega))]

example : boolVecSetBlockP ⟨true, .p64, true⟩ (2 ^ 61) 0xa5#8 (List.replicate 9 false) =
      .ok () [true, false, true, false, false, true, false, true, false] ∧
    boolVecSetBlockP ⟨true, .p64, true⟩ (3 * 2 ^ 61 + 1) 0xa5#8 (List.replicate 10 false) =
      .panic [false, false, false, false, false, false, false, false, true, false] := by decide +kernel

/-! Each theorem of this file that has hypotheses is applied to concrete data in `Verif/Instances/ExactVec.lean`. -/

end Succinct
