import Verif.Lemmas.Rank
import Verif.Spec
/-!
# C97: the word-level functions on every input

C03, C05, C07, C13, C36 and C40 say what the functions of `storage.rs`, `prim.rs` and the word `rank1` do on inputs
inside their contracts. The theorems here leave nothing out: they give the result for every value of
the argument types, with and without overflow checks.
-/
namespace Succinct
open Spec

/-- C97, `ceil_div` (storage.rs:225-227) at every pair of `bits`-wide arguments: a zero divisor panics if the
addition did not already, an end above `2^bits` gives zero in release builds, and exactly `2^bits` is still
right there. -/
theorem C97_ceil_div (c : Cfg) {bits x d : Nat} (hx : x < 2 ^ bits) (hd : d < 2 ^ bits) :
    (x + d ≤ 2 ^ bits - 1 → 0 < d → ∃ q, ceilDiv c bits x d = .ok q ∧ IsCeilDiv x d q) ∧
    (x + d = 2 ^ bits → c.debug = false → ∃ q, ceilDiv c bits x d = .ok q ∧ IsCeilDiv x d q) ∧
    (2 ^ bits < x + d → c.debug = false → ceilDiv c bits x d = .ok 0) ∧
    (2 ^ bits ≤ x + d → c.debug = true → ceilDiv c bits x d = .panic) ∧
    (d = 0 → ceilDiv c bits x d = .panic) := by
  have hp := Nat.two_pow_pos bits
  have key : ∀ d, 0 < d → IsCeilDiv x d ((x + d - 1) / d) := by
    intro d hd
    have e := Nat.div_add_mod (x + d - 1) d
    have l := Nat.mod_lt (x + d - 1) hd
    refine ⟨by rw [Nat.mul_comm]; omega, fun m hm => ?_⟩
    have : (x + d - 1) / d < m + 1 := by
      rw [Nat.div_lt_iff_lt_mul hd, Nat.succ_mul]; omega
    omega
  refine ⟨fun h h0 => ⟨_, ?_, key d h0⟩, fun h hdb => ⟨_, ?_, key d (by omega)⟩, fun h hdb => ?_, fun h hdb => ?_,
    fun h => ?_⟩
  · rw [ceilDiv, addN_ok (by omega), Res.ok_bind, subN_ok (by omega), Res.ok_bind, divN_ok h0]
  · have h0 : (x + d) % 2 ^ bits = 0 := by rw [h, Nat.mod_self]
    rw [ceilDiv, addN, if_neg (by omega), overflow, hdb, if_neg (by simp), Res.ok_bind, h0, subN,
      if_neg (by omega), overflow, hdb, if_neg (by simp), Res.ok_bind, divN_ok (by omega)]
    congr 2
    rw [Nat.mod_eq_of_lt (by omega)]
    omega
  · have h0 : (x + d) % 2 ^ bits = x + d - 2 ^ bits := by
      rw [Nat.mod_eq_sub_mod (by omega), Nat.mod_eq_of_lt (by omega)]
    rw [ceilDiv, addN, if_neg (by omega), overflow, hdb, if_neg (by simp), Res.ok_bind, h0,
      subN_ok (by omega), Res.ok_bind, divN_ok (by omega)]
    congr 1
    apply Nat.div_eq_of_lt; omega
  · rw [ceilDiv, addN, if_neg (by omega), overflow, hdb, if_pos rfl]; rfl
  · subst h
    rw [ceilDiv, addN_ok (by omega), Res.ok_bind, subN]
    have hdiv : ∀ a, divN a 0 = .panic := fun a => by simp [divN]
    split
    · rw [Res.ok_bind, hdiv]
    · rw [overflow]; split
      · rfl
      · rw [Res.ok_bind, hdiv]

example : ceilDiv ⟨false, .p64, false⟩ 8 250 6 = .ok 42 ∧ ceilDiv ⟨false, .p64, false⟩ 8 250 7 = .ok 0 ∧
    ceilDiv ⟨true, .p64, true⟩ 8 250 6 = .panic ∧ ceilDiv ⟨false, .p64, false⟩ 8 3 0 = .panic := by decide +kernel

/-- C97, the rounding helpers of `BlockType` at every `u64`: the only inputs on which they do anything but
round up are the last `w - 1`, where debug builds panic and release builds give zero blocks. -/
theorem C97_ceil_div_nbits (c : Cfg) (h : IsBlk w) {i : Nat} (hi : i < 2 ^ 64) :
    (i + (w - 1) < 2 ^ 64 → ∃ q, IsCeilDiv i w q ∧ ceilDivNbits c w i = .ok (q % 2 ^ c.usz) ∧
      checkedCeilDivNbits c w i = .ok (if q < 2 ^ c.usz then some q else none)) ∧
    (2 ^ 64 ≤ i + (w - 1) → c.debug = true →
      ceilDivNbits c w i = .panic ∧ checkedCeilDivNbits c w i = .panic) ∧
    (2 ^ 64 ≤ i + (w - 1) → c.debug = false →
      ceilDivNbits c w i = .ok 0 ∧ checkedCeilDivNbits c w i = .ok (some 0)) := by
  have hw := h.pos
  have hle := h.le
  refine ⟨fun hf => ⟨(i + (w - 1)) / w, ?_, ceilDivNbits_eq c h hf, ?_⟩, fun hf hd => ?_, fun hf hd => ?_⟩
  · have e := Nat.div_add_mod (i + (w - 1)) w
    have l := Nat.mod_lt (i + (w - 1)) hw
    refine ⟨by rw [Nat.mul_comm]; omega, fun m hm => ?_⟩
    have : (i + (w - 1)) / w < m + 1 := by
      rw [Nat.div_lt_iff_lt_mul hw, Nat.succ_mul]; omega
    omega
  · rw [checkedCeilDivNbits_eq c h hf, toUsize]
  · unfold ceilDivNbits checkedCeilDivNbits
    have ha : addN c 64 i (w - 1) = .panic := by rw [addN, if_neg (by omega), overflow, hd, if_pos rfl]
    rw [subN_ok (by omega), Res.ok_bind, Res.ok_bind, ha]
    exact ⟨rfl, rfl⟩
  · have e : (i + (w - 1)) % 2 ^ 64 = i + (w - 1) - 2 ^ 64 := by
      rw [Nat.mod_eq_sub_mod (by omega), Nat.mod_eq_of_lt (by omega)]
    have z : (i + (w - 1) - 2 ^ 64) / w = 0 := Nat.div_eq_of_lt (by omega)
    unfold ceilDivNbits checkedCeilDivNbits
    have ha : addN c 64 i (w - 1) = .ok (i + (w - 1) - 2 ^ 64) := by
      rw [addN, if_neg (by omega), overflow, hd, if_neg (by simp), e]
    rw [subN_ok (by omega), Res.ok_bind, Res.ok_bind, ha, Res.ok_bind, Res.ok_bind, divNbits_eq c h, checkedDivNbits_eq c h, z, toUsize]
    have := h.lt_usz c
    rw [if_pos (by omega)]
    exact ⟨by simp, rfl⟩

/-- C97, `mul_nbits`, `div_nbits` and `checked_div_nbits` at every `u64`: the product loses its high bits, the
quotient is truncated to `usize` or refused. No build panics. -/
theorem C97_mul_div_nbits (c : Cfg) (h : IsBlk w) (i : Nat) :
    mulNbits c w i = .ok (i * w % 2 ^ 64) ∧ divNbits c w i = .ok (i / w % 2 ^ c.usz) ∧
    checkedDivNbits c w i = .ok (if i / w < 2 ^ c.usz then some (i / w) else none) :=
  ⟨mulNbits_eq c h i, divNbits_eq c h i, by rw [checkedDivNbits_eq c h, toUsize]⟩

example : mulNbits ⟨true, .p64, true⟩ 8 (2 ^ 61 + 3) = .ok 24 ∧ divNbits ⟨true, .p32, true⟩ 8 (2 ^ 40 + 9) = .ok 1 ∧
    checkedCeilDivNbits ⟨false, .p64, false⟩ 64 (2 ^ 64 - 1) = .ok (some 0) ∧
    checkedCeilDivNbits ⟨true, .p64, true⟩ 64 (2 ^ 64 - 63) = .panic ∧
    ceilDivNbits ⟨false, .p64, false⟩ 64 (2 ^ 64 - 64) = .ok (2 ^ 58 - 1) := by decide +kernel

/-- what `low_mask(k)` is when it does not panic: all ones when `k / w` is odd, else the low `k % w` ones -/
def wideMask (w k : Nat) : BitVec w := if k / w % 2 = 1 then ~~~ 0 else maskB w (k % w)

private theorem getLsbD_wideMask (w k i : Nat) :
    (wideMask w k).getLsbD i = (decide (i < w) && (decide (k / w % 2 = 1) || decide (i < k % w))) := by
  unfold wideMask
  split
  · rename_i h; simp [h]
  · rename_i h; simp [h]

theorem lowMask_release (c : Cfg) (h : IsBlk w) {k : Nat} (hd : c.asserts = false ∨ k ≤ w) (hk : k < 2 ^ c.usz) :
    lowMask c w k = .ok (wideMask w k) := by
  have hw := h.pos
  have hw64 := h.le
  have hdvd : w ∣ 2 ^ 32 := by blk_cases h <;> decide
  have hmm : k % 2 ^ 32 % w = k % w := Nat.mod_mod_of_dvd k hdvd
  unfold lowMask
  have hlt : k % w < w := Nat.mod_lt _ hw
  have h1w : 1 % 2 ^ w = 1 := Nat.mod_eq_of_lt (Nat.one_lt_two_pow (by omega))
  have hp : 2 ^ (k % w) < 2 ^ w := Nat.pow_lt_pow_right (by omega) hlt
  have hp0 : 0 < 2 ^ (k % w) := Nat.two_pow_pos _
  have h1 : ((1 : BitVec w) <<< (k % w)).toNat = 2 ^ (k % w) := by
    simp [h1w, Nat.shiftLeft_eq, Nat.mod_eq_of_lt hp]
  have hone : (1 : BitVec w).toNat = 1 := by simp [h1w]
  have hsub : subB c ((1 : BitVec w) <<< (k % w)) 1 = .ok (maskB w (k % w)) := by
    unfold subB
    rw [h1, hone, if_pos (by omega)]
    congr 1
    apply BitVec.eq_of_toNat_eq
    rw [BitVec.toNat_sub_of_le (by rw [BitVec.le_def, h1, hone]; omega), h1, hone, maskB_toNat (by omega)]
  have hda : debugAssert c (k ≤ w) = .ok () := by
    rcases hd with hd | hd
    · rw [debugAssert, hd]; rfl
    · exact debugAssert_true hd
  have hq : k / w % 2 ^ c.usz = k / w := Nat.mod_eq_of_lt (Nat.lt_of_le_of_lt (Nat.div_le_self _ _) hk)
  rw [hda, Res.ok_bind, hmm, hsub, Res.ok_bind, divNbits_eq c h, Res.ok_bind, hq, Nat.and_one_is_mod]
  unfold wideMask
  rcases Nat.mod_two_eq_zero_or_one (k / w) with e | e
  · rw [e, if_neg (by omega)]
    have : mulB c (BitVec.ofNat w 0) (~~~ 0) = .ok (0 : BitVec w) := by
      unfold mulB; simp
    rw [this, Res.ok_bind]
    simp
  · rw [e, if_pos rfl]
    have : mulB c (BitVec.ofNat w 1) (~~~ 0) = .ok (~~~ (0 : BitVec w)) := by
      unfold mulB
      rw [BitVec.toNat_ofNat, h1w, if_pos (by have := (~~~ (0 : BitVec w)).isLt; omega)]
      simp
    rw [this, Res.ok_bind]
    congr 1
    apply BitVec.eq_of_getLsbD_eq
    intro i hi
    simp [hi]

/-- C97, `low_mask` (macro `fn_low_mask!`, storage.rs:240-257) at every `usize`: builds with debug assertions panic exactly
for `k > w`; the others return all ones when `⌊k / w⌋` is odd and the `k mod w` low ones otherwise, overflow checks or
not. -/
theorem C97_low_mask (c : Cfg) (h : IsBlk w) {k : Nat} (hk : k < 2 ^ c.usz) :
    (c.asserts = true → w < k → lowMask c w k = .panic) ∧
    ((c.asserts = false ∨ k ≤ w) → ∃ m, lowMask c w k = .ok m ∧
      ∀ i < w, m.getLsbD i = (decide (k / w % 2 = 1) || decide (i < k % w))) := by
  refine ⟨fun hd hkw => ?_, fun hc => ?_⟩
  · rw [lowMask, debugAssert, hd, if_pos rfl, assertR_false (by omega)]; rfl
  · exact ⟨_, lowMask_release c h hc hk, fun i hi => by rw [getLsbD_wideMask]; simp [hi]⟩

example : lowMask ⟨false, .p64, false⟩ 8 13 = .ok (0xff#8) ∧ lowMask ⟨false, .p64, false⟩ 8 19 = .ok (7#8) ∧
    lowMask ⟨true, .p64, true⟩ 8 9 = .panic ∧ lowMask ⟨false, .p64, true⟩ 8 9 = .panic ∧
    lowMask ⟨true, .p64, false⟩ 8 9 = .ok (0xff#8) := by decide +kernel

/-- the sum of two `bits`-wide numbers that overflows -/
private theorem wrap_sum {a b bits : Nat} (ha : a < 2 ^ bits) (hb : b < 2 ^ bits) (ho : 2 ^ bits ≤ a + b) :
    (a + b) % 2 ^ bits = a + b - 2 ^ bits := by
  rw [Nat.mod_eq_sub_mod (by omega), Nat.mod_eq_of_lt (by omega)]

/-- C97, `get_bits` and `with_bits` on a word (storage.rs:180-205) at every pair of `usize` arguments. They panic
exactly when the field does not fit, except in builds without overflow checks when `start + len` wraps to a number at
most `w`: then the start is reduced modulo `w` and the mask is the one `low_mask` gives for `len`. Debug assertions stop
that again when `len` is more than `w`. -/
theorem C97_word_fields (c : Cfg) (h : IsBlk w) (x v : BitVec w) {start len : Nat} (hs : start < 2 ^ c.usz)
    (hl : len < 2 ^ c.usz) :
    (start + len ≤ w → ∃ y z, blkGetBits c x start len = .ok y ∧ blkWithBits c x start len v = .ok z ∧
      (∀ j, y.getLsbD j = (decide (j < len) && x.getLsbD (start + j))) ∧
      ∀ j, z.getLsbD j = if start ≤ j ∧ j < start + len then v.getLsbD (j - start) else x.getLsbD j) ∧
    (w < start + len → ¬ (c.debug = false ∧ 2 ^ c.usz ≤ start + len ∧ start + len ≤ 2 ^ c.usz + w ∧ (c.asserts = false ∨ len ≤ w)) →
      blkGetBits c x start len = .panic ∧ blkWithBits c x start len v = .panic) ∧
    (c.debug = false → 2 ^ c.usz ≤ start + len → start + len ≤ 2 ^ c.usz + w → (c.asserts = false ∨ len ≤ w) →
      ∃ y z, blkGetBits c x start len = .ok y ∧ blkWithBits c x start len v = .ok z ∧
        (∀ j < w, y.getLsbD j = (x.getLsbD (start % w + j) && (decide (len / w % 2 = 1) || decide (j < len % w)))) ∧
        ∀ j < w, z.getLsbD j =
          if start % w ≤ j ∧ (len / w % 2 = 1 ∨ j - start % w < len % w) then v.getLsbD (j - start % w)
          else x.getLsbD j) := by
  have hw := h.pos
  have hlu := h.lt_usz c
  refine ⟨fun hf => ?_, fun hf hn => ?_, fun hd ho hf ha => ?_⟩
  · obtain ⟨y, hy, hyb⟩ := blkGetBits_eq c h x hf
    obtain ⟨z, hz, hzb⟩ := blkWithBits_eq c h x v hf
    exact ⟨y, z, hy, hz, hyb, hzb⟩
  · by_cases ho : start + len < 2 ^ c.usz
    · exact ⟨blkGetBits_panic c x hf ho, blkWithBits_panic c x v hf ho⟩
    · unfold blkGetBits blkWithBits
      rw [addN, if_neg ho, overflow]
      rcases hd : c.debug with _ | _
      · by_cases hle : start + len ≤ 2 ^ c.usz + w
        · have ha : c.asserts = true ∧ w < len := by
            refine ⟨?_, ?_⟩
            · cases ha : c.asserts
              · exact absurd ⟨hd, by omega, hle, .inl ha⟩ hn
              · rfl
            · refine Nat.lt_of_not_le fun hw => hn ⟨hd, by omega, hle, .inr hw⟩
          have hm : lowMask c w len = .panic := by
            rw [lowMask, debugAssert, ha.1, if_pos rfl, assertR_false (by omega)]; rfl
          have hshr : shrB c x start = .ok (if start < w then x >>> start else x >>> (start % w)) := by
            unfold shrB; rw [overflow, hd]; split <;> rfl
          rw [if_neg (by simp), Res.ok_bind, Res.ok_bind, wrap_sum hs hl (by omega), assertR_true (by omega), Res.ok_bind,
            Res.ok_bind, if_neg (by omega), if_neg (by omega), hm, hshr]
          exact ⟨rfl, rfl⟩
        · have : ¬ (start + len) % 2 ^ c.usz ≤ w := by
            rw [wrap_sum hs hl (by omega)]
            omega
          simp [assertR_false this]
      · exact ⟨rfl, rfl⟩
  · have hadd : addN c c.usz start len = .ok (start + len - 2 ^ c.usz) := by
      rw [addN, if_neg (by omega), overflow, hd, if_neg (by simp), wrap_sum hs hl ho]
    have hm := lowMask_release c h ha hl
    have hshl : ∀ y : BitVec w, shlB c y start = .ok (y <<< (start % w)) := by
      intro y
      unfold shlB
      split
      · rename_i hlt; rw [Nat.mod_eq_of_lt hlt]
      · rw [overflow, hd]; rfl
    have hshr : shrB c x start = .ok (x >>> (start % w)) := by
      unfold shrB
      split
      · rename_i hlt; rw [Nat.mod_eq_of_lt hlt]
      · rw [overflow, hd]; rfl
    have hl0 : len ≠ 0 := by omega
    unfold blkGetBits blkWithBits
    rw [hadd, Res.ok_bind, Res.ok_bind, assertR_true (by omega), Res.ok_bind, Res.ok_bind, if_neg hl0, if_neg hl0,
      hshr, hm, Res.ok_bind, Res.ok_bind, Res.ok_bind, hshl, Res.ok_bind, hshl, Res.ok_bind]
    refine ⟨_, _, rfl, rfl, fun j hj => ?_, fun j hj => ?_⟩
    · rw [BitVec.getLsbD_and, BitVec.getLsbD_ushiftRight, getLsbD_wideMask]
      simp [hj]
    · simp only [BitVec.getLsbD_or, BitVec.getLsbD_and, BitVec.getLsbD_not, BitVec.getLsbD_shiftLeft,
        getLsbD_wideMask, hj, decide_true, Bool.true_and]
      have hsw := Nat.mod_lt start hw
      by_cases h1 : j < start % w
      · rw [if_neg (by omega)]; simp [h1]
      · have h2 : j - start % w < w := by omega
        by_cases h3 : len / w % 2 = 1 ∨ j - start % w < len % w
        · rw [if_pos ⟨by omega, h3⟩]
          have : (decide (len / w % 2 = 1) || decide (j - start % w < len % w)) = true := by
            simpa using h3
          simp [this, h1, h2]
        · rw [if_neg (fun hh => h3 hh.2)]
          have : (decide (len / w % 2 = 1) || decide (j - start % w < len % w)) = false := by
            simpa using h3
          simp [this, h1, h2]

example : blkGetBits ⟨false, .p32, false⟩ (0xa5#8) (2 ^ 32 - 4) 6 = .ok (0x0a#8) ∧
    blkWithBits ⟨false, .p32, false⟩ (0xa5#8) (2 ^ 32 - 4) 6 (0x3f#8) = .ok (0xf5#8) ∧
    blkGetBits ⟨true, .p32, true⟩ (0xa5#8) (2 ^ 32 - 4) 6 = .panic ∧
    blkGetBits ⟨false, .p32, false⟩ (0xa5#8) (2 ^ 32 - 4) 13 = .panic ∧
    blkGetBits ⟨false, .p32, true⟩ (0xa5#8) (2 ^ 32 - 4) 6 = .ok (0x0a#8) ∧
    blkGetBits ⟨false, .p32, true⟩ (0xa5#8) (2 ^ 32 - 4) 9 = .panic ∧
    blkGetBits ⟨false, .p32, false⟩ (0xa5#8) (2 ^ 32 - 4) 9 = .ok (0x0a#8) := by decide +kernel

/-- C97, reading one bit of a word as a bit vector (prim.rs:17-22, 46-51): every position, every build. -/
theorem C97_word_bits (c : Cfg) (h : IsBlk w) (x : BitVec w) (p : Nat) (v : Bool) :
    (p < w → (primBitVec c w).getBit x p = .ok (x.getLsbD p) ∧
      ∃ y, (primBitVecMut c w).setBit x p v = .ok y ∧ ∀ j, y.getLsbD j = if j = p then v else x.getLsbD j) ∧
    (w ≤ p → (primBitVec c w).getBit x p = .panic ∧ (primBitVecMut c w).setBit x p v = .panic) := by
  have hlu := h.lt_usz c
  refine ⟨fun hp => ?_, fun hp => ?_⟩
  · have e : asUsize c p = p := Nat.mod_eq_of_lt (by omega)
    obtain ⟨y, hy, hyb⟩ := blkWithBit_eq c x v hp
    simp only [primBitVec, primBitVecMut, assertR_true hp, Res.ok_bind, e, blkGetBit_eq, if_pos hp]
    exact ⟨trivial, y, hy, hyb⟩
  · simp only [primBitVec, primBitVecMut, assertR_false (show ¬ p < w by omega)]
    exact ⟨rfl, rfl⟩

/-- truncating one of the last `2^usize` numbers below `2^64` -/
private theorem asUsize_high (c : Cfg) {a : Nat} (ha : a < 2 ^ 64) (h : 2 ^ 64 ≤ a + 2 ^ c.usz) :
    asUsize c a = a + 2 ^ c.usz - 2 ^ 64 := by
  unfold asUsize
  rcases c.usz_cases with e | e <;> rw [e] at h ⊢ <;> omega

theorem blk_dvd_usz (c : Cfg) (h : IsBlk w) : w ∣ 2 ^ c.usz := by
  rcases c.usz_cases with e | e <;> rw [e] <;> blk_cases h <;> decide

/-- C97, `get_bits` and `set_bits` of a word as a bit vector (prim.rs:34-39, 56-61) at every `u64` start and `usize`
count. Beyond the fields that fit they return instead of panicking only in builds without overflow checks, when
`start + count` wraps past `2^64` to at most `w` (and, with debug assertions, `count ≤ w`); the sum of the truncated start and the count then wraps in the
same way, and the result is the one of `C97_word_fields`. -/
theorem C97_word_spans (c : Cfg) (h : IsBlk w) (x v : BitVec w) {start count : Nat} (hs : start < 2 ^ 64)
    (hl : count < 2 ^ c.usz) :
    (start + count ≤ w →
      (primBitVec c w).getBits x start count = blkGetBits c x start count ∧
      (primBitVecMut c w).setBits x start count v = blkWithBits c x start count v) ∧
    (w < start + count → ¬ (c.debug = false ∧ 2 ^ 64 ≤ start + count ∧ start + count ≤ 2 ^ 64 + w ∧
        (c.asserts = false ∨ count ≤ w)) →
      (primBitVec c w).getBits x start count = .panic ∧ (primBitVecMut c w).setBits x start count v = .panic) ∧
    (c.debug = false → 2 ^ 64 ≤ start + count → start + count ≤ 2 ^ 64 + w → (c.asserts = false ∨ count ≤ w) →
      ∃ y z, (primBitVec c w).getBits x start count = .ok y ∧ (primBitVecMut c w).setBits x start count v = .ok z ∧
        (∀ j < w, y.getLsbD j =
          (x.getLsbD (start % w + j) && (decide (count / w % 2 = 1) || decide (j < count % w)))) ∧
        ∀ j < w, z.getLsbD j =
          if start % w ≤ j ∧ (count / w % 2 = 1 ∨ j - start % w < count % w) then v.getLsbD (j - start % w)
          else x.getLsbD j) := by
  have hw := h.pos
  have hlu := h.lt_usz c
  have hu64 : 2 ^ c.usz ≤ 2 ^ 64 := Nat.pow_le_pow_right (by omega) c.usz_le
  refine ⟨fun hf => ?_, fun hf hn => ?_, fun hd ho hf ha => ?_⟩
  · have e : asUsize c start = start := Nat.mod_eq_of_lt (by omega)
    simp only [primBitVec, primBitVecMut, addN_ok (show start + count < 2 ^ 64 by have := h.le; omega), Res.ok_bind,
      assertR_true hf, e]
    exact ⟨trivial, trivial⟩
  · by_cases ho : start + count < 2 ^ 64
    · simp only [primBitVec, primBitVecMut, addN_ok ho, Res.ok_bind, assertR_false (show ¬ start + count ≤ w by omega)]
      exact ⟨rfl, rfl⟩
    · rcases hd : c.debug with _ | _
      · obtain ⟨e, he⟩ : ∃ e, start + count = 2 ^ 64 + e := ⟨start + count - 2 ^ 64, by omega⟩
        have hadd : addN c 64 start count = .ok e := by
          rw [addN, if_neg (by omega), overflow, hd, if_neg (by simp), wrap_sum hs (by omega) (by omega)]
          exact congrArg Res.ok (by omega)
        by_cases hle : e ≤ w
        · obtain ⟨t, ht, hu⟩ : ∃ t, start + 2 ^ c.usz = 2 ^ 64 + t ∧ asUsize c start = t :=
            ⟨asUsize c start, by rw [asUsize_high c hs (by omega)]; omega, rfl⟩
          simp only [primBitVec, primBitVecMut, hadd, Res.ok_bind, assertR_true hle, hu]
          exact (C97_word_fields c h x v (start := t) (len := count) (by omega) hl).2.1 (by omega)
            fun hh => hn ⟨hd, by omega, by omega, hh.2.2.2⟩
        · simp only [primBitVec, primBitVecMut, hadd, Res.ok_bind, assertR_false hle]
          exact ⟨rfl, rfl⟩
      · have hadd : addN c 64 start count = .panic := by
          rw [addN, if_neg (by omega), overflow, hd, if_pos rfl]
        simp only [primBitVec, primBitVecMut, hadd]
        exact ⟨rfl, rfl⟩
  · obtain ⟨e, he⟩ : ∃ e, start + count = 2 ^ 64 + e := ⟨start + count - 2 ^ 64, by omega⟩
    have hadd : addN c 64 start count = .ok e := by
      rw [addN, if_neg (by omega), overflow, hd, if_neg (by simp), wrap_sum hs (by omega) ho]
      exact congrArg Res.ok (by omega)
    obtain ⟨t, ht, hu⟩ : ∃ t, start + 2 ^ c.usz = 2 ^ 64 + t ∧ asUsize c start = t :=
      ⟨asUsize c start, by rw [asUsize_high c hs (by omega)]; omega, rfl⟩
    have hmod : t % w = start % w := by
      rw [← hu, asUsize, Nat.mod_mod_of_dvd _ (blk_dvd_usz c h)]
    obtain ⟨y, z, hy, hz, hyb, hzb⟩ := (C97_word_fields c h x v (start := t) (len := count)
      (by omega) hl).2.2 hd (by omega) (by omega) ha
    simp only [primBitVec, primBitVecMut, hadd, Res.ok_bind, assertR_true (show e ≤ w by omega), hu]
    rw [hmod] at hyb hzb
    exact ⟨y, z, hy, hz, hyb, hzb⟩

example : (primBitVec ⟨false, .p32, false⟩ 8).getBits (0xa5#8) (2 ^ 64 - 4) 6 = .ok (0x0a#8) ∧
    (primBitVec ⟨false, .p64, false⟩ 8).getBits (0xa5#8) (2 ^ 64 - 4) 14 = .panic ∧
    (primBitVecMut ⟨false, .p64, false⟩ 8).setBits (0xa5#8) (2 ^ 64 - 4) 6 (0x3f#8) = .ok (0xf5#8) := by decide +kernel

/-- C97, `rank1` of a word (rank/prim.rs:21-26) at every `u64`: builds with debug assertions panic exactly past the
end; the others count the ones of the whole word when `⌊(p+1)/w⌋` is odd and of the first `(p+1) mod w` bits otherwise,
where `p+1` is first truncated to `usize`; with overflow checks alone only `u64::MAX` panics. -/
theorem C97_word_rank (c : Cfg) (h : IsBlk w) (x : BitVec w) {p : Nat} (_hp : p < 2 ^ 64) :
    (p < w → primRank1 c x p = .ok (ones (blockBits x) (p + 1))) ∧
    (w ≤ p → c.asserts = true → primRank1 c x p = .panic) ∧
    (p = 2 ^ 64 - 1 → c.debug = true → primRank1 c x p = .panic) ∧
    (c.asserts = false → (p = 2 ^ 64 - 1 → c.debug = false) → primRank1 c x p =
      .ok (ones (blockBits x) (if (p + 1) % 2 ^ c.usz / w % 2 = 1 then w else (p + 1) % w))) := by
  have hw := h.pos
  refine ⟨primRank1_ok c h x, fun hpw hd => ?_, fun hp hd => ?_, fun hd hm => ?_⟩
  · rw [primRank1, debugAssert, hd, if_pos rfl, assertR_false (by omega)]; rfl
  · rw [primRank1, debugAssert, assertR_false (by have := h.le; omega), addN, if_neg (show ¬ p + 1 < 2 ^ 64 by omega), overflow, hd]
    split <;> rfl
  · have hu64 : 2 ^ c.usz ∣ 2 ^ 64 := Nat.pow_dvd_pow 2 c.usz_le
    have hdw := blk_dvd_usz c h
    have hadd : ∃ e, addN c 64 p 1 = .ok e ∧ e % 2 ^ c.usz = (p + 1) % 2 ^ c.usz := by
      unfold addN
      split
      · exact ⟨_, rfl, rfl⟩
      · rw [overflow, hm (by omega), if_neg (by simp)]
        exact ⟨_, rfl, Nat.mod_mod_of_dvd _ hu64⟩
    obtain ⟨e, he, hem⟩ := hadd
    have hda : debugAssert c (p < w) = .ok () := by rw [debugAssert, hd]; rfl
    rw [primRank1, hda, Res.ok_bind, he, Res.ok_bind, asUsize, hem,
      lowMask_release c h (.inl hd) (Nat.mod_lt _ (Nat.two_pow_pos _)), Res.ok_bind]
    congr 1
    unfold wideMask
    split
    · have : (~~~ 0 : BitVec w) = maskB w w := by
        apply BitVec.eq_of_getLsbD_eq; intro i hi; simp [hi]
      rw [this, countOnes_mask x (Nat.le_refl _)]
    · rw [Nat.mod_mod_of_dvd _ hdw]
      exact countOnes_mask x (Nat.le_of_lt (Nat.mod_lt _ hw))

example : primRank1 ⟨false, .p64, false⟩ (0xa5#8) 10 = .ok 4 ∧ primRank1 ⟨false, .p64, false⟩ (0xa5#8) 17 = .ok 1 ∧
    primRank1 ⟨false, .p64, false⟩ (0xa5#8) (2 ^ 64 - 1) = .ok 0 ∧ primRank1 ⟨true, .p64, true⟩ (0xa5#8) 8 = .panic ∧
    primRank1 ⟨true, .p64, false⟩ (0xa5#8) 10 = .ok 4 ∧ primRank1 ⟨true, .p64, false⟩ (0xa5#8) (2 ^ 64 - 1) = .panic := by
  decide +kernel

/-! Each theorem of this file that has hypotheses is applied to concrete data in `Verif/Instances/Exact.lean`. -/

end Succinct
