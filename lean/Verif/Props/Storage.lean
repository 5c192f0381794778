import Verif.Spec
import Verif.Lemmas.Storage
/-!
# C01–C07: masks, block bit fields, logarithms, addresses, size arithmetic

`IsBlk w` says that `w` is the width of one of the five block types. Every theorem is for every
build configuration `c` (debug/release, 32/64-bit).
-/
namespace Succinct
open Spec

theorem C01_low_mask (c : Cfg) (h : IsBlk w) (k : Nat) (hk : k ≤ w) :
    ∃ m, lowMask c w k = .ok m ∧ ∀ i, m.toNat.testBit i = decide (i < k) := by
  refine ⟨maskB w k, lowMask_ok c h hk, fun i => ?_⟩
  rw [maskB_toNat hk, Nat.testBit_two_pow_sub_one]

example : IsBlk 16 ∧ 14 ≤ 16 ∧ lowMask ⟨true, .p64, true⟩ 16 14 = .ok 0b0011111111111111#16 ∧
    lowMask ⟨false, .p32, false⟩ 16 16 = .ok 0xFFFF#16 ∧ lowMask ⟨false, .p32, false⟩ 16 0 = .ok 0 := by decide

theorem C01_nth_mask (c : Cfg) (k : Nat) (hk : k < w) :
    ∃ m, nthMask c w k = .ok m ∧ ∀ i, m.toNat.testBit i = decide (i = k) := by
  refine ⟨_, nthMask_ok c hk, fun i => ?_⟩
  have := getLsbD_one_shl (w := w) (k := k) (i := i)
  rw [BitVec.getLsbD] at this
  rw [this]
  by_cases hik : i = k <;> simp [hik, hk]

/-- The generic default and the branch-free override agree wherever the precondition holds. -/
theorem C01_low_mask_default (c : Cfg) (h : IsBlk w) (k : Nat) (hk : k ≤ w) :
    lowMaskDefault c w k = lowMask c w k := by
  rw [lowMask_ok c h hk, lowMaskDefault_ok c h hk]

theorem C02_get_with_bit (c : Cfg) (b : BitVec w) (i j : Nat) (v : Bool) (hi : i < w) (hj : j < w) :
    (do let b' ← blkWithBit c b i v; blkGetBit c b' j) =
      if j = i then .ok v else blkGetBit c b j := by
  obtain ⟨y, hy, hb⟩ := blkWithBit_eq c b v hi
  rw [hy]
  simp only [Res.ok_bind, blkGetBit_eq, hj, if_true, hb]
  split <;> rfl

theorem C02_get_bit (c : Cfg) (b : BitVec w) (i : Nat) :
    blkGetBit c b i = if i < w then .ok (b.toNat.testBit i) else .panic := blkGetBit_eq c b i

theorem C02_with_bit_panics (c : Cfg) (b : BitVec w) (i : Nat) (v : Bool) :
    blkWithBit c b i v = .panic ↔ w ≤ i := by
  constructor
  · intro h
    rcases Nat.lt_or_ge i w with hi | hi
    · obtain ⟨y, hy, _⟩ := blkWithBit_eq c b v hi
      rw [hy] at h; cases h
    · exact hi
  · intro h
    unfold blkWithBit
    rw [assertR_false (by omega)]; rfl

example : blkWithBit ⟨true, .p64, true⟩ 0b1010#8 0 true = .ok 0b1011#8 ∧
    blkWithBit ⟨true, .p64, true⟩ 0b1010#8 8 true = .panic := by decide

theorem C03_get_bits (c : Cfg) (h : IsBlk w) (b : BitVec w) (s n : Nat) (hn : s + n ≤ w) :
    ∃ y, blkGetBits c b s n = .ok y ∧ y.toNat = b.toNat / 2 ^ s % 2 ^ n := by
  obtain ⟨y, hy, hb⟩ := blkGetBits_eq c h b hn
  refine ⟨y, hy, ?_⟩
  apply Nat.eq_of_testBit_eq
  intro i
  rw [Nat.testBit_mod_two_pow, Nat.testBit_div_two_pow]
  have := hb i
  rw [BitVec.getLsbD, BitVec.getLsbD] at this
  rw [this, Nat.add_comm]

theorem C03_with_bits (c : Cfg) (h : IsBlk w) (b v : BitVec w) (s n : Nat) (hn : s + n ≤ w) :
    ∃ y, blkWithBits c b s n v = .ok y ∧
      ∀ j, y.toNat.testBit j =
        if s ≤ j ∧ j < s + n then v.toNat.testBit (j - s) else b.toNat.testBit j := by
  exact blkWithBits_eq c h b v hn

/-- Out-of-range fields panic, in every build, whenever `s + n` is a `usize`. -/
theorem C03_panics_partial (c : Cfg) (b v : BitVec w) (s n : Nat) (hn : w < s + n)
    (hs : s + n < 2 ^ c.usz) :
    blkGetBits c b s n = .panic ∧ blkWithBits c b s n v = .panic :=
  ⟨blkGetBits_panic c b hn hs, blkWithBits_panic c b v hn hs⟩

/-- With overflow checks the panic claim holds for all arguments. -/
theorem C03_panics_debug (c : Cfg) (hd : c.debug = true) (b v : BitVec w) (s n : Nat)
    (hn : w < s + n) : blkGetBits c b s n = .panic ∧ blkWithBits c b s n v = .panic := by
  rcases Nat.lt_or_ge (s + n) (2 ^ c.usz) with hs | hs
  · exact C03_panics_partial c b v s n hn hs
  · have : addN c c.usz s n = .panic := by
      simp [addN, overflow, hd, show ¬ s + n < 2 ^ c.usz by omega]
    simp [blkGetBits, blkWithBits, this]

/-- FINDING: without overflow checks `s + n` wraps, the bounds assertion passes, and an
out-of-range read is answered instead of panicking. -/
theorem C03_release_wrap_counterexample :
    blkGetBits ⟨false, .p64, false⟩ 0xFF#8 (2 ^ 64 - 1) 1 = .ok 1#8 ∧ (8 : Nat) < (2 ^ 64 - 1) + 1 := by
  decide

example : blkGetBits ⟨true, .p32, true⟩ 0b0100110001110000#16 6 6 = .ok 0b110001#16 ∧
    blkWithBits ⟨true, .p32, true⟩ 0b0110001111000001#16 9 5 0b01110#16 = .ok 0b0101110111000001#16 := by
  decide

theorem C04_floor_lg (c : Cfg) (h : IsBlk w) (x : BitVec w) :
    ∃ n, floorLg c x = .ok n ∧ (x.toNat ≤ 1 → n = 0) ∧ (1 ≤ x.toNat → IsFloorLg x.toNat n) := by
  unfold floorLg
  by_cases hx : x.toNat ≤ 1
  · rw [if_pos hx]
    refine ⟨0, rfl, fun _ => rfl, fun h1 => ⟨by simpa using h1, fun m hm => ?_⟩⟩
    have : x.toNat = 1 := by omega
    rw [this] at hm
    rcases Nat.eq_zero_or_pos m with h0 | h0
    · omega
    · have := Nat.one_lt_two_pow (n := m) (by omega); omega
  · rw [if_neg hx]
    have hw := h.pos
    have hl : x.toNat.log2 < w := (Nat.log2_lt (by omega)).2 x.isLt
    have hlz : leadingZeros w x.toNat = w - 1 - x.toNat.log2 := by
      simp [leadingZeros, show x.toNat ≠ 0 by omega]
    rw [subN_ok (by omega), Res.ok_bind, hlz, subN_ok (by omega)]
    refine ⟨_, rfl, fun h1 => by omega, fun _ => ?_⟩
    rw [show w - 1 - (w - 1 - x.toNat.log2) = x.toNat.log2 by omega]
    exact ⟨Nat.log2_self_le (by omega), fun m hm => (Nat.le_log2 (by omega)).2 hm⟩

theorem C04_ceil_lg (c : Cfg) (h : IsBlk w) (x : BitVec w) :
    ∃ n, ceilLg c x = .ok n ∧ (x.toNat ≤ 1 → n = 0) ∧ IsCeilLg x.toNat n := by
  unfold ceilLg
  by_cases hx : x.toNat ≤ 1
  · rw [if_pos hx]
    exact ⟨0, rfl, fun _ => rfl, by simpa using hx, fun m _ => Nat.zero_le m⟩
  · rw [if_neg hx]
    have hw := h.pos
    have h1 : (1 : BitVec w).toNat = 1 := by
      have h1w : 1 % 2 ^ w = 1 := Nat.mod_eq_of_lt (Nat.one_lt_two_pow (by omega))
      simp [h1w]
    have hs : subB c x 1 = .ok (x - 1) := by unfold subB; rw [h1, if_pos (by omega)]
    have hn : (x - 1).toNat = x.toNat - 1 := by
      rw [BitVec.toNat_sub_of_le (by rw [BitVec.le_def, h1]; omega), h1]
    have hl : (x.toNat - 1).log2 < w := (Nat.log2_lt (by omega)).2 (by have := x.isLt; omega)
    have hlz : leadingZeros w (x.toNat - 1) = w - 1 - (x.toNat - 1).log2 := by
      simp [leadingZeros, show x.toNat - 1 ≠ 0 by omega]
    rw [hs, Res.ok_bind, hn, hlz, subN_ok (by omega)]
    refine ⟨_, rfl, fun h1 => by omega, ?_⟩
    rw [show w - (w - 1 - (x.toNat - 1).log2) = (x.toNat - 1).log2 + 1 by omega]
    constructor
    · have := Nat.lt_log2_self (n := x.toNat - 1)
      omega
    · intro m hm
      have : (x.toNat - 1).log2 < m := (Nat.log2_lt (by omega)).2 (by omega)
      omega

example : floorLg ⟨true, .p64, true⟩ 255#8 = .ok 7 ∧ ceilLg ⟨true, .p64, true⟩ 255#8 = .ok 8 ∧
    ceilLg ⟨true, .p64, true⟩ 128#8 = .ok 7 ∧ floorLg ⟨true, .p64, true⟩ 0#8 = .ok 0 := by decide

/-- Ceiling division is exact as long as `x + d` does not overflow. The full property (all `x`
and all `d > 0`) is false, see `C05_overflow`. -/
theorem C05_ceil_div_partial (c : Cfg) (x d : Nat) (hd : 0 < d) (ho : x + d < 2 ^ w) :
    ∃ n, ceilDiv c w x d = .ok n ∧ IsCeilDiv x d n := by
  unfold ceilDiv
  rw [addN_ok ho, Res.ok_bind, subN_ok (by omega), Res.ok_bind, divN_ok hd]
  refine ⟨_, rfl, ?_, fun m hm => ?_⟩
  · have h1 := Nat.div_add_mod (x + d - 1) d
    have h2 := Nat.mod_lt (x + d - 1) hd
    rw [Nat.mul_comm] at h1
    omega
  · apply Nat.le_of_lt_succ
    rw [Nat.div_lt_iff_lt_mul hd, Nat.succ_mul]
    omega

/-- FINDING, exact: with overflow checks `ceil_div` panics for *every* `x`, `d` with
`x + d ≥ 2^w`; without them it returns 0, i.e. a wrong answer, for every `x + d > 2^w`. -/
theorem C05_overflow (c : Cfg) (x d : Nat) (hx : x < 2 ^ w) (hd : 0 < d) (hdw : d < 2 ^ w) :
    (c.debug = true → 2 ^ w ≤ x + d → ceilDiv c w x d = .panic) ∧
    (c.debug = false → 2 ^ w < x + d → ceilDiv c w x d = .ok 0 ∧ ¬ IsCeilDiv x d 0) := by
  constructor
  · intro h ho
    simp [ceilDiv, addN, overflow, h, show ¬ x + d < 2 ^ w by omega]
  · intro h ho
    have e1 : (x + d) % 2 ^ w = x + d - 2 ^ w := by
      rw [Nat.mod_eq_sub_mod (by omega), Nat.mod_eq_of_lt (by omega)]
    refine ⟨?_, fun hc => ?_⟩
    · simp only [ceilDiv, addN, overflow, h, show ¬ x + d < 2 ^ w by omega, e1, if_false,
        Res.ok_bind, Bool.false_eq_true]
      rw [subN_ok (by omega), Res.ok_bind, divN_ok hd, Nat.div_eq_of_lt (by omega)]
    · have := hc.1; omega

example : ceilDiv ⟨true, .p64, true⟩ 8 255 2 = .panic ∧ ceilDiv ⟨false, .p64, false⟩ 8 255 2 = .ok 0 ∧
    ceilDiv ⟨true, .p64, true⟩ 8 250 4 = .ok 63 := by decide

theorem C06_address_round_trip (c : Cfg) (h : IsBlk w) (i : Nat) (hi : i < 2 ^ 64) :
    (i / w < 2 ^ c.usz → ∃ a, Address.new c w i = .ok a ∧ a.blockIndex < 2 ^ c.usz ∧
        a.bitOffset < w ∧ a.bitIndex c w = .ok i) ∧
    (2 ^ c.usz ≤ i / w → Address.new c w i = .panic) := by
  have hw := h.pos
  constructor
  · intro hu
    refine ⟨_, addrNew_ok c h hu, hu, Nat.mod_lt _ hw, ?_⟩
    have := Nat.div_add_mod i w
    rw [Nat.mul_comm] at this
    simp only [Address.bitIndex]
    rw [mulNbits_ok c h (by omega), Res.ok_bind, addN_ok (by omega), this]
  · intro hu
    rw [addrNew_eq c h, if_neg (by omega)]

theorem C06_address_of_pair (c : Cfg) (h : IsBlk w) (b o : Nat) (hb : b < 2 ^ c.usz) (ho : o < w)
    (hfit : b * w + o < 2 ^ 64) :
    ∃ i, (Address.mk b o).bitIndex c w = .ok i ∧ Address.new c w i = .ok ⟨b, o⟩ := by
  refine ⟨b * w + o, ?_, ?_⟩
  · simp only [Address.bitIndex]
    rw [mulNbits_ok c h (by omega), Res.ok_bind, addN_ok hfit]
  · have e1 : (b * w + o) / w = b := by
      rw [Nat.mul_comm, Nat.mul_add_div h.pos, Nat.div_eq_of_lt ho, Nat.add_zero]
    have e2 : (b * w + o) % w = o := by
      rw [Nat.mul_comm, Nat.mul_add_mod, Nat.mod_eq_of_lt ho]
    rw [addrNew_ok c h (by rw [e1]; exact hb), e1, e2]

/-- The `*_nbits` helpers for every `u64`/`usize` input. `mul_nbits` and the non-checked forms are
stated with the truncation they actually perform; `C07_exact_partial` is the untruncated form. -/
theorem C07_nbits (c : Cfg) (h : IsBlk w) (i : Nat) :
    divNbits c w i = .ok (i / w % 2 ^ c.usz) ∧
    checkedDivNbits c w i = .ok (if i / w < 2 ^ c.usz then some (i / w) else none) ∧
    modNbits c w i = .ok (i % w) ∧
    mulNbits c w i = .ok (i * w % 2 ^ 64) ∧
    lastBlockBits c w i = .ok (if i % w = 0 then w else i % w) :=
  ⟨divNbits_eq c h i, checkedDivNbits_eq c h i, modNbits_eq c h i, mulNbits_eq c h i,
    lastBlockBits_eq c h i⟩

/-- The full property is false (see `C07_counterexamples`); it holds for every input whose
rounded-up size does not overflow `u64`. -/
theorem C07_exact_partial (c : Cfg) (h : IsBlk w) (i : Nat) (hi : i + (w - 1) < 2 ^ 64) :
    ∃ n, IsCeilDiv i w n ∧
      (n < 2 ^ c.usz → ceilDivNbits c w i = .ok n) ∧
      checkedCeilDivNbits c w i = .ok (if n < 2 ^ c.usz then some n else none) ∧
      (i / w < 2 ^ c.usz → divNbits c w i = .ok (i / w)) ∧
      (i * w < 2 ^ 64 → mulNbits c w i = .ok (i * w)) := by
  have hw := h.pos
  refine ⟨(i + (w - 1)) / w, ⟨?_, fun m hm => ?_⟩, fun hn => ?_, ?_, fun hq => ?_, fun hm => ?_⟩
  · have h1 := Nat.div_add_mod (i + (w - 1)) w
    have h2 := Nat.mod_lt (i + (w - 1)) hw
    rw [Nat.mul_comm] at h1
    omega
  · apply Nat.le_of_lt_succ
    rw [Nat.div_lt_iff_lt_mul hw, Nat.succ_mul]
    omega
  · rw [ceilDivNbits_eq c h hi, Nat.mod_eq_of_lt hn]
  · exact checkedCeilDivNbits_eq c h hi
  · rw [divNbits_eq c h, Nat.mod_eq_of_lt hq]
  · exact mulNbits_ok c h hm

/-- `lg_nbits` is the exact logarithm of the block size, and `lg_nbits_mask` the block size minus one in any result type that can hold
it, in particular in all of the crate for all of the crate; in a type that cannot, debug builds panic. -/
theorem C07_lg_nbits (c : Cfg) (h : IsBlk w) :
    (∃ k, lgNbits c w = .ok k ∧ 2 ^ k = w) ∧
    ∀ {v}, IsBlk v → (w ≤ 2 ^ v → ∃ m, lgNbitsMask c v w = .ok m ∧ m.toNat = w - 1) ∧
      (2 ^ v < w → lgNbitsMask ⟨true, c.ptr, true⟩ v w = .panic) := by
  obtain ⟨k, h1, h2, -⟩ := lgNbits_eq c h
  refine ⟨⟨k, h1, h2.symm⟩, fun {v} hv => ⟨fun hle => ?_, fun hlt => ?_⟩⟩
  · have hk : k ≤ v := by
      rw [h2] at hle
      exact (Nat.pow_le_pow_iff_right (by decide)).1 hle
    refine ⟨maskB v k, ?_, by rw [maskB_toNat hk, h2]⟩
    rw [lgNbitsMask, h1, Res.ok_bind, lowMask_ok c hv hk]
  · obtain ⟨k', h3, h4, -⟩ := lgNbits_eq ⟨true, c.ptr, true⟩ h
    have hk : v < k' := by
      rw [h4] at hlt
      exact (Nat.pow_lt_pow_iff_right (by decide)).1 hlt
    rw [lgNbitsMask, h3, Res.ok_bind, lowMask, debugAssert, if_pos rfl, assertR, if_neg (by omega)]
    rfl

/-- FINDING: for each block width there are `u64` inputs near the maximum on which the rounded-up
forms panic (debug) or return 0 (release, even the `checked_` form), and block indices whose bit
position is silently reduced modulo `2^64` by `mul_nbits`. -/
theorem C07_counterexamples (h : IsBlk w) (p : Ptr) (a : Bool) :
    checkedCeilDivNbits ⟨true, p, a⟩ w (2 ^ 64 - 1) = .panic ∧
    checkedCeilDivNbits ⟨false, p, a⟩ w (2 ^ 64 - 1) = .ok (some 0) ∧
    ceilDivNbits ⟨true, p, a⟩ w (2 ^ 64 - 1) = .panic ∧
    ceilDivNbits ⟨false, p, a⟩ w (2 ^ 64 - 1) = .ok 0 ∧
    (∃ i < 2 ^ 64, 0 < i ∧ ∀ c, mulNbits c w i = .ok 0) := by
  refine ⟨?_, ?_, ?_, ?_, ?_⟩
  · blk_cases h <;> cases p <;> cases a <;> decide +kernel
  · blk_cases h <;> cases p <;> cases a <;> decide +kernel
  · blk_cases h <;> cases p <;> cases a <;> decide +kernel
  · blk_cases h <;> cases p <;> cases a <;> decide +kernel
  · obtain ⟨k, h1, h2, rfl⟩ := id h
    refine ⟨2 ^ (64 - k), Nat.pow_lt_pow_right (by decide) (by omega), Nat.two_pow_pos _, fun c => ?_⟩
    rw [mulNbits_eq c h, ← Nat.pow_add, show 64 - k + k = 64 by omega, Nat.mod_self]

example : ceilDivNbits ⟨true, .p64, true⟩ 32 65 = .ok 3 ∧ lastBlockBits ⟨true, .p64, true⟩ 32 64 = .ok 32 ∧
    lastBlockBits ⟨true, .p64, true⟩ 32 65 = .ok 1 ∧ checkedDivNbits ⟨true, .p32, true⟩ 8 (2 ^ 35) = .ok none ∧
    lgNbitsMask ⟨true, .p64, true⟩ 8 64 = .ok 63#8 ∧ lgNbitsMask ⟨true, .p64, true⟩ 8 512 = .panic ∧ lgNbitsMask ⟨true, .p64, true⟩ 32 512 = .ok 511#32 := by
  decide

/-! Each theorem of this file that has hypotheses is applied to concrete data in `Verif/Instances/Storage.lean`. -/

end Succinct
