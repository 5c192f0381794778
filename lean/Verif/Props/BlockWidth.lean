import Verif.Props.Storage
import Verif.Props.Program
/-!
C139: the width of a block type must be a power of two.

`BlockType` is a public trait (storage.rs:23-228) and nothing in it says that the number of bits must be a power of two, but
its arithmetic is written with shifts and masks. `C139_address` says exactly which widths make it right; the theorems of
the other files cover these widths. For every other width, `C139_other_widths` gives a short program on a `BitVector` whose
answers contradict one another. The program only masks blocks that are zero, so it does not matter which `low_mask` the
type has.
-/
namespace Succinct
open Succinct.Spec

/-- `lg_nbits` is the logarithm rounded down, whatever the width. -/
theorem C139_lg_nbits (c : Cfg) (k : Nat) (hk : 2 ^ k ≤ w) (hk2 : w < 2 ^ (k + 1)) (hw : w < 2 ^ 32) :
    lgNbits c w = .ok k := by
  have hu := c.le_pow_usz
  have ht : (BitVec.ofNat c.usz w).toNat = w := by
    rw [BitVec.toNat_ofNat, Nat.mod_eq_of_lt (by omega)]
  obtain ⟨n, hn, h1, h2⟩ := C04_floor_lg c (IsBlk.usz c) (BitVec.ofNat c.usz w)
  rw [ht] at h1 h2
  have hp := Nat.two_pow_pos k
  obtain ⟨h3, h4⟩ := h2 (by omega)
  unfold lgNbits
  rw [hn]
  have a := h4 k hk
  have b : n < k + 1 := (Nat.pow_lt_pow_iff_right (a := 2) (by omega)).1 (by omega)
  congr 1; omega

section
variable (c : Cfg) {k : Nat} (hk : 2 ^ k ≤ w) (hk2 : w < 2 ^ (k + 1)) (hw : w < 2 ^ 31)
include hk hk2 hw

omit hk2 in
theorem lg_lt_any : k < 31 := (Nat.pow_lt_pow_iff_right (a := 2) (by omega)).1 (by omega)

theorem modNbits_any (i : Nat) : modNbits c w i = .ok (i % 2 ^ k) := by
  have h1 := c.le_pow_usz
  have h31 := lg_lt_any hk hw
  simp only [modNbits, lgNbitsMask, C139_lg_nbits c k hk hk2 (by omega), lowMask_ok c isBlk64 (show k ≤ 64 by omega),
    Res.ok_bind, maskB_toNat (show k ≤ 64 by omega), Nat.and_two_pow_sub_one_eq_mod, asUsize]
  congr 1
  apply Nat.mod_eq_of_lt
  have := Nat.mod_lt i (Nat.two_pow_pos k)
  omega

theorem checkedDivNbits_any {i : Nat} (hi : i < 2 ^ 32) : checkedDivNbits c w i = .ok (some (i / 2 ^ k)) := by
  have h1 := c.le_pow_usz
  have h31 := lg_lt_any hk hw
  have hd : i / 2 ^ k ≤ i := Nat.div_le_self _ _
  simp only [checkedDivNbits, C139_lg_nbits c k hk hk2 (by omega), shrN_ok (show k < 64 by omega), Res.ok_bind, toUsize]
  rw [if_pos (by omega)]

theorem divNbits_any {i : Nat} (hi : i < 2 ^ 32) : divNbits c w i = .ok (i / 2 ^ k) := by
  have h1 := c.le_pow_usz
  have h31 := lg_lt_any hk hw
  have hd : i / 2 ^ k ≤ i := Nat.div_le_self _ _
  simp only [divNbits, C139_lg_nbits c k hk hk2 (by omega), shrN_ok (show k < 64 by omega), Res.ok_bind, asUsize]
  rw [Nat.mod_eq_of_lt (by omega)]

theorem addressNew_any {i : Nat} (hi : i < 2 ^ 32) : Address.new c w i = .ok ⟨i / 2 ^ k, i % 2 ^ k⟩ := by
  simp only [Address.new, checkedDivNbits_any c hk hk2 hw hi, modNbits_any c hk hk2 hw, Res.ok_bind, expectR_some]

end

/-- **C139**: the address of a bit is its block and its place in the block for every index exactly when the width is a
power of two. -/
theorem C139_address (c : Cfg) (h1 : 1 ≤ w) (hw : w < 2 ^ 31) :
    (∀ i, i < 2 ^ 32 → Address.new c w i = .ok ⟨i / w, i % w⟩) ↔ ∃ k, w = 2 ^ k := by
  obtain ⟨k, hk, hk2⟩ : ∃ k, 2 ^ k ≤ w ∧ w < 2 ^ (k + 1) :=
    ⟨Nat.log2 w, Nat.log2_self_le (by omega), Nat.lt_log2_self⟩
  constructor
  · intro h
    refine ⟨k, ?_⟩
    have h2 := h (2 ^ k) (by omega)
    rw [addressNew_any c hk hk2 hw (by omega), Nat.div_self (Nat.two_pow_pos k)] at h2
    by_cases hlt : 2 ^ k < w
    · rw [Nat.div_eq_of_lt hlt] at h2
      simp at h2
    · omega
  · rintro ⟨m, rfl⟩ i hi
    have e : k = m := by
      have a := (Nat.pow_le_pow_iff_right (a := 2) (by omega)).1 hk
      have b := (Nat.pow_lt_pow_iff_right (a := 2) (by omega)).1 hk2
      omega
    subst e
    exact addressNew_any c hk hk2 hw hi

theorem lowMask_any (c : Cfg) {k : Nat} (hk : 2 ^ k ≤ w) (hk2 : w < 2 ^ (k + 1)) (hw : w < 2 ^ 31) {j : Nat} (hj : j ≤ w) :
    ∃ m, lowMask c w j = .ok m := by
  have hp := Nat.two_pow_pos k
  have hx : j % 2 ^ 32 % w < w := Nat.mod_lt _ (by omega)
  have hw2 := Nat.two_pow_pos w
  have h1w : 1 < 2 ^ w := Nat.one_lt_two_pow (by omega)
  have h1 : (1 : BitVec w).toNat = 1 := by
    show (BitVec.ofNat w 1).toNat = 1
    rw [BitVec.toNat_ofNat, Nat.mod_eq_of_lt h1w]
  have hs : (1 : BitVec w).toNat ≤ ((1 : BitVec w) <<< (j % 2 ^ 32 % w)).toNat := by
    rw [BitVec.toNat_shiftLeft, h1, Nat.one_shiftLeft, Nat.mod_eq_of_lt (Nat.pow_lt_pow_right (by omega) hx)]
    exact Nat.two_pow_pos _
  have hm : (BitVec.ofNat w (j / 2 ^ k &&& 1)).toNat * (~~~ 0 : BitVec w).toNat < 2 ^ w := by
    have a : j / 2 ^ k &&& 1 ≤ 1 := Nat.and_le_right
    rw [BitVec.toNat_ofNat, Nat.mod_eq_of_lt (by omega)]
    have b := (~~~ 0 : BitVec w).isLt
    exact Nat.lt_of_le_of_lt (Nat.mul_le_mul_right _ a) (by omega)
  unfold lowMask subB
  rw [debugAssert_true hj, Res.ok_bind, if_pos hs, Res.ok_bind, divNbits_any c hk hk2 hw (by omega), Res.ok_bind, mulB,
    if_pos hm]
  exact ⟨_, rfl⟩

theorem clearExtraBits_zeros (c : Cfg) {k : Nat} (hk : 2 ^ k ≤ w) (hk2 : w < 2 ^ (k + 1)) (hw : w < 2 ^ 31) (n : Nat)
    (hn : n < 2 ^ 64) (m : Nat) :
    VB.clearExtraBits c (⟨n, List.replicate m 0⟩ : VB w) 1 = .ok ⟨n, List.replicate m 0⟩ := by
  have hmod : n % 2 ^ k ≤ w := by have := Nat.mod_lt n (Nat.two_pow_pos k); omega
  unfold VB.clearExtraBits
  rw [mulN_ok (by simpa using hn), Res.ok_bind]
  cases m with
  | zero => rfl
  | succ m =>
    rw [List.getLast?_replicate, if_neg (by omega)]
    simp only [lastBlockBits, modNbits_any c hk hk2 hw, Res.ok_bind]
    obtain ⟨x, hx⟩ := lowMask_any c hk hk2 hw (j := if n * 1 % 2 ^ k = 0 then w else n * 1 % 2 ^ k)
      (by split <;> omega)
    have e : (if n * 1 % 2 ^ k = 0 then Res.ok w else Res.ok (n * 1 % 2 ^ k)) =
      Res.ok (if n * 1 % 2 ^ k = 0 then w else n * 1 % 2 ^ k) := by split <;> rfl
    rw [e, Res.ok_bind, hx, Res.ok_bind]
    congr 1
    simp only [VB.mk.injEq, true_and]
    apply List.ext_getElem
    · simp
    · intro i h1 h2
      rw [List.getElem_set]
      split <;> simp

/-- **C139**: for every width that is not a power of two: make a vector of `2^k + 1` zeros, set the last bit, and read.
`get_bit` says that the bit is set, and `get_bits`, asked for all the bits, says that none is. -/
theorem C139_other_widths (c : Cfg) {w k : Nat} (hk : 2 ^ k < w) (hk2 : w < 2 ^ (k + 1)) (hw : w < 2 ^ 30) :
    ∃ s : VB w, (do let v ← BV.withFill c w (2 ^ k + 1) false; VB.setBit c v (2 ^ k) true) = .ok s ∧
      s.len = 2 ^ k + 1 ∧ (bvBitVec c w).getBit s (2 ^ k) = .ok true ∧
      (bvBitVec c w).getBits s 0 (2 ^ k + 1) = .ok 0 := by
  have hk' := Nat.le_of_lt hk
  have hw' : w < 2 ^ 31 := by omega
  have hp := Nat.two_pow_pos k
  have hus := c.le_pow_usz
  have h31 := lg_lt_any hk' hw'
  have hlg := C139_lg_nbits c k hk' hk2 (by omega)
  have hdiv : (2 ^ k + 1 + (w - 1)) / 2 ^ k = 2 := by
    rw [Nat.pow_succ] at hk2
    refine (Nat.div_eq_iff hp).2 ⟨by omega, by omega⟩
  have hfill : BV.withFill c w (2 ^ k + 1) false = .ok ⟨2 ^ k + 1, [0, 0]⟩ := by
    unfold BV.withFill checkedCeilDivNbits
    rw [subN_ok (by omega), Res.ok_bind, addN_ok (by omega), Res.ok_bind, checkedDivNbits_any c hk' hk2 hw' (by omega),
      hdiv, Res.ok_bind, expectR_some, Res.ok_bind]
    unfold BV.blockWithFill VB.blockWithFill VB.setLenFromBlocks mulNbits
    simp only [hlg, Res.ok_bind, List.length_replicate, Bool.false_eq_true, if_false]
    have e : shlN c 64 2 k = .ok (2 ^ (k + 1)) := by
      rw [shlN, if_pos (by omega), Nat.shiftLeft_eq, Nat.mod_eq_of_lt]
      · rw [Nat.pow_succ, Nat.mul_comm]
      · rw [← Nat.pow_succ']; exact Nat.pow_lt_pow_right (by omega) (by omega)
    have l1 : 2 ^ (k + 1) < 2 ^ 64 := Nat.pow_lt_pow_right (by omega) (by omega)
    have l2 : 2 ^ k + 1 < 2 ^ (k + 1) := by rw [Nat.pow_succ] at hk2 ⊢; omega
    rw [e, Res.ok_bind, divN_ok (by omega), Res.ok_bind, Nat.div_one]
    rw [clearExtraBits_zeros c hk' hk2 hw' _ l1, Res.ok_bind, VB.truncate, if_pos l2, mulN_ok (by omega), Res.ok_bind,
      Nat.mul_one, ceilDivNbits, subN_ok (by omega), Res.ok_bind, addN_ok (by omega), Res.ok_bind,
      divNbits_any c hk' hk2 hw' (by omega), hdiv, Res.ok_bind]
    exact clearExtraBits_zeros c hk' hk2 hw' _ (by omega) 2
  have hset : VB.setBit c (⟨2 ^ k + 1, [0, 0]⟩ : VB w) (2 ^ k) true = .ok ⟨2 ^ k + 1, [0, 1]⟩ := by
    have e : ((vecBitVecMut c w).setBit [0, 0] (2 ^ k) true) = .ok [0, 1] := by
      show dfltSetBit c (fun s : List (BitVec w) => mulN c 64 s.length w) vecGet vecSet [0, 0] (2 ^ k) true = _
      unfold dfltSetBit
      simp only [List.length_cons, List.length_nil, Nat.zero_add]
      rw [mulN_ok (by omega), Res.ok_bind, assertR_true (by omega), Res.ok_bind, addressNew_any c hk' hk2 hw' (by omega),
        Nat.div_self hp, Nat.mod_self, Res.ok_bind]
      show (do let new ← blkWithBit c (0 : BitVec w) 0 true; vecSet [0, 0] 1 new) = _
      obtain ⟨y, hy, hb⟩ := blkWithBit_eq c (0 : BitVec w) (i := 0) true (by omega)
      have : y = 1 := by
        apply BitVec.eq_of_getLsbD_eq
        intro i hi
        rw [hb]
        show _ = (1#w).getLsbD i
        rw [BitVec.getLsbD_one]
        by_cases h : i = 0 <;> simp [h] ; omega
      rw [hy, this]
      rfl
    unfold VB.setBit
    simp only
    rw [assertR_true (by omega), Res.ok_bind, e]
    rfl
  refine ⟨⟨2 ^ k + 1, [0, 1]⟩, ?_, rfl, ?_, ?_⟩
  · rw [hfill, Res.ok_bind, hset]
  · show VB.getBit c (⟨2 ^ k + 1, [0, 1]⟩ : VB w) (2 ^ k) = _
    unfold VB.getBit
    show (do assertR _; dfltGetBit c (fun s : List (BitVec w) => mulN c 64 s.length w) vecGet [0, 1] (2 ^ k)) = _
    unfold dfltGetBit
    simp only [List.length_cons, List.length_nil, Nat.zero_add]
    rw [assertR_true (by omega), Res.ok_bind, mulN_ok (by omega), Res.ok_bind, assertR_true (by omega), Res.ok_bind,
      addressNew_any c hk' hk2 hw' (by omega), Nat.div_self hp, Nat.mod_self, Res.ok_bind]
    show blkGetBit c (1 : BitVec w) 0 = _
    rw [blkGetBit_eq, if_pos (by omega)]
    show Res.ok ((1#w).getLsbD 0) = _
    rw [BitVec.getLsbD_one]
    simp; omega
  · show dfltGetBits c (fun s : VB w => Res.ok s.len) (fun s i => VB.getBlock s i) (⟨2 ^ k + 1, [0, 1]⟩ : VB w) 0 (2 ^ k + 1) = _
    unfold dfltGetBits
    rw [addN_ok (by omega), Res.ok_bind, Res.ok_bind, assertR_true (by simp), Res.ok_bind,
      addressNew_any c hk' hk2 hw' (by omega), Nat.zero_div, Nat.zero_mod, Res.ok_bind]
    simp only
    rw [subN_ok (by omega), Res.ok_bind, if_pos (by omega)]
    show blkGetBits c (0 : BitVec w) 0 (2 ^ k + 1) = _
    unfold blkGetBits
    obtain ⟨x, hx⟩ := lowMask_any c hk' hk2 hw' (j := 2 ^ k + 1) (by omega)
    rw [addN_ok (by omega), Res.ok_bind, assertR_true (by omega), Res.ok_bind, if_neg (by omega), shrB_ok (by omega),
      Res.ok_bind, hx, Res.ok_bind]
    congr 1
    simp

/-- Blocks of 24 bits: only 16 bits of each are used by `set_bit`, so bit 16 is in block 1, where `get_bits` does not look. -/
example (c : Cfg) : ∃ s : VB 24, (do let v ← BV.withFill c 24 17 false; VB.setBit c v 16 true) = .ok s ∧
    s.len = 17 ∧ (bvBitVec c 24).getBit s 16 = .ok true ∧ (bvBitVec c 24).getBits s 0 17 = .ok 0 :=
  C139_other_widths c (k := 4) (by decide) (by decide) (by decide)

example : Address.new ⟨true, .p64, true⟩ 24 20 = .ok ⟨1, 4⟩ := by decide +kernel
example : Address.new ⟨true, .p64, true⟩ 128 300 = .ok ⟨2, 44⟩ := by decide +kernel

set_option maxRecDepth 4000 in
/-- Blocks of 128 bits are covered by the theorems, here by the one about whole programs. -/
example (c : Cfg) : ∃ st, progRun c [] [.newBits 128 (.withFill 200 true), .toJacobson 0, .rank 0 150 true] =
    .ok ([.unit, .unit, .num 151], st) := by
  have h : progOk c [] [.newBits 128 (.withFill 200 true), .toJacobson 0, .rank 0 150 true] ∧
      progSpec c [] [.newBits 128 (.withFill 200 true), .toJacobson 0, .rank 0 150 true] =
        some ([.unit, .unit, .num 151], [.jacobson 128 (List.replicate 200 true)]) := by
    refine prog_cons (ss' := [.bits 128 (List.replicate 200 true)]) ⟨by decide, ?_⟩ rfl ?_
    · show Fits c.usz 128 200
      rcases c with ⟨_ | _, _ | _, _ | _⟩ <;> decide
    refine prog_cons (ss' := [.jacobson 128 (List.replicate 200 true)]) ?_ rfl ?_
    · intro w l h; cases h; rcases c with ⟨_ | _, _ | _, _ | _⟩ <;> decide
    refine prog_cons (ss' := [.jacobson 128 (List.replicate 200 true)]) ?_ ?_ ⟨trivial, rfl⟩
    · intro w l h
      rcases h with h | h <;> cases h
      decide
    · show some (Out.num _, _) = _
      congr 3
  have := C117_from_start c _ h.1
  rw [h.2] at this
  exact ⟨_, this.choose_spec.1⟩

/-! Each theorem of this file that has hypotheses is applied to concrete data in `Verif/Instances/BlockWidth.lean`. -/

end Succinct
