import Verif.Lemmas.BroadwordSelect
import Verif.Props.Rank
/-! Properties C46–C50 (broadword). -/
namespace Succinct
open Spec

/-- C46. `count_ones` is the number of one bits; it never panics. -/
theorem C46_count_ones (c : Cfg) (x : BitVec 64) : bwCountOnes c x = .ok ((blockBits x).count true) := by
  rw [bwCountOnes_ok, countOnes_eq]

example : bwCountOnes ⟨true, .p64, true⟩ 0xFFFFFFFFFFFFFFFF = .ok 64 ∧ bwCountOnes ⟨true, .p32, true⟩ 0x8000000000000010 = .ok 2 := by decide

/-- C47, for `r < 128`: `select1(r, x)` is the position of the `r`-th one bit, or `None`. Missing for the full
claim: `r ≥ 128`, where it is false (`C47_large_r`). -/
theorem C47_select_partial (c : Cfg) (x : BitVec 64) {r : Nat} (hr : r < 128) :
    ∃ q, bwSelect1 c r x = .ok q ∧ IsSelect true (blockBits x) r q := by
  obtain ⟨q, h1, h2⟩ := select1Raw_ok c x hr
  refine ⟨_, ?_, h2⟩
  unfold bwSelect1
  rw [h1, Res.ok_bind]

/-- C47, counterexample: for every `r` from 192 to 255 and every word, even 0, `select1(r, x)` is `Some(0)`, although
no word has that many ones. -/
theorem C47_large_r (c : Cfg) (x : BitVec 64) {r : Nat} (h1 : 192 ≤ r) (h2 : r < 256) :
    bwSelect1 c r x = .ok (some 0) ∧ ¬ IsSelect true (blockBits x) r (some 0) := by
  constructor
  · unfold bwSelect1
    rw [select1Raw_zero c x h1 h2]; rfl
  · rintro ⟨-, h⟩
    simp [occ] at h; omega

/-- C47, for every `r`: `select1` returns; no argument makes it panic. -/
theorem C47_never_panics (c : Cfg) (x : BitVec 64) {r : Nat} (hr : r < 2 ^ c.usz) : ∃ q, bwSelect1 c r x = .ok q := by
  obtain ⟨q, h, -⟩ := select1Raw_total c x hr
  unfold bwSelect1
  rw [h, Res.ok_bind]
  exact ⟨_, rfl⟩

example : bwSelect1 ⟨true, .p64, true⟩ 3 0x8000000000000111 = .ok (some 63) ∧ bwSelect1 ⟨true, .p64, true⟩ 4 0x8000000000000111 = .ok none ∧
    bwSelect1 ⟨true, .p64, true⟩ 200 1 = .ok (some 0) := by decide

/-- The `Select1Support` instance of `Broadword`, for indices below 128. -/
theorem C47_broadword_select_partial (c : Cfg) (x : BitVec 64) {k : Nat} (hk : k < 128) :
    ∃ q, bwSelectSupport c x k = .ok q ∧ IsSelect true (blockBits x) k q := by
  have husz := c.le_pow_usz
  unfold bwSelectSupport asUsize
  rw [Nat.mod_eq_of_lt (by omega)]
  exact C47_select_partial c x hk

/-- C48 for `u_le8`: every byte of the result is 128 or 0 according to the unsigned comparison of that byte. -/
theorem C48_u_le8 (c : Cfg) (x y : BitVec 64) :
    ∃ z, uLe8 c x y = .ok z ∧ ∀ i < 8, byteOf z i = if byteOf x i ≤ byteOf y i then 128 else 0 := by
  obtain ⟨z, h, l⟩ := uLe8_lanes c x y
  exact ⟨z, h, fun i hi => l.byteOf hi⟩

/-- C48 for `u_nz8`. -/
theorem C48_u_nz8 (c : Cfg) (x : BitVec 64) :
    ∃ z, uNz8 c x = .ok z ∧ ∀ i < 8, byteOf z i = if byteOf x i ≠ 0 then 128 else 0 := by
  obtain ⟨z, h, l⟩ := uNz8_lanes c x
  exact ⟨z, h, fun i hi => l.byteOf hi⟩

/-- The eight bytes determine a word, so C48 and C49 determine every bit of the result. -/
theorem byteOf_ext {x y : BitVec 64} (h : ∀ i < 8, byteOf x i = byteOf y i) : x = y := by
  apply BitVec.eq_of_toNat_eq
  rw [(lanes_byteOf x).1, (lanes_byteOf y).1]
  exact lval_congr h

example : uLe8 ⟨true, .p64, true⟩ 0xFF00_0000_0000_8001 0x7F00_0000_0000_7F01 = .ok 0x0080_8080_8080_0080 ∧
    uNz8 ⟨true, .p64, true⟩ 0x0100_0000_8000_7F00 = .ok 0x8000_0000_8000_8000 := by decide

/-- C49, for bytes of equal sign: `le8` compares them as signed numbers. Missing for the full claim: bytes of
different sign, where `le8` compares the low seven bits with the inequality reversed (`C49_different_signs`). -/
theorem C49_le8_partial (c : Cfg) (x y : BitVec 64) :
    ∃ z, le8 c x y = .ok z ∧ ∀ i < 8, (signed8 (byteOf x i) < 0 ↔ signed8 (byteOf y i) < 0) →
      byteOf z i = if signed8 (byteOf x i) ≤ signed8 (byteOf y i) then 128 else 0 := by
  obtain ⟨z, h, l⟩ := le8_lanes c x y
  refine ⟨z, h, fun i hi hs => ?_⟩
  rw [l.byteOf hi]
  have ha := (lanes_byteOf x).2 i hi
  have hb := (lanes_byteOf y).2 i hi
  unfold le8Byte
  unfold signed8 at *
  generalize byteOf x i = a at *
  generalize byteOf y i = b at *
  by_cases h1 : a < 128
  · have h2 : b < 128 := by
      rw [if_pos h1] at hs
      by_cases h2 : b < 128
      · exact h2
      · rw [if_neg h2] at hs; omega
    rw [if_pos h1, if_pos h2, Nat.mod_eq_of_lt h1, Nat.mod_eq_of_lt h2]
    by_cases h3 : a ≤ b
    · rw [if_pos (by simp [h1, h2, h3]), if_pos (by omega)]
    · rw [if_neg (by simp [h1, h2, h3]), if_neg (by omega)]
  · have h2 : ¬ b < 128 := by
      rw [if_neg h1] at hs
      by_cases h2 : b < 128
      · rw [if_pos h2] at hs; omega
      · exact h2
    rw [if_neg h1, if_neg h2]
    by_cases h3 : a % 128 ≤ b % 128
    · rw [if_pos (by simp [h1, h2, h3]), if_pos (by omega)]
    · rw [if_neg (by simp [h1, h2, h3]), if_neg (by omega)]

/-- C49, counterexample, exactly: on bytes of different sign the result is `low7(x) > low7(y)`, whichever is
negative; so `le8` says `3 ≤ -128` and denies `-128 ≤ 3`. -/
theorem C49_different_signs (c : Cfg) (x y : BitVec 64) :
    ∃ z, le8 c x y = .ok z ∧ ∀ i < 8, ¬ (signed8 (byteOf x i) < 0 ↔ signed8 (byteOf y i) < 0) →
      byteOf z i = if byteOf y i % 128 < byteOf x i % 128 then 128 else 0 := by
  obtain ⟨z, h, l⟩ := le8_lanes c x y
  refine ⟨z, h, fun i hi hs => ?_⟩
  rw [l.byteOf hi]
  have ha := (lanes_byteOf x).2 i hi
  have hb := (lanes_byteOf y).2 i hi
  unfold le8Byte
  unfold signed8 at *
  generalize byteOf x i = a at *
  generalize byteOf y i = b at *
  have hd : ¬ (a < 128 ↔ b < 128) := by
    intro he
    apply hs
    by_cases h1 : a < 128
    · rw [if_pos h1, if_pos (he.1 h1)]; omega
    · rw [if_neg h1, if_neg (fun h => h1 (he.2 h))]; omega
  by_cases h3 : a % 128 ≤ b % 128
  · rw [if_neg (fun h => hd (h.1 h3)), if_neg (by omega)]
  · rw [if_pos ⟨fun h => absurd h h3, fun h => absurd h hd⟩, if_pos (by omega)]

example : le8 ⟨true, .p64, true⟩ 0x03 0x80 = .ok 0x8080808080808080 ∧ signed8 0x03 = 3 ∧ signed8 0x80 = -128 := by decide

/-- C50. `Broadword` answers rank queries correctly. -/
theorem C50_broadword_rank (c : Cfg) (x : BitVec 64) : RankLaw (bwRank c) x (blockBits x) := by
  have husz := c.le_pow_usz
  have hlen : (blockBits x).length = 64 := by simp [blockBits, natBits]
  refine rankLaw_of_rank1 c (by omega) (by rw [hlen]) (fun p hp => ?_)
  unfold bwRank1
  rw [debugAssert_true (by omega), Res.ok_bind, asUsize, Nat.mod_eq_of_lt (by omega), addN_ok (by omega), Res.ok_bind,
    lowMask_ok c isBlk64 (by omega), Res.ok_bind, bwCountOnes_ok, countOnes_mask x (by omega)]

example : bwRank1 ⟨true, .p32, true⟩ 0xF0 5 = .ok 2 := by decide

/-- C40 for `Broadword`: like words, it panics past the end only in builds with debug assertions. Missing for the full
claim: the other builds (`C40_broadword_release_counterexample`, `C40_broadword_release`). -/
theorem C40_broadword_debug_partial {c : Cfg} (hd : c.asserts = true) (x : BitVec 64) {p : Nat} (hp : 64 ≤ p) :
    RankPanics (bwRank c) x p := by
  refine rankPanics_of_rank1 c ?_
  unfold bwRank1 debugAssert
  rw [hd, if_pos rfl, assertR_false (by omega)]; rfl

theorem C40_broadword_release_counterexample : (bwRank ⟨false, .p64, false⟩).rank1 0xFF 128 = .ok 1 ∧
    (bwRank ⟨true, .p64, false⟩).rank1 0xFF 128 = .ok 1 := by decide

/-! Each theorem of this file that has hypotheses is applied to concrete data in `Verif/Instances/Broadword.lean`. -/

end Succinct
