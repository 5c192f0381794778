import Verif.Lemmas.SelectExact
import Verif.Props.Broadword
import Verif.Props.Exact
/-! C47 and C40 for `Broadword`, exactly: what `select1` returns for every index and `rank1` for every position. -/
namespace Succinct
open Spec

/-- Byte `i` of the word whose eight bytes are all `r`, before carries are propagated: the code computes the product
`r * 0x0101010101010101`. -/
def spreadByte (r i : Nat) : Nat := r * 0x0101010101010101 / 256 ^ i % 256

/-- C47 for every `r ≥ 64` (smaller ones: `C47_select_partial`). `b` counts the bytes of `x` whose prefix count passes
the signed comparison with the spread `r`; `k` counts the bits of byte `b mod 8` that pass it with what is left of `r`.
The answer is `8b + k`, or `None` when both are 8; so it may be any number up to 71, even past the end of the word. -/
theorem C47_exact (c : Cfg) (x : BitVec 64) {r : Nat} (h64 : 64 ≤ r) (hr : r < 2 ^ c.usz) :
    ∃ b l k, b = (List.range 8).countP (fun i => lane8 (ones (blockBits x) (8 * (i + 1))) (spreadByte r i)) ∧
      l = r - (if b = 0 ∨ b = 8 then 0 else ones (blockBits x) (8 * b)) ∧
      k = (List.range 8).countP (fun i => lane8 (ones (natBits 8 (byteOf x (b % 8))) (i + 1)) (spreadByte l i)) ∧
      b ≤ 8 ∧ k ≤ 8 ∧ bwSelect1 c r x = .ok (if b = 8 ∧ k = 8 then none else some (8 * b + k)) := by
  obtain ⟨b, l, k, h1, h2, h3, h4, h5, h6⟩ := select1Raw_exact c x h64 hr
  refine ⟨b, l, k, h1, h2, h3, h4, h5, ?_⟩
  unfold bwSelect1
  rw [h6, Res.ok_bind]
  by_cases h : b = 8 ∧ k = 8
  · rw [if_pos h, if_pos (by omega)]
  · rw [if_neg h, if_neg (by omega)]

/-- C47 on the zero word: `select1(r, 0)` is `None` exactly when no byte of the spread `r` has its top bit; otherwise it is nine
times the number of bytes without it. -/
theorem C47_zero (c : Cfg) {r : Nat} (h64 : 64 ≤ r) (hr : r < 2 ^ c.usz) :
    bwSelect1 c r 0 = .ok (if (List.range 8).countP (fun i => decide (spreadByte r i < 128)) = 8 then none
      else some (9 * (List.range 8).countP (fun i => decide (spreadByte r i < 128)))) := by
  have hz : ∀ n, ones (blockBits (0 : BitVec 64)) n = 0 := by
    intro n
    unfold ones blockBits
    rw [List.count_eq_zero]
    intro h
    have := List.mem_of_mem_take h
    revert this
    decide
  have hb8 : ∀ b n, ones (natBits 8 (byteOf 0 b)) n = 0 := by
    intro b n
    have : byteOf 0 b = 0 := by simp [byteOf]
    rw [this]
    unfold ones
    rw [List.count_eq_zero]
    intro h
    have := List.mem_of_mem_take h
    revert this
    decide
  have hl : ∀ y, lane8 0 y = decide (y < 128) := by
    intro y
    unfold lane8
    split
    · rename_i h; simp [h]
    · rename_i h; simp [h]
  obtain ⟨b, l, k, h1, h2, h3, h4, h5, h6⟩ := C47_exact c 0 h64 hr
  simp only [hz, hb8, hl] at h1 h2 h3
  have hlr : l = r := by rw [h2]; split <;> rfl
  rw [hlr, ← h1] at h3
  rw [h6, ← h1, h3]
  by_cases h : b = 8
  · rw [if_pos ⟨h, h⟩, if_pos h]
  · rw [if_neg (fun hh => h hh.1), if_neg h]; congr 2; omega

/-- A word and an index on which `select1` answers with a position past the end of the word. -/
theorem C47_past_end_counterexample : bwSelect1 ⟨true, .p64, true⟩ 130 7 = .ok (some 70) ∧ bwSelect1 ⟨true, .p64, true⟩ 256 0 = .ok none ∧
    bwSelect1 ⟨true, .p64, true⟩ 0x8000 0 = .ok (some 9) := by decide

theorem spreadByte_small {r : Nat} (hr : r < 256) : ∀ i < 8, spreadByte r i = r := by
  intro i hi
  unfold spreadByte
  rw [← byteOf_bcast r i hi]
  have hn : (BitVec.ofNat 64 r).toNat = r := by rw [BitVec.toNat_ofNat, Nat.mod_eq_of_lt (by omega)]
  rw [(lanes_bcast (y := BitVec.ofNat 64 r) (by omega)).byteOf hi, hn]

/-- C47 for `128 ≤ r < 192`, in terms of the word: `None` never occurs once the word has at most `r - 128` ones, when
the answer is always 0. -/
theorem C47_middle (c : Cfg) (x : BitVec 64) {r : Nat} (h1 : 128 ≤ r) (h2 : r < 256) (hc : (blockBits x).count true ≤ r - 128) :
    bwSelect1 c r x = .ok (some 0) := by
  have husz := c.le_pow_usz
  have hs := spreadByte_small h2
  have hones : ∀ n, ones (blockBits x) n ≤ r - 128 := fun n =>
    Nat.le_trans (List.Sublist.count_le _ (List.take_sublist _ _)) hc
  have hlane : ∀ s, s ≤ r - 128 → lane8 s r = false := by
    intro s h
    unfold lane8
    rw [if_neg (by omega)]
    simp; omega
  obtain ⟨b, l, k, e1, e2, e3, e4, e5, e6⟩ := C47_exact c x (by omega) (r := r) (by omega)
  have hb : b = 0 := by
    rw [e1, List.countP_eq_zero]
    intro i hi
    rw [hs i (by simpa using hi), hlane _ (hones _)]; simp
  subst hb
  rw [if_pos (Or.inl rfl)] at e2
  have hk : k = 0 := by
    rw [e3, List.countP_eq_zero]
    intro i hi
    have hi8 : i < 8 := by simpa using hi
    rw [show l = r from e2, hs i hi8, hlane]
    · simp
    · have := ones_byte x (i := 0) (k := i + 1) (by decide) (by omega)
      simp at this
      have h3 := hones (i + 1)
      simp; omega
  rw [e6, hk]; rfl

/-- C47 for `128 ≤ r < 192` when the one bit of index `r - 128` is bit `q` of the lowest byte: the answer is `72 - q`,
past the end of the word, or `None` if `q` is 0. -/
theorem C47_middle_low (c : Cfg) (x : BitVec 64) {r q : Nat} (h1 : 128 ≤ r) (h2 : r < 192) (hq : q < 8)
    (hlo : ones (blockBits x) q ≤ r - 128) (hhi : r - 128 < ones (blockBits x) (q + 1)) :
    bwSelect1 c r x = .ok (if q = 0 then none else some (72 - q)) := by
  have husz := c.le_pow_usz
  have hs := spreadByte_small (r := r) (by omega)
  have hlane : ∀ s, lane8 s r = decide (r - 128 < s) := by
    intro s
    unfold lane8
    rw [if_neg (by omega)]
  obtain ⟨b, l, k, e1, e2, e3, e4, e5, e6⟩ := C47_exact c x (by omega) (r := r) (by omega)
  have hb : b = 8 := by
    have : (List.range 8).countP (fun i => lane8 (ones (blockBits x) (8 * (i + 1))) (spreadByte r i)) = (List.range 8).length := by
      rw [List.countP_eq_length]
      intro i hi
      have := ones_mono (blockBits x) (show q + 1 ≤ 8 * (i + 1) by omega)
      rw [hs i (by simpa using hi), hlane]
      simp; omega
    rw [e1, this]; rfl
  subst hb
  rw [if_pos (Or.inr rfl)] at e2
  have hk : k = 8 - q := by
    have : ∀ i ∈ List.range 8, (lane8 (ones (natBits 8 (byteOf x (8 % 8))) (i + 1)) (spreadByte l i) = true ↔ decide (q ≤ i) = true) := by
      intro i hi
      have hi8 : i < 8 := by simpa using hi
      rw [show l = r from e2, hs i hi8, hlane]
      have e := ones_byte x (i := 0) (k := i + 1) (by decide) (by omega)
      simp [ones] at e
      simp [ones]
      simp [ones] at hlo hhi
      by_cases h : q ≤ i
      · have := ones_mono (blockBits x) (show q + 1 ≤ i + 1 by omega)
        simp [ones] at this
        omega
      · have := ones_mono (blockBits x) (show i + 1 ≤ q by omega)
        simp [ones] at this
        omega
    rw [e3, List.countP_congr this]
    exact (show ∀ q < 8, (List.range 8).countP (fun i => decide (q ≤ i)) = 8 - q by decide) q hq
  rw [e6, hk]
  by_cases h : q = 0
  · subst h; rfl
  · rw [if_neg (by omega), if_neg h]; congr 2; omega

example : bwSelect1 ⟨true, .p64, true⟩ 130 0x2C = .ok (some 67) ∧ bwSelect1 ⟨false, .p32, false⟩ 128 1 = .ok none := by decide

/-- C40, `Broadword` in builds without debug assertions at every `u64` position: the position is truncated to `usize`; then
the ones of the whole word are counted when `⌊(p+1)/64⌋` is odd and those of the first `(p+1) mod 64` bits otherwise. With
overflow checks the positions panic that truncate to `usize::MAX`. -/
theorem C40_broadword_release {c : Cfg} (ha : c.asserts = false) (x : BitVec 64) (p : Nat) :
    (p % 2 ^ c.usz = 2 ^ c.usz - 1 → c.debug = true → bwRank1 c x p = .panic) ∧
    ((p % 2 ^ c.usz = 2 ^ c.usz - 1 → c.debug = false) →
      bwRank1 c x p = .ok (ones (blockBits x) (if (p + 1) % 2 ^ c.usz / 64 % 2 = 1 then 64 else (p + 1) % 64))) := by
  have hda : debugAssert c (p < 64) = .ok () := by rw [debugAssert, ha]; rfl
  have hp2 := Nat.two_pow_pos c.usz
  have hpl := Nat.mod_lt p hp2
  refine ⟨fun h hd => ?_, fun hd => ?_⟩
  · rw [bwRank1, hda, Res.ok_bind, addN, asUsize, if_neg (by omega), overflow, hd]
    rfl
  have hdw := blk_dvd_usz c isBlk64
  have hadd : ∃ e, addN c c.usz (asUsize c p) 1 = .ok e ∧ e = (p + 1) % 2 ^ c.usz := by
    unfold addN asUsize
    split
    · rename_i h
      exact ⟨_, rfl, by rw [← Nat.mod_add_mod, Nat.mod_eq_of_lt h]⟩
    · rw [overflow, hd (by omega), if_neg (by simp)]
      exact ⟨_, rfl, by rw [Nat.mod_add_mod]⟩
  obtain ⟨e, he, hem⟩ := hadd
  rw [bwRank1, hda, Res.ok_bind, he, Res.ok_bind, hem,
    lowMask_release c isBlk64 (.inl ha) (Nat.mod_lt _ (Nat.two_pow_pos _)), Res.ok_bind, bwCountOnes_ok]
  congr 1
  unfold wideMask
  split
  · have : (~~~ 0 : BitVec 64) = maskB 64 64 := by decide +kernel
    rw [this, countOnes_mask x (Nat.le_refl _)]
  · rw [Nat.mod_mod_of_dvd _ hdw]
    exact countOnes_mask x (Nat.le_of_lt (Nat.mod_lt _ (by decide)))

example : bwRank1 ⟨false, .p64, false⟩ 0xFF 64 = .ok 8 ∧ bwRank1 ⟨false, .p64, false⟩ 0xFF 130 = .ok 3 ∧
    bwRank1 ⟨false, .p32, false⟩ 0xFF (2 ^ 32 + 4) = .ok 5 ∧
    bwRank1 ⟨true, .p32, false⟩ 0xFF (2 ^ 32 + 4) = .ok 5 ∧ bwRank1 ⟨true, .p32, false⟩ 0xFF (2 ^ 33 - 1) = .panic := by decide

/-- C40, the `rank0` every rank structure inherits (rank/traits.rs:38-40), at every `u64` position and for every answer
of `rank1`. Debug builds panic at the greatest `u64`, whatever `rank1` says; otherwise `rank0` fails as `rank1` does, and
subtracts its answer from `p + 1` modulo `2^64`, panicking in debug builds if it is greater. -/
theorem C40_rank0 (c : Cfg) (rank1 : S → Nat → Res Nat) (s : S) {p : Nat} (hp : p < 2 ^ 64) :
    (c.debug = true → p = 2 ^ 64 - 1 → dfltRank0 c rank1 s p = .panic) ∧
    (c.debug = false ∨ p ≠ 2 ^ 64 - 1 →
      (rank1 s p = .panic → dfltRank0 c rank1 s p = .panic) ∧
      (rank1 s p = .diverge → dfltRank0 c rank1 s p = .diverge) ∧
      (∀ r, rank1 s p = .ok r → r < 2 ^ 64 →
        dfltRank0 c rank1 s p = if c.debug = true ∧ p + 1 < r then .panic else .ok ((p + 1 + 2 ^ 64 - r) % 2 ^ 64))) := by
  refine ⟨fun hd he => ?_, fun hc => ?_⟩
  · rw [dfltRank0, addN, if_neg (by omega), overflow, hd]; rfl
  · have hadd : addN c 64 p 1 = .ok ((p + 1) % 2 ^ 64) := by
      unfold addN
      split
      · rename_i h; rw [Nat.mod_eq_of_lt h]
      · rename_i h
        have hd : c.debug = false := hc.resolve_right fun hne => h (by omega)
        rw [overflow, hd, if_neg (by simp)]
    refine ⟨fun h => ?_, fun h => ?_, fun r h hr => ?_⟩
    · rw [dfltRank0, hadd, Res.ok_bind, h]; rfl
    · rw [dfltRank0, hadd, Res.ok_bind, h]; rfl
    · rw [dfltRank0, hadd, Res.ok_bind, h, Res.ok_bind, subN]
      by_cases hm : p = 2 ^ 64 - 1
      · have hd : c.debug = false := hc.resolve_right fun hne => hne hm
        subst hm
        rw [if_neg (show ¬ (c.debug = true ∧ _) by rw [hd]; simp)]
        split
        · congr 1; omega
        · rw [overflow, hd, if_neg (by simp)]; congr 1; omega
      · rw [Nat.mod_eq_of_lt (show p + 1 < 2 ^ 64 by omega)]
        by_cases hle : r ≤ p + 1
        · rw [if_pos hle, if_neg (by omega)]; congr 1; omega
        · rw [if_neg hle, overflow]
          cases c.debug
          · rw [if_neg (by simp), if_neg (by simp)]
          · rw [if_pos rfl, if_pos ⟨rfl, by omega⟩]

/-- The prefix that `rank1` of a word counts past its end is no longer than the position allows. -/
private theorem counted_le (c : Cfg) (x : List Bool) (w p : Nat) :
    ones x (if (p + 1) % 2 ^ c.usz / w % 2 = 1 then w else (p + 1) % w) ≤ p + 1 := by
  refine Nat.le_trans (ones_le _ _) ?_
  split
  · rename_i h
    have h1 : 0 < (p + 1) % 2 ^ c.usz / w := Nat.pos_of_ne_zero fun e => by rw [e] at h; cases h
    exact Nat.le_trans (Nat.le_of_lt_succ (Nat.lt_succ_of_le ((Nat.div_pos_iff.1 h1).2))) (Nat.mod_le _ _)
  · exact Nat.mod_le _ _

/-- Words in builds without debug assertions. -/
theorem C40_words_rank0_release {c : Cfg} (ha : c.asserts = false) (h : IsBlk w) (x : BitVec w) {p : Nat} (hp : p < 2 ^ 64) :
    (p = 2 ^ 64 - 1 → c.debug = true → (primRank c w).rank0 x p = .panic) ∧
    ((p = 2 ^ 64 - 1 → c.debug = false) → (primRank c w).rank0 x p = .ok ((p + 1 + 2 ^ 64 -
      ones (blockBits x) (if (p + 1) % 2 ^ c.usz / w % 2 = 1 then w else (p + 1) % w)) % 2 ^ 64)) := by
  refine ⟨fun e hd => (C40_rank0 c (primRank1 c) x hp).1 hd e, fun hm => ?_⟩
  have hc : c.debug = false ∨ p ≠ 2 ^ 64 - 1 := by
    by_cases e : p = 2 ^ 64 - 1
    · exact .inl (hm e)
    · exact .inr e
  refine ((C40_rank0 c (primRank1 c) x hp).2 hc).2.2 _ ((C97_word_rank c h x hp).2.2.2 ha hm) ?_
    |>.trans (if_neg fun hh => Nat.not_lt_of_le (counted_le c _ w p) hh.2)
  exact Nat.lt_of_le_of_lt (ones_le_length _ _) (by rw [show (blockBits x).length = _ from length_natBits ..]; blk_cases h <;> decide)

/-- `Broadword` in builds without debug assertions. -/
theorem C40_broadword_rank0_release {c : Cfg} (ha : c.asserts = false) (x : BitVec 64) {p : Nat} (hp : p < 2 ^ 64) :
    (p % 2 ^ c.usz = 2 ^ c.usz - 1 → c.debug = true → (bwRank c).rank0 x p = .panic) ∧
    ((p % 2 ^ c.usz = 2 ^ c.usz - 1 → c.debug = false) → (bwRank c).rank0 x p = .ok ((p + 1 + 2 ^ 64 -
      ones (blockBits x) (if (p + 1) % 2 ^ c.usz / 64 % 2 = 1 then 64 else (p + 1) % 64)) % 2 ^ 64)) := by
  have hmax : p = 2 ^ 64 - 1 → p % 2 ^ c.usz = 2 ^ c.usz - 1 := by
    rcases c.usz_cases with e | e <;> rw [e] <;> omega
  have key : c.debug = false ∨ p ≠ 2 ^ 64 - 1 → _ := (C40_rank0 c (bwRank1 c) x hp).2
  refine ⟨fun e hd => ?_, fun hm => ?_⟩
  · by_cases e' : p = 2 ^ 64 - 1
    · exact (C40_rank0 c (bwRank1 c) x hp).1 hd e'
    · exact (key (.inr e')).1 ((C40_broadword_release ha x p).1 e hd)
  · have hc : c.debug = false ∨ p ≠ 2 ^ 64 - 1 := by
      by_cases e : p = 2 ^ 64 - 1
      · exact .inl (hm (hmax e))
      · exact .inr e
    refine (key hc).2.2 _ ((C40_broadword_release ha x p).2 hm) ?_
      |>.trans (if_neg fun hh => Nat.not_lt_of_le (counted_le c _ 64 p) hh.2)
    exact Nat.lt_of_le_of_lt (ones_le_length _ _) (by rw [show (blockBits x).length = _ from length_natBits ..]; decide)

/-- The largest position wraps to an empty prefix of both; one past the end of a byte, all of its ones are subtracted. -/
example : (primRank ⟨false, .p64, false⟩ 8).rank0 0xFF (2 ^ 64 - 1) = .ok 0 ∧ (primRank ⟨false, .p64, false⟩ 8).rank0 0xFF 8 = .ok 1 ∧
    (bwRank ⟨false, .p32, false⟩).rank0 0xFF (2 ^ 32 + 4) = .ok 4294967296 ∧ (bwRank ⟨false, .p64, false⟩).rank0 1 (2 ^ 64 - 1) = .ok 0 := by
  decide +kernel

/-- `Rank9` over a zero-padded vector, between the end of the vector and the end of its last block, in every build: the
padding counts as zeros. Together with `C39_rank9` and `C40_rank9_partial` this covers every position. -/
theorem C40_rank9_silent_all {c : Cfg} {o : BitVecOps 64 S} {R : S → List Bool → Prop} {r : Rank9 S}
    (hl : BVLaw c o R) (hbl : BVBlockRead o R) (hpad : BVPadLaw o R) {s : S} {bits : List Bool}
    (hR : R s bits) (hr : Rank9.new c o s = .ok r) (hu : blocksFor 64 bits.length + 8 < 2 ^ c.usz)
    {p : Nat} (h1 : bits.length ≤ p) (h2 : p < blocksFor 64 bits.length * 64) :
    (Rank9.ops c o).rank1 r p = .ok (bits.count true) ∧ (Rank9.ops c o).rank0 r p = .ok (p + 1 - bits.count true) ∧
    ∀ v, (Rank9.ops c o).rank r p v = .ok (if v then bits.count true else p + 1 - bits.count true) := by
  have e := C40_rank9_silent hl hbl hpad hR hr hu h1 h2
  have hn := hl.fits hR
  have hc : bits.count true ≤ bits.length := List.count_le_length
  have hp : p + 1 < 2 ^ 64 := by unfold Fits at hn; omega
  have e0 : (Rank9.ops c o).rank0 r p = .ok (p + 1 - bits.count true) := by
    refine ((C40_rank0 c (Rank9.rank1 c o) r (p := p) (by omega)).2 (.inr (by omega))).2.2 _ e (by omega) |>.trans ?_
    rw [if_neg (by omega)]
    congr 1; omega
  exact ⟨e, e0, fun v => by cases v with
    | false => exact e0
    | true => exact e⟩

/-- Three bits, two of them ones; position 5 lies in the padding. -/
example : (Rank9.new ⟨true, .p64, true⟩ (bvBitVec ⟨true, .p64, true⟩ 64) ⟨3, [5#64]⟩ >>=
    fun j => (Rank9.ops ⟨true, .p64, true⟩ (bvBitVec ⟨true, .p64, true⟩ 64)).rank0 j 5) = .ok 4 := by decide

/-! Each theorem of this file that has hypotheses is applied to concrete data in `Verif/Instances/SelectExact.lean`. -/

end Succinct
