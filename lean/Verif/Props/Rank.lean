import Verif.RankLaw
import Verif.Lemmas.Jacobson
import Verif.Lemmas.Rank9
import Verif.Lemmas.Instances
import Verif.Lemmas.BitVector
/-! Properties C36–C42 (rank). -/
namespace Succinct
open Spec

/-- The default `rank0` and the common `rank` are right when `rank1` is. -/
theorem rankLaw_of_rank1 (c : Cfg) {limit : S → Res Nat} {rank1 : S → Nat → Res Nat} {s : S} {bits : List Bool}
    (hn : bits.length < 2 ^ 64) (hl : limit s = .ok bits.length)
    (h1 : ∀ p < bits.length, rank1 s p = .ok (ones bits (p + 1))) : RankLaw (rankOps c limit rank1) s bits := by
  have h0 : ∀ p < bits.length, dfltRank0 c rank1 s p = .ok (zeros bits (p + 1)) := by
    intro p hp
    unfold dfltRank0
    have := ones_le bits (p + 1)
    rw [addN_ok (by omega), Res.ok_bind, h1 p hp, Res.ok_bind, subN_ok (by omega), zeros_eq bits (by omega)]
  refine ⟨hn, hl, h1, h0, fun p hp v => ?_⟩
  cases v
  · exact h0 p hp
  · exact h1 p hp

/-! ### C36: words -/

/-- C36. Rank queries on `u8`…`usize`: `rank1`, `rank0` and `rank` count the bits at positions `0..=p`. -/
theorem C36_words (c : Cfg) (h : IsBlk w) (x : BitVec w) : RankLaw (primRank c w) x (blockBits x) := by
  have hw := h.le
  have hlen : (blockBits x).length = w := by simp [blockBits, natBits]
  refine rankLaw_of_rank1 c (by omega) (by rw [hlen]) (fun p hp => primRank1_ok c h x (by omega))

example (c : Cfg) : (primRank c 8).rank1 0b01010101 3 = .ok 2 ∧ (primRank c 8).rank0 0b01010101 3 = .ok 2 ∧
    (primRank c 8).rank 0b01010101 4 true = .ok 3 := by
  have h := C36_words c isBlk8 0b01010101
  exact ⟨h.rank1 3 (by decide), h.rank0 3 (by decide), h.rank 4 (by decide) true⟩

/-! ### C37, C38: Jacobson -/

section
variable {S : Type} {w : Nat} {c : Cfg} {o : BitVecOps w S} {R : S → List Bool → Prop}

/-- C37. Over every vector of at least 2 bits whose last block is zero-padded, Jacobson's structure can be
built and answers every rank query correctly. -/
theorem C37_jacobson (hw : IsBlk w) (hl : BVLaw c o R) (hbl : BVBlockRead o R) (hpad : BVPadLaw o R)
    {s : S} {bits : List Bool} (hR : R s bits) (hmem : InMemory c.usz bits.length) (h2 : 2 ≤ bits.length) :
    ∃ j, Jacobson.new c o s = .ok j ∧ j.inner = s ∧ RankLaw (Jacobson.ops c o) j bits := by
  obtain ⟨blk, j, lg, spl, kl, ks, hblk, hj, hs, hok, -⟩ := jacobson_new_ok hw hl hbl hpad hR hmem h2
  subst hs
  exact ⟨j, hj, rfl, rankLaw_of_rank1 c (by have := (hl.fits hR).lt hw.pos; omega) (hl.bitLen hR)
    (fun p hp => jacobson_rank1_ok hw hl hR hblk hok hp)⟩

/-- C38, counterexample: on an empty or one-bit vector `JacobsonRank::new` divides by zero. -/
theorem C38_short_vectors_panic (hw : IsBlk w) (hl : BVLaw c o R) {s : S} {bits : List Bool} (hR : R s bits)
    (h1 : bits.length ≤ 1) : Jacobson.new c o s = .panic := by
  have hwp := hw.pos
  have husz := c.le_pow_usz
  have hw64 := hw.le
  have e1 : (BitVec.ofNat 64 bits.length).toNat = bits.length := ofNat64_toNat (by omega)
  have e2 : ceilLg c (BitVec.ofNat 64 bits.length) = .ok 0 := by
    obtain ⟨n, h, h', -⟩ := C04_ceil_lg c isBlk64 (BitVec.ofNat 64 bits.length)
    rw [h, h' (by omega)]
  unfold Jacobson.new ceilDiv
  rw [hl.bitLen hR, Res.ok_bind, e2, Res.ok_bind, mulN_ok (by omega), Res.ok_bind, addN_ok (by omega), Res.ok_bind,
    subN_ok (by omega), Res.ok_bind, divN_ok hwp, Res.ok_bind, show (0 * 0 + w - 1) / w = 0 from Nat.div_eq_of_lt (by omega),
    mulN_ok (by omega), Res.ok_bind]
  rfl

/-- C38, the part that holds: construction succeeds on every zero-padded vector of at least two bits. Missing
for the full claim: vectors of length 0 and 1, on which it panics (`C38_short_vectors_panic`). -/
theorem C38_buildable_partial (hw : IsBlk w) (hl : BVLaw c o R) (hbl : BVBlockRead o R) (hpad : BVPadLaw o R)
    {s : S} {bits : List Bool} (hR : R s bits) (hmem : InMemory c.usz bits.length) :
    (∃ j, Jacobson.new c o s = .ok j) ↔ 2 ≤ bits.length := by
  constructor
  · rintro ⟨j, hj⟩
    rcases Nat.lt_or_ge bits.length 2 with h | h
    · rw [C38_short_vectors_panic hw hl hR (by omega)] at hj; cases hj
    · exact h
  · intro h
    obtain ⟨j, hj, -⟩ := C37_jacobson hw hl hbl hpad hR hmem h
    exact ⟨j, hj⟩

end

/-- Every `BitVector` of at least two bits supports Jacobson rank. -/
theorem C37_bit_vector (c : Cfg) (hw : IsBlk w) {s : VB w} (hR : bvR c w s bits) (hmem : InMemory c.usz bits.length)
    (h2 : 2 ≤ bits.length) :
    ∃ j, Jacobson.new c (bvBitVec c w) s = .ok j ∧ RankLaw (Jacobson.ops c (bvBitVec c w)) j bits := by
  obtain ⟨j, h1, -, h3⟩ := C37_jacobson hw (bv_law c hw) (bv_block c hw).toBVBlockRead (bv_pad c hw) hR hmem h2
  exact ⟨j, h1, h3⟩

example : (Jacobson.new ⟨true, .p64, true⟩ (bvBitVec ⟨true, .p64, true⟩ 8) ⟨11, [0b10110101#8, 0b101#8]⟩ >>=
    fun j => (Jacobson.ops ⟨true, .p64, true⟩ (bvBitVec ⟨true, .p64, true⟩ 8)).rank1 j 10) = .ok 7 := by decide
example : Jacobson.new ⟨true, .p64, true⟩ (bvBitVec ⟨true, .p64, true⟩ 8) ⟨1, [1#8]⟩ matches .panic := by decide

/-! ### C39: Rank9 -/

section
variable {S : Type} {c : Cfg} {o : BitVecOps 64 S} {R : S → List Bool → Prop}

/-- C39. Over every vector of 64-bit blocks, whatever its padding, `Rank9` can be built and answers every rank
query correctly. `hu`: the number of blocks, rounded up to a multiple of eight, is a `usize`. -/
theorem C39_rank9 (hl : BVLaw c o R) (hbl : BVBlockRead o R) {s : S} {bits : List Bool} (hR : R s bits)
    (hu : blocksFor 64 bits.length + 8 < 2 ^ c.usz) :
    ∃ r, Rank9.new c o s = .ok r ∧ r.inner = s ∧ RankLaw (Rank9.ops c o) r bits := by
  have hf := hl.fits hR
  obtain ⟨blk, r, hblk, hr, hs, hok⟩ := rank9_new_ok hbl hR hf hu
  subst hs
  exact ⟨r, hr, rfl, rankLaw_of_rank1 c (by have := hf.lt (by omega); omega) (hl.bitLen hR)
    (fun p hp => rank9_rank1_ok hf hblk hok hp)⟩

end

theorem C39_bit_vector (c : Cfg) {s : VB 64} (hR : bvR c 64 s bits) (hu : blocksFor 64 bits.length + 8 < 2 ^ c.usz) :
    ∃ r, Rank9.new c (bvBitVec c 64) s = .ok r ∧ RankLaw (Rank9.ops c (bvBitVec c 64)) r bits := by
  obtain ⟨r, h1, -, h3⟩ := C39_rank9 (bv_law c isBlk64) (bv_block c isBlk64).toBVBlockRead hR hu
  exact ⟨r, h1, h3⟩

/-- A plain `Vec<u64>` works as well. -/
theorem C39_vec (c : Cfg) {v : List (BitVec 64)} (hR : vecR c 64 v bits) (hu : blocksFor 64 bits.length + 8 < 2 ^ c.usz) :
    ∃ r, Rank9.new c (vecBitVec c 64) v = .ok r ∧ RankLaw (Rank9.ops c (vecBitVec c 64)) r bits := by
  obtain ⟨r, h1, -, h3⟩ := C39_rank9 (vec_law c isBlk64) (vec_block c isBlk64).toBVBlockRead hR hu
  exact ⟨r, h1, h3⟩

example : (Rank9.new ⟨true, .p32, true⟩ (bvBitVec ⟨true, .p32, true⟩ 64) ⟨130, [5#64, 7#64, 3#64]⟩ >>=
    fun j => (Rank9.ops ⟨true, .p32, true⟩ (bvBitVec ⟨true, .p32, true⟩ 64)).rank1 j 129) = .ok 7 := by decide

/-! ### C40: past the end -/

theorem dfltRank0_panic (c : Cfg) {rank1 : S → Nat → Res Nat} {s : S} {p : Nat} (h : rank1 s p = .panic) :
    dfltRank0 c rank1 s p = .panic := by
  unfold dfltRank0
  rw [h]
  unfold addN overflow
  split
  · rfl
  · split <;> rfl

/-- All three queries at `p` panic. -/
def RankPanics (r : RankOps S) (s : S) (p : Nat) : Prop :=
  r.rank1 s p = .panic ∧ r.rank0 s p = .panic ∧ ∀ v, r.rank s p v = .panic

theorem rankPanics_of_rank1 (c : Cfg) {limit : S → Res Nat} {rank1 : S → Nat → Res Nat} {s : S} {p : Nat}
    (h : rank1 s p = .panic) : RankPanics (rankOps c limit rank1) s p := by
  refine ⟨h, dfltRank0_panic c h, fun v => ?_⟩
  cases v
  · exact dfltRank0_panic c h
  · exact h

/-- C40 for Jacobson: every query at or past the end panics, in every build and for any underlying vector. -/
theorem C40_jacobson (c : Cfg) {o : BitVecOps w S} {j : Jacobson S} {n : Nat} (hn : (Jacobson.ops c o).limit j = .ok n)
    {p : Nat} (hp : n ≤ p) : RankPanics (Jacobson.ops c o) j p := by
  refine rankPanics_of_rank1 c ?_
  have hn : o.bitLen j.bitStore = .ok n := hn
  unfold Jacobson.rank1
  rw [hn, Res.ok_bind, assertR_false (by omega)]; rfl

/-- C40 for words, in builds with debug assertions. Missing for the full claim: the other builds
(`C40_words_release_counterexample`; what they do is `C97_word_rank`). -/
theorem C40_words_debug_partial {c : Cfg} (hd : c.asserts = true) (x : BitVec w) {p : Nat} (hp : w ≤ p) :
    RankPanics (primRank c w) x p := by
  refine rankPanics_of_rank1 c ?_
  unfold primRank1 debugAssert
  rw [hd, if_pos rfl, assertR_false (by omega)]; rfl

/-- C40, counterexample for words: without debug assertions a query past the end returns a number. -/
theorem C40_words_release_counterexample : (primRank ⟨false, .p64, false⟩ 8).limit 0xFF = .ok 8 ∧
    (primRank ⟨false, .p64, false⟩ 8).rank1 0xFF 16 = .ok 1 ∧ (primRank ⟨true, .p64, false⟩ 8).rank1 0xFF 16 = .ok 1 := by decide

section
variable {c : Cfg} {o : BitVecOps 64 S} {R : S → List Bool → Prop} {r : Rank9 S}

/-- C40 for `Rank9`: queries past the last block panic. Missing for the full claim: positions between the end
of the vector and the end of its last block (`C40_rank9_silent`). -/
theorem C40_rank9_partial (hl : BVLaw c o R) (hbl : BVBlockLaw c o R) {s : S} {bits : List Bool} (hR : R s bits)
    (hr : Rank9.new c o s = .ok r) (hu : blocksFor 64 bits.length + 8 < 2 ^ c.usz)
    {p : Nat} (hp : blocksFor 64 bits.length * 64 ≤ p) : RankPanics (Rank9.ops c o) r p := by
  have hf := hl.fits hR
  obtain ⟨blk, r', hblk, hr', hs, hok⟩ := rank9_new_ok hbl.toBVBlockRead hR hf hu
  rw [hr] at hr'
  cases hr'
  refine rankPanics_of_rank1 c ?_
  unfold Rank9.rank1 toUsize
  by_cases h1 : p / 512 < 2 ^ c.usz
  · by_cases h2 : p / 64 < 2 ^ c.usz
    · rw [if_pos h1, expectR_some, Res.ok_bind, if_pos h2, expectR_some, Res.ok_bind]
      unfold vecGet
      cases h3 : r.counts[p / 512]? with
      | none => rfl
      | some cell =>
        rw [expectR_some, Res.ok_bind, level2Get_ok c _ (by omega), Res.ok_bind, hs,
          hbl.getBlock_panic hR _ (by omega) h2]
        rfl
    · rw [if_pos h1, expectR_some, Res.ok_bind, if_neg h2]; rfl
  · rw [if_neg h1]; rfl

/-- The bits of a zero-padded vector up to the end of its last block. -/
theorem blocksOf_pad (hpad : BVPadLaw o R) {s : S} {bits : List Bool} {blk : Nat → BitVec 64} (hR : R s bits)
    (h : BlocksOf o s bits blk) : BlocksOf o s (padTo 64 bits) blk := by
  have hlen : (padTo 64 bits).length = blocksFor 64 bits.length * 64 := by
    unfold padTo blocksFor
    rw [List.length_append, List.length_replicate]; omega
  have hb : blocksFor 64 (padTo 64 bits).length = blocksFor 64 bits.length := by
    rw [hlen]; unfold blocksFor; omega
  refine ⟨fun i hi => h.get i (by omega), fun i j hj hij => ?_⟩
  have hi : i < blocksFor 64 bits.length := by omega
  have e1 := h.get i hi
  rw [hpad.getBlock hR i hi] at e1
  have e2 := Res.ok.inj e1
  rw [← e2]
  unfold padTo
  rw [BitVec.toNat_ofNat, Nat.mod_eq_of_lt (span_lt bits _ _ 64 (Nat.le_refl _)), testBit_bitsVal, List.getElem?_take,
    if_pos hj, List.getElem?_drop, List.getElem?_append]
  split
  · rename_i hlt; rw [List.getElem?_eq_getElem hlt]; rfl
  · rename_i hge
    rw [List.getElem?_eq_none (by omega), List.getElem?_replicate, if_pos (by omega)]; rfl

/-- C40, counterexample for `Rank9`: between the end of a zero-padded vector and the end of its last block no
query panics; `rank1` answers with the number of ones in the whole vector. -/
theorem C40_rank9_silent (hl : BVLaw c o R) (hbl : BVBlockRead o R) (hpad : BVPadLaw o R) {s : S} {bits : List Bool}
    (hR : R s bits) (hr : Rank9.new c o s = .ok r) (hu : blocksFor 64 bits.length + 8 < 2 ^ c.usz)
    {p : Nat} (h1 : bits.length ≤ p) (h2 : p < blocksFor 64 bits.length * 64) :
    (Rank9.ops c o).rank1 r p = .ok (bits.count true) := by
  have hf := hl.fits hR
  obtain ⟨blk, r', hblk, hr', hs, hok⟩ := rank9_new_ok hbl hR hf hu
  rw [hr] at hr'
  cases hr'
  subst hs
  have hblk' := blocksOf_pad hpad hR hblk
  have hlen : (padTo 64 bits).length = blocksFor 64 bits.length * 64 := by
    unfold padTo blocksFor
    rw [List.length_append, List.length_replicate]; omega
  have hb : blocksFor 64 (padTo 64 bits).length = blocksFor 64 bits.length := by
    rw [hlen]; unfold blocksFor; omega
  have e := rank9_rank1_ok (c := c) (bits := padTo 64 bits) (p := p) (by unfold Fits; rw [hb]; exact hf) hblk' (by rw [hb]; exact hok)
    (by omega)
  refine e.trans ?_
  unfold ones padTo
  rw [List.take_append, List.take_of_length_le (by omega), List.count_append, List.take_replicate, List.count_replicate]
  simp

end

example : (Rank9.new ⟨true, .p64, true⟩ (bvBitVec ⟨true, .p64, true⟩ 64) ⟨3, [5#64]⟩ >>=
    fun j => (Rank9.ops ⟨true, .p64, true⟩ (bvBitVec ⟨true, .p64, true⟩ 64)).rank1 j 5) = .ok 2 := by decide

/-! ### C41: laws of rank -/

/-- C41. What a client can rely on for every lawful rank structure, in terms of its answers only. -/
theorem C41_rank_laws {r : RankOps S} {s : S} {bits : List Bool} (h : RankLaw r s bits) {p : Nat} (hp : p < bits.length) :
    ∃ a b, r.rank1 s p = .ok a ∧ r.rank0 s p = .ok b ∧ a + b = p + 1 ∧
      (p = 0 → (bits[p] = true ↔ a = 1)) ∧
      (∀ q, p ≤ q → q < bits.length → ∃ a' b', r.rank1 s q = .ok a' ∧ r.rank0 s q = .ok b' ∧ a ≤ a' ∧ b ≤ b' ∧
        a' ≤ a + (q - p) ∧ b' ≤ b + (q - p)) ∧
      (∀ hq : p + 1 < bits.length, ∃ a' b', r.rank1 s (p + 1) = .ok a' ∧ r.rank0 s (p + 1) = .ok b' ∧
        (bits[p + 1] = true ↔ a' = a + 1) ∧ (bits[p + 1] = false ↔ b' = b + 1)) := by
  have e := ones_add_zeros bits (p + 1)
  rw [Nat.min_eq_left (by omega)] at e
  refine ⟨_, _, h.rank1 p hp, h.rank0 p hp, e, ?_, ?_, ?_⟩
  · rintro rfl
    rw [ones_succ bits hp]
    have : ones bits 0 = 0 := rfl
    cases bits[0] <;> simp [this]
  · intro q hq hql
    have e' := ones_add_zeros bits (q + 1)
    rw [Nat.min_eq_left (by omega)] at e'
    have h1 := ones_mono bits (show p + 1 ≤ q + 1 by omega)
    have h2 : zeros bits (p + 1) ≤ zeros bits (q + 1) := by
      unfold zeros
      rw [show bits.take (p + 1) = (bits.take (q + 1)).take (p + 1) by rw [List.take_take, Nat.min_eq_left (by omega)]]
      exact (List.take_sublist _ _).count_le _
    exact ⟨_, _, h.rank1 q hql, h.rank0 q hql, h1, h2, by omega, by omega⟩
  · intro hq
    have e' := ones_add_zeros bits (p + 1 + 1)
    rw [Nat.min_eq_left (by omega)] at e'
    refine ⟨_, _, h.rank1 _ hq, h.rank0 _ hq, ?_⟩
    have h3 := ones_succ bits hq
    cases hb : bits[p + 1] <;> rw [hb] at h3 <;> simp at h3 ⊢ <;> omega

/-! ### C42: wrappers -/

/-- The adapter macro: every method of the wrapper is the wrapped value's. -/
def Transparent (field : T → S) (o' : BitVecOps w T) (o : BitVecOps w S) : Prop :=
  ∀ t, o'.bitLen t = o.bitLen (field t) ∧ o'.blockLen t = o.blockLen (field t) ∧
    (∀ i, o'.getBlock t i = o.getBlock (field t) i) ∧ (∀ i, o'.getBit t i = o.getBit (field t) i) ∧
    (∀ p n, o'.getBits t p n = o.getBits (field t) p n)

/-- A transparent wrapper of a lawful vector is lawful. -/
theorem Transparent.law {field : T → S} {o' : BitVecOps w T} {o : BitVecOps w S} (ht : Transparent field o' o)
    (h : BVLaw c o R) : BVLaw c o' (fun t => R (field t)) where
  fits := h.fits
  bitLen := fun {t _} hR => (ht t).1.trans (h.bitLen hR)
  getBit := fun {t _} hR i hi => ((ht t).2.2.2.1 i).trans (h.getBit hR i hi)
  getBits := fun {t _} hR p n h1 h2 h3 => ((ht t).2.2.2.2 p n).trans (h.getBits hR p n h1 h2 h3)
  getBits_panic := fun {t _} hR p n h1 h2 h3 => ((ht t).2.2.2.2 p n).trans (h.getBits_panic hR p n h1 h2 h3)

theorem C42_jacobson (o : BitVecOps w S) : Transparent Jacobson.inner (Jacobson.bitVec o) o :=
  fun _ => ⟨rfl, rfl, fun _ => rfl, fun _ => rfl, fun _ _ => rfl⟩

theorem C42_jacobson_inner (c : Cfg) (o : BitVecOps w S) {s : S} {j : Jacobson S} (h : Jacobson.new c o s = .ok j) :
    j.inner = s := by
  unfold Jacobson.new at h
  repeat (obtain ⟨_, -, h⟩ := Res.of_bind_ok h)
  cases h; rfl

theorem C42_rank9 (o : BitVecOps 64 S) : Transparent Rank9.inner (Rank9.bitVec o) o :=
  fun _ => ⟨rfl, rfl, fun _ => rfl, fun _ => rfl, fun _ _ => rfl⟩

theorem C42_rank9_inner (c : Cfg) (o : BitVecOps 64 S) {s : S} {r : Rank9 S} (h : Rank9.new c o s = .ok r) :
    r.inner = s := by
  unfold Rank9.new at h
  repeat (obtain ⟨_, -, h⟩ := Res.of_bind_ok h)
  cases h; rfl

example : (Jacobson.new ⟨true, .p64, true⟩ (bvBitVec ⟨true, .p64, true⟩ 8) ⟨11, [0b10110101#8, 0b101#8]⟩ >>=
    fun j => (Jacobson.bitVec (bvBitVec ⟨true, .p64, true⟩ 8)).getBlock j 1) = .ok 0b101 := by decide

/-! Each theorem of this file that has hypotheses is applied to concrete data in `Verif/Instances/Rank.lean`. -/

end Succinct
