import Verif.Props.Rank
import Verif.Props.MinimalImpl
/-! C150: vectors whose last block has bits behind the end.

`get_block` (traits.rs:38-53) says that "the last block will contain extra bits that are not part of the bit vector", not that they
are zero. All vectors of the crate have zeros there; a vector of a user's own need not. -/
namespace Succinct
open Spec

section
variable {S : Type} {w : Nat} {c : Cfg} {o : BitVecOps w S} {R : S → List Bool → Prop}

/-- C150. `JacobsonRank` over a vector with any extra bits. The ones of the last block, extra ones included, and those before
it are stored in an entry of `⌈lg (n + 1)⌉` bits: if they fit, every query is right; if not, construction panics. -/
theorem C150_jacobson_partial (hw : IsBlk w) (hl : BVLaw c o R) (hbl : BVBlockRead o R) {s : S} {bits : List Bool} (hR : R s bits)
    (hmem : InMemory c.usz bits.length) (h2 : 2 ≤ bits.length) {m : Nat} (hm : m + 1 = blocksFor w bits.length)
    {last : BitVec w} (hlast : o.getBlock s m = .ok last) {k : Nat} (hk : IsCeilLg (bits.length + 1) k) :
    (occ true bits (m * w) + (List.range w).countP last.toNat.testBit < 2 ^ k →
      ∃ j, Jacobson.new c o s = .ok j ∧ j.inner = s ∧ RankLaw (Jacobson.ops c o) j bits) ∧
    (2 ^ k ≤ occ true bits (m * w) + (List.range w).countP last.toNat.testBit → Jacobson.new c o s = .panic) := by
  obtain ⟨blk, lg, spl, kl, ks, hblk, h3, h4, h5, h6, h7, h8⟩ := jacobson_new_any hw hl hbl hR hmem h2
  have hkk : kl = k := by
    rcases Nat.lt_trichotomy kl k with h | h | h
    · have := hk.2 kl h5.1; omega
    · exact h
    · have := h5.2 k hk.1; omega
  subst hkk
  have hp : prefixOnes blk (blocksFor w bits.length) = occ true bits (m * w) + (List.range w).countP last.toNat.testBit := by
    have hb := hblk.get m (by omega)
    rw [hlast] at hb
    rw [← hm, Res.ok.inj hb]
    show prefixOnes blk m + countOnes (blk m) = _
    rw [← hblk.ones_mul (Nat.le_of_lt ((lt_blocksFor hw.pos).1 (by omega)))]
    rfl
  rw [← hp]
  refine ⟨fun h => ?_, h8⟩
  obtain ⟨j, hj, hs, hok⟩ := h7 h
  subst hs
  exact ⟨j, hj, rfl, rankLaw_of_rank1 c (by have := (hl.fits hR).lt hw.pos; omega) (hl.bitLen hR)
    (fun p hp => jacobson_rank1_ok hw hl hR hblk hok hp)⟩

/-- C150. With as many bits as fit in the entry less those of a block, no extra bits matter. -/
theorem C150_jacobson_roomy_partial (hw : IsBlk w) (hl : BVLaw c o R) (hbl : BVBlockRead o R) {s : S} {bits : List Bool} (hR : R s bits)
    (hmem : InMemory c.usz bits.length) (h2 : 2 ≤ bits.length) {k : Nat} (hk : IsCeilLg (bits.length + 1) k)
    (hroom : bits.length + w ≤ 2 ^ k) :
    ∃ j, Jacobson.new c o s = .ok j ∧ j.inner = s ∧ RankLaw (Jacobson.ops c o) j bits := by
  have h0 : 0 < blocksFor w bits.length := (lt_blocksFor hw.pos).2 (by omega)
  obtain ⟨m, hm⟩ : ∃ m, m + 1 = blocksFor w bits.length := ⟨blocksFor w bits.length - 1, by omega⟩
  obtain ⟨last, hlast, -⟩ := hbl.getBlock hR m (by omega)
  refine (C150_jacobson_partial hw hl hbl hR hmem h2 hm hlast hk).1 ?_
  have h3 : occ true bits (m * w) ≤ m * w := by
    unfold occ
    exact Nat.le_trans List.count_le_length (by rw [List.length_take]; omega)
  have h4 : (List.range w).countP last.toNat.testBit ≤ w := by
    have := List.countP_le_length (p := last.toNat.testBit) (l := List.range w); simpa using this
  have h5 := (lt_blocksFor hw.pos).1 (show m < blocksFor w bits.length by omega)
  omega
end

/-- a vector of words with a length of its own, which reads the words as they are -/
def wordsGetBlock {w : Nat} (s : Nat × List (BitVec w)) (i : Nat) : Res (BitVec w) := do
  assertR (i < blocksFor w s.1)
  vecGet s.2 i

def wordsBitVec (c : Cfg) (w : Nat) : BitVecOps w (Nat × List (BitVec w)) := implGetBlock c (fun s => .ok s.1) wordsGetBlock

/-- its bits -/
def wordsR (c : Cfg) (w : Nat) (s : Nat × List (BitVec w)) (bits : List Bool) : Prop :=
  Fits c.usz w s.1 ∧ s.2.length = blocksFor w s.1 ∧ bits = (arrayBits s.2).take s.1

theorem words_law (c : Cfg) (h : IsBlk w) : BVLaw c (wordsBitVec c w) (wordsR c w) ∧ BVBlockLaw c (wordsBitVec c w) (wordsR c w) := by
  have hlen : ∀ {s bits}, wordsR c w s bits → bits.length = s.1 := by
    rintro s bits ⟨-, h2, rfl⟩
    rw [List.length_take, length_arrayBits, h2]
    have := le_blocksFor_mul s.1 h.pos
    omega
  refine C133_get_block h (fun hR => by rw [hlen hR]; exact hR.1) (fun hR => by rw [hlen hR]) ?_ ?_
  · intro s bits hR i hi
    rw [hlen hR] at hi
    obtain ⟨-, h2, h3⟩ := id hR
    have hi' : i < s.2.length := by omega
    refine ⟨s.2[i], by unfold wordsGetBlock; rw [assertR_true hi, Res.ok_bind, vecGet, List.getElem?_eq_getElem hi']; rfl, ?_⟩
    intro j hj hij
    rw [hlen hR] at hij
    have e1 : (i * w + j) / w = i := by rw [Nat.mul_comm, Nat.mul_add_div h.pos, Nat.div_eq_of_lt hj]; rfl
    have e2 : (i * w + j) % w = j := by rw [Nat.mul_comm, Nat.mul_add_mod, Nat.mod_eq_of_lt hj]
    have hl := le_blocksFor_mul s.1 h.pos
    rw [h3, List.getElem?_take, if_pos hij, getElem?_arrayBits _ h.pos, if_pos (by rw [h2]; omega), vbit, e1, e2,
      List.getElem?_eq_getElem hi']
    rfl
  · intro s bits hR i hi _
    rw [hlen hR] at hi
    unfold wordsGetBlock
    rw [assertR_false (by omega)]; rfl

/-- C150, counterexample: seven ones in the byte `0xFF`. The vector keeps every law of the trait, and `JacobsonRank::new` panics:
eight ones do not fit in three bits. -/
theorem C150_counterexample (c : Cfg) : ∃ (s : Nat × List (BitVec 8)) (bits : List Bool),
    BVLaw c (wordsBitVec c 8) (wordsR c 8) ∧ BVBlockLaw c (wordsBitVec c 8) (wordsR c 8) ∧ wordsR c 8 s bits ∧
    bits = List.replicate 7 true ∧ Jacobson.new c (wordsBitVec c 8) s = .panic := by
  have l := words_law (w := 8) c isBlk8
  have hR : wordsR c 8 (7, [0xFF#8]) (List.replicate 7 true) := by
    refine ⟨?_, by decide, by decide⟩
    cases c with | mk d p a => cases d <;> cases p <;> cases a <;> decide
  refine ⟨_, _, l.1, l.2, hR, rfl, ?_⟩
  refine (C150_jacobson_partial isBlk8 l.1 l.2.toBVBlockRead hR ?_ (by decide) (m := 0) (by decide) (last := 0xFF#8) (by rfl) (k := 3)
    ⟨by decide, fun k hk => ?_⟩).2 (by decide)
  · cases c with | mk d p a => cases d <;> cases p <;> cases a <;> decide
  · rcases k with _ | _ | _ | k
    · exact absurd hk (by decide)
    · exact absurd hk (by decide)
    · exact absurd hk (by decide)
    · omega

-- with a zero in the extra bit, or among the seven, it is built; nine ones and seven extra ones do not fit in four bits,
-- nine and six do; with no extra bits nothing is wrong;
-- `Rank9` has no use for the extra bits
example : let o := wordsBitVec ⟨true, .p64, true⟩ 8
    (Jacobson.new ⟨true, .p64, true⟩ o (7, [0x7F#8]) >>= fun j => (Jacobson.ops ⟨true, .p64, true⟩ o).rank1 j 6) = .ok 7 ∧
    (Jacobson.new ⟨true, .p64, true⟩ o (7, [0xBF#8]) >>= fun j => (Jacobson.ops ⟨true, .p64, true⟩ o).rank1 j 6) = .ok 6 ∧
    (Jacobson.new ⟨true, .p64, true⟩ o (9, [0xFF#8, 0xFF#8]) >>= fun j => (Jacobson.ops ⟨true, .p64, true⟩ o).rank1 j 8) = .panic ∧
    (Jacobson.new ⟨true, .p64, true⟩ o (9, [0xFF#8, 0xFD#8]) >>= fun j => (Jacobson.ops ⟨true, .p64, true⟩ o).rank1 j 8) = .ok 9 ∧
    (Jacobson.new ⟨true, .p64, true⟩ o (16, [0xFF#8, 0xFF#8]) >>= fun j => (Jacobson.ops ⟨true, .p64, true⟩ o).rank1 j 15) = .ok 16 := by
  decide +kernel

example : let o := wordsBitVec ⟨true, .p64, true⟩ 64
    (Rank9.new ⟨true, .p64, true⟩ o (7, [0xFFFFFFFFFFFFFFFF#64]) >>= fun j => (Rank9.ops ⟨true, .p64, true⟩ o).rank1 j 6) = .ok 7 := by
  decide +kernel

/-! Each theorem of this file that has hypotheses is applied to concrete data in `Verif/Instances/ExtraBits.lean`. -/

end Succinct
