import Verif.Lemmas.IntVector
import Verif.Props.SliceUse
import Verif.Props.Select
import Verif.Props.Stream
/-! Property C94: the bit vectors of the crate, nested in one another. -/
namespace Succinct
open Spec

/-- What can be done with a bit vector: read its bits; read its blocks as well; read its blocks, and have every
block index out of range rejected. -/
inductive Level
  | bits
  | blocks
  | checked
deriving DecidableEq

/-- The values of the types of the crate that implement `BitVec`, built from one another in any way and to any depth:
`Store c l o s bits` says that `s`, read with the methods `o`, is such a value and was made from the bits `bits`.
A slice gives blocks when it is a whole number of blocks long (C35); a buffer needs a vector with checked block indices. -/
inductive Store (c : Cfg) : Level → {w : Nat} → {S : Type} → BitVecOps w S → S → List Bool → Prop
  | bitVector {s : VB w} : bvR c w s bits → Store c .checked (bvBitVec c w) s bits
  | intVector {s : IV w} : ivR c w s bits → Store c .checked (ivBitVec c w) s bits
  | vec {v : List (BitVec w)} : vecR c w v bits → Store c .checked (vecBitVec c w) v bits
  | boolVec {v : List Bool} : boolR c v bits → Store c .checked (boolVecBitVec c) v bits
  | word (x : BitVec w) : Store c .checked (primBitVec c w) x (blockBits x)
  | slice {o : BitVecOps w S} {r : RangeArg} : Store c l o s bits → r.Within bits.length a b → b ≤ bits.length →
      Slice.new o s r = .ok t →
      Store c (if w ∣ b - a then .blocks else .bits) (sliceBitVec c o) t (window bits a (b - a))
  | jacobson {o : BitVecOps w S} : Store c l o s bits → Jacobson.new c o s = .ok j → Store c l (Jacobson.bitVec o) j bits
  | rank9 {o : BitVecOps 64 S} : Store c l o s bits → Rank9.new c o s = .ok j → Store c l (Rank9.bitVec o) j bits
  | select {o : BitVecOps w S} : Store c l o s bits → Store c l (BinSearchSelect.bitVec o) (.new s) bits
  | buffer {o : BitVecOps w S} (p : Nat) : Store c .checked o s bits → Store c .checked (BitBuf.bitVec c o) ⟨s, p⟩ bits

/-- what a level promises -/
def Level.Law (c : Cfg) (l : Level) (o : BitVecOps w S) (R : S → List Bool → Prop) : Prop :=
  BVLaw c o R ∧ (l ≠ .bits → BVBlockRead o R ∧ BVPadLaw o R) ∧ (l = .checked → BVBlockLaw c o R)

theorem Level.Law.ofBlocks {o : BitVecOps w S} (h1 : BVLaw c o R) (h2 : BVBlockLaw c o R) (h3 : BVPadLaw o R) :
    Level.Law c l o R := ⟨h1, fun _ => ⟨h2.toBVBlockRead, h3⟩, fun _ => h2⟩

theorem Level.Law.adapt {field : T → S} {o : BitVecOps w S} {o' : BitVecOps w T} (ht : Transparent field o' o)
    (h : Level.Law c l o R) : Level.Law c l o' (fun t => R (field t)) := by
  refine ⟨ht.law h.1, fun hl => ⟨⟨fun {t _} hR => (ht t).2.1.trans ((h.2.1 hl).1.blockLen hR), fun {t _} hR i hi => ?_⟩,
    ⟨fun {t _} hR i hi => ((ht t).2.2.1 i).trans ((h.2.1 hl).2.getBlock hR i hi)⟩⟩, fun hl => ?_⟩
  · rw [(ht t).2.2.1 i]
    exact (h.2.1 hl).1.getBlock hR i hi
  · have h' := h.2.2 hl
    refine ⟨⟨fun {t _} hR => (ht t).2.1.trans (h'.blockLen hR), fun {t _} hR i hi => ?_⟩,
      fun {t _} hR i h1 h2 => ((ht t).2.2.1 i).trans (h'.getBlock_panic hR i h1 h2)⟩
    rw [(ht t).2.2.1 i]
    exact h'.getBlock hR i hi

theorem Store.law {o : BitVecOps w S} (h : Store c l o s bits) (hw : IsBlk w) :
    ∃ R : S → List Bool → Prop, R s bits ∧ Level.Law c l o R := by
  induction h with
  | bitVector hR => exact ⟨_, hR, .ofBlocks (bv_law c hw) (bv_block c hw) (bv_pad c hw)⟩
  | intVector hR => exact ⟨_, hR, .ofBlocks (iv_law c hw) (iv_block c hw) (iv_pad c hw)⟩
  | vec hR => exact ⟨_, hR, .ofBlocks (vec_law c hw) (vec_block c hw) (vec_pad c hw)⟩
  | boolVec hR => exact ⟨_, hR, .ofBlocks (boolVec_law c) (boolVec_block c) (boolVec_pad c)⟩
  | word x => exact ⟨_, rfl, .ofBlocks (prim_law c hw) (prim_block c hw) (prim_pad c hw)⟩
  | slice _ hr hb hn ih =>
    obtain ⟨R, hR, hl⟩ := ih hw
    obtain ⟨h1, h2⟩ := slice_new_on hl.1 hR hr hb
    rw [h1] at hn
    cases hn
    have hs : sliceR R _ _ := ⟨_, h2, rfl⟩
    split
    · rename_i hd
      refine ⟨wholeR _ R, ⟨hs, ?_⟩, whole_law hw hl.1, fun _ => ⟨whole_block hw hl.1, whole_pad hw hl.1⟩, nofun⟩
      rw [length_window (by omega)]
      exact hd
    · exact ⟨sliceR R, hs, slice_law hw hl.1, fun h => absurd rfl h, nofun⟩
  | jacobson _ hj ih =>
    obtain ⟨R, hR, hl⟩ := ih hw
    have hi := C42_jacobson_inner c _ hj
    exact ⟨_, by rw [hi]; exact hR, hl.adapt (C42_jacobson _)⟩
  | rank9 _ hj ih =>
    obtain ⟨R, hR, hl⟩ := ih hw
    have hi := C42_rank9_inner c _ hj
    exact ⟨_, by rw [hi]; exact hR, hl.adapt (C42_rank9 _)⟩
  | select _ ih =>
    obtain ⟨R, hR, hl⟩ := ih hw
    exact ⟨_, hR, hl.adapt (C42_bin_search_select _).1⟩
  | buffer p _ ih =>
    obtain ⟨R, hR, hl⟩ := ih hw
    have hb := hl.2.2 rfl
    exact ⟨_, hR, .ofBlocks (buf_law c hw hl.1 hb) (buf_block c hb) (buf_pad c (hl.2.1 nofun).2)⟩

/-- C94. Every nesting shows exactly the bits it was made from: lengths, single bits and spans, in and out of range. -/
theorem C94_reads {o : BitVecOps w S} (hw : IsBlk w) (h : Store c l o s bits) :
    o.bitLen s = .ok bits.length ∧ (∀ i < 2 ^ 64, o.getBit s i = expectR bits[i]?) ∧
    (∀ p n, 1 ≤ n → n ≤ w → p + n ≤ bits.length → o.getBits s p n = .ok (BitVec.ofNat w (bitsVal ((bits.drop p).take n)))) ∧
    (∀ p n, n ≤ w → p + n < 2 ^ 64 → bits.length < p + n → o.getBits s p n = .panic) := by
  obtain ⟨R, hR, hl, -⟩ := h.law hw
  exact ⟨hl.bitLen hR, hl.getBit hR, hl.getBits hR, hl.getBits_panic hR⟩

/-- C94. Every nesting that gives blocks gives the right ones, the last padded with zeros. -/
theorem C94_blocks {o : BitVecOps w S} (hw : IsBlk w) (h : Store c l o s bits) (hl : l ≠ .bits) :
    o.blockLen s = .ok (blocksFor w bits.length) ∧
    (∀ i < blocksFor w bits.length, o.getBlock s i = .ok (BitVec.ofNat w (bitsVal ((bits.drop (i * w)).take w)))) ∧
    (l = .checked → ∀ i, blocksFor w bits.length ≤ i → i < 2 ^ c.usz → o.getBlock s i = .panic) := by
  obtain ⟨R, hR, -, h2, h3⟩ := h.law hw
  exact ⟨(h2 hl).1.blockLen hR, (h2 hl).2.getBlock hR, fun hc => (h3 hc).getBlock_panic hR⟩

/-- C94. Over every nesting that gives blocks, `Rank9` can be built, is again such a nesting, and answers every rank
and select query about the bits. -/
theorem C94_rank9 {o : BitVecOps 64 S} (h : Store c l o s bits) (hl : l ≠ .bits)
    (hu : blocksFor 64 bits.length + 8 < 2 ^ c.usz) :
    ∃ r, Rank9.new c o s = .ok r ∧ Store c l (Rank9.bitVec o) r bits ∧ RankLaw (Rank9.ops c o) r bits ∧
      ∀ k v, k + 1 < 2 ^ 64 → ∃ x, BinSearchSelect.select c (Rank9.ops c o) (.new r) k v = .ok x ∧ IsSelect v bits k x := by
  obtain ⟨R, hR, h1, h2, -⟩ := h.law isBlk64
  obtain ⟨r, h3, -, h4⟩ := C39_rank9 h1 (h2 hl).1 hR hu
  exact ⟨r, h3, .rank9 h h3, h4, fun k v hk => (C44_select_partial c h4 hk).2.2 v⟩

/-- C94. The same for `JacobsonRank` over at least two bits. -/
theorem C94_jacobson {o : BitVecOps w S} (hw : IsBlk w) (h : Store c l o s bits) (hl : l ≠ .bits)
    (hm : InMemory c.usz bits.length) (h2 : 2 ≤ bits.length) :
    ∃ j, Jacobson.new c o s = .ok j ∧ Store c l (Jacobson.bitVec o) j bits ∧ RankLaw (Jacobson.ops c o) j bits ∧
      ∀ k v, k + 1 < 2 ^ 64 → ∃ x, BinSearchSelect.select c (Jacobson.ops c o) (.new j) k v = .ok x ∧ IsSelect v bits k x := by
  obtain ⟨R, hR, h1, h3, -⟩ := h.law hw
  obtain ⟨j, h4, -, h5⟩ := C37_jacobson hw h1 (h3 hl).1 (h3 hl).2 hR hm h2
  exact ⟨j, h4, .jacobson h h4, h5, fun k v hk => (C44_select_partial c h5 hk).2.2 v⟩

/-- A tower: a buffer over a `Vec<u64>`, sliced at an odd place to 64 bits, under `Rank9`, under select, sliced again. -/
example (c : Cfg) : ∃ (T : Type) (o : BitVecOps 64 T) (t : T),
    Store c .bits o t [true, false, true] ∧ o.getBit t 2 = .ok true ∧ o.getBit t 3 = .panic := by
  have hv : vecR c 64 [0x5555555555555555#64, 0#64] (arrayBits [0x5555555555555555#64, 0#64]) := by
    refine ⟨rfl, ?_⟩
    cases c with | mk d p a => cases p <;> cases d <;> cases a <;> decide +kernel
  have h1 := Store.buffer (c := c) 7 (Store.vec hv)
  obtain ⟨R, hR, hl, -⟩ := h1.law isBlk64
  have h2 := Store.slice (r := .range 3 67) h1 (a := 3) (b := 67) ⟨rfl, rfl⟩ (by decide +kernel)
    (slice_new_on hl hR (r := .range 3 67) (a := 3) (b := 67) ⟨rfl, rfl⟩ (by decide +kernel)).1
  obtain ⟨r, hr, h3, -⟩ := C94_rank9 h2 (by decide) (by cases c with | mk d p a => cases p <;> cases d <;> cases a <;> decide +kernel)
  have h4 := Store.select h3
  obtain ⟨R, hR, hl, -⟩ := h4.law isBlk64
  have h5 := Store.slice (r := .range 1 4) h4 (a := 1) (b := 4) ⟨rfl, rfl⟩ (by decide +kernel)
    (slice_new_on hl hR (r := .range 1 4) (a := 1) (b := 4) ⟨rfl, rfl⟩ (by decide +kernel)).1
  have e : window (window (arrayBits [0x5555555555555555#64, 0#64]) 3 (67 - 3)) 1 (4 - 1) = [true, false, true] := by
    decide +kernel
  rw [e] at h5
  exact ⟨_, _, _, h5, (C94_reads isBlk64 h5).2.1 2 (by decide), (C94_reads isBlk64 h5).2.1 3 (by decide)⟩

/-! Each theorem of this file that has hypotheses is applied to concrete data in `Verif/Instances/Nesting.lean`. -/

end Succinct
