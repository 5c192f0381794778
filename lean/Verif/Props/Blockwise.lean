import Verif.Props.Rank
import Verif.Props.Reach
import Verif.Props.IntVector
/-! Property C156: bitwise operations and counts, block by block. The programs here are not in the crate; they call its
`block_len`, `get_block` and `set_block`, and `count_ones` of the blocks. -/
namespace Succinct
open Spec

section
variable {S T : Type} {w : Nat} (c : Cfg)

/-- `for i in 0 .. a.block_len() { let x = f(a.get_block(i), b.get_block(i)); a.set_block(i, x) }` -/
def combine (oa : BitVecMutOps w S) (ob : BitVecOps w T) (f : BitVec w → BitVec w → BitVec w) (a : S) (b : T) : Res S := do
  let n ← oa.blockLen a
  forRange 0 n a fun i a => do
    let x ← oa.getBlock a i
    let y ← ob.getBlock b i
    oa.setBlock a i (f x y)

/-- `for i in 0 .. a.block_len() { n += f(a.get_block(i), b.get_block(i)).count_ones() as u64 }` -/
def countBlocks (oa : BitVecOps w S) (ob : BitVecOps w T) (f : BitVec w → BitVec w → BitVec w) (a : S) (b : T) : Res Nat := do
  let n ← oa.blockLen a
  forRange 0 n 0 fun i n => do
    let x ← oa.getBlock a i
    let y ← ob.getBlock b i
    addN c 64 n (countOnes (f x y))

end

/-- `f` works bit by bit, as `g` does on one bit. -/
def Spec.Bitwise (g : Bool → Bool → Bool) (f : BitVec w → BitVec w → BitVec w) : Prop :=
  ∀ x y i, i < w → (f x y).getLsbD i = g (x.getLsbD i) (y.getLsbD i)

theorem Bitwise.and : Bitwise (w := w) (· && ·) (· &&& ·) := fun _ _ _ _ => BitVec.getLsbD_and
theorem Bitwise.or : Bitwise (w := w) (· || ·) (· ||| ·) := fun _ _ _ _ => BitVec.getLsbD_or
theorem Bitwise.xor : Bitwise (w := w) Bool.xor (· ^^^ ·) := fun _ _ _ _ => BitVec.getLsbD_xor
theorem Bitwise.diff : Bitwise (w := w) (fun a b => a && !b) (fun x y => x &&& ~~~ y) := fun _ _ _ hi => by simp [hi]
theorem Bitwise.not : Bitwise (w := w) (fun a _ => !a) (fun x _ => ~~~ x) := fun _ _ _ hi => by simp [hi]
theorem Bitwise.fst : Bitwise (w := w) (fun a _ => a) (fun x _ => x) := fun _ _ _ _ => rfl

variable {S T : Type} {w : Nat} {g : Bool → Bool → Bool} {f : BitVec w → BitVec w → BitVec w}

/-- C156: combining two vectors of the same length block by block combines their bits, whatever the operation does to the
unused bits of the last block. -/
theorem C156_combine (hw : IsBlk w) {c : Cfg} {oa : BitVecMutOps w S} {ob : BitVecOps w T} {R : S → List Bool → Prop} {Q : T → List Bool → Prop}
    (ha : BVBlockRead oa.toBitVecOps R) (hm : BVMutLaw c oa R) (hb : BVBlockRead ob Q) (hf : Bitwise g f) {a : S} {b : T}
    {as bs : List Bool} (hR : R a as) (hQ : Q b bs) (hl : as.length = bs.length) :
    ∃ a', combine oa ob f a b = .ok a' ∧ R a' (List.zipWith g as bs) := by
  have hwp := hw.pos
  rw [combine, ha.blockLen hR, Res.ok_bind]
  have key := forRange_inv (lo := 0) (hi := blocksFor w as.length) (s := a)
    (f := fun i a => do
      let x ← oa.getBlock a i
      let y ← ob.getBlock b i
      oa.setBlock a i (f x y))
    (fun k s => ∃ l, R s l ∧ l.length = as.length ∧
      ∀ i, l[i]? = if i < k * w then (List.zipWith g as bs)[i]? else as[i]?) (Nat.zero_le _)
    ⟨as, hR, rfl, fun i => by simp⟩ ?_
  · obtain ⟨a', h1, l, h2, h3, h4⟩ := key
    refine ⟨a', h1, ?_⟩
    rwa [show l = List.zipWith g as bs from ?_] at h2
    apply List.ext_getElem?
    intro i
    rw [h4]
    split
    · rfl
    · next h =>
      have := le_blocksFor_mul as.length hwp
      rw [List.getElem?_eq_none (by omega), List.getElem?_eq_none (by rw [List.length_zipWith]; omega)]
  · rintro k s - hk ⟨l, h1, h2, h3⟩
    obtain ⟨x, hx1, hx2⟩ := ha.getBlock h1 k (by rw [h2]; exact hk)
    obtain ⟨y, hy1, hy2⟩ := hb.getBlock hQ k (by rw [← hl]; exact hk)
    obtain ⟨s', hs1, hs2⟩ := hm.setBlock h1 k (f x y) (by rw [h2]; exact hk)
    have hlt : k * w < as.length := (lt_blocksFor hwp).1 hk
    have hlen : ((blockBits (f x y)).take (l.length - k * w)).length = min (as.length - k * w) w := by
      rw [List.length_take, length_blockBits, h2]
    have hov : k * w + ((blockBits (f x y)).take (l.length - k * w)).length ≤ l.length := by rw [hlen, h2]; omega
    refine ⟨s', ?_, _, hs2, ?_, fun i => ?_⟩
    · simp only [hx1, hy1, Res.ok_bind, hs1]
    · rw [length_overwrite hov, h2]
    · rw [getElem?_overwrite hov, hlen, Nat.succ_mul, h3]
      by_cases hi : i < k * w
      · rw [if_neg (by omega), if_pos hi, if_pos (by omega)]
      · rw [if_neg hi]
        by_cases hi2 : i < k * w + w
        · rw [if_pos hi2]
          by_cases hi3 : i < as.length
          · obtain ⟨j, rfl⟩ : ∃ j, i = k * w + j := ⟨i - k * w, by omega⟩
            have hxj := hx2 j (by omega) (by omega)
            have hyj := hy2 j (by omega) (by omega)
            rw [h3, if_neg hi] at hxj
            rw [if_pos (by omega), List.getElem?_take, if_pos (by rw [h2]; omega), Nat.add_sub_cancel_left, blockBits, natBits,
              List.getElem?_map, List.getElem?_range (by omega), List.getElem?_zipWith, ← hxj, ← hyj]
            exact congrArg some (hf x y j (by omega))
          · rw [if_neg (by omega), List.getElem?_eq_none (by omega), List.getElem?_eq_none (by rw [List.length_zipWith]; omega)]
        · rw [if_neg hi2, if_neg (by omega)]

/-- C156 for two `BitVector`s: the result is the very vector with the combined bits. -/
theorem C156_bit_vector (c : Cfg) (hw : IsBlk w) (hf : Bitwise g f) {a b : VB w} {as bs : List Bool} (ha : BvReach c w a as)
    (hb : BvReach c w b bs) (hl : as.length = bs.length) :
    ∃ a', combine (bvBitVecMut c w) (bvBitVec c w) f a b = .ok a' ∧ BvReach c w a' (List.zipWith g as bs) := by
  obtain ⟨a', h1, h2⟩ := C156_combine hw (bv_block c hw).toBVBlockRead (bv_mut_law c hw) (bv_block c hw).toBVBlockRead hf
    (ha.rep hw) (hb.rep hw) hl
  exact ⟨a', h1, bvR.reach hw h2⟩

theorem combined_block (hf : Bitwise g f) (hg : g false false = false) {as bs : List Bool} (hl : as.length = bs.length) (i : Nat) :
    countOnes (f (BitVec.ofNat w (bitsVal ((as.drop (i * w)).take w))) (BitVec.ofNat w (bitsVal ((bs.drop (i * w)).take w)))) =
      (((List.zipWith g as bs).drop (i * w)).take w).count true := by
  rw [countOnes_eq, List.drop_zipWith, List.take_zipWith]
  generalize hA : (as.drop (i * w)).take w = A
  generalize hB : (bs.drop (i * w)).take w = B
  have hAB : A.length = B.length := by rw [← hA, ← hB]; simp only [List.length_take, List.length_drop]; omega
  have hAw : A.length ≤ w := by rw [← hA, List.length_take]; omega
  have hpad : blockBits (f (BitVec.ofNat w (bitsVal A)) (BitVec.ofNat w (bitsVal B))) =
      List.zipWith g A B ++ List.replicate (w - A.length) false := by
    apply bits_ext
    · rw [length_blockBits, List.length_append, List.length_replicate, List.length_zipWith]; omega
    · intro j hj
      rw [length_blockBits] at hj
      rw [getD_blockBits, hf _ _ j hj, BitVec.getLsbD_ofNat, BitVec.getLsbD_ofNat, testBit_bitsVal, testBit_bitsVal,
        List.getElem?_append, List.length_zipWith]
      simp only [hj, decide_true, Bool.true_and]
      by_cases h : j < A.length
      · rw [if_pos (by omega), List.getElem?_zipWith, List.getElem?_eq_getElem h, List.getElem?_eq_getElem (hAB ▸ h)]
        rfl
      · rw [if_neg (by omega), List.getElem?_eq_none (by omega), List.getElem?_eq_none (by omega), List.getElem?_replicate,
          if_pos (by omega)]
        exact hg
  rw [hpad, List.count_append, List.count_replicate]
  simp

/-- C156: counting block by block counts the bits, if unused bits read as zeros and the operation keeps zeros. With
`f(x, y) = x` it is the number of ones of one vector, with `x ^ y` the number of differences of two. -/
theorem C156_count (c : Cfg) (hw : IsBlk w) {oa : BitVecOps w S} {ob : BitVecOps w T} {R : S → List Bool → Prop} {Q : T → List Bool → Prop}
    (hal : BVLaw c oa R) (ha : BVBlockRead oa R) (hap : BVPadLaw oa R) (hbp : BVPadLaw ob Q) (hf : Bitwise g f) (hg : g false false = false)
    {a : S} {b : T} {as bs : List Bool} (hR : R a as) (hQ : Q b bs) (hl : as.length = bs.length) :
    countBlocks c oa ob f a b = .ok ((List.zipWith g as bs).count true) := by
  have hwp := hw.pos
  rw [countBlocks, ha.blockLen hR, Res.ok_bind]
  have h64 := (hal.fits hR).lt hwp
  have hcl : ∀ p, ones (List.zipWith g as bs) p ≤ as.length := fun p => by
    unfold ones
    refine Nat.le_trans ((List.take_sublist p _).count_le true) (Nat.le_trans List.count_le_length ?_)
    rw [List.length_zipWith]; omega
  obtain ⟨n, h1, h2⟩ := forRange_inv (lo := 0) (hi := blocksFor w as.length) (s := 0)
    (f := fun i n => do
      let x ← oa.getBlock a i
      let y ← ob.getBlock b i
      addN c 64 n (countOnes (f x y)))
    (fun k n => n = ones (List.zipWith g as bs) (k * w)) (Nat.zero_le _) (by simp [ones]) (by
      rintro k n - hk rfl
      have hs : ones (List.zipWith g as bs) (k * w) + countOnes (f (BitVec.ofNat w (bitsVal ((as.drop (k * w)).take w)))
          (BitVec.ofNat w (bitsVal ((bs.drop (k * w)).take w)))) = ones (List.zipWith g as bs) ((k + 1) * w) := by
        rw [combined_block hf hg hl, Nat.succ_mul, ones_add]
      refine ⟨_, ?_, hs⟩
      simp only [hap.getBlock hR k hk, hbp.getBlock hQ k (by rw [← hl]; exact hk), Res.ok_bind]
      exact addN_ok (by have := hcl ((k + 1) * w); omega))
  rw [h1, h2, ones, List.take_of_length_le]
  have := le_blocksFor_mul as.length hwp
  rw [List.length_zipWith]; omega

/-- C156: ones and differences of `BitVector`s. -/
theorem C156_bit_vector_count (c : Cfg) (hw : IsBlk w) {a b : VB w} {as bs : List Bool} (ha : BvReach c w a as)
    (hb : BvReach c w b bs) (hl : as.length = bs.length) :
    countBlocks c (bvBitVec c w) (bvBitVec c w) (fun x _ => x) a b = .ok (as.count true) ∧
    countBlocks c (bvBitVec c w) (bvBitVec c w) (· ^^^ ·) a b =
      .ok ((List.range as.length).countP fun i => decide (as[i]? ≠ bs[i]?)) := by
  refine ⟨?_, ?_⟩
  · rw [C156_count c hw (bv_law c hw) (bv_block c hw).toBVBlockRead (bv_pad c hw) (bv_pad c hw) Bitwise.fst rfl (ha.rep hw) (hb.rep hw) hl]
    congr 2
    apply List.ext_getElem?
    intro i
    rw [List.getElem?_zipWith]
    by_cases h : i < as.length
    · rw [List.getElem?_eq_getElem h, List.getElem?_eq_getElem (hl ▸ h)]
    · rw [List.getElem?_eq_none (l := as) (by omega)]
  · rw [C156_count c hw (bv_law c hw) (bv_block c hw).toBVBlockRead (bv_pad c hw) (bv_pad c hw) Bitwise.xor rfl (ha.rep hw) (hb.rep hw) hl]
    congr 1
    have e : List.zipWith Bool.xor as bs = (List.range as.length).map fun i => decide (as[i]? ≠ bs[i]?) := by
      apply List.ext_getElem?
      intro i
      rw [List.getElem?_zipWith, List.getElem?_map]
      by_cases h : i < as.length
      · rw [List.getElem?_range h, List.getElem?_eq_getElem h, List.getElem?_eq_getElem (hl ▸ h)]
        simp only [Option.map_some]
        congr 1
        rw [List.getElem?_eq_getElem h, List.getElem?_eq_getElem (hl ▸ h)]
        cases as[i] <;> cases bs[i] <;> rfl
      · rw [List.getElem?_eq_none (l := as) (by omega), List.getElem?_eq_none (l := List.range as.length) (by simpa using h)]
        rfl
    rw [e, List.count_eq_countP, List.countP_map]
    apply List.countP_congr
    intro i _
    simp

end Succinct
