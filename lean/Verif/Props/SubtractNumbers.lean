import Verif.Props.BigNumbers
/-! Property C188: numbers of any length in bit vectors, subtracted by the programs of C156 and C185: `a - b` is the complement of the sum of `b` and
the complement of `a`. -/
namespace Succinct
open Spec

/-- `for i in .. { a.set_block(i, !a.get_block(i)) } let borrow = add(a, b); for i in .. { a.set_block(i, !a.get_block(i)) } borrow` -/
def subNumber {S T : Type} {w : Nat} (oa : BitVecMutOps w S) (ob : BitVecOps w T) (a : S) (b : T) : Res (S × Bool) := do
  let a ← combine oa ob (fun x _ => ~~~ x) a b
  let r ← addNumber oa ob a b
  let a ← combine oa ob (fun x _ => ~~~ x) r.1 b
  .ok (a, r.2)

theorem zipWith_not {as bs : List Bool} (h : as.length = bs.length) : List.zipWith (fun a _ => !a) as bs = as.map (!·) := by
  apply List.ext_getElem
  · simp [h]
  · intro i h1 h2
    simp

theorem bitsVal_not (l : List Bool) : bitsVal (l.map (!·)) + bitsVal l + 1 = 2 ^ l.length := by
  induction l with
  | nil => rfl
  | cons b l ih =>
    rw [List.map_cons, bitsVal, bitsVal, List.length_cons, Nat.pow_succ, ← ih]
    cases b <;> simp <;> omega

variable {S T : Type} {w : Nat}

/-- C188: the difference of the two numbers, modulo two to the length. If the length is a multiple of the width of a block, the answer tells whether
the second number was greater. -/
theorem C188_subtract (hw : IsBlk w) {c : Cfg} {oa : BitVecMutOps w S} {ob : BitVecOps w T} {R : S → List Bool → Prop} {Q : T → List Bool → Prop}
    (ha : BVBlockRead oa.toBitVecOps R) (hm : BVMutLaw c oa R) (hb : BVBlockRead ob Q) {a : S} {b : T} {as bs : List Bool} (hR : R a as) (hQ : Q b bs)
    (hl : as.length = bs.length) :
    ∃ a' borrow l, subNumber oa ob a b = .ok (a', borrow) ∧ R a' l ∧ l.length = as.length ∧
      bitsVal l = (if bitsVal bs ≤ bitsVal as then bitsVal as - bitsVal bs else 2 ^ as.length + bitsVal as - bitsVal bs) ∧
      (as.length % w = 0 → (borrow = true ↔ bitsVal as < bitsVal bs)) := by
  obtain ⟨a1, e1, r1⟩ := C156_combine hw ha hm hb Bitwise.not hR hQ hl
  rw [zipWith_not hl] at r1
  obtain ⟨a2, borrow, l2, e2, r2, hl2, hv, hc⟩ := C185_add hw ha hm hb r1 hQ (by rw [List.length_map, hl])
  rw [List.length_map] at hl2 hv hc
  obtain ⟨a3, e3, r3⟩ := C156_combine hw ha hm hb Bitwise.not r2 hQ (by rw [hl2, hl])
  rw [zipWith_not (by rw [hl2, hl])] at r3
  have h1 := bitsVal_not as
  have h2 := bitsVal_not l2
  have h3 := bitsVal_lt as
  have h4 := bitsVal_lt bs
  rw [hl2, hv] at h2
  rw [← hl] at h4
  refine ⟨a3, borrow, _, by rw [subNumber, e1, Res.ok_bind, e2, Res.ok_bind, e3, Res.ok_bind], r3, by rw [List.length_map, hl2], ?_, fun q => ?_⟩
  · generalize 2 ^ as.length = M at *
    split
    · next q =>
      rw [Nat.mod_eq_of_lt (by omega)] at h2
      omega
    · next q =>
      rw [Nat.mod_eq_sub_mod (by omega), Nat.mod_eq_of_lt (by omega)] at h2
      omega
  · rw [hc q]
    omega

/-- C188 for two `BitVector`s: the result is the very vector with the bits of the difference. -/
theorem C188_bit_vector (c : Cfg) (hw : IsBlk w) {a b : VB w} {as bs : List Bool} (ha : BvReach c w a as) (hb : BvReach c w b bs)
    (hl : as.length = bs.length) (hle : bitsVal bs ≤ bitsVal as) :
    ∃ a' borrow, subNumber (bvBitVecMut c w) (bvBitVec c w) a b = .ok (a', borrow) ∧ BvReach c w a' (natBits as.length (bitsVal as - bitsVal bs)) ∧
      (as.length % w = 0 → borrow = false) := by
  obtain ⟨a', borrow, l, h1, h2, h3, h4, h5⟩ := C188_subtract hw (bv_block c hw).toBVBlockRead (bv_mut_law c hw) (bv_block c hw).toBVBlockRead
    (ha.rep hw) (hb.rep hw) hl
  rw [if_pos hle] at h4
  have e : l = natBits as.length (bitsVal as - bitsVal bs) := by
    apply List.ext_getElem?
    intro i
    by_cases hi : i < as.length
    · have := testBit_bitsVal l i
      rw [h4, List.getElem?_eq_getElem (by omega)] at this
      rw [List.getElem?_eq_getElem (by omega), natBits, List.getElem?_map, List.getElem?_range hi]
      simp at this
      simp [this]
    · rw [List.getElem?_eq_none (by omega), List.getElem?_eq_none (by simp [natBits]; omega)]
  refine ⟨a', borrow, h1, bvR.reach hw (e ▸ h2), fun q => ?_⟩
  have := h5 q
  cases borrow
  · rfl
  · have := this.1 rfl
    omega

/-! Each theorem of this file that has hypotheses is applied to concrete data in `Verif/Instances/SubtractNumbers.lean`. -/

end Succinct
