import Verif.Lemmas.Stream
import Verif.Props.Blockwise
/-! Property C185: numbers of any length in bit vectors, added a block at a time. The programs here are not in the crate; they call its `block_len`,
`get_block` and `set_block`, and `wrapping_add` of the blocks. -/
namespace Succinct
open Spec

section
variable {S T : Type} {w : Nat}

/-- `let s = x.wrapping_add(y); let t = s.wrapping_add(carry as Block); (t, s < x || t < s)` -/
def addCarry (x y : BitVec w) (carry : Bool) : BitVec w × Bool :=
  let s := x + y
  let t := s + BitVec.ofNat w carry.toNat
  (t, decide (s.toNat < x.toNat) || decide (t.toNat < s.toNat))

/-- `let mut carry = false; for i in 0 .. a.block_len() { let (x, c) = add_carry(a.get_block(i), b.get_block(i), carry); a.set_block(i, x); carry = c }` -/
def addNumber (oa : BitVecMutOps w S) (ob : BitVecOps w T) (a : S) (b : T) : Res (S × Bool) := do
  let n ← oa.blockLen a
  forRange 0 n (a, false) fun i st => do
    let x ← oa.getBlock st.1 i
    let y ← ob.getBlock b i
    let a ← oa.setBlock st.1 i (addCarry x y st.2).1
    .ok (a, (addCarry x y st.2).2)
end

theorem addCarry_nat {M x y e : Nat} (h2 : 2 ≤ M) (hx : x < M) (hy : y < M) (he : e < 2) {p q : Bool} (hp : p = true ↔ (x + y) % M < x)
    (hq : q = true ↔ ((x + y) % M + e) % M < (x + y) % M) : ((x + y) % M + e) % M + M * (p || q).toNat = x + y + e := by
  have mod (a : Nat) (h : a < 2 * M) : a % M = if a < M then a else a - M := by
    split
    · next q => exact Nat.mod_eq_of_lt q
    · next q => rw [Nat.mod_eq_sub_mod (by omega), Nat.mod_eq_of_lt (by omega)]
  rw [mod (x + y) (by omega)] at hp hq ⊢
  split at hp
  · next a =>
    rw [if_pos a, mod _ (by omega)] at hq ⊢
    have : p = false := by
      cases p
      · rfl
      · have := hp.1 rfl
        omega
    subst this
    split at hq
    · next b =>
      have : q = false := by
        cases q
        · rfl
        · have := hq.1 rfl
          omega
      subst this
      rw [if_pos b]
      simp
    · next b =>
      obtain rfl : q = true := hq.2 (by omega)
      rw [if_neg b]
      simp
      omega
  · next a =>
    rw [if_neg a, mod _ (by omega), if_pos (by omega)]
    obtain rfl : p = true := hp.2 (by omega)
    simp
    omega

theorem addCarry_ok {w : Nat} (hw : 0 < w) (x y : BitVec w) (carry : Bool) :
    (addCarry x y carry).1.toNat + 2 ^ w * (addCarry x y carry).2.toNat = x.toNat + y.toNat + carry.toNat := by
  have h2 : 2 ≤ 2 ^ w := by
    have := Nat.pow_le_pow_right (n := 2) (by decide) hw
    simpa using this
  have hc : carry.toNat < 2 := Bool.toNat_lt carry
  have e : (BitVec.ofNat w carry.toNat).toNat = carry.toNat := by rw [BitVec.toNat_ofNat, Nat.mod_eq_of_lt (by omega)]
  unfold addCarry
  rw [BitVec.toNat_add, BitVec.toNat_add, e]
  exact addCarry_nat h2 x.isLt y.isLt hc (by rw [decide_eq_true_iff, BitVec.toNat_add])
    (by rw [decide_eq_true_iff, BitVec.toNat_add, BitVec.toNat_add, e])

/-- The low bits of a block are those of the vector. -/
theorem block_low {bits : List Bool} {w i r : Nat} {x : BitVec w} (hr : r ≤ w) (hl : i * w + r ≤ bits.length)
    (h : ∀ j < w, i * w + j < bits.length → some (x.toNat.testBit j) = bits[i * w + j]?) :
    x.toNat % 2 ^ r = bitsVal ((bits.drop (i * w)).take r) := by
  apply Nat.eq_of_testBit_eq
  intro j
  rw [Nat.testBit_mod_two_pow, testBit_bitsVal, List.getElem?_take]
  by_cases hj : j < r
  · rw [if_pos hj, List.getElem?_drop, ← h j (by omega) (by omega)]
    simp [hj]
  · rw [if_neg hj]
    simp [hj]

theorem add_mod_pow {a b p r : Nat} (h : a < 2 ^ p) : (a + 2 ^ p * b) % 2 ^ (p + r) = a + 2 ^ p * (b % 2 ^ r) := by
  rw [Nat.pow_add, Nat.mod_mul, Nat.add_mul_mod_self_left, Nat.mod_eq_of_lt h, Nat.add_mul_div_left _ _ (Nat.two_pow_pos p), Nat.div_eq_of_lt h, Nat.zero_add]

theorem take_split (l : List Bool) {p r : Nat} (h : p ≤ l.length) :
    bitsVal (l.take (p + r)) = bitsVal (l.take p) + 2 ^ p * bitsVal ((l.drop p).take r) := by
  rw [List.take_add, bitsVal_append, List.length_take, Nat.min_eq_left h]

variable {S T : Type} {w : Nat}

/-- C185: adding the blocks of two vectors of the same length, with the carries, adds the numbers that they hold, modulo two to the length. If the
length is a multiple of the width of a block, the last carry tells whether the sum was too large. -/
theorem C185_add (hw : IsBlk w) {c : Cfg} {oa : BitVecMutOps w S} {ob : BitVecOps w T} {R : S → List Bool → Prop} {Q : T → List Bool → Prop}
    (ha : BVBlockRead oa.toBitVecOps R) (hm : BVMutLaw c oa R) (hb : BVBlockRead ob Q) {a : S} {b : T} {as bs : List Bool} (hR : R a as) (hQ : Q b bs)
    (hl : as.length = bs.length) :
    ∃ a' carry l, addNumber oa ob a b = .ok (a', carry) ∧ R a' l ∧ l.length = as.length ∧ bitsVal l = (bitsVal as + bitsVal bs) % 2 ^ as.length ∧
      (as.length % w = 0 → (carry = true ↔ 2 ^ as.length ≤ bitsVal as + bitsVal bs)) := by
  have hwp := hw.pos
  rw [addNumber, ha.blockLen hR, Res.ok_bind]
  have key := forRange_inv (lo := 0) (hi := blocksFor w as.length) (s := (a, false))
    (f := fun i (st : S × Bool) => do
      let x ← oa.getBlock st.1 i
      let y ← ob.getBlock b i
      let a ← oa.setBlock st.1 i (addCarry x y st.2).1
      .ok (a, (addCarry x y st.2).2))
    (fun k st => ∃ l, R st.1 l ∧ l.length = as.length ∧ l.drop (k * w) = as.drop (k * w) ∧
      (k * w ≤ as.length → bitsVal (l.take (k * w)) + 2 ^ (k * w) * st.2.toNat = bitsVal (as.take (k * w)) + bitsVal (bs.take (k * w))) ∧
      (as.length < k * w → bitsVal l = (bitsVal as + bitsVal bs) % 2 ^ as.length)) (Nat.zero_le _)
    ⟨as, hR, rfl, rfl, fun _ => by simp [bitsVal], fun q => by omega⟩ ?_
  · obtain ⟨⟨a', carry⟩, h1, l, h2, h3, -, h4, h5⟩ := key
    refine ⟨a', carry, l, h1, h2, h3, ?_⟩
    have hle := le_blocksFor_mul as.length hwp
    have hlt := bitsVal_lt l
    rw [h3] at hlt
    rcases Nat.lt_or_ge as.length (blocksFor w as.length * w) with q | q
    · refine ⟨h5 q, fun q' => ?_⟩
      exfalso
      obtain ⟨t, ht⟩ := Nat.dvd_of_mod_eq_zero q'
      have : blocksFor w as.length = t := by
        rw [ht, blocksFor, Nat.mul_add_div hwp, Nat.div_eq_of_lt (by omega), Nat.add_zero]
      rw [this, Nat.mul_comm t w, ← ht] at q
      omega
    · have e : blocksFor w as.length * w = as.length := by omega
      rw [e] at h4
      have h4 := h4 (Nat.le_refl _)
      rw [List.take_of_length_le (by omega), List.take_of_length_le (by omega), List.take_of_length_le (by omega)] at h4
      rw [← h4, Nat.add_mul_mod_self_left, Nat.mod_eq_of_lt hlt]
      refine ⟨rfl, fun _ => ?_⟩
      cases carry
      · simpa using hlt
      · simp
  · rintro k ⟨s, cin⟩ - hk ⟨l, h1, h2, h3, h4, -⟩
    have hp : k * w < as.length := (lt_blocksFor hwp).1 hk
    have h4 : bitsVal (l.take (k * w)) + 2 ^ (k * w) * cin.toNat = bitsVal (as.take (k * w)) + bitsVal (bs.take (k * w)) := h4 (by omega)
    obtain ⟨x, hx1, hx2⟩ := ha.getBlock h1 k (by rw [h2]; exact hk)
    obtain ⟨y, hy1, hy2⟩ := hb.getBlock hQ k (by rw [← hl]; exact hk)
    obtain ⟨s', hs1, hs2⟩ := hm.setBlock h1 k (addCarry x y cin).1 (by rw [h2]; exact hk)
    have hadc := addCarry_ok hwp x y cin
    generalize hv : (addCarry x y cin).1 = v at *
    generalize hc' : (addCarry x y cin).2 = cout at *
    obtain ⟨r, hr⟩ : ∃ r, r = min w (as.length - k * w) := ⟨_, rfl⟩
    have hnew : (blockBits v).take (l.length - k * w) = natBits r v.toNat := by
      rw [h2, blockBits, natBits, natBits, ← List.map_take, List.take_range, hr, Nat.min_comm]
    rw [hnew] at hs2
    have hnl : (natBits r v.toNat).length = r := by simp [natBits]
    have hxr := block_low (r := r) (by omega) (by rw [h2]; omega) hx2
    have hyr := block_low (r := r) (by omega) (by omega) hy2
    rw [h3] at hxr
    have hov : k * w + (natBits r v.toNat).length ≤ l.length := by rw [hnl, h2]; omega
    have htake : (overwrite l (k * w) (natBits r v.toNat)).take (k * w + r) = l.take (k * w) ++ natBits r v.toNat := by
      rw [overwrite, List.take_left' (by rw [List.length_append, hnl, List.length_take]; omega)]
    have hval : bitsVal ((overwrite l (k * w) (natBits r v.toNat)).take (k * w + r)) = bitsVal (l.take (k * w)) + 2 ^ (k * w) * (v.toNat % 2 ^ r) := by
      rw [htake, bitsVal_append, bitsVal_natBits, List.length_take, Nat.min_eq_left (by omega)]
    have hA := take_split as (p := k * w) (r := r) (by omega)
    have hB := take_split bs (p := k * w) (r := r) (by omega)
    rw [← hxr] at hA
    rw [← hyr] at hB
    refine ⟨(s', cout), ?_, _, hs2, by rw [length_overwrite hov, h2], ?_, fun q => ?_, fun q => ?_⟩
    · simp only [hx1, hy1, Res.ok_bind, hv, hs1, hc']
    · apply List.ext_getElem?
      intro i
      rw [List.getElem?_drop, List.getElem?_drop, Nat.succ_mul, getElem?_overwrite hov, hnl, if_neg (by omega)]
      have := congrArg (fun z => z[w + i]?) h3
      simp only [List.getElem?_drop] at this
      rwa [← Nat.add_assoc] at this
    · dsimp only
      rw [Nat.succ_mul] at q ⊢
      obtain rfl : r = w := by omega
      rw [hval, hA, hB, Nat.mod_eq_of_lt v.isLt, Nat.mod_eq_of_lt x.isLt, Nat.mod_eq_of_lt y.isLt, Nat.pow_add, Nat.mul_assoc]
      have := congrArg (2 ^ (k * r) * ·) hadc
      simp only [Nat.mul_add] at this
      omega
    · rw [Nat.succ_mul] at q
      have hn : k * w + r = as.length := by omega
      have hlen := length_overwrite hov
      rw [hn, List.take_of_length_le (by omega)] at hval
      rw [hn, List.take_of_length_le (Nat.le_refl _)] at hA
      rw [hn, List.take_of_length_le (by omega)] at hB
      have hL := bitsVal_lt (l.take (k * w))
      rw [List.length_take, Nat.min_eq_left (by omega)] at hL
      have hsum : bitsVal as + bitsVal bs = bitsVal (l.take (k * w)) + 2 ^ (k * w) * (cin.toNat + x.toNat % 2 ^ r + y.toNat % 2 ^ r) := by
        simp only [Nat.mul_add]
        omega
      rw [hval, hsum, ← hn, add_mod_pow hL]
      congr 2
      have hd : 2 ^ w = 2 ^ r * 2 ^ (w - r) := by rw [← Nat.pow_add]; congr 1; omega
      have : v.toNat % 2 ^ r = (x.toNat + y.toNat + cin.toNat) % 2 ^ r := by
        rw [← hadc, hd, Nat.mul_assoc, Nat.add_mul_mod_self_left]
      rw [this, Nat.add_comm (x.toNat + y.toNat), ← Nat.add_assoc]
      simp [Nat.add_mod]

/-- C185 for two `BitVector`s: the result is the very vector with the bits of the sum. -/
theorem C185_bit_vector (c : Cfg) (hw : IsBlk w) {a b : VB w} {as bs : List Bool} (ha : BvReach c w a as) (hb : BvReach c w b bs)
    (hl : as.length = bs.length) :
    ∃ a' carry, addNumber (bvBitVecMut c w) (bvBitVec c w) a b = .ok (a', carry) ∧
      BvReach c w a' (natBits as.length (bitsVal as + bitsVal bs)) ∧
      (as.length % w = 0 → (carry = true ↔ 2 ^ as.length ≤ bitsVal as + bitsVal bs)) := by
  obtain ⟨a', carry, l, h1, h2, h3, h4, h5⟩ := C185_add hw (bv_block c hw).toBVBlockRead (bv_mut_law c hw) (bv_block c hw).toBVBlockRead
    (ha.rep hw) (hb.rep hw) hl
  have e : l = natBits as.length (bitsVal as + bitsVal bs) := by
    apply List.ext_getElem?
    intro i
    by_cases hi : i < as.length
    · have := testBit_bitsVal l i
      rw [h4, Nat.testBit_mod_two_pow, List.getElem?_eq_getElem (by omega)] at this
      rw [List.getElem?_eq_getElem (by omega), natBits, List.getElem?_map, List.getElem?_range hi]
      simp [hi] at this
      simp [this]
    · rw [List.getElem?_eq_none (by omega), List.getElem?_eq_none (by simp [natBits]; omega)]
  exact ⟨a', carry, h1, bvR.reach hw (e ▸ h2), h5⟩

/-! Each theorem of this file that has hypotheses is applied to concrete data in `Verif/Instances/BigNumbers.lean`. -/

end Succinct
