import Verif.Law
import Verif.Lemmas.BitVecTrait
/-! The default methods are lawful whenever the methods they are built from are. -/
namespace Succinct
open Spec

theorem expectR_eq_ite (bits : List Bool) (i : Nat) :
    expectR bits[i]? = if i < bits.length then .ok (bits[i]?.getD false) else .panic := by
  split
  · next h => simp [List.getElem?_eq_getElem h]
  · next h => rw [List.getElem?_eq_none (by omega)]; rfl

theorem BVBlockLaw.view {o : BitVecOps w S} {R : S → List Bool → Prop} (hb : BVBlockLaw c o R)
    (hfits : ∀ {s bits}, R s bits → Fits c.usz w bits.length)
    (hlen : ∀ {s bits}, R s bits → o.bitLen s = .ok bits.length) {s : S} {bits : List Bool}
    (hR : R s bits) : BlockView c w o.bitLen o.getBlock s bits.length (fun i => bits[i]?.getD false) where
  fits := hfits hR
  len := hlen hR
  blk := fun i hi => by
    obtain ⟨b, hb1, hb2⟩ := hb.getBlock hR i hi
    refine ⟨b, hb1, fun j hj hn => ?_⟩
    rw [← hb2 j hj hn]; rfl
  blk_panic := fun i hi hu => hb.getBlock_panic hR i hi hu

/-- Bit-level reading from block-level reading. -/
theorem BVLaw.ofBlocks (h : IsBlk w) {o : BitVecOps w S} {R : S → List Bool → Prop}
    (hb : BVBlockLaw c o R)
    (hfits : ∀ {s bits}, R s bits → Fits c.usz w bits.length)
    (hlen : ∀ {s bits}, R s bits → o.bitLen s = .ok bits.length)
    (hgb : o.getBit = dfltGetBit c o.bitLen o.getBlock)
    (hgbs : o.getBits = dfltGetBits c o.bitLen o.getBlock) : BVLaw c o R where
  fits := hfits
  bitLen := hlen
  getBit := fun hR i _ => by
    rw [hgb, (hb.view hfits hlen hR).getBit_eq h, expectR_eq_ite]
  getBits := fun hR p n h1 hn hp => by
    obtain ⟨y, hy, hyb⟩ := (hb.view hfits hlen hR).getBits_ok h h1 hn hp
    rw [hgbs, hy, eq_ofNat_span hn hyb]
  getBits_panic := fun hR p n hn hp hl => by
    rw [hgbs]; exact (hb.view hfits hlen hR).getBits_panic h (by omega) hn hl

theorem BVPadLaw.block {o : BitVecOps w S} {R : S → List Bool → Prop} (hp : BVPadLaw o R) {s bits}
    (hR : R s bits) (i : Nat) (hi : i < blocksFor w bits.length) :
    ∃ b, o.getBlock s i = .ok b ∧
      ∀ j < w, i * w + j < bits.length → some (b.toNat.testBit j) = bits[i * w + j]? := by
  refine ⟨_, hp.getBlock hR i hi, fun j hj hn => ?_⟩
  rw [BitVec.toNat_ofNat, Nat.mod_eq_of_lt (span_lt _ _ _ _ (Nat.le_refl _)), testBit_span]
  simp [hj, List.getElem?_eq_getElem hn]

/-- function-level invariant induced by a representation relation -/
def IofR (R : S → List Bool → Prop) (s : S) (n : Nat) (f : Nat → Bool) : Prop :=
  ∃ bits, R s bits ∧ bits.length = n ∧ ∀ i < n, f i = bits[i]?.getD false

theorem eq_of_IofR {l : List Bool} {f : Nat → Bool} {R : S → List Bool → Prop} {s : S}
    (h : IofR R s l.length f) (hf : ∀ i < l.length, f i = l[i]?.getD false) : R s l := by
  obtain ⟨bits, hR, hl, hb⟩ := h
  have : bits = l := bits_ext hl fun i hi => by
    rw [← hb i (by omega), hf i (by omega)]
  exact this ▸ hR

theorem getD_overwrite {l : List Bool} {p : Nat} {new : List Bool} (h : p + new.length ≤ l.length) (i : Nat) :
    (overwrite l p new)[i]?.getD false =
      if p ≤ i ∧ i < p + new.length then new[i - p]?.getD false else l[i]?.getD false := by
  rw [getElem?_overwrite h]; split <;> rfl

theorem getD_set (l : List Bool) (i k : Nat) (v : Bool) (h : i < l.length) :
    (l.set i v)[k]?.getD false = if k = i then v else l[k]?.getD false := by
  rw [List.getElem?_set]
  by_cases hk : i = k
  · subst hk; simp [h]
  · simp [hk, show ¬ k = i by omega]

theorem BVMutLaw.ofBlocks (h : IsBlk w) {o : BitVecMutOps w S} {R : S → List Bool → Prop}
    (hb : BVBlockLaw c o.toBitVecOps R)
    (hfits : ∀ {s bits}, R s bits → Fits c.usz w bits.length)
    (hlen : ∀ {s bits}, R s bits → o.bitLen s = .ok bits.length)
    (hset : ∀ {s bits}, R s bits → ∀ i (v : BitVec w), i < blocksFor w bits.length →
      ∃ s', o.setBlock s i v = .ok s' ∧
        R s' (overwrite bits (i * w) ((blockBits v).take (bits.length - i * w))))
    (hsetp : ∀ {s bits}, R s bits → ∀ i (v : BitVec w), blocksFor w bits.length ≤ i →
      i < 2 ^ c.usz → i * w < 2 ^ 64 → o.setBlock s i v = .panic)
    (hsb : o.setBit = dfltSetBit c o.bitLen o.getBlock o.setBlock)
    (hsbs : o.setBits = dfltSetBits c o.bitLen o.getBlock o.setBlock) : BVMutLaw c o R := by
  have hw := h.pos
  have m : BlockViewMut c w o.bitLen o.getBlock o.setBlock (IofR R) := by
    refine ⟨?_, ?_, ?_⟩
    · rintro s n f ⟨bits, hR, rfl, hf⟩
      have v := hb.view hfits hlen hR
      refine ⟨v.fits, v.len, fun i hi => ?_, v.blk_panic⟩
      obtain ⟨b, hb1, hb2⟩ := v.blk i hi
      exact ⟨b, hb1, fun j hj hn => by rw [hb2 j hj hn, hf _ hn]⟩
    · rintro s n f g ⟨bits, hR, rfl, hf⟩ hfg
      exact ⟨bits, hR, rfl, fun i hi => by rw [← hfg i hi, hf i hi]⟩
    · rintro s n f i b ⟨bits, hR, rfl, hf⟩ hi
      obtain ⟨s', hs', hR'⟩ := hset hR i b hi
      have hlt := (lt_blocksFor hw).1 hi
      have hle : i * w + ((blockBits b).take (bits.length - i * w)).length ≤ bits.length := by
        simp; omega
      refine ⟨s', hs', _, hR', length_overwrite hle, fun k hk => ?_⟩
      rw [getD_overwrite hle]
      simp only [List.length_take, length_blockBits]
      by_cases hk2 : i * w ≤ k ∧ k < i * w + w
      · rw [if_pos hk2, if_pos (by omega), List.getElem?_take, if_pos (by omega), getD_blockBits]
      · rw [if_neg hk2, if_neg (by omega), hf k hk]
  have hI : ∀ {s bits}, R s bits → IofR R s bits.length (fun i => bits[i]?.getD false) :=
    fun {s bits} hR => ⟨bits, hR, rfl, fun _ _ => rfl⟩
  refine ⟨fun hR i v hi => ?_, fun hR i v hi _ => ?_, fun hR p n v h1 hn hp => ?_,
    fun hR p n v hn hp hl => ?_, hset, hsetp⟩
  · have := m.setBit_eq h (hI hR) i v
    rw [if_pos hi] at this
    obtain ⟨s', hs', hI'⟩ := this
    refine ⟨s', by rw [hsb]; exact hs', ?_⟩
    apply eq_of_IofR (l := List.set _ i v) (by rw [List.length_set]; exact hI')
    intro k hk
    rw [getD_set _ _ _ _ hi]
  · have := m.setBit_eq h (hI hR) i v
    rw [if_neg (by omega)] at this
    rw [hsb]; exact this
  · obtain ⟨s', hs', hI'⟩ := m.setBits_ok h (hI hR) v h1 hn hp
    refine ⟨s', by rw [hsbs]; exact hs', ?_⟩
    have hle := (length_natBits n v.toNat).symm ▸ hp
    apply eq_of_IofR (l := overwrite _ p _) (by rw [length_overwrite hle]; exact hI')
    intro k hk
    rw [getD_overwrite hle, length_natBits, getElem?_natBits]
    by_cases hk2 : p ≤ k ∧ k < p + n
    · rw [if_pos hk2, if_pos hk2, if_pos (by omega)]; rfl
    · rw [if_neg hk2, if_neg hk2]
  · rw [hsbs]; exact m.setBits_panic h (hI hR) v (by omega) hn hl

/-! ### `Vec<Block>` / `[Block]` -/

/-- representation relation of a block array -/
def vecR (c : Cfg) (w : Nat) (v : List (BitVec w)) (bits : List Bool) : Prop :=
  bits = arrayBits v ∧ Fits c.usz w bits.length

theorem vecR.length {c : Cfg} {v : List (BitVec w)} (hR : vecR c w v bits) : bits.length = v.length * w := by
  rw [hR.1, length_arrayBits]

theorem vecR.blocks {c : Cfg} {v : List (BitVec w)} (hw : 0 < w) (hR : vecR c w v bits) :
    blocksFor w bits.length = v.length := by
  rw [hR.length, blocksFor_mul _ _ hw]

theorem vec_bitLen (c : Cfg) (h : IsBlk w) {v : List (BitVec w)} (hR : vecR c w v bits) :
    (vecBitVec c w).bitLen v = .ok bits.length := by
  have := hR.2.lt h.pos
  rw [hR.length] at *
  exact mulN_ok (by omega)

theorem vec_pad (c : Cfg) (h : IsBlk w) : BVPadLaw (vecBitVec c w) (vecR c w) := by
  refine ⟨?_⟩
  intro v bits hR i hi
  have hw := h.pos
  rw [hR.blocks hw] at hi
  show vecGet v i = _
  rw [vecGet, List.getElem?_eq_getElem hi, expectR_some]
  congr 1
  apply eq_ofNat_span (Nat.le_refl _)
  intro j
  rw [hR.1, getD_arrayBits _ hw]
  by_cases hj : j < w
  · simp [vbit, mul_add_div' hj, mul_add_mod' hj, hi, hj]
  · simp [hj, BitVec.getLsbD_of_ge v[i] j (by omega)]

theorem vec_block (c : Cfg) (h : IsBlk w) : BVBlockLaw c (vecBitVec c w) (vecR c w) where
  blockLen := fun hR => by
    rw [hR.blocks h.pos]; rfl
  getBlock := fun hR i hi => (vec_pad c h).block hR i hi
  getBlock_panic := fun {v _} hR i hi _ => by
    rw [hR.blocks h.pos] at hi
    show vecGet v i = _
    rw [vecGet, List.getElem?_eq_none hi]; rfl

theorem vec_law (c : Cfg) (h : IsBlk w) : BVLaw c (vecBitVec c w) (vecR c w) :=
  BVLaw.ofBlocks h (vec_block c h) (fun hR => hR.2) (fun hR => vec_bitLen c h hR) rfl rfl

theorem arrayBits_set (v : List (BitVec w)) (hw : 0 < w) (i : Nat) (b : BitVec w) (hi : i < v.length) :
    arrayBits (v.set i b) = overwrite (arrayBits v) (i * w) (blockBits b) := by
  have h1 : i * w + w ≤ v.length * w := by
    have := Nat.mul_le_mul_right w (show i + 1 ≤ v.length from hi)
    rw [Nat.succ_mul] at this; exact this
  have hle : i * w + (blockBits b).length ≤ (arrayBits v).length := by simpa using h1
  apply bits_ext
  · rw [length_overwrite hle]; simp
  intro k hk
  rw [getD_arrayBits _ hw, getD_overwrite hle, getD_blockBits, getD_arrayBits _ hw, length_blockBits]
  obtain ⟨q, r, hr, rfl, hq, hr'⟩ := divmod_cases w k hw
  unfold vbit
  rw [hq, hr', List.getElem?_set]
  by_cases hqi : i = q
  · subst hqi
    rw [if_pos rfl, if_pos hi, if_pos (by omega), Option.getD_some]
    congr 1; omega
  · rw [if_neg hqi, if_neg]
    rintro ⟨ha, hb⟩
    apply hqi
    have e1 : i ≤ q := by
      have := (Nat.le_div_iff_mul_le hw).2 ha
      rwa [hq] at this
    have e2 : q < i + 1 := by
      have : (q * w + r) / w < i + 1 := (Nat.div_lt_iff_lt_mul hw).2 (by rw [Nat.succ_mul]; exact hb)
      rwa [hq] at this
    omega

theorem vec_mut_law (c : Cfg) (h : IsBlk w) : BVMutLaw c (vecBitVecMut c w) (vecR c w) := by
  have hw := h.pos
  refine BVMutLaw.ofBlocks h (vec_block c h) (fun hR => hR.2) (fun hR => vec_bitLen c h hR) ?_ ?_ rfl rfl
  · intro v bits hR i b hi
    rw [hR.blocks hw] at hi
    refine ⟨v.set i b, by show vecSet v i b = _; simp [vecSet, hi], ?_⟩
    have h1 : i * w + w ≤ v.length * w := by
      have := Nat.mul_le_mul_right w (show i + 1 ≤ v.length from hi)
      rw [Nat.succ_mul] at this; exact this
    rw [List.take_of_length_le (by rw [hR.length, length_blockBits]; omega)]
    refine ⟨by rw [arrayBits_set v hw i b hi, hR.1], ?_⟩
    rw [length_overwrite (by rw [hR.length, length_blockBits]; exact h1)]
    exact hR.2
  · intro v bits hR i b hi _ _
    rw [hR.blocks hw] at hi
    show vecSet v i b = _
    simp [vecSet, show ¬ i < v.length by omega]

end Succinct
