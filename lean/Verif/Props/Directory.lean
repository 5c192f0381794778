import Verif.Props.Rank
/-! C149: what the rank directories contain. -/
namespace Succinct
open Spec

/-- The cells of `Rank9`: the number of ones before each 512 bits, and, in fields of nine bits, the lowest first, the number of ones
from there to the second, third, … eighth word, as far as there are words. -/
def Spec.rank9Cells (bits : List Bool) : List (Nat × Nat) :=
  (List.range (blocksFor 64 bits.length / 8 + 1)).map fun q => (occ true bits (512 * q),
    ((List.range 7).map fun t =>
      if 8 * q + t + 1 ≤ blocksFor 64 bits.length then (occ true bits (512 * q + 64 * (t + 1)) - occ true bits (512 * q)) * 512 ^ t
      else 0).sum)

/-- The large ranks of `JacobsonRank`, with blocks of `w` bits and `spl` blocks in a large one: the number of ones before each large
block, and all ones. -/
def Spec.largeRanks (w spl : Nat) (bits : List Bool) : List Nat :=
  (List.range ((blocksFor w bits.length + spl - 1) / spl)).map (fun i => occ true bits (i * spl * w)) ++ [bits.count true]

/-- The small ranks: the number of ones before each block, and all ones, from the beginning of the large block before. -/
def Spec.smallRanks (w spl : Nat) (bits : List Bool) : List Nat :=
  (List.range (blocksFor w bits.length)).map (fun i => occ true bits (i * w) - occ true bits (i / spl * spl * w)) ++
    [bits.count true - occ true bits ((blocksFor w bits.length - 1) / spl * spl * w)]

private theorem prefix_occ {o : BitVecOps w S} {R : S → List Bool → Prop} (hp : BVPadLaw o R) {s : S} {bits : List Bool}
    (hR : R s bits) {blk : Nat → BitVec w} (h : BlocksOf o s bits blk) (i : Nat) (hi : i ≤ blocksFor w bits.length) :
    prefixOnes blk i = occ true bits (i * w) := by
  induction i with
  | zero => simp [prefixOnes, occ]
  | succ i ih =>
    have hb := h.get i hi
    rw [hp.getBlock hR i hi] at hb
    have hb := Res.ok.inj hb
    show prefixOnes blk i + countOnes (blk i) = _
    have hpad : blockBits (BitVec.ofNat w (bitsVal ((bits.drop (i * w)).take w))) =
        (bits.drop (i * w)).take w ++ List.replicate (w - ((bits.drop (i * w)).take w).length) false := by
      apply bits_ext
      · rw [length_blockBits, List.length_append, List.length_replicate, List.length_take]; omega
      · intro j hj
        rw [length_blockBits] at hj
        rw [getD_blockBits, BitVec.getLsbD_ofNat, testBit_bitsVal, List.getElem?_append]
        simp only [hj, decide_true, Bool.true_and]
        split
        · rfl
        · rename_i hjl
          rw [List.getElem?_eq_none (by omega), List.getElem?_replicate, if_pos (by omega)]; rfl
    rw [ih (by omega), ← hb, countOnes_eq, hpad, List.count_append, List.count_replicate, Nat.succ_mul]
    show ones bits (i * w) + _ = ones bits (i * w + w)
    rw [ones_add]
    simp

private theorem occ_all (v : Bool) {bits : List Bool} {p : Nat} (h : bits.length ≤ p) : occ v bits p = bits.count v := by
  unfold occ
  rw [List.take_of_length_le h]

private theorem l2field_toNat (x : BitVec 64) (t : Nat) : (l2field x t).toNat = x.toNat / 2 ^ l2pos t % 512 := by
  unfold l2field
  rw [BitVec.toNat_and, BitVec.toNat_ushiftRight, Nat.shiftRight_eq_div_pow]
  exact Nat.and_two_pow_sub_one_eq_mod _ 9

private theorem digits_sum (b n k : Nat) : n % b ^ k = ((List.range k).map fun t => n / b ^ t % b * b ^ t).sum := by
  induction k with
  | zero => simp [Nat.mod_one]
  | succ k ih =>
    rw [List.range_succ, List.map_append, List.sum_append, ← ih, Nat.mod_pow_succ, Nat.mul_comm (b ^ k)]
    simp

/-- A word whose highest bit is clear is the sum of its seven fields. -/
private theorem l2fields_sum (x : BitVec 64) (h : l2field x 0 = 0) :
    x.toNat = ((List.range 7).map fun t => (l2field x (t + 1)).toNat * 512 ^ t).sum := by
  have h0 : (l2field x 0).toNat = 0 := by rw [h]; rfl
  rw [l2field_toNat] at h0
  have hx := x.isLt
  have h1 : x.toNat < 512 ^ 7 := by
    rw [show (512 : Nat) ^ 7 = 2 ^ 63 by decide]
    rw [show l2pos 0 = 63 from rfl] at h0
    omega
  rw [← Nat.mod_eq_of_lt h1, digits_sum]
  congr 1
  apply List.map_congr_left
  intro t _
  have e : l2pos (t + 1) = 9 * t := by unfold l2pos; rw [if_neg (by omega)]; omega
  rw [l2field_toNat, e, Nat.pow_mul]

/-- Equal ranks at the beginnings of all blocks, and at the end: equal numbers of ones in all blocks. -/
private theorem block_counts {bits bits' : List Bool} {m : Nat} (h : ∀ i ≤ m, occ true bits (i * w) = occ true bits' (i * w)) (i : Nat)
    (hi : i < m) : ((bits.drop (i * w)).take w).count true = ((bits'.drop (i * w)).take w).count true := by
  have h1 := h i (by omega)
  have h2 := h (i + 1) (by omega)
  rw [Nat.succ_mul] at h2
  have e1 : occ true bits (i * w + w) = _ := ones_add bits (i * w) w
  have e2 : occ true bits' (i * w + w) = _ := ones_add bits' (i * w) w
  rw [e1, e2] at h2
  have h1 : ones bits (i * w) = ones bits' (i * w) := h1
  omega

private theorem occ_of_counts {bits bits' : List Bool} {m : Nat}
    (h : ∀ i < m, ((bits.drop (i * w)).take w).count true = ((bits'.drop (i * w)).take w).count true) (i : Nat) (hi : i ≤ m) :
    occ true bits (i * w) = occ true bits' (i * w) := by
  induction i with
  | zero => simp [occ]
  | succ i ih =>
    rw [Nat.succ_mul]
    have e1 : occ true bits (i * w + w) = _ := ones_add bits (i * w) w
    have e2 : occ true bits' (i * w + w) = _ := ones_add bits' (i * w) w
    rw [e1, e2, h i hi]
    have h1 : ones bits (i * w) = ones bits' (i * w) := ih (by omega)
    rw [h1]

/-- C149 for `Rank9`. The directory is exactly the list of `rank9Cells`. -/
theorem C149_rank9 {c : Cfg} {o : BitVecOps 64 S} {R : S → List Bool → Prop} (hl : BVLaw c o R) (hbl : BVBlockRead o R) (hpad : BVPadLaw o R)
    {s : S} {bits : List Bool} (hR : R s bits) (hu : blocksFor 64 bits.length + 8 < 2 ^ c.usz) :
    ∃ r, Rank9.new c o s = .ok r ∧ r.bitStore = s ∧ r.counts.map (fun x => (x.level1, x.level2.toNat)) = rank9Cells bits := by
  obtain ⟨blk, r, hblk, hr, hs, hok⟩ := rank9_new_ok hbl hR (hl.fits hR) hu
  refine ⟨r, hr, hs, List.ext_getElem (by simp [rank9Cells, hok.len]) fun q h1 h2 => ?_⟩
  rw [List.length_map] at h1
  have hc := hok.cells q _ (List.getElem?_eq_getElem h1)
  have hq : q ≤ blocksFor 64 bits.length / 8 := by rw [hok.len] at h1; omega
  have hpo := fun i hi => prefix_occ hpad hR hblk i hi
  rw [List.getElem_map]
  simp only [rank9Cells, List.getElem_map, List.getElem_range, Prod.mk.injEq]
  have h8 : prefixOnes blk (8 * q) = occ true bits (512 * q) := by
    rw [hpo _ (by omega), show 8 * q * 64 = 512 * q by omega]
  refine ⟨by rw [hc.level1, h8], ?_⟩
  have h0 : l2field r.counts[q].level2 0 = 0 := by
    apply BitVec.eq_of_toNat_eq
    rw [hc.level2 0 (by omega) (by omega)]
    simp
  rw [l2fields_sum _ h0]
  congr 1
  apply List.map_congr_left
  intro t ht
  rw [List.mem_range] at ht
  by_cases hm : 8 * q + t + 1 ≤ blocksFor 64 bits.length
  · rw [if_pos hm, hc.level2 (t + 1) (by omega) (by omega), h8, hpo _ (by omega), show (8 * q + (t + 1)) * 64 = 512 * q + 64 * (t + 1) by omega]
  · rw [if_neg hm, hc.rest (t + 1) (by omega) (by omega)]
    simp

/-- The directories of two vectors of the same length are equal exactly if each word has the same number of ones in both. In particular they
depend on the bits only, not on the type of the vector, the build or the target. -/
theorem C149_rank9_equal {c c' : Cfg} {o : BitVecOps 64 S} {o' : BitVecOps 64 S'} {R : S → List Bool → Prop} {R' : S' → List Bool → Prop}
    (hl : BVLaw c o R) (hbl : BVBlockRead o R) (hpad : BVPadLaw o R) (hl' : BVLaw c' o' R') (hbl' : BVBlockRead o' R')
    (hpad' : BVPadLaw o' R') {s : S} {s' : S'} {bits bits' : List Bool} (hR : R s bits) (hR' : R' s' bits')
    (hu : blocksFor 64 bits.length + 8 < 2 ^ c.usz) (hu' : blocksFor 64 bits'.length + 8 < 2 ^ c'.usz)
    (hlen : bits.length = bits'.length) :
    ∃ r r', Rank9.new c o s = .ok r ∧ Rank9.new c' o' s' = .ok r' ∧ (r.counts = r'.counts ↔
      ∀ i < blocksFor 64 bits.length, ((bits.drop (i * 64)).take 64).count true = ((bits'.drop (i * 64)).take 64).count true) := by
  obtain ⟨r, hr, -, e⟩ := C149_rank9 hl hbl hpad hR hu
  obtain ⟨r', hr', -, e'⟩ := C149_rank9 hl' hbl' hpad' hR' hu'
  refine ⟨r, r', hr, hr', fun h => ?_, fun h => ?_⟩
  · obtain ⟨blk, r1, hblk, hr1, -, hok⟩ := rank9_new_ok hbl hR (hl.fits hR) hu
    obtain ⟨blk', r2, hblk', hr2, -, hok'⟩ := rank9_new_ok hbl' hR' (hl'.fits hR') hu'
    obtain rfl := Res.ok.inj (hr.symm.trans hr1)
    obtain rfl := Res.ok.inj (hr'.symm.trans hr2)
    have key : ∀ i ≤ blocksFor 64 bits.length, occ true bits (i * 64) = occ true bits' (i * 64) := by
      intro i hi
      rw [← prefix_occ hpad hR hblk i hi, ← prefix_occ hpad' hR' hblk' i (by rw [← hlen]; exact hi)]
      have h1 : i / 8 < r.counts.length := by rw [hok.len]; omega
      have hc := hok.cells (i / 8) _ (List.getElem?_eq_getElem h1)
      have hc' := hok'.cells (i / 8) r.counts[i / 8] (by rw [← h]; exact List.getElem?_eq_getElem h1)
      have h2 := hc.level2 (i % 8) (by omega) (by omega)
      have h3 := hc'.level2 (i % 8) (by omega) (by rw [← hlen]; omega)
      have h4 := hc.level1.symm.trans hc'.level1
      rw [show 8 * (i / 8) + i % 8 = i by omega] at h2 h3
      have := prefixOnes_mono blk (show 8 * (i / 8) ≤ i by omega)
      have := prefixOnes_mono blk' (show 8 * (i / 8) ≤ i by omega)
      omega
    exact block_counts key
  · have key := occ_of_counts h
    have e2 : rank9Cells bits = rank9Cells bits' := by
      unfold rank9Cells
      rw [← hlen]
      apply List.map_congr_left
      intro q hq
      rw [List.mem_range] at hq
      have h8 := key (8 * q) (by omega)
      rw [show 8 * q * 64 = 512 * q by omega] at h8
      rw [h8]
      congr 2
      apply List.map_congr_left
      intro t _
      split
      · rename_i hm
        have := key (8 * q + t + 1) hm
        rw [show (8 * q + t + 1) * 64 = 512 * q + 64 * (t + 1) by omega] at this
        rw [this]
      · rfl
    have e3 := e.trans (e2.trans e'.symm)
    refine List.map_inj_right (fun x y hxy => ?_) |>.1 e3
    obtain ⟨a, b⟩ := x
    obtain ⟨a', b'⟩ := y
    simp only [Prod.mk.injEq] at hxy
    obtain ⟨rfl, hb⟩ := hxy
    rw [BitVec.eq_of_toNat_eq hb]

private theorem ceil_last {m spl i : Nat} (h : 0 < spl) (hi : i < (m + spl - 1) / spl) : i * spl < m := by
  have := (Nat.le_div_iff_mul_le h).1 hi
  rw [Nat.succ_mul] at this
  omega

private theorem jacobson_dirs {c : Cfg} {o : BitVecOps w S} {R : S → List Bool → Prop} (hw : IsBlk w) (hl : BVLaw c o R) (hbl : BVBlockRead o R)
    (hpad : BVPadLaw o R) {s : S} {bits : List Bool} (hR : R s bits) (hmem : InMemory c.usz bits.length) (h2 : 2 ≤ bits.length) :
    ∃ j lg spl kl ks, Jacobson.new c o s = .ok j ∧ j.bitStore = s ∧ IsCeilLg bits.length lg ∧ IsCeilDiv (lg * lg) w spl ∧
      IsCeilLg (bits.length + 1) kl ∧ IsCeilLg (w * spl + 1) ks ∧ 0 < spl ∧ j.largeBlockSize = w * spl ∧
      IR c 64 kl j.largeBlockRanks (largeRanks w spl bits) ∧ IR c 64 ks j.smallBlockRanks (smallRanks w spl bits) := by
  obtain ⟨blk, j, lg, spl, kl, ks, hblk, hj, hs, hok, h3, h4, h5, h6⟩ := jacobson_new_ok hw hl hbl hpad hR hmem h2
  have hpo := fun i hi => prefix_occ hpad hR hblk i hi
  have hsp := hok.pos
  have hall : prefixOnes blk (blocksFor w bits.length) = bits.count true := by
    rw [hpo _ (Nat.le_refl _), occ_all _ (le_blocksFor_mul _ hw.pos)]
  refine ⟨j, lg, spl, kl, ks, hj, hs, h3, h4, h5, h6, hsp, hok.size, ?_, ?_⟩
  · have := hok.large
    rw [hall, List.map_congr_left (fun i hi => hpo (i * spl) (Nat.le_of_lt (ceil_last hsp (List.mem_range.1 hi))))] at this
    exact this
  · have := hok.small
    rw [hall, hpo ((blocksFor w bits.length - 1) / spl * spl) (by have := (div_facts (i := blocksFor w bits.length - 1) hsp).1; omega)] at this
    rw [List.map_congr_left (g := fun i => occ true bits (i * w) - occ true bits (i / spl * spl * w)) (fun i hi => ?_)] at this
    · exact this
    · rw [List.mem_range] at hi
      rw [hpo i (by omega), hpo (i / spl * spl) (by have := (div_facts (i := i) hsp).1; omega)]

/-- C149 for `JacobsonRank`: the entries of the two directories are exactly those of `largeRanks` and `smallRanks`. -/
theorem C149_jacobson {c : Cfg} {o : BitVecOps w S} {R : S → List Bool → Prop} (hw : IsBlk w) (hl : BVLaw c o R) (hbl : BVBlockRead o R)
    (hpad : BVPadLaw o R) {s : S} {bits : List Bool} (hR : R s bits) (hmem : InMemory c.usz bits.length) (h2 : 2 ≤ bits.length) :
    ∃ j lg spl, Jacobson.new c o s = .ok j ∧ j.bitStore = s ∧ IsCeilLg bits.length lg ∧ IsCeilDiv (lg * lg) w spl ∧
      j.largeBlockRanks.len = (largeRanks w spl bits).length ∧
      (∀ i (h : i < (largeRanks w spl bits).length), ∃ x, j.largeBlockRanks.get c i = .ok x ∧ x.toNat = (largeRanks w spl bits)[i]) ∧
      j.smallBlockRanks.len = (smallRanks w spl bits).length ∧
      (∀ i (h : i < (smallRanks w spl bits).length), ∃ x, j.smallBlockRanks.get c i = .ok x ∧ x.toNat = (smallRanks w spl bits)[i]) := by
  obtain ⟨j, lg, spl, kl, ks, hj, hs, h3, h4, -, -, -, -, hL, hS⟩ := jacobson_dirs hw hl hbl hpad hR hmem h2
  exact ⟨j, lg, spl, hj, hs, h3, h4, hL.len, fun i h => hL.get_ok isBlk64 h, hS.len, fun i h => hS.get_ok isBlk64 h⟩

/-- The same for `JacobsonRank`: the directories of two vectors of the same length, in blocks of the same type, are equal exactly if each
block has the same number of ones in both. -/
theorem C149_jacobson_equal {c c' : Cfg} {o : BitVecOps w S} {o' : BitVecOps w S'} {R : S → List Bool → Prop} {R' : S' → List Bool → Prop}
    (hw : IsBlk w) (hl : BVLaw c o R) (hbl : BVBlockRead o R) (hpad : BVPadLaw o R) (hl' : BVLaw c' o' R') (hbl' : BVBlockRead o' R')
    (hpad' : BVPadLaw o' R') {s : S} {s' : S'} {bits bits' : List Bool} (hR : R s bits) (hR' : R' s' bits')
    (hmem : InMemory c.usz bits.length) (hmem' : InMemory c'.usz bits'.length) (h2 : 2 ≤ bits.length) (hlen : bits.length = bits'.length) :
    ∃ j j', Jacobson.new c o s = .ok j ∧ Jacobson.new c' o' s' = .ok j' ∧ j.largeBlockSize = j'.largeBlockSize ∧
      (j.largeBlockRanks = j'.largeBlockRanks ∧ j.smallBlockRanks = j'.smallBlockRanks ↔
        ∀ i < blocksFor w bits.length, ((bits.drop (i * w)).take w).count true = ((bits'.drop (i * w)).take w).count true) := by
  obtain ⟨j, lg, spl, kl, ks, hj, -, h3, h4, h5, h6, hsp, hz, hL, hS⟩ := jacobson_dirs hw hl hbl hpad hR hmem h2
  obtain ⟨j', lg', spl', kl', ks', hj', -, h3', h4', h5', h6', -, hz', hL', hS'⟩ :=
    jacobson_dirs hw hl' hbl' hpad' hR' hmem' (by omega)
  rw [← hlen] at h3' h5'
  obtain rfl : lg = lg' := Nat.le_antisymm (h3.2 _ h3'.1) (h3'.2 _ h3.1)
  obtain rfl : kl = kl' := Nat.le_antisymm (h5.2 _ h5'.1) (h5'.2 _ h5.1)
  obtain rfl : spl = spl' := Nat.le_antisymm (h4.2 _ h4'.1) (h4'.2 _ h4.1)
  obtain rfl : ks = ks' := Nat.le_antisymm (h6.2 _ h6'.1) (h6'.2 _ h6.1)
  have hwp := hw.pos
  have hm : 0 < blocksFor w bits.length := by rw [lt_blocksFor hwp]; omega
  refine ⟨j, j', hj, hj', hz.trans hz'.symm, fun ⟨e1, e2⟩ => ?_, fun h => ?_⟩
  · have eL : largeRanks w spl bits = largeRanks w spl bits' :=
      packBits_inj kl hL.pos _ _ hL.lt hL'.lt ((e1 ▸ hL.rep).bits_of_eq hL'.rep)
    have eS : smallRanks w spl bits = smallRanks w spl bits' :=
      packBits_inj ks hS.pos _ _ hS.lt hS'.lt ((e2 ▸ hS.rep).bits_of_eq hS'.rep)
    unfold largeRanks at eL
    unfold smallRanks at eS
    rw [← hlen] at eL eS
    obtain ⟨eL1, eL2⟩ := List.append_inj eL (by simp)
    obtain ⟨eS1, -⟩ := List.append_inj eS (by simp)
    have kL : ∀ i < (blocksFor w bits.length + spl - 1) / spl, occ true bits (i * spl * w) = occ true bits' (i * spl * w) :=
      fun i hi => List.map_inj_left.1 eL1 i (List.mem_range.2 hi)
    have kS : ∀ i < blocksFor w bits.length, occ true bits (i * w) - occ true bits (i / spl * spl * w) =
        occ true bits' (i * w) - occ true bits' (i / spl * spl * w) := fun i hi => List.map_inj_left.1 eS1 i (List.mem_range.2 hi)
    apply block_counts
    intro i hi
    rcases Nat.lt_or_ge i (blocksFor w bits.length) with h | h
    · have hd := div_facts (i := i) hsp
      have h1 := kL (i / spl) (by
        show i / spl + 1 ≤ _
        rw [Nat.le_div_iff_mul_le hsp, Nat.succ_mul]
        omega)
      have h2 := kS i h
      have h3 : occ true bits (i / spl * spl * w) ≤ occ true bits (i * w) := ones_mono bits (Nat.mul_le_mul_right w hd.1)
      have h4 : occ true bits' (i / spl * spl * w) ≤ occ true bits' (i * w) := ones_mono bits' (Nat.mul_le_mul_right w hd.1)
      omega
    · obtain rfl : i = blocksFor w bits.length := by omega
      have := le_blocksFor_mul bits.length hwp
      rw [occ_all _ this, occ_all _ (by omega)]
      simpa using eL2
  · have key := occ_of_counts h
    have hall : bits.count true = bits'.count true := by
      have := key _ (Nat.le_refl _)
      have h1 := le_blocksFor_mul bits.length hwp
      rwa [occ_all _ h1, occ_all _ (by omega)] at this
    have eL : largeRanks w spl bits = largeRanks w spl bits' := by
      unfold largeRanks
      rw [← hlen, hall]
      congr 1
      apply List.map_congr_left
      intro i hi
      exact key _ (Nat.le_of_lt (ceil_last hsp (List.mem_range.1 hi)))
    have eS : smallRanks w spl bits = smallRanks w spl bits' := by
      unfold smallRanks
      rw [← hlen, hall, key ((blocksFor w bits.length - 1) / spl * spl)
        (by have := (div_facts (i := blocksFor w bits.length - 1) hsp).1; omega)]
      congr 1
      apply List.map_congr_left
      intro i hi
      rw [List.mem_range] at hi
      rw [key i (by omega), key (i / spl * spl) (by have := (div_facts (i := i) hsp).1; omega)]
    rw [← eL] at hL'
    rw [← eS] at hS'
    have f1 := hL.rep.eq_of_bits hL.pos hL'.rep
    have f2 := hS.rep.eq_of_bits hS.pos hS'.rep
    have f3 := hL.eb.trans hL'.eb.symm
    have f4 := hS.eb.trans hS'.eb.symm
    constructor
    · cases hx : j.largeBlockRanks; cases hy : j'.largeBlockRanks; simp_all
    · cases hx : j.smallBlockRanks; cases hy : j'.smallBlockRanks; simp_all

/-- 600 ones: ten words, two cells. 50 ones in bytes: large blocks of five bytes. -/
example : rank9Cells (List.replicate 600 true) =
    [(0, 64 + 128 * 512 + 192 * 512 ^ 2 + 256 * 512 ^ 3 + 320 * 512 ^ 4 + 384 * 512 ^ 5 + 448 * 512 ^ 6), (512, 64 + 88 * 512)] ∧
    largeRanks 8 5 (List.replicate 50 true) = [0, 40, 50] ∧ smallRanks 8 5 (List.replicate 50 true) = [0, 8, 16, 24, 32, 0, 8, 10] ∧
    (match Jacobson.new ⟨true, .p64, true⟩ (bvBitVec ⟨true, .p64, true⟩ 8) ⟨50, List.replicate 6 255#8 ++ [3#8]⟩ with
    | .ok j => ((List.range 3).map (j.largeBlockRanks.get ⟨true, .p64, true⟩), (List.range 8).map (j.smallBlockRanks.get ⟨true, .p64, true⟩))
    | _ => ([], [])) = ([0, 40, 50].map Res.ok, [0, 8, 16, 24, 32, 0, 8, 10].map Res.ok) := by
  decide +kernel

/-! Each theorem of this file that has hypotheses is applied to concrete data in `Verif/Instances/Directory.lean`. -/

end Succinct
