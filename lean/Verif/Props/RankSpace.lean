import Verif.Lemmas.RankCapacity
import Mathlib.Tactic.IntervalCases
/-!
# C104, C105: allocation and size of the rank directories

C104: both constructors reserve the room for their directories in advance. `Rank9::new` reserves enough; `JacobsonRank::new`
counts one entry too few unless the vector is a whole number of (large) blocks long, so that a directory can be
reallocated. C105: the `space` tests of rank9.rs and jacobson.rs for all sizes.
-/
namespace Succinct
open Spec

/-- C104 for `Rank9`, in full: the cells are never reallocated. -/
theorem C104_rank9 {A : Alloc} (hA : A.Lawful) {o : BitVecOps 64 S} {R : S → List Bool → Prop} (hl : BVLaw c o R)
    (hbl : BVBlockRead o R) {s : S} {bits : List Bool} (hR : R s bits) (hu : blocksFor 64 bits.length + 8 < 2 ^ c.usz) :
    ∃ r v, Rank9.new c o s = .ok r ∧ Rank9.newC c A o s = .ok (s, v) ∧ v.elems = r.counts ∧ v.moves = 0 ∧
      v.cap = A.withCapacity ((blocksFor 64 bits.length + 7) / 8 + 1) := by
  obtain ⟨blk, r, -, h1, h0, h2⟩ := rank9_new_ok hbl hR (hl.fits hR) hu
  have hsim := rank9_newC_sim c hA o s
  rw [h1] at hsim
  obtain ⟨⟨s', v⟩, h3, h4, m, k, h5, h6, k', h7, h8, h9⟩ := hsim.ok
  rw [hbl.blockLen hR] at h5
  cases h5
  rw [ceilDiv, addN_ok hu, Res.ok_bind, subN_ok (by omega), Res.ok_bind, divN_ok (by omega)] at h6
  cases h6
  rw [addN_ok (by omega)] at h7
  cases h7
  have hs : s' = s := h4.trans h0
  subst hs
  have hk := hA.withCapacity ((blocksFor 64 bits.length + 8 - 1) / 8 + 1)
  have hlen := h2.len
  have hm : v.moves = 0 := h9.moves_iff.2 (by omega)
  refine ⟨r, v, h1, h3, h8, hm, ?_⟩
  rcases h9.exact with h | h
  · exact h.2.1
  · omega

/-- C104 for `JacobsonRank`, exactly: a directory is reallocated iff its entries, of which there are `blocks + 1` and
`large blocks + 1` (both rounded up), need more blocks than were allocated for `n / w + 1` and `n / large_block_size + 1`
(both rounded down). Missing for the full claim: `C104_counterexample`. -/
theorem C104_jacobson_partial {A : Alloc} (hA : A.Lawful) {o : BitVecOps w S} {R : S → List Bool → Prop} (hw : IsBlk w)
    (hl : BVLaw c o R) (hbl : BVBlockRead o R) (hpad : BVPadLaw o R) {s : S} {bits : List Bool} (hR : R s bits)
    (hmem : InMemory c.usz bits.length) (h2 : 2 ≤ bits.length) :
    ∃ j spl kl ks large small, Jacobson.new c o s = .ok j ∧
      Jacobson.newC c A o s = .ok (w * spl, ⟨s, ⟨kl, large⟩, ⟨ks, small⟩⟩) ∧
      j.largeBlockSize = w * spl ∧ 0 < spl ∧
      j.largeBlockRanks = ⟨kl, large.base⟩ ∧ j.smallBlockRanks = ⟨ks, small.base⟩ ∧
      IsCeilLg (bits.length + 1) kl ∧ IsCeilLg (w * spl + 1) ks ∧
      (∃ lg, IsCeilLg bits.length lg ∧ IsCeilDiv (lg * lg) w spl) ∧
      large.base.vec.length = blocksFor 64 (((blocksFor w bits.length + spl - 1) / spl + 1) * kl) ∧
      Grown A (A.withCapacity (blocksFor 64 ((bits.length / (w * spl) + 1) * kl))) large.base.vec.length large.cap large.moves ∧
      small.base.vec.length = blocksFor 64 ((blocksFor w bits.length + 1) * ks) ∧
      Grown A (A.withCapacity (blocksFor 64 ((bits.length / w + 1) * ks))) small.base.vec.length small.cap small.moves := by
  have hwp := hw.pos
  obtain ⟨blk, j, lg, spl, kl, ks, -, hj, hs, hok, h3, h4, h5, h6⟩ := jacobson_new_ok hw hl hbl hpad hR hmem h2
  have hp := hok.pos
  have hsim := jacobson_newC_sim c hA o s
  rw [hj] at hsim
  obtain ⟨⟨lbs, ⟨bs, ⟨kl', large⟩, ⟨ks', small⟩⟩⟩, g1, g2, g3, n, g4, ⟨q1, q1', k1, e1, e2, e3, -, e4, e5, e6⟩,
    ⟨q2, q2', k2, f1, f2, f3, -, f4, f5, f6⟩⟩ := hsim.ok
  rw [hl.bitLen hR] at g4
  cases g4
  have hlt := (hl.fits hR).lt hwp
  have hmw : bits.length / w ≤ blocksFor w bits.length := Nat.div_le_div_right (by omega)
  have hd1 : bits.length / (w * spl) ≤ (blocksFor w bits.length + spl - 1) / spl := by
    rw [← Nat.div_div_eq_div_mul]
    exact Nat.div_le_div_right (by omega)
  have hd2 := Nat.div_le_self bits.length (w * spl)
  have hd3 := Nat.div_le_self bits.length w
  have hn63 : bits.length ≤ 2 ^ 63 := by
    unfold InMemory at hmem; split at hmem <;> omega
  have hfitsL := hok.large.rep.fits
  have hfitsS := hok.small.rep.fits
  rw [length_packBits, List.length_append, List.length_map, List.length_range, List.length_singleton] at hfitsL hfitsS
  have hbl1 := hok.large.rep.blocks
  have hbl2 := hok.small.rep.blocks
  rw [length_packBits, List.length_append, List.length_map, List.length_range, List.length_singleton] at hbl1 hbl2
  have fits_mono : ∀ {a b : Nat}, a ≤ b → Fits c.usz 64 b → Fits c.usz 64 a := by
    intro a b hab hb
    have := blocksFor_mono (w := 64) hab
    exact ⟨by have := hb.1; omega, by have := hb.2; omega⟩
  have hel := hok.large.eb
  have hes := hok.small.eb
  rw [hok.size, divN_ok (Nat.mul_pos hwp hp)] at e1
  cases e1
  rw [addN_ok (by omega)] at e2
  cases e2
  rw [hel, lenToBlockLen_ok isBlk64 (fits_mono (Nat.mul_le_mul_right kl (Nat.succ_le_succ hd1)) hfitsL)] at e3
  cases e3
  rw [divN_ok hwp] at f1
  cases f1
  rw [addN_ok (by omega)] at f2
  cases f2
  rw [hes, lenToBlockLen_ok isBlk64 (fits_mono (Nat.mul_le_mul_right ks (Nat.succ_le_succ hmw)) hfitsS)] at f3
  cases f3
  simp only at g1 g2 g3 e4 e5 e6 f4 f5 f6
  rw [hok.size] at g2
  rw [hs] at g3
  rw [hel] at e4
  rw [hes] at f4
  subst g2 g3 e4 f4
  refine ⟨j, spl, kl', ks', large, small, hj, g1, hok.size, hp, ?_, ?_, h5, h6, ⟨lg, h3, h4⟩, ?_, ?_, ?_, ?_⟩
  · rw [e5, ← hel]
  · rw [f5, ← hes]
  · rw [e5, hbl1]
  · rw [e5]; exact e6
  · rw [f5, hbl2]
  · rw [f5]; exact f6

/-- C104 where the full claim holds: over a whole number of blocks the small directory is never reallocated, over a whole
number of large blocks the large one neither. -/
theorem C104_jacobson_whole_partial {A : Alloc} (hA : A.Lawful) {o : BitVecOps w S} {R : S → List Bool → Prop} (hw : IsBlk w)
    (hl : BVLaw c o R) (hbl : BVBlockRead o R) (hpad : BVPadLaw o R) {s : S} {bits : List Bool} (hR : R s bits)
    (hmem : InMemory c.usz bits.length) (h2 : 2 ≤ bits.length) :
    ∃ lbs j, Jacobson.newC c A o s = .ok (lbs, j) ∧ (bits.length % w = 0 → j.small.base.moves = 0) ∧
      (bits.length % lbs = 0 → j.large.base.moves = 0) := by
  have hwp := hw.pos
  obtain ⟨j, spl, kl, ks, large, small, -, h1, -, hp, -, -, -, -, -, h3, h4, h5, h6⟩ :=
    C104_jacobson_partial hA hw hl hbl hpad hR hmem h2
  refine ⟨_, _, h1, fun h0 => h6.moves_iff.2 ?_, fun h0 => h4.moves_iff.2 ?_⟩
  · have e : blocksFor w bits.length = bits.length / w := by
      have := Nat.div_add_mod bits.length w
      rw [h0, Nat.mul_comm] at this
      rw [← this, Nat.add_zero, blocksFor_mul w _ hwp, Nat.mul_div_cancel _ hwp]
    rw [h5, e]
    exact hA.withCapacity _
  · obtain ⟨q, hq⟩ := Nat.dvd_of_mod_eq_zero h0
    have e : blocksFor w bits.length = spl * q := by
      rw [hq, Nat.mul_assoc, Nat.mul_comm w, blocksFor_mul w _ hwp]
    rw [h3, e, hq, Nat.mul_div_cancel_left q (Nat.mul_pos hwp hp), Nat.add_sub_assoc hp,
      Nat.mul_add_div hp, Nat.div_eq_of_lt (by omega)]
    exact hA.withCapacity _

/-- C104, counterexample: 73 bits in 8-bit blocks need 11 entries of 6 bits in the small directory, two words, but room
was reserved for 10, one word; 521 bits need 7 entries of 10 bits in the large directory, but room was reserved for 6.
With a `Vec` that allocates what it is asked for, both are reallocated. -/
theorem C104_counterexample :
    (match Jacobson.newC ⟨true, .p64, true⟩ .exact (bvBitVec ⟨true, .p64, true⟩ 8) ⟨73, List.replicate 10 0#8⟩ with
      | .ok (_, j) => (j.small.base.moves, j.large.base.moves)
      | _ => (0, 0)) = (1, 0) ∧
    (match Jacobson.newC ⟨true, .p64, true⟩ .exact (bvBitVec ⟨true, .p64, true⟩ 8) ⟨521, List.replicate 66 0#8⟩ with
      | .ok (_, j) => (j.small.base.moves, j.large.base.moves)
      | _ => (0, 0)) = (0, 1) := by decide +kernel

/-- 16 blocks in 3 cells, the last one unused: none is reallocated. -/
example : (match Rank9.newC ⟨true, .p64, true⟩ .exact (vecBitVec ⟨true, .p64, true⟩ 64) (List.replicate 17 5#64) with
    | .ok (_, v) => (v.elems.length, v.cap, v.moves)
    | _ => (0, 0, 0)) = (3, 4, 0) := by decide +kernel

/-! ### C105 -/

/-- C105: the test `space` of rank9.rs for all vectors of at least 118 words: `Rank9` and the vector together take less
than 1.3 times the bytes of the vector. `vs` and `sz` are the stack sizes of `Vec<u64>` and `Rank9<Vec<u64>>`: 24 and 48
bytes on 64-bit targets, 12 and 24 on 32-bit ones. -/
theorem C105_rank9 (c : Cfg) {A : Alloc} (hA : A.Lawful) (hx : ∀ n, A.withCapacity n = n) {vs sz : Nat} (hvs : vs ≤ 24)
    (hsz : sz ≤ 2 * vs) {v : List (BitVec 64)} {bits : List Bool} (hR : vecR c 64 v bits) (hm : 118 ≤ v.length)
    (hu : 10 * v.length + 100 < 2 ^ c.usz) :
    ∃ cells t tv, Rank9.newC c A (vecBitVec c 64) v = .ok (v, cells) ∧
      SpaceOps.totalBytes c (SpaceOps.vec c vs (SpaceOps.block 64)) ⟨v, v.length⟩ = .ok tv ∧
      SpaceOps.totalBytes c (SpaceOps.rank9 c vs sz (SpaceOps.vec c vs (SpaceOps.block 64)))
        ⟨⟨v, v.length⟩, ⟨cells.elems, cells.cap⟩⟩ = .ok t ∧ 10 * t < 13 * tv := by
  have hlen : blocksFor 64 bits.length = v.length := by rw [hR.length, blocksFor_mul _ _ (by decide)]
  obtain ⟨r, cells, -, h1, -, -, h2⟩ := C104_rank9 hA (vec_law c isBlk64) (vec_block c isBlk64).toBVBlockRead hR
    (by rw [hlen]; omega)
  rw [hx, hlen] at h2
  have hv := C71_vec (C71_stack_only c (BitVec 64) 8) vs
  have h3 := C71_total hv ⟨v, v.length⟩ (by
    simp only [sumOf_zero, SpaceOps.stackOnly, SpaceOps.vec]; omega)
  have h4 := C71_total (C71_rank9 hv vs sz) ⟨⟨v, v.length⟩, ⟨cells.elems, cells.cap⟩⟩ (by
    simp only [sumOf_zero, SpaceOps.stackOnly, SpaceOps.rank9]; omega)
  refine ⟨cells, _, _, h1, h3, h4, ?_⟩
  simp only [sumOf_zero, SpaceOps.stackOnly, SpaceOps.rank9, SpaceOps.vec]
  omega

/-- C105: the test `space` of jacobson.rs for all vectors of at least 1000 words of 32 bits, with a stronger bound: the
test allows a `JacobsonRank<&[u32]>`, which does not contain the bits, 1.5 times the bytes of the vector; it
takes less than half of them. The large directory may be reallocated (C104), and `Vec` then doubles. -/
theorem C105_jacobson (c : Cfg) {A : Alloc} (hA : A.Lawful) (hx : ∀ n, A.withCapacity n = n) (hd : A.Doubling)
    {vs bs is rs sz : Nat} (hsz : sz ≤ 112) {v : List (BitVec 32)} {bits : List Bool} (hR : vecR c 32 v bits)
    (hm : 1000 ≤ v.length) (hmem : InMemory c.usz bits.length) (hu : 4 * v.length + vs < 2 ^ c.usz) :
    ∃ lbs j t tv, Jacobson.newC c A (vecBitVec c 32) v = .ok (lbs, j) ∧
      SpaceOps.totalBytes c (SpaceOps.vec c vs (SpaceOps.block 32)) ⟨v, v.length⟩ = .ok tv ∧
      SpaceOps.totalBytes c (SpaceOps.jacobson c vs bs is sz (SpaceOps.stackOnly _ rs)) j = .ok t ∧ 2 * t < tv := by
  have isBlk32 : IsBlk 32 := by unfold IsBlk; decide
  have hlen := hR.length
  obtain ⟨-, spl, kl, ks, large, small, -, h1, -, hp, -, -, hkl, hks, ⟨lg, hlg, hspl⟩, h3, h4, h5, h6⟩ :=
    C104_jacobson_partial hA isBlk32 (vec_law c isBlk32) (vec_block c isBlk32).toBVBlockRead (vec_pad c isBlk32) hR hmem
      (by omega)
  have hb : blocksFor 32 bits.length = v.length := by rw [hlen, blocksFor_mul _ _ (by decide)]
  rw [hb] at h3 h5
  rw [hx] at h4 h6
  -- the small directory is not reallocated
  rw [hlen, Nat.mul_div_cancel _ (by decide : 0 < 32), ← h5] at h6
  have hcs : small.cap = small.base.vec.length := by
    rcases h6.exact with h | h <;> omega
  -- the large directory is at most doubled
  have hcl := h4.double hd
  have hq : bits.length / (32 * spl) ≤ (v.length + spl - 1) / spl := by
    rw [hlen, ← Nat.div_div_eq_div_mul, Nat.mul_div_cancel _ (by decide : 0 < 32)]
    exact Nat.div_le_div_right (by omega)
  have hc0 := blocksFor_mono (w := 64) (Nat.mul_le_mul_right kl (Nat.succ_le_succ hq))
  rw [Nat.succ_eq_add_one, Nat.succ_eq_add_one, ← h3] at hc0
  replace hcl : large.cap ≤ max 4 (2 * large.base.vec.length) := by omega
  clear hc0
  -- bounds on the parameters
  have hn63 : bits.length ≤ 2 ^ 63 := by
    unfold InMemory at hmem; split at hmem <;> omega
  have hlg63 : lg ≤ 63 := hlg.2 63 hn63
  have hlg15 : 15 ≤ lg := by
    apply Nat.lt_of_not_le
    intro h
    have := Nat.pow_le_pow_right (show 0 < 2 by decide) h
    have := hlg.1
    omega
  have hkl2 : kl ≤ lg + 1 := hkl.2 (lg + 1) (by have := hlg.1; rw [Nat.pow_succ]; omega)
  have hsp1 := hspl.1
  have hsp2 := hspl.2 ((lg * lg + 31) / 32) (by omega)
  have hk : ∀ k, 32 * spl + 1 ≤ 2 ^ k → ks ≤ k := hks.2
  have hL : large.base.vec.length ≤ blocksFor 64 (((v.length + spl - 1) / spl + 1) * (lg + 1)) := by
    rw [h3]; exact blocksFor_mono (Nat.mul_le_mul_left _ hkl2)
  have hS : ∀ k, 32 * spl + 1 ≤ 2 ^ k → small.base.vec.length ≤ blocksFor 64 ((v.length + 1) * k) := by
    intro k hk'
    rw [h5]; exact blocksFor_mono (Nat.mul_le_mul_left _ (hk k hk'))
  have key : 2 * (112 + (8 * large.cap + 8 * small.cap)) < 4 * v.length := by
    clear hkl hks hlg hspl hkl2 h1 h4 h6 h3 h5 hk hx hd hA hR hmem hu hn63 hq hb
    have e : spl = (lg * lg + 31) / 32 := by omega
    subst e
    unfold blocksFor at hL hS
    clear hsp1 hsp2 hp hlen
    interval_cases lg
    all_goals
      first
      | (have h9 := hS 9 (by decide); clear hS; simp only [Nat.reduceMul, Nat.reduceAdd, Nat.reduceDiv] at hL; omega)
      | (have h9 := hS 10 (by decide); clear hS; simp only [Nat.reduceMul, Nat.reduceAdd, Nat.reduceDiv] at hL; omega)
      | (have h9 := hS 11 (by decide); clear hS; simp only [Nat.reduceMul, Nat.reduceAdd, Nat.reduceDiv] at hL; omega)
      | (have h9 := hS 12 (by decide); clear hS; simp only [Nat.reduceMul, Nat.reduceAdd, Nat.reduceDiv] at hL; omega)
  have hv := C71_vec (C71_stack_only c (BitVec 32) 4) vs
  have h7 := C71_total hv ⟨v, v.length⟩ (by
    simp only [sumOf_zero, SpaceOps.stackOnly, SpaceOps.vec]; omega)
  have h8 := C71_total (C71_jacobson (C71_stack_only c (List (BitVec 32)) rs) vs bs is sz) ⟨v, ⟨kl, large⟩, ⟨ks, small⟩⟩ (by
    simp only [SpaceOps.jacobson]; omega)
  refine ⟨_, _, _, _, h1, h7, h8, ?_⟩
  simp only [sumOf_zero, SpaceOps.stackOnly, SpaceOps.jacobson, SpaceOps.vec]
  omega

/-- An allocator like std's meets the hypotheses. -/
example : ∃ A : Alloc, A.Lawful ∧ (∀ n, A.withCapacity n = n) ∧ A.Doubling ∧ A.grow 8 8 1 = 16 :=
  ⟨⟨id, fun len cap additional => max 4 (max (2 * cap) (len + additional)), fun len _ additional => len + additional,
    fun len _ => len⟩, ⟨fun _ => Nat.le_refl _, fun _ _ _ => by simp only; omega, fun _ _ _ => Nat.le_refl _,
    fun _ _ h => ⟨Nat.le_refl _, h⟩⟩, fun _ => rfl, fun _ _ _ => Nat.le_refl _, rfl⟩

/-- The bound of C105 for `Rank9` fails for short vectors: the directory of ten words takes 48 bytes and its `Vec` 24. -/
example : (match Rank9.newC ⟨true, .p64, true⟩ .exact (vecBitVec ⟨true, .p64, true⟩ 64) (List.replicate 10 5#64) with
    | .ok (v, cells) => (match SpaceOps.totalBytes ⟨true, .p64, true⟩ (SpaceOps.rank9 ⟨true, .p64, true⟩ 24 48
        (SpaceOps.vec ⟨true, .p64, true⟩ 24 (SpaceOps.block 64))) ⟨⟨v, 10⟩, ⟨cells.elems, cells.cap⟩⟩ with
      | .ok t => (t, decide (10 * t < 13 * (24 + 80)))
      | _ => (0, true))
    | _ => (0, true)) = (176, false) := by decide +kernel

/-! Each theorem of this file that has hypotheses is applied to concrete data in `Verif/Instances/RankSpace.lean`. -/

end Succinct
