import Verif.Lemmas.Instances
import Verif.Lemmas.BitVector
import Verif.Lemmas.IntVector
import Verif.Lemmas.BitBuffer
/-!
# C98: `get_bits` and `set_bits` at every start and every count

C10, C11 and C74 cover spans of at most one block. The trait defaults (traits.rs:77-98, 159-186) are determined here for every
`u64` start and every `usize` count, over any bit vector that stores whole blocks.
-/
namespace Succinct
open Spec

section
variable {w : Nat} {S : Type} {c : Cfg} {bitLen : S → Res Nat} {getBlock : S → Nat → Res (BitVec w)}
  {s : S} {n : Nat} {f : Nat → Bool}

/-- a span ending beyond the vector panics, whatever its size and whether or not the end wraps -/
theorem BlockView.getBits_beyond (h : IsBlk w) (v : BlockView c w bitLen getBlock s n f) {start cnt : Nat}
    (hs : start < 2 ^ 64) (hc : cnt < 2 ^ c.usz) (hend : n < start + cnt) :
    dfltGetBits c bitLen getBlock s start cnt = .panic := by
  by_cases hcw : cnt ≤ w
  · exact v.getBits_panic h hs hcw hend
  have hw := h.pos
  have hlu := h.lt_usz c
  have hf1 := v.fits.lt hw
  have hf0 := v.fits.1
  have hf2 := v.fits.2
  have hu64 : 2 ^ c.usz ≤ 2 ^ 64 := Nat.pow_le_pow_right (by omega) c.usz_le
  unfold dfltGetBits
  by_cases ho : start + cnt < 2 ^ 64
  · rw [addN_ok ho, Res.ok_bind, v.len, Res.ok_bind, assertR_false (by omega)]; rfl
  rw [addN, if_neg ho, overflow]
  by_cases hd : c.debug
  · rw [if_pos hd]; rfl
  rw [if_neg hd, Res.ok_bind, v.len, Res.ok_bind]
  by_cases hl : (start + cnt) % 2 ^ 64 ≤ n
  · rw [assertR_true hl, Res.ok_bind, addrNew_eq c h]
    by_cases hu : start / w < 2 ^ c.usz
    · rw [if_pos hu, Res.ok_bind]
      obtain ⟨q, r, hr, he, hq, hr'⟩ := divmod_cases w start hw
      simp only [hq, hr']
      rw [hq] at hu
      rw [subN_ok (by omega), Res.ok_bind, if_neg (by omega), subN_ok (by omega), Res.ok_bind]
      by_cases hqb : q < blocksFor w n
      · obtain ⟨b1, hb1, -⟩ := v.blk q hqb
        rw [hb1, Res.ok_bind, addN_ok (by omega), Res.ok_bind]
        by_cases hq1 : q + 1 < blocksFor w n
        · obtain ⟨b2, hb2, -⟩ := v.blk (q + 1) hq1
          obtain ⟨y1, hy1, -⟩ := blkGetBits_eq c h b1 (start := r) (len := w - r) (by omega)
          have hqw : (q + 1) * w + w ≤ blocksFor w n * w := by
            rw [← Nat.succ_mul]; exact Nat.mul_le_mul_right _ hq1
          rw [Nat.succ_mul] at hqw
          rw [hb2, Res.ok_bind, hy1, Res.ok_bind, blkGetBits_panic c b2 (by omega) (by omega)]; rfl
        · rw [v.blk_panic (q + 1) (by omega) (by omega)]; rfl
      · rw [v.blk_panic q (by omega) hu]; rfl
    · rw [if_neg hu]; rfl
  · rw [assertR_false hl]; rfl

/-- an empty span inside the blocks reads as zero; at the end of a full last block it panics -/
theorem BlockView.getBits_zero (h : IsBlk w) (v : BlockView c w bitLen getBlock s n f) {start : Nat} (hs : start ≤ n) :
    dfltGetBits c bitLen getBlock s start 0 = if start / w < blocksFor w n then .ok 0 else .panic := by
  have hw := h.pos
  have hlu := h.lt_usz c
  have hf1 := v.fits.lt hw
  have hf2 := v.fits.2
  obtain ⟨q, r, hr, he, hq, hr'⟩ := divmod_cases w start hw
  have hqle : q ≤ blocksFor w n := by
    apply Nat.le_of_lt_succ
    have := le_blocksFor_mul n hw
    rw [← hq, Nat.div_lt_iff_lt_mul hw, Nat.succ_mul]; omega
  unfold dfltGetBits
  rw [addN_ok (by omega), Res.ok_bind, v.len, Res.ok_bind, assertR_true (by omega), Res.ok_bind,
    addrNew_ok c h (by omega), Res.ok_bind]
  simp only [hq, hr']
  rw [subN_ok (by omega), Res.ok_bind, if_pos (by omega)]
  split
  · rename_i hqb
    obtain ⟨b, hb, -⟩ := v.blk q hqb
    rw [hb, Res.ok_bind, blkGetBits, addN_ok (by omega), Res.ok_bind, assertR_true (by omega), Res.ok_bind, if_pos rfl]
  · rename_i hqb
    rw [v.blk_panic q (by omega) (by omega)]; rfl

/-- a span wider than a block: more than the rest of one block and a whole one panics; else the first `w` bits are
returned, unless the span starts at a block boundary, when the two blocks are combined -/
theorem BlockView.getBits_wide (h : IsBlk w) (v : BlockView c w bitLen getBlock s n f) {start cnt : Nat}
    (hc : cnt < 2 ^ c.usz) (hcw : w < cnt) (hend : start + cnt ≤ n) :
    (2 * w < start % w + cnt → dfltGetBits c bitLen getBlock s start cnt = .panic) ∧
    (start % w + cnt ≤ 2 * w → start % w ≠ 0 → ∃ y, dfltGetBits c bitLen getBlock s start cnt = .ok y ∧
      ∀ j < w, y.getLsbD j = f (start + j)) ∧
    (cnt ≤ 2 * w → start % w = 0 → c.debug = true → dfltGetBits c bitLen getBlock s start cnt = .panic) ∧
    (cnt ≤ 2 * w → start % w = 0 → c.debug = false → ∃ y, dfltGetBits c bitLen getBlock s start cnt = .ok y ∧
      ∀ j < w, y.getLsbD j = (f (start + j) || (decide (j < cnt - w) && f (start + w + j)))) := by
  have hw := h.pos
  have hlu := h.lt_usz c
  have hf1 := v.fits.lt hw
  have hf2 := v.fits.2
  obtain ⟨q, r, hr, he, hq, hr'⟩ := divmod_cases w start hw
  have hqb : q < blocksFor w n := by rw [lt_blocksFor hw]; omega
  have hq1 : q + 1 < blocksFor w n := by rw [lt_blocksFor hw, Nat.succ_mul]; omega
  obtain ⟨b1, hb1, hbit1⟩ := v.blk q hqb
  obtain ⟨b2, hb2, hbit2⟩ := v.blk (q + 1) hq1
  obtain ⟨y1, hy1, hyb1⟩ := blkGetBits_eq c h b1 (start := r) (len := w - r) (by omega)
  have key : dfltGetBits c bitLen getBlock s start cnt =
      (blkGetBits c b2 0 (cnt - (w - r)) >>= fun high => shlB c high (w - r) >>= fun h => .ok (h ||| y1)) := by
    unfold dfltGetBits
    rw [addN_ok (by omega), Res.ok_bind, v.len, Res.ok_bind, assertR_true hend, Res.ok_bind,
      addrNew_ok c h (v.fits.div_lt hw (by omega)), Res.ok_bind]
    simp only [hq, hr']
    rw [subN_ok (by omega), Res.ok_bind, if_neg (by omega), subN_ok (by omega), Res.ok_bind, hb1, Res.ok_bind,
      addN_ok (by omega), Res.ok_bind, hb2, Res.ok_bind, hy1, Res.ok_bind]
  rw [key, hr']
  rw [Nat.succ_mul] at hbit2
  refine ⟨fun hx => ?_, fun hx hr0 => ?_, fun hx hr0 hd => ?_, fun hx hr0 hd => ?_⟩
  · rw [blkGetBits_panic c b2 (by omega) (by omega)]; rfl
  · obtain ⟨y2, hy2, hyb2⟩ := blkGetBits_eq c h b2 (start := 0) (len := cnt - (w - r)) (by omega)
    rw [hy2, Res.ok_bind, shlB_ok (by omega), Res.ok_bind]
    refine ⟨_, rfl, fun j hj => ?_⟩
    rw [BitVec.getLsbD_or, BitVec.getLsbD_shiftLeft, hyb1, hyb2]
    by_cases hj1 : j < w - r
    · simp only [hj1, decide_true, Bool.true_and, Bool.not_true, Bool.and_false, Bool.false_and, Bool.false_or]
      rw [hbit1 (r + j) (by omega) (by omega)]
      congr 1; omega
    · simp only [hj1, decide_false, hj, decide_true, Bool.not_false, Bool.and_true, Bool.true_and,
        show j - (w - r) < cnt - (w - r) by omega, Bool.false_and, Bool.or_false, Nat.zero_add]
      rw [hbit2 (j - (w - r)) (by omega) (by omega)]
      congr 1; omega
  · obtain ⟨y2, hy2, -⟩ := blkGetBits_eq c h b2 (start := 0) (len := cnt - (w - r)) (by omega)
    rw [hy2, Res.ok_bind, shlB, if_neg (by omega), overflow, hd, if_pos rfl]; rfl
  · obtain ⟨y2, hy2, hyb2⟩ := blkGetBits_eq c h b2 (start := 0) (len := cnt - (w - r)) (by omega)
    rw [hy2, Res.ok_bind, shlB, if_neg (by omega), overflow, hd, if_neg (by simp), Res.ok_bind]
    have e : (w - r) % w = 0 := by rw [show w - r = w by omega, Nat.mod_self]
    refine ⟨_, rfl, fun j hj => ?_⟩
    rw [e, BitVec.getLsbD_or, BitVec.getLsbD_shiftLeft, hyb1, hyb2, hbit1 (r + j) (by omega) (by omega), Bool.or_comm]
    simp only [show j < w - r by omega, hj, decide_true, Bool.true_and, Nat.not_lt_zero, decide_false, Bool.not_false,
      Nat.sub_zero, Nat.zero_add]
    by_cases hj2 : j < cnt - w
    · rw [hbit2 j hj (by omega)]
      simp only [show j < cnt - (w - r) by omega, hj2, decide_true, Bool.true_and]
      congr 2 <;> omega
    · simp only [show ¬ j < cnt - (w - r) by omega, hj2, decide_false, Bool.false_and]
      congr 2; omega

theorem BlockView.setBits_beyond (h : IsBlk w) (v : BlockView c w bitLen getBlock s n f) {start cnt : Nat}
    {setBlock : S → Nat → BitVec w → Res S} (val : BitVec w)
    (hs : start < 2 ^ 64) (hc : cnt < 2 ^ c.usz) (hend : n < start + cnt) :
    dfltSetBits c bitLen getBlock setBlock s start cnt val = .panic := by
  by_cases hcw : cnt ≤ w
  · exact v.setBits_panic h val hs hcw hend
  have hw := h.pos
  have hlu := h.lt_usz c
  have hf1 := v.fits.lt hw
  have hf0 := v.fits.1
  have hf2 := v.fits.2
  have hu64 : 2 ^ c.usz ≤ 2 ^ 64 := Nat.pow_le_pow_right (by omega) c.usz_le
  unfold dfltSetBits
  by_cases ho : start + cnt < 2 ^ 64
  · rw [addN_ok ho, Res.ok_bind, v.len, Res.ok_bind, assertR_false (by omega)]; rfl
  rw [addN, if_neg ho, overflow]
  by_cases hd : c.debug
  · rw [if_pos hd]; rfl
  rw [if_neg hd, Res.ok_bind, v.len, Res.ok_bind]
  by_cases hl : (start + cnt) % 2 ^ 64 ≤ n
  · rw [assertR_true hl, Res.ok_bind, addrNew_eq c h]
    by_cases hu : start / w < 2 ^ c.usz
    · rw [if_pos hu, Res.ok_bind]
      obtain ⟨q, r, hr, he, hq, hr'⟩ := divmod_cases w start hw
      simp only [hq, hr']
      rw [hq] at hu
      rw [subN_ok (by omega), Res.ok_bind, if_neg (by omega), subN_ok (by omega), Res.ok_bind]
      by_cases hqb : q < blocksFor w n
      · obtain ⟨b1, hb1, -⟩ := v.blk q hqb
        rw [hb1, Res.ok_bind, addN_ok (by omega), Res.ok_bind]
        by_cases hq1 : q + 1 < blocksFor w n
        · obtain ⟨b2, hb2, -⟩ := v.blk (q + 1) hq1
          obtain ⟨y1, hy1, -⟩ := blkWithBits_eq c h b1 (start := r) (len := w - r) val (by omega)
          have hqw : (q + 1) * w + w ≤ blocksFor w n * w := by
            rw [← Nat.succ_mul]; exact Nat.mul_le_mul_right _ hq1
          rw [Nat.succ_mul] at hqw
          rw [hb2, Res.ok_bind]
          have hsh : ∃ y, shrB c val (w - r) = .ok y := by
            by_cases hlt : w - r < w
            · exact ⟨_, shrB_ok hlt⟩
            · exact ⟨_, by rw [shrB, if_neg hlt, overflow, if_neg hd]⟩
          obtain ⟨y, hy⟩ := hsh
          rw [hy, Res.ok_bind, hy1, Res.ok_bind, blkWithBits_panic c b2 _ (by omega) (by omega)]; rfl
        · rw [v.blk_panic (q + 1) (by omega) (by omega)]; rfl
      · rw [v.blk_panic q (by omega) hu]; rfl
    · rw [if_neg hu]; rfl
  · rw [assertR_false hl]; rfl

end

section
variable {w : Nat} {S : Type} {c : Cfg} {bitLen : S → Res Nat} {getBlock : S → Nat → Res (BitVec w)}
  {setBlock : S → Nat → BitVec w → Res S} {I : S → Nat → (Nat → Bool) → Prop}
  {s : S} {n : Nat} {f : Nat → Bool}

theorem BlockViewMut.setBits_zero (h : IsBlk w) (m : BlockViewMut c w bitLen getBlock setBlock I) (hI : I s n f)
    (val : BitVec w) {start : Nat} (hs : start ≤ n) :
    (start / w < blocksFor w n → ∃ s', dfltSetBits c bitLen getBlock setBlock s start 0 val = .ok s' ∧ I s' n f) ∧
    (blocksFor w n ≤ start / w → dfltSetBits c bitLen getBlock setBlock s start 0 val = .panic) := by
  have hw := h.pos
  have hlu := h.lt_usz c
  have v := m.view _ _ _ hI
  have hf1 := v.fits.lt hw
  have hf2 := v.fits.2
  obtain ⟨q, r, hr, he, hq, hr'⟩ := divmod_cases w start hw
  have hqle : q ≤ blocksFor w n := by
    apply Nat.le_of_lt_succ
    have := le_blocksFor_mul n hw
    rw [← hq, Nat.div_lt_iff_lt_mul hw, Nat.succ_mul]; omega
  have key : dfltSetBits c bitLen getBlock setBlock s start 0 val =
      (getBlock s q >>= fun old => blkWithBits c old r 0 val >>= fun new => setBlock s q new) := by
    unfold dfltSetBits
    rw [addN_ok (by omega), Res.ok_bind, v.len, Res.ok_bind, assertR_true (by omega), Res.ok_bind,
      addrNew_ok c h (by omega), Res.ok_bind]
    simp only [hq, hr']
    rw [subN_ok (by omega), Res.ok_bind, if_pos (by omega)]
  rw [key, hq]
  refine ⟨fun hqb => ?_, fun hqb => ?_⟩
  · obtain ⟨b, hb, hbit⟩ := v.blk q hqb
    have hz : blkWithBits c b r 0 val = .ok b := by
      rw [blkWithBits, addN_ok (by omega), Res.ok_bind, assertR_true (by omega), Res.ok_bind, if_pos rfl]
    obtain ⟨s', hs', hI'⟩ := m.set s n f q b hI hqb
    rw [hb, Res.ok_bind, hz, Res.ok_bind, hs']
    refine ⟨s', rfl, m.congr _ _ _ _ hI' fun k hk => ?_⟩
    by_cases hk2 : q * w ≤ k ∧ k < q * w + w
    · rw [if_pos hk2, hbit _ (by omega) (by omega)]; congr 1; omega
    · rw [if_neg hk2]
  · rw [v.blk_panic q (by omega) (by omega)]; rfl

theorem BlockViewMut.setBits_wide (h : IsBlk w) (m : BlockViewMut c w bitLen getBlock setBlock I) (hI : I s n f)
    (val : BitVec w) {start cnt : Nat} (hc : cnt < 2 ^ c.usz) (hcw : w < cnt) (hend : start + cnt ≤ n) :
    (2 * w < start % w + cnt → dfltSetBits c bitLen getBlock setBlock s start cnt val = .panic) ∧
    (start % w + cnt ≤ 2 * w → start % w ≠ 0 →
      ∃ s', dfltSetBits c bitLen getBlock setBlock s start cnt val = .ok s' ∧
        I s' n (fun k => if start ≤ k ∧ k < start + cnt then val.getLsbD (k - start) else f k)) ∧
    (cnt ≤ 2 * w → start % w = 0 → c.debug = true → dfltSetBits c bitLen getBlock setBlock s start cnt val = .panic) ∧
    (cnt ≤ 2 * w → start % w = 0 → c.debug = false →
      ∃ s', dfltSetBits c bitLen getBlock setBlock s start cnt val = .ok s' ∧
        I s' n (fun k => if start ≤ k ∧ k < start + cnt then val.getLsbD ((k - start) % w) else f k)) := by
  have hw := h.pos
  have hlu := h.lt_usz c
  have bv := m.view _ _ _ hI
  have hf1 := bv.fits.lt hw
  have hf2 := bv.fits.2
  obtain ⟨q, r, hr, he, hq, hr'⟩ := divmod_cases w start hw
  have hqb : q < blocksFor w n := by rw [lt_blocksFor hw]; omega
  have hq1 : q + 1 < blocksFor w n := by rw [lt_blocksFor hw, Nat.succ_mul]; omega
  obtain ⟨b1, hb1, hbit1⟩ := bv.blk q hqb
  obtain ⟨b2, hb2, hbit2⟩ := bv.blk (q + 1) hq1
  obtain ⟨y1, hy1, hyb1⟩ := blkWithBits_eq c h b1 (start := r) (len := w - r) val (by omega)
  have key : dfltSetBits c bitLen getBlock setBlock s start cnt val =
      (shrB c val (w - r) >>= fun high => blkWithBits c b2 0 (cnt - (w - r)) high >>= fun new2 =>
        setBlock s q y1 >>= fun s => setBlock s (q + 1) new2) := by
    unfold dfltSetBits
    rw [addN_ok (by omega), Res.ok_bind, bv.len, Res.ok_bind, assertR_true hend, Res.ok_bind,
      addrNew_ok c h (bv.fits.div_lt hw (by omega)), Res.ok_bind]
    simp only [hq, hr']
    rw [subN_ok (by omega), Res.ok_bind, if_neg (by omega), subN_ok (by omega), Res.ok_bind, hb1, Res.ok_bind,
      addN_ok (by omega), Res.ok_bind, hb2, Res.ok_bind]
    simp only [hy1, Res.ok_bind]
  have finish : ∀ (high : BitVec w), r + cnt ≤ 2 * w →
      ∃ s', (blkWithBits c b2 0 (cnt - (w - r)) high >>= fun new2 =>
        setBlock s q y1 >>= fun s => setBlock s (q + 1) new2) = .ok s' ∧
      I s' n (fun k => if start ≤ k ∧ k < q * w + w then val.getLsbD (k - start)
        else if q * w + w ≤ k ∧ k < start + cnt then high.getLsbD (k - (q * w + w)) else f k) := by
    intro high hx
    obtain ⟨y2, hy2, hyb2⟩ := blkWithBits_eq c h b2 (start := 0) (len := cnt - (w - r)) high (by omega)
    obtain ⟨s1, hs1, hI1⟩ := m.set s n f q y1 hI hqb
    obtain ⟨s2, hs2, hI2⟩ := m.set s1 n _ (q + 1) y2 hI1 hq1
    rw [hy2, Res.ok_bind, hs1, Res.ok_bind, hs2]
    refine ⟨s2, rfl, m.congr _ _ _ _ hI2 fun k hk => ?_⟩
    rw [Nat.succ_mul] at hbit2 ⊢
    by_cases hk2 : q * w + w ≤ k ∧ k < q * w + w + w
    · rw [if_pos hk2, hyb2, if_neg (show ¬ (start ≤ k ∧ k < q * w + w) by omega)]
      by_cases hki : k < start + cnt
      · rw [if_pos (by omega), if_pos (by omega)]
        congr 1
      · rw [if_neg (by omega), if_neg (by omega), hbit2 _ (by omega) (by omega)]
        congr 1; omega
    · rw [if_neg hk2]
      by_cases hk3 : q * w ≤ k ∧ k < q * w + w
      · rw [if_pos hk3, hyb1]
        by_cases hki : start ≤ k
        · rw [if_pos (by omega), if_pos (by omega)]
          congr 1; omega
        · rw [if_neg (by omega), if_neg (by omega), if_neg (by omega), hbit1 _ (by omega) (by omega)]
          congr 1; omega
      · rw [if_neg hk3, if_neg (by omega), if_neg (by omega)]
  rw [key, hr']
  refine ⟨fun hx => ?_, fun hx hr0 => ?_, fun hx hr0 hd => ?_, fun hx hr0 hd => ?_⟩
  · have hp : ∀ high, blkWithBits c b2 0 (cnt - (w - r)) high = .panic := fun high =>
      blkWithBits_panic c b2 high (by omega) (by omega)
    unfold shrB overflow
    split
    · rw [Res.ok_bind, hp]; rfl
    · split
      · rfl
      · rw [Res.ok_bind, hp]; rfl
  · obtain ⟨s', hs', hI'⟩ := finish (val >>> (w - r)) hx
    rw [shrB_ok (by omega), Res.ok_bind, hs']
    refine ⟨s', rfl, m.congr _ _ _ _ hI' fun k hk => ?_⟩
    by_cases h1 : start ≤ k ∧ k < q * w + w
    · rw [if_pos h1, if_pos (by omega)]
    · rw [if_neg h1]
      by_cases h2 : q * w + w ≤ k ∧ k < start + cnt
      · rw [if_pos h2, if_pos (by omega), BitVec.getLsbD_ushiftRight]
        congr 1; omega
      · rw [if_neg h2, if_neg (by omega)]
  · rw [shrB, if_neg (by omega), overflow, hd, if_pos rfl]; rfl
  · have e : (w - r) % w = 0 := by rw [show w - r = w by omega, Nat.mod_self]
    obtain ⟨s', hs', hI'⟩ := finish val (by omega)
    rw [shrB, if_neg (by omega), overflow, hd, if_neg (by simp), Res.ok_bind, e, BitVec.ushiftRight_zero, hs']
    refine ⟨s', rfl, m.congr _ _ _ _ hI' fun k hk => ?_⟩
    by_cases h1 : start ≤ k ∧ k < q * w + w
    · rw [if_pos h1, if_pos (by omega), Nat.mod_eq_of_lt (by omega)]
    · rw [if_neg h1]
      by_cases h2 : q * w + w ≤ k ∧ k < start + cnt
      · rw [if_pos h2, if_pos (by omega)]
        congr 1
        have : k - start = k - (q * w + w) + w := by omega
        rw [this, Nat.add_mod_right, Nat.mod_eq_of_lt (by omega)]
      · rw [if_neg h2, if_neg (by omega)]

end

/-- the value of `n` bits from `p` on, as a block -/
private def spanB (w : Nat) (bits : List Bool) (p n : Nat) : BitVec w := BitVec.ofNat w (bitsVal (window bits p n))

private theorem getLsbD_spanB (bits : List Bool) {p n : Nat} (h : n ≤ w) (j : Nat) :
    (spanB w bits p n).getLsbD j = (decide (j < n) && bits[p + j]?.getD false) := by
  unfold spanB window
  rw [BitVec.getLsbD, BitVec.toNat_ofNat, Nat.mod_eq_of_lt (span_lt _ _ _ _ h), testBit_span]

/-- C98, `get_bits` (default, traits.rs:77-98) at every `u64` start and `usize` count, in every build. -/
theorem C98_get_bits (h : IsBlk w) {o : BitVecOps w S} {R : S → List Bool → Prop} (hl : BVLaw c o R)
    (hb : BVBlockLaw c o R) (hdef : o.getBits = dfltGetBits c o.bitLen o.getBlock) {s : S} {bits : List Bool}
    (hR : R s bits) {start count : Nat} (hs : start < 2 ^ 64) (hc : count < 2 ^ c.usz) :
    o.getBits s start count =
      if bits.length < start + count then .panic
      else if count = 0 then
        if start = bits.length ∧ bits.length % w = 0 then .panic else .ok 0
      else if count ≤ w then .ok (BitVec.ofNat w (bitsVal (window bits start count)))
      else if 2 * w < start % w + count then .panic
      else if start % w ≠ 0 then .ok (BitVec.ofNat w (bitsVal (window bits start w)))
      else if c.debug then .panic
      else .ok (BitVec.ofNat w (bitsVal (window bits start w)) |||
        BitVec.ofNat w (bitsVal (window bits (start + w) (count - w)))) := by
  have hw := h.pos
  have v := hb.view hl.fits hl.bitLen hR
  rw [hdef]
  by_cases h1 : bits.length < start + count
  · rw [if_pos h1]; exact v.getBits_beyond h hs hc h1
  rw [if_neg h1]
  by_cases h2 : count = 0
  · subst h2
    rw [if_pos rfl, v.getBits_zero h (by omega)]
    obtain ⟨q, r, hr, he, hq, hr'⟩ := divmod_cases w start hw
    rw [hq]
    by_cases h3 : start = bits.length ∧ bits.length % w = 0
    · rw [if_pos h3, if_neg (by
        have h4 := h3.2
        rw [← h3.1, hr'] at h4
        rw [lt_blocksFor hw]; omega)]
    · rw [if_neg h3, if_pos]
      rw [lt_blocksFor hw]
      rcases Nat.lt_or_ge start bits.length with h4 | h4
      · omega
      · have : start = bits.length := by omega
        rw [← this, hr'] at h3
        omega
  rw [if_neg h2]
  by_cases h3 : count ≤ w
  · rw [if_pos h3, ← hdef, hl.getBits hR start count (by omega) h3 (by omega)]; rfl
  rw [if_neg h3]
  obtain ⟨g1, g2, g3, g4⟩ := v.getBits_wide h (start := start) hc (by omega : w < count) (by omega)
  by_cases h4 : 2 * w < start % w + count
  · rw [if_pos h4]; exact g1 h4
  rw [if_neg h4]
  by_cases h5 : start % w ≠ 0
  · rw [if_pos h5]
    obtain ⟨y, hy, hyb⟩ := g2 (by omega) h5
    rw [hy]
    refine congrArg Res.ok (BitVec.eq_of_getLsbD_eq fun j hj => ?_)
    rw [hyb j hj]
    exact ((getLsbD_spanB bits (Nat.le_refl w) j).trans (by simp [hj])).symm
  rw [if_neg h5]
  by_cases h6 : c.debug
  · rw [if_pos h6]; exact g3 (by omega) (by omega) h6
  rw [if_neg h6]
  obtain ⟨y, hy, hyb⟩ := g4 (by omega) (by omega) (by simpa using h6)
  rw [hy]
  refine congrArg Res.ok (BitVec.eq_of_getLsbD_eq fun j hj => ?_)
  rw [hyb j hj, BitVec.getLsbD_or]
  refine congr (congrArg or ?_) ?_
  · exact ((getLsbD_spanB bits (Nat.le_refl w) j).trans (by simp [hj])).symm
  · exact (getLsbD_spanB bits (by omega) j).symm

/-- the mutable view of a lawful block store -/
private theorem viewMut (h : IsBlk w) {o : BitVecMutOps w S} {R : S → List Bool → Prop} (hl : BVLaw c o.toBitVecOps R)
    (hb : BVBlockLaw c o.toBitVecOps R) (hm : BVMutLaw c o R) :
    BlockViewMut c w o.bitLen o.getBlock o.setBlock (IofR R) := by
  have hw := h.pos
  refine ⟨?_, ?_, ?_⟩
  · rintro s n f ⟨bits, hR, rfl, hf⟩
    have v := hb.view hl.fits hl.bitLen hR
    refine ⟨v.fits, v.len, fun i hi => ?_, v.blk_panic⟩
    obtain ⟨b, hb1, hb2⟩ := v.blk i hi
    exact ⟨b, hb1, fun j hj hn => by rw [hb2 j hj hn, hf _ hn]⟩
  · rintro s n f g ⟨bits, hR, rfl, hf⟩ hfg
    exact ⟨bits, hR, rfl, fun i hi => by rw [← hfg i hi, hf i hi]⟩
  · rintro s n f i b ⟨bits, hR, rfl, hf⟩ hi
    obtain ⟨s', hs', hR'⟩ := hm.setBlock hR i b hi
    have hlt := (lt_blocksFor hw).1 hi
    have hle : i * w + ((blockBits b).take (bits.length - i * w)).length ≤ bits.length := by
      simp; omega
    refine ⟨s', hs', _, hR', length_overwrite hle, fun k hk => ?_⟩
    rw [getD_overwrite hle]
    simp only [List.length_take, length_blockBits]
    by_cases hk2 : i * w ≤ k ∧ k < i * w + w
    · rw [if_pos hk2, if_pos (by omega), List.getElem?_take, if_pos (by omega), getD_blockBits]
    · rw [if_neg hk2, if_neg (by omega), hf k hk]

/-- C98, `set_bits` (default, traits.rs:159-186) at every `u64` start and `usize` count, in every build: when it
panics, and what the vector holds when it does not. A span wider than a block that does not start at a block
boundary gets the value extended with zeros; one that does gets the value twice, without overflow checks. -/
theorem C98_set_bits (h : IsBlk w) {o : BitVecMutOps w S} {R : S → List Bool → Prop} (hl : BVLaw c o.toBitVecOps R)
    (hb : BVBlockLaw c o.toBitVecOps R) (hm : BVMutLaw c o R)
    (hdef : o.setBits = dfltSetBits c o.bitLen o.getBlock o.setBlock) {s : S} {bits : List Bool}
    (hR : R s bits) {start count : Nat} (hs : start < 2 ^ 64) (hc : count < 2 ^ c.usz) (value : BitVec w) :
    ((bits.length < start + count ∨ (count = 0 ∧ start = bits.length ∧ bits.length % w = 0) ∨
        (w < count ∧ 2 * w < start % w + count) ∨ (w < count ∧ start % w = 0 ∧ c.debug = true)) →
      o.setBits s start count value = .panic) ∧
    (start + count ≤ bits.length → ¬ (count = 0 ∧ start = bits.length ∧ bits.length % w = 0) →
      (count ≤ w ∨ (start % w ≠ 0 ∧ start % w + count ≤ 2 * w)) →
      ∃ s', o.setBits s start count value = .ok s' ∧ R s' (overwrite bits start (natBits count value.toNat))) ∧
    (start + count ≤ bits.length → w < count → count ≤ 2 * w → start % w = 0 → c.debug = false →
      ∃ s', o.setBits s start count value = .ok s' ∧
        R s' (overwrite bits start (blockBits value ++ natBits (count - w) value.toNat))) := by
  have hw := h.pos
  have v := hb.view hl.fits hl.bitLen hR
  have m := viewMut h hl hb hm
  have hI : IofR R s bits.length (fun i => bits[i]?.getD false) := ⟨bits, hR, rfl, fun _ _ => rfl⟩
  obtain ⟨q, r, hr, he, hq, hr'⟩ := divmod_cases w start hw
  refine ⟨fun hp => ?_, fun hend hz hok => ?_, fun hend hw1 hw2 hst hd => ?_⟩
  · by_cases h1 : bits.length < start + count
    · rw [hdef]; exact v.setBits_beyond h value hs hc h1
    rcases hp with hp | ⟨h0, h2, h3⟩ | ⟨h2, h3⟩ | ⟨h2, h3, h4⟩
    · exact absurd hp h1
    · subst h0
      rw [hdef]
      refine (m.setBits_zero h hI value (by omega)).2 ?_
      rw [← h2, hr'] at h3
      rw [hq, blocksFor_le hw]; omega
    · rw [hdef]
      exact (m.setBits_wide h hI value hc h2 (by omega)).1 h3
    · by_cases h5 : count ≤ 2 * w
      · rw [hdef]
        exact (m.setBits_wide h hI value hc h2 (by omega)).2.2.1 h5 h3 h4
      · rw [hdef]
        exact (m.setBits_wide h hI value hc h2 (by omega)).1 (by omega)
  · have hlen : start + (natBits count value.toNat).length ≤ bits.length := by rw [length_natBits]; exact hend
    have fin : ∀ {s'}, IofR R s' bits.length
        (fun k => if start ≤ k ∧ k < start + count then value.getLsbD (k - start) else bits[k]?.getD false) →
        R s' (overwrite bits start (natBits count value.toNat)) := by
      intro s' hI'
      apply eq_of_IofR (l := overwrite bits start _) (by rw [length_overwrite hlen]; exact hI')
      intro k hk
      rw [getD_overwrite hlen, length_natBits, getElem?_natBits]
      by_cases hk2 : start ≤ k ∧ k < start + count
      · rw [if_pos hk2, if_pos hk2, if_pos (by omega)]; rfl
      · rw [if_neg hk2, if_neg hk2]
    by_cases h0 : count = 0
    · subst h0
      obtain ⟨s', hs', hI'⟩ := (m.setBits_zero h hI value (start := start) (by omega)).1 (by
        rw [hq, lt_blocksFor hw]
        rcases Nat.lt_or_ge start bits.length with h4 | h4
        · omega
        · have h5 : start = bits.length := by omega
          rw [← h5, hr'] at hz
          omega)
      refine ⟨s', by rw [hdef]; exact hs', fin (m.congr _ _ _ _ hI' fun k hk => ?_)⟩
      rw [if_neg (by omega)]
    · rcases Nat.lt_or_ge w count with h1 | h1
      · obtain ⟨h2, h3⟩ := hok.resolve_left (by omega)
        obtain ⟨s', hs', hI'⟩ := (m.setBits_wide h hI value hc h1 hend).2.1 h3 h2
        exact ⟨s', by rw [hdef]; exact hs', fin hI'⟩
      · obtain ⟨s', hs', hI'⟩ := m.setBits_ok h hI value (by omega) h1 hend
        exact ⟨s', by rw [hdef]; exact hs', fin hI'⟩
  · obtain ⟨s', hs', hI'⟩ := (m.setBits_wide h hI value hc hw1 hend).2.2.2 hw2 hst hd
    refine ⟨s', by rw [hdef]; exact hs', ?_⟩
    have hlen : start + (blockBits value ++ natBits (count - w) value.toNat).length ≤ bits.length := by
      rw [List.length_append, length_natBits, length_blockBits]; omega
    apply eq_of_IofR (l := overwrite bits start _) (by rw [length_overwrite hlen]; exact hI')
    intro k hk
    rw [getD_overwrite hlen, List.length_append, length_natBits, length_blockBits]
    by_cases hk2 : start ≤ k ∧ k < start + count
    · rw [if_pos hk2, if_pos (by omega), List.getElem?_append, length_blockBits]
      split
      · rename_i h1
        rw [getD_blockBits, Nat.mod_eq_of_lt h1]
      · rename_i h1
        have e : k - start = k - start - w + w := by omega
        rw [getElem?_natBits, if_pos (by omega), e, Nat.add_mod_right, Nat.mod_eq_of_lt (by omega), Nat.add_sub_cancel]
        rfl
    · rw [if_neg hk2, if_neg (by omega)]

/-- C98 for the crate's own vectors: block arrays, `BitVector`, `IntVector`, `Vec<bool>`, and a `BitBuffer` over any of
them use the defaults, so the two theorems above determine their `get_bits` and `set_bits`. -/
theorem C98_instances (c : Cfg) (h : IsBlk w) :
    ((vecBitVec c w).getBits = dfltGetBits c (vecBitVec c w).bitLen (vecBitVec c w).getBlock ∧
      (vecBitVecMut c w).setBits = dfltSetBits c (vecBitVecMut c w).bitLen (vecBitVecMut c w).getBlock (vecBitVecMut c w).setBlock ∧
      BVLaw c (vecBitVec c w) (vecR c w) ∧ BVBlockLaw c (vecBitVec c w) (vecR c w) ∧ BVMutLaw c (vecBitVecMut c w) (vecR c w)) ∧
    ((bvBitVec c w).getBits = dfltGetBits c (bvBitVec c w).bitLen (bvBitVec c w).getBlock ∧
      (bvBitVecMut c w).setBits = dfltSetBits c (bvBitVecMut c w).bitLen (bvBitVecMut c w).getBlock (bvBitVecMut c w).setBlock ∧
      BVLaw c (bvBitVec c w) (bvR c w) ∧ BVBlockLaw c (bvBitVec c w) (bvR c w) ∧ BVMutLaw c (bvBitVecMut c w) (bvR c w)) ∧
    ((ivBitVec c w).getBits = dfltGetBits c (ivBitVec c w).bitLen (ivBitVec c w).getBlock ∧
      (ivBitVecMut c w).setBits = dfltSetBits c (ivBitVecMut c w).bitLen (ivBitVecMut c w).getBlock (ivBitVecMut c w).setBlock ∧
      BVLaw c (ivBitVec c w) (ivR c w) ∧ BVBlockLaw c (ivBitVec c w) (ivR c w) ∧ BVMutLaw c (ivBitVecMut c w) (ivR c w)) ∧
    ((boolVecBitVec c).getBits = dfltGetBits c (boolVecBitVec c).bitLen (boolVecBitVec c).getBlock ∧
      (boolVecBitVecMut c).setBits =
        dfltSetBits c (boolVecBitVecMut c).bitLen (boolVecBitVecMut c).getBlock (boolVecBitVecMut c).setBlock ∧
      BVLaw c (boolVecBitVec c) (boolR c) ∧ BVBlockLaw c (boolVecBitVec c) (boolR c) ∧
      BVMutLaw c (boolVecBitVecMut c) (boolR c)) :=
  ⟨⟨rfl, rfl, vec_law c h, vec_block c h, vec_mut_law c h⟩, ⟨rfl, rfl, bv_law c h, bv_block c h, bv_mut_law c h⟩,
    ⟨rfl, rfl, iv_law c h, iv_block c h, iv_mut_law c h⟩,
    ⟨rfl, rfl, boolVec_law c, boolVec_block c, boolVec_mut_law c⟩⟩

/-- C98 for a `BitBuffer` over any lawful block store, words included: it has the defaults even when the store has its
own `get_bits`. -/
theorem C98_bit_buffer (h : IsBlk w) {o : BitVecMutOps w S} {R : S → List Bool → Prop} (hl : BVLaw c o.toBitVecOps R)
    (hb : BVBlockLaw c o.toBitVecOps R) (hm : BVMutLaw c o R) (p : Nat) :
    (BitBuf.bitVec c o.toBitVecOps).getBits =
      dfltGetBits c (BitBuf.bitVec c o.toBitVecOps).bitLen (BitBuf.bitVec c o.toBitVecOps).getBlock ∧
    (BitBuf.bitVecMut c o).setBits = dfltSetBits c (BitBuf.bitVecMut c o).bitLen (BitBuf.bitVecMut c o).getBlock
      (BitBuf.bitVecMut c o).setBlock ∧
    BVLaw c (BitBuf.bitVec c o.toBitVecOps) (fun b bits => R b.data bits ∧ b.pos = p) ∧
    BVBlockLaw c (BitBuf.bitVec c o.toBitVecOps) (fun b bits => R b.data bits ∧ b.pos = p) ∧
    BVMutLaw c (BitBuf.bitVecMut c o) (fun b bits => R b.data bits ∧ b.pos = p) := by
  have b1 : BVBlockLaw c (BitBuf.bitVec c o.toBitVecOps) (fun b bits => R b.data bits ∧ b.pos = p) :=
    ⟨⟨fun hR => hb.blockLen hR.1, fun hR => hb.getBlock hR.1⟩, fun hR => hb.getBlock_panic hR.1⟩
  exact ⟨rfl, rfl, BVLaw.ofBlocks h b1 (fun hR => hl.fits hR.1) (fun hR => hl.bitLen hR.1) rfl rfl, b1,
    buf_mut_law c h hl hb hm p⟩

/-- concrete cases: eleven bits from offset 3 give the first eight; sixteen bits from a boundary are `or`ed together
or panic; an empty read at the end panics on full blocks only. -/
example :
    (vecBitVec ⟨true, .p64, true⟩ 8).getBits [0xa5#8, 0x3c#8] 3 11 = .ok 0x94#8 ∧
    (vecBitVec ⟨false, .p64, false⟩ 8).getBits [0xa5#8, 0x3c#8] 0 16 = .ok 0xbd#8 ∧
    (vecBitVec ⟨true, .p64, true⟩ 8).getBits [0xa5#8, 0x3c#8] 0 16 = .panic ∧
    (vecBitVec ⟨false, .p64, false⟩ 8).getBits [0xa5#8, 0x3c#8, 0#8] 3 14 = .panic ∧
    (vecBitVec ⟨false, .p64, false⟩ 8).getBits [0xa5#8, 0x3c#8] 3 (2 ^ 64 - 2) = .panic ∧
    (vecBitVecMut ⟨false, .p64, false⟩ 8).setBits [0xa5#8, 0x3c#8] 0 12 0x81#8 = .ok [0x81#8, 0x31#8] ∧
    (vecBitVecMut ⟨true, .p64, true⟩ 8).setBits [0xa5#8, 0x3c#8] 3 12 0x81#8 = .ok [0x0d#8, 0x04#8] := by decide +kernel

example : (BitBuf.bitVec ⟨false, .p64, false⟩ (primBitVec ⟨false, .p64, false⟩ 8)).getBits ⟨0xa5#8, 0⟩ 8 0 = .panic ∧
    (primBitVec ⟨false, .p64, false⟩ 8).getBits 0xa5#8 8 0 = .ok 0 := by decide +kernel

/-! Each theorem of this file that has hypotheses is applied to concrete data in `Verif/Instances/ExactSpan.lean`. -/

end Succinct
