import Verif.Model.BitVecTrait
import Verif.Lemmas.Storage
import Verif.Lemmas.Bits
/-! Helper lemmas about the default methods of `trait BitVec`/`BitVecMut` (function-level). -/
namespace Succinct
open Spec

/-- What the default methods need to know about `bit_len` and `get_block`: `n` bits `f 0 … f (n-1)`. -/
structure BlockView (c : Cfg) (w : Nat) (bitLen : S → Res Nat) (getBlock : S → Nat → Res (BitVec w))
    (s : S) (n : Nat) (f : Nat → Bool) : Prop where
  fits : Fits c.usz w n
  len : bitLen s = .ok n
  blk : ∀ i, i < blocksFor w n →
    ∃ b, getBlock s i = .ok b ∧ ∀ j < w, i * w + j < n → b.getLsbD j = f (i * w + j)
  blk_panic : ∀ i, blocksFor w n ≤ i → i < 2 ^ c.usz → getBlock s i = .panic

section
variable {w : Nat} {S : Type} {c : Cfg} {bitLen : S → Res Nat} {getBlock : S → Nat → Res (BitVec w)}
  {s : S} {n : Nat} {f : Nat → Bool}

theorem dfltBlockLen_ok (h : IsBlk w) {bitLen : S → Res Nat} (hb : bitLen s = .ok n)
    (hf : Fits c.usz w n) : dfltBlockLen c w bitLen s = .ok (blocksFor w n) := by
  have hw := h.pos
  unfold dfltBlockLen ceilDiv
  rw [hb, Res.ok_bind]
  rw [addN_ok (hf.lt hw), Res.ok_bind, subN_ok (by omega), Res.ok_bind, divN_ok hw, Res.ok_bind]
  rw [show n + w - 1 = n + (w - 1) by omega]
  have h2 : (n + (w - 1)) / w % 2 ^ c.usz = blocksFor w n := Nat.mod_eq_of_lt hf.2
  simp [asUsize, h2]

theorem BlockView.getBit_eq (h : IsBlk w) (v : BlockView c w bitLen getBlock s n f) (i : Nat) :
    dfltGetBit c bitLen getBlock s i = if i < n then .ok (f i) else .panic := by
  have hw := h.pos
  unfold dfltGetBit
  rw [v.len, Res.ok_bind]
  by_cases hi : i < n
  · rw [assertR_true hi, Res.ok_bind, addrNew_ok c h (v.fits.div_lt hw hi), Res.ok_bind, if_pos hi]
    obtain ⟨q, r, hr, he, hq, hr'⟩ := divmod_cases w i hw
    obtain ⟨b, hb, hbit⟩ := v.blk q (by rw [lt_blocksFor hw]; omega)
    simp only [hq, hr', hb, Res.ok_bind, blkGetBit_eq, hr, if_true]
    rw [hbit r hr (by omega), ← he]
  · rw [assertR_false hi, if_neg hi]; rfl

theorem BlockView.getBits_ok (h : IsBlk w) (v : BlockView c w bitLen getBlock s n f) {start cnt : Nat}
    (h1 : 1 ≤ cnt) (hcw : cnt ≤ w) (hend : start + cnt ≤ n) :
    ∃ y, dfltGetBits c bitLen getBlock s start cnt = .ok y ∧
      ∀ j, y.getLsbD j = (decide (j < cnt) && f (start + j)) := by
  have hw := h.pos
  have hlu := h.lt_usz c
  have hf1 := v.fits.lt hw
  have hf2 := v.fits.2
  unfold dfltGetBits
  rw [addN_ok (by omega), Res.ok_bind, v.len, Res.ok_bind, assertR_true hend, Res.ok_bind,
    addrNew_ok c h (v.fits.div_lt hw (by omega)), Res.ok_bind]
  obtain ⟨q, r, hr, he, hq, hr'⟩ := divmod_cases w start hw
  simp only [hq, hr']
  rw [subN_ok (by omega), Res.ok_bind]
  obtain ⟨b1, hb1, hbit1⟩ := v.blk q (by rw [lt_blocksFor hw]; omega)
  rw [hb1]
  by_cases hm : w - r ≥ cnt
  · rw [if_pos hm]
    simp only [Res.ok_bind]
    obtain ⟨y, hy, hyb⟩ := blkGetBits_eq c h b1 (start := r) (len := cnt) (by omega)
    refine ⟨y, hy, fun j => ?_⟩
    rw [hyb]
    by_cases hj : j < cnt
    · simp only [hj, decide_true, Bool.true_and]
      rw [hbit1 (r + j) (by omega) (by omega)]
      congr 1; omega
    · simp [hj]
  · rw [if_neg hm]
    have hq1 : q + 1 < blocksFor w n := by
      rw [lt_blocksFor hw, Nat.succ_mul]; omega
    obtain ⟨b2, hb2, hbit2⟩ := v.blk (q + 1) hq1
    obtain ⟨y1, hy1, hyb1⟩ := blkGetBits_eq c h b1 (start := r) (len := w - r) (by omega)
    obtain ⟨y2, hy2, hyb2⟩ := blkGetBits_eq c h b2 (start := 0) (len := cnt - (w - r)) (by omega)
    rw [subN_ok (by omega), Res.ok_bind, Res.ok_bind, addN_ok (by omega), Res.ok_bind, hb2, Res.ok_bind,
      hy1, Res.ok_bind, hy2, Res.ok_bind, shlB_ok (by omega), Res.ok_bind]
    refine ⟨_, rfl, fun j => ?_⟩
    rw [BitVec.getLsbD_or, BitVec.getLsbD_shiftLeft, hyb1, hyb2]
    rw [Nat.succ_mul] at hbit2
    by_cases hj : j < cnt
    · simp only [hj, decide_true, Bool.true_and]
      by_cases hj1 : j < w - r
      · simp only [hj1, decide_true, Bool.true_and, Bool.not_true, Bool.and_false, Bool.false_and,
          Bool.false_or]
        rw [hbit1 (r + j) (by omega) (by omega)]
        congr 1; omega
      · simp only [hj1, decide_false, show j < w by omega, decide_true, Bool.not_false, Bool.and_true,
          Bool.true_and, show j - (w - r) < cnt - (w - r) by omega, Bool.false_and, Bool.or_false,
          Nat.zero_add]
        rw [hbit2 (j - (w - r)) (by omega) (by omega)]
        congr 1; omega
    · simp [hj, show ¬ j < w - r by omega, show ¬ (j - (w - r) < cnt - (w - r)) by omega]

theorem BlockView.getBits_panic (h : IsBlk w) (v : BlockView c w bitLen getBlock s n f) {start cnt : Nat}
    (hs : start < 2 ^ 64) (hcw : cnt ≤ w) (hend : n < start + cnt) :
    dfltGetBits c bitLen getBlock s start cnt = .panic := by
  have hw := h.pos
  have hlu := h.lt_usz c
  have hf1 := v.fits.lt hw
  unfold dfltGetBits
  by_cases ho : start + cnt < 2 ^ 64
  · rw [addN_ok ho, Res.ok_bind, v.len, Res.ok_bind, assertR_false (by omega)]; rfl
  · rw [addN, if_neg ho, overflow]
    by_cases hd : c.debug
    · rw [if_pos hd]; rfl
    · rw [if_neg hd, Res.ok_bind, v.len, Res.ok_bind]
      by_cases hl : (start + cnt) % 2 ^ 64 ≤ n
      · rw [assertR_true hl, Res.ok_bind, addrNew_eq c h]
        by_cases hu : start / w < 2 ^ c.usz
        · rw [if_pos hu, Res.ok_bind]
          obtain ⟨q, r, hr, he, hq, hr'⟩ := divmod_cases w start hw
          simp only [hq, hr']
          have hge : blocksFor w n ≤ q := by
            rw [blocksFor_le hw]; 
            blk_cases h <;> omega
          rw [hq] at hu
          rw [subN_ok (by omega), Res.ok_bind, v.blk_panic q hge hu]
          split
          · rfl
          · rw [subN_ok (by omega)]; rfl
        · rw [if_neg hu]; rfl
      · rw [assertR_false hl]; rfl

theorem BlockView.setBits_panic (h : IsBlk w) (v : BlockView c w bitLen getBlock s n f) {start cnt : Nat}
    {setBlock : S → Nat → BitVec w → Res S} (val : BitVec w)
    (hs : start < 2 ^ 64) (hcw : cnt ≤ w) (hend : n < start + cnt) :
    dfltSetBits c bitLen getBlock setBlock s start cnt val = .panic := by
  have hw := h.pos
  have hlu := h.lt_usz c
  have hf1 := v.fits.lt hw
  unfold dfltSetBits
  by_cases ho : start + cnt < 2 ^ 64
  · rw [addN_ok ho, Res.ok_bind, v.len, Res.ok_bind, assertR_false (by omega)]; rfl
  · rw [addN, if_neg ho, overflow]
    by_cases hd : c.debug
    · rw [if_pos hd]; rfl
    · rw [if_neg hd, Res.ok_bind, v.len, Res.ok_bind]
      by_cases hl : (start + cnt) % 2 ^ 64 ≤ n
      · rw [assertR_true hl, Res.ok_bind, addrNew_eq c h]
        by_cases hu : start / w < 2 ^ c.usz
        · rw [if_pos hu, Res.ok_bind]
          obtain ⟨q, r, hr, he, hq, hr'⟩ := divmod_cases w start hw
          simp only [hq, hr']
          have hge : blocksFor w n ≤ q := by
            rw [blocksFor_le hw]; 
            blk_cases h <;> omega
          rw [hq] at hu
          rw [subN_ok (by omega), Res.ok_bind, v.blk_panic q hge hu]
          split
          · rfl
          · rw [subN_ok (by omega)]; rfl
        · rw [if_neg hu]; rfl
      · rw [assertR_false hl]; rfl

end

/-! ### Mutation: stores with block-level get and set -/

/-- What the default mutators need: `setBlock` replaces one block of the view, keeping `I`. The
bits outside the vector (`≥ n`) may be dropped. -/
structure BlockViewMut (c : Cfg) (w : Nat) (bitLen : S → Res Nat) (getBlock : S → Nat → Res (BitVec w))
    (setBlock : S → Nat → BitVec w → Res S) (I : S → Nat → (Nat → Bool) → Prop) : Prop where
  view : ∀ s n f, I s n f → BlockView c w bitLen getBlock s n f
  congr : ∀ s n f g, I s n f → (∀ i < n, f i = g i) → I s n g
  set : ∀ s n f i b, I s n f → i < blocksFor w n →
    ∃ s', setBlock s i b = .ok s' ∧
      I s' n (fun k => if i * w ≤ k ∧ k < i * w + w then b.getLsbD (k - i * w) else f k)

section
variable {w : Nat} {S : Type} {c : Cfg} {bitLen : S → Res Nat} {getBlock : S → Nat → Res (BitVec w)}
  {setBlock : S → Nat → BitVec w → Res S} {I : S → Nat → (Nat → Bool) → Prop}
  {s : S} {n : Nat} {f : Nat → Bool}

theorem BlockViewMut.setBit_eq (h : IsBlk w) (m : BlockViewMut c w bitLen getBlock setBlock I)
    (hI : I s n f) (i : Nat) (v : Bool) :
    if i < n then ∃ s', dfltSetBit c bitLen getBlock setBlock s i v = .ok s' ∧
        I s' n (fun k => if k = i then v else f k)
    else dfltSetBit c bitLen getBlock setBlock s i v = .panic := by
  have hw := h.pos
  have bv := m.view _ _ _ hI
  unfold dfltSetBit
  rw [bv.len, Res.ok_bind]
  by_cases hi : i < n
  · rw [if_pos hi, assertR_true hi, Res.ok_bind, addrNew_ok c h (bv.fits.div_lt hw hi), Res.ok_bind]
    obtain ⟨q, r, hr, he, hq, hr'⟩ := divmod_cases w i hw
    have hqb : q < blocksFor w n := by rw [lt_blocksFor hw]; omega
    obtain ⟨b, hb, hbit⟩ := bv.blk q hqb
    obtain ⟨y, hy, hyb⟩ := blkWithBit_eq c b v hr
    obtain ⟨s', hs', hI'⟩ := m.set s n f q y hI hqb
    simp only [hq, hr', hb, Res.ok_bind, hy, hs']
    refine ⟨s', rfl, m.congr _ _ _ _ hI' fun k hk => ?_⟩
    by_cases hk2 : q * w ≤ k ∧ k < q * w + w
    · rw [if_pos hk2, hyb]
      by_cases hki : k = i
      · rw [if_pos (by omega), if_pos hki]
      · rw [if_neg (by omega), if_neg hki, hbit _ (by omega) (by omega)]
        congr 1; omega
    · rw [if_neg hk2, if_neg (by omega)]
  · rw [if_neg hi, assertR_false hi]; rfl

theorem BlockViewMut.setBits_ok (h : IsBlk w) (m : BlockViewMut c w bitLen getBlock setBlock I)
    (hI : I s n f) {start cnt : Nat} (val : BitVec w)
    (h1 : 1 ≤ cnt) (hcw : cnt ≤ w) (hend : start + cnt ≤ n) :
    ∃ s', dfltSetBits c bitLen getBlock setBlock s start cnt val = .ok s' ∧
      I s' n (fun k => if start ≤ k ∧ k < start + cnt then val.getLsbD (k - start) else f k) := by
  have hw := h.pos
  have hlu := h.lt_usz c
  have bv := m.view _ _ _ hI
  have hf1 := bv.fits.lt hw
  have hf2 := bv.fits.2
  unfold dfltSetBits
  rw [addN_ok (by omega), Res.ok_bind, bv.len, Res.ok_bind, assertR_true hend, Res.ok_bind,
    addrNew_ok c h (bv.fits.div_lt hw (by omega)), Res.ok_bind]
  obtain ⟨q, r, hr, he, hq, hr'⟩ := divmod_cases w start hw
  simp only [hq, hr']
  rw [subN_ok (by omega), Res.ok_bind]
  have hqb : q < blocksFor w n := by rw [lt_blocksFor hw]; omega
  obtain ⟨b1, hb1, hbit1⟩ := bv.blk q hqb
  rw [hb1]
  by_cases hm : w - r ≥ cnt
  · rw [if_pos hm]
    simp only [Res.ok_bind]
    obtain ⟨y, hy, hyb⟩ := blkWithBits_eq c h b1 (start := r) (len := cnt) val (by omega)
    obtain ⟨s', hs', hI'⟩ := m.set s n f q y hI hqb
    rw [hy, Res.ok_bind, hs']
    refine ⟨s', rfl, m.congr _ _ _ _ hI' fun k hk => ?_⟩
    by_cases hk2 : q * w ≤ k ∧ k < q * w + w
    · rw [if_pos hk2, hyb]
      by_cases hki : start ≤ k ∧ k < start + cnt
      · rw [if_pos (by omega), if_pos hki]
        congr 1; omega
      · rw [if_neg (by omega), if_neg hki, hbit1 _ (by omega) (by omega)]
        congr 1; omega
    · rw [if_neg hk2, if_neg (by omega)]
  · rw [if_neg hm]
    have hq1 : q + 1 < blocksFor w n := by
      rw [lt_blocksFor hw, Nat.succ_mul]; omega
    obtain ⟨b2, hb2, hbit2⟩ := bv.blk (q + 1) hq1
    obtain ⟨y1, hy1, hyb1⟩ := blkWithBits_eq c h b1 (start := r) (len := w - r) val (by omega)
    obtain ⟨y2, hy2, hyb2⟩ := blkWithBits_eq c h b2 (start := 0) (len := cnt - (w - r)) (val >>> (w - r)) (by omega)
    obtain ⟨s1, hs1, hI1⟩ := m.set s n f q y1 hI hqb
    obtain ⟨s2, hs2, hI2⟩ := m.set s1 n _ (q + 1) y2 hI1 hq1
    rw [subN_ok (by omega), Res.ok_bind, Res.ok_bind, addN_ok (by omega), Res.ok_bind, hb2, Res.ok_bind,
      shrB_ok (by omega), Res.ok_bind, hy1, Res.ok_bind, hy2, Res.ok_bind, hs1, Res.ok_bind, Res.ok_bind, hs2]
    refine ⟨s2, rfl, m.congr _ _ _ _ hI2 fun k hk => ?_⟩
    rw [Nat.succ_mul] at hbit2 ⊢
    by_cases hk2 : q * w + w ≤ k ∧ k < q * w + w + w
    · rw [if_pos hk2, hyb2]
      by_cases hki : start ≤ k ∧ k < start + cnt
      · rw [if_pos (by omega), if_pos hki, BitVec.getLsbD_ushiftRight]
        congr 1; omega
      · rw [if_neg (by omega), if_neg hki, hbit2 _ (by omega) (by omega)]
        congr 1; omega
    · rw [if_neg hk2]
      by_cases hk3 : q * w ≤ k ∧ k < q * w + w
      · rw [if_pos hk3, hyb1]
        by_cases hki : start ≤ k ∧ k < start + cnt
        · rw [if_pos (by omega), if_pos hki]
          congr 1; omega
        · rw [if_neg (by omega), if_neg hki, hbit1 _ (by omega) (by omega)]
          congr 1; omega
      · rw [if_neg hk3, if_neg (by omega)]

theorem BlockViewMut.setBits_panic (h : IsBlk w) (m : BlockViewMut c w bitLen getBlock setBlock I)
    (hI : I s n f) {start cnt : Nat} (val : BitVec w)
    (hs : start < 2 ^ 64) (hcw : cnt ≤ w) (hend : n < start + cnt) :
    dfltSetBits c bitLen getBlock setBlock s start cnt val = .panic :=
  (m.view _ _ _ hI).setBits_panic h val hs hcw hend

end

end Succinct
