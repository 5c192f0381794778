import Verif.Lemmas.VectorBase
import Verif.Spec.BitVector
/-! `BitVector` obeys the bit-vector laws; one call refines the list semantics. -/
namespace Succinct
open Spec

/-- representation relation of `BitVector` -/
abbrev bvR (c : Cfg) (w : Nat) : VB w → List Bool → Prop := VR c w 1

theorem bv_bitLen (c : Cfg) {s : VB w} (hR : bvR c w s bits) : (bvBitVec c w).bitLen s = .ok bits.length := by
  have := hR.len
  rw [Nat.mul_one] at this
  exact congrArg Res.ok this

theorem bv_pad (c : Cfg) (h : IsBlk w) : BVPadLaw (bvBitVec c w) (bvR c w) := by
  refine ⟨fun hR i hi => ?_⟩
  exact (hR.getBlock_eq h i).trans (if_pos hi)

theorem bv_block (c : Cfg) (h : IsBlk w) : BVBlockLaw c (bvBitVec c w) (bvR c w) where
  blockLen := fun hR => dfltBlockLen_ok h (bv_bitLen c hR) hR.fits
  getBlock := fun hR i hi => (bv_pad c h).block hR i hi
  getBlock_panic := fun hR i hi _ => (hR.getBlock_eq h i).trans (if_neg (by omega))

theorem bv_view (c : Cfg) (h : IsBlk w) {s : VB w} (hR : bvR c w s bits) :
    BlockView c w (bvBitVec c w).bitLen (bvBitVec c w).getBlock s bits.length (fun i => bits[i]?.getD false) :=
  (bv_block c h).view (fun hR => hR.fits) (fun hR => bv_bitLen c hR) hR

theorem bv_law (c : Cfg) (h : IsBlk w) : BVLaw c (bvBitVec c w) (bvR c w) where
  fits := fun hR => hR.fits
  bitLen := fun hR => bv_bitLen c hR
  getBit := fun hR i _ => hR.getBit_eq h i
  getBits := fun hR p n h1 hn hp => by
    obtain ⟨y, hy, hyb⟩ := (bv_view c h hR).getBits_ok h h1 hn hp
    exact hy.trans (by rw [eq_ofNat_span hn hyb])
  getBits_panic := fun hR p n hn hp hl => (bv_view c h hR).getBits_panic h (by omega) hn hl

theorem bv_mut_law (c : Cfg) (h : IsBlk w) : BVMutLaw c (bvBitVecMut c w) (bvR c w) := by
  have aux : BVMutLaw c { bvBitVecMut c w with
      setBit := dfltSetBit c (bvBitVec c w).bitLen (bvBitVec c w).getBlock (bvBitVecMut c w).setBlock } (bvR c w) :=
    BVMutLaw.ofBlocks h (bv_block c h) (fun hR => hR.fits) (fun hR => bv_bitLen c hR)
      (fun hR i v hi => by
        obtain ⟨s', h1, -, h2⟩ := hR.setBlock_ok h hi v
        exact ⟨s', h1, h2⟩)
      (fun hR i v hi _ _ => hR.setBlock_panic hi v) rfl rfl
  refine ⟨fun hR i v hi => ?_, fun hR i v hi _ => hR.setBit_panic hi v, aux.setBits, aux.setBits_panic,
    aux.setBlock, aux.setBlock_panic⟩
  obtain ⟨s', h1, -, h2⟩ := hR.setBit_ok h hi v
  exact ⟨s', h1, h2⟩

theorem bv_pushBit (c : Cfg) (h : IsBlk w) {s : VB w} {bits} (hR : bvR c w s bits) (v : Bool)
    (hf : Fits c.usz w (bits.length + 1)) : ∃ s', (bvBitVecPush c w).pushBit s v = .ok s' ∧ bvR c w s' (bits ++ [v]) :=
  hR.pushBit_ok h hf v

theorem bv_align (c : Cfg) (h : IsBlk w) {s : VB w} {bits} (hR : bvR c w s bits) (v : Bool)
    (hf : Fits c.usz w (blocksFor w bits.length * w)) : ∃ s', (bvBitVecPush c w).alignBlock s v = .ok s' ∧
      bvR c w s' (bits ++ List.replicate (blocksFor w bits.length * w - bits.length) v) :=
  dfltAlignBlock_ok (R := bvR c w) (Fit := Fits c.usz w) h (fun hf hm => hf.mono hm) (fun hR => bv_bitLen c hR)
    (fun hR v hf => bv_pushBit c h hR v hf) hR v hf

theorem bv_pushBlock (c : Cfg) (h : IsBlk w) {s : VB w} {bits} (hR : bvR c w s bits) (b : BitVec w)
    (hf : Fits c.usz w (blocksFor w bits.length * w + w)) : ∃ s', (bvBitVecPush c w).pushBlock s b = .ok s' ∧
      bvR c w s' (padTo w bits ++ blockBits b) := by
  obtain ⟨s', h1, h2⟩ := hR.pushBlock_ok h (Nat.le_refl 1) h.pos hf b
  rw [floorTo_one] at h2
  exact ⟨s', h1, h2⟩

theorem bv_push_law (c : Cfg) (h : IsBlk w) : BVPushLaw w (bvBitVecPush c w) (bvR c w) (Fits c.usz w) where
  pushBit := fun hR v hf => bv_pushBit c h hR v hf
  popBit := fun hR => hR.popBit_eq h
  alignBlock := fun hR v hf => bv_align c h hR v hf
  pushBlock := fun hR b hf => bv_pushBlock c h hR b hf

/-! ### truncation, resizing, constructors -/

theorem bv_truncate (c : Cfg) (h : IsBlk w) {s : VB w} {bits} (hR : bvR c w s bits) (n : Nat) :
    ∃ s', BV.truncate c s n = .ok s' ∧ bvR c w s' (bits.take n) := by
  obtain ⟨s', h1, h2⟩ := hR.truncate_eq h Nat.one_pos n
  rw [Nat.mul_one] at h2
  exact ⟨s', h1, h2⟩

theorem bv_blockTruncate (c : Cfg) (h : IsBlk w) {s : VB w} {bits} (hR : bvR c w s bits) (n : Nat) :
    ∃ s', BV.blockTruncate c s n = .ok s' ∧ bvR c w s' (bits.take (n * w)) := by
  have hw := h.pos
  obtain ⟨s', h1, h2⟩ := hR.blockTruncate_eq h (Nat.le_refl 1) h.pos n
  refine ⟨s', h1, ?_⟩
  rw [floorTo_one] at h2
  split at h2
  · exact h2
  · next hn =>
    rw [List.take_of_length_le]
    · exact h2
    · rw [← blocksFor_le hw]; omega

theorem bv_blockResize (c : Cfg) (h : IsBlk w) {s : VB w} {bits} (hR : bvR c w s bits) {n : Nat}
    (hf : Fits c.usz w (n * w)) (x : BitVec w) :
    ∃ s', BV.blockResize c s n x = .ok s' ∧ bvR c w s' ((padTo w bits).take (n * w) ++
        (List.replicate (n - blocksFor w bits.length) (blockBits x)).flatten) := by
  obtain ⟨s', h1, h2⟩ := hR.blockResize_ok h (Nat.le_refl 1) h.pos hf x
  rw [floorTo_one] at h2
  exact ⟨s', h1, h2⟩

theorem checkedCeilDiv_ok (c : Cfg) (h : IsBlk w) {n : Nat} (hf : Fits c.usz w n) :
    checkedCeilDivNbits c w n = .ok (some (blocksFor w n)) := by
  have hw := h.pos
  have := hf.lt hw
  rw [checkedCeilDivNbits_eq c h (by omega), toUsize]
  show Res.ok (if blocksFor w n < 2 ^ c.usz then some (blocksFor w n) else none) = _
  rw [if_pos hf.2]

theorem blockBits_zero (w : Nat) : blockBits (0 : BitVec w) = List.replicate w false := by
  apply bits_ext
  · simp
  · intro i _
    rw [getD_blockBits, List.getElem?_replicate]
    split <;> simp

theorem blockBits_ones (w : Nat) : blockBits (~~~ 0 : BitVec w) = List.replicate w true := by
  apply bits_ext
  · simp
  · intro i hi
    rw [length_blockBits] at hi
    rw [getD_blockBits, List.getElem?_replicate, if_pos hi]
    simp [hi]

theorem flatten_replicate_replicate (n w : Nat) (b : Bool) :
    (List.replicate n (List.replicate w b)).flatten = List.replicate (n * w) b := by
  rw [List.flatten_replicate_replicate]

theorem fillBlock (w : Nat) (b : Bool) :
    blockBits (if b then ~~~ 0 else 0 : BitVec w) = List.replicate w b := by
  cases b
  · exact blockBits_zero w
  · exact blockBits_ones w

/-- padding with `b`s and cutting is the same as extending with `b`s -/
theorem resize_take (bits : List Bool) (n m : Nat) (b : Bool) (hm : n ≤ bits.length + m) :
    (bits ++ List.replicate m b).take n = bits.take n ++ List.replicate (n - bits.length) b := by
  rw [List.take_append, List.take_replicate]
  congr 2; omega

theorem bv_resize (c : Cfg) (h : IsBlk w) {s : VB w} {bits} (hR : bvR c w s bits) {n : Nat}
    (hf : Fits c.usz w n) (b : Bool) :
    ∃ s', BV.resize c s n b = .ok s' ∧ bvR c w s' (bits.take n ++ List.replicate (n - bits.length) b) := by
  have hw := h.pos
  have hl := hR.len
  rw [Nat.mul_one] at hl
  have hnb := le_blocksFor_mul n hw
  unfold BV.resize
  rw [checkedCeilDiv_ok c h hf, Res.ok_bind, expectR_some, Res.ok_bind]
  split
  · next hcase =>
    obtain ⟨s1, hs1, hR1⟩ := bv_blockResize c h hR (hf.pad hw) 0
    obtain ⟨s2, hs2, hR2⟩ := bv_truncate c h hR1 n
    refine ⟨s2, by rw [hs1, Res.ok_bind]; exact hs2, ?_⟩
    rw [blockBits_zero, List.flatten_replicate_replicate] at hR2
    have : ((padTo w bits).take (blocksFor w n * w) ++
        List.replicate ((blocksFor w n - blocksFor w bits.length) * w) false).take n =
        bits.take n ++ List.replicate (n - bits.length) b := by
      rcases hcase with hlt | rfl
      · have h1 : blocksFor w n ≤ blocksFor w bits.length := blocksFor_mono (by omega)
        rw [show blocksFor w n - blocksFor w bits.length = 0 by omega, Nat.zero_mul, List.replicate_zero,
          List.append_nil, List.take_take, Nat.min_eq_left hnb, padTo, List.take_append_of_le_length (by omega),
          show n - bits.length = 0 by omega, List.replicate_zero, List.append_nil]
      · have hpl := length_padTo hw bits
        rcases Nat.le_total (blocksFor w n) (blocksFor w bits.length) with hle | hle
        · rw [show blocksFor w n - blocksFor w bits.length = 0 by omega, Nat.zero_mul, List.replicate_zero,
            List.append_nil, List.take_take, Nat.min_eq_left hnb, padTo, resize_take]
          have := Nat.mul_le_mul_right w hle
          omega
        · have := Nat.mul_le_mul_right w hle
          rw [List.take_of_length_le (l := padTo w bits) (by omega), padTo, List.append_assoc,
            List.replicate_append_replicate, resize_take]
          rw [Nat.sub_mul]
          have := le_blocksFor_mul bits.length hw
          omega
    rw [← this]; exact hR2
  · next hcase =>
    have hge : bits.length ≤ n := by omega
    have hb : b = true := by cases b <;> simp_all
    subst hb
    have hblk := blocksFor_mono (w := w) hge
    have hbm := Nat.mul_le_mul_right w hblk
    have hle := le_blocksFor_mul bits.length hw
    have hlt := blocksFor_mul_lt (n := bits.length) hw
    rw [lastBlockBits_eq c h, Res.ok_bind, hl]
    have hrem : w - (if bits.length % w = 0 then w else bits.length % w) =
        blocksFor w bits.length * w - bits.length ∧ (if bits.length % w = 0 then w else bits.length % w) ≤ w := by
      obtain ⟨q, r, hr, he, -, hr'⟩ := divmod_cases w bits.length hw
      rw [hr']
      by_cases h0 : r = 0
      · subst h0
        rw [if_pos rfl, he, Nat.add_zero, blocksFor_mul _ _ hw]; omega
      · have hq : blocksFor w bits.length = q + 1 := by
          apply Nat.le_antisymm
          · rw [blocksFor_le hw, Nat.succ_mul]; omega
          · show q < _
            rw [lt_blocksFor hw]; omega
        rw [if_neg h0, hq, Nat.succ_mul]; omega
    rw [subN_ok hrem.2, Res.ok_bind, hrem.1]
    obtain ⟨s1, hs1, hR1⟩ := forRange_inv (lo := 0) (hi := blocksFor w bits.length * w - bits.length) (s := s)
      (f := fun _ s => VB.pushBit c s true)
      (fun k s => bvR c w s (bits ++ List.replicate k true)) (Nat.zero_le _) (by simpa using hR) (by
        intro k s _ hk hRk
        obtain ⟨s', h1, h2⟩ := hRk.pushBit_ok h ((hf.pad hw).mono (by simp; omega)) true
        refine ⟨s', h1, ?_⟩
        rwa [List.append_assoc, ← List.replicate_succ'] at h2)
    have hl1 : (bits ++ List.replicate (blocksFor w bits.length * w - bits.length) true).length =
        blocksFor w bits.length * w := by simp; omega
    obtain ⟨s2, hs2, hR2⟩ := bv_blockResize c h hR1 (hf.pad hw) (~~~ 0)
    obtain ⟨s3, hs3, hR3⟩ := bv_truncate c h hR2 n
    refine ⟨s3, by rw [hs1, Res.ok_bind, hs2, Res.ok_bind]; exact hs3, ?_⟩
    have : padTo w (bits ++ List.replicate (blocksFor w bits.length * w - bits.length) true) =
        bits ++ List.replicate (blocksFor w bits.length * w - bits.length) true := by
      unfold padTo
      rw [hl1, blocksFor_mul _ _ hw, Nat.sub_self, List.replicate_zero, List.append_nil]
    rw [this, hl1, blocksFor_mul _ _ hw, List.take_of_length_le
        (l := bits ++ List.replicate (blocksFor w bits.length * w - bits.length) true) (by rw [hl1]; omega),
      blockBits_ones,
      List.flatten_replicate_replicate, List.append_assoc, List.replicate_append_replicate, resize_take] at hR3
    · exact hR3
    · rw [Nat.sub_mul]; omega

theorem bv_blockWithFill (c : Cfg) (h : IsBlk w) {n : Nat} (hf : Fits c.usz w (n * w)) (x : BitVec w) :
    ∃ s', BV.blockWithFill c n x = .ok s' ∧ bvR c w s' (List.replicate n (blockBits x)).flatten := by
  obtain ⟨s', h1, h2⟩ := blockWithFill_ok c h (Nat.le_refl 1) h.pos hf x
  rw [floorTo_one] at h2
  exact ⟨s', h1, h2⟩

theorem bv_withFill (c : Cfg) (h : IsBlk w) {n : Nat} (hf : Fits c.usz w n) (b : Bool) :
    ∃ s', BV.withFill c w n b = .ok s' ∧ bvR c w s' (List.replicate n b) := by
  have hw := h.pos
  unfold BV.withFill
  rw [checkedCeilDiv_ok c h hf, Res.ok_bind, expectR_some, Res.ok_bind]
  obtain ⟨s1, hs1, hR1⟩ := bv_blockWithFill c h (hf.pad hw) (if b then ~~~ 0 else 0 : BitVec w)
  obtain ⟨s2, hs2, hR2⟩ := bv_truncate c h hR1 n
  refine ⟨s2, by simp only [hs1, Res.ok_bind]; exact hs2, ?_⟩
  rw [fillBlock, List.flatten_replicate_replicate, List.take_replicate,
    Nat.min_eq_left (le_blocksFor_mul n hw)] at hR2
  exact hR2

theorem bv_withCapacity (c : Cfg) (h : IsBlk w) {n : Nat} (hf : Fits c.usz w n) :
    BV.withCapacity c w n = .ok VB.new := by
  unfold BV.withCapacity VB.withCapacity
  rw [lenToBlockLen_ok h (by rwa [Nat.mul_one]), Res.ok_bind, expectR_some, Res.ok_bind]

theorem bv_setBits_panic (c : Cfg) (h : IsBlk w) {s : VB w} {bits} (hR : bvR c w s bits) {p n : Nat} (x : BitVec w)
    (hp : p < 2 ^ 64) (hn : n ≤ w) (hl : bits.length < p + n) : (bvBitVecMut c w).setBits s p n x = .panic := by
  have e : (bvBitVecMut c w).setBits =
      dfltSetBits c (bvBitVec c w).bitLen (bvBitVec c w).getBlock (fun s i v => VB.setBlock c s 1 i v) := rfl
  rw [e]
  exact (bv_view c h hR).setBits_panic h x hp hn hl

theorem bv_getBits_panic (c : Cfg) (h : IsBlk w) {s : VB w} {bits} (hR : bvR c w s bits) {p n : Nat}
    (hp : p < 2 ^ 64) (hn : n ≤ w) (hl : bits.length < p + n) : (bvBitVec c w).getBits s p n = .panic := by
  have e : (bvBitVec c w).getBits = dfltGetBits c (bvBitVec c w).bitLen (bvBitVec c w).getBlock := rfl
  rw [e]
  exact (bv_view c h hR).getBits_panic h hp hn hl

/-! ### one call -/

/-- one call on the model of `BitVector` -/
def bvStep (c : Cfg) (s : VB w) : BvOp w → Res (BvOut w × VB w)
  | .pushBit b => do let s ← (bvBitVecPush c w).pushBit s b; .ok (.unit, s)
  | .popBit => do let (o, s) ← (bvBitVecPush c w).popBit s; .ok (.optBit o, s)
  | .setBit i b => do let s ← (bvBitVecMut c w).setBit s i b; .ok (.unit, s)
  | .setBlock i x => do let s ← (bvBitVecMut c w).setBlock s i x; .ok (.unit, s)
  | .setBits p n x => do let s ← (bvBitVecMut c w).setBits s p n x; .ok (.unit, s)
  | .pushBlock x => do let s ← (bvBitVecPush c w).pushBlock s x; .ok (.unit, s)
  | .alignBlock b => do let s ← (bvBitVecPush c w).alignBlock s b; .ok (.unit, s)
  | .resize n b => do let s ← BV.resize c s n b; .ok (.unit, s)
  | .blockResize n x => do let s ← BV.blockResize c s n x; .ok (.unit, s)
  | .truncate n => do let s ← BV.truncate c s n; .ok (.unit, s)
  | .blockTruncate n => do let s ← BV.blockTruncate c s n; .ok (.unit, s)
  | .clear => .ok (.unit, s.clear)
  | .bitLen => do let n ← (bvBitVec c w).bitLen s; .ok (.num n, s)
  | .blockLen => do let n ← (bvBitVec c w).blockLen s; .ok (.num n, s)
  | .getBit i => do let b ← (bvBitVec c w).getBit s i; .ok (.bit b, s)
  | .getBlock i => do let x ← (bvBitVec c w).getBlock s i; .ok (.block x, s)
  | .getBits p n => do let x ← (bvBitVec c w).getBits s p n; .ok (.block x, s)

/-- The model result `m` is the one prescribed by `sp`: the same output and a state representing the
same abstract value, or a panic. -/
def Refines (R : S → A → Prop) (m : Res (O × S)) : Option (O × A) → Prop
  | some (o, a) => ∃ s, m = .ok (o, s) ∧ R s a
  | none => m = .panic

theorem refines_unit {R : S → A → Prop} {m : Res S} {a : A} {u : O} (h : ∃ s', m = .ok s' ∧ R s' a) :
    Refines R (do let s ← m; Res.ok (u, s)) (some (u, a)) := by
  obtain ⟨s', h1, h2⟩ := h
  exact ⟨s', by rw [h1, Res.ok_bind], h2⟩

theorem bvStep_refines (c : Cfg) (h : IsBlk w) {s : VB w} {bits} (hR : bvR c w s bits) (op : BvOp w)
    (hok : op.Ok c.usz w bits) : Refines (bvR c w) (bvStep c s op) (bvSpec w bits op) := by
  have hw := h.pos
  cases op with
  | pushBit b => exact refines_unit (bv_pushBit c h hR b hok)
  | popBit =>
    obtain ⟨s', h1, h2⟩ := (bv_push_law c h).popBit hR
    exact ⟨s', by simp only [bvStep, h1, Res.ok_bind], h2⟩
  | setBit i b =>
    unfold BvOp.Ok at hok
    unfold bvSpec; simp only [bvStep]
    split
    · next hi => exact refines_unit ((bv_mut_law c h).setBit hR i b hi)
    · next hi => exact by rw [(bv_mut_law c h).setBit_panic hR i b (by omega) hok]; rfl
  | setBlock i x =>
    unfold bvSpec; simp only [bvStep]
    split
    · next hi => exact refines_unit ((bv_mut_law c h).setBlock hR i x hi)
    · next hi =>
      have : (bvBitVecMut c w).setBlock s i x = .panic := hR.setBlock_panic (by omega) x
      exact by rw [this]; rfl
  | setBits p n x =>
    unfold BvOp.Ok at hok
    obtain ⟨hp, h1, hn⟩ := hok
    unfold bvSpec; simp only [bvStep]
    split
    · next hi => exact refines_unit ((bv_mut_law c h).setBits hR p n x h1 hn hi)
    · next hi =>
      rw [bv_setBits_panic c h hR x hp hn (by omega)]; rfl
  | pushBlock x => exact refines_unit (bv_pushBlock c h hR x hok)
  | alignBlock b => exact refines_unit (bv_align c h hR b (hR.fits.pad hw))
  | resize n b => exact refines_unit (bv_resize c h hR hok b)
  | blockResize n x => exact refines_unit (bv_blockResize c h hR hok x)
  | truncate n => exact refines_unit (bv_truncate c h hR n)
  | blockTruncate n => exact refines_unit (bv_blockTruncate c h hR n)
  | clear => exact ⟨_, rfl, VR.nil c h 1⟩
  | bitLen => exact ⟨s, by simp only [bvStep, bv_bitLen c hR, Res.ok_bind], hR⟩
  | blockLen => exact ⟨s, by simp only [bvStep, (bv_block c h).blockLen hR, Res.ok_bind], hR⟩
  | getBit i =>
    unfold BvOp.Ok at hok
    unfold bvSpec; simp only [bvStep]
    rw [(bv_law c h).getBit hR i hok]
    rcases bits[i]? with _ | b
    · rfl
    · exact ⟨s, rfl, hR⟩
  | getBlock i =>
    have : (bvBitVec c w).getBlock s i = _ := hR.getBlock_eq h i
    unfold bvSpec; simp only [bvStep]
    rw [this]
    split
    · exact ⟨s, rfl, hR⟩
    · rfl
  | getBits p n =>
    unfold BvOp.Ok at hok
    obtain ⟨hp, h1, hn⟩ := hok
    unfold bvSpec; simp only [bvStep]
    split
    · next hi => exact ⟨s, by rw [(bv_law c h).getBits hR p n h1 hn hi]; rfl, hR⟩
    · next hi =>
      rw [bv_getBits_panic c h hR hp hn (by omega)]; rfl

/-- a sequence of calls -/
def bvRun (c : Cfg) (s : VB w) : List (BvOp w) → Res (List (BvOut w) × VB w)
  | [] => .ok ([], s)
  | op :: ops => do
    let (o, s) ← bvStep c s op
    let (os, s) ← bvRun c s ops
    .ok (o :: os, s)

theorem bvRun_refines (c : Cfg) (h : IsBlk w) (ops : List (BvOp w)) {s : VB w} {bits} (hR : bvR c w s bits)
    (hok : bvOpsOk c.usz w bits ops) : Refines (bvR c w) (bvRun c s ops) (bvSpecRun w bits ops) := by
  induction ops generalizing s bits with
  | nil => exact ⟨s, rfl, hR⟩
  | cons op ops ih =>
    have h1 := bvStep_refines c h hR op hok.1
    have h2 := hok.2
    unfold bvRun bvSpecRun
    rcases hsp : bvSpec w bits op with _ | ⟨o, bits'⟩
    · rw [hsp] at h1
      have h1 : bvStep c s op = .panic := h1
      exact by rw [h1]; rfl
    · rw [hsp] at h1
      obtain ⟨s', hs', hR'⟩ := h1
      have h3 := ih hR' (h2 _ hsp)
      rcases hsp2 : bvSpecRun w bits' ops with _ | ⟨os, bits''⟩
      · rw [hsp2] at h3
        have h3 : bvRun c s' ops = .panic := h3
        simp only [hs', Res.ok_bind, h3, Option.bind_eq_bind, Option.bind_some, hsp2, Option.bind_none]
        rfl
      · rw [hsp2] at h3
        obtain ⟨s'', hs'', hR''⟩ := h3
        simp only [hs', Res.ok_bind, hs'', Option.bind_eq_bind, Option.bind_some, hsp2]
        exact ⟨s'', rfl, hR''⟩

/-- constructors of the model -/
def bvInit (c : Cfg) : BvInit w → Res (VB w)
  | .new => .ok VB.new
  | .withCapacity n => BV.withCapacity c w n
  | .withFill n b => BV.withFill c w n b
  | .blockWithFill n x => BV.blockWithFill c n x

theorem bvInit_ok (c : Cfg) (h : IsBlk w) (i : BvInit w) (hok : i.Ok c.usz) :
    ∃ s, bvInit c i = .ok s ∧ bvR c w s i.bits := by
  cases i with
  | new => exact ⟨_, rfl, VR.nil c h 1⟩
  | withCapacity n => exact ⟨_, bv_withCapacity c h hok, VR.nil c h 1⟩
  | withFill n b => exact bv_withFill c h hok b
  | blockWithFill n x => exact bv_blockWithFill c h hok x

end Succinct
