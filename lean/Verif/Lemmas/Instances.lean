import Verif.Lemmas.Defaults
/-! The `Vec<bool>` and primitive instances are lawful. -/
namespace Succinct
open Spec

/-! ### `Vec<bool>` -/

/-- A `Vec<bool>` represents itself. -/
def boolR (c : Cfg) (v : List Bool) (bits : List Bool) : Prop :=
  bits = v ∧ Fits c.usz 8 v.length ∧ v.length < 2 ^ c.usz

theorem boolR.fits (h : boolR c v bits) : Fits c.usz 8 bits.length := by rw [h.1]; exact h.2.1

theorem boolVec_getBit (c : Cfg) {v : List Bool} (hu : v.length < 2 ^ c.usz) (i : Nat) :
    (boolVecBitVec c).getBit v i = expectR v[i]? := by
  show (expectR (toUsize c i) >>= fun i => vecGet v i) = _
  unfold toUsize
  split
  · rfl
  · rw [List.getElem?_eq_none (by omega)]; rfl

theorem boolVec_bitLen (c : Cfg) (v : List Bool) : (boolVecBitVec c).bitLen v = .ok v.length := rfl

theorem boolR.bitLen (h : boolR c v bits) : (boolVecBitVec c).bitLen v = .ok bits.length := by
  rw [h.1]; rfl

theorem boolVec_blockLen (c : Cfg) {v : List Bool} (hf : Fits c.usz 8 v.length) :
    (boolVecBitVec c).blockLen v = .ok (blocksFor 8 v.length) :=
  dfltBlockLen_ok (c := c) (bitLen := (boolVecBitVec c).bitLen) isBlk8 (boolVec_bitLen c v) hf

theorem boolR.blockLen (h : boolR c v bits) :
    (boolVecBitVec c).blockLen v = .ok (blocksFor 8 bits.length) := by
  rw [h.1]; exact boolVec_blockLen c h.2.1

theorem boolVec_getBlock_def (c : Cfg) : (boolVecBitVec c).getBlock =
    dfltGetBlock c (boolVecBitVec c).bitLen (boolVecBitVec c).blockLen (boolVecBitVec c).getBit := rfl

theorem boolVec_pad (c : Cfg) : BVPadLaw (boolVecBitVec c) (boolR c) := by
  refine ⟨?_⟩
  rintro v bits ⟨rfl, hf, hu⟩ i hi
  obtain ⟨b, hb, hbit⟩ := dfltGetBlock_ok (c := c) (w := 8) (S := List Bool)
    (getBit := (boolVecBitVec c).getBit)
    (f := fun i => bits[i]?.getD false) isBlk8 hf (boolVec_bitLen c bits)
    (boolVec_blockLen c hf)
    (fun k hk => by rw [boolVec_getBit c hu, List.getElem?_eq_getElem hk]; simp) hi
  rw [boolVec_getBlock_def]
  refine hb.trans ?_
  have : b = _ := eq_ofNat_span (bits := bits) (s := i * 8) (Nat.le_refl _) (fun j => by
    rw [hbit]
    by_cases hn : i * 8 + j < bits.length
    · simp [hn]
    · simp [hn])
  rw [this]

theorem boolVec_block (c : Cfg) : BVBlockLaw c (boolVecBitVec c) (boolR c) where
  blockLen := boolR.blockLen
  getBlock := fun hR i hi => (boolVec_pad c).block hR i hi
  getBlock_panic := by
    rintro v bits ⟨rfl, hf, hu⟩ i hi _
    rw [boolVec_getBlock_def]
    unfold dfltGetBlock
    rw [boolVec_blockLen c hf, Res.ok_bind, assertR_false (by omega)]
    rfl

theorem boolVec_law (c : Cfg) : BVLaw c (boolVecBitVec c) (boolR c) := by
  have l := BVLaw.ofBlocks (c := c) (w := 8) isBlk8
    (o := { boolVecBitVec c with
      getBit := dfltGetBit c (boolVecBitVec c).bitLen (boolVecBitVec c).getBlock })
    (R := boolR c) ⟨⟨(boolVec_block c).blockLen, (boolVec_block c).getBlock⟩, (boolVec_block c).getBlock_panic⟩
    boolR.fits boolR.bitLen rfl rfl
  exact
  { fits := boolR.fits
    bitLen := boolR.bitLen
    getBit := fun hR i _ => by rw [hR.1]; exact boolVec_getBit c hR.2.2 i
    getBits := l.getBits
    getBits_panic := l.getBits_panic }

theorem boolVec_setBit (c : Cfg) {v : List Bool} (hu : v.length < 2 ^ c.usz) (i : Nat) (x : Bool) :
    (boolVecBitVecMut c).setBit v i x = if i < v.length then .ok (v.set i x) else .panic := by
  show (expectR (toUsize c i) >>= fun i => vecSet v i x) = _
  unfold toUsize
  split
  · rfl
  · rw [if_neg (by omega)]; rfl

theorem boolVec_setBit_ok (c : Cfg) {s bits} (hR : boolR c s bits) (i : Nat) (v : Bool) (hi : i < bits.length) :
    ∃ s', (boolVecBitVecMut c).setBit s i v = .ok s' ∧ boolR c s' (bits.set i v) := by
  obtain ⟨rfl, hf, hu⟩ := hR
  rw [boolVec_setBit c hu, if_pos hi]
  exact ⟨_, rfl, rfl, by rw [List.length_set]; exact hf, by rw [List.length_set]; exact hu⟩

theorem boolVec_setBit_panic (c : Cfg) {s bits} (hR : boolR c s bits) (i : Nat) (v : Bool)
    (hi : bits.length ≤ i) : (boolVecBitVecMut c).setBit s i v = .panic := by
  obtain ⟨rfl, hf, hu⟩ := hR
  rw [boolVec_setBit c hu, if_neg (by omega)]

theorem boolVec_setBlock_def (c : Cfg) : (boolVecBitVecMut c).setBlock =
    dfltSetBlock c (boolVecBitVec c).bitLen (boolVecBitVec c).blockLen (boolVecBitVecMut c).setBit := rfl

theorem boolVec_mut_law (c : Cfg) : BVMutLaw c (boolVecBitVecMut c) (boolR c) := by
  have hset : ∀ {s bits} (_ : boolR c s bits) i (v : BitVec 8) (_ : i < blocksFor 8 bits.length),
      ∃ s', (boolVecBitVecMut c).setBlock s i v = .ok s' ∧
        boolR c s' (overwrite bits (i * 8) ((blockBits v).take (bits.length - i * 8))) := by
    intro s bits hR i v hi
    rw [boolVec_setBlock_def]
    exact dfltSetBlock_ok (c := c) (w := 8) (o := boolVecBitVec c) isBlk8 boolR.fits
      boolR.bitLen boolR.blockLen (boolVec_setBit_ok c) hR (pos := i) v hi
  have hsetp : ∀ {s bits} (_ : boolR c s bits) i (v : BitVec 8) (_ : blocksFor 8 bits.length ≤ i)
      (_ : i < 2 ^ c.usz) (_ : i * 8 < 2 ^ 64), (boolVecBitVecMut c).setBlock s i v = .panic := by
    intro s bits hR i v hi _ hi2
    rw [boolVec_setBlock_def]
    exact dfltSetBlock_panic (c := c) (w := 8) (o := boolVecBitVec c) isBlk8 boolR.blockLen
      boolR.bitLen (fun hR i v hi _ => boolVec_setBit_panic c hR i v hi) hR (pos := i) v hi hi2
  have l := BVMutLaw.ofBlocks (c := c) (w := 8) isBlk8
    (o := { boolVecBitVecMut c with
      setBit := dfltSetBit c (boolVecBitVecMut c).bitLen (boolVecBitVecMut c).getBlock (boolVecBitVecMut c).setBlock })
    (boolVec_block c) (R := boolR c) boolR.fits boolR.bitLen hset hsetp rfl rfl
  exact
  { setBit := boolVec_setBit_ok c
    setBit_panic := fun hR i v hi _ => boolVec_setBit_panic c hR i v hi
    setBits := l.setBits, setBits_panic := l.setBits_panic,
    setBlock := hset, setBlock_panic := hsetp }

/-- representable lengths of a `Vec<bool>` -/
def boolFit (c : Cfg) (n : Nat) : Prop := Fits c.usz 8 n ∧ n < 2 ^ c.usz

theorem boolFit.mono (h : boolFit c n) (hm : m ≤ n) : boolFit c m :=
  ⟨h.1.mono hm, by have := h.2; omega⟩

theorem boolVec_pushBit (c : Cfg) {s bits} (hR : boolR c s bits) (v : Bool) (hfit : boolFit c (bits.length + 1)) :
    ∃ s', (boolVecBitVecPush c).pushBit s v = .ok s' ∧ boolR c s' (bits ++ [v]) := by
  obtain ⟨rfl, hf, hu⟩ := hR
  refine ⟨_, rfl, rfl, ?_, ?_⟩
  · rw [List.length_append]; exact hfit.1
  · rw [List.length_append]; exact hfit.2

theorem boolVec_push_law (c : Cfg) : BVPushLaw 8 (boolVecBitVecPush c) (boolR c) (boolFit c) := by
  have halign : ∀ {s bits} (_ : boolR c s bits) (v : Bool) (_ : boolFit c (blocksFor 8 bits.length * 8)),
      ∃ s', (boolVecBitVecPush c).alignBlock s v = .ok s' ∧
        boolR c s' (bits ++ List.replicate (blocksFor 8 bits.length * 8 - bits.length) v) := by
    intro s bits hR v hfit
    exact dfltAlignBlock_ok (c := c) (w := 8) (bitLen := (boolVecBitVec c).bitLen)
      (pushBit := (boolVecBitVecPush c).pushBit) isBlk8 boolFit.mono boolR.bitLen (boolVec_pushBit c) hR v hfit
  refine ⟨boolVec_pushBit c, ?_, halign, ?_⟩
  · rintro s bits ⟨rfl, hf, hu⟩
    refine ⟨_, rfl, rfl, ?_, ?_⟩
    · exact hf.mono (by rw [List.length_dropLast]; omega)
    · rw [List.length_dropLast]; omega
  · intro s bits hR b hfit
    exact dfltPushBlock_ok (c := c) (w := 8) (alignBlock := (boolVecBitVecPush c).alignBlock)
      (pushBit := (boolVecBitVecPush c).pushBit) isBlk8 boolFit.mono (boolVec_pushBit c) halign hR b hfit

/-! ### primitives -/

/-- A primitive integer represents its own bits. -/
def primR (w : Nat) (x : BitVec w) (bits : List Bool) : Prop := bits = blockBits x

theorem blocksFor_self (h : IsBlk w) : blocksFor w w = 1 := by
  have := blocksFor_mul w 1 h.pos
  simpa using this

theorem fits_blk (c : Cfg) (h : IsBlk w) : Fits c.usz w w := by
  have h1 := blocksFor_self h
  have := h.le
  have := h.lt_usz c
  unfold Fits
  rw [h1]
  have := h.pos
  omega

theorem prim_pad (c : Cfg) (h : IsBlk w) : BVPadLaw (primBitVec c w) (primR w) := by
  refine ⟨?_⟩
  rintro x bits rfl i hi
  rw [length_blockBits, blocksFor_self h] at hi
  have : i = 0 := by omega
  subst this
  show (assertR (0 = 0) >>= fun _ => Res.ok x) = _
  rw [assertR_true rfl, Res.ok_bind]
  congr 1
  apply eq_ofNat_span (Nat.le_refl _)
  intro j
  rw [getD_blockBits]
  by_cases hj : j < w
  · simp [hj]
  · simp [hj, BitVec.getLsbD_of_ge x j (by omega)]

theorem prim_block (c : Cfg) (h : IsBlk w) : BVBlockLaw c (primBitVec c w) (primR w) where
  blockLen := by
    rintro x bits rfl
    rw [length_blockBits, blocksFor_self h]; rfl
  getBlock := fun hR i hi => (prim_pad c h).block hR i hi
  getBlock_panic := by
    rintro x bits rfl i hi _
    rw [length_blockBits, blocksFor_self h] at hi
    show (assertR (i = 0) >>= fun _ => Res.ok x) = _
    rw [assertR_false (by omega)]; rfl

theorem prim_getBits_eq (c : Cfg) (x : BitVec w) (p n : Nat) (hpn : p + n < 2 ^ 64) :
    (primBitVec c w).getBits x p n = if p + n ≤ w then blkGetBits c x (asUsize c p) n else .panic := by
  show (addN c 64 p n >>= fun e => assertR (e ≤ w) >>= fun _ => blkGetBits c x (asUsize c p) n) = _
  rw [addN_ok hpn, Res.ok_bind]
  split
  · next h => rw [assertR_true h, Res.ok_bind]
  · next h => rw [assertR_false h]; rfl

theorem prim_setBits_eq (c : Cfg) (x v : BitVec w) (p n : Nat) (hpn : p + n < 2 ^ 64) :
    (primBitVecMut c w).setBits x p n v = if p + n ≤ w then blkWithBits c x (asUsize c p) n v else .panic := by
  show (addN c 64 p n >>= fun e => assertR (e ≤ w) >>= fun _ => blkWithBits c x (asUsize c p) n v) = _
  rw [addN_ok hpn, Res.ok_bind]
  split
  · next h => rw [assertR_true h, Res.ok_bind]
  · next h => rw [assertR_false h]; rfl

theorem prim_law (c : Cfg) (h : IsBlk w) : BVLaw c (primBitVec c w) (primR w) := by
  have hlu := h.lt_usz c
  have hw := h.pos
  have hw64 := h.le
  refine ⟨?_, ?_, ?_, ?_, ?_⟩
  · rintro x bits rfl; rw [length_blockBits]; exact fits_blk c h
  · rintro x bits rfl; rw [length_blockBits]; rfl
  · rintro x bits rfl i _
    show (assertR (i < w) >>= fun _ => blkGetBit c x (asUsize c i)) = _
    by_cases hi : i < w
    · rw [assertR_true hi, Res.ok_bind, asUsize, Nat.mod_eq_of_lt (by omega), blkGetBit_eq, if_pos hi,
        getElem?_blockBits, if_pos hi]; rfl
    · rw [assertR_false hi, getElem?_blockBits, if_neg hi]; rfl
  · rintro x bits rfl p n h1 hn hp
    rw [length_blockBits] at hp
    rw [prim_getBits_eq _ _ _ _ (by omega), if_pos hp, asUsize, Nat.mod_eq_of_lt (by omega)]
    obtain ⟨y, hy, hyb⟩ := blkGetBits_eq c h x hp
    rw [hy]
    congr 1
    apply eq_ofNat_span hn
    intro j
    rw [hyb, getD_blockBits]
  · rintro x bits rfl p n hn hp hl
    rw [length_blockBits] at hl
    rw [prim_getBits_eq _ _ _ _ hp, if_neg (by omega)]

theorem prim_mut_law (c : Cfg) (h : IsBlk w) : BVMutLaw c (primBitVecMut c w) (primR w) := by
  have hlu := h.lt_usz c
  have hw := h.pos
  have hw64 := h.le
  refine ⟨?_, ?_, ?_, ?_, ?_, ?_⟩
  · rintro x bits rfl i v hi
    rw [length_blockBits] at hi
    show ∃ s', (assertR (i < w) >>= fun _ => blkWithBit c x (asUsize c i) v) = .ok s' ∧ _
    obtain ⟨y, hy, hyb⟩ := blkWithBit_eq c x v hi
    refine ⟨y, by rw [assertR_true hi, Res.ok_bind, asUsize, Nat.mod_eq_of_lt (by omega), hy], ?_⟩
    apply bits_ext (by simp)
    intro k hk
    rw [List.length_set, length_blockBits] at hk
    rw [getD_set _ _ _ _ (by simpa using hi), getD_blockBits, getD_blockBits, hyb]
  · rintro x bits rfl i v hi _
    rw [length_blockBits] at hi
    show (assertR (i < w) >>= fun _ => blkWithBit c x (asUsize c i) v) = _
    rw [assertR_false (by omega)]; rfl
  · rintro x bits rfl p n v h1 hn hp
    rw [length_blockBits] at hp
    rw [prim_setBits_eq _ _ _ _ _ (by omega), if_pos hp, asUsize, Nat.mod_eq_of_lt (by omega)]
    obtain ⟨y, hy, hyb⟩ := blkWithBits_eq c h x v hp
    refine ⟨y, hy, ?_⟩
    have hle : p + (natBits n v.toNat).length ≤ (blockBits x).length := by simpa using hp
    apply bits_ext (by rw [length_overwrite hle]; simp)
    intro k hk
    rw [length_overwrite hle, length_blockBits] at hk
    rw [getD_overwrite hle, getD_blockBits, getD_blockBits, hyb, length_natBits, getElem?_natBits]
    by_cases hk2 : p ≤ k ∧ k < p + n
    · rw [if_pos hk2, if_pos hk2, if_pos (by omega)]; rfl
    · rw [if_neg hk2, if_neg hk2]
  · rintro x bits rfl p n v hn hp hl
    rw [length_blockBits] at hl
    rw [prim_setBits_eq _ _ _ _ _ hp, if_neg (by omega)]
  · rintro x bits rfl i v hi
    rw [length_blockBits, blocksFor_self h] at hi
    have : i = 0 := by omega
    subst this
    refine ⟨v, rfl, ?_⟩
    rw [Nat.zero_mul, List.take_of_length_le (by simp)]
    simp [overwrite, primR, List.drop_eq_nil_of_le]
  · rintro x bits rfl i v hi _ _
    rw [length_blockBits, blocksFor_self h] at hi
    show (assertR (i = 0) >>= fun _ => Res.ok v) = _
    rw [assertR_false (by omega)]; rfl

end Succinct
