import Verif.Model.MinimalImpl
import Verif.Props.BitVecTrait
/-!
# C133: a minimal implementation of the bit-vector traits is a complete one

"Minimal complete definition is `get_bit` or `get_block`, since each is defined in terms of the other"
(traits.rs:7-8; the same at 103-104 for `set_bit` and `set_block`). Here for *any* user type: whatever
its states, if the one method it gives is right, then all the methods are. An `impl` that gives neither
also compiles, and every access to it recurses without end.
-/
namespace Succinct
open Spec

section
variable {w : Nat} {S : Type} {c : Cfg} {R : S → List Bool → Prop}

/-- C133. `bit_len` and `get_bit` are enough: lengths, bits, spans and blocks are right, and the bits of
the last block beyond the end are zero. -/
theorem C133_get_bit (h : IsBlk w) {bitLen : S → Res Nat} {getBit : S → Nat → Res Bool}
    (hfits : ∀ {s bits}, R s bits → Fits c.usz w bits.length)
    (hlen : ∀ {s bits}, R s bits → bitLen s = .ok bits.length)
    (hget : ∀ {s bits}, R s bits → ∀ i < 2 ^ 64, getBit s i = expectR bits[i]?) :
    BVLaw c (implGetBit c w bitLen getBit) R ∧ BVBlockLaw c (implGetBit c w bitLen getBit) R ∧
      BVPadLaw (implGetBit c w bitLen getBit) R := by
  have hw := h.pos
  have hbl : ∀ {s bits}, R s bits → (implGetBit c w bitLen getBit).blockLen s = .ok (blocksFor w bits.length) :=
    fun hR => dfltBlockLen_ok h (hlen hR) (hfits hR)
  have hblk : ∀ {s bits}, R s bits → ∀ i, (implGetBit c w bitLen getBit).getBlock s i =
      if i < blocksFor w bits.length
      then .ok (BitVec.ofNat w (bitsVal ((bits.drop (i * w)).take w))) else .panic := fun {s bits} hR i =>
    C12_get_block_from_get_bit h (hfits hR) (hlen hR) (hbl hR)
      (fun i hi => hget hR i (by have := (hfits hR).lt hw; omega)) i
  have hpad : BVPadLaw (implGetBit c w bitLen getBit) R := ⟨fun hR i hi => by rw [hblk hR, if_pos hi]⟩
  have hb : BVBlockLaw c (implGetBit c w bitLen getBit) R :=
    { blockLen := hbl
      getBlock := fun hR i hi => hpad.block hR i hi
      getBlock_panic := fun hR i hi _ => by rw [hblk hR, if_neg (by omega)] }
  have l := BVLaw.ofBlocks (c := c) h
    (o := { implGetBit c w bitLen getBit with
      getBit := dfltGetBit c bitLen (implGetBit c w bitLen getBit).getBlock })
    (R := R) ⟨⟨hb.blockLen, hb.getBlock⟩, hb.getBlock_panic⟩ hfits hlen rfl rfl
  exact ⟨{ fits := hfits, bitLen := hlen, getBit := hget, getBits := l.getBits,
           getBits_panic := l.getBits_panic }, hb, hpad⟩

/-- C133. `bit_len` and `get_block` are enough. -/
theorem C133_get_block (h : IsBlk w) {bitLen : S → Res Nat} {getBlock : S → Nat → Res (BitVec w)}
    (hfits : ∀ {s bits}, R s bits → Fits c.usz w bits.length)
    (hlen : ∀ {s bits}, R s bits → bitLen s = .ok bits.length)
    (hget : ∀ {s bits}, R s bits → ∀ i, i < blocksFor w bits.length →
      ∃ b, getBlock s i = .ok b ∧ ∀ j < w, i * w + j < bits.length → some (b.toNat.testBit j) = bits[i * w + j]?)
    (hpanic : ∀ {s bits}, R s bits → ∀ i, blocksFor w bits.length ≤ i → i < 2 ^ c.usz → getBlock s i = .panic) :
    BVLaw c (implGetBlock c bitLen getBlock) R ∧ BVBlockLaw c (implGetBlock c bitLen getBlock) R := by
  have hb : BVBlockLaw c (implGetBlock c bitLen getBlock) R :=
    { blockLen := fun hR => dfltBlockLen_ok h (hlen hR) (hfits hR)
      getBlock := hget, getBlock_panic := hpanic }
  exact ⟨BVLaw.ofBlocks h hb hfits hlen rfl rfl, hb⟩

/-- C133. Going round: the `get_block` the trait derives from the `get_bit` it derived from a type's own
`get_block` is that type's own, with the bits beyond the end cleared. -/
theorem C133_round_trip (h : IsBlk w) {bitLen : S → Res Nat} {getBlock : S → Nat → Res (BitVec w)}
    (hfits : ∀ {s bits}, R s bits → Fits c.usz w bits.length)
    (hlen : ∀ {s bits}, R s bits → bitLen s = .ok bits.length)
    (hget : ∀ {s bits}, R s bits → ∀ i, i < blocksFor w bits.length →
      ∃ b, getBlock s i = .ok b ∧ ∀ j < w, i * w + j < bits.length → some (b.toNat.testBit j) = bits[i * w + j]?)
    (hpanic : ∀ {s bits}, R s bits → ∀ i, blocksFor w bits.length ≤ i → i < 2 ^ c.usz → getBlock s i = .panic)
    {s : S} {bits : List Bool} (hR : R s bits) (i : Nat) (hi : i < blocksFor w bits.length) (b : BitVec w)
    (hb : getBlock s i = .ok b) :
    ∃ b' : BitVec w, (implGetBit c w bitLen (implGetBlock c bitLen getBlock).getBit).getBlock s i = .ok b' ∧
      ∀ j < w, b'.getLsbD j = (decide (i * w + j < bits.length) && b.getLsbD j) := by
  have hw := h.pos
  have l := C133_get_block (c := c) (R := R) (bitLen := bitLen) (getBlock := getBlock) h hfits hlen hget hpanic
  have l2 := C133_get_bit (c := c) (w := w) (R := R) (bitLen := bitLen)
    (getBit := (implGetBlock c bitLen getBlock).getBit) h hfits hlen l.1.getBit
  refine ⟨_, l2.2.2.getBlock hR i hi, fun j hj => ?_⟩
  obtain ⟨b1, h1, h2⟩ := hget hR i hi
  rw [hb] at h1
  obtain rfl : b = b1 := by cases h1; rfl
  obtain ⟨b3, h3, h4⟩ := l2.2.1.getBlock hR i hi
  have e := l2.2.2.getBlock hR i hi
  rw [e] at h3
  by_cases hn : i * w + j < bits.length
  · have := h4 j hj hn
    rw [← h2 j hj hn] at this
    simp only [hn, decide_true, Bool.true_and, BitVec.getLsbD]
    cases h3
    exact Option.some.inj this
  · simp only [hn, decide_false, Bool.false_and]
    rw [BitVec.getLsbD_ofNat, testBit_bitsVal]
    simp [hn, hj]

/-- C133. `set_bit` is enough, over any lawful way of reading (for instance the ones above). -/
theorem C133_set_bit (h : IsBlk w) {o : BitVecOps w S} (hb : BVBlockLaw c o R)
    (hfits : ∀ {s bits}, R s bits → Fits c.usz w bits.length)
    (hlen : ∀ {s bits}, R s bits → o.bitLen s = .ok bits.length) {setBit : S → Nat → Bool → Res S}
    (hset : ∀ {s bits}, R s bits → ∀ i v, i < bits.length → ∃ s', setBit s i v = .ok s' ∧ R s' (bits.set i v))
    (hpanic : ∀ {s bits}, R s bits → ∀ i v, bits.length ≤ i → i < 2 ^ 64 → setBit s i v = .panic) :
    BVMutLaw c (implSetBit c o setBit) R := by
  have hsb : ∀ {s bits}, R s bits → ∀ i (v : BitVec w), i < blocksFor w bits.length →
      ∃ s', (implSetBit c o setBit).setBlock s i v = .ok s' ∧
        R s' (overwrite bits (i * w) ((blockBits v).take (bits.length - i * w))) := fun hR i v hi =>
    dfltSetBlock_ok (c := c) (o := o) h hfits hlen hb.blockLen hset hR v hi
  have hsp : ∀ {s bits}, R s bits → ∀ i (v : BitVec w), blocksFor w bits.length ≤ i →
      i < 2 ^ c.usz → i * w < 2 ^ 64 → (implSetBit c o setBit).setBlock s i v = .panic := fun hR i v hi _ hi2 =>
    dfltSetBlock_panic (c := c) (o := o) h hb.blockLen hlen hpanic hR v hi hi2
  have l := BVMutLaw.ofBlocks (c := c) h
    (o := { implSetBit c o setBit with
      setBit := dfltSetBit c o.bitLen o.getBlock (implSetBit c o setBit).setBlock })
    (R := R) hb hfits hlen hsb hsp rfl rfl
  exact { setBit := hset, setBit_panic := hpanic, setBits := l.setBits, setBits_panic := l.setBits_panic,
          setBlock := hsb, setBlock_panic := hsp }

/-- C133. `set_block` is enough, over any lawful way of reading. -/
theorem C133_set_block (h : IsBlk w) {o : BitVecOps w S} (hb : BVBlockLaw c o R)
    (hfits : ∀ {s bits}, R s bits → Fits c.usz w bits.length)
    (hlen : ∀ {s bits}, R s bits → o.bitLen s = .ok bits.length) {setBlock : S → Nat → BitVec w → Res S}
    (hset : ∀ {s bits}, R s bits → ∀ i v, i < blocksFor w bits.length → ∃ s', setBlock s i v = .ok s' ∧
      R s' (overwrite bits (i * w) ((blockBits v).take (bits.length - i * w))))
    (hpanic : ∀ {s bits}, R s bits → ∀ i v, blocksFor w bits.length ≤ i → i < 2 ^ c.usz → i * w < 2 ^ 64 →
      setBlock s i v = .panic) :
    BVMutLaw c (implSetBlock c o setBlock) R :=
  BVMutLaw.ofBlocks h (o := implSetBlock c o setBlock) hb hfits hlen hset hpanic rfl rfl

/-- C133. `push_bit` and `pop_bit` are enough. -/
theorem C133_push (h : IsBlk w) {o : BitVecMutOps w S} {Fit : Nat → Prop}
    (hmono : ∀ {m n}, Fit n → m ≤ n → Fit m)
    (hlen : ∀ {s bits}, R s bits → o.bitLen s = .ok bits.length)
    {pushBit : S → Bool → Res S} {popBit : S → Res (Option Bool × S)}
    (hpush : ∀ {s bits}, R s bits → ∀ v, Fit (bits.length + 1) → ∃ s', pushBit s v = .ok s' ∧ R s' (bits ++ [v]))
    (hpop : ∀ {s bits}, R s bits → ∃ s', popBit s = .ok (bits.getLast?, s') ∧ R s' bits.dropLast) :
    BVPushLaw w (implPush c o pushBit popBit) R Fit := by
  have halign : ∀ {s bits}, R s bits → ∀ v, Fit (blocksFor w bits.length * w) →
      ∃ s', dfltAlignBlock c w o.bitLen pushBit s v = .ok s' ∧
        R s' (bits ++ List.replicate (blocksFor w bits.length * w - bits.length) v) := by
    intro s bits hR v hf
    exact dfltAlignBlock_ok (bitLen := o.bitLen) (pushBit := pushBit) (R := R) (Fit := Fit) h hmono hlen hpush hR v hf
  refine ⟨hpush, hpop, halign, ?_⟩
  intro s bits hR b hf
  exact dfltPushBlock_ok (c := c) (alignBlock := dfltAlignBlock c w o.bitLen pushBit)
    (pushBit := pushBit) (R := R) (Fit := Fit) h hmono hpush halign hR b hf

/-! ### Giving neither -/

open Lean.Order in
theorem neither_get (h : IsBlk w) {bitLen : S → Res Nat} {s : S} {n : Nat} (hf : Fits c.usz w n)
    (hlen : bitLen s = .ok n) :
    (∀ p < n, neitherGetBit c w bitLen s p = .diverge) ∧
    (∀ i < blocksFor w n, neitherGetBlock c w bitLen s i = .diverge) := by
  have hw := h.pos
  have hlt := hf.lt hw
  refine neitherGetBit.mutual_fixpoint_induct c w bitLen
    (fun f => ∀ p < n, f s p = .diverge) (fun f => ∀ i < blocksFor w n, f s i = .diverge) ?_ ?_ ?_ ?_
  · apply admissible_apply (fun s' (g : Nat → Res Bool) => ∀ p < n, g p = .diverge) s
    apply admissible_pi_apply (fun p (g : Res Bool) => p < n → g = .diverge)
    intro p
    apply admissible_flatOrder
    exact fun _ => rfl
  · apply admissible_apply (fun s' (g : Nat → Res (BitVec w)) => ∀ i < blocksFor w n, g i = .diverge) s
    apply admissible_pi_apply (fun i (g : Res (BitVec w)) => i < blocksFor w n → g = .diverge)
    intro p
    apply admissible_flatOrder
    exact fun _ => rfl
  · intro f ih p hp
    obtain ⟨q, r, hr, he, hq, hr'⟩ := divmod_cases w p hw
    have hqb : q < blocksFor w n := (lt_blocksFor hw).2 (by omega)
    have hqu := hf.2
    simp only [dfltGetBit]
    rw [hlen, Res.ok_bind, assertR_true hp, Res.ok_bind, addrNew_ok c h (by rw [hq]; omega), Res.ok_bind]
    simp only [hq]
    rw [ih q hqb]
    rfl
  · intro f ih i hi
    have hlt2 := (lt_blocksFor hw).1 hi
    simp only [dfltGetBlock]
    rw [dfltBlockLen_ok h hlen hf, Res.ok_bind, assertR_true hi, Res.ok_bind, mulN_ok (by omega), Res.ok_bind]
    obtain ⟨w', rfl⟩ : ∃ w', w = w' + 1 := ⟨w - 1, by omega⟩
    simp only [forRange, Nat.sub_zero, forLoop]
    rw [addN_ok (by omega), Res.ok_bind, hlen, Res.ok_bind, if_pos (by omega), Res.ok_bind, ih _ (by omega)]
    rfl

/-- C133. A type that gives neither `get_bit` nor `get_block`: bounds are still checked, and every access
within bounds, by bit or by block, never returns. -/
theorem C133_neither_get (h : IsBlk w) {bitLen : S → Res Nat} {s : S} {n : Nat} (hf : Fits c.usz w n)
    (hlen : bitLen s = .ok n) (p : Nat) :
    neitherGetBit c w bitLen s p = (if p < n then .diverge else .panic) ∧
    neitherGetBlock c w bitLen s p = (if p < blocksFor w n then .diverge else .panic) := by
  constructor
  · split
    · next hp => exact (neither_get h hf hlen).1 p hp
    · next hp =>
      rw [neitherGetBit.eq_def, dfltGetBit, hlen, Res.ok_bind, assertR_false hp]
      rfl
  · split
    · next hp => exact (neither_get h hf hlen).2 p hp
    · next hp =>
      rw [neitherGetBlock.eq_def, dfltGetBlock, dfltBlockLen_ok h hlen hf, Res.ok_bind, assertR_false hp]
      rfl

open Lean.Order in
theorem neither_set (h : IsBlk w) {o : BitVecOps w S} (hb : BVBlockLaw c o R)
    (hfits : ∀ {s bits}, R s bits → Fits c.usz w bits.length)
    (hlen : ∀ {s bits}, R s bits → o.bitLen s = .ok bits.length) {s : S} {bits : List Bool} (hR : R s bits) :
    (∀ p v, p < bits.length → neitherSetBit c o s p v = .diverge) ∧
    (∀ i v, i < blocksFor w bits.length → neitherSetBlock c o s i v = .diverge) := by
  have hw := h.pos
  have hf := hfits hR
  have hlt := hf.lt hw
  refine neitherSetBit.mutual_fixpoint_induct c o
    (fun f => ∀ p v, p < bits.length → f s p v = .diverge)
    (fun f => ∀ i v, i < blocksFor w bits.length → f s i v = .diverge) ?_ ?_ ?_ ?_
  · apply admissible_apply (fun s' (g : Nat → Bool → Res S) => ∀ p v, p < bits.length → g p v = .diverge) s
    apply admissible_pi_apply (fun p (g : Bool → Res S) => ∀ v, p < bits.length → g v = .diverge)
    intro p
    apply admissible_pi_apply (fun v (g : Res S) => p < bits.length → g = .diverge)
    intro v
    apply admissible_flatOrder
    exact fun _ => rfl
  · apply admissible_apply (fun s' (g : Nat → BitVec w → Res S) =>
      ∀ p v, p < blocksFor w bits.length → g p v = .diverge) s
    apply admissible_pi_apply (fun p (g : BitVec w → Res S) => ∀ v, p < blocksFor w bits.length → g v = .diverge)
    intro p
    apply admissible_pi_apply (fun v (g : Res S) => p < blocksFor w bits.length → g = .diverge)
    intro v
    apply admissible_flatOrder
    exact fun _ => rfl
  · intro f ih p v hp
    obtain ⟨q, r, hr, he, hq, hr'⟩ := divmod_cases w p hw
    have hqb : q < blocksFor w bits.length := (lt_blocksFor hw).2 (by omega)
    have hqu := hf.2
    obtain ⟨b, hbq, -⟩ := hb.getBlock hR q hqb
    simp only [dfltSetBit]
    rw [hlen hR, Res.ok_bind, assertR_true hp, Res.ok_bind, addrNew_ok c h (by rw [hq]; omega), Res.ok_bind]
    simp only [hq, hr']
    rw [hbq, Res.ok_bind]
    obtain ⟨b', hb', -⟩ := blkWithBit_eq c b v hr
    rw [hb', Res.ok_bind, ih q _ hqb]
  · intro f ih i v hi
    have hlt2 := (lt_blocksFor hw).1 hi
    have hqu := hf.2
    simp only [dfltSetBlock]
    rw [addN_ok (by omega), Res.ok_bind, hb.blockLen hR, Res.ok_bind]
    have key : ∀ lim, 0 < lim → (do
        let start ← mulNbits c w i
        let r ← forRange 0 lim (s, v) fun i (s, value) => do
          let bit := value &&& 1 != 0
          let p ← addN c 64 start i
          let s ← f s p bit
          let value ← shrB c value 1
          .ok (s, value)
        Res.ok r.1) = Res.diverge := by
      intro lim hl
      rw [mulNbits_ok c h (by omega), Res.ok_bind]
      obtain ⟨l, rfl⟩ : ∃ l, lim = l + 1 := ⟨lim - 1, by omega⟩
      simp only [forRange, Nat.sub_zero, forLoop]
      rw [addN_ok (by omega), Res.ok_bind, ih _ _ (by omega)]
      rfl
    by_cases he : i + 1 = blocksFor w bits.length
    · rw [if_pos he, hlen hR, Res.ok_bind, lastBlockBits_eq c h, Res.ok_bind]
      apply key
      split <;> omega
    · rw [if_neg he, Res.ok_bind]
      exact key _ hw

/-- C133. A type that gives neither `set_bit` nor `set_block`: bounds are still checked, and every write
within bounds never returns. -/
theorem C133_neither_set (h : IsBlk w) {o : BitVecOps w S} (hb : BVBlockLaw c o R)
    (hfits : ∀ {s bits}, R s bits → Fits c.usz w bits.length)
    (hlen : ∀ {s bits}, R s bits → o.bitLen s = .ok bits.length) {s : S} {bits : List Bool} (hR : R s bits)
    (p : Nat) (v : Bool) (b : BitVec w) :
    neitherSetBit c o s p v = (if p < bits.length then .diverge else .panic) ∧
    (p * w < 2 ^ 64 → neitherSetBlock c o s p b = if p < blocksFor w bits.length then .diverge else .panic) := by
  have hout : ∀ {s bits}, R s bits → ∀ i v, bits.length ≤ i → neitherSetBit c o s i v = .panic := by
    intro s bits hR i v hi
    rw [neitherSetBit.eq_def, dfltSetBit, hlen hR, Res.ok_bind, assertR_false (by omega)]
    rfl
  constructor
  · split
    · next hp => exact (neither_set h hb hfits hlen hR).1 p v hp
    · next hp => exact hout hR p v (by omega)
  · intro hp64
    split
    · next hp => exact (neither_set h hb hfits hlen hR).2 p b hp
    · next hp =>
      rw [neitherSetBlock.eq_def]
      exact dfltSetBlock_panic h hb.blockLen hlen (fun hR i v hi _ => hout hR i v hi) hR b (by omega) hp64

end

/-! ### A user type, implemented four ways

The even numbers below `n`, as a bit vector of `n` bits; it stores nothing but `n`, and for the writing
examples a plain list. -/

/-- `get_bit` of a vector in which bit `i` says whether `i` is even -/
def evenGetBit (n : Nat) (i : Nat) : Res Bool := do
  assertR (i < n)
  .ok (i % 2 == 0)

example : let o := implGetBit ⟨true, .p32, true⟩ 16 (fun n => .ok n) evenGetBit
    o.blockLen 20 = .ok 2 ∧ o.getBlock 20 0 = .ok 0x5555#16 ∧ o.getBlock 20 1 = .ok 0x0005#16 ∧
    o.getBlock 20 2 = .panic ∧ o.getBits 20 13 6 = .ok 0x2A#16 ∧ o.getBits 20 15 6 = .panic := by decide +kernel

/-- a `get_block` with rubbish beyond the end of the vector -/
def evenGetBlock (n : Nat) (i : Nat) : Res (BitVec 16) := do
  assertR (i < blocksFor 16 n)
  .ok (if (i + 1) * 16 ≤ n then 0x5555#16 else 0xFFF5#16)

example : let o := implGetBlock ⟨true, .p32, true⟩ (fun n => .ok n) evenGetBlock
    o.getBit 20 18 = .ok true ∧ o.getBit 20 19 = .ok false ∧ o.getBit 20 20 = .panic ∧
    o.getBits 20 13 6 = .ok 0x2A#16 ∧
    o.getBlock 20 1 = .ok 0xFFF5#16 ∧
    (implGetBit ⟨true, .p32, true⟩ 16 (fun n => .ok n) o.getBit).getBlock 20 1 = .ok 0x0005#16 := by decide +kernel

example : let o := implGetBit ⟨true, .p64, true⟩ 8 (fun v : List Bool => .ok v.length) vecGet
    let m := implSetBit ⟨true, .p64, true⟩ o vecSet
    m.setBlock tenBits 1 0xFE#8 = .ok [true, false, true, false, false, false, false, true, false, true] ∧
    m.setBits tenBits 6 3 0x5#8 = .ok [true, false, true, false, false, false, true, false, true, false] ∧
    m.setBits tenBits 8 3 0x5#8 = .panic := by decide +kernel

example : let o := implGetBit ⟨true, .p64, true⟩ 8 (fun v : List Bool => .ok v.length) vecGet
    let m := implSetBit ⟨true, .p64, true⟩ o vecSet
    let u := implPush ⟨true, .p64, true⟩ m (fun s b => .ok (s ++ [b])) (fun s => .ok (s.getLast?, s.dropLast))
    u.alignBlock tenBits true = .ok (tenBits ++ [true, true, true, true, true, true]) := by
  intro o m u
  have l : BVPushLaw 8 u (fun s bits => s = bits) (fun _ => True) :=
    C133_push isBlk8 (fun _ _ => trivial) (fun h => by subst h; rfl) (fun h v _ => ⟨_, rfl, by rw [h]⟩)
      (fun h => ⟨_, by rw [h], rfl⟩)
  obtain ⟨s', h1, h2⟩ := l.alignBlock (s := tenBits) rfl true trivial
  rw [h1, h2]
  decide

example : neitherGetBit ⟨true, .p64, true⟩ 8 (fun n : Nat => .ok n) 20 7 = .diverge ∧
    neitherGetBit ⟨true, .p64, true⟩ 8 (fun n : Nat => .ok n) 20 20 = .panic ∧
    neitherGetBlock ⟨true, .p64, true⟩ 8 (fun n : Nat => .ok n) 20 2 = .diverge :=
  ⟨(C133_neither_get isBlk8 (n := 20) (by decide) rfl 7).1, (C133_neither_get isBlk8 (n := 20) (by decide) rfl 20).1,
   (C133_neither_get isBlk8 (n := 20) (by decide) rfl 2).2⟩

/-! Each theorem of this file that has hypotheses is applied to concrete data in `Verif/Instances/MinimalImpl.lean`. -/

end Succinct
