import Verif.Props.Packed
import Verif.Lemmas.Slice
/-! Property C154: integers may be transferred in pieces. The programs here are not in the crate; they call its `read_int`,
`write_int`, `read_int_be`, `write_int_be`, `get_bits` and `set_bits` twice and shift. -/
namespace Succinct
open Spec

/-- `write_int(a, v)?; write_int(b, v >> a)` -/
def writeTwo (c : Cfg) (sg : Bool) (W : BitWrite σ) (a b : Nat) (v : BitVec w) : SM σ Unit := do
  writeInt c sg W a v
  let v ← SM.lift (shrI c sg v a)
  writeInt c sg W b v

/-- `write_int_be(a, v >> b)?; write_int_be(b, v)` -/
def writeTwoBe (c : Cfg) (sg : Bool) (W : BitWrite σ) (a b : Nat) (v : BitVec w) : SM σ Unit := do
  let hi ← SM.lift (shrI c sg v b)
  writeIntBe c sg W a hi
  writeIntBe c sg W b v

/-- `read_int(a)?`, then `read_int(b)?`; the result is `lo | hi << a`. A source that ends before the first piece has
ended before the number, one that ends between the pieces has ended within it. -/
def readTwo (c : Cfg) (R : BitRead σ) (w a b : Nat) : SM σ (Option (BitVec w)) := do
  match ← readInt c R w a with
  | none => pure none
  | some lo =>
    match ← readInt c R w b with
    | none => if a = 0 then pure none else outOfBits
    | some hi => do
      let hi ← SM.lift (shlB c hi a)
      pure (some (lo ||| hi))

/-- `read_int_be(a)?`, then `read_int_be(b)?`; the result is `hi << b | lo`. -/
def readTwoBe (c : Cfg) (R : BitRead σ) (w a b : Nat) : SM σ (Option (BitVec w)) := do
  match ← readIntBe c R w a with
  | none => pure none
  | some hi =>
    match ← readIntBe c R w b with
    | none => if a = 0 then pure none else outOfBits
    | some lo => do
      let hi ← SM.lift (shlB c hi b)
      pure (some (hi ||| lo))

/-- `get_bits(p, a) | get_bits(p + a, b) << a` -/
def getTwo (c : Cfg) (o : BitVecOps w S) (s : S) (p a b : Nat) : Res (BitVec w) := do
  let lo ← o.getBits s p a
  let hi ← o.getBits s (p + a) b
  let hi ← shlB c hi a
  .ok (lo ||| hi)

/-- `set_bits(p, a, v); set_bits(p + a, b, v >> a)` -/
def setTwo (c : Cfg) (o : BitVecMutOps w S) (s : S) (p a b : Nat) (v : BitVec w) : Res S := do
  let s ← o.setBits s p a v
  let v ← shrB c v a
  o.setBits s (p + a) b v

theorem range_add_map (f : Nat → α) (a b : Nat) :
    (List.range (a + b)).map f = (List.range a).map f ++ (List.range b).map (fun i => f (a + i)) := by
  rw [List.range_add, List.map_append, List.map_map]; rfl

theorem intBit_shr {c : Cfg} (sg : Bool) (v : BitVec w) {a : Nat} (ha : a < w) :
    ∃ y, shrI c sg v a = .ok y ∧ ∀ i, intBit sg y i = intBit sg v (a + i) := by
  unfold shrI
  rw [if_pos ha]
  refine ⟨_, rfl, fun i => ?_⟩
  unfold intBit
  cases sg
  · simp only [Bool.false_eq_true, ↓reduceIte, BitVec.getLsbD_ushiftRight, Bool.false_and]
    by_cases h : a + i < w
    · rw [if_pos (by omega), if_pos h]
    · rw [if_neg h]
      split
      · rw [BitVec.getLsbD_of_ge v _ (by omega)]
      · rfl
  · simp only [↓reduceIte, BitVec.getLsbD_sshiftRight, Bool.true_and, BitVec.msb_sshiftRight]
    by_cases hi : i < w
    · rw [if_pos hi]
      simp only [show ¬ w ≤ i by omega, decide_false, Bool.not_false, Bool.true_and]
    · rw [if_neg hi, if_neg (by omega)]

/-- C154: `write_int` in two pieces, for every sink (also one that fails or panics), every type, signed or not, and numbers
of bits that may together exceed the type. -/
theorem C154_write (c : Cfg) (sg : Bool) (W : BitWrite σ) (hw : 1 < w) {a : Nat} (ha : a < w) (b : Nat) (v : BitVec w) :
    writeInt c sg W (a + b) v = writeTwo c sg W a b v := by
  obtain ⟨y, h1, h2⟩ := intBit_shr (c := c) sg v ha
  rw [writeTwo, h1]
  simp only [SM.lift_ok_bind]
  rw [writeInt, writeInt, writeInt, writeIntLoop_eq c sg W hw, writeIntLoop_eq c sg W hw, writeIntLoop_eq c sg W hw,
    range_add_map, writeAll_append, show intBit sg y = fun i => intBit sg v (a + i) from funext h2]

theorem natBits_add_shr (a b x : Nat) : natBits (a + b) x = natBits a x ++ natBits b (x / 2 ^ a) := by
  unfold natBits
  rw [range_add_map]
  congr 2
  funext i
  rw [Nat.testBit_div_two_pow, Nat.add_comm]

theorem natBits_shrI {c : Cfg} (sg : Bool) (v : BitVec w) {a b : Nat} (ha : a < w) (hab : a + b ≤ w) :
    ∃ y, shrI c sg v a = .ok y ∧ natBits b y.toNat = natBits b (v.toNat / 2 ^ a) := by
  obtain ⟨y, h1, h2⟩ := intBit_shr (c := c) sg v ha
  refine ⟨y, h1, List.map_congr_left fun i hi => ?_⟩
  have hi : i < b := by simpa using hi
  have h := h2 i
  rw [intBit, intBit, if_pos (by omega), if_pos (by omega)] at h
  rw [Nat.testBit_div_two_pow, Nat.add_comm]
  exact h

/-- C154: `write_int_be` in two pieces, the upper bits first. -/
theorem C154_write_be (c : Cfg) (sg : Bool) (W : BitWrite σ) (hw : 1 < w) {a b : Nat} (ha : 1 ≤ a) (hb : 1 ≤ b)
    (hab : a + b ≤ w) (hsg : sg = true → a + b < w) (v : BitVec w) :
    writeIntBe c sg W (a + b) v = writeTwoBe c sg W a b v := by
  obtain ⟨y, h1, h2⟩ := natBits_shrI (c := c) (b := a) sg v (show b < w by omega) (by omega)
  rw [writeTwoBe, h1]
  simp only [SM.lift_ok_bind]
  rw [writeIntBe_eq c sg W hw v (by omega) hab hsg, writeIntBe_eq c sg W hw v (by omega) (by omega) (fun _ => by omega),
    writeIntBe_eq c sg W hw y (by omega) (by omega) (fun _ => by omega), ← writeAll_append, h2, Nat.add_comm a b,
    natBits_add_shr, List.reverse_append]

theorem SM.ext_run {x y : SM σ α} (h : ∀ s, x s = y s) : x = y := funext h

theorem outOfBits_bind (f : α → SM σ β) : (outOfBits >>= f) = (outOfBits : SM σ β) := rfl
theorem SM.pure_bind' (a : α) (f : α → SM σ β) : ((pure a : SM σ α) >>= f) = f a := by
  funext s; rfl

theorem SM.bind_congr' {x : SM σ α} {f g : α → SM σ β} (h : ∀ a, f a = g a) : (x >>= f) = (x >>= g) := by
  rw [show f = g from funext h]

/-- The rest of the loop of `read_int` in terms of a fresh call. -/
theorem readIntLoop_fresh (c : Cfg) (R : BitRead σ) (hw : 1 < w) (n k : Nat) (r : BitVec w) (cons : Bool) :
    readIntLoop c R n r ((1 : BitVec w) <<< k) cons = (do
      match ← readInt c R w n with
      | some x => pure (some (r ||| x <<< k))
      | none => if cons then outOfBits else pure none) := by
  induction n generalizing k r cons with
  | zero => rw [readInt, readIntLoop, readIntLoop, SM.pure_bind']; simp
  | succ n ih =>
    rw [readInt, readIntLoop, readIntLoop, SM.bind_assoc]
    apply SM.bind_congr'
    intro o
    cases o with
    | none => cases cons <;> rfl
    | some b =>
      simp only [shlB_ok hw, SM.lift_ok_bind]
      rw [show ((1 : BitVec w) <<< k) <<< 1 = (1 : BitVec w) <<< (k + 1) by rw [BitVec.shiftLeft_add], ih, ih, SM.bind_assoc]
      apply SM.bind_congr'
      intro o
      cases o with
      | none => rfl
      | some x =>
        simp only [SM.pure_bind']
        congr 2
        cases b
        · simp [BitVec.shiftLeft_add, Nat.add_comm k 1]
        · simp only [↓reduceIte]
          rw [show (0 : BitVec w) ||| 1 = 1 from BitVec.zero_or, BitVec.shiftLeft_or_distrib, ← BitVec.shiftLeft_add, Nat.add_comm 1 k, BitVec.or_assoc]

theorem readIntLoop_split (c : Cfg) (R : BitRead σ) (hw : 1 < w) (a b k : Nat) (r : BitVec w) (cons : Bool) :
    readIntLoop c R (a + b) r ((1 : BitVec w) <<< k) cons = (do
      match ← readIntLoop c R a r ((1 : BitVec w) <<< k) cons with
      | some lo => readIntLoop c R b lo ((1 : BitVec w) <<< (k + a)) (cons || decide (a ≠ 0))
      | none => pure none) := by
  induction a generalizing k r cons with
  | zero => rw [Nat.zero_add, readIntLoop, SM.pure_bind']; simp
  | succ a ih =>
    rw [show a + 1 + b = a + b + 1 by omega, readIntLoop, readIntLoop, SM.bind_assoc]
    apply SM.bind_congr'
    intro o
    cases o with
    | none => cases cons <;> rfl
    | some x =>
      simp only [shlB_ok hw, SM.lift_ok_bind]
      rw [show ((1 : BitVec w) <<< k) <<< 1 = (1 : BitVec w) <<< (k + 1) by rw [BitVec.shiftLeft_add], ih]
      apply SM.bind_congr'
      intro o
      cases o with
      | none => rfl
      | some lo => simp [show k + 1 + a = k + (a + 1) by omega]

/-- C154: `read_int` in two pieces, for every source (also one that fails or panics) and every outcome. -/
theorem C154_read (c : Cfg) (R : BitRead σ) (hw : 1 < w) {a : Nat} (ha : a < w) (b : Nat) :
    readInt c R w (a + b) = readTwo c R w a b := by
  have h := readIntLoop_split c R hw a b 0 0 false
  rw [BitVec.shiftLeft_zero] at h
  rw [readInt, h, readTwo, readInt]
  apply SM.bind_congr'
  intro o
  cases o with
  | none => rfl
  | some lo =>
    simp only [Nat.zero_add, Bool.false_or]
    rw [readIntLoop_fresh c R hw]
    apply SM.bind_congr'
    intro o
    cases o with
    | none => by_cases h : a = 0 <;> simp [h]
    | some hi => simp only [shlB_ok ha, SM.lift_ok_bind]

/-- The rest of the loop of `read_int_be` in terms of a fresh call. -/
theorem readIntBeLoop_fresh (c : Cfg) (R : BitRead σ) (hw : 1 < w) (n : Nat) (r : BitVec w) (cons : Bool) :
    readIntBeLoop c R n r cons = (do
      match ← readIntBe c R w n with
      | some x => pure (some (r <<< n ||| x))
      | none => if cons then outOfBits else pure none) := by
  induction n generalizing r cons with
  | zero => rw [readIntBe, readIntBeLoop, readIntBeLoop, SM.pure_bind']; simp
  | succ n ih =>
    rw [readIntBe, readIntBeLoop, readIntBeLoop, SM.bind_assoc]
    apply SM.bind_congr'
    intro o
    cases o with
    | none => cases cons <;> rfl
    | some b =>
      simp only [shlB_ok hw, SM.lift_ok_bind]
      rw [ih, ih, SM.bind_assoc]
      apply SM.bind_congr'
      intro o
      cases o with
      | none => rfl
      | some x =>
        simp only [SM.pure_bind']
        congr 2
        cases b
        · simp [← BitVec.shiftLeft_add, Nat.add_comm n 1]
        · simp only [↓reduceIte]
          rw [show (0 : BitVec w) <<< 1 ||| 1 = 1 by simp, BitVec.shiftLeft_or_distrib, ← BitVec.shiftLeft_add, Nat.add_comm 1 n, BitVec.or_assoc]

theorem readIntBeLoop_split (c : Cfg) (R : BitRead σ) (hw : 1 < w) (a b : Nat) (r : BitVec w) (cons : Bool) :
    readIntBeLoop c R (a + b) r cons = (do
      match ← readIntBeLoop c R a r cons with
      | some hi => readIntBeLoop c R b hi (cons || decide (a ≠ 0))
      | none => pure none) := by
  induction a generalizing r cons with
  | zero => rw [Nat.zero_add, readIntBeLoop, SM.pure_bind']; simp
  | succ a ih =>
    rw [show a + 1 + b = a + b + 1 by omega, readIntBeLoop, readIntBeLoop, SM.bind_assoc]
    apply SM.bind_congr'
    intro o
    cases o with
    | none => cases cons <;> rfl
    | some x =>
      simp only [shlB_ok hw, SM.lift_ok_bind]
      rw [ih]
      apply SM.bind_congr'
      intro o
      cases o with
      | none => rfl
      | some lo => simp

/-- C154: `read_int_be` in two pieces, for every source and every outcome. -/
theorem C154_read_be (c : Cfg) (R : BitRead σ) (hw : 1 < w) (a : Nat) {b : Nat} (hb : b < w) :
    readIntBe c R w (a + b) = readTwoBe c R w a b := by
  rw [readIntBe, readIntBeLoop_split c R hw a b, readTwoBe, readIntBe]
  apply SM.bind_congr'
  intro o
  cases o with
  | none => rfl
  | some hi =>
    simp only [Bool.false_or]
    rw [readIntBeLoop_fresh c R hw]
    apply SM.bind_congr'
    intro o
    cases o with
    | none => by_cases h : a = 0 <;> simp [h]
    | some lo => simp only [shlB_ok hb, SM.lift_ok_bind]

/-- C154: `get_bits` in two pieces, for every bit vector that keeps the contract. -/
theorem C154_get_bits (c : Cfg) {R : S → List Bool → Prop} {o : BitVecOps w S} (hl : BVLaw c o R) {s : S} {bits : List Bool}
    (hR : R s bits) {p a b : Nat} (ha : 1 ≤ a) (hb : 1 ≤ b) (hab : a + b ≤ w) (hp : p + (a + b) ≤ bits.length) :
    ∃ x, o.getBits s p (a + b) = .ok x ∧ getTwo c o s p a b = .ok x := by
  refine ⟨_, hl.getBits hR p (a + b) (by omega) hab hp, ?_⟩
  rw [getTwo, hl.getBits hR p a ha (by omega) (by omega), Res.ok_bind, hl.getBits hR (p + a) b hb (by omega) (by omega),
    Res.ok_bind, shlB_ok (by omega), Res.ok_bind]
  congr 1
  rw [show (bits.drop p).take (a + b) = (bits.drop p).take a ++ (bits.drop (p + a)).take b by
    rw [List.take_add, List.drop_drop]]
  have hlen : ((bits.drop p).take a).length = a := by rw [List.length_take, List.length_drop]; omega
  apply BitVec.eq_of_getLsbD_eq
  intro i hi
  rw [BitVec.getLsbD_or, BitVec.getLsbD_shiftLeft]
  simp only [BitVec.getLsbD_ofNat, hi, decide_true, Bool.true_and, testBit_bitsVal, List.getElem?_append, hlen]
  by_cases h : i < a
  · simp [h]
  · rw [if_neg h, List.getElem?_eq_none (l := (bits.drop p).take a) (by omega)]
    simp [h, show i - a < w by omega]

/-- C154: `set_bits` in two pieces leaves the same contents, for every bit vector that keeps the contract. -/
theorem C154_set_bits (c : Cfg) {R : S → List Bool → Prop} {o : BitVecMutOps w S} (hm : BVWriteLaw o R) {s : S} {bits : List Bool}
    (hR : R s bits) {p a b : Nat} (ha : 1 ≤ a) (hb : 1 ≤ b) (hab : a + b ≤ w) (hp : p + (a + b) ≤ bits.length) (v : BitVec w) :
    ∃ s1 s2 bits', o.setBits s p (a + b) v = .ok s1 ∧ setTwo c o s p a b v = .ok s2 ∧ R s1 bits' ∧ R s2 bits' := by
  obtain ⟨s1, h1, h2⟩ := hm.setBits hR p (a + b) v (by omega) hab hp
  obtain ⟨s2, h3, h4⟩ := hm.setBits hR p a v ha (by omega) (by omega)
  have hlen : (overwrite bits p (natBits a v.toNat)).length = bits.length := length_overwrite (by rw [length_natBits]; omega)
  obtain ⟨s3, h5, h6⟩ := hm.setBits h4 (p + a) b (v >>> a) hb (by omega) (by rw [hlen]; omega)
  refine ⟨s1, s3, _, h1, ?_, h2, ?_⟩
  · rw [setTwo, h3, Res.ok_bind, shrB_ok (by omega), Res.ok_bind, h5]
  · rwa [show overwrite (overwrite bits p (natBits a v.toNat)) (p + a) (natBits b (v >>> a).toNat) =
      overwrite bits p (natBits (a + b) v.toNat) from ?_] at h6
    apply List.ext_getElem?
    intro i
    rw [getElem?_overwrite (by rw [hlen, length_natBits]; omega), getElem?_overwrite (by rw [length_natBits]; omega),
      getElem?_overwrite (by rw [length_natBits]; omega), natBits_add_shr, BitVec.toNat_ushiftRight, Nat.shiftRight_eq_div_pow]
    simp only [List.length_append, length_natBits, List.getElem?_append]
    by_cases h7 : p ≤ i ∧ i < p + a
    · rw [if_neg (by omega), if_pos h7, if_pos (by omega), if_pos (by omega)]
    · by_cases h8 : p + a ≤ i ∧ i < p + a + b
      · rw [if_pos h8, if_pos (by omega), if_neg (by omega), Nat.sub_sub]
      · rw [if_neg h8, if_neg h7, if_neg (by omega)]

/-- C154 for `BitVector`: the same vector, blocks and all. -/
theorem C154_bit_vector (c : Cfg) (h : IsBlk w) {s : VB w} {bits : List Bool} (hs : BvReach c w s bits) {p a b : Nat} (ha : 1 ≤ a)
    (hb : 1 ≤ b) (hab : a + b ≤ w) (hp : p + (a + b) ≤ bits.length) (v : BitVec w) :
    (∃ x, (bvBitVec c w).getBits s p (a + b) = .ok x ∧ getTwo c (bvBitVec c w) s p a b = .ok x) ∧
    ∃ s', (bvBitVecMut c w).setBits s p (a + b) v = .ok s' ∧ setTwo c (bvBitVecMut c w) s p a b v = .ok s' := by
  refine ⟨C154_get_bits c (bv_law c h) (hs.rep h) ha hb hab hp, ?_⟩
  obtain ⟨s1, s2, bits', h1, h2, h3, h4⟩ := C154_set_bits c (bv_mut_law c h).write (hs.rep h) ha hb hab hp v
  exact ⟨s1, h1, by rw [h2, h3.eq_of_bits Nat.one_pos h4]⟩

/-- C154: why `write_int_be` excludes a signed type in full width: in one piece `-128i8` is written wrongly (C52), in two
pieces correctly. -/
theorem C154_write_be_signed (c : Cfg) :
    writeIntBe c true dequeWrite 8 (0x80#8) [] = .ok (.ok (), List.replicate 8 true) ∧
    writeTwoBe c true dequeWrite 4 4 (0x80#8) [] = .ok (.ok (), true :: List.replicate 7 false) := by
  rcases c with ⟨d, p, a⟩
  constructor
  · rw [C52_signed_full_width _ dequeWrite (by decide)]; decide
  · cases d <;> cases p <;> cases a <;> decide

end Succinct
