import Verif.Props.BitVector
import Verif.Props.IntVector
import Verif.Props.Slice
/-! Property C143: the order of writes matters only where they overlap. -/
namespace Succinct
open Spec

/-- A write: from position `pos` on the bits `bits`. -/
structure Spec.Write where
  pos : Nat
  bits : List Bool

/-- What a write puts at position `i`, if anything. -/
def Spec.Write.at (x : Write) (i : Nat) : Option Bool := if x.pos ≤ i then x.bits[i - x.pos]? else none

/-- What the last of the writes that reach position `i` puts there. -/
def Spec.lastAt (xs : List Write) (i : Nat) : Option Bool := xs.reverse.findSome? (·.at i)

/-- The two writes have no position in common. -/
def Spec.Write.Apart (x y : Write) : Prop := ∀ i, x.at i = none ∨ y.at i = none

/-- The writing methods of `BitVecMut`. -/
inductive WriteCall (w : Nat)
  | bit (i : Nat) (v : Bool)
  | bits (p n : Nat) (v : BitVec w)
  | block (i : Nat) (v : BitVec w)

/-- A call. -/
def WriteCall.run (o : BitVecMutOps w S) : WriteCall w → S → Res S
  | .bit i v, s => o.setBit s i v
  | .bits p n v, s => o.setBits s p n v
  | .block i v, s => o.setBlock s i v

/-- One call after the other. -/
def writeCalls (o : BitVecMutOps w S) : List (WriteCall w) → S → Res S
  | [], s => .ok s
  | x :: xs, s => do
    let s ← x.run o s
    writeCalls o xs s

/-- What a call writes into a vector of `len` bits. -/
def WriteCall.asWrite (len : Nat) : WriteCall w → Write
  | .bit i v => ⟨i, [v]⟩
  | .bits p n v => ⟨p, natBits n v.toNat⟩
  | .block i v => ⟨i * w, (blockBits v).take (len - i * w)⟩

/-- The call is within the contract for a vector of `len` bits. -/
def WriteCall.Ok (len : Nat) : WriteCall w → Prop
  | .bit i _ => i < len
  | .bits p n _ => 1 ≤ n ∧ n ≤ w ∧ p + n ≤ len
  | .block i _ => i < blocksFor w len

/-- The call is not `set_block`. -/
def WriteCall.NoBlock : WriteCall w → Prop
  | .block _ _ => False
  | _ => True

theorem lastAt_cons (x : Write) (xs : List Write) (i : Nat) : lastAt (x :: xs) i = (lastAt xs i).or (x.at i) := by
  rw [lastAt, lastAt, List.reverse_cons, List.findSome?_append]
  cases h : x.at i <;> simp [h]

theorem Write.at_overwrite (x : Write) {bits : List Bool} (h : x.pos + x.bits.length ≤ bits.length) (i : Nat) :
    (overwrite bits x.pos x.bits)[i]? = (x.at i).or bits[i]? := by
  rw [getElem?_overwrite h, Write.at]
  by_cases h1 : x.pos ≤ i
  · by_cases h2 : i < x.pos + x.bits.length
    · rw [if_pos ⟨h1, h2⟩, if_pos h1, List.getElem?_eq_getElem (by omega)]; rfl
    · rw [if_neg (by omega), if_pos h1, List.getElem?_eq_none (l := x.bits) (by omega)]; rfl
  · rw [if_neg (by omega), if_neg h1]; rfl

theorem WriteCall.asWrite_le {len : Nat} {x : WriteCall w} (hw : 0 < w) (h : x.Ok len) :
    (x.asWrite len).pos + (x.asWrite len).bits.length ≤ len := by
  cases x with
  | bit i v => exact h
  | bits p n v => simp only [asWrite, length_natBits]; exact h.2.2
  | block i v =>
    have := (lt_blocksFor hw).1 h
    simp only [asWrite, List.length_take]
    omega

theorem overwrite_single {bits : List Bool} {i : Nat} {v : Bool} (h : i < bits.length) : overwrite bits i [v] = bits.set i v := by
  rw [overwrite, List.set_eq_take_append_cons_drop, if_pos h]
  simp

/-- One call, if it is within the contract, makes the write it stands for. -/
def Performs (o : BitVecMutOps w S) (R : S → List Bool → Prop) (x : WriteCall w) : Prop :=
  ∀ {s bits}, R s bits → x.Ok bits.length →
    ∃ s', x.run o s = .ok s' ∧ R s' (overwrite bits (x.asWrite bits.length).pos (x.asWrite bits.length).bits)

theorem performs {c : Cfg} {o : BitVecMutOps w S} {R : S → List Bool → Prop} (hm : BVMutLaw c o R) (x : WriteCall w) : Performs o R x := by
  intro s bits hR hok
  cases x with
  | bit i v =>
    obtain ⟨s', h1, h2⟩ := hm.setBit hR i v hok
    refine ⟨s', h1, ?_⟩
    rwa [show overwrite bits (WriteCall.asWrite bits.length (.bit i v : WriteCall w)).pos (WriteCall.asWrite bits.length (.bit i v : WriteCall w)).bits =
      bits.set i v from overwrite_single hok]
  | bits p n v => exact hm.setBits hR p n v hok.1 hok.2.1 hok.2.2
  | block i v => exact hm.setBlock hR i v hok

theorem performs_span {o : BitVecMutOps w S} {R : S → List Bool → Prop} (hm : BVWriteLaw o R) (x : WriteCall w) (hx : x.NoBlock) : Performs o R x := by
  intro s bits hR hok
  cases x with
  | bit i v =>
    obtain ⟨s', h1, h2⟩ := hm.setBit hR i v hok
    refine ⟨s', h1, ?_⟩
    rwa [show overwrite bits (WriteCall.asWrite bits.length (.bit i v : WriteCall w)).pos (WriteCall.asWrite bits.length (.bit i v : WriteCall w)).bits =
      bits.set i v from overwrite_single hok]
  | bits p n v => exact hm.setBits hR p n v hok.1 hok.2.1 hok.2.2
  | block i v => exact hx.elim

theorem writeCalls_ok (hw : 0 < w) {o : BitVecMutOps w S} {R : S → List Bool → Prop} (xs : List (WriteCall w))
    (hp : ∀ x ∈ xs, Performs o R x) {s : S} {bits : List Bool} (hR : R s bits) (hok : ∀ x ∈ xs, x.Ok bits.length) :
    ∃ s' bits', writeCalls o xs s = .ok s' ∧ R s' bits' ∧ bits'.length = bits.length ∧
      ∀ i, bits'[i]? = (lastAt (xs.map (·.asWrite bits.length)) i).or bits[i]? := by
  induction xs generalizing s bits with
  | nil => exact ⟨s, bits, rfl, hR, rfl, fun i => rfl⟩
  | cons x xs ih =>
    obtain ⟨s1, h1, h2⟩ := hp x List.mem_cons_self hR (hok x List.mem_cons_self)
    have hle := WriteCall.asWrite_le hw (hok x List.mem_cons_self)
    have hl := length_overwrite hle
    obtain ⟨s', bits', h3, h4, h5, h6⟩ := ih (fun y hy => hp y (List.mem_cons_of_mem _ hy)) h2
      (fun y hy => by rw [hl]; exact hok y (List.mem_cons_of_mem _ hy))
    refine ⟨s', bits', ?_, h4, by rw [h5, hl], fun i => ?_⟩
    · show (x.run o s >>= fun s => writeCalls o xs s) = _
      rw [h1]
      exact h3
    · rw [h6, hl, Write.at_overwrite _ hle, List.map_cons, lastAt_cons, Option.or_assoc]

theorem Write.Apart.symm {x y : Write} (h : x.Apart y) : y.Apart x := fun i => (h i).symm

theorem lastAt_perm {xs ys : List Write} (hp : xs.Perm ys) (hd : xs.Pairwise Write.Apart) (i : Nat) : lastAt xs i = lastAt ys i := by
  induction hp with
  | nil => rfl
  | cons x _ ih => rw [lastAt_cons, lastAt_cons, ih (List.pairwise_cons.1 hd).2]
  | swap x y l =>
    rw [lastAt_cons, lastAt_cons, lastAt_cons, lastAt_cons, Option.or_assoc, Option.or_assoc]
    have := (List.pairwise_cons.1 hd).1 x List.mem_cons_self i
    rcases this with h | h <;> simp [h]
  | trans h1 _ ih1 ih2 => rw [ih1 hd, ih2 ((h1.pairwise_iff fun h => Write.Apart.symm h).1 hd)]

/-- C143, the last write wins, on every vector that keeps the contract (`set_block` only on those that keep its contract as well):
after any sequence of writes within the contract each bit is what the last write that reaches it has put there, or what it was. -/
theorem C143_last_wins (h : IsBlk w) {c : Cfg} {o : BitVecMutOps w S} {R : S → List Bool → Prop} (xs : List (WriteCall w))
    (hm : BVMutLaw c o R ∨ BVWriteLaw o R ∧ ∀ x ∈ xs, x.NoBlock) {s : S} {bits : List Bool} (hR : R s bits)
    (hok : ∀ x ∈ xs, x.Ok bits.length) :
    ∃ s' bits', writeCalls o xs s = .ok s' ∧ R s' bits' ∧ bits'.length = bits.length ∧
      ∀ i, bits'[i]? = (lastAt (xs.map (·.asWrite bits.length)) i).or bits[i]? := by
  refine writeCalls_ok h.pos xs (fun x hx => ?_) hR hok
  rcases hm with hm | ⟨hm, hb⟩
  · exact performs hm x
  · exact performs_span hm x (hb x hx)

/-- C143: two sequences of writes with the same last writes leave the same contents. -/
theorem C143_same (h : IsBlk w) {c : Cfg} {o : BitVecMutOps w S} {R : S → List Bool → Prop} (xs ys : List (WriteCall w))
    (hm : BVMutLaw c o R ∨ BVWriteLaw o R ∧ ∀ x ∈ xs ++ ys, x.NoBlock) {s : S} {bits : List Bool} (hR : R s bits)
    (hx : ∀ x ∈ xs, x.Ok bits.length) (hy : ∀ x ∈ ys, x.Ok bits.length)
    (hl : ∀ i < bits.length, lastAt (xs.map (·.asWrite bits.length)) i = lastAt (ys.map (·.asWrite bits.length)) i) :
    ∃ s1 s2 bits', writeCalls o xs s = .ok s1 ∧ writeCalls o ys s = .ok s2 ∧ R s1 bits' ∧ R s2 bits' := by
  obtain ⟨s1, b1, h1, h2, h3, h4⟩ := C143_last_wins h xs
    (hm.imp id fun h => ⟨h.1, fun x hx => h.2 x (List.mem_append_left _ hx)⟩) hR hx
  obtain ⟨s2, b2, h5, h6, h7, h8⟩ := C143_last_wins h ys
    (hm.imp id fun h => ⟨h.1, fun x hx => h.2 x (List.mem_append_right _ hx)⟩) hR hy
  refine ⟨s1, s2, b1, h1, h5, h2, ?_⟩
  rwa [show b1 = b2 from ?_]
  apply List.ext_getElem?
  intro i
  rcases Nat.lt_or_ge i bits.length with hi | hi
  · rw [h4, h8, hl i hi]
  · rw [List.getElem?_eq_none (by omega), List.getElem?_eq_none (by omega)]

/-- C143: writes that do not overlap may be made in any order. -/
theorem C143_any_order (h : IsBlk w) {c : Cfg} {o : BitVecMutOps w S} {R : S → List Bool → Prop} (xs ys : List (WriteCall w))
    (hp : xs.Perm ys) (hm : BVMutLaw c o R ∨ BVWriteLaw o R ∧ ∀ x ∈ xs, x.NoBlock) {s : S} {bits : List Bool} (hR : R s bits)
    (hok : ∀ x ∈ xs, x.Ok bits.length) (hd : xs.Pairwise fun x y => (x.asWrite bits.length).Apart (y.asWrite bits.length)) :
    ∃ s1 s2 bits', writeCalls o xs s = .ok s1 ∧ writeCalls o ys s = .ok s2 ∧ R s1 bits' ∧ R s2 bits' := by
  exact C143_same h xs ys
    (hm.imp id fun h => ⟨h.1, fun x hx => h.2 x ((List.mem_append.1 hx).elim id fun hx => hp.mem_iff.2 hx)⟩) hR hok
    (fun x hx => hok x (hp.mem_iff.2 hx)) fun i _ => lastAt_perm (hp.map _) (List.pairwise_map.2 hd) i

/-- C143 for `BitVector`: the vectors are then equal, blocks and all. -/
theorem C143_bit_vector (h : IsBlk w) {c : Cfg} (xs ys : List (WriteCall w)) {s : VB w} (hr : BvReach c w s bits)
    (hx : ∀ x ∈ xs, x.Ok bits.length) (hy : ∀ x ∈ ys, x.Ok bits.length)
    (hl : ∀ i < bits.length, lastAt (xs.map (·.asWrite bits.length)) i = lastAt (ys.map (·.asWrite bits.length)) i) :
    ∃ s', writeCalls (bvBitVecMut c w) xs s = .ok s' ∧ writeCalls (bvBitVecMut c w) ys s = .ok s' := by
  obtain ⟨s1, s2, b, h1, h2, h3, h4⟩ := C143_same h xs ys (.inl (bv_mut_law c h)) (hr.rep h) hx hy hl
  exact ⟨s1, h1, by rw [h2, h3.eq_of_bits Nat.one_pos h4]⟩

/-- `IntVector::set`, one call after the other. -/
def setCalls (c : Cfg) : List (Nat × BitVec w) → IV w → Res (IV w)
  | [], s => .ok s
  | x :: xs, s => do
    let s ← s.set c x.1 x.2
    setCalls c xs s

theorem setCalls_ok (h : IsBlk w) {c : Cfg} (ops : List (Nat × BitVec w)) {s : IV w} {xs : List Nat} (hR : IR c w k s xs)
    (hok : ∀ x ∈ ops, x.1 < xs.length ∧ x.2.toNat < 2 ^ k) :
    ∃ s' xs', setCalls c ops s = .ok s' ∧ IR c w k s' xs' ∧ xs'.length = xs.length ∧
      ∀ i < xs.length, xs'[i]? = ((ops.reverse.find? (·.1 = i)).map (·.2.toNat)).or xs[i]? := by
  induction ops generalizing s xs with
  | nil => exact ⟨s, xs, rfl, hR, rfl, fun i _ => rfl⟩
  | cons x ops ih =>
    obtain ⟨h1, h2⟩ := hok x List.mem_cons_self
    obtain ⟨s1, h3, h4⟩ := hR.set_ok h h1 h2
    obtain ⟨s', xs', h5, h6, h7, h8⟩ := ih h4 (fun y hy => by rw [List.length_set]; exact hok y (List.mem_cons_of_mem _ hy))
    rw [List.length_set] at h7 h8
    refine ⟨s', xs', ?_, h6, h7, fun i hi => ?_⟩
    · show (s.set c x.1 x.2 >>= fun s => setCalls c ops s) = _
      rw [h3]
      exact h5
    · rw [h8 i hi, List.reverse_cons, List.find?_append]
      cases h9 : ops.reverse.find? (·.1 = i) with
      | some y => rfl
      | none =>
        by_cases h10 : x.1 = i
        · simp [h10, hi]
        · simp [h10]

/-- C143 for the elements of an `IntVector`: after any sequence of calls of `set` within the contract each element is what the last
call that names it has set, or what it was; and two sequences in which the last calls are the same leave equal vectors. -/
theorem C143_int_vector (h : IsBlk w) {c : Cfg} (ops ops' : List (Nat × BitVec w)) {s : IV w} (hr : IvReach c w k s xs)
    (hok : ∀ x ∈ ops, x.1 < xs.length ∧ x.2.toNat < 2 ^ k) (hok' : ∀ x ∈ ops', x.1 < xs.length ∧ x.2.toNat < 2 ^ k)
    (hl : ∀ i < xs.length, ops.reverse.find? (·.1 = i) = ops'.reverse.find? (·.1 = i)) :
    ∃ s', setCalls c ops s = .ok s' ∧ setCalls c ops' s = .ok s' ∧ s'.len = s.len ∧ s'.elementBits = k ∧
      ∀ i < xs.length, s'.get c i = match ops.reverse.find? (·.1 = i) with | some x => .ok x.2 | none => s.get c i := by
  have hR := hr.rep h
  obtain ⟨s1, xs1, h1, h2, h3, h4⟩ := setCalls_ok h ops hR hok
  obtain ⟨s2, xs2, h5, h6, h7, h8⟩ := setCalls_ok h ops' hR hok'
  obtain rfl : xs1 = xs2 := by
    apply List.ext_getElem?
    intro i
    rcases Nat.lt_or_ge i xs.length with hi | hi
    · rw [h4 i hi, h8 i hi, hl i hi]
    · rw [List.getElem?_eq_none (by omega), List.getElem?_eq_none (by omega)]
  refine ⟨s1, h1, ?_, ?_, h2.eb, fun i hi => ?_⟩
  · have e1 := h2.rep.eq_of_bits h2.pos h6.rep
    have e2 := h2.eb.trans h6.eb.symm
    rw [h5]
    cases s1; cases s2; simp_all
  · show s1.base.len = s.base.len
    rw [h2.len, hR.len, h3]
  · obtain ⟨y, h9, h10⟩ := h2.get_ok h (i := i) (by omega)
    have h11 := h4 i hi
    rw [List.getElem?_eq_getElem (by omega), ← h10] at h11
    rw [h9]
    cases h12 : ops.reverse.find? (·.1 = i) with
    | some x =>
      rw [h12] at h11
      injection h11 with h11
      rw [BitVec.eq_of_toNat_eq h11]
    | none =>
      obtain ⟨z, h13, h14⟩ := hR.get_ok h hi
      rw [h12, List.getElem?_eq_getElem hi, ← h14] at h11
      injection h11 with h11
      simp only [h13, BitVec.eq_of_toNat_eq h11]

/-- Three writes to a vector of 20 bits, the last two of which do not overlap, in two orders. -/
example : let c : Cfg := ⟨true, .p64, true⟩
    let s : VB 8 := ⟨20, [0, 0, 0]⟩
    writeCalls (bvBitVecMut c 8) [.block 1 0xFF#8, .bits 4 8 0xA5#8, .bit 17 true] s = .ok ⟨20, [0x50#8, 0xFA#8, 0x02#8]⟩ ∧
    writeCalls (bvBitVecMut c 8) [.block 1 0xFF#8, .bit 17 true, .bits 4 8 0xA5#8] s = .ok ⟨20, [0x50#8, 0xFA#8, 0x02#8]⟩ ∧
    writeCalls (bvBitVecMut c 8) [.bits 4 8 0xA5#8, .block 1 0xFF#8, .bit 17 true] s = .ok ⟨20, [0x50#8, 0xFF#8, 0x02#8]⟩ := by
  decide
example : lastAt [⟨8, [true, true]⟩, ⟨9, [false]⟩] 9 = some false := by decide

/-! Each theorem of this file that has hypotheses is applied to concrete data in `Verif/Instances/WriteOrder.lean`. -/

end Succinct
