import Verif.Props.RandomAccess
import Verif.Props.IntVector
/-! Property C115: reading and writing integers through a `BitBuffer` and through the vectors' own methods agree. The
programs here are not in the crate; they call its `seek`, `read_int` and `write_int`. -/
namespace Succinct
open Spec

/-- `read_int(m)` at position `p`. -/
def readAt (c : Cfg) (o : BitVecOps w S) (u p m : Nat) : SM (BitBuf S) (Option (BitVec u)) := do
  BitBuf.seek o p
  readInt c (BitBuf.read c o) u m

/-- `write_int(m, x)` at position `p`. -/
def writeAt (c : Cfg) (sg : Bool) (o : BitVecPushOps w S) (p m : Nat) (x : BitVec u) : SM (BitBuf S) Unit := do
  BitBuf.seek o.toBitVecOps p
  writeInt c sg (BitBuf.write c o) m x

/-- Write integers of `m` bits one after another. -/
def writeInts (c : Cfg) (sg : Bool) (W : BitWrite σ) (m : Nat) : List (BitVec u) → SM σ Unit
  | [] => pure ()
  | x :: xs => do
    writeInt c sg W m x
    writeInts c sg W m xs

/-- Read `n` integers of `m` bits one after another. -/
def readInts (c : Cfg) (R : BitRead σ) (u m : Nat) : Nat → SM σ (List (Option (BitVec u)))
  | 0 => pure []
  | n + 1 => do
    let x ← readInt c R u m
    let xs ← readInts c R u m n
    pure (x :: xs)

theorem natBits_intVal (sg : Bool) (n : Nat) (v : BitVec u) (hn : n ≤ u) :
    natBits n ((intVal sg v) % 2 ^ n).toNat = natBits n v.toNat := by
  have e := ofNat_intVal sg v n
  have h1 : (((intVal sg v) % 2 ^ n).toNat) < 2 ^ n := by
    have : (0 : Int) < 2 ^ n := Int.pow_pos (by omega)
    have h := Int.emod_lt_of_pos (intVal sg v) this
    have h' := Int.emod_nonneg (intVal sg v) (Int.ne_of_gt this)
    have : ((2 ^ n : Nat) : Int) = 2 ^ n := by simp
    omega
  have h2 : 2 ^ n ≤ 2 ^ u := Nat.pow_le_pow_right (by omega) hn
  have h3 := congrArg BitVec.toNat e
  rw [BitVec.toNat_ofNat, BitVec.toNat_ofNat, Nat.mod_eq_of_lt (by omega),
    Nat.mod_eq_of_lt (Nat.lt_of_lt_of_le (Nat.mod_lt _ (Nat.two_pow_pos n)) h2)] at h3
  rw [h3]
  exact natBits_congr (Nat.mod_mod _ _)

theorem buf_readsAt {R : S → List Bool → Prop} {o : BitVecOps w S} (h : IsBlk w) (hl : BVLaw c o R) (hb : BVBlockLaw c o R) {s : S} {bits : List Bool}
    (hR : R s bits) (m p : Nat) (hp : p + m ≤ bits.length) :
    Reads (BitBuf.read c o) ⟨s, p⟩ ((bits.drop p).take m) ⟨s, p + m⟩ := by
  induction m generalizing p with
  | zero => exact .nil _
  | succ m ih =>
    rw [List.drop_eq_getElem_cons (by omega), List.take_succ_cons]
    refine .cons (buf_read_some h hl hb (b := ⟨s, p⟩) hR (by show p < _; omega)) ?_
    rw [show p + (m + 1) = p + 1 + m by omega]
    exact ih (p + 1) (by omega)

/-- C115: `read_int` at a position returns what `get_bits` returns there, on any lawful vector. -/
theorem C115_read (c : Cfg) {R : S → List Bool → Prop} {o : BitVecOps w S} (h : IsBlk w) (hl : BVLaw c o R) (hb : BVBlockLaw c o R) {s : S}
    {bits : List Bool} (hR : R s bits) (q : Nat) {p m : Nat} (hm : 1 ≤ m) (hmw : m ≤ w) (hp : p + m ≤ bits.length) :
    ∃ x, o.getBits s p m = .ok x ∧ readAt c o w p m ⟨s, q⟩ = .ok (.ok (some x), ⟨s, p + m⟩) := by
  refine ⟨_, hl.getBits hR p m hm hmw hp, ?_⟩
  have hs : BitBuf.seek o p ⟨s, q⟩ = .ok (.ok (), ⟨s, p⟩) := by
    show (o.bitLen s >>= fun n => if p ≤ n then _ else _) = _
    rw [hl.bitLen hR, Res.ok_bind, if_pos (by omega)]
  rw [readAt, SM.bind_run_ok hs]
  exact C51_read c _ (by have := h.ge; omega) (buf_readsAt h hl hb hR m p hp) (by rw [List.length_take, List.length_drop]; omega)

/-- C115: `write_int` at a position leaves the contents that `set_bits` leaves. -/
theorem C115_write (c : Cfg) (sg : Bool) {R : S → List Bool → Prop} {Fit : Nat → Prop} {o : BitVecPushOps w S} (hv : PushVec c w o R Fit) {s : S}
    {bits : List Bool} (hR : R s bits) {q : Nat} (hq : q ≤ bits.length) {p m : Nat} (hm : 1 ≤ m) (hmw : m ≤ w) (hp : p + m ≤ bits.length) (x : BitVec w) :
    ∃ s' b bits', o.setBits s p m x = .ok s' ∧ writeAt c sg o p m x ⟨s, q⟩ = .ok (.ok (), b) ∧
      R s' bits' ∧ R b.data bits' ∧ b.position = p + m := by
  obtain ⟨s', h1, h2⟩ := hv.upd.setBits hR p m x hm hmw hp
  obtain ⟨b0, h3, h4⟩ := (buf_seek hv.law (b := ⟨s, q⟩) (f := ⟨bits, q⟩) ⟨hR, rfl, hq⟩ p).1 (by show p ≤ bits.length; omega)
  have hsplit : bits = bits.take p ++ (bits.drop p).take m ++ bits.drop (p + m) := by
    rw [List.append_assoc, ← List.drop_drop, List.take_append_drop, List.take_append_drop]
  have hpl : (bits.take p).length = p := by rw [List.length_take]; omega
  have h4' : bufR R b0 ⟨bits.take p ++ (bits.drop p).take m ++ bits.drop (p + m), (bits.take p).length⟩ := by
    rw [← hsplit, hpl]; exact h4
  obtain ⟨b, h5, h6⟩ := buf_writeAll_over hv (natBits m x.toNat) (by rw [length_natBits, List.length_take, List.length_drop]; omega) h4'
  refine ⟨s', b, _, h1, ?_, h2, ?_, ?_⟩
  · rw [writeAt, SM.bind_run_ok h3, C51_write c sg _ (by have := hv.blk.ge; omega), natBits_intVal sg m x hmw]
    exact h5
  · have := h6.1
    rw [overwrite, length_natBits]; exact this
  · have := h6.2.1
    simp only [List.length_append, hpl, length_natBits] at this
    exact this

/-- C115 for a `BitVector`: the two ways leave the very same vector. -/
theorem C115_bit_vector (c : Cfg) (sg : Bool) (h : IsBlk w) {s : VB w} {bits : List Bool} (hs : BvReach c w s bits) {p m : Nat}
    (hm : 1 ≤ m) (hmw : m ≤ w) (hp : p + m ≤ bits.length) (x : BitVec w) :
    ∃ s', (bvBitVecPush c w).setBits s p m x = .ok s' ∧
      writeAt c sg (bvBitVecPush c w) p m x (BitBuf.from_ s) = .ok (.ok (), ⟨s', p + m⟩) ∧
      ∃ y, (bvBitVec c w).getBits s' p m = .ok y ∧ y.toNat = x.toNat % 2 ^ m ∧
        readAt c (bvBitVec c w) w p m (BitBuf.from_ s') = .ok (.ok (some y), ⟨s', p + m⟩) := by
  obtain ⟨s', b, bits', h1, h2, h3, h4, h5⟩ := C115_write c sg (bv_pushVec c h) (hs.rep h) (Nat.zero_le _) hm hmw hp x
  obtain ⟨s'', h1', h3'⟩ := (bv_mut_law c h).setBits (hs.rep h) p m x hm hmw hp
  obtain rfl : s'' = s' := Res.ok.inj (h1'.symm.trans h1)
  have hb : b = ⟨s'', p + m⟩ := by
    have e := VR.eq_of_bits Nat.one_pos h4 h3
    cases b; simp only [BitBuf.position] at h5 e; rw [e, h5]
  rw [hb] at h2
  refine ⟨s'', h1, h2, ?_⟩
  have hlen : (overwrite bits p (natBits m x.toNat)).length = bits.length := by
    simp only [overwrite, List.length_append, List.length_take, List.length_drop, length_natBits]; omega
  obtain ⟨y, h6, h7⟩ := C115_read c h (bv_law c h) (bv_block c h) h3' 0 hm hmw (by rw [hlen]; exact hp)
  refine ⟨y, h6, ?_, h7⟩
  rw [(bv_law c h).getBits h3' p m hm hmw (by rw [hlen]; exact hp)] at h6
  rw [← Res.ok.inj h6]
  have e : ((overwrite bits p (natBits m x.toNat)).drop p).take m = natBits m x.toNat := by
    have hpl : (bits.take p).length = p := by rw [List.length_take]; omega
    rw [overwrite, List.append_assoc, List.drop_append_of_le_length (by omega), List.drop_of_length_le (by omega), List.nil_append,
      List.take_append_of_le_length (by rw [length_natBits]; exact Nat.le_refl _), List.take_of_length_le (by rw [length_natBits]; exact Nat.le_refl _)]
  rw [e, bitsVal_natBits, BitVec.toNat_ofNat, Nat.mod_eq_of_lt]
  exact Nat.lt_of_lt_of_le (Nat.mod_lt _ (Nat.two_pow_pos m)) (Nat.pow_le_pow_right (by omega) hmw)

theorem writeInts_eq (c : Cfg) (sg : Bool) (W : BitWrite σ) (hu : 1 < u) {m : Nat} (hm : m ≤ u) (xs : List (BitVec u)) :
    writeInts c sg W m xs = writeAll W (xs.flatMap fun x => natBits m x.toNat) := by
  induction xs with
  | nil => rfl
  | cons x xs ih =>
    rw [writeInts, C51_write c sg W hu, natBits_intVal sg m x hm, ih, List.flatMap_cons, writeAll_append]

/-- C115: the blocks of an `IntVector` are those of a `BitVector` to which its elements were written one after
another with `write_int` of the element width (as integers of any type that can hold them). -/
theorem C115_int_vector_write (c : Cfg) (sg : Bool) (h : IsBlk w) {s : IV w} {xs : List Nat} (hs : IvReach c w k s xs) (hu : 1 < u) (hk : k ≤ u)
    {n : Nat} (hn : Fits c.usz w n) :
    ∃ b b', BitBuf.withCapacity c w n = .ok b ∧
      writeInts c sg (BitBuf.write c (bvBitVecPush c w)) k (xs.map (BitVec.ofNat u)) b = .ok (.ok (), b') ∧
      b'.data.vec = s.base.vec ∧ (bvBitVec c w).bitLen b'.data = (ivBitVec c w).bitLen s := by
  have hI := hs.rep h
  obtain ⟨b, h1, h2⟩ := (C54_constructors (c := c)).1 h n hn
  have e : (xs.map (BitVec.ofNat u)).flatMap (fun x => natBits k x.toNat) = packBits k xs := by
    have hlt := hI.lt
    rw [packBits, List.flatMap_map, List.flatMap_def, List.flatMap_def]
    congr 1
    apply List.map_congr_left
    intro x hx
    rw [BitVec.toNat_ofNat, Nat.mod_eq_of_lt (Nat.lt_of_lt_of_le (hlt x hx) (Nat.pow_le_pow_right (by omega) hk))]
  obtain ⟨b', h3, h4⟩ := (buf_sink (bv_pushVec c h)).writeAll (fun hf h => hf.mono h) (packBits k xs) h2
    (by rw [List.length_nil, Nat.zero_add]; exact hI.rep.fits)
  rw [List.nil_append] at h4
  have hb : VR c w 1 b'.data (packBits k xs) := h4.1
  refine ⟨b, b', h1, by rw [writeInts_eq c sg _ hu hk, e]; exact h3, ?_, ?_⟩
  · apply arrayBits_inj h.pos
    rw [hb.array h.pos, hI.rep.array h.pos]
  · rw [bv_bitLen c hb, (iv_law c h).bitLen hI.ivR]

/-- C115: `read_int` of the element width reads the elements of an `IntVector` in order, and then ends. -/
theorem C115_int_vector_read (c : Cfg) (h : IsBlk w) {s : IV w} {xs : List Nat} (hs : IvReach c w k s xs) (hu : 1 < u) :
    readInts c (BitBuf.read c (ivBitVec c w)) u k (xs.length + 1) (BitBuf.from_ s) =
      .ok (.ok (xs.map (fun x => some (BitVec.ofNat u x)) ++ [none]), ⟨s, xs.length * k⟩) := by
  have hI := hs.rep h
  have hlen : (packBits k xs).length = xs.length * k := length_packBits k xs
  have key : ∀ ys zs, xs = ys ++ zs → readInts c (BitBuf.read c (ivBitVec c w)) u k (zs.length + 1) ⟨s, ys.length * k⟩ =
      .ok (.ok (zs.map (fun x => some (BitVec.ofNat u x)) ++ [none]), ⟨s, xs.length * k⟩) := by
    intro ys zs hx
    induction zs generalizing ys with
    | nil =>
      rw [List.append_nil] at hx
      subst hx
      have hno := buf_read_none (iv_law c h) (b := ⟨s, xs.length * k⟩) hI.ivR (by rw [hlen]; exact Nat.le_refl _)
      have h1 := C53_read_int c (BitBuf.read c (ivBitVec c w)) hu (.nil ⟨s, xs.length * k⟩) (by rw [hno]; intro _ _ h; cases h) (n := k) (by have := hI.pos; simp; omega)
      rw [hno] at h1
      rw [List.length_nil, readInts, SM.bind_run_ok (by rw [h1]; rfl)]
      rfl
    | cons z zs ih =>
      have hl : xs.length = ys.length + (zs.length + 1) := by rw [hx, List.length_append, List.length_cons]
      have hpos : ys.length * k + k ≤ (packBits k xs).length := by
        rw [hlen, hl, Nat.add_mul, Nat.succ_mul]; omega
      have e : ((packBits k xs).drop (ys.length * k)).take k = natBits k z := by
        rw [hx, packBits, List.flatMap_append, ← packBits, ← length_packBits k ys, List.drop_left, List.flatMap_cons,
          List.take_append_of_le_length (by rw [length_natBits]; exact Nat.le_refl _), List.take_of_length_le (by rw [length_natBits]; exact Nat.le_refl _)]
      have hr := buf_readsAt h (iv_law c h) (iv_block c h) hI.ivR k (ys.length * k) hpos
      rw [e] at hr
      have h1 := C51_read c (BitBuf.read c (ivBitVec c w)) hu hr (length_natBits _ _)
      rw [bitsVal_natBits, Nat.mod_eq_of_lt (hI.lt z (by rw [hx]; simp))] at h1
      have h2 := ih (ys ++ [z]) (by rw [hx]; simp)
      rw [List.length_append, List.length_singleton, Nat.succ_mul] at h2
      rw [List.length_cons, readInts, SM.bind_run_ok h1, SM.bind_run_ok h2]
      rfl
  have := key [] xs rfl
  rw [List.length_nil, Nat.zero_mul] at this
  exact this

/-- Three elements of 5 bits: 15 bits in two blocks. -/
example : let c : Cfg := ⟨true, .p64, true⟩; ∃ s : IV 8, IvReach c 8 5 s [9, 30, 17] ∧
    readInts c (BitBuf.read c (ivBitVec c 8)) 32 5 4 (BitBuf.from_ s) =
      .ok (.ok [some 9#32, some 30#32, some 17#32, none], ⟨s, 15⟩) ∧
    ∃ b b', BitBuf.withCapacity c 8 0 = .ok b ∧
      writeInts c true (BitBuf.write c (bvBitVecPush c 8)) 5 [9#16, 30#16, 17#16] b = .ok (.ok (), b') ∧
      b'.data.vec = s.base.vec := by
  intro c
  obtain ⟨s0, -, h2⟩ := C22_int_vector_is_list c (w := 8) (k := 5) (by decide) (by decide) (by decide) .new
    [.push 9#8, .push 30#8, .push 17#8] (by simp [IvInit.Ok]) (by simp [ivOpsOk, ivSpec, IvOp.Ok, Fits, blocksFor, IvInit.elems, c, Cfg.usz])
  rw [show ivSpecRun 8 5 (IvInit.elems 5 (.new : IvInit 8)) [.push 9#8, .push 30#8, .push 17#8] =
    some ([.unit, .unit, .unit], [9, 30, 17]) by decide] at h2
  obtain ⟨s, -, hs, -⟩ := h2
  obtain ⟨b, b', h3, h4, h5, -⟩ := C115_int_vector_write c true (u := 16) (by decide) hs (by decide) (by decide) (n := 0) (by decide +kernel)
  exact ⟨s, hs, C115_int_vector_read c (by decide) hs (by decide), b, b', h3, h4, h5⟩

/-- Six bits across the boundary of two 8-bit blocks. -/
example : let c : Cfg := ⟨true, .p64, true⟩
    (bvBitVecPush c 8).setBits ⟨16, [0xFF#8, 0xFF#8]⟩ 5 6 0x15#8 = .ok ⟨16, [0xBF#8, 0xFA#8]⟩ ∧
    writeAt c false (bvBitVecPush c 8) 5 6 0x15#8 (BitBuf.from_ ⟨16, [0xFF#8, 0xFF#8]⟩) = .ok (.ok (), ⟨⟨16, [0xBF#8, 0xFA#8]⟩, 11⟩) ∧
    readAt c (bvBitVec c 8) 8 5 6 (BitBuf.from_ ⟨16, [0xBF#8, 0xFA#8]⟩) = .ok (.ok (some 0x15#8), ⟨⟨16, [0xBF#8, 0xFA#8]⟩, 11⟩) := by
  intro c
  have hs : BvReach c 8 ⟨16, [0xFF#8, 0xFF#8]⟩ (List.replicate 16 true) :=
    ⟨.blockWithFill 2 0xFF#8, [], ⟨16, [0xFF#8, 0xFF#8]⟩, [], [], show Fits 64 8 (2 * 8) by decide +kernel, trivial, by decide +kernel, rfl, by decide⟩
  obtain ⟨s', h1, h2, y, h3, h4, h5⟩ := C115_bit_vector c false (by decide) hs (p := 5) (m := 6) (by decide) (by decide) (by decide) 0x15#8
  have e : (bvBitVecPush c 8).setBits ⟨16, [0xFF#8, 0xFF#8]⟩ 5 6 0x15#8 = .ok ⟨16, [0xBF#8, 0xFA#8]⟩ := by decide +kernel
  rw [e] at h1
  obtain rfl := Res.ok.inj h1
  obtain rfl : y = 0x15#8 := BitVec.eq_of_toNat_eq h4
  exact ⟨e, h2, h5⟩

/-! Each theorem of this file that has hypotheses is applied to concrete data in `Verif/Instances/Packed.lean`. -/

end Succinct
