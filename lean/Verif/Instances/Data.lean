import Verif.Props.Reach
import Verif.Props.Growth
import Verif.Props.Memory
import Verif.Props.Coding
import Verif.Props.Unwind
import Verif.Props.Rank
import Verif.Props.Slice
import Verif.Props.BufferMemory
/-!
Concrete data for the modules `Verif.Instances.*`. Each of those modules applies every theorem of the property module of the
same name, with all its hypotheses proved, to data from here: no theorem is vacuous. The data are not trivial: vectors end in
the middle of a block, element widths do not divide the block, allocators can refuse.
-/
namespace Succinct.Ex
open Succinct Spec

/-- A debug build for a 64-bit target. -/
abbrev cfg : Cfg := ⟨true, .p64, true⟩
/-- A release build for a 32-bit target. -/
abbrev rel : Cfg := ⟨false, .p32, false⟩

/-- Ten bits, ending inside the second byte. -/
abbrev bits : List Bool := [true, false, true, true, false, false, true, false, true, true]
abbrev bv : VB 8 := ⟨10, [0x4d#8, 0x03#8]⟩
theorem bv_reach (c : Cfg) : BvReach c 8 bv bits :=
  (C120_bit_vector c isBlk8 _ _).2 ⟨by rcases c with ⟨_, _ | _, _⟩ <;> decide +revert, rfl, by decide⟩

/-- Eleven other bits. -/
abbrev bits' : List Bool := [true, false, true, true, false, false, true, false, true, false, true]
abbrev bv' : VB 8 := ⟨11, [0x4d#8, 0x05#8]⟩
theorem bv_reach' (c : Cfg) : BvReach c 8 bv' bits' :=
  (C120_bit_vector c isBlk8 _ _).2 ⟨by rcases c with ⟨_, _ | _, _⟩ <;> decide +revert, rfl, by decide⟩

/-- The ten bits again, in blocks of 16. -/
abbrev bv16 : VB 16 := ⟨10, [0x034d#16]⟩
theorem isBlk16 : IsBlk 16 := by decide
theorem bv16_reach (c : Cfg) : BvReach c 16 bv16 bits :=
  (C120_bit_vector c isBlk16 _ _).2 ⟨by rcases c with ⟨_, _ | _, _⟩ <;> decide +revert, rfl, by decide⟩

/-- Seventy bits in two words. -/
abbrev bits70 : List Bool := (List.range 70).map (fun i => i % 3 == 0)
abbrev bv70 : VB 64 := ⟨70, [0x9249249249249249#64, 0x24#64]⟩
theorem bv70_reach (c : Cfg) : BvReach c 64 bv70 bits70 :=
  (C120_bit_vector c isBlk64 _ _).2 ⟨by rcases c with ⟨_, _ | _, _⟩ <;> decide +revert, rfl, by decide +kernel⟩

/-- Four elements of three bits in bytes. -/
abbrev ints : List Nat := [5, 2, 7, 1]
abbrev iv : IV 8 := ⟨3, ⟨4, [0xd5#8, 0x03#8]⟩⟩
theorem iv_reach (c : Cfg) : IvReach c 8 3 iv ints :=
  (C120_int_vector c isBlk8 _ _ _).2 ⟨by decide, by decide, by decide,
    by rcases c with ⟨_, _ | _, _⟩ <;> decide +revert, rfl, rfl, by decide⟩

/-- Three elements of five bits. -/
abbrev ints' : List Nat := [21, 3, 30]
abbrev iv' : IV 8 := ⟨5, ⟨3, [0x75#8, 0x78#8]⟩⟩
theorem iv_reach' (c : Cfg) : IvReach c 8 5 iv' ints' :=
  (C120_int_vector c isBlk8 _ _ _).2 ⟨by decide, by decide, by decide,
    by rcases c with ⟨_, _ | _, _⟩ <;> decide +revert, rfl, rfl, by decide⟩

/-- Two elements of eight bits, i.e. of a whole block. -/
abbrev iv8 : IV 8 := ⟨8, ⟨2, [0xc8#8, 0x07#8]⟩⟩
theorem iv8_reach (c : Cfg) : IvReach c 8 8 iv8 [200, 7] :=
  (C120_int_vector c isBlk8 _ _ _).2 ⟨by decide, by decide, by decide,
    by rcases c with ⟨_, _ | _, _⟩ <;> decide +revert, rfl, rfl, by decide⟩

/-! What the theorems require of a sequence of calls can be decided. -/

instance decNext {o : Option α} {P : α → Prop} [∀ a, Decidable (P a)] : Decidable (∀ r, o = some r → P r) :=
  match o with
  | none => isTrue (fun _ h => nomatch h)
  | some a => decidable_of_iff (P a) ⟨fun h _ e => Option.some.inj e ▸ h, fun h => h a rfl⟩

instance (i : BvInit w) : Decidable (i.Ok usz) := by unfold BvInit.Ok; cases i <;> infer_instance
instance (i : IvInit w) : Decidable (i.Ok usz k) := by unfold IvInit.Ok; cases i <;> infer_instance
instance (op : BvOp w) : Decidable (op.Ok usz w l) := by unfold BvOp.Ok; cases op <;> infer_instance
instance (op : IvOp w) : Decidable (op.Ok usz w k l) := by unfold IvOp.Ok; cases op <;> infer_instance
instance [DecidablePred Fit] (op : BufOp) : Decidable (op.Ok Fit f) := by unfold BufOp.Ok; cases op <;> infer_instance
instance (op : CapOp w) : Decidable op.edits := by unfold CapOp.edits; cases op <;> infer_instance
instance (op : CapOp w) : Decidable (capFits c eb len op) := by unfold capFits; cases op <;> infer_instance
instance decCapOk [∀ (a : A) (op : Op), Decidable (ok a op)] (op : CapCall Op) : Decidable (op.Ok usz w eb ok len a) := by
  unfold CapCall.Ok; cases op <;> infer_instance
instance {arg : Op → Prop} [DecidablePred arg] (op : CapCall Op) : Decidable (op.Arg arg) := by unfold CapCall.Arg; cases op <;> infer_instance
instance (op : BvOp w) : Decidable (op.Arg d usz w) := by unfold BvOp.Arg; cases op <;> infer_instance
instance (op : IvOp w) : Decidable (op.Arg d usz w k) := by unfold IvOp.Arg; cases op <;> infer_instance
instance (op : BufOp) : Decidable op.Arg := by unfold BufOp.Arg; cases op <;> infer_instance
instance (i : BvInit w) : Decidable (i.Arg d) := by unfold BvInit.Arg; cases i <;> infer_instance
instance (i : IvInit w) : Decidable (i.Arg d k) := by unfold IvInit.Arg; cases i <;> infer_instance

instance decBvOps : (ops : List (BvOp w)) → (l : List Bool) → Decidable (bvOpsOk usz w l ops)
  | [], _ => isTrue trivial
  | _ :: ops, _ => by unfold bvOpsOk; have := decBvOps (usz := usz) ops; infer_instance

instance decIvOps : (ops : List (IvOp w)) → (l : List Nat) → Decidable (ivOpsOk usz w k l ops)
  | [], _ => isTrue trivial
  | _ :: ops, _ => by unfold ivOpsOk; have := decIvOps (usz := usz) (k := k) ops; infer_instance

instance decBufOps [DecidablePred Fit] : (ops : List BufOp) → (f : BitFile) → Decidable (bufOpsOk Fit f ops)
  | [], _ => isTrue trivial
  | _ :: ops, _ => by unfold bufOpsOk; have := decBufOps (Fit := Fit) ops; infer_instance

instance decCapAll {P : Nat → CapOp w → Prop} [∀ n op, Decidable (P n op)] :
    (ops : List (CapOp w)) → (n : Nat) → Decidable (capAll P n ops)
  | [], _ => isTrue trivial
  | _ :: ops, _ => by unfold capAll; have := decCapAll (P := P) ops; infer_instance

instance decCapEach {P : A → CapCall Op → Prop} {spec : A → Op → Option (O × A)} [∀ a op, Decidable (P a op)] :
    (ops : List (CapCall Op)) → (a : A) → Decidable (capEach spec P ops a)
  | [], _ => isTrue trivial
  | _ :: ops, _ => by unfold capEach; have := decCapEach (P := P) (spec := spec) ops; infer_instance

instance decSpecEach {P : A → Op → Prop} {spec : A → Op → Option (O × A)} [∀ a op, Decidable (P a op)] :
    (ops : List Op) → (a : A) → Decidable (specEach spec P ops a)
  | [], _ => isTrue trivial
  | _ :: ops, _ => by unfold specEach; have := decSpecEach (P := P) (spec := spec) ops; infer_instance

instance decCatch {ok : A → Op → Prop} {spec : A → Op → Option (O × A)} [∀ a op, Decidable (ok a op)] :
    (ops : List Op) → (a : A) → Decidable (catchOk spec ok a ops)
  | [], _ => isTrue trivial
  | _ :: ops, _ => by unfold catchOk; have := decCatch (ok := ok) (spec := spec) ops; infer_instance

/-- A vector with room for a third block. -/
abbrev cvb : CVB 8 := ⟨bv, 3, 1⟩

/-- Bits 2 to 8 of the ten, as a slice. -/
abbrev sl : Slice (VB 8) := ⟨bv, 2, 7⟩
abbrev slBits : List Bool := [true, true, false, false, true, false, true]
theorem sl_on (c : Cfg) : sliceR (bvR c 8) sl slBits := ⟨bits, ⟨(bv_reach c).rep isBlk8, by decide⟩, by decide⟩
abbrev sl70 : Slice (VB 64) := ⟨bv70, 3, 64⟩
abbrev sl70Bits : List Bool := bits70.take 64
theorem sl70_on (c : Cfg) : sliceR (bvR c 64) sl70 sl70Bits := ⟨bits70, ⟨(bv70_reach c).rep isBlk64, by decide⟩, by decide +kernel⟩

theorem fits_mono {u w : Nat} : ∀ {m n : Nat}, Fits u w n → m ≤ n → Fits u w m := fun h hm => h.mono hm

/-- `11 = 8 + 3`. -/
theorem fib11 : IsFibWord 11 [false, false, true, false, true, true] :=
  ⟨[false, false, true, false, true], ⟨by decide, by simp [NoAdj], by decide⟩, rfl⟩

/-- Elias gamma, by name. -/
abbrev gam : CodeName := .elias .unary
theorem gam_valid : gam.Valid := ⟨trivial, fun n hn => Nat.lt_trans hn (by decide)⟩
theorem gam_dom : ∀ v ∈ [5, 3], gam.Dom v := fun v hv => ⟨by revert v; decide, by revert v; decide⟩
theorem gam_dom5 : gam.Dom 5 := ⟨by decide, by decide⟩

theorem cvb_ok (c : Cfg) : CapOk c 8 1 cvb bits := ⟨(bv_reach c).rep isBlk8, by decide⟩
theorem heap_bounded : (smallHeap 3).Bounded cfg.usz 8 := fun n hn => by
  have : n ≤ 3 := by simpa [smallHeap] using hn
  exact ⟨by omega, by show n + 1 < 2 ^ 64; omega⟩
/-- A buffer over the ten bits, at bit 4. -/
abbrev buf : BitBuf (VB 8) := ⟨bv, 4⟩
theorem buf_ok (c : Cfg) : bufR (bvR c 8) buf ⟨bits, 4⟩ := ⟨(bv_reach c).rep isBlk8, rfl, by decide⟩
theorem held : HeldBuf cfg (smallHeap 3) 8 ⟨cvb, 10⟩ ⟨⟨bits, 10⟩, 3⟩ :=
  ⟨⟨⟨(bv_reach cfg).rep isBlk8, rfl⟩, rfl, by decide⟩, by decide, by decide⟩

deriving instance DecidableEq for Rank9
deriving instance DecidableEq for Jacobson

/-- The rank structure over the seventy bits. -/
abbrev r9 : Rank9 (VB 64) := ⟨bv70, [⟨0, 0x3016#64⟩]⟩
theorem r9_new : Rank9.new cfg (bvBitVec cfg 64) bv70 = .ok r9 := by decide +kernel
theorem r9_law : RankLaw (Rank9.ops cfg (bvBitVec cfg 64)) r9 bits70 := by
  obtain ⟨r, h, hr⟩ := C39_bit_vector cfg ((bv70_reach cfg).rep isBlk64) (by decide)
  obtain rfl : r9 = r := Res.ok.inj (r9_new.symm.trans h)
  exact hr

/-- The rank structure over the ten bits. -/
abbrev jac : Jacobson (VB 8) := ⟨bv, 16, ⟨4, ⟨2, [0x60#64]⟩⟩, ⟨5, ⟨3, [0x1880#64]⟩⟩⟩
theorem jac_new : Jacobson.new cfg (bvBitVec cfg 8) bv = .ok jac := by decide +kernel
theorem jac_law : RankLaw (Jacobson.ops cfg (bvBitVec cfg 8)) jac bits := by
  obtain ⟨r, h, hr⟩ := C37_bit_vector cfg isBlk8 ((bv_reach cfg).rep isBlk8) (by decide) (by decide)
  obtain rfl : jac = r := Res.ok.inj (jac_new.symm.trans h)
  exact hr

/-- Proves what the theorems assume of the data above. -/
macro "conc" : tactic => `(tactic| first
  | exact isBlk8 | exact isBlk64 | exact isBlk16
  | exact bv_reach _ | exact bv_reach' _ | exact bv70_reach _ | exact bv16_reach _
  | exact iv_reach _ | exact iv_reach' _ | exact iv8_reach _
  | exact (bv_reach _).rep isBlk8 | exact (bv_reach' _).rep isBlk8 | exact (bv70_reach _).rep isBlk64
  | exact (iv_reach _).rep isBlk8
  | exact bv_law _ isBlk8 | exact bv_law _ isBlk64
  | exact bv_block _ isBlk8 | exact bv_block _ isBlk64
  | exact (bv_block _ isBlk8).toBVBlockRead | exact (bv_block _ isBlk64).toBVBlockRead
  | exact bv_pad _ isBlk8 | exact bv_pad _ isBlk64
  | exact bv_mut_law _ isBlk8 | exact bv_mut_law _ isBlk64
  | exact (bv_mut_law _ isBlk8).write | exact bv_pushVec _ isBlk8
  | exact Alloc.amortized_lawful.1 | exact Alloc.amortized_lawful.2 | exact smallHeap_lawful _
  | exact deque_sink | exact deque_source
  | exact ⟨(bv_reach _).rep isBlk8, by decide⟩
  | exact (C62_gamma_delta _ _).2 | exact (C62_gamma_delta _ _).1
  | exact fits_mono | exact fun _ _ => trivial | exact gam_valid | exact gam_dom | exact gam_dom5 | exact cvb_ok _ | exact heap_bounded
  | exact buf_ok _ | exact held | exact fib11
  | exact sl_on _ | exact sl70_on _ | exact r9_law | exact jac_law | exact r9_new | exact jac_new
  | exact ⟨rfl, by decide, by decide⟩ | rfl | trivial | decide | (simp only [Cfg.usz, List.mem_cons, List.not_mem_nil] <;> omega)
  | decide +kernel)

end Succinct.Ex
