import Verif.Instances.Data
import Verif.Props.MoveBits
/-! `Verif.Props.MoveBits`: each theorem applied to concrete data, see `Verif.Instances.Data`. -/
namespace Succinct.Ex
open Succinct Spec

/-- Nine of eleven bits over nine of ten: more than a block. -/
example := C167_copy cfg (by decide) (o := bvBitVecMut cfg 8) (bv_law cfg isBlk8) (bv_mut_law cfg isBlk8).write (bv_law cfg isBlk8)
  ((bv_reach' cfg).rep isBlk8) ((bv_reach cfg).rep isBlk8) (d := 1) (p := 2) (n := 9) (by decide) (by decide)

example := C167_move cfg (by decide) (o := bvBitVecMut cfg 8) (bv_law cfg isBlk8) (bv_mut_law cfg isBlk8).write ((bv_reach cfg).rep isBlk8)
  (d := 1) (p := 0) (n := 9) (by decide) (by decide)

/-- Within a slice of the vector. -/
example := C167_move cfg (by decide) (o := sliceBitVecMut cfg (bvBitVecMut cfg 8)) (slice_law isBlk8 (bv_law cfg isBlk8))
  (slice_write_law isBlk8 (bv_law cfg isBlk8) (bv_mut_law cfg isBlk8).write) (s := sl) (bits := slBits) (by conc) (d := 1) (p := 0) (n := 4)
  (by decide) (by decide)

example := C167_insert cfg (by decide) (o := bvBitVecPush cfg 8) (bv_law cfg isBlk8) (bv_mut_law cfg isBlk8).write (bv_push_law cfg isBlk8)
  ((bv_reach cfg).rep isBlk8) (by decide) (i := 1) (by decide) true

example := C167_remove cfg (by decide) (o := bvBitVecPush cfg 8) (bv_law cfg isBlk8) (bv_mut_law cfg isBlk8).write (bv_push_law cfg isBlk8)
  ((bv_reach cfg).rep isBlk8) (i := 0) (by decide)

example := C167_bit_vector rel isBlk8 (bv_reach rel)

/-- The direction matters: moving nine bits up by one from the start gives a wrong last bit. -/
example : moveDown cfg (bvBitVecMut cfg 8) bv 1 0 9 = .ok ⟨10, [0x9b#8, 0x00#8]⟩ ∧ moveBits cfg (bvBitVecMut cfg 8) bv 1 0 9 = .ok ⟨10, [0x9b#8, 0x02#8]⟩ := by
  have a1 : (bvBitVecMut cfg 8).getBits bv 0 (min 9 8) = .ok 0x4d#8 := by decide
  have a2 : (bvBitVecMut cfg 8).setBits bv 1 (min 9 8) 0x4d#8 = .ok ⟨10, [0x9b#8, 0x02#8]⟩ := by decide
  have a3 : (bvBitVecMut cfg 8).getBits ⟨10, [0x9b#8, 0x02#8]⟩ 8 (min 1 8) = .ok 0#8 := by decide
  have a4 : (bvBitVecMut cfg 8).setBits ⟨10, [0x9b#8, 0x02#8]⟩ 9 (min 1 8) 0#8 = .ok ⟨10, [0x9b#8, 0x00#8]⟩ := by decide
  have b1 : (bvBitVecMut cfg 8).getBits bv 1 (min 9 8) = .ok 0xa6#8 := by decide
  have b2 : (bvBitVecMut cfg 8).setBits bv 2 (min 9 8) 0xa6#8 = .ok ⟨10, [0x99#8, 0x02#8]⟩ := by decide
  have b3 : (bvBitVecMut cfg 8).getBits ⟨10, [0x99#8, 0x02#8]⟩ 0 (min 1 8) = .ok 1#8 := by decide
  have b4 : (bvBitVecMut cfg 8).setBits ⟨10, [0x99#8, 0x02#8]⟩ 1 (min 1 8) 1#8 = .ok ⟨10, [0x9b#8, 0x02#8]⟩ := by decide
  constructor
  · rw [moveDown, if_pos (by decide), a1, Res.ok_bind, a2, Res.ok_bind]
    show moveDown cfg (bvBitVecMut cfg 8) _ 9 8 1 = _
    rw [moveDown, if_pos (by decide), a3, Res.ok_bind, a4, Res.ok_bind]
    show moveDown cfg (bvBitVecMut cfg 8) _ 10 9 0 = _
    rw [moveDown, if_neg (by decide)]
  · rw [moveBits, if_neg (by decide), moveUp, if_pos (by decide), show subN cfg 64 9 (min 9 8) = .ok 1 from rfl, Res.ok_bind,
      show addN cfg 64 0 1 = .ok 1 from rfl, Res.ok_bind, show addN cfg 64 1 1 = .ok 2 from rfl, Res.ok_bind, b1, Res.ok_bind, b2, Res.ok_bind,
      moveUp, if_pos (by decide), show subN cfg 64 1 (min 1 8) = .ok 0 from rfl, Res.ok_bind, show addN cfg 64 0 0 = .ok 0 from rfl, Res.ok_bind,
      show addN cfg 64 1 0 = .ok 1 from rfl, Res.ok_bind, b3, Res.ok_bind, b4, Res.ok_bind, moveUp, if_neg (by decide)]

end Succinct.Ex
