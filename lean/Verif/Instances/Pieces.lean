import Verif.Instances.Data
import Verif.Props.Pieces
/-! `Verif.Props.Pieces`: each theorem applied to concrete data, see `Verif.Instances.Data`. -/
namespace Succinct.Ex
open Succinct Spec

example := C154_write cfg true dequeWrite (w := 16) (a := 5) (by decide) (by decide) 20 0xfffb#16
example := C154_write_be cfg false dequeWrite (w := 16) (a := 5) (b := 11) (by decide) (by decide) (by decide) (by decide)
    (by decide) 0xfffb#16
example := C154_write_be cfg true dequeWrite (w := 16) (a := 5) (b := 10) (by decide) (by decide) (by decide) (by decide)
    (by decide) 0xfffb#16
example := C154_read cfg dequeRead (w := 16) (a := 5) (by decide) (by decide) 20
example := C154_read_be rel dequeRead (w := 16) (by decide) 20 (b := 5) (by decide)
example := C154_get_bits cfg (bv_law cfg isBlk8) ((bv_reach cfg).rep isBlk8) (p := 3) (a := 2) (b := 4) (by decide) (by decide)
    (by decide) (by decide)
example := C154_set_bits cfg (bv_mut_law cfg isBlk8).write ((bv_reach cfg).rep isBlk8) (p := 3) (a := 2) (b := 4) (by decide)
    (by decide) (by decide) (by decide) 0x2d#8
example := C154_bit_vector rel isBlk8 (bv_reach rel) (p := 3) (a := 2) (b := 4) (by decide) (by decide) (by decide) (by decide)
    0x2d#8

end Succinct.Ex
