import Verif.Instances.Data
import Verif.Props.IterCompare
/-! `Verif.Props.IterCompare`: each theorem applied to concrete data, see `Verif.Instances.Data`. -/
namespace Succinct.Ex
open Succinct Spec

example := C118_bit_hash (w := 8) (bs := bits) (bt := bits) (os := [some 1#8, some 1#8]) (it := ⟨1, 9, 1, bv⟩)
    (os' := [some 1#8, some 1#8]) (it' := ⟨1, 9, 1, bv⟩) (r := [7#8]) (r' := [7#8]) (c := cfg) (h := by conc) (T := .little)
    (s := bv) (t := bv) (hs := by conc) (ht := by conc) (ops := [.next, .nextBack]) (ops' := [.nextBack, .next])
    (h1 := by conc) (h2 := by conc) (he := by conc)
example := C118_bit_iter (w := 8) (bs := bits) (bt := bits) (os := [some 1#8, some 1#8]) (it := ⟨1, 9, 1, bv⟩)
    (os' := [some 1#8, some 1#8]) (it' := ⟨1, 9, 1, bv⟩) (c := cfg) (h := by conc) (s := bv) (t := bv) (hs := by conc)
    (ht := by conc) (ops := [.next, .nextBack]) (ops' := [.nextBack, .next]) (h1 := by conc) (h2 := by conc)
example := C118_hash (w := 8) (k := 3) (xs := ints) (k' := 3) (ys := ints) (os := [some 5#8, some 1#8])
    (it := ⟨1, 3, 3, iv.base⟩) (os' := [some 1#8, some 5#8]) (it' := ⟨1, 3, 3, iv.base⟩) (r := [7#8]) (r' := [7#8])
    (c := cfg) (h := by conc) (T := .little) (s := iv) (t := iv) (hs := by conc) (ht := by conc) (ops := [.next, .nextBack])
    (ops' := [.nextBack, .next]) (h1 := by conc) (h2 := by conc) (he := by conc)
example := C118_int_iter (w := 8) (k := 3) (xs := ints) (k' := 3) (ys := ints) (os := [some 5#8, some 1#8])
    (it := ⟨1, 3, 3, iv.base⟩) (os' := [some 1#8, some 5#8]) (it' := ⟨1, 3, 3, iv.base⟩) (c := cfg) (h := by conc) (s := iv)
    (t := iv) (hs := by conc) (ht := by conc) (ops := [.next, .nextBack]) (ops' := [.nextBack, .next]) (h1 := by conc)
    (h2 := by conc)

end Succinct.Ex
