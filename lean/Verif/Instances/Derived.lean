import Verif.Instances.Data
import Verif.Props.Derived
/-! `Verif.Props.Derived`: each theorem applied to concrete data, see `Verif.Instances.Data`. -/
namespace Succinct.Ex
open Succinct Spec

theorem hasher_bytes (x : List (BitVec 8)) (m : HashCall) :
    x ++ m.bytes cfg .little = List.foldl (fun x b => x ++ [b]) x (m.bytes cfg .little) := by
  generalize m.bytes cfg .little = l
  induction l generalizing x with
  | nil => simp
  | cons b l ih => rw [List.foldl_cons, ← ih, List.append_assoc]; rfl

example := C85_bit_vector (w := 8) (bs := bits) (bt := bits') (c := cfg) (h := by conc) (T := .big) (s := bv) (t := bv')
    (hs := by conc) (ht := by conc)
example := C85_bit_vector_bytes (w := 8) (bits := bits) (H := List (BitVec 8)) (c := cfg) (h := by conc) (T := .little)
    (s := bv) (hs := by conc) (K := ⟨fun x m => x ++ m.bytes cfg .little, List.length⟩) (upd := fun x b => x ++ [b])
    (hK := hasher_bytes) (x := [])
example := C85_int_vector (w := 8) (k := 3) (xs := ints) (k' := 5) (ys := ints') (c := cfg) (h := by conc) (T := .big)
    (s := iv) (t := iv') (hs := by conc) (ht := by conc)
example := C85_int_vector_bytes (w := 8) (k := 3) (xs := ints) (H := List (BitVec 8)) (c := cfg) (h := by conc)
    (T := .little) (s := iv) (hs := by conc) (K := ⟨fun x m => x ++ m.bytes cfg .little, List.length⟩)
    (upd := fun x b => x ++ [b]) (hK := hasher_bytes) (x := [])
example := C86_address_order (w := 8) (c := cfg) (h := by conc) (i := 13) (j := 17) (a := ⟨1, 5⟩) (b := ⟨2, 1⟩)
    (ha := by conc) (hb := by conc)
example := C87_exact (w := 8) (bs := bits) (bt := bits') (c := cfg) (h := by conc) (s := bv) (t := bv') (hs := by conc)
    (ht := by conc)
/-- The first eight and the last eight bits of the ten, in bytes and in `u16`. -/
example := C87_one_block_partial cfg rel isBlk8 isBlk16 (bs := bits.take 8) (bt := bits.drop 2) (s := ⟨8, [0x4d#8]⟩) (t := ⟨8, [0xd3#8]⟩)
  (s' := ⟨8, [0x4d#16]⟩) (t' := ⟨8, [0xd3#16]⟩)
  ((C120_bit_vector _ isBlk8 _ _).2 ⟨by decide, rfl, by decide⟩) ((C120_bit_vector _ isBlk8 _ _).2 ⟨by decide, rfl, by decide⟩)
  ((C120_bit_vector _ isBlk16 _ _).2 ⟨by decide, rfl, by decide⟩) ((C120_bit_vector _ isBlk16 _ _).2 ⟨by decide, rfl, by decide⟩)
  (by decide) (by decide)
example := C88_exact (w := 8) (k := 3) (xs := ints) (k' := 5) (ys := ints') (c := cfg) (h := by conc) (s := iv) (t := iv')
    (hs := by conc) (ht := by conc)
example := C88_lexicographic_partial (w := 8) (xs := [200, 7]) (ys := [200, 7]) (c := cfg) (h := by conc) (s := iv8)
    (t := iv8) (hs := by conc) (ht := by conc) (hl := by conc)

end Succinct.Ex
