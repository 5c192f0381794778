import Verif.Instances.Data
import Verif.Props.Format
/-! `Verif.Props.Format`: each theorem applied to concrete data, see `Verif.Instances.Data`. -/
namespace Succinct.Ex
open Succinct Spec

theorem bounded_appends (n : Nat) : Appends (boundedSink n) id where
  taken p t t' h := by
    simp only [boundedSink] at h
    split at h <;> cases h; rfl
  refused p t t' h := by
    simp only [boundedSink] at h
    split at h <;> cases h
    exact ⟨"", p, by simp, by simp⟩

example := C110_binary (w := 8) (bits := bits) (σ := String) (c := cfg) (h := by conc) (s := bv) (hr := by conc)
    (K := boundedSink 5) (t := "")
example := C110_debug (w := 8) (k := 3) (xs := ints) (σ := String) (c := cfg) (h := by conc) (s := iv) (hr := by conc)
    (K := boundedSink 5) (t := "")
example := C110_prefix (w := 8) (σ := String) (c := cfg) (h := by conc) (K := boundedSink 5) (log := id)
    (hK := bounded_appends 5) (t := "")
example := C111_address (a := ⟨3, 7⟩) (b := ⟨3, 7⟩) (r := ", ") (r' := ", ") (h := by conc)
example := C111_binary (w := 8) (w' := 16) (bs := bits) (bt := bits) (c := cfg) (c' := rel) (h := by conc) (h' := by conc)
    (s := bv) (t := bv16) (hs := by conc) (ht := by conc)
example := C111_bit_vector (w := 8) (bs := bits) (bt := bits') (c := cfg) (c' := rel) (h := by conc) (s := bv) (t := bv')
    (hs := by conc) (ht := by conc)
example := C111_int_vector (w := 8) (w' := 8) (k := 3) (xs := ints) (k' := 5) (ys := ints') (c := cfg) (c' := rel)
    (h := by conc) (h' := by conc) (s := iv) (t := iv') (hs := by conc) (ht := by conc)
example := C111_jacobson (inner := BV.debugText) (fun a b r r' h => C111_vectors.1 a b r r' h) isBlk8 (bv_law cfg isBlk8)
    (bv_block cfg isBlk8).toBVBlockRead ((bv_reach cfg).rep isBlk8) ((bv_reach cfg).rep isBlk8) (by decide) (by decide) jac_new jac_new
example := C111_nested (inner := (BV.debugText : VB 8 → String)) (fun a b r r' h => C111_vectors.1 a b r r' h) "BitSlice"

end Succinct.Ex
