import Verif.Instances.Data
import Verif.Props.Coding
/-! `Verif.Props.Coding`: each theorem applied to concrete data, see `Verif.Instances.Data`. -/
namespace Succinct.Ex
open Succinct Spec

example := C59_comma (c := cfg) (n := 3) (h2 := by conc) (hn := by conc)
example := C59_roundtrip (c := cfg) (n := 3) (h2 := by conc) (hn := by conc)
example := C60_fibonacci (c := cfg) (v := 11) (h1 := by conc) (h2 := by rw [fib_93]; decide)
example := C60_too_large (c := cfg) (v := 2 ^ 64 - 1) (h1 := by rw [fib_93]; decide) (h2 := by conc) (W := dequeWrite)
    (s := bits)
example := C61_roundtrip cfg _ (C56_roundtrip cfg)
example := C62_all (c := cfg) (f := false) (K := delta cfg) (D := Pos64) (word := deltaWord)
    (h := (C62_gamma_delta cfg false).2)
example := C62_bit_buffer cfg false (C62_gamma_delta cfg false).2 (bv_pushVec cfg isBlk8) fits_mono (s := ⟨bv, 10⟩) (l := bits)
    ⟨(bv_reach cfg).rep isBlk8, rfl, by decide⟩ [5, 38, 1] (by decide) (by decide) 2
example := C62_deque (c := cfg) (f := false) (K := delta cfg) (D := Pos64) (word := deltaWord)
    (h := (C62_gamma_delta cfg false).2) (vs := [5, 38, 1]) (hv := by conc) (k := 2)
example := C62_streams cfg false (C62_gamma_delta cfg false).2 deque_sink (fun _ _ => trivial) deque_source [5, 38, 1] (by decide) 2 (s := bits) rfl trivial
example := C63_prefix_free (c := cfg) (f := false) (K := delta cfg) (D := Pos64) (word := deltaWord)
    (h := (C62_gamma_delta cfg false).2) (u := 5) (v := 5) (hu := by conc) (hv := by conc) (hp := List.prefix_rfl)
example := C63_unambiguous (c := cfg) (f := false) (K := delta cfg) (D := Pos64) (word := deltaWord)
    (h := (C62_gamma_delta cfg false).2) (us := [5, 38]) (vs := [38, 5]) (hu := by conc) (hv := by conc)
example := C64_end cfg false (C62_gamma_delta cfg false).2 (σ := List Bool)
example := C64_fibonacci cfg (v := 11) (by decide) (by rw [fib_93]; decide) fib11 (p := [false, false, true]) rfl (by decide) dequeRead
    (deque_reads [false, false, true] []) (fun _ _ h => by cases h)
example := C64_truncated_partial cfg (C62_gamma_delta cfg false).2
example := C66_comma_panics (c := cfg) (hd := by conc) (rest := bits)
example := C66_debug_partial cfg deque_source bits bits rfl
example := C66_fibonacci_panics (c := cfg) (hd := by conc) (rest := bits)
example := C66_omega_panics (c := cfg) (hd := by conc) (g := List.replicate 64 false) (rest := bits) (hg := by conc)
example := C66_release (c := rel) (hd := by conc)
example := C67_sink_failures (c := cfg) (f := false) (K := delta cfg) (D := Pos64) (word := deltaWord)
    (h := (C62_gamma_delta cfg false).2) (v := 38) (hv := by conc) (W := dequeWrite) (s := bits)
example := C68_comma (n := 3) (v := 38) (d := 2) (h2 := by conc) (h1 := by conc) (hd := .inr (by decide))
example := C68_fibonacci 11 5 (by decide) (by decide) (by decide) (z := [false, false, true, false, true])
    ⟨by decide, by simp [NoAdj], by decide⟩ fib11
example := C68_lengths (v := 38) (k := 5)
    (hk := ⟨by decide, fun m h => Nat.lt_succ_iff.1 ((Nat.pow_lt_pow_iff_right (by decide : 1 < 2)).1 (Nat.lt_of_le_of_lt h (by decide : 38 < 2 ^ 6)))⟩)
example := C68_written (c := cfg) (f := false) (K := delta cfg) (D := Pos64) (word := deltaWord)
    (h := (C62_gamma_delta cfg false).2) (v := 38) (hv := by conc) (l := bits)
example := C69_comma1_diverges (c := cfg) (W := dequeWrite) (s := bits) (v := 3) (hv := by conc)
example := C69_terminates_partial (c := cfg) (n := 3) (h2 := by conc) (hn := by conc) (v := 38) (hv := by conc)
    (W := dequeWrite) (hW := fun b s h => by cases h) (s := bits)
example := C69_wide (c := cfg) (hd := by conc) (n := 70) (hn := by conc) (W := dequeWrite) (s := bits) (v := 3)
example := C77_comma_partial cfg rfl (n := 2) (by decide) (by decide) dequeRead (commaWord 2 5 ++ bits) bits 5
    ((C62_all cfg false (.comma (n := 2) (by decide) (by decide))).decodes 5 (by decide) _ _ _ (deque_reads _ _))
example := C77_omega_partial cfg rfl rfl dequeRead (omegaWord 5 ++ bits) bits 5
    ((C62_all cfg false .omega).decodes 5 (by decide) _ _ _ (deque_reads _ _))

end Succinct.Ex
