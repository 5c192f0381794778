import Verif.Instances.Data
import Verif.Props.Decode
/-! `Verif.Props.Decode`: each theorem applied to concrete data, see `Verif.Instances.Data`. -/
namespace Succinct.Ex
open Succinct Spec

example := C106_comma (c := cfg) (n := 3) (h0 := by conc) (hn := fun _ => by decide)
example := C106_comma_panics_iff (c := cfg) (hd := by conc) (n := 3) (h0 := by conc) (hn := by conc) (bits := bits)
example := C106_elias (c := cfg) (bits := bits) (hl := by conc)
example := C106_fibonacci_panics_iff (c := cfg) (hd := by conc) (bits := bits)
example := C106_lift0_panics_iff (c := cfg) (hd := by conc) (o := .value 0 bits)
example := C106_omega_only cfg (bits := omegaWord 5 ++ bits) (v := 5) (rest := bits)
  (fun _ _ _ hR _ hs => by
    obtain ⟨s', h1, h2⟩ := hR.reads (omegaWord 5) (l := bits) hs
    exact ⟨s', (C62_all cfg false .omega).decodes 5 (by decide) _ _ _ h1, h2⟩)
example := C106_omega_panics (c := cfg) (hd := by conc) (v := 70) (h64 := by conc) (hv := by conc)
    (rest := List.replicate 80 true) (hr := by conc)
example := C106_omega_panics_iff (c := cfg) (hd := by conc) (hp := by conc) (bits := bits) (hl := by conc)
example := C106_unique (C106_all cfg gam bits (by decide)) (C106_all cfg gam bits (by decide))

end Succinct.Ex
