import Verif.Instances.Data
import Verif.Props.Gaps
/-! `Verif.Props.Gaps`: each theorem applied to concrete data, see `Verif.Instances.Data`. -/
namespace Succinct.Ex
open Succinct Spec

def evenSet : List Nat := [0, 2, 4, 1000, 2 ^ 64 - 2]
def someSet : List Nat := [2, 3, 4, 5, 999, 1000, 1001]

theorem gammaGaps (xs : List Nat) (h : ∀ d ∈ gapsFrom 0 xs, d < 2 ^ 64 - 1) : ∀ d ∈ gapsFrom 0 xs, Pos64 (d + 1) ∧ d + 1 < 2 ^ 64 :=
  fun d hd => by have := h d hd; exact ⟨⟨by omega, by omega⟩, by omega⟩

example := C162_gaps cfg false (.lift0 (C62_gamma_delta cfg false).1) evenSet (by decide) (by decide) (gammaGaps _ (by decide)) deque_sink
  (fun _ _ => trivial) deque_source (s := []) (l := []) rfl trivial
example := C162_gaps rel true (.lift0 .fibonacci) someSet (by decide) (by decide) (by decide) deque_sink
  (fun _ _ => trivial) deque_source (s := [true]) (l := [true]) rfl trivial
example := C162_common cfg false false (.lift0 (C62_gamma_delta cfg false).2) (.comma (n := 2) (by decide) (by decide)) evenSet someSet
  (by decide) (by decide) (gammaGaps _ (by decide)) (by decide) (by decide) (by decide) deque_source deque_source rfl rfl

/-- What it says, with the gaps of the one set in Gamma and those of the other in Unary. -/
example : ∃ s, gapsWrite cfg (lift0 cfg (gamma cfg)) dequeWrite 0 evenSet [] = .ok (.ok (), s) ∧
    (∃ t, gapsRead cfg (lift0 cfg (gamma cfg)) dequeRead 0 [] s = .ok (.ok [0, 2, 4, 1000, 2 ^ 64 - 2], t)) ∧
    (∃ t, gapsContains cfg (lift0 cfg (gamma cfg)) dequeRead 1000 0 s = .ok (.ok true, t)) ∧
    (∃ t, gapsContains cfg (lift0 cfg (gamma cfg)) dequeRead 999 0 s = .ok (.ok false, t)) ∧
    ∃ u, gapsCommon cfg (lift0 cfg (gamma cfg)) (unary cfg) dequeRead dequeRead (s, (gapsFrom 0 someSet).flatMap unaryWord) =
      .ok (.ok [2, 4, 1000], u) := by
  obtain ⟨s, h1, h2, h3⟩ := C162_gaps cfg false (.lift0 (C62_gamma_delta cfg false).1) evenSet (by decide) (by decide)
    (gammaGaps _ (by decide)) deque_sink (fun _ _ => trivial) deque_source (s := []) (l := []) rfl trivial
  obtain ⟨⟨t, h4, -⟩, h5⟩ := h3 s h2
  obtain ⟨t1, h6, -⟩ := h5 1000
  obtain ⟨t2, h7, -⟩ := h5 999
  obtain ⟨u, h8⟩ := C162_common cfg false false (.lift0 (C62_gamma_delta cfg false).1) .unary evenSet someSet (by decide) (by decide)
    (gammaGaps _ (by decide)) (by decide) (by decide) (by decide) deque_source deque_source (s := s)
    (t := (gapsFrom 0 someSet).flatMap unaryWord) h2 rfl
  exact ⟨s, h1, ⟨t, h4⟩, ⟨t1, h6⟩, ⟨t2, h7⟩, u, h8⟩

end Succinct.Ex
