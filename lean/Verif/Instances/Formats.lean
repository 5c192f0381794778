import Verif.Instances.Data
import Verif.Props.Formats
/-! `Verif.Props.Formats`: each theorem applied to concrete data, see `Verif.Instances.Data`. -/
namespace Succinct.Ex
open Succinct Spec

/-- A flag, a big-endian byte, and a list, after its length in Delta from 0 on, of numbers in Gamma or pairs of bytes. -/
def record : Fmt := .pair .bit (.pair (.intBe 8) (.list (.lift0 (.elias (.lift0 (.elias .unary))))
  (.either (.code (.elias .unary)) (.pair (.int 8) (.int 8)))))

def aRecord : record.Val := (true, 200#64, [.inl 5, .inr (1#64, 255#64), .inl (2 ^ 64 - 1)])

theorem record_ok : record.Ok := by
  simp only [record, Fmt.Ok, CodeName.Valid, CodeName.Dom, and_self, true_and]
  refine ⟨by omega, ⟨⟨fun n hn => by omega, fun n hn => by omega⟩, fun n hn => by omega, by omega⟩⟩

theorem aRecord_fit : record.Fit aRecord := by
  simp [record, aRecord, Fmt.Fit, CodeName.Dom]

theorem record_canonical : record.Canonical := by
  simp only [record, Fmt.Canonical, CodeName.Canonical, CodeName.Dom, true_and, and_self]
  exact ⟨fun v hv => hv, trivial⟩

example := C163_formats cfg record record_ok aRecord aRecord_fit deque_sink (fun _ _ => trivial) deque_source (s := [true]) (l := [true]) rfl trivial
example := C163_prefix_free record record_ok aRecord_fit aRecord_fit (List.prefix_refl _)

/-- After the first 10 bits. -/
example := C163_truncated rel dequeRead record record_ok aRecord aRecord_fit
  (p := (record.bits aRecord).take 10) (q := (record.bits aRecord).drop 10) (List.take_append_drop 10 _).symm (by decide)
  (deque_reads _ []) deque_noBit

/-- What it says: the record is written to and read from a queue, and what follows it is left. -/
example : ∃ s, fmtWrite cfg dequeWrite record aRecord [] = .ok (.ok (), s) ∧
    fmtRead cfg dequeRead record (s ++ [true, false]) = .ok (.ok aRecord, [true, false]) := by
  obtain ⟨s, h1, h2, h3⟩ := C163_formats cfg record record_ok aRecord aRecord_fit deque_sink (fun _ _ => trivial) deque_source
    (s := []) (l := []) rfl trivial
  have h2 : s = record.bits aRecord := h2
  obtain ⟨u, h4, h5⟩ := h3 (s ++ [true, false]) [true, false] (by rw [h2])
  have h5 : u = [true, false] := h5
  subst h5
  exact ⟨s, h1, h4⟩

/-- Read from a queue, the bits can only have been these. -/
example : ∃ l, Reads dequeRead (record.bits aRecord ++ [true]) l [true] ∧ (l.length < 2 ^ 64 → record.Fit aRecord ∧ l = record.bits aRecord) :=
  C163_canonical cfg dequeRead record record_ok record_canonical
    (fmtRead_ok dequeRead record record_ok aRecord aRecord_fit (deque_reads _ [true]))

end Succinct.Ex
