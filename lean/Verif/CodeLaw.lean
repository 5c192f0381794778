import Verif.StreamLaw
import Verif.Model.Coding
/-!
# What it means to implement a code

A code is specified by a domain `D` of values and the codeword `word v` of each value `v`.
Nothing is assumed about the sink or the source.
-/
namespace Succinct

/-- Encoding writes the codeword, bit by bit, and does nothing else: on every sink, whatever it does,
`encode` is the plain writing of the codeword. -/
def EncodesBy (K : Code) (D : Nat → Prop) (word : Nat → List Bool) : Prop :=
  ∀ v, D v → ∀ {σ : Type} (W : BitWrite σ), K.encode W v = writeAll W (word v)

/-- When the source delivers the codeword of `v`, decoding returns `v`, having read those bits and no
more. -/
def DecodesBy (K : Code) (D : Nat → Prop) (word : Nat → List Bool) : Prop :=
  ∀ v, D v → ∀ {σ : Type} (R : BitRead σ) (s s' : σ), Reads R s (word v) s' →
    K.decode R s = .ok (.ok (some v), s')

/-- When the source does not deliver any bit, decoding returns `Ok(None)` at the end of the stream,
and passes on any error. -/
def EndsWell (K : Code) : Prop :=
  ∀ {σ : Type} (R : BitRead σ) (s : σ), NoBit (R.readBit s) →
    K.decode R s = stopWith (.ok none) (R.readBit s)

/-- When the source delivers a proper non-empty prefix of a codeword, and then no more, decoding
reports `UnexpectedEof` at the end of the stream, and passes on any other error. -/
def TruncatesTo (K : Code) (D : Nat → Prop) (word : Nat → List Bool) : Prop :=
  ∀ v, D v → ∀ p q, word v = p ++ q → p ≠ [] → q ≠ [] →
    ∀ {σ : Type} (R : BitRead σ) (s s' : σ), Reads R s p s' → NoBit (R.readBit s') →
      K.decode R s = stopWith (.error .unexpectedEof) (R.readBit s')

/-- Whatever the source: if decoding returns a value then the bits read are the codeword of that value,
and the value is in the domain (unless more than 2^64 bits have been read). -/
def DecodesOnly (K : Code) (D : Nat → Prop) (word : Nat → List Bool) : Prop :=
  ∀ {σ : Type} (R : BitRead σ) (s s' : σ) (v : Nat), K.decode R s = .ok (.ok (some v), s') →
    ∃ bits, Reads R s bits s' ∧ (bits.length < 2 ^ 64 → D v ∧ bits = word v)

/-- Decoding returns (`Ok` or `Err`) on every source holding fewer than 2^64 bits, whatever they are,
and leaves some suffix of them unread. -/
def DecodesTotally (K : Code) : Prop :=
  ∀ {σ : Type} (R : BitRead σ) (Rep : σ → List Bool → Prop), LawfulSource R Rep →
    ∀ bits s, bits.length < 2 ^ 64 → Rep s bits →
      ∃ r s' k, K.decode R s = .ok (r, s') ∧ Rep s' (bits.drop k)

/-- Starting in state `s` the sink accepts the bits `bits`, and is then in state `s'`. -/
inductive Writes (W : BitWrite σ) : σ → List Bool → σ → Prop
  | nil (s : σ) : Writes W s [] s
  | cons {s s1 s2 : σ} {b : Bool} {bs : List Bool} :
      W.writeBit b s = .ok (.ok (), s1) → Writes W s1 bs s2 → Writes W s (b :: bs) s2

/-- The three requirements on whole codewords. -/
structure Implements (K : Code) (D : Nat → Prop) (word : Nat → List Bool) : Prop where
  encodes : EncodesBy K D word
  decodes : DecodesBy K D word
  ends : EndsWell K

/-- Encoding a value to any lawful sink appends a code, and decoding from any lawful source holding that
code and any further bits returns the value and leaves exactly the further bits. -/
def RoundTrips (K : Code) (D : Nat → Prop) : Prop :=
  ∀ v, D v → ∃ code : List Bool,
    (∀ {σ : Type} (W : BitWrite σ) (Rep : σ → List Bool → Prop) (Fit : Nat → Prop), LawfulSink W Rep Fit →
      (∀ {m n}, Fit n → m ≤ n → Fit m) → ∀ s l, Rep s l → Fit (l.length + code.length) →
        ∃ s', K.encode W v s = .ok (.ok (), s') ∧ Rep s' (l ++ code)) ∧
    (∀ {σ : Type} (R : BitRead σ) (Rep : σ → List Bool → Prop), LawfulSource R Rep →
      ∀ t rest, Rep t (code ++ rest) → ∃ t', K.decode R t = .ok (.ok (some v), t') ∧ Rep t' rest)

/-- Encode the values one after another. -/
def encodeAll (K : Code) (W : BitWrite σ) : List Nat → SM σ Unit
  | [] => pure ()
  | v :: vs => do
    K.encode W v
    encodeAll K W vs

/-- Decode `n` times; stop at the first error. -/
def decodeMany (K : Code) (R : BitRead σ) : Nat → SM σ (List (Option Nat))
  | 0 => pure []
  | n + 1 => do
    let o ← K.decode R
    let os ← decodeMany K R n
    pure (o :: os)

end Succinct
