import Verif.Lemmas.OwnInts
import Verif.Props.Coding
/-!
Property C151: the coders over sources and sinks whose integer methods are their own.

`read_int`, `read_int_be`, `write_int` and `write_int_be` are default methods that an implementation outside the crate
may replace. The coders use them; here it is shown that nothing more than their meaning is used.
-/
namespace Succinct
open Spec

/-- The widths at which a coder may call `read_int`, `read_int_be`, `write_int` and `write_int_be`. -/
structure Widths where
  ri : Nat → Prop
  rbe : Nat → Prop
  wi : Nat → Prop
  wbe : Nat → Prop

/-- The codes of the crate over the default methods (`K`) and over any methods (`K'`), where `B` includes the widths
they ask for. -/
inductive OwnCode (c : Cfg) (B : Widths) : Code → CodeI → Prop
  | unary : OwnCode c B (unary c) (OwnInts.unary c)
  | fibonacci : OwnCode c B (fibonacci c) (OwnInts.fibonacci c)
  | omega : (∀ n, B.rbe n) → (∀ n, 2 ≤ n → n ≤ 64 → B.wbe n) → OwnCode c B (omegaCode c) (OwnInts.omegaCode c)
  | comma {n : Nat} : B.ri n → B.wi n → OwnCode c B (comma c n) (OwnInts.comma c n)
  | elias {H : Code} {H' : CodeI} : (∀ n, n < 64 → B.ri n) → (∀ n, n < 64 → B.wi n) → OwnCode c B H H' →
      OwnCode c B (elias c H) (OwnInts.elias c H')
  | lift0 {K : Code} {K' : CodeI} : OwnCode c B K K' → OwnCode c B (lift0 c K) (OwnInts.lift0 c K')

/-- C151. With the default methods this model is the other one. -/
theorem C151_default (c : Cfg) {B : Widths} {K : Code} {K' : CodeI} (h : OwnCode c B K K') :
    (∀ {σ : Type} (W : BitWrite σ) (v : Nat), K'.encode (W.dflt c) v = K.encode W v) ∧
      ∀ {σ : Type} (R : BitRead σ), K'.decode (R.dflt c) = K.decode R := by
  induction h with
  | unary => exact ⟨fun _ _ => rfl, fun _ => rfl⟩
  | fibonacci => exact ⟨fun _ _ => rfl, fun _ => rfl⟩
  | omega =>
    refine ⟨fun W v => ?_, fun R => OwnInts.omega_loop_dflt R 1⟩
    show OwnInts.Omega.encode c (W.dflt c) v = Omega.encode c W v
    simp only [OwnInts.Omega.encode, Omega.encode, OwnInts.omega_pop_dflt]
    rfl
  | @comma n _ _ =>
    refine ⟨fun W v => ?_, fun R => ?_⟩
    · show OwnInts.Comma.encode c n (W.dflt c) v = Comma.encode c n W v
      simp only [OwnInts.Comma.encode, Comma.encode, OwnInts.comma_pop_dflt]
      rfl
    · show OwnInts.Comma.decode c n (R.dflt c) = Comma.decode c n R
      simp only [OwnInts.Comma.decode, Comma.decode, OwnInts.comma_loop_dflt]
  | @elias H H' _ _ _ ih =>
    refine ⟨fun W v => ?_, fun R => ?_⟩
    · show OwnInts.Elias.encode c H' (W.dflt c) v = Elias.encode c H W v
      simp only [OwnInts.Elias.encode, Elias.encode, ih.1]
      rfl
    · show OwnInts.Elias.decode c H' (R.dflt c) = Elias.decode c H R
      simp only [OwnInts.Elias.decode, Elias.decode, ih.2]
      rfl
  | @lift0 K K' _ ih =>
    refine ⟨fun W v => ?_, fun R => ?_⟩
    · show OwnInts.Lift0.encode K' (W.dflt c) v = Lift0.encode K W v
      simp only [OwnInts.Lift0.encode, Lift0.encode, ih.1]
      rfl
    · show OwnInts.Lift0.decode c K' (R.dflt c) = Lift0.decode c K R
      simp only [OwnInts.Lift0.decode, Lift0.decode, ih.2]
      rfl

/-- C151, reading. If the methods of one source follow those of another, decoding follows decoding. What the sources do
after an error is not restricted, and they may panic, fail or hang. -/
theorem C151_decode (c : Cfg) {B : Widths} {K : Code} {K' : CodeI} (h : OwnCode c B K K') {p : Bool} {R : σ → τ → Prop}
    {D : BitReadI σ} {D' : BitReadI τ} (hD : FollowsRead p R B.ri B.rbe D D') : Follows p R (K'.decode D) (K'.decode D') := by
  induction h with
  | unary => exact OwnInts.unary_loop_follows hD.bit 0 false
  | fibonacci => exact OwnInts.fib_loop_follows hD.bit 0 _ false
  | omega hr hw => exact OwnInts.omega_loop_follows ⟨hD.bit, hD.int, fun n _ => hD.intBe n (hr n)⟩ 1
  | comma hr hw => exact (Follows.lift _).bind fun b => OwnInts.comma_loop_follows hD hr b 0 false
  | elias hr hw _ ih => exact OwnInts.elias_decode_follows hr hD ih
  | lift0 _ ih => exact OwnInts.lift0_decode_follows ih

/-- C151, writing: likewise. -/
theorem C151_encode (c : Cfg) {B : Widths} {K : Code} {K' : CodeI} (h : OwnCode c B K K') {p : Bool} {R : σ → τ → Prop}
    {D : BitWriteI σ} {D' : BitWriteI τ} (hD : FollowsWrite p R B.wi B.wbe D D') {v : Nat} (hv : v < 2 ^ 64) :
    Follows p R (K'.encode D v) (K'.encode D' v) := by
  induction h generalizing v with
  | unary => exact OwnInts.unary_encode_follows hD.bit v
  | fibonacci => exact OwnInts.fib_encode_follows hD.bit v
  | omega hr hw => exact OwnInts.omega_encode_follows hw hD hv
  | comma hr hw => exact OwnInts.comma_encode_follows hw hD v
  | elias hr hw _ ih => exact OwnInts.elias_encode_follows hw hD (fun v hv => ih (by omega)) hv
  | lift0 _ ih => exact OwnInts.lift0_encode_follows fun h => ih h

/-! ### Finite streams of bits -/

/-- A source holding the bits `l`, each method of which reads as it should: `read_int(n)` returns the first `n` bits as a
number if there are that many, `Ok(None)` if there are none at all, and `UnexpectedEof` otherwise. In what state the
source is after the error is left open: the bits may be gone, or still there. -/
structure OwnSource (D : BitReadI σ) (Rep : σ → List Bool → Prop) (B B' : Nat → Prop) : Prop where
  bit : LawfulSource D.toBitRead Rep
  int : ∀ {s l n}, B n → Rep s l → ∃ s', D.readInt n s = .ok (if n ≤ l.length then .ok (some (BitVec.ofNat 64 (bitsVal (l.take n))))
      else if l = [] then .ok none else .error .unexpectedEof, s') ∧ (n ≤ l.length ∨ l = [] → Rep s' (l.drop n))
  intBe : ∀ {s l n}, B' n → Rep s l → ∃ s', D.readIntBe n s = .ok (if n ≤ l.length then .ok (some (BitVec.ofNat 64 (bitsVal (l.take n).reverse)))
      else if l = [] then .ok none else .error .unexpectedEof, s') ∧ (n ≤ l.length ∨ l = [] → Rep s' (l.drop n))

/-- A sink that has received the bits `l`, each method of which writes as it should while the bits fit. -/
structure OwnSink (D : BitWriteI σ) (Rep : σ → List Bool → Prop) (Fit : Nat → Prop) (B B' : Nat → Prop) : Prop where
  bit : LawfulSink D.toBitWrite Rep Fit
  int : ∀ {s l n}, B n → ∀ v : BitVec 64, Rep s l → Fit (l.length + n) →
    ∃ s', D.writeInt n v s = .ok (.ok (), s') ∧ Rep s' (l ++ natBits n v.toNat)
  intBe : ∀ {s l n}, B' n → ∀ v : BitVec 64, Rep s l → Fit (l.length + n) →
    ∃ s', D.writeIntBe n v s = .ok (.ok (), s') ∧ Rep s' (l ++ (natBits n v.toNat).reverse)

private theorem src_int {m : SM σ (Option (BitVec 64))} {m' : SM τ (Option (BitVec 64))} {P : σ → List Bool → Prop}
    {P' : τ → List Bool → Prop} {f : List Bool → BitVec 64} {n : Nat} (p : Bool)
    (h : ∀ s l, P s l → ∃ s', m s = .ok (if n ≤ l.length then .ok (some (f l)) else if l = [] then .ok none else .error .unexpectedEof, s') ∧
      (n ≤ l.length ∨ l = [] → P s' (l.drop n)))
    (h' : ∀ s l, P' s l → ∃ s', m' s = .ok (if n ≤ l.length then .ok (some (f l)) else if l = [] then .ok none else .error .unexpectedEof, s') ∧
      (n ≤ l.length ∨ l = [] → P' s' (l.drop n))) :
    Follows p (fun s t => ∃ l, P s l ∧ P' t l) m m' := by
  rintro s t ⟨l, hs, ht⟩
  obtain ⟨s1, h1, h2⟩ := h s l hs
  obtain ⟨t1, h3, h4⟩ := h' t l ht
  rw [h1]
  by_cases g1 : n ≤ l.length
  · rw [if_pos g1] at h3 ⊢; exact ⟨_, h3, _, h2 (.inl g1), h4 (.inl g1)⟩
  · by_cases g2 : l = []
    · rw [if_neg g1, if_pos g2] at h3 ⊢; exact ⟨_, h3, _, h2 (.inr g2), h4 (.inr g2)⟩
    · rw [if_neg g1, if_neg g2] at h3 ⊢; exact ⟨_, h3⟩

/-- The default methods do read as they should. -/
theorem C151_source_default (c : Cfg) {R : BitRead σ} {Rep : σ → List Bool → Prop} (h : LawfulSource R Rep) (B B' : Nat → Prop) :
    OwnSource (R.dflt c) Rep B B' := by
  refine ⟨h, fun _ hs => ?_, fun _ hs => ?_⟩
  · obtain ⟨s', h1, h2⟩ := C53_lawful c h (w := 64) (by decide) hs
    exact ⟨s', h2, fun _ => h1⟩
  · obtain ⟨s', h1, h2⟩ := C53_lawful_be c h (w := 64) (by decide) hs
    exact ⟨s', h2, fun _ => h1⟩

theorem C151_sink_default (c : Cfg) {W : BitWrite σ} {Rep : σ → List Bool → Prop} {Fit : Nat → Prop} (h : LawfulSink W Rep Fit)
    (hm : ∀ {m n}, Fit n → m ≤ n → Fit m) (B : Nat → Prop) {B' : Nat → Prop} (hB : ∀ n, B' n → 1 ≤ n ∧ n ≤ 64) :
    OwnSink (W.dflt c) Rep Fit B B' := by
  refine ⟨h, fun _ v hs hf => ?_, fun {s l n} hn v hs hf => ?_⟩
  · obtain ⟨s', h1, h2⟩ := h.writeAll hm (natBits _ v.toNat) hs (by rwa [length_natBits])
    exact ⟨s', by rw [← h1]; exact congrFun (writeInt_unsigned c W (by decide) _ _) _, h2⟩
  · obtain ⟨s', h1, h2⟩ := h.writeAll hm (natBits n v.toNat).reverse hs (by rwa [List.length_reverse, length_natBits])
    exact ⟨s', by rw [← h1]; exact congrFun (writeIntBe_eq c false W (by decide) _ (hB n hn).1 (hB n hn).2 (by simp)) _, h2⟩

/-- Two sources that read as they should follow one another. -/
theorem C151_sources {D : BitReadI σ} {D' : BitReadI τ} {Rep : σ → List Bool → Prop} {Rep' : τ → List Bool → Prop} {B B' : Nat → Prop}
    (h : OwnSource D Rep B B') (h' : OwnSource D' Rep' B B') (p : Bool) :
    FollowsRead p (fun s t => ∃ l, Rep s l ∧ Rep' t l) B B' D D' := by
  refine ⟨?_, ?_, ?_⟩
  · rintro s t ⟨l, hs, ht⟩
    cases l with
    | nil =>
      obtain ⟨s1, h1, h2⟩ := h.bit.none hs
      obtain ⟨t1, h3, h4⟩ := h'.bit.none ht
      rw [h1]; exact ⟨t1, h3, [], h2, h4⟩
    | cons b l =>
      obtain ⟨s1, h1, h2⟩ := h.bit.some hs
      obtain ⟨t1, h3, h4⟩ := h'.bit.some ht
      rw [h1]; exact ⟨t1, h3, l, h2, h4⟩
  · intro n hn
    exact src_int p (fun s l => h.int hn) (fun s l => h'.int hn)
  · intro n hn
    exact src_int p (fun s l => h.intBe hn) (fun s l => h'.intBe hn)

/-- C151. Decoding from any source whose methods read as they should returns what decoding the same bits from a
`VecDeque<bool>` does, whatever the bits are: the same value, with the same bits left over, the same end of stream, the
same error, the same panic. -/
theorem C151_source (c : Cfg) {B : Widths} {K : Code} {K' : CodeI} (h : OwnCode c B K K') {D : BitReadI σ}
    {Rep : σ → List Bool → Prop} (hD : OwnSource D Rep B.ri B.rbe) {s : σ} {bits : List Bool} (hs : Rep s bits) :
    match K.decode dequeRead bits with
    | .ok (.ok r, rest) => ∃ s', K'.decode D s = .ok (.ok r, s') ∧ Rep s' rest
    | .ok (.error e, _) => ∃ s', K'.decode D s = .ok (.error e, s')
    | .panic => K'.decode D s = .panic
    | .diverge => K'.decode D s = .diverge := by
  have hq := C151_source_default c deque_source B.ri B.rbe
  have h1 := C151_decode c h (C151_sources hq hD true) bits s ⟨bits, rfl, hs⟩
  have h2 := C151_decode c h (C151_sources hD hq true) s bits ⟨bits, hs, rfl⟩
  rw [(C151_default c h).2] at h1 h2
  cases hb : K.decode dequeRead bits with
  | ok q =>
    rw [hb] at h1
    obtain ⟨e | r, rest⟩ := q
    · exact h1
    · obtain ⟨s', g1, l, g2, g3⟩ := h1
      exact ⟨s', g1, g2 ▸ g3⟩
  | panic => rw [hb] at h1; exact h1 rfl
  | diverge =>
    rw [hb] at h2
    cases hd : K'.decode D s with
    | ok q =>
      rw [hd] at h2
      obtain ⟨e | r, rest⟩ := q
      · obtain ⟨_, g1⟩ := h2; cases g1
      · obtain ⟨_, g1, _⟩ := h2; cases g1
    | panic => rw [hd] at h2; cases h2 rfl
    | diverge => rfl

/-- A `VecDeque<bool>` that hangs when full. -/
private def limited (Fit : Nat → Prop) [DecidablePred Fit] : BitWrite (List Bool) where
  writeBit b t := if Fit (t.length + 1) then .ok (.ok (), t ++ [b]) else .diverge

private theorem limited_writeAll {Fit : Nat → Prop} [DecidablePred Fit] (hm : ∀ {m n}, Fit n → m ≤ n → Fit m) (bs : List Bool)
    {t : List Bool} (ht : Fit t.length) :
    writeAll (limited Fit) bs t = if Fit (t.length + bs.length) then .ok (.ok (), t ++ bs) else .diverge := by
  induction bs generalizing t with
  | nil => rw [if_pos (show Fit (t.length + [].length) from ht), List.append_nil]; rfl
  | cons b bs ih =>
    by_cases h : Fit (t.length + 1)
    · rw [writeAll, SM.bind_run_ok (show (limited Fit).writeBit b t = .ok (.ok (), t ++ [b]) from if_pos h), ih (by simpa using h)]
      simp [Nat.add_assoc, Nat.add_comm 1]
    · rw [if_neg (fun hh => h (hm hh (by simp))), writeAll, SM.bind_run,
        show (limited Fit).writeBit b t = .diverge from if_neg h]
      rfl

/-- C151. Encoding a value of the domain to any sink whose methods write as they should appends the codeword. -/
theorem C151_sink (c : Cfg) {B : Widths} {K : Code} {K' : CodeI} (h : OwnCode c B K K') {dom : Nat → Prop} {word : Nat → List Bool}
    (hK : Implements K dom word) (hB : ∀ n, B.wbe n → 1 ≤ n ∧ n ≤ 64) {D : BitWriteI σ} {Rep : σ → List Bool → Prop}
    {Fit : Nat → Prop} (hm : ∀ {m n}, Fit n → m ≤ n → Fit m) (hD : OwnSink D Rep Fit B.wi B.wbe) {s : σ} {l : List Bool}
    (hs : Rep s l) {v : Nat} (hv : v < 2 ^ 64) (hd : dom v) (hf : Fit (l.length + (word v).length)) :
    ∃ s', K'.encode D v s = .ok (.ok (), s') ∧ Rep s' (l ++ word v) := by
  classical
  have key : FollowsWrite false (fun t s => Rep s t ∧ Fit t.length) B.wi B.wbe ((limited Fit).dflt c) D := by
    have all : ∀ (bs : List Bool) (m : SM σ Unit),
        (∀ s l, Rep s l → Fit (l.length + bs.length) → ∃ s', m s = .ok (.ok (), s') ∧ Rep s' (l ++ bs)) →
        Follows false (fun t s => Rep s t ∧ Fit t.length) (writeAll (limited Fit) bs) m := by
      rintro bs m hbs t s ⟨hs, ht⟩
      rw [limited_writeAll hm bs ht]
      by_cases hf : Fit (t.length + bs.length)
      · rw [if_pos hf]
        obtain ⟨s', h1, h2⟩ := hbs s t hs hf
        exact ⟨s', h1, h2, by simpa using hf⟩
      · rw [if_neg hf]; trivial
    refine ⟨fun b => ?_, fun n v hn => ?_, fun n v hn => ?_⟩
    · have := all [b] (D.writeBit b) fun s l hs hf => hD.bit.write hs b (by simpa using hf)
      rwa [writeAll_singleton] at this
    · have := all (natBits n v.toNat) (D.writeInt n v) fun s l hs hf => hD.int hn v hs (by simpa using hf)
      rwa [← writeInt_unsigned c (limited Fit) (by decide)] at this
    · have := all (natBits n v.toNat).reverse (D.writeIntBe n v) fun s l hs hf => hD.intBe hn v hs (by simpa using hf)
      rwa [← writeIntBe_eq c false (limited Fit) (by decide) _ (hB n hn).1 (hB n hn).2 (by simp)] at this
  have hl : Fit l.length := hm hf (by omega)
  have h1 := C151_encode c h key hv
  rw [(C151_default c h).1, hK.encodes v hd] at h1
  obtain ⟨s', h2, h3, -⟩ := h1.ok (s := l) (t := s) ⟨hs, hl⟩ (by rw [limited_writeAll hm _ hl, if_pos hf])
  exact ⟨s', h2, h3⟩

/-- C151, round trip: what was encoded to such a sink, followed by anything, is decoded from such a source. -/
theorem C151_roundtrip (c : Cfg) {B : Widths} {K : Code} {K' : CodeI} (h : OwnCode c B K K') {dom : Nat → Prop} {word : Nat → List Bool}
    (hK : Implements K dom word) (hB : ∀ n, B.wbe n → 1 ≤ n ∧ n ≤ 64) {D : BitWriteI σ} {Rep : σ → List Bool → Prop}
    {Fit : Nat → Prop} (hm : ∀ {m n}, Fit n → m ≤ n → Fit m) (hD : OwnSink D Rep Fit B.wi B.wbe) {S : BitReadI τ}
    {RepR : τ → List Bool → Prop} (hS : OwnSource S RepR B.ri B.rbe) {s : σ} {l : List Bool}
    (hs : Rep s l) {v : Nat} (hv : v < 2 ^ 64) (hd : dom v) (hf : Fit (l.length + (word v).length)) :
    ∃ code s', K'.encode D v s = .ok (.ok (), s') ∧ Rep s' (l ++ code) ∧
      ∀ t rest, RepR t (code ++ rest) → ∃ t', K'.decode S t = .ok (.ok (some v), t') ∧ RepR t' rest := by
  obtain ⟨s', h1, h2⟩ := C151_sink c h hK hB hm hD hs hv hd hf
  refine ⟨word v, s', h1, h2, fun t rest ht => ?_⟩
  have h3 := C151_source c h hS ht
  obtain ⟨q, h4, h5⟩ := deque_source.reads (word v) (l := rest) rfl
  subst h5
  rw [hK.decodes v hd dequeRead _ _ h4] at h3
  exact h3

/-- Decoding an arbitrary stream with `Omega` asks for integers of any width, also above 64. For the codewords of the
64-bit values it is enough that `read_int_be` works below 64. -/
theorem C151_omega_words (c : Cfg) {B B' : Nat → Prop} {D : BitReadI σ} {Rep : σ → List Bool → Prop} (hD : OwnSource D Rep B B')
    (hB : ∀ n, n < 64 → B' n) {v : Nat} (h1 : 1 ≤ v) (h2 : v < 2 ^ 64) {s : σ} {rest : List Bool} (hs : Rep s (omegaWord v ++ rest)) :
    ∃ s', (OwnInts.omegaCode c).decode D s = .ok (.ok (some v), s') ∧ Rep s' rest := by
  have loop : ∀ v, 1 ≤ v → v < 2 ^ 64 → ∀ {s : σ} {rest : List Bool}, Rep s (omegaGroups v ++ rest) →
      ∃ s', OwnInts.Omega.decodeLoop c D 1 s = OwnInts.Omega.decodeLoop c D v s' ∧ Rep s' rest := by
    intro v
    induction v using Nat.strongRecOn with
    | _ v ih =>
      intro h1 h2 s rest hs
      by_cases hv : 1 < v
      · have hl := log2_lt_64 h2 (by omega)
        rw [omegaGroups_large hv, List.append_assoc] at hs
        obtain ⟨s1, h3, h4⟩ := ih v.log2 (log2_lt_self h1) (one_le_log2 hv) (by omega) hs
        rw [natBits_succ_reverse, testBit_log2 (by omega), List.cons_append] at h4
        obtain ⟨s2, h5, h6⟩ := hD.bit.some h4
        obtain ⟨s3, h7, h8⟩ := hD.intBe (hB _ hl) h6
        have hlen : v.log2 ≤ ((natBits v.log2 v).reverse ++ rest).length := by simp
        rw [if_pos hlen, List.take_left' (by simp), List.reverse_reverse, bitsVal_natBits] at h7
        have h9 := h8 (.inl hlen)
        rw [List.drop_left' (by simp)] at h9
        refine ⟨s3, ?_, h9⟩
        have hle := Nat.log2_self_le (n := v) (by omega)
        rw [h3, OwnInts.Omega.decodeLoop, SM.bind_run_ok h5]
        simp only [Bool.not_true, Bool.false_eq_true, if_false]
        rw [asUsize_small c (by omega), SM.bind_run_ok h7]
        simp only
        rw [Nat.mod_eq_of_lt (a := v.log2) (by omega), shlN_ok hl (by omega), SM.lift_ok_bind, BitVec.toNat_ofNat,
          Nat.mod_eq_of_lt (Nat.lt_of_le_of_lt (Nat.mod_le _ _) h2), Nat.one_mul, lowbits_or (by omega)]
      · rw [omegaGroups_small (by omega), List.nil_append] at hs
        exact ⟨s, by rw [show v = 1 by omega], hs⟩
  rw [omegaWord, List.append_assoc] at hs
  obtain ⟨s1, h3, h4⟩ := loop v h1 h2 hs
  obtain ⟨s2, h5, h6⟩ := hD.bit.some h4
  refine ⟨s2, ?_, h6⟩
  show OwnInts.Omega.decodeLoop c D 1 s = _
  rw [h3, OwnInts.Omega.decodeLoop, SM.bind_run_ok h5]
  rfl

/-! ### A source of fields -/

/-- A source that takes the bits of an integer in one piece, and takes none if there are too few. -/
def fieldRead : BitReadI (List Bool) where
  readBit s := .ok (.ok s.head?, s.tail)
  readInt n s := if n ≤ s.length then .ok (.ok (some (BitVec.ofNat 64 (bitsVal (s.take n)))), s.drop n)
    else if s = [] then .ok (.ok none, []) else .ok (.error .unexpectedEof, s)
  readIntBe n s := if n ≤ s.length then .ok (.ok (some (BitVec.ofNat 64 (bitsVal (s.take n).reverse))), s.drop n)
    else if s = [] then .ok (.ok none, []) else .ok (.error .unexpectedEof, s)

theorem fieldRead_own (B B' : Nat → Prop) : OwnSource fieldRead (fun s l => s = l) B B' := by
  refine ⟨⟨fun h => ⟨_, by rw [h]; rfl, rfl⟩, fun h => ⟨_, by rw [h]; rfl, rfl⟩⟩, ?_, ?_⟩
  · rintro s l n - rfl
    by_cases h1 : n ≤ s.length
    · exact ⟨s.drop n, by simp [fieldRead, h1], fun _ => rfl⟩
    · by_cases h2 : s = []
      · subst h2
        exact ⟨[], by simp only [fieldRead, h1, if_true, if_false], fun _ => by simp⟩
      · exact ⟨s, by simp [fieldRead, h1, h2], fun h => absurd h (by simp [h1, h2])⟩
  · rintro s l n - rfl
    by_cases h1 : n ≤ s.length
    · exact ⟨s.drop n, by simp [fieldRead, h1], fun _ => rfl⟩
    · by_cases h2 : s = []
      · subst h2
        exact ⟨[], by simp only [fieldRead, h1, if_true, if_false], fun _ => by simp⟩
      · exact ⟨s, by simp [fieldRead, h1, h2], fun h => absurd h (by simp [h1, h2])⟩

/-- All widths, but only sensible ones for `write_int_be`. -/
def anyWidths : Widths := ⟨fun _ => True, fun _ => True, fun _ => True, fun n => 1 ≤ n ∧ n ≤ 64⟩

theorem OwnCode.gamma (c : Cfg) : OwnCode c anyWidths (gamma c) (OwnInts.gamma c) :=
  .elias (fun _ _ => trivial) (fun _ _ => trivial) .unary

theorem OwnCode.delta (c : Cfg) : OwnCode c anyWidths (delta c) (OwnInts.delta c) :=
  .elias (fun _ _ => trivial) (fun _ _ => trivial) (.lift0 (OwnCode.gamma c))

/-- The methods differ: after an error the bits are still there. -/
example : fieldRead.readInt 3 [true, true] = .ok (.error .unexpectedEof, [true, true]) ∧
    (dequeRead.dflt ⟨true, .p64, true⟩).readInt 3 [true, true] = .ok (.error .unexpectedEof, []) := by decide

/-- The gamma code of 6 followed by two bits, from the source of fields. -/
example (c : Cfg) : (OwnInts.gamma c).decode fieldRead [false, false, true, false, true, true, true] =
    .ok (.ok (some 6), [true, true]) := by
  have h := C151_source c (OwnCode.gamma c) (fieldRead_own _ _) (bits := gammaWord 6 ++ [true, true]) rfl
  obtain ⟨q, h4, h5⟩ := deque_source.reads (gammaWord 6) (l := [true, true]) rfl
  rw [(C62_all c false (C62_gamma_delta c false).1).decodes 6 (by simp [Pos64]) dequeRead _ _ h4, h5] at h
  obtain ⟨s', h1, h2⟩ := h
  rw [h2] at h1
  exact h1

/-- The delta code of 1000 from the source of fields. -/
example (c : Cfg) (rest : List Bool) : (OwnInts.delta c).decode fieldRead (deltaWord 1000 ++ rest) = .ok (.ok (some 1000), rest) := by
  have h := C151_source c (OwnCode.delta c) (fieldRead_own _ _) (bits := deltaWord 1000 ++ rest) rfl
  obtain ⟨q, h4, h5⟩ := deque_source.reads (deltaWord 1000) (l := rest) rfl
  rw [(C62_all c false (C62_gamma_delta c false).2).decodes 1000 (by simp [Pos64]) dequeRead _ _ h4, h5] at h
  obtain ⟨s', h1, h2⟩ := h
  rw [h2] at h1
  exact h1

/-- A source that returns `Ok(None)` for an integer cut short does not read as it should, and a code word cut short passes
for the end of the stream. -/
example (c : Cfg) : (OwnInts.comma c 2).decode { fieldRead with
      readInt := fun n s => if n ≤ s.length then .ok (.ok (some (BitVec.ofNat 64 (bitsVal (s.take n)))), s.drop n)
        else .ok (.ok none, s) } [true] = .ok (.ok none, [true]) := by
  show OwnInts.Comma.decode _ _ _ _ = _
  rw [OwnInts.Comma.decode, show Comma.base c 2 = .ok 3 by cases c with | mk d p a => cases d <;> cases p <;> cases a <;> decide,
    SM.lift_ok_bind, OwnInts.Comma.decodeLoop]
  rfl

/-- The omega code of 100000 from the source of fields. -/
example (c : Cfg) (rest : List Bool) : (OwnInts.omegaCode c).decode fieldRead (omegaWord 100000 ++ rest) = .ok (.ok (some 100000), rest) := by
  obtain ⟨s', h1, h2⟩ := C151_omega_words c (fieldRead_own (fun _ => True) (fun _ => True)) (fun _ _ => trivial) (v := 100000)
    (by decide) (by decide) (s := omegaWord 100000 ++ rest) (rest := rest) rfl
  rw [h1, h2]

/-- A sink that takes the bits of an integer in one piece and counts the calls. -/
def fieldWrite : BitWriteI (List Bool × Nat) where
  writeBit b s := .ok (.ok (), s.1 ++ [b], s.2 + 1)
  writeInt n v s := .ok (.ok (), s.1 ++ natBits n v.toNat, s.2 + 1)
  writeIntBe n v s := .ok (.ok (), s.1 ++ (natBits n v.toNat).reverse, s.2 + 1)

theorem fieldWrite_own (B B' : Nat → Prop) : OwnSink fieldWrite (fun s l => s.1 = l) (fun _ => True) B B' :=
  ⟨⟨fun h b _ => ⟨_, rfl, by rw [← h]⟩⟩, fun _ v h _ => ⟨_, rfl, by rw [← h]⟩, fun _ v h _ => ⟨_, rfl, by rw [← h]⟩⟩

/-- The gamma code of 6 to the sink of fields: three bits and one integer. -/
example (c : Cfg) : (OwnInts.gamma c).encode fieldWrite 6 ([], 0) = .ok (.ok (), [false, false, true, false, true], 4) := by
  cases c with | mk d p a => cases d <;> cases p <;> cases a <;> decide

example (c : Cfg) {v : Nat} (h : Pos64 v) : ∃ n, (OwnInts.delta c).encode fieldWrite v ([], 0) = .ok (.ok (), deltaWord v, n) := by
  obtain ⟨s', h1, h2⟩ := C151_sink c (OwnCode.delta c) (C62_all c false (C62_gamma_delta c false).2) (fun _ h => h) (fun _ _ => trivial)
    (fieldWrite_own _ _) (s := ([], 0)) rfl h.2 h trivial
  exact ⟨s'.2, by rw [h1, show deltaWord v = s'.1 from h2.symm]⟩

/-! Each theorem of this file that has hypotheses is applied to concrete data in `Verif/Instances/OwnInts.lean`. -/

end Succinct
