import Verif.Props.Transcode
import Verif.Props.AnySource
/-! Property C125: decoding a stream that arrives in pieces. The program is a client of the crate: pieces are written at the end of
a `BitBuffer`, and after each piece all complete values are decoded; when the decoder runs out of bits the cursor is set back. -/
namespace Succinct
open Spec

/-- ```
loop {
    let p = buf.position();
    match code.decode(buf) {
        Ok(Some(v)) => out.push(v),
        Ok(None) => return buf.seek(p),
        Err(e) => if e.kind() == UnexpectedEof { return buf.seek(p) } else { return Err(e) },
    }
}
``` -/
def drain (c : Cfg) (K : Code) (o : BitVecOps w S) (b : BitBuf S) (out : List Nat) : Res (Except IoErr Unit × (BitBuf S × List Nat)) := do
  let p := b.position
  let (r, b) ← K.decode (BitBuf.read c o) b
  match r with
  | .ok (some v) => drain c K o b (out ++ [v])
  | .ok none => do
    let (r, b) ← BitBuf.seek o p b
    .ok (r, (b, out))
  | .error e =>
    if e = .unexpectedEof then do
      let (r, b) ← BitBuf.seek o p b
      .ok (r, (b, out))
    else .ok (.error e, (b, out))
partial_fixpoint

/-- `buf.bit_len()` -/
def lengthOf (c : Cfg) (o : BitVecOps w S) : SM (BitBuf S) Nat := fun s => do
  let n ← (BitBuf.bitVec c o).bitLen s
  .ok (.ok n, s)

/-- ```
let p = buf.position();
buf.seek(buf.bit_len())?;
for b in chunk { buf.write_bit(b)?; }
buf.seek(p)
``` -/
def addChunk (c : Cfg) (o : BitVecPushOps w S) (chunk : List Bool) : SM (BitBuf S) Unit := do
  let p ← positionOf
  let n ← lengthOf c o.toBitVecOps
  BitBuf.seek o.toBitVecOps n
  writeAll (BitBuf.write c o) chunk
  BitBuf.seek o.toBitVecOps p

/-- every piece in turn, until one gives an error -/
def feedAll (c : Cfg) (K : Code) (o : BitVecPushOps w S) :
    List (List Bool) → BitBuf S → List Nat → Res (Except IoErr Unit × (BitBuf S × List Nat))
  | [], b, out => .ok (.ok (), (b, out))
  | chunk :: chunks, b, out => do
    let (r, b) ← addChunk c o chunk b
    match r with
    | .error e => .ok (.error e, (b, out))
    | .ok () => do
      let (r, b, out) ← drain c K o.toBitVecOps b out
      match r with
      | .error e => .ok (.error e, (b, out))
      | .ok () => feedAll c K o chunks b out

/-! ### What a whole stream holds -/

/-- how decoding value after value ends -/
inductive ParseEnd where
  /-- at these bits, more are needed for another value -/
  | waits (rest : List Bool)
  /-- with the error `InvalidData`, these bits being left -/
  | fails (rest : List Bool)
  | panics
  | hangs
deriving DecidableEq, Repr

/-- the values, one after another, and how it ends -/
def parseAll (c : Cfg) (k : CodeName) (bits : List Bool) : List Nat × ParseEnd :=
  match k.decOut c bits with
  | .value v rest =>
    if rest.length < bits.length then
      let r := parseAll c k rest
      (v :: r.1, r.2)
    else ([], .hangs)
  | .nothing => ([], .waits bits)
  | .eof => ([], .waits bits)
  | .invalid rest => ([], .fails rest)
  | .panics => ([], .panics)
termination_by bits.length

/-- with more bits following -/
def ParseEnd.more (q : List Bool) : ParseEnd → ParseEnd
  | .fails rest => .fails (rest ++ q)
  | e => e

/-- C125. What has been decoded stays valid whatever follows: the values of a beginning of the stream are a beginning of its values.
Where more bits were needed, decoding goes on with them; errors and panics are there to stay. -/
theorem C125_parse_append (c : Cfg) (k : CodeName) (hk : k.TakesBits) (p q : List Bool) (hl : (p ++ q).length < 2 ^ 64) :
    parseAll c k (p ++ q) =
      match (parseAll c k p).2 with
      | .waits r => ((parseAll c k p).1 ++ (parseAll c k (r ++ q)).1, (parseAll c k (r ++ q)).2)
      | e => ((parseAll c k p).1, e.more q) := by
  induction hn : p.length using Nat.strongRecOn generalizing p with
  | ind n ih =>
    subst hn
    have hp : p.length < 2 ^ 64 := by rw [List.length_append] at hl; omega
    cases ho : k.decOut c p with
    | value v rest =>
      have h1 := C121_final c k p q hl (by rw [ho]; exact ⟨by simp, by simp⟩)
      rw [ho, moreBits] at h1
      have h2 := (decOut_value c k hk hp ho).2
      have h3 : parseAll c k (p ++ q) = (v :: (parseAll c k (rest ++ q)).1, (parseAll c k (rest ++ q)).2) := by
        conv => lhs; rw [parseAll, h1]
        simp only [List.length_append]
        rw [if_pos (by omega)]
      have h4 : parseAll c k p = (v :: (parseAll c k rest).1, (parseAll c k rest).2) := by
        conv => lhs; rw [parseAll, ho]
        simp only
        rw [if_pos h2]
      rw [h3, h4, ih _ h2 rest (by rw [List.length_append] at hl ⊢; omega) rfl]
      cases (parseAll c k rest).2 <;> rfl
    | nothing =>
      have h4 : parseAll c k p = ([], .waits p) := by rw [parseAll, ho]
      rw [h4]
      rfl
    | eof =>
      have h4 : parseAll c k p = ([], .waits p) := by rw [parseAll, ho]
      rw [h4]
      rfl
    | invalid rest =>
      have h1 := C121_final c k p q hl (by rw [ho]; exact ⟨by simp, by simp⟩)
      rw [ho, moreBits] at h1
      rw [parseAll, h1, parseAll, ho]
      rfl
    | panics =>
      have h1 := C121_final c k p q hl (by rw [ho]; exact ⟨by simp, by simp⟩)
      rw [ho] at h1
      have h4 : parseAll c k p = ([], .panics) := by rw [parseAll, ho]
      have h5 : parseAll c k (p ++ q) = ([], .panics) := by rw [parseAll, show k.decOut c (p ++ q) = .panics from h1]
      rw [h4, h5]
      rfl

/-- where more bits are needed, no value is there -/
theorem parseAll_rest (c : Cfg) (k : CodeName) (bits : List Bool) {r : List Bool} (h : (parseAll c k bits).2 = .waits r) :
    parseAll c k r = ([], .waits r) := by
  induction hn : bits.length using Nat.strongRecOn generalizing bits with
  | ind n ih =>
    subst hn
    cases ho : k.decOut c bits with
    | value v rest =>
      rw [parseAll, ho] at h
      simp only at h
      split at h
      · next hr => exact ih _ hr rest h rfl
      · cases h
    | nothing =>
      rw [parseAll, ho] at h
      cases h
      rw [parseAll, ho]
    | eof =>
      rw [parseAll, ho] at h
      cases h
      rw [parseAll, ho]
    | invalid rest =>
      rw [parseAll, ho] at h
      cases h
    | panics =>
      rw [parseAll, ho] at h
      cases h

/-! ### The program -/
section
variable {c : Cfg} {w : Nat} {S : Type} {R : S → List Bool → Prop} {o : BitVecPushOps w S} {Fit : Nat → Prop}

/-- A buffer is a lawful source, and reading does not change its bits. -/
theorem push_buf_source (hv : PushVec c w o R Fit) (bits : List Bool) : LawfulSource (BitBuf.read c o.toBitVecOps)
    (fun b l => ∃ q, bufR R b ⟨bits, q⟩ ∧ l = bits.drop q) where
  some := by
    rintro b x l ⟨q, ⟨hR, hp, hle⟩, hx⟩
    have hlt : q < bits.length := by
      rcases Nat.lt_or_ge q bits.length with h | h
      · exact h
      · rw [List.drop_eq_nil_of_le h] at hx; cases hx
    rw [List.drop_eq_getElem_cons hlt] at hx
    injection hx with e1 e2
    simp only at hp hR hle
    refine ⟨{ b with pos := b.pos + 1 }, ?_, q + 1, ⟨hR, by simp only [hp], hlt⟩, e2⟩
    rw [buf_read_some hv.blk hv.law hv.block hR (by omega)]
    simp only [hp, e1]
  none := by
    rintro b ⟨q, ⟨hR, hp, hle⟩, hx⟩
    have hge : bits.length ≤ q := List.drop_eq_nil_iff.1 hx.symm
    simp only at hp hR hle
    exact ⟨b, buf_read_none hv.law hR (by omega), q, ⟨hR, hp, hle⟩, hx⟩

/-- The program has ended like this with `bits` in the buffer. -/
def DrainsTo (R : S → List Bool → Prop) (bits : List Bool) (out : List Nat) (e : ParseEnd)
    (r : Res (Except IoErr Unit × (BitBuf S × List Nat))) : Prop :=
  match e with
  | .waits rest => ∃ b', r = .ok (.ok (), (b', out)) ∧ ∃ q, bufR R b' ⟨bits, q⟩ ∧ rest = bits.drop q
  | .fails rest => ∃ b', r = .ok (.error .invalidData, (b', out)) ∧ ∃ q, bufR R b' ⟨bits, q⟩ ∧ rest = bits.drop q
  | .panics => r = .panic
  | .hangs => False

theorem drain_ok (hv : PushVec c w o R Fit) (k : CodeName) (hk : k.TakesBits) {b : BitBuf S} {bits : List Bool} {p : Nat}
    (hb : bufR R b ⟨bits, p⟩) (hl : bits.length < 2 ^ 64) (out : List Nat) :
    DrainsTo R bits (out ++ (parseAll c k (bits.drop p)).1) (parseAll c k (bits.drop p)).2
      (drain c (k.code c) o.toBitVecOps b out) := by
  induction hn : (bits.drop p).length using Nat.strongRecOn generalizing p b out with
  | ind n ih =>
    subst hn
    have hd : (bits.drop p).length < 2 ^ 64 := by rw [List.length_drop]; omega
    have hy := C106_all c k (bits.drop p) hd _ _ _ (push_buf_source hv bits) b ⟨p, hb, rfl⟩
    have hpos : b.position = p := hb.2.1
    have back : ∀ b', (∃ q, bufR R b' ⟨bits, q⟩ ∧ [] = bits.drop q) →
        ∃ b2, BitBuf.seek o.toBitVecOps b.position b' = .ok (.ok (), b2) ∧ bufR R b2 ⟨bits, p⟩ := by
      rintro b' ⟨q, h1, -⟩
      rw [hpos]
      exact (buf_seek hv.law h1 p).1 hb.2.2
    cases ho : k.decOut c (bits.drop p) with
    | value v rest =>
      rw [ho] at hy
      obtain ⟨b1, h1, q, h2, h3⟩ := hy
      have hr := (decOut_value c k hk hd ho).2
      have h4 : parseAll c k (bits.drop p) = (v :: (parseAll c k rest).1, (parseAll c k rest).2) := by
        conv => lhs; rw [parseAll, ho]
        simp only
        rw [if_pos hr]
      rw [h4]
      subst h3
      have h5 := ih _ hr h2 (out ++ [v]) rfl
      rw [drain.eq_def, h1, Res.ok_bind]
      simpa using h5
    | nothing =>
      rw [ho] at hy
      obtain ⟨b1, h1, h2⟩ := hy
      obtain ⟨b2, h3, h4⟩ := back b1 h2
      rw [parseAll, ho, drain.eq_def, h1, Res.ok_bind]
      simp only [h3, List.append_nil]
      exact ⟨b2, rfl, p, h4, rfl⟩
    | eof =>
      rw [ho] at hy
      obtain ⟨b1, h1, h2⟩ := hy
      obtain ⟨b2, h3, h4⟩ := back b1 h2
      rw [parseAll, ho, drain.eq_def, h1, Res.ok_bind]
      simp only [h3, List.append_nil, if_true]
      exact ⟨b2, rfl, p, h4, rfl⟩
    | invalid rest =>
      rw [ho] at hy
      obtain ⟨b1, h1, h2⟩ := hy
      rw [parseAll, ho, drain.eq_def, h1, Res.ok_bind]
      simp only [List.append_nil]
      exact ⟨b1, rfl, h2⟩
    | panics =>
      rw [ho] at hy
      rw [parseAll, ho, drain.eq_def, show (k.code c).decode _ b = .panic from hy]
      rfl

theorem addChunk_ok (hv : PushVec c w o R Fit) (hm : ∀ {m n}, Fit n → m ≤ n → Fit m) {b : BitBuf S} {bits : List Bool} {p : Nat}
    (hb : bufR R b ⟨bits, p⟩) (chunk : List Bool) (hf : Fit (bits.length + chunk.length)) :
    ∃ b', addChunk c o chunk b = .ok (.ok (), b') ∧ bufR R b' ⟨bits ++ chunk, p⟩ := by
  obtain ⟨b1, h1, h2⟩ := (buf_seek hv.law hb bits.length).1 (Nat.le_refl _)
  obtain ⟨b2, h3, h4⟩ := (buf_sink hv).writeAll hm chunk h2 hf
  have hp : p ≤ (bits ++ chunk).length := by
    rw [List.length_append]
    exact Nat.le_add_right_of_le hb.2.2
  obtain ⟨b3, h5, h6⟩ := (buf_seek hv.law h4 p).1 hp
  refine ⟨b3, ?_, h6⟩
  have hp0 : b.pos = p := hb.2.1
  have h7 : lengthOf c o.toBitVecOps b = .ok (.ok bits.length, b) := by
    rw [lengthOf, buf_bitLen_def, hv.law.bitLen hb.1, Res.ok_bind]
  rw [addChunk, SM.bind_run_ok (show positionOf b = .ok (.ok p, b) by show Res.ok (Except.ok b.pos, b) = _; rw [hp0]),
    SM.bind_run_ok h7, SM.bind_run_ok h1, SM.bind_run_ok h3, h5]

/-- How the program ends when the whole stream `total` ends like this, `old` having been in the buffer before. After an error, the pieces
that would have come next are not in the buffer. -/
def FeedsTo (c : Cfg) (k : CodeName) (R : S → List Bool → Prop) (old : List Bool) (start : Nat) (chunks : List (List Bool))
    (out : List Nat) (e : ParseEnd) (r : Res (Except IoErr Unit × (BitBuf S × List Nat))) : Prop :=
  let total := old ++ chunks.flatten
  match e with
  | .waits rest => ∃ b', r = .ok (.ok (), (b', out)) ∧ bufR R b' ⟨total, total.length - rest.length⟩ ∧ rest <:+ total
  | .fails rest => ∃ b' j, r = .ok (.error .invalidData, (b', out)) ∧ j < chunks.length ∧
      bufR R b' ⟨old ++ (chunks.take (j + 1)).flatten, total.length - rest.length⟩ ∧ rest <:+ total ∧
      ∀ i ≤ j, ∃ l, (parseAll c k ((old ++ (chunks.take i).flatten).drop start)).2 = .waits l
  | .panics => r = .panic
  | .hangs => False

/-- **C125.** Whatever the code and the bits, and however they are divided into pieces: the program delivers exactly the values that are
decoded from the whole stream. It ends waiting for the bits that the whole stream lacks, the cursor at the first of those it has; or with
the error that decoding the whole stream gives, at the same bit, and with the first piece with which there is an error; or with the panic. -/
theorem C125_chunks (hv : PushVec c w o R Fit) (hm : ∀ {m n}, Fit n → m ≤ n → Fit m) (k : CodeName) (hk : k.TakesBits)
    (chunks : List (List Bool)) {b : BitBuf S} {bits : List Bool} {p : Nat} (hb : bufR R b ⟨bits, p⟩)
    (hf : Fit (bits ++ chunks.flatten).length) (hl : (bits ++ chunks.flatten).length < 2 ^ 64)
    (hw : parseAll c k (bits.drop p) = ([], .waits (bits.drop p))) (out : List Nat) :
    FeedsTo c k R bits p chunks (out ++ (parseAll c k (bits.drop p ++ chunks.flatten)).1)
      (parseAll c k (bits.drop p ++ chunks.flatten)).2 (feedAll c (k.code c) o chunks b out) := by
  have hle : p ≤ bits.length := hb.2.2
  induction chunks generalizing b bits p out with
  | nil =>
    simp only [List.flatten_nil, List.append_nil, hw]
    refine ⟨b, rfl, ?_, ?_⟩
    · simp only [List.flatten_nil, List.append_nil]
      rw [List.length_drop, Nat.sub_sub_self hle]
      exact hb
    · simp only [List.flatten_nil, List.append_nil]
      exact List.drop_suffix _ _
  | cons chunk chunks ih =>
    have hfl : bits ++ (chunk :: chunks).flatten = (bits ++ chunk) ++ chunks.flatten := by
      rw [List.flatten_cons, List.append_assoc]
    rw [hfl] at hf hl
    obtain ⟨b1, h1, h2⟩ := addChunk_ok hv hm hb chunk (hm hf (by simp))
    have hl1 : (bits ++ chunk).length < 2 ^ 64 := by rw [List.length_append] at hl; omega
    have h3 := drain_ok hv k hk h2 hl1 out
    have hdr : (bits ++ chunk).drop p = bits.drop p ++ chunk := List.drop_append_of_le_length hle
    have hpa := C125_parse_append c k hk ((bits ++ chunk).drop p) chunks.flatten
      (by rw [List.length_append, List.length_drop]; rw [List.length_append] at hl; omega)
    have hwhole : bits.drop p ++ (chunk :: chunks).flatten = (bits ++ chunk).drop p ++ chunks.flatten := by
      rw [hdr, List.flatten_cons, List.append_assoc]
    have hrun : feedAll c (k.code c) o (chunk :: chunks) b out =
        (drain c (k.code c) o.toBitVecOps b1 out >>= fun x => match x.1 with
          | .error e => .ok (.error e, (x.2.1, x.2.2))
          | .ok () => feedAll c (k.code c) o chunks x.2.1 x.2.2) := by
      rw [feedAll, h1, Res.ok_bind]
    rw [hwhole, hpa, hrun]
    cases he : (parseAll c k ((bits ++ chunk).drop p)).2 with
    | waits r =>
      rw [he] at h3
      obtain ⟨b2, h4, q, h5, h6⟩ := h3
      have h7 := parseAll_rest c k _ he
      rw [h6] at h7
      have h8 := ih h5 hf hl h7 (out ++ (parseAll c k ((bits ++ chunk).drop p)).1) h5.2.2
      rw [h4, Res.ok_bind]
      simp only
      rw [← h6] at h8
      cases he2 : (parseAll c k (r ++ chunks.flatten)).2 with
      | waits r2 =>
        rw [he2] at h8
        obtain ⟨b3, g1, g2, g3⟩ := h8
        rw [← hfl] at g2 g3
        exact ⟨b3, by rw [g1, List.append_assoc], g2, g3⟩
      | fails r2 =>
        rw [he2] at h8
        obtain ⟨b3, j, g1, g2, g3, g4, g5⟩ := h8
        rw [← hfl] at g3 g4
        refine ⟨b3, j + 1, by rw [g1, List.append_assoc], by simpa using g2, ?_, g4, ?_⟩
        · rw [List.take_succ_cons, List.flatten_cons, ← List.append_assoc]
          exact g3
        · intro i hi
          cases i with
          | zero => exact ⟨bits.drop p, by simp [hw]⟩
          | succ i =>
            obtain ⟨l, g6⟩ := g5 i (by omega)
            have h9 := C125_parse_append c k hk ((bits ++ chunk).drop p) (chunks.take i).flatten (by
              have : (chunks.take i).flatten.length ≤ chunks.flatten.length := by
                conv => rhs; rw [← List.take_append_drop i chunks]
                rw [List.flatten_append, List.length_append]
                exact Nat.le_add_right _ _
              rw [List.length_append, List.length_drop]
              rw [List.length_append] at hl
              omega)
            rw [he] at h9
            refine ⟨l, ?_⟩
            rw [List.take_succ_cons, List.flatten_cons, ← List.append_assoc,
              List.drop_append_of_le_length (by rw [List.length_append]; omega), h9]
            rw [List.drop_append_of_le_length h5.2.2, ← h6] at g6
            exact g6
      | panics =>
        rw [he2] at h8
        exact h8
      | hangs =>
        rw [he2] at h8
        exact h8
    | fails r =>
      rw [he] at h3
      obtain ⟨b2, h4, q, h5, h6⟩ := h3
      rw [h4, Res.ok_bind]
      refine ⟨b2, 0, rfl, by simp, ?_, ?_, ?_⟩
      · rw [hfl]
        have e : ((bits ++ chunk) ++ chunks.flatten).length - (r ++ chunks.flatten).length = q := by
          have := h5.2.2
          simp only at this
          rw [h6, List.length_append, List.length_append (as := List.drop _ _), List.length_drop]
          omega
        rw [e]
        simpa using h5
      · rw [hfl, h6]
        obtain ⟨u, hu⟩ := List.drop_suffix q (bits ++ chunk)
        exact ⟨u, by rw [← List.append_assoc, hu]⟩
      · intro i hi
        have : i = 0 := by omega
        subst this
        exact ⟨bits.drop p, by simp [hw]⟩
    | panics =>
      rw [he] at h3
      rw [show drain c (k.code c) o.toBitVecOps b1 out = .panic from h3]
      rfl
    | hangs =>
      rw [he] at h3
      exact h3.elim

end

/-- C125. Without bits no value is decoded, and nothing fails but for `Comma(n)` with `64 ≤ n` in builds with overflow checks. -/
theorem C125_start (c : Cfg) (k : CodeName) (hk : k.TakesBits) : k.decOut c [] = .nothing ∨ k.decOut c [] = .panics := by
  induction k with
  | unary => exact Or.inl rfl
  | omega => exact Or.inl (by simp [CodeName.decOut, omegaOut])
  | comma n =>
    simp only [CodeName.decOut, commaOut]
    rw [if_neg hk, commaSplit, dif_pos (Or.inr (by show 0 < n; exact Nat.pos_of_ne_zero hk))]
    split
    · exact Or.inr rfl
    · simp
  | fibonacci => exact Or.inl rfl
  | elias k ih =>
    simp only [CodeName.decOut]
    rcases ih hk with h | h <;> rw [h]
    · exact Or.inl rfl
    · exact Or.inr rfl
  | lift0 k ih =>
    simp only [CodeName.decOut]
    rcases ih hk with h | h <;> rw [h]
    · exact Or.inl rfl
    · exact Or.inr rfl

theorem valid_takes {k : CodeName} (h : k.Valid) : k.TakesBits := by
  induction k with
  | unary => trivial
  | omega => trivial
  | fibonacci => trivial
  | comma n => exact Nat.ne_of_gt (Nat.lt_of_lt_of_le (by decide) h.1)
  | elias k ih => exact ih h.1
  | lift0 k ih => exact ih h

/-- An incomplete codeword is waited for. -/
theorem decOut_incomplete (c : Cfg) {k : CodeName} (h : k.Valid) {v : Nat} (hd : k.Dom v) {t u : List Bool}
    (hw : CodeName.word k v = t ++ u) (hu : u ≠ []) (hl : (CodeName.word k v).length < 2 ^ 64) :
    k.decOut c t = .nothing ∨ k.decOut c t = .eof := by
  by_cases h1 : k.decOut c t = .nothing ∨ k.decOut c t = .eof
  · exact h1
  · exfalso
    rw [not_or] at h1
    have h2 := C121_final c k t u (by rw [← hw]; exact hl) h1
    obtain ⟨l, h3, h4⟩ := (C119_valid k h c.debug v (dom_lt k v hd)).1 hd
    have h5 := C119_roundtrip c k h hd (dom_lt k v hd) (rest := []) h4 (by
      rw [(k.isWord_iff h hd).1 h3, List.append_nil]; exact hl)
    rw [(k.isWord_iff h hd).1 h3, List.append_nil, hw, h2] at h5
    cases ho : k.decOut c t with
    | value x r =>
      rw [ho] at h5
      injection h5 with h6 h7
      exact hu (List.append_eq_nil_iff.1 h7).2
    | _ => rw [ho] at h5; cases h5

/-- C125. Values are delivered as soon as their codewords are complete: of the codewords of `vs` and a part of another, exactly `vs` is
decoded. -/
theorem C125_timely (c : Cfg) {k : CodeName} (h : k.Valid) (vs : List Nat) (hd : ∀ v ∈ vs, k.Dom v) {t : List Bool}
    (ht : t = [] ∨ ∃ v u, k.Dom v ∧ CodeName.word k v = t ++ u ∧ u ≠ [] ∧ (CodeName.word k v).length < 2 ^ 64)
    (hl : (vs.flatMap (CodeName.word k) ++ t).length < 2 ^ 64) :
    parseAll c k (vs.flatMap (CodeName.word k) ++ t) = (vs, .waits t) := by
  induction vs with
  | nil =>
    rw [List.flatMap_nil, List.nil_append]
    have h1 : k.decOut c t = .nothing ∨ k.decOut c t = .eof := by
      rcases ht with rfl | ⟨v, u, h1, h2, h3, h4⟩
      · have h5 := (C62_all c true (k.of c h)).ends dequeRead [] (by intro b s h; cases h)
        have h6 := (C106_all c k [] (by decide)).outOf
        rw [h5] at h6
        exact Or.inl h6
      · exact decOut_incomplete c h h1 h2 h3 h4
    rcases h1 with h1 | h1 <;> rw [parseAll, h1]
  | cons v vs ih =>
    rw [List.flatMap_cons, List.append_assoc] at hl ⊢
    have hv := hd v List.mem_cons_self
    obtain ⟨l, h3, h4⟩ := (C119_valid k h c.debug v (dom_lt k v hv)).1 hv
    rw [(k.isWord_iff h hv).1 h3] at h4
    have h5 := C119_roundtrip c k h hv (dom_lt k v hv) h4 hl
    have h6 := (decOut_value c k (valid_takes h) hl h5).2
    rw [parseAll, h5]
    simp only
    rw [if_pos h6, ih (fun x hx => hd x (List.mem_cons_of_mem _ hx)) (by rw [List.length_append] at hl; omega)]

/-- C125 for a new buffer over a `BitVector`. -/
theorem C125_bit_vector (c : Cfg) (h : IsBlk w) (k : CodeName) (hk : k.TakesBits) (hn : k.decOut c [] = .nothing)
    (chunks : List (List Bool)) (hf : Fits c.usz w chunks.flatten.length) :
    ∃ s0, BitBuf.new c w = .ok s0 ∧ FeedsTo c k (bvR c w) [] 0 chunks (parseAll c k chunks.flatten).1
      (parseAll c k chunks.flatten).2 (feedAll c (k.code c) (bvBitVecPush c w) chunks s0 []) := by
  obtain ⟨s0, h0, hR⟩ := (C54_constructors (c := c) (w := w)).1 h 0 (hf.mono (Nat.zero_le _))
  refine ⟨s0, h0, ?_⟩
  have h1 := C125_chunks (bv_pushVec c h) (fun hf hm => hf.mono hm) k hk chunks hR (by simpa using hf)
    (by rw [List.nil_append]; exact Nat.lt_of_le_of_lt (Nat.le_add_right _ _) (hf.lt h.pos)) (by rw [List.drop_nil, parseAll, hn]) []
  simpa using h1

/-- C125. A stream of codewords, however divided, arrives complete: the values are those that were encoded, and all bits have been used. -/
theorem C125_roundtrip (c : Cfg) (h : IsBlk w) {k : CodeName} (hk : k.Valid) (vs : List Nat) (hd : ∀ v ∈ vs, k.Dom v)
    (chunks : List (List Bool)) (he : chunks.flatten = vs.flatMap (CodeName.word k)) (hf : Fits c.usz w chunks.flatten.length) :
    ∃ s0 s1, BitBuf.new c w = .ok s0 ∧ feedAll c (k.code c) (bvBitVecPush c w) chunks s0 [] = .ok (.ok (), (s1, vs)) ∧
      bufR (bvR c w) s1 ⟨vs.flatMap (CodeName.word k), (vs.flatMap (CodeName.word k)).length⟩ := by
  have hl : (vs.flatMap (CodeName.word k)).length < 2 ^ 64 := by
    rw [← he]
    exact Nat.lt_of_le_of_lt (Nat.le_add_right _ _) (hf.lt h.pos)
  have hn : k.decOut c [] = .nothing := by
    have h5 := (C62_all c true (k.of c hk)).ends dequeRead [] (by intro b s h; cases h)
    have h6 := (C106_all c k [] (by decide)).outOf
    rw [h5] at h6
    exact h6
  obtain ⟨s0, h1, h2⟩ := C125_bit_vector c h k (valid_takes hk) hn chunks hf
  have h3 := C125_timely c hk vs hd (t := []) (Or.inl rfl) (by rw [List.append_nil]; exact hl)
  rw [List.append_nil] at h3
  rw [he, h3] at h2
  obtain ⟨s1, h4, h5, -⟩ := h2
  rw [List.nil_append, he] at h5
  exact ⟨s0, s1, h1, h4, h5⟩

/-! Cases: the gamma words of 5 and 3, `00101` (low bits first: `001`, `10`) and `011`, in three pieces; and a piece with a Fibonacci
word that is too long. -/
example (c : Cfg) : parseAll c (.elias .unary) [false, false, true, true] = ([], .waits [false, false, true, true]) ∧
    parseAll c (.elias .unary) [false, false, true, true, false, false] = ([5], .waits [false]) ∧
    parseAll c (.elias .unary) [false, false, true, true, false, false, true, true] = ([5, 3], .waits []) := by
  refine ⟨?_, ?_, ?_⟩ <;> · simp [parseAll, CodeName.decOut, unaryOut, eliasOut, bitsVal]

example : parseAll ⟨false, .p64, false⟩ .fibonacci ([true, true] ++ List.replicate 93 false) = ([1], .fails [false]) := by
  rw [parseAll, show CodeName.decOut _ .fibonacci ([true, true] ++ List.replicate 93 false) = .value 1 (List.replicate 93 false) by
    decide +kernel]
  simp only
  rw [if_pos (by decide), parseAll, show CodeName.decOut _ .fibonacci (List.replicate 93 false) = .invalid [false] by decide +kernel]

example (c : Cfg) : ∃ s0 s1, BitBuf.new c 8 = .ok s0 ∧
    feedAll c (gamma c) (bvBitVecPush c 8) [[false, false, true, true], [], [false, false], [true, true]] s0 [] =
      .ok (.ok (), (s1, [5, 3])) ∧
    bufR (bvR c 8) s1 ⟨[false, false, true, true, false, false, true, true], 8⟩ :=
  C125_roundtrip c isBlk8 (k := .elias .unary) ⟨trivial, fun n hn => Nat.lt_trans hn (by decide)⟩ [5, 3]
    (by
      intro v hv
      rcases List.mem_cons.1 hv with rfl | hv
      · exact ⟨by decide, by decide⟩
      · rcases List.mem_cons.1 hv with rfl | hv
        · exact ⟨by decide, by decide⟩
        · cases hv)
    [[false, false, true, true], [], [false, false], [true, true]] (by decide +kernel)
    (by rcases c with ⟨_, _ | _, _⟩ <;> exact ⟨by decide, by simp only [Cfg.usz]; decide⟩)

/-! Each theorem of this file that has hypotheses is applied to concrete data in `Verif/Instances/Chunks.lean`. -/

end Succinct
