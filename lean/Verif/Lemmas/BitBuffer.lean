import Verif.Lemmas.Stream
import Verif.Lemmas.BitVector
import Verif.Spec.Buffer
/-! `BitBuffer` over any lawful bit vector is a file of bits with a cursor. -/
namespace Succinct
open Spec

/-- What a buffer needs of the vector it wraps. -/
structure PushVec (c : Cfg) (w : Nat) (o : BitVecPushOps w S) (R : S → List Bool → Prop) (Fit : Nat → Prop) : Prop where
  blk : IsBlk w
  law : BVLaw c o.toBitVecOps R
  block : BVBlockLaw c o.toBitVecOps R
  upd : BVMutLaw c o.toBitVecMutOps R
  push : BVPushLaw w o R Fit

/-- representation relation of a buffer -/
def bufR (R : S → List Bool → Prop) (b : BitBuf S) (f : BitFile) : Prop :=
  R b.data f.bits ∧ b.pos = f.pos ∧ f.pos ≤ f.bits.length

theorem buf_bitLen_def (c : Cfg) (o : BitVecOps w S) (b : BitBuf S) :
    (BitBuf.bitVec c o).bitLen b = o.bitLen b.data := rfl

theorem buf_block (c : Cfg) {o : BitVecOps w S} {R : S → List Bool → Prop} (hb : BVBlockLaw c o R) :
    BVBlockLaw c (BitBuf.bitVec c o) (fun b => R b.data) where
  blockLen := fun hR => hb.blockLen hR
  getBlock := fun hR => hb.getBlock hR
  getBlock_panic := fun hR => hb.getBlock_panic hR

theorem buf_pad (c : Cfg) {o : BitVecOps w S} {R : S → List Bool → Prop} (hp : BVPadLaw o R) :
    BVPadLaw (BitBuf.bitVec c o) (fun b => R b.data) := ⟨fun hR => hp.getBlock hR⟩

theorem buf_law (c : Cfg) (h : IsBlk w) {o : BitVecOps w S} {R : S → List Bool → Prop} (hl : BVLaw c o R)
    (hb : BVBlockLaw c o R) : BVLaw c (BitBuf.bitVec c o) (fun b => R b.data) :=
  BVLaw.ofBlocks h (buf_block c hb) (fun hR => hl.fits hR) (fun hR => hl.bitLen hR) rfl rfl

/-- writing through the buffer, with the cursor left alone -/
theorem buf_mut_law (c : Cfg) (h : IsBlk w) {o : BitVecMutOps w S} {R : S → List Bool → Prop}
    (hl : BVLaw c o.toBitVecOps R) (hb : BVBlockLaw c o.toBitVecOps R) (hm : BVMutLaw c o R) (p : Nat) :
    BVMutLaw c (BitBuf.bitVecMut c o) (fun b bits => R b.data bits ∧ b.pos = p) := by
  refine BVMutLaw.ofBlocks h ?_ (fun hR => hl.fits hR.1) (fun hR => hl.bitLen hR.1) ?_ ?_ rfl rfl
  · exact ⟨⟨fun hR => hb.blockLen hR.1, fun hR => hb.getBlock hR.1⟩, fun hR => hb.getBlock_panic hR.1⟩
  · intro s bits hR i v hi
    obtain ⟨d, h1, h2⟩ := hm.setBlock hR.1 i v hi
    refine ⟨{ s with data := d }, ?_, h2, hR.2⟩
    show (o.setBlock s.data i v >>= fun d => Res.ok { s with data := d }) = _
    rw [h1, Res.ok_bind]
  · intro s bits hR i v h1 h2 h3
    show (o.setBlock s.data i v >>= fun d => Res.ok { s with data := d }) = _
    rw [hm.setBlock_panic hR.1 i v h1 h2 h3]; rfl

theorem buf_read_def (c : Cfg) (o : BitVecOps w S) (b : BitBuf S) :
    (BitBuf.read c o).readBit b = ((BitBuf.bitVec c o).bitLen b >>= fun n => if b.pos < n then
      (BitBuf.bitVec c o).getBit b b.pos >>= fun result => addN c 64 b.pos 1 >>= fun p =>
        Res.ok (Except.ok (some result), { b with pos := p }) else Res.ok (Except.ok none, b)) := rfl

theorem buf_write_def (c : Cfg) (o : BitVecPushOps w S) (b : BitBuf S) (v : Bool) :
    (BitBuf.write c o).writeBit v b =
      (BitBuf.pad c o b >>= fun s => (BitBuf.bitVecMut c o.toBitVecMutOps).setBit s s.pos v >>= fun s' =>
        addN c 64 s.pos 1 >>= fun p => Res.ok (Except.ok (), { s' with pos := p })) := rfl

section
variable {c : Cfg} {w : Nat} {S : Type} {R : S → List Bool → Prop}

theorem buf_read_some {o : BitVecOps w S} (h : IsBlk w) (hl : BVLaw c o R) (hb : BVBlockLaw c o R) {b : BitBuf S}
    {bits : List Bool} (hR : R b.data bits) (hp : b.pos < bits.length) :
    (BitBuf.read c o).readBit b = .ok (.ok (some bits[b.pos]), { b with pos := b.pos + 1 }) := by
  have hfit := (hl.fits hR).lt h.pos
  rw [buf_read_def, buf_bitLen_def, hl.bitLen hR, Res.ok_bind, if_pos hp, (buf_law c h hl hb).getBit hR _ (by omega),
    List.getElem?_eq_getElem hp, expectR_some, Res.ok_bind, addN_ok (by omega), Res.ok_bind]

theorem buf_read_none {o : BitVecOps w S} (hl : BVLaw c o R) {b : BitBuf S}
    {bits : List Bool} (hR : R b.data bits) (hp : bits.length ≤ b.pos) :
    (BitBuf.read c o).readBit b = .ok (.ok none, b) := by
  rw [buf_read_def, buf_bitLen_def, hl.bitLen hR, Res.ok_bind, if_neg (by omega)]

/-- A buffer is a lawful source of the bits from its cursor on. -/
theorem buf_source {o : BitVecOps w S} (h : IsBlk w) (hl : BVLaw c o R) (hb : BVBlockLaw c o R) :
    LawfulSource (BitBuf.read c o) (fun b l => ∃ f, bufR R b f ∧ l = f.bits.drop f.pos) where
  some := by
    rintro b x l ⟨f, ⟨hR, hp, hle⟩, hl2⟩
    have hlt : b.pos < f.bits.length := by
      rcases Nat.lt_or_ge f.pos f.bits.length with h | h
      · omega
      · rw [List.drop_eq_nil_of_le h] at hl2; cases hl2
    rw [List.drop_eq_getElem_cons (by omega)] at hl2
    injection hl2 with e1 e2
    refine ⟨{ b with pos := b.pos + 1 }, ?_, ⟨f.bits, f.pos + 1⟩, ⟨hR, ?_, ?_⟩, e2⟩
    · rw [buf_read_some h hl hb hR hlt, e1]; simp only [hp]
    · show b.pos + 1 = f.pos + 1
      omega
    · show f.pos + 1 ≤ f.bits.length
      omega
  none := by
    rintro b ⟨f, ⟨hR, hp, hle⟩, hl2⟩
    have : f.bits.length ≤ f.pos := List.drop_eq_nil_iff.1 hl2.symm
    exact ⟨b, buf_read_none hl hR (by omega), f, ⟨hR, hp, hle⟩, hl2⟩

theorem buf_write {o : BitVecPushOps w S} {Fit : Nat → Prop} (hv : PushVec c w o R Fit) {b : BitBuf S} {f : BitFile}
    (hb : bufR R b f) (v : Bool) (hfit : f.pos = f.bits.length → Fit (f.bits.length + 1)) :
    ∃ b', (BitBuf.write c o).writeBit v b = .ok (.ok (), b') ∧
      bufR R b' ⟨f.bits.take f.pos ++ v :: f.bits.drop (f.pos + 1), f.pos + 1⟩ := by
  obtain ⟨hR, hp, hle⟩ := hb
  -- after the loop
  have hpad : ∃ (b1 : BitBuf S) (bits1 : List Bool), BitBuf.pad c o b = .ok b1 ∧ R b1.data bits1 ∧ b1.pos = f.pos ∧
      f.pos < bits1.length ∧ bits1.set f.pos v = f.bits.take f.pos ++ v :: f.bits.drop (f.pos + 1) := by
    rcases Nat.lt_or_ge f.pos f.bits.length with hlt | hge
    · refine ⟨b, f.bits, ?_, hR, hp, hlt, List.set_eq_take_append_cons_drop.trans (if_pos hlt)⟩
      rw [BitBuf.pad, buf_bitLen_def, hv.law.bitLen hR, Res.ok_bind, if_neg (by omega)]
    · have he : f.pos = f.bits.length := by omega
      obtain ⟨d, h1, h2⟩ := hv.push.pushBit hR false (hfit he)
      refine ⟨{ b with data := d }, f.bits ++ [false], ?_, h2, hp, by simp; omega, ?_⟩
      · rw [BitBuf.pad, buf_bitLen_def, hv.law.bitLen hR, Res.ok_bind, if_pos (by omega), h1, Res.ok_bind, BitBuf.pad,
          buf_bitLen_def, hv.law.bitLen h2, Res.ok_bind, if_neg (by simp; omega)]
      · rw [he, List.set_append_right _ _ (Nat.le_refl _)]
        simp
  obtain ⟨b1, bits1, h1, hR1, hp1, hlt1, hset⟩ := hpad
  obtain ⟨b2, h2, hR2, hp2⟩ := (buf_mut_law c hv.blk hv.law hv.block hv.upd f.pos).setBit ⟨hR1, hp1⟩ f.pos v hlt1
  have hfl := (hv.law.fits hR1).lt hv.blk.pos
  refine ⟨{ b2 with pos := f.pos + 1 }, ?_, ?_, rfl, ?_⟩
  · rw [buf_write_def, h1, Res.ok_bind, hp1, h2, Res.ok_bind, addN_ok (by omega), Res.ok_bind]
  · rw [← hset]; exact hR2
  · show f.pos + 1 ≤ (f.bits.take f.pos ++ v :: f.bits.drop (f.pos + 1)).length
    simp; omega

/-- A buffer with its cursor at the end is a lawful sink. -/
theorem buf_sink {o : BitVecPushOps w S} {Fit : Nat → Prop} (hv : PushVec c w o R Fit) :
    LawfulSink (BitBuf.write c o) (fun b l => bufR R b ⟨l, l.length⟩) Fit where
  write := by
    intro b l hb v hf
    obtain ⟨b', h1, h2⟩ := buf_write hv hb v (fun _ => hf)
    refine ⟨b', h1, ?_⟩
    simpa [List.drop_eq_nil_of_le (Nat.le_succ l.length)] using h2

theorem buf_seek {o : BitVecOps w S} (hl : BVLaw c o R) {b : BitBuf S} {f : BitFile} (hb : bufR R b f) (p : Nat) :
    (p ≤ f.bits.length → ∃ b', BitBuf.seek o p b = .ok (.ok (), b') ∧ bufR R b' ⟨f.bits, p⟩) ∧
    (f.bits.length < p → BitBuf.seek o p b = .ok (.error .notFound, b)) := by
  obtain ⟨hR, hp, hle⟩ := hb
  constructor
  · intro h
    exact ⟨{ b with pos := p }, by rw [BitBuf.seek, hl.bitLen hR, Res.ok_bind, if_pos h], hR, rfl, h⟩
  · intro h
    rw [BitBuf.seek, hl.bitLen hR, Res.ok_bind, if_neg (by omega)]

end

/-- one call on the model -/
def bufStep (c : Cfg) (o : BitVecPushOps w S) (s : BitBuf S) : BufOp → Res (BufOut × BitBuf S)
  | .write b => do
    match ← (BitBuf.write c o).writeBit b s with
    | (.ok (), s) => .ok (.unit, s)
    | (.error e, s) => .ok (.err e, s)
  | .read => do
    match ← (BitBuf.read c o.toBitVecOps).readBit s with
    | (.ok r, s) => .ok (.optBit r, s)
    | (.error e, s) => .ok (.err e, s)
  | .seek p => do
    match ← BitBuf.seek o.toBitVecOps p s with
    | (.ok (), s) => .ok (.unit, s)
    | (.error e, s) => .ok (.err e, s)
  | .position => .ok (.num s.position, s)
  | .bitLen => do let n ← (BitBuf.bitVec c o.toBitVecOps).bitLen s; .ok (.num n, s)
  | .getBit i => do let b ← (BitBuf.bitVec c o.toBitVecOps).getBit s i; .ok (.bit b, s)
  | .setBit i b => do let s ← (BitBuf.bitVecMut c o.toBitVecMutOps).setBit s i b; .ok (.unit, s)

/-- a sequence of calls on the model -/
def bufRun (c : Cfg) (o : BitVecPushOps w S) (s : BitBuf S) : List BufOp → Res (List BufOut × BitBuf S)
  | [] => .ok ([], s)
  | op :: ops => do
    let (out, s) ← bufStep c o s op
    let (outs, s) ← bufRun c o s ops
    .ok (out :: outs, s)

theorem bufStep_refines {o : BitVecPushOps w S} {Fit : Nat → Prop} (hv : PushVec c w o R Fit) {s : BitBuf S} {f : BitFile}
    (hR : bufR R s f) (op : BufOp) (hok : op.Ok Fit f) : Refines (bufR R) (bufStep c o s op) (bufSpec f op) := by
  have hfl := (hv.law.fits hR.1).lt hv.blk.pos
  cases op with
  | write b =>
    obtain ⟨s', h1, h2⟩ := buf_write hv hR b hok
    exact ⟨s', by simp only [bufStep, h1, Res.ok_bind], h2⟩
  | read =>
    obtain ⟨hR1, hp, hle⟩ := hR
    rw [bufSpec]
    rcases Nat.lt_or_ge f.pos f.bits.length with hlt | hge
    · have h1 := buf_read_some hv.blk hv.law hv.block hR1 (b := s) (by omega)
      rw [List.getElem?_eq_getElem hlt]
      refine ⟨{ s with pos := s.pos + 1 }, ?_, hR1, ?_, hlt⟩
      · simp only [bufStep, h1, Res.ok_bind, hp]
      · show s.pos + 1 = f.pos + 1
        omega
    · have h1 := buf_read_none hv.law hR1 (b := s) (by omega)
      rw [List.getElem?_eq_none hge]
      exact ⟨s, by simp only [bufStep, h1, Res.ok_bind], hR1, hp, hle⟩
  | seek p =>
    obtain ⟨h1, h2⟩ := buf_seek hv.law hR p
    rw [bufSpec]
    split
    · next h =>
      obtain ⟨s', h3, h4⟩ := h1 h
      exact ⟨s', by simp only [bufStep, h3, Res.ok_bind], h4⟩
    · next h =>
      have h3 := h2 (by omega)
      exact ⟨s, by simp only [bufStep, h3, Res.ok_bind], hR⟩
  | position => exact ⟨s, by simp only [bufStep, BitBuf.position, hR.2.1], hR⟩
  | bitLen =>
    refine ⟨s, ?_, hR⟩
    simp only [bufStep, buf_bitLen_def, hv.law.bitLen hR.1, Res.ok_bind]
  | getBit i =>
    have h1 := (buf_law c hv.blk hv.law hv.block).getBit hR.1 i hok
    rw [bufSpec]
    rcases hb : f.bits[i]? with _ | b
    · rw [hb] at h1
      show bufStep c o s (.getBit i) = .panic
      simp only [bufStep, h1]; rfl
    · rw [hb] at h1
      exact ⟨s, by simp only [bufStep, h1, expectR_some, Res.ok_bind], hR⟩
  | setBit i b =>
    have hm := buf_mut_law c hv.blk hv.law hv.block hv.upd f.pos
    rw [bufSpec]
    split
    · next h =>
      obtain ⟨s', h1, h2, h3⟩ := hm.setBit ⟨hR.1, hR.2.1⟩ i b h
      exact ⟨s', by simp only [bufStep, h1, Res.ok_bind], h2, h3, by simp; exact hR.2.2⟩
    · next h =>
      have h1 := hm.setBit_panic ⟨hR.1, hR.2.1⟩ i b (by omega) hok
      show bufStep c o s (.setBit i b) = .panic
      simp only [bufStep, h1]; rfl

theorem bufRun_refines {o : BitVecPushOps w S} {Fit : Nat → Prop} (hv : PushVec c w o R Fit) (ops : List BufOp)
    {s : BitBuf S} {f : BitFile} (hR : bufR R s f) (hok : bufOpsOk Fit f ops) :
    Refines (bufR R) (bufRun c o s ops) (bufSpecRun f ops) := by
  induction ops generalizing s f with
  | nil => exact ⟨s, rfl, hR⟩
  | cons op ops ih =>
    have h1 := bufStep_refines hv hR op hok.1
    have h2 := hok.2
    unfold bufRun bufSpecRun
    rcases hsp : bufSpec f op with _ | ⟨out, f'⟩
    · rw [hsp] at h1
      have h1 : bufStep c o s op = .panic := h1
      exact by rw [h1]; rfl
    · rw [hsp] at h1
      obtain ⟨s', hs', hR'⟩ := h1
      have h3 := ih hR' (h2 _ hsp)
      rcases hsp2 : bufSpecRun f' ops with _ | ⟨os, f''⟩
      · rw [hsp2] at h3
        have h3 : bufRun c o s' ops = .panic := h3
        simp only [hs', Res.ok_bind, h3, Option.bind_eq_bind, Option.bind_some, hsp2, Option.bind_none]
        rfl
      · rw [hsp2] at h3
        obtain ⟨s'', hs'', hR''⟩ := h3
        simp only [hs', Res.ok_bind, hs'', Option.bind_eq_bind, Option.bind_some, hsp2]
        exact ⟨s'', rfl, hR''⟩

/-- `BitVector` can be wrapped. -/
theorem bv_pushVec (c : Cfg) (h : IsBlk w) : PushVec c w (bvBitVecPush c w) (bvR c w) (Fits c.usz w) :=
  by
  refine ⟨h, ?_, ?_, ?_, ?_⟩
  · exact bv_law c h
  · exact bv_block c h
  · exact bv_mut_law c h
  · exact bv_push_law c h

end Succinct
