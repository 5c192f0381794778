import Verif.Spec.BufferMemory
import Verif.Props.EncodeMemory
import Verif.Props.Stream
/-!
# C128: a bit buffer in a memory that may be exhausted
-/
namespace Succinct
open Spec

/-- A vector with the given bits and capacity. -/
def capR (c : Cfg) (w k : Nat) (s : CVB w) (bits : List Bool) : Prop := bvR c w s.base bits ∧ s.cap = k

theorem tryChange_same (H : Heap) (s : CVB w) (b : VB w) (h : b.vec.length ≤ s.base.vec.length) :
    s.tryChange H b = .ok { s with base := b } := by
  unfold CVB.tryChange CVB.tryReserve
  rw [if_pos (by omega)]
  rfl

theorem heap_law (c : Cfg) (h : IsBlk w) (H : Heap) (k : Nat) : BVLaw c (heapBitVec c H w).toBitVecOps (capR c w k) where
  fits := fun hR => (bv_law c h).fits hR.1
  bitLen := fun hR => (bv_law c h).bitLen hR.1
  getBit := fun hR => (bv_law c h).getBit hR.1
  getBits := fun hR => (bv_law c h).getBits hR.1
  getBits_panic := fun hR => (bv_law c h).getBits_panic hR.1

theorem heap_block (c : Cfg) (h : IsBlk w) (H : Heap) (k : Nat) : BVBlockLaw c (heapBitVec c H w).toBitVecOps (capR c w k) where
  blockLen := fun hR => (bv_block c h).blockLen hR.1
  getBlock := fun hR => (bv_block c h).getBlock hR.1
  getBlock_panic := fun hR => (bv_block c h).getBlock_panic hR.1

theorem capR_change (c : Cfg) (H : Heap) {k : Nat} {s : CVB w} {bits bits' : List Bool} (hR : capR c w k s bits) {x : Res (VB w)}
    (hx : ∃ b, x = .ok b ∧ bvR c w b bits') (hl : bits'.length = bits.length) :
    ∃ s', (x >>= fun b => s.tryChange H b) = .ok s' ∧ capR c w k s' bits' := by
  obtain ⟨b, h1, h2⟩ := hx
  refine ⟨{ s with base := b }, ?_, h2, hR.2⟩
  rw [h1, Res.ok_bind, tryChange_same H s b (by rw [h2.blocks, hR.1.blocks, hl])]

theorem heap_mut_law (c : Cfg) (h : IsBlk w) (H : Heap) (k : Nat) : BVMutLaw c (heapBitVec c H w).toBitVecMutOps (capR c w k) where
  setBit := fun hR i v hi => capR_change c H hR ((bv_mut_law c h).setBit hR.1 i v hi) (by simp)
  setBit_panic := fun {s bits} hR i v h1 h2 => by
    show ((bvBitVecMut c w).setBit s.base i v >>= fun b => s.tryChange H b) = _
    rw [(bv_mut_law c h).setBit_panic hR.1 i v h1 h2]; rfl
  setBits := fun hR p n v h1 h2 h3 => capR_change c H hR ((bv_mut_law c h).setBits hR.1 p n v h1 h2 h3) (length_overwrite (by simpa using h3))
  setBits_panic := fun {s bits} hR p n v h1 h2 h3 => by
    show ((bvBitVecMut c w).setBits s.base p n v >>= fun b => s.tryChange H b) = _
    rw [(bv_mut_law c h).setBits_panic hR.1 p n v h1 h2 h3]; rfl
  setBlock := fun hR i v hi => capR_change c H hR ((bv_mut_law c h).setBlock hR.1 i v hi) (length_overwrite (by
    have := (lt_blocksFor h.pos).1 hi
    simp
    omega))
  setBlock_panic := fun {s bits} hR i v h1 h2 h3 => by
    show ((bvBitVecMut c w).setBlock s.base i v >>= fun b => s.tryChange H b) = _
    rw [(bv_mut_law c h).setBlock_panic hR.1 i v h1 h2 h3]; rfl

/-! ### Pushing a bit -/

theorem CanPush.add {H : Heap} {len cap a b : Nat} :
    H.CanPush len cap (a + b) ↔ H.CanPush len cap a ∧ H.CanPush (len + a) (H.capAfter len cap a) b := by
  induction a generalizing len cap with
  | zero => rw [Nat.zero_add]; exact ⟨fun h => ⟨trivial, h⟩, fun h => h.2⟩
  | succ a ih =>
    rw [Nat.add_right_comm a 1 b, show len + (a + 1) = len + 1 + a by omega]
    show _ ∧ _ ↔ (_ ∧ _) ∧ _
    rw [ih, and_assoc]
    rfl

theorem capAfter_add (H : Heap) (len cap a b : Nat) :
    H.capAfter len cap (a + b) = H.capAfter (len + a) (H.capAfter len cap a) b := by
  induction a generalizing len cap with
  | zero => rw [Nat.zero_add]; rfl
  | succ a ih =>
    rw [Nat.add_right_comm a 1 b, show len + (a + 1) = len + 1 + a by omega]
    exact ih _ _

theorem CanPush.granted {H : Heap} (hA : H.toAlloc.Lawful) {len cap k : Nat} (h : H.CanPush len cap k) (hl : len ≤ cap)
    (hc : H.Grants cap) : len + k ≤ H.capAfter len cap k ∧ H.Grants (H.capAfter len cap k) := by
  induction k generalizing len cap with
  | zero => exact ⟨hl, hc⟩
  | succ k ih =>
    have h1 := hA.grow len cap 1
    have := ih h.2 (by unfold Heap.after; split <;> omega) (by
      unfold Heap.after
      split
      · exact hc
      · next hn => exact h.1.resolve_left hn)
    rw [show len + (k + 1) = len + 1 + k by omega]
    exact this

theorem blocksFor_succ (hw : 0 < w) (n : Nat) : blocksFor w (n + 1) ≤ blocksFor w n + 1 := by
  rw [blocksFor_le hw, Nat.succ_mul]
  have := le_blocksFor_mul n hw
  omega

theorem moreBlocks_add {w : Nat} (bits l : List Bool) (n : Nat) :
    moreBlocks w bits (l.length + n) = moreBlocks w bits l.length + moreBlocks w (bits ++ l) n ∧
    blocksFor w bits.length + moreBlocks w bits l.length = blocksFor w (bits ++ l).length := by
  unfold moreBlocks
  rw [List.length_append, Nat.add_assoc]
  have h1 := blocksFor_mono (w := w) (show bits.length ≤ bits.length + l.length by omega)
  have h2 := blocksFor_mono (w := w) (show bits.length + l.length ≤ bits.length + (l.length + n) by omega)
  omega

theorem heap_push (c : Cfg) (h : IsBlk w) (H : Heap) {k : Nat} {s : CVB w} {bits : List Bool} (hR : capR c w k s bits) (v : Bool)
    (hf : Fits c.usz w (bits.length + 1)) :
    (H.CanPush (blocksFor w bits.length) k (moreBlocks w bits 1) → ∃ s', (heapBitVec c H w).pushBit s v = .ok s' ∧
      capR c w (H.capAfter (blocksFor w bits.length) k (moreBlocks w bits 1)) s' (bits ++ [v])) ∧
    (¬ H.CanPush (blocksFor w bits.length) k (moreBlocks w bits 1) → (heapBitVec c H w).pushBit s v = .panic) := by
  obtain ⟨b, h1, h2⟩ := (bv_push_law c h).pushBit hR.1 v hf
  have e : (heapBitVec c H w).pushBit s v = s.tryChange H b := by
    show ((bvBitVecPush c w).pushBit s.base v >>= fun b => s.tryChange H b) = _
    rw [h1, Res.ok_bind]
  have hb := h2.blocks
  have hb0 := hR.1.blocks
  rw [List.length_append, List.length_singleton] at hb
  have hm : b.vec.length - s.base.vec.length = moreBlocks w bits 1 := by rw [hb, hb0]; rfl
  have hle : moreBlocks w bits 1 ≤ 1 := by
    have := blocksFor_succ h.pos bits.length
    unfold moreBlocks
    omega
  rw [e]
  unfold CVB.tryChange CVB.tryReserve
  rw [hm, hb0, hR.2]
  rcases (show moreBlocks w bits 1 = 0 ∨ moreBlocks w bits 1 = 1 by omega) with h0 | h0 <;> rw [h0]
  · rw [if_pos (Nat.zero_le _)]
    exact ⟨fun _ => ⟨_, rfl, h2, hR.2⟩, fun hn => absurd trivial hn⟩
  · by_cases hc : blocksFor w bits.length < k
    · rw [if_pos (by omega)]
      refine ⟨fun _ => ⟨_, rfl, h2, ?_⟩, fun hn => absurd ⟨.inl hc, trivial⟩ hn⟩
      show s.cap = H.after _ _
      rw [Heap.after, if_pos hc, hR.2]
    · rw [if_neg (by omega)]
      constructor
      · rintro ⟨hg, -⟩
        rw [assertR_true (hg.resolve_left hc)]
        refine ⟨_, rfl, h2, ?_⟩
        show (CVB.vecReserve H.toAlloc s 1).cap = H.after _ _
        rw [Heap.after, if_neg hc, CVB.vecReserve, hb0, hR.2, if_neg (by omega)]
      · intro hn
        rw [assertR, if_neg fun hg => hn ⟨.inr hg, trivial⟩]
        rfl

/-! ### Writing a bit -/

/-- A buffer with the given file, in granted memory of the given capacity. -/
structure HeldBuf (c : Cfg) (H : Heap) (w : Nat) (s : BitBuf (CVB w)) (f : HeldFile) : Prop where
  rep : bufR (capR c w f.cap) s f.toBitFile
  room : blocksFor w f.bits.length ≤ f.cap
  granted : H.Grants f.cap

theorem HeldBuf.fits {c : Cfg} {H : Heap} {w : Nat} {s : BitBuf (CVB w)} {f : HeldFile} (hs : HeldBuf c H w s f) (h : IsBlk w)
    (hB : H.Bounded c.usz w) : Fits c.usz w (f.bits.length + 1) := by
  refine hB.fits h hs.granted ?_
  have := blocksFor_succ h.pos f.bits.length
  have := hs.room
  omega

theorem heap_write {c : Cfg} (h : IsBlk w) {H : Heap} (hA : H.toAlloc.Lawful) (hB : H.Bounded c.usz w) {s : BitBuf (CVB w)}
    {f : HeldFile} (hs : HeldBuf c H w s f) (v : Bool) :
    let g := f.bits.take f.pos ++ v :: f.bits.drop (f.pos + 1)
    let n := g.length - f.bits.length
    (f.CanExtend H w n → ∃ s', (BitBuf.write c (heapBitVec c H w)).writeBit v s = .ok (.ok (), s') ∧
      HeldBuf c H w s' ⟨⟨g, f.pos + 1⟩, f.extended H w n⟩) ∧
    (¬ f.CanExtend H w n → (BitBuf.write c (heapBitVec c H w)).writeBit v s = .panic) := by
  intro g n
  obtain ⟨⟨hR, hp, hle⟩, hroom, hg⟩ := hs
  have hfit := HeldBuf.fits ⟨⟨hR, hp, hle⟩, hroom, hg⟩ h hB
  have hset : ∀ {k : Nat} {b1 : BitBuf (CVB w)} {bits1 : List Bool}, BitBuf.pad c (heapBitVec c H w) s = .ok b1 →
      capR c w k b1.data bits1 → b1.pos = f.pos → f.pos < bits1.length → bits1.set f.pos v = g →
      ∃ s', (BitBuf.write c (heapBitVec c H w)).writeBit v s = .ok (.ok (), s') ∧ bufR (capR c w k) s' ⟨g, f.pos + 1⟩ := by
    intro k b1 bits1 h1 hR1 hp1 hlt1 hset
    obtain ⟨b2, h2, hR2, hp2⟩ := (buf_mut_law c h (heap_law c h H k) (heap_block c h H k) (heap_mut_law c h H k) f.pos).setBit
      ⟨hR1, hp1⟩ f.pos v hlt1
    have hfl := ((heap_law c h H k).fits hR1).lt h.pos
    refine ⟨{ b2 with pos := f.pos + 1 }, ?_, ?_, rfl, ?_⟩
    · rw [buf_write_def, h1, Res.ok_bind, hp1, h2, Res.ok_bind, addN_ok (by omega), Res.ok_bind]
    · show capR c w k b2.data g
      rw [← hset]; exact hR2
    · show f.pos + 1 ≤ g.length
      rw [← hset, List.length_set]; exact hlt1
  have hpad : BitBuf.pad c (heapBitVec c H w) s = if s.pos ≥ f.bits.length then
      (heapBitVec c H w).pushBit s.data false >>= fun d => BitBuf.pad c (heapBitVec c H w) { s with data := d } else .ok s := by
    rw [BitBuf.pad, buf_bitLen_def, (heap_law c h H f.cap).bitLen hR, Res.ok_bind]
  rcases Nat.lt_or_ge f.pos f.bits.length with hlt | hge
  · have hg1 : f.bits.set f.pos v = g := List.set_eq_take_append_cons_drop.trans (if_pos hlt)
    have hn : n = 0 := by
      show g.length - _ = 0
      rw [← hg1, List.length_set, Nat.sub_self]
    have hm : moreBlocks w f.bits n = 0 := by rw [hn]; exact Nat.sub_self _
    have hc : f.CanExtend H w n := by
      unfold HeldFile.CanExtend
      rw [hm]
      trivial
    refine ⟨fun _ => ?_, fun hn => absurd hc hn⟩
    obtain ⟨s', h1, h2⟩ := hset (by rw [hpad, if_neg (by omega)]) hR hp hlt hg1
    have he : f.extended H w n = f.cap := by
      unfold HeldFile.extended
      rw [hm]
      rfl
    rw [he]
    refine ⟨s', h1, h2, ?_, hg⟩
    show blocksFor w g.length ≤ f.cap
    rw [← hg1, List.length_set]
    exact hroom
  · have he : f.pos = f.bits.length := by
      have : f.pos ≤ f.bits.length := hle
      omega
    have hg1 : g = f.bits ++ [v] := by
      show f.bits.take f.pos ++ v :: f.bits.drop (f.pos + 1) = _
      rw [he, List.take_length, List.drop_eq_nil_of_le (by omega)]
    have hn : n = 1 := by
      show g.length - _ = 1
      rw [hg1, List.length_append, List.length_singleton]
      omega
    obtain ⟨h1, h2⟩ := heap_push c h H hR false hfit
    rw [hpad, if_pos (by omega)] at hset
    rw [hn]
    constructor
    · intro hc
      obtain ⟨d, h3, h4⟩ := h1 hc
      obtain ⟨s', h5, h6⟩ := hset (k := f.extended H w 1) (b1 := { s with data := d }) (bits1 := f.bits ++ [false])
        (by
          rw [h3, Res.ok_bind, BitBuf.pad, buf_bitLen_def, (heap_law c h H _).bitLen h4, Res.ok_bind, if_neg (by
            rw [List.length_append, List.length_singleton]
            show ¬ s.pos ≥ _
            omega)])
        h4 hp (by rw [List.length_append, List.length_singleton]; omega)
        (by rw [hg1, he, List.set_append_right _ _ (Nat.le_refl _)]; simp)
      obtain ⟨h7, h8⟩ := CanPush.granted hA hc hroom hg
      refine ⟨s', h5, h6, ?_, h8⟩
      show blocksFor w g.length ≤ _
      rw [hg1]
      have := (moreBlocks_add (w := w) f.bits [v] 0).2
      rw [← this]
      exact h7
    · intro hc
      rw [buf_write_def, hpad, if_pos (by omega), h2 hc]
      rfl

/-! ### Sequences of calls -/

/-- Growing aside, the vector is one that can be wrapped. -/
theorem heap_pushVec (c : Cfg) (h : IsBlk w) (H : Heap) (k : Nat) : PushVec c w (heapBitVec c H w) (capR c w k) (fun _ => False) where
  blk := h
  law := heap_law c h H k
  block := heap_block c h H k
  upd := heap_mut_law c h H k
  push := by
    refine ⟨fun _ _ hf => hf.elim, fun {s bits} hR => ?_, fun _ _ hf => hf.elim, fun _ _ hf => hf.elim⟩
    obtain ⟨b, h1, h2⟩ := (bv_push_law c h).popBit hR.1
    refine ⟨{ s with base := b }, ?_, h2, hR.2⟩
    show ((bvBitVecPush c w).popBit s.base >>= fun r => s.tryChange H r.2 >>= fun s => Res.ok (r.1, s)) = _
    rw [h1, Res.ok_bind, tryChange_same H s b (by
      rw [h2.blocks, hR.1.blocks, List.length_dropLast]
      exact blocksFor_mono (Nat.sub_le _ _)), Res.ok_bind]

theorem heldStep {c : Cfg} (h : IsBlk w) {H : Heap} (hA : H.toAlloc.Lawful) (hB : H.Bounded c.usz w) {s : BitBuf (CVB w)}
    {f : HeldFile} (hs : HeldBuf c H w s f) (op : BufOp) (ha : op.Arg) :
    Refines (HeldBuf c H w) (bufStep c (heapBitVec c H w) s op) (heldSpec H w f op) := by
  have other : (∀ b, op ≠ .write b) → Refines (HeldBuf c H w) (bufStep c (heapBitVec c H w) s op) (heldSpec H w f op) := by
    intro hw
    have h1 := bufStep_refines (heap_pushVec c h H f.cap) hs.rep op (by
      cases op with
      | write b => exact absurd rfl (hw b)
      | _ => exact ha)
    have e : heldSpec H w f op = (bufSpec f.toBitFile op).map fun r => (r.1, ⟨r.2, f.cap⟩) := by
      unfold heldSpec
      cases op with
      | write b => exact absurd rfl (hw b)
      | _ => rcases bufSpec f.toBitFile _ with _ | ⟨o, g⟩ <;> rfl
    have hlen : ∀ o g, bufSpec f.toBitFile op = some (o, g) → g.bits.length = f.bits.length := by
      intro o g hg
      cases op with
      | write b => exact absurd rfl (hw b)
      | read => simp only [bufSpec] at hg; split at hg <;> cases hg <;> rfl
      | seek p => simp only [bufSpec] at hg; split at hg <;> cases hg <;> rfl
      | position => cases hg; rfl
      | bitLen => cases hg; rfl
      | getBit i =>
        simp only [bufSpec] at hg
        rcases hb : f.bits[i]? with _ | b <;> rw [hb] at hg <;> cases hg
        rfl
      | setBit i b =>
        simp only [bufSpec] at hg
        split at hg <;> cases hg
        exact List.length_set
    rw [e]
    rcases hsp : bufSpec f.toBitFile op with _ | ⟨o, g⟩
    · rw [hsp] at h1
      exact h1
    · rw [hsp] at h1
      obtain ⟨s', h2, h3⟩ := h1
      exact ⟨s', h2, h3, by show blocksFor w g.bits.length ≤ f.cap; rw [hlen o g hsp]; exact hs.room, hs.granted⟩
  cases op with
  | write b =>
    obtain ⟨h1, h2⟩ := heap_write h hA hB hs b
    unfold heldSpec
    simp only [bufSpec]
    split
    · next hc =>
      obtain ⟨s', h3, h4⟩ := h1 hc
      exact ⟨s', by simp only [bufStep, h3, Res.ok_bind], h4⟩
    · next hc =>
      show bufStep _ _ _ _ = .panic
      simp only [bufStep, h2 hc]
      rfl
  | _ => exact other fun b hb => by cases hb

/-- C128. A `BitBuffer` over a `BitVector`, with any allocator that may refuse anything: every sequence of calls returns exactly what it
returns on a file with a cursor kept in blocks that have to be asked for, and panics exactly if the file does: if a bit that does not exist
is accessed, or if the memory for a further block is refused. There is no condition on the length of the file. -/
theorem C128_buffer (c : Cfg) (h : IsBlk w) {H : Heap} (hA : H.toAlloc.Lawful) (hB : H.Bounded c.usz w) (ops : List BufOp)
    (ha : ∀ op ∈ ops, op.Arg) {s : BitBuf (CVB w)} {f : HeldFile} (hs : HeldBuf c H w s f) :
    Refines (HeldBuf c H w) (bufRun c (heapBitVec c H w) s ops) (heldSpecRun H w f ops) := by
  induction ops generalizing s f with
  | nil => exact ⟨s, rfl, hs⟩
  | cons op ops ih =>
    have h1 := heldStep h hA hB hs op (ha op List.mem_cons_self)
    unfold bufRun heldSpecRun
    rcases hsp : heldSpec H w f op with _ | ⟨out, f'⟩
    · rw [hsp] at h1
      have h1 : bufStep _ _ _ _ = .panic := h1
      exact by rw [h1]; rfl
    · rw [hsp] at h1
      obtain ⟨s', hs', hR'⟩ := h1
      have h3 := ih (fun op h => ha op (List.mem_cons_of_mem _ h)) hR'
      rcases hsp2 : heldSpecRun H w f' ops with _ | ⟨os, f''⟩
      · rw [hsp2] at h3
        have h3 : bufRun _ _ s' ops = .panic := h3
        simp only [hs', Res.ok_bind, h3, Option.bind_eq_bind, Option.bind_some, hsp2, Option.bind_none]
        rfl
      · rw [hsp2] at h3
        obtain ⟨s'', hs'', hR''⟩ := h3
        simp only [hs', Res.ok_bind, hs'', Option.bind_eq_bind, Option.bind_some, hsp2]
        exact ⟨s'', rfl, hR''⟩

/-- C128. Refused memory makes such a program panic and nothing else: otherwise it does what it does on a file in unlimited memory. -/
theorem C128_only_fails (H : Heap) (w : Nat) (ops : List BufOp) (f : HeldFile) :
    heldSpecRun H w f ops = none ∨ (heldSpecRun H w f ops).map (fun r => (r.1, r.2.toBitFile)) = bufSpecRun f.toBitFile ops := by
  induction ops generalizing f with
  | nil => exact .inr rfl
  | cons op ops ih =>
    unfold heldSpecRun bufSpecRun
    have h1 : heldSpec H w f op = none ∨ (heldSpec H w f op).map (fun r => (r.1, r.2.toBitFile)) = bufSpec f.toBitFile op := by
      unfold heldSpec
      cases op <;> rcases bufSpec f.toBitFile _ with _ | ⟨o, g⟩ <;> first | exact .inr rfl | skip
      dsimp only
      split
      · exact .inr rfl
      · exact .inl rfl
    rcases h1 with h1 | h1
    · rw [h1]
      exact .inl rfl
    · rw [← h1]
      rcases heldSpec H w f op with _ | ⟨o, g⟩
      · exact .inl rfl
      · rcases ih g with h2 | h2
        · left
          simp [h2]
        · right
          simp only [Option.map_some, Option.bind_eq_bind, Option.bind_some, ← h2]
          rcases heldSpecRun H w g ops with _ | ⟨os, g'⟩ <;> rfl

/-! ### Encoding -/

theorem heap_writeAll {c : Cfg} (h : IsBlk w) {H : Heap} (hA : H.toAlloc.Lawful) (hB : H.Bounded c.usz w) (l : List Bool)
    {s : BitBuf (CVB w)} {f : HeldFile} (hs : HeldBuf c H w s f) (hp : f.pos = f.bits.length) :
    (f.CanExtend H w l.length → ∃ s', writeAll (BitBuf.write c (heapBitVec c H w)) l s = .ok (.ok (), s') ∧
      HeldBuf c H w s' ⟨⟨f.bits ++ l, f.bits.length + l.length⟩, f.extended H w l.length⟩) ∧
    (¬ f.CanExtend H w l.length → writeAll (BitBuf.write c (heapBitVec c H w)) l s = .panic) := by
  induction l generalizing s f with
  | nil =>
    have hm : moreBlocks w f.bits 0 = 0 := Nat.sub_self _
    refine ⟨fun _ => ⟨s, rfl, ?_⟩, fun hn => absurd ?_ hn⟩
    · rw [List.append_nil]
      unfold HeldFile.extended
      rw [List.length_nil, hm]
      obtain ⟨⟨bits, pos⟩, cap⟩ := f
      have hp : pos = bits.length := hp
      subst hp
      exact hs
    · unfold HeldFile.CanExtend
      rw [List.length_nil, hm]
      trivial
  | cons b l ih =>
    obtain ⟨h1, h2⟩ := heap_write h hA hB hs b
    have hg : f.bits.take f.pos ++ b :: f.bits.drop (f.pos + 1) = f.bits ++ [b] := by
      rw [hp, List.take_length, List.drop_eq_nil_of_le (by omega)]
    rw [hg] at h1 h2
    rw [show (f.bits ++ [b]).length - f.bits.length = 1 by rw [List.length_append, List.length_singleton]; omega] at h1 h2
    obtain ⟨hm, hm2⟩ := moreBlocks_add (w := w) f.bits [b] l.length
    rw [List.length_singleton] at hm hm2
    have hce : f.CanExtend H w (b :: l).length ↔ f.CanExtend H w 1 ∧
        HeldFile.CanExtend H w ⟨⟨f.bits ++ [b], f.pos + 1⟩, f.extended H w 1⟩ l.length := by
      unfold HeldFile.CanExtend
      rw [List.length_cons, Nat.add_comm l.length 1, hm, CanPush.add, hm2]
      rfl
    have hex : f.extended H w (b :: l).length =
        HeldFile.extended H w ⟨⟨f.bits ++ [b], f.pos + 1⟩, f.extended H w 1⟩ l.length := by
      unfold HeldFile.extended
      rw [List.length_cons, Nat.add_comm l.length 1, hm, capAfter_add, hm2]
    by_cases hc : f.CanExtend H w 1
    · obtain ⟨s', h3, h4⟩ := h1 hc
      obtain ⟨h5, h6⟩ := ih h4 (by show f.pos + 1 = (f.bits ++ [b]).length; rw [hp, List.length_append]; rfl)
      rw [writeAll, SM.bind_run_ok h3]
      constructor
      · intro h
        obtain ⟨s'', h7, h8⟩ := h5 (hce.1 h).2
        refine ⟨s'', h7, ?_⟩
        rw [hex]
        have e : f.bits ++ [b] ++ l = f.bits ++ b :: l := by simp
        have e2 : (f.bits ++ [b]).length + l.length = f.bits.length + (b :: l).length := by simp; omega
        rw [← e, ← e2]
        exact h8
      · intro h
        exact h6 fun h' => h (hce.2 ⟨hc, h'⟩)
    · refine ⟨fun h => absurd (hce.1 h).1 hc, fun _ => ?_⟩
      rw [writeAll, SM.bind_run, h2 hc]
      rfl

/-- The outcome of a program that encodes. -/
def EncAllYields (c : Cfg) (H : Heap) (w : Nat) (x : Res (Except IoErr Unit × BitBuf (CVB w))) : EncAllOutcome → Prop
  | .written f => ∃ s, x = .ok (.ok (), s) ∧ HeldBuf c H w s f
  | .invalid f => ∃ s, x = .ok (.error .invalidData, s) ∧ HeldBuf c H w s f
  | .panics => x = .panic
  | .hangs => x = .diverge

/-- C128. Encoding any values with any code at the end of a bit buffer, with the memory of the buffer and of the encoders' stacks under
any allocators: exactly if all requests are granted and all values have a codeword the buffer then holds the codewords, one after another,
and its cursor is at the end; a value that has none stops it with `InvalidData` and the codewords before it in the buffer. -/
theorem C128_encode (c : Cfg) (h : IsBlk w) (M : Stacks) {H : Heap} (hA : H.toAlloc.Lawful) (hB : H.Bounded c.usz w) (k : CodeName)
    (vs : List Nat) (hv : ∀ v ∈ vs, v < 2 ^ 64) {s : BitBuf (CVB w)} {f : HeldFile} (hs : HeldBuf c H w s f)
    (hp : f.pos = f.bits.length) :
    EncAllYields c H w (encodeAll (k.codeH c M) (BitBuf.write c (heapBitVec c H w)) vs s) (encAllOut M H w c.debug k vs f) := by
  induction vs generalizing s f with
  | nil => exact ⟨s, rfl, hs⟩
  | cons v vs ih =>
    have h1 := C127_encode c M k v (hv v List.mem_cons_self)
    unfold encodeAll encAllOut
    cases ho : k.encOutH M c.debug v with
    | word l =>
      rw [ho] at h1
      obtain ⟨h2, h3⟩ := heap_writeAll h hA hB l hs hp
      dsimp only
      split
      · next hc =>
        obtain ⟨s', h4, h5⟩ := h2 hc
        rw [h1, SM.bind_run_ok h4]
        exact ih (fun v h => hv v (List.mem_cons_of_mem _ h)) h5 (by show _ = (f.bits ++ l).length; rw [List.length_append])
      · next hc =>
        show _ = _
        rw [h1, SM.bind_run, h3 hc]
        rfl
    | invalid =>
      rw [ho] at h1
      exact ⟨s, SM.bind_run_err (h1 _ s), hs⟩
    | panics =>
      rw [ho] at h1
      show _ = _
      rw [SM.bind_run, h1]
      rfl
    | hangs =>
      rw [ho] at h1
      show _ = _
      rw [SM.bind_run, h1]
      rfl

/-! ### From a new buffer -/

/-- `BitBuffer::with_capacity`, bit_buffer.rs:23-29, in a memory that may be exhausted. -/
def heapBufWithCapacity (c : Cfg) (H : Heap) (w capacity : Nat) : Res (BitBuf (CVB w)) := do
  let data ← CVB.tryWithCapacity c H w 1 capacity
  .ok ⟨data, 0⟩

/-- C128. A new buffer asks for its memory once. Granted, it takes as many bits as were reserved without asking again. -/
theorem C128_new (c : Cfg) (h : IsBlk w) {H : Heap} (hA : H.toAlloc.Lawful) {n : Nat} (hn : n + (w - 1) < 2 ^ 64) :
    heapBufWithCapacity c H w n = (if blocksFor w n < 2 ^ c.usz ∧ H.Grants (H.withCapacity (blocksFor w n)) then
      .ok ⟨⟨VB.new, H.withCapacity (blocksFor w n), 0⟩, 0⟩ else .panic) ∧
    (H.Grants (H.withCapacity (blocksFor w n)) →
      HeldBuf c H w ⟨⟨VB.new, H.withCapacity (blocksFor w n), 0⟩, 0⟩ ⟨⟨[], 0⟩, H.withCapacity (blocksFor w n)⟩) ∧
    ∀ m ≤ n, HeldFile.CanExtend H w ⟨⟨[], 0⟩, H.withCapacity (blocksFor w n)⟩ m ∧
      HeldFile.extended H w ⟨⟨[], 0⟩, H.withCapacity (blocksFor w n)⟩ m = H.withCapacity (blocksFor w n) := by
  have hw := h.pos
  refine ⟨?_, fun hg => ⟨⟨⟨VR.nil c h 1, rfl⟩, rfl, Nat.le_refl _⟩, ?_, hg⟩, fun m hm => ?_⟩
  · unfold heapBufWithCapacity CVB.tryWithCapacity lenToBlockLen checkedMul
    rw [Nat.mul_one, if_pos (show n < 2 ^ 64 by omega)]
    dsimp only
    rw [checkedCeilDivNbits_eq c h hn, Res.ok_bind, toUsize, show (n + (w - 1)) / w = blocksFor w n from rfl]
    by_cases hu : blocksFor w n < 2 ^ c.usz
    · rw [if_pos hu, expectR_some, Res.ok_bind, CVB.tryNew, assertR]
      by_cases hg : H.Grants (H.withCapacity (blocksFor w n))
      · rw [if_pos hg, if_pos ⟨hu, hg⟩]
        rfl
      · rw [if_neg hg, if_neg fun h => hg h.2]
        rfl
    · rw [if_neg hu, if_neg fun h => hu h.1]
      rfl
  · show blocksFor w 0 ≤ _
    rw [blocksFor_zero]
    exact Nat.zero_le _
  · have key : ∀ k len cap, len + k ≤ cap → H.CanPush len cap k ∧ H.capAfter len cap k = cap := by
      intro k
      induction k with
      | zero => exact fun _ _ _ => ⟨trivial, rfl⟩
      | succ k ih =>
        intro len cap hl
        obtain ⟨h1, h2⟩ := ih (len + 1) cap (by omega)
        have e : H.after len cap = cap := by rw [Heap.after, if_pos (by omega)]
        exact ⟨⟨.inl (by omega), e.symm ▸ h1⟩, by show H.capAfter (len + 1) (H.after len cap) k = cap; rw [e, h2]⟩
    refine key _ _ _ ?_
    show blocksFor w 0 + (blocksFor w (0 + m) - blocksFor w 0) ≤ H.withCapacity (blocksFor w n)
    have h1 := hA.withCapacity (blocksFor w n)
    have h2 := blocksFor_mono (w := w) hm
    rw [blocksFor_zero, Nat.zero_add, Nat.zero_add, Nat.sub_zero]
    omega

theorem codeH_decode (c : Cfg) (M : Stacks) (k : CodeName) {σ : Type} (R : BitRead σ) : (k.codeH c M).decode R = (k.code c).decode R := by
  induction k with
  | unary => rfl
  | omega => rfl
  | comma n => rfl
  | fibonacci => rfl
  | elias k ih =>
    show Elias.decode c (k.codeH c M) R = Elias.decode c (k.code c) R
    unfold Elias.decode
    rw [ih]
  | lift0 k ih =>
    show Lift0.decode c (k.codeH c M) R = Lift0.decode c (k.code c) R
    unfold Lift0.decode
    rw [ih]

theorem encAllOut_valid (M : Stacks) (H : Heap) (w : Nat) (d : Bool) {k : CodeName} (hk : k.Valid) (vs : List Nat)
    (hv : ∀ v ∈ vs, v < 2 ^ 64) (hd : ∀ v ∈ vs, k.Dom v) (f : HeldFile) :
    encAllOut M H w d k vs f = .panics ∨ ∃ g, encAllOut M H w d k vs f = .written g ∧
      g.bits = f.bits ++ vs.flatMap (CodeName.word k) ∧ (f.pos = f.bits.length → g.pos = g.bits.length) := by
  induction vs generalizing f with
  | nil => exact .inr ⟨f, rfl, by simp, id⟩
  | cons v vs ih =>
    obtain ⟨l, h1, h2⟩ := (C119_valid k hk d v (hv v List.mem_cons_self)).1 (hd v List.mem_cons_self)
    rw [k.isWord_iff hk (hd v List.mem_cons_self)] at h1
    unfold encAllOut
    rcases C127_only_fails M d k v with h3 | h3
    · rw [h3]
      exact .inl rfl
    · rw [h3, h2]
      dsimp only
      split
      · rcases ih (fun v h => hv v (List.mem_cons_of_mem _ h)) (fun v h => hd v (List.mem_cons_of_mem _ h))
          ⟨⟨f.bits ++ l, f.bits.length + l.length⟩, f.extended H w l.length⟩ with h4 | ⟨g, h4, h5, h6⟩
        · exact .inl h4
        · refine .inr ⟨g, h4, ?_, fun _ => h6 (by show _ = (f.bits ++ l).length; rw [List.length_append])⟩
          rw [h5, List.flatMap_cons, h1, List.append_assoc]
      · exact .inl rfl

/-- C128. Whatever memory is refused, on a buffer of whatever capacity: encoding values with a code with legal parameters, going back to
the start and decoding panics in the course of encoding, or returns the values and then the end of the stream, any number of times. No
length is assumed, only that the values are among those the code can represent. -/
theorem C128_roundtrip (c : Cfg) (h : IsBlk w) (M : Stacks) {H : Heap} (hA : H.toAlloc.Lawful) (hB : H.Bounded c.usz w) {k : CodeName}
    (hk : k.Valid) (vs : List Nat) (hv : ∀ v ∈ vs, v < 2 ^ 64) (hd : ∀ v ∈ vs, k.Dom v) {s : BitBuf (CVB w)} {cap : Nat}
    (hs : HeldBuf c H w s ⟨⟨[], 0⟩, cap⟩) (n : Nat) :
    encodeAll (k.codeH c M) (BitBuf.write c (heapBitVec c H w)) vs s = .panic ∨
    ∃ s1 s2 s3, encodeAll (k.codeH c M) (BitBuf.write c (heapBitVec c H w)) vs s = .ok (.ok (), s1) ∧
      BitBuf.seek (heapBitVec c H w).toBitVecOps 0 s1 = .ok (.ok (), s2) ∧
      decodeMany (k.codeH c M) (BitBuf.read c (heapBitVec c H w).toBitVecOps) (vs.length + n) s2 =
        .ok (.ok (vs.map some ++ List.replicate n none), s3) := by
  have h1 := C128_encode c h M hA hB k vs hv hs rfl
  rcases encAllOut_valid M H w c.debug hk vs hv hd ⟨⟨[], 0⟩, cap⟩ with h2 | ⟨g, h2, h3, -⟩
  · rw [h2] at h1
    exact .inl h1
  · rw [h2] at h1
    obtain ⟨s1, h4, h5⟩ := h1
    have h3 : g.bits = vs.flatMap (CodeName.word k) := h3
    have hl := heap_law c h H g.cap
    obtain ⟨s2, h6, h7⟩ := (buf_seek hl h5.rep 0).1 (Nat.zero_le _)
    have hi := C62_all c true (k.of c hk)
    obtain ⟨s3, h8, -⟩ := decodeMany_words hi.decodes hi.ends (buf_source h hl (heap_block c h H g.cap)) vs hd n (s := s2)
      ⟨_, h7, by rw [List.drop_zero]; exact h3.symm⟩
    refine .inr ⟨s1, s2, s3, h4, h6, ?_⟩
    have e : ∀ {σ : Type} (R : BitRead σ) (m : Nat), decodeMany (k.codeH c M) R m = decodeMany (k.code c) R m := by
      intro σ R m
      induction m with
      | zero => rfl
      | succ m ih => unfold decodeMany; rw [codeH_decode, ih]
    rw [e]
    exact h8

/-! Cases: nine bits in bytes need a second block; a write in the middle needs none. -/
example : heldSpecRun (smallHeap 1) 8 ⟨⟨List.replicate 8 true, 8⟩, 1⟩ [.seek 3, .write false, .position] =
      some ([.unit, .unit, .num 4], ⟨⟨[true, true, true, false, true, true, true, true], 4⟩, 1⟩) ∧
    heldSpecRun (smallHeap 1) 8 ⟨⟨List.replicate 8 true, 8⟩, 1⟩ [.read, .write false] = none ∧
    heldSpecRun (smallHeap 2) 8 ⟨⟨List.replicate 8 true, 8⟩, 1⟩ [.read, .write false] =
      some ([.optBit none, .unit], ⟨⟨List.replicate 8 true ++ [false], 9⟩, 2⟩) := by
  refine ⟨?_, ?_, ?_⟩ <;> decide +kernel

example (d : Bool) :
    encAllOut (smallStacks 0) (smallHeap 1) 8 d .unary [1, 2, 2] ⟨⟨[], 0⟩, 1⟩ =
      .written ⟨⟨[false, true, false, false, true, false, false, true], 8⟩, 1⟩ ∧
    encAllOut (smallStacks 0) (smallHeap 1) 8 d .unary [1, 2, 2, 0] ⟨⟨[], 0⟩, 1⟩ = .panics ∧
    encAllOut (smallStacks 0) (smallHeap 2) 8 d .unary [1, 2, 2, 0] ⟨⟨[], 0⟩, 1⟩ =
      .written ⟨⟨[false, true, false, false, true, false, false, true, true], 9⟩, 2⟩ ∧
    encAllOut (smallStacks 0) (smallHeap 2) 8 d (.lift0 .unary) [0, 2 ^ 64 - 1, 5] ⟨⟨[], 0⟩, 1⟩ = .invalid ⟨⟨[false, true], 2⟩, 1⟩ := by
  cases d <;> refine ⟨?_, ?_, ?_, ?_⟩ <;> decide +kernel

example : ∃ s1 s2 s3, encodeAll (gamma ⟨true, .p64, true⟩) (BitBuf.write ⟨true, .p64, true⟩ (heapBitVec ⟨true, .p64, true⟩ (smallHeap 1) 8)) [5, 3]
      ⟨⟨VB.new, 1, 0⟩, 0⟩ = .ok (.ok (), s1) ∧
    BitBuf.seek (heapBitVec ⟨true, .p64, true⟩ (smallHeap 1) 8).toBitVecOps 0 s1 = .ok (.ok (), s2) ∧
    decodeMany (gamma ⟨true, .p64, true⟩) (BitBuf.read ⟨true, .p64, true⟩ (heapBitVec ⟨true, .p64, true⟩ (smallHeap 1) 8).toBitVecOps) 3 s2 =
      .ok (.ok [some 5, some 3, none], s3) := by
  have h : IsBlk 8 := isBlk8
  have hB : (smallHeap 1).Bounded (Cfg.usz ⟨true, .p64, true⟩) 8 := fun n hn => by
    have : n ≤ 1 := by simpa [smallHeap] using hn
    exact ⟨by omega, by show n + 1 < 2 ^ 64; omega⟩
  have hs := ((C128_new ⟨true, .p64, true⟩ h (smallHeap_lawful 1) (n := 8) (by decide)).2.1 (by decide))
  have hv : ∀ v ∈ [5, 3], v < 2 ^ 64 := by decide
  have h1 := C128_encode ⟨true, .p64, true⟩ h (smallStacks 0) (smallHeap_lawful 1) hB (.elias .unary) [5, 3] hv hs rfl
  rcases C128_roundtrip ⟨true, .p64, true⟩ h (smallStacks 0) (smallHeap_lawful 1) hB (k := .elias .unary)
    ⟨trivial, fun n hn => Nat.lt_trans hn (by decide)⟩ [5, 3] hv (fun v h => ⟨by revert v; decide, hv v h⟩) hs 1 with h2 | h2
  · rw [h2] at h1
    rw [show encAllOut (smallStacks 0) (smallHeap 1) 8 true (.elias .unary) [5, 3] _ =
      .written ⟨⟨[false, false, true, true, false, false, true, true], 8⟩, 1⟩ by decide +kernel] at h1
    obtain ⟨s, h3, -⟩ := h1
    cases h3
  · exact h2

/-! Each theorem of this file that has hypotheses is applied to concrete data in `Verif/Instances/BufferMemory.lean`. -/

end Succinct
