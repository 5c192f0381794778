import Verif.Props.BlockIO
import Verif.Props.BitVector
/-! Property C113: bit vectors written to a file block by block. The programs here are not in the crate; they call the
crate's `block_len`, `get_block`, `write_block`, `read_block`, `push_block` and `truncate`. -/
namespace Succinct
open Spec

/-- `for j in i .. i + k { v.get_block(j).write_block::<_, T>(sink)? }` -/
def saveBlocks (c : Cfg) (t : BlkTy) (W : ByteWrite σ) (T : Endian) (v : VB (t.bits c)) : Nat → Nat → SM σ Unit
  | 0, _ => pure ()
  | k + 1, i => do
    let x ← SM.lift ((bvBitVec c _).getBlock v i)
    writeBlock c t W T x
    saveBlocks c t W T v k (i + 1)

/-- Write all blocks of a bit vector. -/
def save (c : Cfg) (t : BlkTy) (W : ByteWrite σ) (T : Endian) (v : VB (t.bits c)) : SM σ Unit := do
  let n ← SM.lift ((bvBitVec c _).blockLen v)
  saveBlocks c t W T v n 0

/-- `for _ in 0 .. k { v.push_block(Block::read_block::<_, T>(source)?) }` -/
def loadBlocks (c : Cfg) (t : BlkTy) (R : ByteRead σ) (T : Endian) : Nat → VB (t.bits c) → SM σ (VB (t.bits c))
  | 0, v => pure v
  | k + 1, v => do
    let x ← readBlock c t R T
    let v ← SM.lift ((bvBitVecPush c _).pushBlock v x)
    loadBlocks c t R T k v

/-- Read a bit vector of `n` bits: as many blocks as that takes, and then cut off what is too much. -/
def load (c : Cfg) (t : BlkTy) (R : ByteRead σ) (T : Endian) (n : Nat) : SM σ (VB (t.bits c)) := do
  let k ← SM.lift (ceilDivNbits c (t.bits c) n)
  let v ← loadBlocks c t R T k VB.new
  SM.lift (BV.truncate c v n)

theorem BlkTy.isBlk (c : Cfg) (t : BlkTy) : IsBlk (t.bits c) := by
  obtain ⟨d, p, a⟩ := c
  cases t <;> cases p <;> decide +revert

theorem leVal_eq (bs : List (BitVec 8)) : leVal bs = bitsVal (arrayBits bs) := by
  induction bs with
  | nil => rfl
  | cons b bs ih =>
    rw [leVal, ih, arrayBits_cons, bitsVal_append, length_blockBits, blockBits, bitsVal_natBits, Nat.mod_eq_of_lt b.isLt]

theorem natBits_leVal (bs : List (BitVec 8)) : natBits (8 * bs.length) (leVal bs) = arrayBits bs := by
  have := natBits_bitsVal (arrayBits bs)
  rw [length_arrayBits, Nat.mul_comm] at this
  rw [leVal_eq, this]

theorem arrayBits_leBytes (k x : Nat) : arrayBits (leBytes k x) = natBits (8 * k) x := by
  rw [← natBits_leVal, leVal_leBytes, length_leBytes]
  apply natBits_congr
  rw [Nat.pow_mul, Nat.mod_mod]

/-- Writing the blocks from `i` on. -/
theorem saveBlocks_ok (c : Cfg) (t : BlkTy) (T : Endian) {W : ByteWrite σ} {RepW : σ → List (BitVec 8) → Prop}
    (hW : LawfulByteWrite W RepW) {b : Nat} (hwr : ∀ x, writeBlock c t W T x = W.writeAll (T.bytes b x.toNat))
    (v : VB (t.bits c)) (k i : Nat) (hk : i + k = v.vec.length) {s : σ} {l} (hs : RepW s l) :
    ∃ s', saveBlocks c t W T v k i s = .ok (.ok (), s') ∧
      RepW s' (l ++ (v.vec.drop i).flatMap fun x => T.bytes b x.toNat) := by
  induction k generalizing i s l with
  | zero => exact ⟨s, rfl, by rw [List.drop_of_length_le (by omega)]; simpa using hs⟩
  | succ k ih =>
    obtain ⟨s1, h1, h2⟩ := hW.write hs (T.bytes b (v.vec[i]'(by omega)).toNat)
    obtain ⟨s2, h3, h4⟩ := ih (i + 1) (by omega) h2
    refine ⟨s2, ?_, ?_⟩
    · have hg : (bvBitVec c (t.bits c)).getBlock v i = .ok (v.vec[i]'(by omega)) := by
        show vecGet v.vec i = _
        rw [vecGet, List.getElem?_eq_getElem (by omega)]; rfl
      rw [saveBlocks, hg, SM.lift_ok_bind, SM.bind_run_ok (by rw [hwr]; exact h1)]
      exact h3
    · rw [List.drop_eq_getElem_cons (by omega), List.flatMap_cons, ← List.append_assoc]
      exact h4

theorem flatMap_leBytes {w b : Nat} (hb : w = 8 * b) (v : List (BitVec w)) :
    arrayBits (v.flatMap fun x => leBytes b x.toNat) = arrayBits v := by
  induction v with
  | nil => rfl
  | cons x v ih => rw [List.flatMap_cons, arrayBits_append, ih, arrayBits_cons, arrayBits_leBytes, ← hb, blockBits]

/-- C113: what is written for a bit vector in little-endian order depends only on its bits and on how many zero bits
its last block adds to them: byte `j` holds bits `8j, …, 8j+7`, the first of them in its lowest bit. -/
theorem C113_save (c : Cfg) (t : BlkTy) {W : ByteWrite σ} {RepW : σ → List (BitVec 8) → Prop}
    (hW : LawfulByteWrite W RepW) {v : VB (t.bits c)} (hv : BvReach c (t.bits c) v bits) {s : σ} {l} (hs : RepW s l) :
    ∃ code s', save c t W .little v s = .ok (.ok (), s') ∧ RepW s' (l ++ code) ∧
      8 * code.length = blocksFor (t.bits c) bits.length * t.bits c ∧
      arrayBits code = bits ++ List.replicate (8 * code.length - bits.length) false ∧
      ∀ i < 8 * code.length, (code[i / 8]?.map fun y => y.getLsbD (i % 8)) = some (bits[i]?.getD false) := by
  have h := t.isBlk c
  have hR := hv.rep h
  obtain ⟨b, hb, -, hwr⟩ := t.bits_eq c
  obtain ⟨s', h1, h2⟩ := saveBlocks_ok c t .little hW (hwr W .little) v v.vec.length 0 (by omega) hs
  rw [List.drop_zero, show (fun x : BitVec (t.bits c) => Endian.little.bytes b x.toNat) = fun x => leBytes b x.toNat from rfl] at h2
  have hA : arrayBits (v.vec.flatMap fun x => leBytes b x.toNat) = padTo (t.bits c) bits := by
    rw [flatMap_leBytes hb, hR.array h.pos]
  have hlen := congrArg List.length hA
  rw [length_arrayBits, length_padTo h.pos, Nat.mul_comm] at hlen
  refine ⟨_, s', ?_, h2, hlen, by rw [hA, padTo]; exact congrArg (fun m => bits ++ List.replicate (m - _) false) hlen.symm, fun i hi => ?_⟩
  · rw [save, (bv_block c h).blockLen hR, SM.lift_ok_bind, ← hR.blocks]
    exact h1
  · have h3 := congrArg (fun m : List Bool => m[i]?.getD false) hA
    simp only [getD_arrayBits _ (show 0 < 8 by omega)] at h3
    rw [List.getElem?_eq_getElem (by omega)]
    simp only [Option.map_some, Option.some.injEq]
    have h4 : vbit (v.vec.flatMap fun x => leBytes b x.toNat) i = bits[i]?.getD false := by
      rw [h3, padTo, List.getElem?_append]
      split
      · rfl
      · rename_i hge
        rw [List.getElem?_eq_none (show bits.length ≤ i by omega), List.getElem?_replicate]
        split <;> rfl
    rw [← h4, vbit]
    change _ = BitVec.getLsbD (Option.getD (List.flatMap (fun x => leBytes b x.toNat) v.vec)[i / 8]? 0) (i % 8)
    rw [List.getElem?_eq_getElem]
    rfl

/-- Reading `k` blocks of `b` bytes each. -/
theorem loadBlocks_ok (c : Cfg) (t : BlkTy) (T : Endian) {R : ByteRead σ} {RepR : σ → List (BitVec 8) → Prop}
    (hR : LawfulByteRead R RepR) {b : Nat}
    (hrd : ∀ s, readBlock c t R T s = (readUint R T b >>= fun x => pure (BitVec.ofNat _ x)) s)
    (code : List (List (BitVec 8))) (hcode : ∀ bs ∈ code, bs.length = b) {v : VB (t.bits c)} {pre : List (BitVec (t.bits c))}
    (hv : bvR c (t.bits c) v (arrayBits pre)) (hf : Fits c.usz (t.bits c) ((pre.length + code.length) * t.bits c))
    {s : σ} {rest} (hs : RepR s (code.flatten ++ rest)) :
    ∃ v' s', loadBlocks c t R T code.length v s = .ok (.ok v', s') ∧ RepR s' rest ∧
      bvR c (t.bits c) v' (arrayBits (pre ++ code.map fun bs => BitVec.ofNat (t.bits c) (T.val bs))) := by
  have h := t.isBlk c
  induction code generalizing v pre s with
  | nil => exact ⟨v, s, rfl, by simpa using hs, by simpa using hv⟩
  | cons bs code ih =>
    rw [List.flatten_cons, List.append_assoc] at hs
    obtain ⟨s1, h1, h2⟩ := hR.enough hs
    have hbl := hcode bs List.mem_cons_self
    rw [hbl] at h1
    have h3 : readBlock c t R T s = .ok (.ok (BitVec.ofNat _ (T.val bs)), s1) := by
      rw [hrd, SM.bind_run_ok (show readUint R T b s = .ok (.ok (T.val bs), s1) by rw [readUint, SM.bind_run_ok h1]; rfl)]
      rfl
    have hpl : blocksFor (t.bits c) (arrayBits pre).length = pre.length := by
      rw [length_arrayBits]; exact blocksFor_mul _ _ h.pos
    obtain ⟨v1, h4, h5⟩ := bv_pushBlock c h hv (BitVec.ofNat _ (T.val bs)) (by
      rw [hpl, ← Nat.succ_mul]
      refine hf.mono (Nat.mul_le_mul_right _ ?_)
      rw [List.length_cons]; omega)
    have h6 : padTo (t.bits c) (arrayBits pre) ++ blockBits (BitVec.ofNat (t.bits c) (T.val bs)) =
        arrayBits (pre ++ [BitVec.ofNat (t.bits c) (T.val bs)]) := by
      rw [padTo, hpl, length_arrayBits, Nat.sub_self, List.replicate_zero, List.append_nil, arrayBits_append]
      simp [arrayBits]
    rw [h6] at h5
    obtain ⟨v2, s2, g1, g2, g3⟩ := ih (fun x hx => hcode x (List.mem_cons_of_mem _ hx)) h5
      (by rw [List.length_append, List.length_singleton]; rw [List.length_cons] at hf
          rw [show pre.length + 1 + code.length = pre.length + (code.length + 1) by omega]; exact hf) h2
    refine ⟨v2, s2, ?_, g2, ?_⟩
    · rw [List.length_cons, loadBlocks, SM.bind_run_ok h3, h4, SM.lift_ok_bind]
      exact g1
    · rw [List.append_assoc] at g3
      exact g3

/-- Reading blocks from a source that does not have them all. -/
theorem loadBlocks_short (c : Cfg) (t : BlkTy) (T : Endian) {R : ByteRead σ} {RepR : σ → List (BitVec 8) → Prop}
    (hR : LawfulByteRead R RepR) {b : Nat}
    (hrd : ∀ s, readBlock c t R T s = (readUint R T b >>= fun x => pure (BitVec.ofNat _ x)) s)
    (k : Nat) {v : VB (t.bits c)} {pre : List (BitVec (t.bits c))}
    (hv : bvR c (t.bits c) v (arrayBits pre)) (hf : Fits c.usz (t.bits c) ((pre.length + k) * t.bits c))
    {s : σ} {bytes} (hs : RepR s bytes) (hlt : bytes.length < k * b) :
    ∃ s', loadBlocks c t R T k v s = .ok (.error .unexpectedEof, s') := by
  have h := t.isBlk c
  induction k generalizing v pre s bytes with
  | zero => omega
  | succ k ih =>
    by_cases hbb : b ≤ bytes.length
    · obtain ⟨s1, h1, h2⟩ := hR.enough (bs := bytes.take b) (rest := bytes.drop b) (by rwa [List.take_append_drop])
      rw [List.length_take, Nat.min_eq_left hbb] at h1
      have h3 : readBlock c t R T s = .ok (.ok (BitVec.ofNat _ (T.val (bytes.take b))), s1) := by
        rw [hrd, SM.bind_run_ok (show readUint R T b s = .ok (.ok (T.val (bytes.take b)), s1) by rw [readUint, SM.bind_run_ok h1]; rfl)]
        rfl
      have hpl : blocksFor (t.bits c) (arrayBits pre).length = pre.length := by
        rw [length_arrayBits]; exact blocksFor_mul _ _ h.pos
      obtain ⟨v1, h4, h5⟩ := bv_pushBlock c h hv (BitVec.ofNat _ (T.val (bytes.take b))) (by
        rw [hpl, ← Nat.succ_mul]
        exact hf.mono (Nat.mul_le_mul_right _ (by omega)))
      have h6 : padTo (t.bits c) (arrayBits pre) ++ blockBits (BitVec.ofNat (t.bits c) (T.val (bytes.take b))) =
          arrayBits (pre ++ [BitVec.ofNat (t.bits c) (T.val (bytes.take b))]) := by
        rw [padTo, hpl, length_arrayBits, Nat.sub_self, List.replicate_zero, List.append_nil, arrayBits_append]
        simp [arrayBits]
      rw [h6] at h5
      obtain ⟨s2, g1⟩ := ih h5 (by
        rw [List.length_append, List.length_singleton, show pre.length + 1 + k = pre.length + (k + 1) by omega]; exact hf) h2
        (by rw [List.length_drop]; rw [Nat.succ_mul] at hlt; omega)
      refine ⟨s2, ?_⟩
      rw [loadBlocks, SM.bind_run_ok h3, h4, SM.lift_ok_bind]
      exact g1
    · obtain ⟨s1, h1⟩ := hR.short hs b (by omega)
      refine ⟨s1, ?_⟩
      have h3 : readBlock c t R T s = .ok (.error .unexpectedEof, s1) := by
        rw [hrd, SM.bind_run_err (show readUint R T b s = .ok (.error .unexpectedEof, s1) by rw [readUint, SM.bind_run_err h1])]
      rw [loadBlocks, SM.bind_run_err h3]

/-- The groups of `b` bytes. -/
def groups (b : Nat) : Nat → List α → List (List α)
  | 0, _ => []
  | k + 1, l => l.take b :: groups b k (l.drop b)

theorem length_groups (b k : Nat) (l : List α) : (groups b k l).length = k := by
  induction k generalizing l with
  | zero => rfl
  | succ k ih => rw [groups, List.length_cons, ih]

theorem groups_spec (b k : Nat) (l : List α) (hl : k * b ≤ l.length) :
    (groups b k l).flatten = l.take (k * b) ∧ ∀ g ∈ groups b k l, g.length = b := by
  induction k generalizing l with
  | zero => simp [groups]
  | succ k ih =>
    rw [Nat.succ_mul] at hl
    obtain ⟨h1, h2⟩ := ih (l.drop b) (by rw [List.length_drop]; omega)
    refine ⟨?_, ?_⟩
    · rw [groups, List.flatten_cons, h1, Nat.succ_mul, Nat.add_comm, List.take_add]
    · intro g hg
      rcases List.mem_cons.1 hg with rfl | hg
      · rw [List.length_take]; omega
      · exact h2 g hg

theorem map_leVal {w b : Nat} (hb : w = 8 * b) (code : List (List (BitVec 8))) (hc : ∀ bs ∈ code, bs.length = b) :
    arrayBits (code.map fun bs => BitVec.ofNat w (leVal bs)) = arrayBits code.flatten := by
  induction code with
  | nil => rfl
  | cons bs code ih =>
    rw [List.map_cons, arrayBits_cons, ih fun x hx => hc x (List.mem_cons_of_mem _ hx), List.flatten_cons, arrayBits_append,
      ← natBits_leVal bs, hc bs List.mem_cons_self, ← hb, blockBits, BitVec.toNat_ofNat, natBits_congr (Nat.mod_mod _ _)]

theorem load_ok (c : Cfg) (t : BlkTy) {R : ByteRead σ} {RepR : σ → List (BitVec 8) → Prop} (hR : LawfulByteRead R RepR)
    {n : Nat} (hf : Fits c.usz (t.bits c) n) {s : σ} {bytes} (hs : RepR s bytes) :
    (blocksFor (t.bits c) n * t.bits c ≤ 8 * bytes.length → ∃ v s', load c t R .little n s = .ok (.ok v, s') ∧
      RepR s' (bytes.drop (blocksFor (t.bits c) n * t.bits c / 8)) ∧ bvR c (t.bits c) v ((arrayBits bytes).take n)) ∧
    (8 * bytes.length < blocksFor (t.bits c) n * t.bits c → ∃ s', load c t R .little n s = .ok (.error .unexpectedEof, s')) := by
  have h := t.isBlk c
  have hw := h.pos
  obtain ⟨b, hb, hrd, -⟩ := t.bits_eq c
  generalize hk : blocksFor (t.bits c) n = k
  have hceil : ceilDivNbits c (t.bits c) n = .ok k := by
    have hf' := hf
    unfold Fits at hf'
    have h1 := le_blocksFor_mul n hw
    rw [ceilDivNbits_eq c h (by omega), ← hk, Nat.mod_eq_of_lt (by unfold blocksFor at hf'; exact hf'.2)]
    rfl
  have hff : Fits c.usz (t.bits c) (k * t.bits c) := by
    unfold Fits at hf ⊢
    rw [blocksFor_mul _ _ hw, ← hk]; exact hf
  have h8 : k * t.bits c = 8 * (k * b) := by rw [hb, Nat.mul_left_comm]
  have h0 : bvR c (t.bits c) VB.new (arrayBits ([] : List (BitVec (t.bits c)))) := VR.nil c h 1
  refine ⟨fun hle => ?_, fun hlt => ?_⟩
  · have hle' : k * b ≤ bytes.length := by omega
    obtain ⟨g1, g2⟩ := groups_spec b k bytes hle'
    obtain ⟨v, s', h2, h3, h4⟩ := loadBlocks_ok c t .little hR (hrd R .little) (groups b k bytes) g2 h0
      (by rw [length_groups, List.length_nil, Nat.zero_add]; exact hff) (s := s) (rest := bytes.drop (k * b))
      (by rw [g1, List.take_append_drop]; exact hs)
    rw [length_groups] at h2
    rw [List.nil_append, show (fun bs => BitVec.ofNat (t.bits c) (Endian.little.val bs)) = fun bs => BitVec.ofNat (t.bits c) (leVal bs) from rfl,
      map_leVal hb _ g2, g1] at h4
    obtain ⟨v', h5, h6⟩ := bv_truncate c h h4 n
    refine ⟨v', s', ?_, by rw [h8, Nat.mul_div_cancel_left _ (by omega)]; exact h3, ?_⟩
    · rw [load, hceil, SM.lift_ok_bind, SM.bind_run_ok h2, h5]; rfl
    · have e : arrayBits bytes = arrayBits (bytes.take (k * b)) ++ arrayBits (bytes.drop (k * b)) := by
        rw [← arrayBits_append, List.take_append_drop]
      rw [e, List.take_append_of_le_length]
      · exact h6
      · rw [length_arrayBits, List.length_take, Nat.min_eq_left hle', Nat.mul_comm, ← h8, ← hk]
        exact le_blocksFor_mul n hw
  · obtain ⟨s', h2⟩ := loadBlocks_short c t .little hR (hrd R .little) k h0
      (by rw [List.length_nil, Nat.zero_add]; exact hff) hs (by omega)
    exact ⟨s', by rw [load, hceil, SM.lift_ok_bind, SM.bind_run_err h2]⟩

/-- C113: reading `n` bits with blocks of any type from a file of bytes yields the first `n` bits of the file, leaves
the bytes after the blocks read, and fails with `UnexpectedEof` if the file does not contain all of the last block. -/
theorem C113_load (c : Cfg) (t : BlkTy) {R : ByteRead σ} {RepR : σ → List (BitVec 8) → Prop} (hR : LawfulByteRead R RepR)
    {n : Nat} (hf : Fits c.usz (t.bits c) n) {s : σ} {bytes} (hs : RepR s bytes) :
    (blocksFor (t.bits c) n * t.bits c ≤ 8 * bytes.length → ∃ v s', load c t R .little n s = .ok (.ok v, s') ∧
      RepR s' (bytes.drop (blocksFor (t.bits c) n * t.bits c / 8)) ∧
      (bvBitVec c _).bitLen v = .ok n ∧
      ∀ i < n, (bvBitVec c _).getBit v i = .ok ((bytes[i / 8]?.getD 0).getLsbD (i % 8))) ∧
    (8 * bytes.length < blocksFor (t.bits c) n * t.bits c → ∃ s', load c t R .little n s = .ok (.error .unexpectedEof, s')) := by
  have h := t.isBlk c
  refine ⟨fun hle => ?_, (load_ok c t hR hf hs).2⟩
  obtain ⟨v, s', h1, h2, h3⟩ := (load_ok c t hR hf hs).1 hle
  have hn := le_blocksFor_mul n h.pos
  have hl : ((arrayBits bytes).take n).length = n := by rw [List.length_take, length_arrayBits]; omega
  refine ⟨v, s', h1, h2, by rw [bv_bitLen c h3, hl], fun i hi => ?_⟩
  have h64 : i < 2 ^ 64 := by have := hf.1; omega
  rw [(bv_law c h).getBit h3 i h64, List.getElem?_take, if_pos hi, getElem?_arrayBits _ (by omega), if_pos (by omega)]
  rfl

/-- C113: a bit vector written with blocks of type `t`, in little-endian order, and read back with blocks of any type
`u`, on another machine or not, has the same bits; reading fails, with `UnexpectedEof`, exactly if padding the bits to
whole blocks of type `u` takes more room than padding them to blocks of type `t`. -/
theorem C113_roundtrip (c d : Cfg) (t u : BlkTy) {W : ByteWrite σ} {RepW : σ → List (BitVec 8) → Prop}
    (hW : LawfulByteWrite W RepW) {R : ByteRead τ} {RepR : τ → List (BitVec 8) → Prop} (hR : LawfulByteRead R RepR)
    {v : VB (t.bits c)} (hv : BvReach c (t.bits c) v bits) (hf : Fits d.usz (u.bits d) bits.length) {s : σ} {l} (hs : RepW s l) :
    ∃ code s', save c t W .little v s = .ok (.ok (), s') ∧ RepW s' (l ++ code) ∧ ∀ r, RepR r code →
      if blocksFor (u.bits d) bits.length * u.bits d ≤ blocksFor (t.bits c) bits.length * t.bits c then
        ∃ v' r', load d u R .little bits.length r = .ok (.ok v', r') ∧ (bvBitVec d _).bitLen v' = .ok bits.length ∧
          (∀ i < 2 ^ 64, (bvBitVec d _).getBit v' i = expectR bits[i]?)
      else ∃ r', load d u R .little bits.length r = .ok (.error .unexpectedEof, r') := by
  obtain ⟨code, s', h1, h2, h3, h4, -⟩ := C113_save c t hW hv hs
  refine ⟨code, s', h1, h2, fun r hr => ?_⟩
  have h := u.isBlk d
  obtain ⟨k1, k2⟩ := load_ok d u hR hf hr
  split
  · rename_i hle
    obtain ⟨v', r', g1, -, g3⟩ := k1 (by omega)
    rw [h4, List.take_left] at g3
    exact ⟨v', r', g1, bv_bitLen d g3, fun i hi => (bv_law d h).getBit g3 i hi⟩
  · exact k2 (by omega)

/-- C113: written and read with blocks of the same type and in the same byte order, little- or big-endian, whatever
follows in the file, a bit vector comes back as it was, and what follows is left. -/
theorem C113_same_type (c : Cfg) (t : BlkTy) (T : Endian) {W : ByteWrite σ}
    {RepW : σ → List (BitVec 8) → Prop} (hW : LawfulByteWrite W RepW) {R : ByteRead τ} {RepR : τ → List (BitVec 8) → Prop}
    (hR : LawfulByteRead R RepR) {v : VB (t.bits c)} (hv : BvReach c (t.bits c) v bits) {s : σ} {l} (hs : RepW s l) :
    ∃ code s', save c t W T v s = .ok (.ok (), s') ∧ RepW s' (l ++ code) ∧ ∀ r rest, RepR r (code ++ rest) →
      ∃ r', load c t R T bits.length r = .ok (.ok v, r') ∧ RepR r' rest := by
  have h := t.isBlk c
  have hv' := hv.rep h
  have hw := h.pos
  have hblk := hv'.blocks
  have hf := hv'.fits
  obtain ⟨b, hb, hrd, hwr⟩ := t.bits_eq c
  obtain ⟨s', h1, h2⟩ := saveBlocks_ok c t T hW (hwr W T) v v.vec.length 0 (by omega) hs
  rw [List.drop_zero] at h2
  refine ⟨_, s', ?_, h2, fun r rest hr => ?_⟩
  · rw [save, (bv_block c h).blockLen hv', SM.lift_ok_bind, ← hblk]
    exact h1
  obtain ⟨v', r', g1, g2, g3⟩ := loadBlocks_ok c t T hR (hrd R T) (v.vec.map fun x => T.bytes b x.toNat)
    (by intro bs hbs; obtain ⟨x, -, rfl⟩ := List.mem_map.1 hbs; exact T.length_bytes _ _)
    (pre := []) (v := VB.new) (VR.nil c h 1)
    (by
      rw [List.length_nil, Nat.zero_add, List.length_map, hblk]
      unfold Fits
      rw [blocksFor_mul _ _ hw]
      exact hf) hr
  have hm : (v.vec.map fun x => T.bytes b x.toNat).map (fun bs => BitVec.ofNat (t.bits c) (T.val bs)) = v.vec := by
    rw [List.map_map]
    conv => rhs; rw [← List.map_id v.vec]
    apply List.map_congr_left
    intro x _
    show BitVec.ofNat _ (T.val (T.bytes b x.toNat)) = x
    rw [T.val_bytes, Nat.mod_eq_of_lt, BitVec.ofNat_toNat, BitVec.setWidth_eq]
    have := x.isLt
    rw [show 256 ^ b = 2 ^ t.bits c by rw [hb, Nat.pow_mul]]
    exact this
  rw [hm, List.nil_append, hv'.array hw] at g3
  rw [List.length_map] at g1
  obtain ⟨v'', k1, k2⟩ := bv_truncate c h g3 bits.length
  rw [padTo, List.take_left] at k2
  have hvv : v'' = v := VR.eq_of_bits Nat.one_pos k2 hv'
  have hceil : ceilDivNbits c (t.bits c) bits.length = .ok v.vec.length := by
    have hf' := hf
    unfold Fits at hf'
    have h1 := le_blocksFor_mul bits.length hw
    rw [ceilDivNbits_eq c h (by omega), hblk, Nat.mod_eq_of_lt (by unfold blocksFor at hf'; exact hf'.2)]
    rfl
  refine ⟨r', ?_, g2⟩
  rw [load, hceil, SM.lift_ok_bind, SM.bind_run_ok g1, k1, hvv]
  rfl

/-- Twelve bits written as one `u16` and read as bytes, and written as two bytes and read as one `u16`; one byte is not
enough for a `u16`. -/
example : save ⟨true, .p64, true⟩ .u16 bytesWrite .little (⟨12, [0x0a53#16]⟩ : VB 16) [] = .ok (.ok (), [0x53#8, 0x0a#8]) ∧
    load ⟨true, .p64, true⟩ .u8 bytesRead .little 12 [0x53#8, 0x0a#8] = .ok (.ok (⟨12, [0x53#8, 0x0a#8]⟩ : VB 8), []) ∧
    load ⟨true, .p64, true⟩ .u16 bytesRead .little 12 [0x53#8, 0xfa#8, 0x77#8] = .ok (.ok (⟨12, [0x0a53#16]⟩ : VB 16), [0x77#8]) ∧
    load ⟨true, .p64, true⟩ .u16 bytesRead .little 8 [0x53#8] = .ok (.error .unexpectedEof, []) := by decide +kernel

/-- In big-endian order the block type matters: the same twelve bits read back with other blocks are other bits. -/
theorem C113_big_endian_counterexample (d a : Bool) (p : Ptr) :
    save ⟨d, p, a⟩ .u16 bytesWrite .big (⟨12, [0x0a53#16]⟩ : VB 16) [] = .ok (.ok (), [0x0a#8, 0x53#8]) ∧
    load ⟨d, p, a⟩ .u16 bytesRead .big 12 [0x0a#8, 0x53#8] = .ok (.ok (⟨12, [0x0a53#16]⟩ : VB 16), []) ∧
    load ⟨d, p, a⟩ .u8 bytesRead .big 12 [0x0a#8, 0x53#8] = .ok (.ok (⟨12, [0x0a#8, 0x03#8]⟩ : VB 8), []) := by
  cases d <;> cases a <;> cases p <;> decide +kernel

/-! Each theorem of this file that has hypotheses is applied to concrete data in `Verif/Instances/Save.lean`. -/

end Succinct
