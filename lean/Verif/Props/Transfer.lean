import Verif.Props.Save
import Verif.Props.Reach
import Verif.Lemmas.View
/-! Property C158: the blocks of any vector can be written to a file and read into any other vector of the same length. The programs
here are not in the crate; they call its `block_len`, `get_block`, `set_block`, `write_block` and `read_block`. -/
namespace Succinct
open Spec

section
variable {σ S : Type} (c : Cfg) (t : BlkTy)

/-- `for j in i .. i + k { v.get_block(j).write_block::<_, T>(sink)? }` -/
def storeBlocks (o : BitVecOps (t.bits c) S) (W : ByteWrite σ) (T : Endian) (v : S) : Nat → Nat → SM σ Unit
  | 0, _ => pure ()
  | k + 1, i => do
    let x ← SM.lift (o.getBlock v i)
    writeBlock c t W T x
    storeBlocks o W T v k (i + 1)

/-- Write all blocks of a vector. -/
def store (o : BitVecOps (t.bits c) S) (W : ByteWrite σ) (T : Endian) (v : S) : SM σ Unit := do
  let n ← SM.lift (o.blockLen v)
  storeBlocks c t o W T v n 0

/-- `for j in i .. i + k { v.set_block(j, Block::read_block::<_, T>(source)?) }` -/
def restoreBlocks (o : BitVecMutOps (t.bits c) S) (R : ByteRead σ) (T : Endian) : Nat → Nat → S → SM σ S
  | 0, _, v => pure v
  | k + 1, i, v => do
    let x ← readBlock c t R T
    let v ← SM.lift (o.setBlock v i x)
    restoreBlocks o R T k (i + 1) v

/-- Read all blocks of a vector whose length is known. -/
def restore (o : BitVecMutOps (t.bits c) S) (R : ByteRead σ) (T : Endian) (v : S) : SM σ S := do
  let n ← SM.lift (o.blockLen v)
  restoreBlocks c t o R T n 0 v
end

section
variable {σ S : Type} {c : Cfg} {t : BlkTy} {R : S → List Bool → Prop}

/-- The blocks that are written, from `i` on: those that `get_block` returns. -/
theorem storeBlocks_ok {o : BitVecOps (t.bits c) S} (T : Endian) {W : ByteWrite σ} {RepW : σ → List (BitVec 8) → Prop}
    (hW : LawfulByteWrite W RepW) {b : Nat} (hwr : ∀ x, writeBlock c t W T x = W.writeAll (T.bytes b x.toNat))
    {v : S} (blocks : List (BitVec (t.bits c))) (i : Nat) (hg : ∀ j (h : j < blocks.length), o.getBlock v (i + j) = .ok blocks[j])
    {s : σ} {l} (hs : RepW s l) :
    ∃ s', storeBlocks c t o W T v blocks.length i s = .ok (.ok (), s') ∧ RepW s' (l ++ blocks.flatMap fun x => T.bytes b x.toNat) := by
  induction blocks generalizing i s l with
  | nil => exact ⟨s, rfl, by simpa using hs⟩
  | cons x blocks ih =>
    obtain ⟨s1, h1, h2⟩ := hW.write hs (T.bytes b x.toNat)
    obtain ⟨s2, h3, h4⟩ := ih (i + 1) (fun j hj => by
      have := hg (j + 1) (by simpa using hj)
      rwa [show i + (j + 1) = i + 1 + j by omega] at this) h2
    refine ⟨s2, ?_, ?_⟩
    · rw [List.length_cons, storeBlocks, show o.getBlock v i = .ok x from hg 0 (by simp), SM.lift_ok_bind,
        SM.bind_run_ok (by rw [hwr]; exact h1)]
      exact h3
    · rw [List.flatMap_cons, ← List.append_assoc]
      exact h4

/-- The blocks of a vector. -/
theorem blocks_of {o : BitVecOps (t.bits c) S} (ho : BVBlockRead o R) {v : S} {bits : List Bool} (hv : R v bits) :
    ∃ blocks : List (BitVec (t.bits c)), blocks.length = blocksFor (t.bits c) bits.length ∧ (arrayBits blocks).take bits.length = bits ∧
      ∀ j (h : j < blocks.length), o.getBlock v j = .ok blocks[j] := by
  have hw := (t.isBlk c).pos
  generalize hN : blocksFor (t.bits c) bits.length = N
  have hex : ∀ k ≤ N, ∃ blocks : List (BitVec (t.bits c)), blocks.length = k ∧ ∀ j (h : j < blocks.length), o.getBlock v j = .ok blocks[j] := by
    intro k
    induction k with
    | zero => exact fun _ => ⟨[], rfl, fun j h => absurd h (by simp)⟩
    | succ k ih =>
      intro hk
      obtain ⟨blocks, h1, h2⟩ := ih (by omega)
      obtain ⟨x, h3, -⟩ := ho.getBlock hv k (by omega)
      refine ⟨blocks ++ [x], by simp [h1], fun j hj => ?_⟩
      by_cases hlt : j < blocks.length
      · rw [List.getElem_append_left hlt]; exact h2 j hlt
      · obtain rfl : j = k := by simp at hj; omega
        rw [List.getElem_append_right (by omega), h3]
        simp
  obtain ⟨blocks, h1, h2⟩ := hex N (Nat.le_refl _)
  refine ⟨blocks, h1, ?_, h2⟩
  have hcov := le_blocksFor_mul bits.length hw
  rw [hN] at hcov
  apply List.ext_getElem?
  intro i
  by_cases hi : i < bits.length
  · have hq : i / t.bits c < N := by
      rw [Nat.div_lt_iff_lt_mul hw]; omega
    have e : i / t.bits c * t.bits c + i % t.bits c = i := by rw [Nat.mul_comm]; exact Nat.div_add_mod ..
    obtain ⟨x, h3, h4⟩ := ho.getBlock hv (i / t.bits c) (by omega)
    have h5 := h4 (i % t.bits c) (Nat.mod_lt _ hw) (by omega)
    rw [e] at h5
    have h6 := h2 (i / t.bits c) (by omega)
    rw [h3] at h6
    have h6 : x = blocks[i / t.bits c]'(by omega) := Res.ok.inj h6
    rw [List.getElem?_take, if_pos hi, getElem?_arrayBits _ hw, if_pos (by rw [h1]; omega), ← h5, vbit,
      List.getElem?_eq_getElem (by omega), ← h6]
    rfl
  · rw [List.getElem?_eq_none (by rw [List.length_take]; omega), List.getElem?_eq_none (by omega)]

theorem restoreBlocks_ok {o : BitVecMutOps (t.bits c) S} (ho : BVMutLaw c o R) (T : Endian) {Rd : ByteRead σ}
    {RepR : σ → List (BitVec 8) → Prop} (hR : LawfulByteRead Rd RepR) {b : Nat}
    (hrd : ∀ s, readBlock c t Rd T s = (readUint Rd T b >>= fun x => pure (BitVec.ofNat _ x)) s)
    (code : List (List (BitVec 8))) (hcode : ∀ bs ∈ code, bs.length = b) {v : S} {l : List Bool} (hv : R v l) {i : Nat}
    (hi : i + code.length = blocksFor (t.bits c) l.length) {s : σ} {rest} (hs : RepR s (code.flatten ++ rest)) :
    ∃ v' s' l', restoreBlocks c t o Rd T code.length i v s = .ok (.ok v', s') ∧ RepR s' rest ∧ R v' l' ∧ l'.length = l.length ∧
      ∀ j < l.length, l'[j]? = if j < i * t.bits c then l[j]?
        else (arrayBits (code.map fun bs => BitVec.ofNat (t.bits c) (T.val bs)))[j - i * t.bits c]? := by
  have hw := (t.isBlk c).pos
  induction code generalizing v l i s with
  | nil =>
    refine ⟨v, s, l, rfl, by simpa using hs, hv, rfl, fun j hj => ?_⟩
    have := le_blocksFor_mul l.length hw
    rw [if_pos (by rw [← hi] at this; simp at this; omega)]
  | cons bs code ih =>
    rw [List.flatten_cons, List.append_assoc] at hs
    obtain ⟨s1, h1, h2⟩ := hR.enough hs
    have hbl := hcode bs List.mem_cons_self
    rw [hbl] at h1
    have h3 : readBlock c t Rd T s = .ok (.ok (BitVec.ofNat _ (T.val bs)), s1) := by
      rw [hrd, SM.bind_run_ok (show readUint Rd T b s = .ok (.ok (T.val bs), s1) by rw [readUint, SM.bind_run_ok h1]; rfl)]
      rfl
    rw [List.length_cons] at hi
    have hib : i < blocksFor (t.bits c) l.length := by omega
    obtain ⟨v1, h4, h5⟩ := ho.setBlock hv i (BitVec.ofNat _ (T.val bs)) hib
    have hlt : i * t.bits c < l.length := (lt_blocksFor hw).1 hib
    have hlen : ((blockBits (BitVec.ofNat (t.bits c) (T.val bs))).take (l.length - i * t.bits c)).length =
        min (l.length - i * t.bits c) (t.bits c) := by
      rw [List.length_take, length_blockBits]
    have hov : i * t.bits c + ((blockBits (BitVec.ofNat (t.bits c) (T.val bs))).take (l.length - i * t.bits c)).length ≤ l.length := by
      rw [hlen]; omega
    have hlo := length_overwrite hov
    obtain ⟨v2, s2, l2, g1, g2, g3, g4, g5⟩ := ih (fun x hx => hcode x (List.mem_cons_of_mem _ hx)) h5 (i := i + 1)
      (by rw [hlo]; omega) h2
    rw [hlo] at g4 g5
    refine ⟨v2, s2, l2, ?_, g2, g3, g4, fun j hj => ?_⟩
    · rw [List.length_cons, restoreBlocks, SM.bind_run_ok h3, h4, SM.lift_ok_bind]
      exact g1
    · rw [g5 j hj, getElem?_overwrite hov, hlen, Nat.succ_mul, List.map_cons, arrayBits_cons]
      by_cases hj1 : j < i * t.bits c
      · rw [if_pos (by omega), if_neg (by omega), if_pos hj1]
      · rw [if_neg hj1]
        by_cases hj2 : j < i * t.bits c + t.bits c
        · rw [if_pos hj2, if_pos (by omega), List.getElem?_take, if_pos (by omega),
            List.getElem?_append_left (by rw [length_blockBits]; omega)]
        · rw [if_neg hj2, List.getElem?_append_right (by rw [length_blockBits]; omega), length_blockBits, Nat.sub_sub]

theorem restoreBlocks_short {o : BitVecMutOps (t.bits c) S} (ho : BVMutLaw c o R) (T : Endian) {Rd : ByteRead σ}
    {RepR : σ → List (BitVec 8) → Prop} (hR : LawfulByteRead Rd RepR) {b : Nat}
    (hrd : ∀ s, readBlock c t Rd T s = (readUint Rd T b >>= fun x => pure (BitVec.ofNat _ x)) s)
    (k : Nat) {v : S} {l : List Bool} (hv : R v l) {i : Nat}
    (hi : i + k = blocksFor (t.bits c) l.length) {s : σ} {bytes} (hs : RepR s bytes) (hlt : bytes.length < k * b) :
    ∃ s', restoreBlocks c t o Rd T k i v s = .ok (.error .unexpectedEof, s') := by
  have hw := (t.isBlk c).pos
  induction k generalizing v l i s bytes with
  | zero => omega
  | succ k ih =>
    by_cases hbb : b ≤ bytes.length
    · obtain ⟨s1, h1, h2⟩ := hR.enough (bs := bytes.take b) (rest := bytes.drop b) (by rwa [List.take_append_drop])
      rw [List.length_take, Nat.min_eq_left hbb] at h1
      have h3 : readBlock c t Rd T s = .ok (.ok (BitVec.ofNat _ (T.val (bytes.take b))), s1) := by
        rw [hrd, SM.bind_run_ok (show readUint Rd T b s = .ok (.ok (T.val (bytes.take b)), s1) by rw [readUint, SM.bind_run_ok h1]; rfl)]
        rfl
      have hib : i < blocksFor (t.bits c) l.length := by omega
      have hlt2 : i * t.bits c < l.length := (lt_blocksFor hw).1 hib
      obtain ⟨v1, h4, h5⟩ := ho.setBlock hv i (BitVec.ofNat _ (T.val (bytes.take b))) hib
      obtain ⟨s2, g1⟩ := ih h5 (i := i + 1)
        (by rw [length_overwrite (by rw [List.length_take, length_blockBits]; omega)]; omega) h2
        (by rw [List.length_drop]; rw [Nat.succ_mul] at hlt; omega)
      exact ⟨s2, by rw [restoreBlocks, SM.bind_run_ok h3, h4, SM.lift_ok_bind]; exact g1⟩
    · obtain ⟨s1, h1⟩ := hR.short hs b (by omega)
      refine ⟨s1, ?_⟩
      have h3 : readBlock c t Rd T s = .ok (.error .unexpectedEof, s1) := by
        rw [hrd, SM.bind_run_err (show readUint Rd T b s = .ok (.error .unexpectedEof, s1) by rw [readUint, SM.bind_run_err h1])]
      rw [restoreBlocks, SM.bind_run_err h3]
end

section
variable {σ τ S S' : Type}

/-- C158: the blocks of any lawful vector, whatever their unused bits, written in either byte order and read, with blocks of the same
type, into any lawful vector of as many bits: the second holds the bits of the first, and the rest of the file is left. -/
theorem C158_same_type (c d : Cfg) (t : BlkTy) (hcd : t.bits c = t.bits d) (T : Endian) {o : BitVecOps (t.bits c) S}
    {R : S → List Bool → Prop} (ho : BVBlockRead o R) {o' : BitVecMutOps (t.bits d) S'} {R' : S' → List Bool → Prop}
    (hb' : BVBlockRead o'.toBitVecOps R') (ho' : BVMutLaw d o' R') {W : ByteWrite σ} {RepW : σ → List (BitVec 8) → Prop}
    (hW : LawfulByteWrite W RepW) {Rd : ByteRead τ} {RepR : τ → List (BitVec 8) → Prop} (hR : LawfulByteRead Rd RepR)
    {v : S} {bits : List Bool} (hv : R v bits) {v0 : S'} {old : List Bool} (hv0 : R' v0 old) (hlen : old.length = bits.length)
    {s : σ} {l} (hs : RepW s l) :
    ∃ code s', store c t o W T v s = .ok (.ok (), s') ∧ RepW s' (l ++ code) ∧ ∀ r rest, RepR r (code ++ rest) →
      ∃ v' r', restore d t o' Rd T v0 r = .ok (.ok v', r') ∧ RepR r' rest ∧ R' v' bits := by
  obtain ⟨b, hb, -, hwr⟩ := t.bits_eq c
  obtain ⟨b', hb', hrd', -⟩ := t.bits_eq d
  obtain rfl : b' = b := by omega
  have hw := (t.isBlk c).pos
  obtain ⟨blocks, h1, h2, h3⟩ := blocks_of ho hv
  obtain ⟨s', h4, h5⟩ := storeBlocks_ok T hW (hwr W T) blocks 0 (fun j hj => by rw [Nat.zero_add]; exact h3 j hj) hs
  refine ⟨_, s', ?_, h5, fun r rest hr => ?_⟩
  · rw [store, ho.blockLen hv, SM.lift_ok_bind, ← h1]
    exact h4
  have hbl : blocksFor (t.bits d) old.length = blocks.length := by rw [h1, hlen, hcd]
  obtain ⟨v', r', l', g1, g2, g3, g4, g5⟩ := restoreBlocks_ok ho' T hR (hrd' Rd T) (blocks.map fun x => T.bytes b' x.toNat)
    (by intro bs hbs; obtain ⟨x, -, rfl⟩ := List.mem_map.1 hbs; exact T.length_bytes _ _) hv0 (i := 0)
    (by rw [Nat.zero_add, List.length_map, hbl]) hr
  refine ⟨v', r', ?_, g2, ?_⟩
  · rename_i hb''
    rw [restore, hb''.blockLen hv0, SM.lift_ok_bind, hbl]
    rw [List.length_map] at g1
    exact g1
  · have hl' : l' = bits := by
      apply List.ext_getElem?
      intro j
      by_cases hj : j < old.length
      · rw [g5 j hj, if_neg (by omega), Nat.zero_mul, Nat.sub_zero]
        conv => rhs; rw [← h2, List.getElem?_take, if_pos (by omega)]
        congr 1
        rw [List.map_map, arrayBits, arrayBits, List.flatMap_map, List.flatMap_def, List.flatMap_def]
        congr 1
        apply List.map_congr_left
        intro x _
        show blockBits (BitVec.ofNat (t.bits d) (T.val (T.bytes b' x.toNat))) = blockBits x
        rw [T.val_bytes, Nat.mod_eq_of_lt (by rw [show 256 ^ b' = 2 ^ t.bits c by rw [hb, Nat.pow_mul]]; exact x.isLt),
          blockBits, blockBits, BitVec.toNat_ofNat, Nat.mod_eq_of_lt (by rw [← hcd]; exact x.isLt), ← hcd]
      · rw [List.getElem?_eq_none (by omega), List.getElem?_eq_none (by omega)]
    rwa [hl'] at g3

/-- C158: written in little-endian order with blocks of one type and read with blocks of another, on another machine or not. Reading
fails, with `UnexpectedEof`, exactly if the blocks of the second vector take more room. -/
theorem C158_little (c d : Cfg) (t u : BlkTy) {o : BitVecOps (t.bits c) S}
    {R : S → List Bool → Prop} (ho : BVBlockRead o R) {o' : BitVecMutOps (u.bits d) S'} {R' : S' → List Bool → Prop}
    (hb' : BVBlockRead o'.toBitVecOps R') (ho' : BVMutLaw d o' R') {W : ByteWrite σ} {RepW : σ → List (BitVec 8) → Prop}
    (hW : LawfulByteWrite W RepW) {Rd : ByteRead τ} {RepR : τ → List (BitVec 8) → Prop} (hR : LawfulByteRead Rd RepR)
    {v : S} {bits : List Bool} (hv : R v bits) {v0 : S'} {old : List Bool} (hv0 : R' v0 old) (hlen : old.length = bits.length)
    {s : σ} {l} (hs : RepW s l) :
    ∃ code s', store c t o W .little v s = .ok (.ok (), s') ∧ RepW s' (l ++ code) ∧
      8 * code.length = blocksFor (t.bits c) bits.length * t.bits c ∧ ∀ r, RepR r code →
      if blocksFor (u.bits d) bits.length * u.bits d ≤ blocksFor (t.bits c) bits.length * t.bits c then
        ∃ v' r', restore d u o' Rd .little v0 r = .ok (.ok v', r') ∧ R' v' bits
      else ∃ r', restore d u o' Rd .little v0 r = .ok (.error .unexpectedEof, r') := by
  obtain ⟨b, hb, -, hwr⟩ := t.bits_eq c
  obtain ⟨a, ha, hrd, -⟩ := u.bits_eq d
  have hw := (t.isBlk c).pos
  have hwu := (u.isBlk d).pos
  obtain ⟨blocks, h1, h2, h3⟩ := blocks_of ho hv
  obtain ⟨s', h4, h5⟩ := storeBlocks_ok .little hW (hwr W .little) blocks 0 (fun j hj => by rw [Nat.zero_add]; exact h3 j hj) hs
  have hbits : arrayBits (blocks.flatMap fun x => Endian.little.bytes b x.toNat) = arrayBits blocks := flatMap_leBytes hb blocks
  have hcl : 8 * (blocks.flatMap fun x => Endian.little.bytes b x.toNat).length = blocksFor (t.bits c) bits.length * t.bits c := by
    have := congrArg List.length hbits
    rw [length_arrayBits, length_arrayBits, h1] at this
    omega
  refine ⟨_, s', ?_, h5, hcl, fun r hr => ?_⟩
  · rw [store, ho.blockLen hv, SM.lift_ok_bind, ← h1]
    exact h4
  generalize (blocks.flatMap fun x => Endian.little.bytes b x.toNat) = code at hbits hcl hr
  generalize hk : blocksFor (u.bits d) bits.length = k
  have h8 : k * u.bits d = 8 * (k * a) := by rw [ha, Nat.mul_left_comm]
  have hrestore : ∀ r, restore d u o' Rd .little v0 r = restoreBlocks d u o' Rd .little k 0 v0 r := fun r => by
    rw [restore, hb'.blockLen hv0, SM.lift_ok_bind, hlen, hk]
  rw [hrestore]
  split
  · rename_i hle
    have hle' : k * a ≤ code.length := by omega
    obtain ⟨e1, e2⟩ := groups_spec a k code hle'
    obtain ⟨v', r', l', g1, g2, g3, g4, g5⟩ := restoreBlocks_ok ho' .little hR (hrd Rd .little) (groups a k code) e2 hv0 (i := 0)
      (by rw [Nat.zero_add, length_groups, hlen, hk]) (s := r) (rest := code.drop (k * a)) (by rw [e1, List.take_append_drop]; exact hr)
    rw [length_groups] at g1
    refine ⟨v', r', g1, ?_⟩
    have hl' : l' = bits := by
      apply List.ext_getElem?
      intro j
      by_cases hj : j < old.length
      · have hcov := le_blocksFor_mul bits.length hwu
        rw [hk] at hcov
        rw [g5 j hj, if_neg (by omega), Nat.zero_mul, Nat.sub_zero,
          show (fun bs => BitVec.ofNat (u.bits d) (Endian.little.val bs)) = fun bs => BitVec.ofNat (u.bits d) (leVal bs) from rfl,
          map_leVal ha _ e2, e1]
        conv => rhs; rw [← h2, List.getElem?_take, if_pos (by omega), ← hbits, ← List.take_append_drop (k * a) code, arrayBits_append]
        rw [List.getElem?_append_left]
        rw [length_arrayBits, List.length_take, Nat.min_eq_left hle']
        omega
      · rw [List.getElem?_eq_none (by omega), List.getElem?_eq_none (by omega)]
    rwa [hl'] at g3
  · exact restoreBlocks_short ho' .little hR (hrd Rd .little) k hv0 (i := 0) (by rw [Nat.zero_add, hlen, hk]) hr (by omega)

/-- C158: an `IntVector` of `n` elements of `k` bits written in little-endian order with blocks of one type, and read with blocks of
another into `IntVector::with_fill(k, n, 0)`, holds the same elements. -/
theorem C158_int_vector (c d : Cfg) (t u : BlkTy) {W : ByteWrite σ} {RepW : σ → List (BitVec 8) → Prop}
    (hW : LawfulByteWrite W RepW) {Rd : ByteRead τ} {RepR : τ → List (BitVec 8) → Prop} (hR : LawfulByteRead Rd RepR)
    {v : IV (t.bits c)} (hv : IvReach c (t.bits c) k v xs) (hk : k ≤ u.bits d) (hf : Fits d.usz (u.bits d) (xs.length * k))
    {s : σ} {l} (hs : RepW s l) :
    ∃ code s' v0, store c t (ivBitVec c _) W .little v s = .ok (.ok (), s') ∧ RepW s' (l ++ code) ∧
      IV.withFill d k xs.length (0 : BitVec (u.bits d)) = .ok v0 ∧ ∀ r, RepR r code →
      if blocksFor (u.bits d) (xs.length * k) * u.bits d ≤ blocksFor (t.bits c) (xs.length * k) * t.bits c then
        ∃ v' r', restore d u (ivBitVecMut d _) Rd .little v0 r = .ok (.ok v', r') ∧ IvReach d (u.bits d) k v' xs
      else ∃ r', restore d u (ivBitVecMut d _) Rd .little v0 r = .ok (.error .unexpectedEof, r') := by
  have ht := t.isBlk c
  have hu := u.isBlk d
  have hvR := hv.rep ht
  obtain ⟨v0, h1, h2⟩ := ivInit_ok d hu hvR.pos hk (.withFill xs.length 0) hf
  have hlen : (packBits k xs).length = xs.length * k := length_packBits ..
  obtain ⟨code, s', h3, h4, -, h5⟩ := C158_little c d t u (iv_block c ht).toBVBlockRead
    (o' := ivBitVecMut d _) (R' := fun s l => ivR d _ s l ∧ s.elementBits = k)
    ⟨fun hR => (iv_block d hu).blockLen hR.1, fun hR => (iv_block d hu).getBlock hR.1⟩ (iv_mut_law_width d hu k) hW hR
    hvR.ivR ⟨h2.ivR, h2.eb⟩ (by rw [length_packBits, hlen]; simp [IvInit.elems]) hs
  refine ⟨code, s', v0, h3, h4, h1, fun r hr => ?_⟩
  have h6 := h5 r hr
  rw [hlen] at h6
  split at h6
  · rename_i hle
    rw [if_pos hle]
    obtain ⟨v', r', g1, g2, g3⟩ := h6
    refine ⟨v', r', g1, IR.reach hu ⟨g3, hvR.pos, hk, hvR.lt, ?_⟩⟩
    have := g2.rep
    rwa [g3] at this
  · rename_i hle
    rw [if_neg hle]
    exact h6

/-- C158: with blocks of the same type, in either byte order, the very same `IntVector` comes back. -/
theorem C158_int_vector_same_type (c : Cfg) (t : BlkTy) (T : Endian) {W : ByteWrite σ} {RepW : σ → List (BitVec 8) → Prop}
    (hW : LawfulByteWrite W RepW) {Rd : ByteRead τ} {RepR : τ → List (BitVec 8) → Prop} (hR : LawfulByteRead Rd RepR)
    {v : IV (t.bits c)} (hv : IvReach c (t.bits c) k v xs) {s : σ} {l} (hs : RepW s l) :
    ∃ code s' v0, store c t (ivBitVec c _) W T v s = .ok (.ok (), s') ∧ RepW s' (l ++ code) ∧
      IV.withFill c k xs.length (0 : BitVec (t.bits c)) = .ok v0 ∧ ∀ r rest, RepR r (code ++ rest) →
        ∃ r', restore c t (ivBitVecMut c _) Rd T v0 r = .ok (.ok v, r') ∧ RepR r' rest := by
  have ht := t.isBlk c
  have hvR := hv.rep ht
  have hlen : (packBits k xs).length = xs.length * k := length_packBits ..
  obtain ⟨v0, h1, h2⟩ := ivInit_ok c ht hvR.pos hvR.le (.withFill xs.length 0) (by
    show Fits c.usz (t.bits c) (xs.length * k)
    rw [← hlen]; exact hvR.rep.fits)
  obtain ⟨code, s', h3, h4, h5⟩ := C158_same_type c c t rfl T (iv_block c ht).toBVBlockRead
    (o' := ivBitVecMut c _) (R' := fun s l => ivR c _ s l ∧ s.elementBits = k)
    ⟨fun hR => (iv_block c ht).blockLen hR.1, fun hR => (iv_block c ht).getBlock hR.1⟩ (iv_mut_law_width c ht k) hW hR
    hvR.ivR ⟨h2.ivR, h2.eb⟩ (by rw [length_packBits, hlen]; simp [IvInit.elems]) hs
  refine ⟨code, s', v0, h3, h4, h1, fun r rest hr => ?_⟩
  obtain ⟨v', r', g1, g2, g3, g4⟩ := h5 r rest hr
  refine ⟨r', ?_, g2⟩
  have e : v' = v := by
    have h6 := g3.rep
    rw [g4] at h6
    have h7 := h6.eq_of_bits hvR.pos hvR.rep
    obtain ⟨eb, base⟩ := v
    obtain ⟨eb', base'⟩ := v'
    have h8 : eb = k := hvR.eb
    have h9 : eb' = k := g4
    subst h8 h9
    exact congrArg _ h7
  rw [g1, e]
end

/-! Each theorem of this file that has hypotheses is applied to concrete data in `Verif/Instances/Transfer.lean`. -/
end Succinct
