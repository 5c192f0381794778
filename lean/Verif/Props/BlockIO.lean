import Verif.Model.BlockIO
import Verif.Lemmas.Stream
/-! Property C08 (block I/O). -/
namespace Succinct
open Spec

/-- A source of a finite list of bytes: `read_exact(n)` delivers the next `n`, or fails with
`UnexpectedEof` if there are fewer. -/
structure LawfulByteRead (R : ByteRead σ) (Rep : σ → List (BitVec 8) → Prop) : Prop where
  enough : ∀ {s bs rest}, Rep s (bs ++ rest) → ∃ s', R.readExact bs.length s = .ok (.ok bs, s') ∧ Rep s' rest
  short : ∀ {s bs}, Rep s bs → ∀ n, bs.length < n → ∃ s', R.readExact n s = .ok (.error .unexpectedEof, s')

/-- A sink that appends. -/
structure LawfulByteWrite (W : ByteWrite σ) (Rep : σ → List (BitVec 8) → Prop) : Prop where
  write : ∀ {s l}, Rep s l → ∀ bs, ∃ s', W.writeAll bs s = .ok (.ok (), s') ∧ Rep s' (l ++ bs)

theorem length_leBytes (k x : Nat) : (leBytes k x).length = k := by
  induction k generalizing x with
  | zero => rfl
  | succ k ih => simp [leBytes, ih]

theorem leVal_leBytes (k x : Nat) : leVal (leBytes k x) = x % 256 ^ k := by
  induction k generalizing x with
  | zero => simp [leBytes, leVal, Nat.mod_one]
  | succ k ih =>
    have e : 256 ^ (k + 1) = 256 * 256 ^ k := by rw [Nat.pow_succ, Nat.mul_comm]
    rw [leBytes, leVal, ih, BitVec.toNat_ofNat, e, Nat.mod_mul]
    omega

theorem getElem?_leBytes (k x i : Nat) : (leBytes k x)[i]? = if i < k then some (BitVec.ofNat 8 (x / 256 ^ i % 256)) else none := by
  induction k generalizing x i with
  | zero => simp [leBytes]
  | succ k ih =>
    rcases i with _ | i
    · simp [leBytes]
    · rw [leBytes, List.getElem?_cons_succ, ih, Nat.div_div_eq_div_mul, Nat.pow_succ, Nat.mul_comm (256 ^ i)]
      simp

theorem Endian.length_bytes (T : Endian) (k x : Nat) : (T.bytes k x).length = k := by
  cases T <;> simp [Endian.bytes, length_leBytes]
theorem Endian.val_bytes (T : Endian) (k x : Nat) : T.val (T.bytes k x) = x % 256 ^ k := by
  cases T <;> simp [Endian.bytes, Endian.val, leVal_leBytes]

theorem BlkTy.bits_eq (c : Cfg) (t : BlkTy) : ∃ k, t.bits c = 8 * k ∧
    (∀ {σ : Type} (R : ByteRead σ) T s, readBlock c t R T s = (readUint R T k >>= fun x => pure (BitVec.ofNat _ x)) s) ∧
    (∀ {σ : Type} (W : ByteWrite σ) T x, writeBlock c t W T x = W.writeAll (T.bytes k x.toNat)) := by
  have hmod : ∀ {u : Nat} (x : Nat), BitVec.ofNat u (x % 2 ^ u) = BitVec.ofNat u x := by
    intro u x
    apply BitVec.eq_of_toNat_eq
    simp
  cases t with
  | u8 => exact ⟨1, rfl, fun _ _ _ => rfl, fun _ _ _ => rfl⟩
  | u16 => exact ⟨2, rfl, fun _ _ _ => rfl, fun _ _ _ => rfl⟩
  | u32 => exact ⟨4, rfl, fun _ _ _ => rfl, fun _ _ _ => rfl⟩
  | u64 => exact ⟨8, rfl, fun _ _ _ => rfl, fun _ _ _ => rfl⟩
  | usize =>
    obtain ⟨d, p, a⟩ := c
    cases p with
    | p32 =>
      refine ⟨4, rfl, fun R T s => ?_, fun W T x => ?_⟩
      · simp only [readBlock, asUsize, BlkTy.bits, hmod]
      · simp only [writeBlock, writeUint]
        rw [Nat.mod_eq_of_lt (show x.toNat < 2 ^ 32 from x.isLt)]
    | p64 =>
      refine ⟨8, rfl, fun R T s => ?_, fun W T x => ?_⟩
      · simp only [readBlock, asUsize, BlkTy.bits, hmod]
      · simp only [writeBlock, writeUint]
        rw [Nat.mod_eq_of_lt (show x.toNat < 2 ^ 64 from x.isLt)]

/-- C08. For every block type, byte order and block: `write_block` appends `nbits()/8` bytes, from which,
whatever follows, `read_block` with the same order returns the block and leaves exactly what follows; if
fewer bytes are left, it fails with `UnexpectedEof`. -/
theorem C08_roundtrip (c : Cfg) (t : BlkTy) (T : Endian) {W : ByteWrite σ} {RepW : σ → List (BitVec 8) → Prop}
    (hW : LawfulByteWrite W RepW) {R : ByteRead τ} {RepR : τ → List (BitVec 8) → Prop} (hR : LawfulByteRead R RepR)
    (x : BitVec (t.bits c)) {s : σ} {l : List (BitVec 8)} (hs : RepW s l) :
    ∃ code s', 8 * code.length = t.bits c ∧ writeBlock c t W T x s = .ok (.ok (), s') ∧ RepW s' (l ++ code) ∧
      (∀ u rest, RepR u (code ++ rest) → ∃ u', readBlock c t R T u = .ok (.ok x, u') ∧ RepR u' rest) ∧
      (∀ u bs, RepR u bs → bs.length < code.length → ∃ u', readBlock c t R T u = .ok (.error .unexpectedEof, u')) := by
  obtain ⟨k, hk, hrd, hwr⟩ := t.bits_eq c
  obtain ⟨s', h1, h2⟩ := hW.write hs (T.bytes k x.toNat)
  refine ⟨T.bytes k x.toNat, s', by rw [T.length_bytes]; omega, by rw [hwr]; exact h1, h2, fun u rest hu => ?_, fun u bs hu hlt => ?_⟩
  · obtain ⟨u', h3, h4⟩ := hR.enough hu
    refine ⟨u', ?_, h4⟩
    rw [T.length_bytes] at h3
    have h5 : readUint R T k u = .ok (.ok (x.toNat), u') := by
      rw [readUint, SM.bind_run_ok h3, SM.pure_run, T.val_bytes, Nat.mod_eq_of_lt]
      have h6 := x.isLt
      have h7 : 2 ^ (t.bits c) = 256 ^ k := by rw [hk, Nat.pow_mul]
      omega
    rw [hrd, SM.bind_run_ok h5, SM.pure_run, BitVec.ofNat_toNat, BitVec.setWidth_eq]
  · rw [T.length_bytes] at hlt
    obtain ⟨u', h3⟩ := hR.short hu k hlt
    refine ⟨u', ?_⟩
    have h5 : readUint R T k u = .ok (.error .unexpectedEof, u') := by
      rw [readUint, SM.bind_run_err h3]
    rw [hrd, SM.bind_run_err h5]

/-- C08, which bytes: on any sink `write_block` is one `write_all` of the bytes of the block, byte `i` of
the little-endian form being `⌊x / 256^i⌋ mod 256`, and the big-endian form being its reverse. -/
theorem C08_bytes (c : Cfg) (t : BlkTy) (W : ByteWrite σ) (x : BitVec (t.bits c)) :
    ∃ le : List (BitVec 8), 8 * le.length = t.bits c ∧
      (∀ i < le.length, le[i]? = some (BitVec.ofNat 8 (x.toNat / 256 ^ i % 256))) ∧
      writeBlock c t W .little x = W.writeAll le ∧ writeBlock c t W .big x = W.writeAll le.reverse := by
  obtain ⟨k, hk, -, hwr⟩ := t.bits_eq c
  refine ⟨leBytes k x.toNat, by rw [length_leBytes]; omega, fun i hi => ?_, hwr W .little x, hwr W .big x⟩
  rw [length_leBytes] at hi
  rw [getElem?_leBytes, if_pos hi]

/-- A byte array as sink and source. -/
def bytesWrite : ByteWrite (List (BitVec 8)) := ⟨fun bs s => .ok (.ok (), s ++ bs)⟩
def bytesRead : ByteRead (List (BitVec 8)) :=
  ⟨fun n s => if n ≤ s.length then .ok (.ok (s.take n), s.drop n) else .ok (.error .unexpectedEof, [])⟩

theorem bytesWrite_lawful : LawfulByteWrite bytesWrite (fun s l => s = l) :=
  ⟨fun h bs => ⟨_, rfl, by rw [h]⟩⟩
theorem bytesRead_lawful : LawfulByteRead bytesRead (fun s l => s = l) where
  enough := by
    rintro s bs rest rfl
    exact ⟨rest, by simp [bytesRead], rfl⟩
  short := by
    rintro s bs rfl n hn
    exact ⟨[], by simp [bytesRead, hn]⟩

example : writeBlock ⟨true, .p32, true⟩ .usize bytesWrite .big (0x01020384#32) [9#8] =
      .ok (.ok (), [9#8, 1#8, 2#8, 3#8, 0x84#8]) ∧
    readBlock ⟨true, .p32, true⟩ .usize bytesRead .big [1#8, 2#8, 3#8, 0x84#8, 7#8] = .ok (.ok (0x01020384#32), [7#8]) ∧
    readBlock ⟨true, .p32, true⟩ .u16 bytesRead .little [1#8] = .ok (.error .unexpectedEof, []) := by decide

/-! Each theorem of this file that has hypotheses is applied to concrete data in `Verif/Instances/BlockIO.lean`. -/

end Succinct
