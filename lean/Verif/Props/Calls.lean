import Verif.Props.Hidden
import Verif.Props.Search
/-!
# C138: exactly which calls generic code makes on its vector
-/
namespace Succinct
open Spec Hidden

/-- A call of a method of `BitVec` or `BitVecMut`; of a write, the place. -/
inductive VCall where
  | bitLen
  | blockLen
  | getBit (i : Nat)
  | getBlock (i : Nat)
  | getBits (i n : Nat)
  | setBit (i : Nat)
  | setBlock (i : Nat)
  | setBits (i n : Nat)
deriving DecidableEq, Repr

/-- A vector together with the list of calls made so far. -/
structure Logged (S : Type) where
  data : S
  log : List VCall

/-- Make the call and write it down. -/
def Logged.call (k : VCall) (f : S → Res α) : HM (Logged S) α := fun s => do
  let a ← f s.data
  .ok (a, ⟨s.data, s.log ++ [k]⟩)

/-- A vector that writes down the calls made on it. -/
def logged (o : BitVecOps w S) : HVec w (Logged S) where
  bitLen := Logged.call .bitLen o.bitLen
  blockLen := Logged.call .blockLen o.blockLen
  getBit i := Logged.call (.getBit i) fun s => o.getBit s i
  getBlock i := Logged.call (.getBlock i) fun s => o.getBlock s i
  getBits i n := Logged.call (.getBits i n) fun s => o.getBits s i n

/-- C138. Writing down the calls makes no difference to any of the generic code (by C137). -/
theorem C138_logged (o : BitVecOps w S) : Alike (fun (a : Logged S) s => a.data = s) (logged o) o.still := by
  have h : ∀ {α} k (f : S → Res α), Same (fun (a : Logged S) s => a.data = s) (Logged.call k f) (HM.look f) := by
    intro α k f a s hR
    subst hR
    unfold Logged.call
    rw [HM.look_run]
    cases f a.data with
    | ok x => exact .inr (.inr ⟨x, _, _, rfl, rfl, rfl⟩)
    | panic => exact .inl ⟨rfl, rfl⟩
    | diverge => exact .inr (.inl ⟨rfl, rfl⟩)
  exact ⟨h _ _, h _ _, fun i => h _ fun s => o.getBit s i, fun i => h _ fun s => o.getBlock s i, fun i n => h _ fun s => o.getBits s i n⟩

theorem logged_bitLen (o : BitVecOps w S) : (logged o).bitLen = Logged.call .bitLen o.bitLen := rfl
theorem logged_blockLen (o : BitVecOps w S) : (logged o).blockLen = Logged.call .blockLen o.blockLen := rfl
theorem logged_getBit (o : BitVecOps w S) (i : Nat) : (logged o).getBit i = Logged.call (.getBit i) fun s => o.getBit s i := rfl
theorem logged_getBlock (o : BitVecOps w S) (i : Nat) : (logged o).getBlock i = Logged.call (.getBlock i) fun s => o.getBlock s i := rfl
theorem logged_getBits (o : BitVecOps w S) (i n : Nat) :
    (logged o).getBits i n = Logged.call (.getBits i n) fun s => o.getBits s i n := rfl

theorem call_bind (k : VCall) (f : S → Res α) (g : α → HM (Logged S) β) (s : Logged S) :
    (Logged.call k f >>= g) s = f s.data >>= fun a => g a ⟨s.data, s.log ++ [k]⟩ := by
  rw [HM.bind_run]
  unfold Logged.call
  cases f s.data <;> rfl

theorem call_run (k : VCall) (f : S → Res α) (s : Logged S) :
    Logged.call k f s = f s.data >>= fun a => .ok (a, ⟨s.data, s.log ++ [k]⟩) := rfl

theorem Res.bind_same {x : Res α} {f g : α → Res β} (h : ∀ a, x = .ok a → f a = g a) : x >>= f = x >>= g := by
  cases x with
  | ok a => exact h a rfl
  | _ => rfl

theorem get_run (s : S) : (get : HM S S) s = .ok (s, s) := rfl

/-- A loop that makes one call per turn. -/
theorem loop_logged (n i : Nat) (a : α) (f : Nat → α → HM (Logged S) α) (g : Nat → α → S → Res α) (k : Nat → VCall)
    (h : ∀ i a s, f i a s = g i a s.data >>= fun a => .ok (a, ⟨s.data, s.log ++ [k i]⟩)) (s : Logged S) :
    HM.loop n i a f s = forLoop n i a (fun i a => g i a s.data) >>= fun a =>
      .ok (a, ⟨s.data, s.log ++ (List.range' i n).map k⟩) := by
  induction n generalizing i a s with
  | zero => show Res.ok (a, s) = Res.ok (a, ⟨s.data, s.log ++ []⟩); rw [List.append_nil]
  | succ n ih =>
    unfold HM.loop
    rw [HM.bind_run, h]
    show _ = (g i a s.data >>= fun a => forLoop n (i + 1) a fun i a => g i a s.data) >>= _
    cases g i a s.data with
    | ok a => rw [Res.ok_bind, Res.ok_bind, Res.ok_bind, ih, List.range'_succ, List.map_cons, List.append_assoc]; rfl
    | _ => rfl

section
variable {w : Nat} {S : Type} (c : Cfg)

/-- C138. Building a `Rank9` asks three times for the number of blocks and reads each block once, from first to
last. -/
theorem C138_rank9_new (o : BitVecOps 64 S) (s : S) (l : List VCall) {m : Nat} (hm : o.blockLen s = .ok m) :
    rank9New c (logged o) ⟨s, l⟩ = Rank9.new c o s >>= fun r =>
      .ok ⟨⟨s, l ++ ([.blockLen, .blockLen] ++ (List.range m).map .getBlock ++ [.blockLen])⟩, r.counts⟩ := by
  have hstep : ∀ i a (s : Logged S), rank9Step c (logged o) i a s =
      Rank9.step c o s.data i a >>= fun a => .ok (a, ⟨s.data, s.log ++ [.getBlock i]⟩) := by
    intro i a s
    unfold rank9Step Rank9.step logged
    simp only [call_bind, HM.lift_bind, HM.pure_run, Res.bind_bind, Res.ok_bind]
  unfold rank9New rank9Parts Rank9.new HM.range forRange
  simp only [HM.bind_run, logged_blockLen, call_run, HM.lift_run, HM.pure_run, hm, Res.bind_bind, Res.ok_bind,
    loop_logged _ _ _ (rank9Step c (logged o)) (fun i a s => Rank9.step c o s i a) .getBlock hstep]
  simp only [List.append_assoc, List.range_eq_range', Nat.sub_zero, List.cons_append, List.nil_append]

/-- C138. Building Jacobson's structure asks once for the number of bits, once for the number of blocks, and reads
each block once, from first to last. -/
theorem C138_jacobson_new (o : BitVecOps w S) (s : S) (l : List VCall) {m : Nat} (hm : o.blockLen s = .ok m) :
    jacobsonNew c (logged o) ⟨s, l⟩ = Jacobson.new c o s >>= fun j =>
      .ok ⟨⟨s, l ++ ([.bitLen, .blockLen] ++ (List.range m).map .getBlock)⟩, j.largeBlockSize, j.largeBlockRanks, j.smallBlockRanks⟩ := by
  have hstep : ∀ k i a (s : Logged S), jacobsonStep c (logged o) k i a s =
      Jacobson.step c o s.data k i a >>= fun a => .ok (a, ⟨s.data, s.log ++ [.getBlock i]⟩) := by
    intro k i a s
    unfold jacobsonStep Jacobson.step
    simp only [logged_getBlock, HM.ite_bind, HM.bind_assoc, HM.pure_bind, HM.ite_run, HM.res_ite, HM.lift_bind, call_bind, HM.pure_run,
      Res.bind_bind, Res.ok_bind]
  unfold jacobsonNew jacobsonParts Jacobson.new HM.range forRange
  simp only [HM.bind_run, logged_blockLen, logged_bitLen, call_run, HM.lift_run, HM.pure_run, hm, Res.bind_bind, Res.ok_bind,
    fun n i a k => loop_logged n i a (jacobsonStep c (logged o) k) (fun i a s => Jacobson.step c o s k i a) .getBlock (hstep k)]
  simp only [List.append_assoc, List.range_eq_range', Nat.sub_zero, List.cons_append, List.nil_append]

/-- C138. A `rank1` query of a `Rank9` makes one call: it reads the block of the position. -/
theorem C138_rank9_rank1 (o : BitVecOps 64 S) (r : Rank9 S) (l : List VCall) (p : Nat) :
    (rank9 c (logged o)).rank1 p ⟨⟨r.bitStore, l⟩, r.counts⟩ = (Rank9.ops c o).rank1 r p >>= fun a =>
      .ok (a, ⟨⟨r.bitStore, l ++ [.getBlock (p / 64)]⟩, r.counts⟩) := by
  show rank9Rank1 c (logged o) p _ = Rank9.rank1 c o r p >>= _
  unfold rank9Rank1 Rank9.rank1 inRank9 HM.on
  simp only [HM.bind_run, get_run, HM.lift_run, logged_getBlock, call_run, Res.bind_bind, Res.ok_bind]
  apply Res.bind_same
  intro a _
  apply Res.bind_same
  intro i hi
  have : i = p / 64 := by
    unfold toUsize at hi
    split at hi
    · cases hi; rfl
    · cases hi
  subst this
  rfl

/-- The address is that of the position, or there is none. -/
theorem address_cases (hw : IsBlk w) (p : Nat) : Address.new c w p = .ok ⟨p / w, p % w⟩ ∨ Address.new c w p = .panic := by
  rw [addrNew_eq c hw]
  split
  · exact .inl rfl
  · exact .inr rfl

/-- C138. A `rank1` query of Jacobson's structure asks for the number of bits and reads the block of the
position. -/
theorem C138_jacobson_rank1 (hw : IsBlk w) (o : BitVecOps w S) (j : Jacobson S) (l : List VCall) (p : Nat) :
    (jacobson c (logged o)).rank1 p ⟨⟨j.bitStore, l⟩, j.largeBlockSize, j.largeBlockRanks, j.smallBlockRanks⟩ =
      (Jacobson.ops c o).rank1 j p >>= fun a =>
      .ok (a, ⟨⟨j.bitStore, l ++ [.bitLen, .getBlock (p / w)]⟩, j.largeBlockSize, j.largeBlockRanks, j.smallBlockRanks⟩) := by
  show jacobsonRank1 c (logged o) p _ = Jacobson.rank1 c o j p >>= _
  unfold jacobsonRank1 Jacobson.rank1 inJacobson HM.on
  simp only [HM.bind_run, get_run, HM.lift_run, logged_getBlock, logged_bitLen, call_run, Res.bind_bind, Res.ok_bind]
  rcases address_cases c hw p with h | h
  · simp only [h, Res.ok_bind, List.append_assoc, List.cons_append, List.nil_append]
  · simp only [h, Res.panic_bind]

/-- C138. The default `get_bit` asks for the number of bits and reads the block of the position. -/
theorem C138_get_bit (hw : IsBlk w) (o : BitVecOps w S) (s : S) (l : List VCall) (p : Nat) :
    Hidden.getBit c (logged o).bitLen (logged o).getBlock p ⟨s, l⟩ = dfltGetBit c o.bitLen o.getBlock s p >>= fun b =>
      .ok (b, ⟨s, l ++ [.bitLen, .getBlock (p / w)]⟩) := by
  unfold Hidden.getBit dfltGetBit
  simp only [HM.bind_run, HM.lift_run, logged_getBlock, logged_bitLen, call_run, Res.bind_bind, Res.ok_bind]
  rcases address_cases c hw p with h | h
  · simp only [h, Res.ok_bind, List.append_assoc, List.cons_append, List.nil_append]
  · simp only [h, Res.panic_bind]

/-- C138. The default `get_bits` asks for the number of bits and reads the block of the position, and the next
if the bits continue there. -/
theorem C138_get_bits (hw : IsBlk w) (o : BitVecOps w S) (s : S) (l : List VCall) (p n : Nat) (hp : p / w + 1 < 2 ^ c.usz) :
    Hidden.getBits c (logged o).bitLen (logged o).getBlock p n ⟨s, l⟩ = dfltGetBits c o.bitLen o.getBlock s p n >>= fun x =>
      .ok (x, ⟨s, l ++ ([.bitLen, .getBlock (p / w)] ++ if p % w + n ≤ w then [] else [.getBlock (p / w + 1)])⟩) := by
  have hlt := Nat.mod_lt p hw.pos
  have hus := hw.lt_usz c
  unfold Hidden.getBits dfltGetBits
  simp only [HM.bind_run, HM.ite_run, HM.lift_run, logged_getBlock, logged_bitLen, call_run, HM.pure_run, HM.res_ite, Res.bind_bind, Res.ok_bind,
    addrNew_ok c hw (show p / w < 2 ^ c.usz by omega), subN_ok (show p % w ≤ w by omega), addN_ok hp]
  refine Res.bind_same fun limit _ => Res.bind_same fun m _ => Res.bind_same fun _ _ => ?_
  by_cases h : p % w + n ≤ w
  · rw [if_pos (show w - p % w ≥ n by omega), if_pos (show w - p % w ≥ n by omega), if_pos h]
    simp only [List.append_assoc, List.cons_append, List.nil_append]
  · rw [if_neg (show ¬ w - p % w ≥ n by omega), if_neg (show ¬ w - p % w ≥ n by omega), if_neg h]
    simp only [List.append_assoc, List.cons_append, List.nil_append]

/-- C138. Reading a bit from a buffer asks for the number of bits, at the end once, otherwise twice, and then reads
the block of the position. -/
theorem C138_read_bit (hw : IsBlk w) (o : BitVecOps w S) (s : S) (l : List VCall) (p : Nat) {n : Nat} (hn : o.bitLen s = .ok n) :
    bufReadBit c (logged o) ⟨⟨s, l⟩, p⟩ = if p < n then (BitBuf.bitVec c o).getBit ⟨s, p⟩ p >>= fun b =>
        addN c 64 p 1 >>= fun p' => .ok (some b, ⟨⟨s, l ++ [.bitLen, .bitLen, .getBlock (p / w)]⟩, p'⟩)
      else .ok (none, ⟨⟨s, l ++ [.bitLen]⟩, p⟩) := by
  unfold bufReadBit
  have h1 : (buf c (logged o)).bitLen = inBuf (Logged.call .bitLen o.bitLen) := rfl
  have h2 : ∀ p, (buf c (logged o)).getBit p = Hidden.getBit c (inBuf (Logged.call .bitLen o.bitLen))
    (fun i => inBuf (Logged.call (.getBlock i) fun s => o.getBlock s i)) p := fun _ => rfl
  have h3 : (BitBuf.bitVec c o).getBit ⟨s, p⟩ p = dfltGetBit c (fun s : BitBuf S => o.bitLen s.data) (fun s i => o.getBlock s.data i) ⟨s, p⟩ p := rfl
  simp only [h1, h2, h3]
  unfold Hidden.getBit dfltGetBit inBuf HM.on
  simp only [HM.bind_run, get_run, HM.ite_run, HM.lift_run, HM.modify_run, HM.pure_run, call_run, hn, Res.bind_bind, Res.ok_bind]
  split
  · rcases address_cases c hw p with h | h
    · simp only [h, Res.ok_bind, List.append_assoc, List.cons_append, List.nil_append]
    · simp only [h, Res.panic_bind]
  · rfl

/-! ### Slices and writes -/

/-- Make a change and write down the call. -/
def Logged.change (k : VCall) (f : S → Res S) : HM (Logged S) Unit := fun s => do
  let d ← f s.data
  .ok ((), ⟨d, s.log ++ [k]⟩)

/-- A vector that writes down the calls made on it. -/
def loggedMut (o : BitVecMutOps w S) : HVecMut w (Logged S) where
  toHVec := logged o.toBitVecOps
  setBit i b := Logged.change (.setBit i) fun s => o.setBit s i b
  setBlock i x := Logged.change (.setBlock i) fun s => o.setBlock s i x
  setBits i n x := Logged.change (.setBits i n) fun s => o.setBits s i n x

theorem change_run (k : VCall) (f : S → Res S) (s : Logged S) :
    Logged.change k f s = f s.data >>= fun d => .ok ((), ⟨d, s.log ++ [k]⟩) := rfl

/-- C138. Nor does writing down the calls on a vector that is written to. -/
theorem C138_logged_mut (o : BitVecMutOps w S) : AlikeMut (fun (a : Logged S) s => a.data = s) (loggedMut o) o.still := by
  have h : ∀ k (f : S → Res S), Same (fun (a : Logged S) s => a.data = s) (Logged.change k f) (HM.act f) := by
    intro k f a s hR
    subst hR
    rw [HM.act_run, change_run]
    cases f a.data with
    | ok x => exact .inr (.inr ⟨(), _, _, rfl, rfl, rfl⟩)
    | panic => exact .inl ⟨rfl, rfl⟩
    | diverge => exact .inr (.inl ⟨rfl, rfl⟩)
  exact ⟨C138_logged o.toBitVecOps, fun i b => h _ fun s => o.setBit s i b, fun i x => h _ fun s => o.setBlock s i x,
    fun i n x => h _ fun s => o.setBits s i n x⟩

theorem loggedMut_bitLen (o : BitVecMutOps w S) : (loggedMut o).bitLen = Logged.call .bitLen o.bitLen := rfl
theorem loggedMut_getBlock (o : BitVecMutOps w S) (i : Nat) :
    (loggedMut o).getBlock i = Logged.call (.getBlock i) fun s => o.getBlock s i := rfl
theorem loggedMut_setBlock (o : BitVecMutOps w S) (i : Nat) (x : BitVec w) :
    (loggedMut o).setBlock i x = Logged.change (.setBlock i) fun s => o.setBlock s i x := rfl

/-- C138. Taking a slice asks twice for the number of bits. -/
theorem C138_slice_new (o : BitVecOps w S) (s : S) (l : List VCall) (r : RangeArg) :
    sliceNew (logged o) r ⟨s, l⟩ = Slice.new o s r >>= fun x => .ok ⟨⟨s, l ++ [.bitLen, .bitLen]⟩, x.start, x.len⟩ := by
  unfold sliceNew Slice.new
  simp only [logged_bitLen, call_run, Res.bind_bind, Res.ok_bind, List.append_assoc, List.cons_append, List.nil_append]

/-- C138. A slice passes every read on as a single call of the base, `get_block` as `get_bits`; its lengths
need none. -/
theorem C138_slice (o : BitVecOps w S) (s : S) (l : List VCall) (a n : Nat) (hn : a + n < 2 ^ 64) (p : Nat) :
    ((slice c (logged o)).bitLen ⟨⟨s, l⟩, a, n⟩ = .ok (n, ⟨⟨s, l⟩, a, n⟩)) ∧
    ((slice c (logged o)).blockLen ⟨⟨s, l⟩, a, n⟩ = (sliceBitVec c o).blockLen ⟨s, a, n⟩ >>= fun x => .ok (x, ⟨⟨s, l⟩, a, n⟩)) ∧
    ((slice c (logged o)).getBit p ⟨⟨s, l⟩, a, n⟩ = (sliceBitVec c o).getBit ⟨s, a, n⟩ p >>= fun x =>
      .ok (x, ⟨⟨s, l ++ [.getBit (a + p)]⟩, a, n⟩)) ∧
    (∀ k, (slice c (logged o)).getBits p k ⟨⟨s, l⟩, a, n⟩ = (sliceBitVec c o).getBits ⟨s, a, n⟩ p k >>= fun x =>
      .ok (x, ⟨⟨s, l ++ [.getBits (a + p) k]⟩, a, n⟩)) ∧
    (∀ q, mulNbits c w p = .ok q → (slice c (logged o)).getBlock p ⟨⟨s, l⟩, a, n⟩ = (sliceBitVec c o).getBlock ⟨s, a, n⟩ p >>= fun x =>
      .ok (x, ⟨⟨s, l ++ [.getBits (a + q) w]⟩, a, n⟩)) := by
  have hb : ∀ p k, sliceGetBits c (logged o) p k ⟨⟨s, l⟩, a, n⟩ = Slice.getBits c o ⟨s, a, n⟩ p k >>= fun x =>
      .ok (x, ⟨⟨s, l ++ [.getBits (a + p) k]⟩, a, n⟩) := by
    intro p k
    unfold sliceGetBits Slice.getBits base HM.on
    simp only [HM.bind_run, get_run, HM.lift_run, logged_getBits, call_run, Res.bind_bind, Res.ok_bind]
    refine Res.bind_same fun e he => ?_
    by_cases h : e ≤ n
    · have : a + p < 2 ^ 64 := by
        unfold checkedAdd at he
        split at he
        · cases he; omega
        · cases he
      simp only [assertR_true h, addN_ok this, Res.ok_bind]
    · simp only [assertR_false h, Res.panic_bind]
  refine ⟨rfl, ?_, ?_, hb p, ?_⟩
  · show Hidden.blockLen c w (HM.look fun s : Slice (Logged S) => .ok s.len) _ = dfltBlockLen c w (fun s : Slice S => .ok s.len) _ >>= _
    unfold Hidden.blockLen dfltBlockLen
    simp only [HM.bind_run, HM.look_run, HM.lift_run, HM.pure_run, Res.bind_bind, Res.ok_bind]
  · show _ = Slice.getBit c o ⟨s, a, n⟩ p >>= _
    unfold slice Slice.getBit base HM.on
    simp only [HM.bind_run, get_run, HM.lift_run, logged_getBit, call_run, Res.bind_bind, Res.ok_bind]
    by_cases h : p < n
    · simp only [assertR_true h, addN_ok (show a + p < 2 ^ 64 by omega), Res.ok_bind]
    · simp only [assertR_false h, Res.panic_bind]
  · intro q hq
    show (liftM (mulNbits c w p) >>= fun p => sliceGetBits c (logged o) p w) ⟨⟨s, l⟩, a, n⟩ = Slice.getBlock c o ⟨s, a, n⟩ p >>= _
    unfold Slice.getBlock
    simp only [HM.bind_run, HM.lift_run, hq, Res.ok_bind, hb]

/-- C138. The default `set_bit` asks for the number of bits, reads the block of the position and writes it. -/
theorem C138_set_bit (hw : IsBlk w) (o : BitVecMutOps w S) (s : S) (l : List VCall) (p : Nat) (b : Bool) :
    Hidden.setBit c (loggedMut o).bitLen (loggedMut o).getBlock (loggedMut o).setBlock p b ⟨s, l⟩ =
      dfltSetBit c o.bitLen o.getBlock o.setBlock s p b >>= fun d =>
      .ok ((), ⟨d, l ++ [.bitLen, .getBlock (p / w), .setBlock (p / w)]⟩) := by
  unfold Hidden.setBit dfltSetBit
  simp only [HM.bind_run, HM.lift_run, loggedMut_bitLen, loggedMut_getBlock, loggedMut_setBlock, call_run, change_run, Res.bind_bind,
    Res.ok_bind]
  rcases address_cases c hw p with h | h
  · simp only [h, Res.ok_bind, List.append_assoc, List.cons_append, List.nil_append]
  · simp only [h, Res.panic_bind]

/-- C138. The default `set_bits` reads and then writes the block of the position; if the bits continue in the
next, it reads both before it writes either. -/
theorem C138_set_bits (hw : IsBlk w) (o : BitVecMutOps w S) (s : S) (l : List VCall) (p n : Nat) (x : BitVec w)
    (hp : p / w + 1 < 2 ^ c.usz) :
    Hidden.setBits c (loggedMut o).bitLen (loggedMut o).getBlock (loggedMut o).setBlock p n x ⟨s, l⟩ =
      dfltSetBits c o.bitLen o.getBlock o.setBlock s p n x >>= fun d =>
      .ok ((), ⟨d, l ++ .bitLen :: if p % w + n ≤ w then [.getBlock (p / w), .setBlock (p / w)] else
        [.getBlock (p / w), .getBlock (p / w + 1), .setBlock (p / w), .setBlock (p / w + 1)]⟩) := by
  have hlt := Nat.mod_lt p hw.pos
  have hus := hw.lt_usz c
  unfold Hidden.setBits dfltSetBits
  simp only [HM.bind_run, HM.ite_run, HM.lift_run, loggedMut_bitLen, loggedMut_getBlock, loggedMut_setBlock, call_run, change_run,
    HM.res_ite, Res.bind_bind, Res.ok_bind,
    addrNew_ok c hw (show p / w < 2 ^ c.usz by omega), subN_ok (show p % w ≤ w by omega), addN_ok hp]
  refine Res.bind_same fun limit _ => Res.bind_same fun m _ => Res.bind_same fun _ _ => ?_
  by_cases h : p % w + n ≤ w
  · rw [if_pos (show w - p % w ≥ n by omega), if_pos (show w - p % w ≥ n by omega), if_pos h]
    simp only [List.append_assoc, List.cons_append, List.nil_append]
  · rw [if_neg (show ¬ w - p % w ≥ n by omega), if_neg (show ¬ w - p % w ≥ n by omega), if_neg h]
    simp only [List.append_assoc, List.cons_append, List.nil_append]

/-- C138. The default `get_block` asks for the number of blocks and then, for each bit of a block, for the number of
bits and, unless it is past the end, for the bit. -/
theorem C138_get_block (o : BitVecOps w S) (s : S) (l : List VCall) (p : Nat) {n : Nat} (hn : o.bitLen s = .ok n)
    (hp : p * w + w < 2 ^ 64) :
    Hidden.getBlock c (logged o).bitLen (logged o).blockLen (logged o).getBit p ⟨s, l⟩ =
      dfltGetBlock (w := w) c o.bitLen o.blockLen o.getBit s p >>= fun x =>
      .ok (x, ⟨s, l ++ .blockLen :: (List.range w).flatMap fun i =>
        if p * w + i < n then [.bitLen, .getBit (p * w + i)] else [.bitLen]⟩) := by
  have hstep : ∀ i, i < w → ∀ (a : BitVec w × BitVec w) (l : List VCall),
      getBlockStep c (logged o).bitLen (logged o).getBit (p * w) i a ⟨s, l⟩ = (do
        let q ← addN c 64 (p * w) i
        let n ← o.bitLen s
        let b ← (if q < n then do
            let q ← addN c 64 (p * w) i
            o.getBit s q
          else .ok false)
        let mask ← shlB c a.2 1
        .ok (if b then a.1 ||| a.2 else a.1, mask)) >>= fun a => .ok (a, ⟨s, l ++
        if p * w + i < n then [.bitLen, .getBit (p * w + i)] else [.bitLen]⟩) := by
    intro i hi a l
    have hadd : addN c 64 (p * w) i = .ok (p * w + i) := addN_ok (by omega)
    unfold getBlockStep
    simp only [HM.bind_run, HM.ite_run, HM.lift_run, HM.pure_run, logged_bitLen, logged_getBit, call_run, hadd, hn, HM.res_ite,
      Res.bind_bind, Res.ok_bind]
    by_cases h : p * w + i < n
    · simp only [if_pos h, List.append_assoc, List.cons_append, List.nil_append]
    · simp only [if_neg h]
  have hloop : ∀ k i, i + k = w → ∀ (a : BitVec w × BitVec w) (l : List VCall),
      HM.loop k i a (getBlockStep c (logged o).bitLen (logged o).getBit (p * w)) ⟨s, l⟩ =
      forLoop k i a (fun i a => do
        let q ← addN c 64 (p * w) i
        let n ← o.bitLen s
        let b ← (if q < n then do
            let q ← addN c 64 (p * w) i
            o.getBit s q
          else .ok false)
        let mask ← shlB c a.2 1
        .ok (if b then a.1 ||| a.2 else a.1, mask)) >>= fun a => .ok (a, ⟨s, l ++ (List.range' i k).flatMap fun i =>
        if p * w + i < n then [.bitLen, .getBit (p * w + i)] else [.bitLen]⟩) := by
    intro k
    induction k with
    | zero => intro i _ a l; show Res.ok (a, _) = Res.ok (a, _); rw [show (List.range' i 0) = [] from rfl, List.flatMap_nil, List.append_nil]
    | succ k ih =>
      intro i hi a l
      unfold HM.loop forLoop
      rw [HM.bind_run, hstep i (by omega), List.range'_succ, List.flatMap_cons]
      simp only [ih (i + 1) (by omega), Res.bind_bind, Res.ok_bind, List.append_assoc]
  unfold Hidden.getBlock dfltGetBlock HM.range forRange
  have hmul : mulN c 64 p w = .ok (p * w) := mulN_ok (by omega)
  simp only [HM.bind_run, HM.lift_run, HM.pure_run, logged_blockLen, call_run, hmul, Res.bind_bind, Res.ok_bind, Nat.sub_zero,
    hloop w 0 (by omega), List.range_eq_range', List.append_assoc, List.cons_append, List.nil_append]

/-! ### Select -/

/-- If every evaluation of the function is one more call, the search makes as many calls as `searchLoopN` counts. -/
theorem searchLoop_counts {rank : Nat → HM S Nat} {f : Nat → Res Nat} {I : S → Nat → Prop} {bits value : Nat} (hb : 2 ≤ bits)
    (h : ∀ i y s k, I s k → f i = .ok y → ∃ s', rank i s = .ok (y, s') ∧ I s' (k + 1)) {start limit : Nat}
    (hl : limit < 2 ^ bits) {k n : Nat} {x : Option Nat} (hx : searchLoopN c bits f value start limit k = .ok (x, n)) {s : S}
    (hs : I s k) : ∃ s', Hidden.searchLoop c bits rank value start limit s = .ok (x, s') ∧ I s' n := by
  generalize hm : limit - start = m
  induction m using Nat.strongRecOn generalizing start limit s k with
  | ind m ih =>
  rw [searchLoopN.eq_def] at hx
  rw [Hidden.searchLoop.eq_def]
  split at hx
  · rename_i hlt
    rw [if_pos hlt]
    have hav : average c bits start limit = .ok ((start + limit) / 2) := average_ok c hb (by omega) hl
    rw [hav, Res.ok_bind] at hx
    obtain ⟨y, hy, hx⟩ := Res.of_bind_ok hx
    obtain ⟨s1, g1, hs1⟩ := h _ _ _ _ hs hy
    simp only [HM.bind_run, HM.lift_run, hav, Res.ok_bind, g1, HM.ite_run]
    split at hx
    · rename_i hv
      rw [if_pos hv]
      obtain ⟨m', hm', hx⟩ := Res.of_bind_ok hx
      obtain ⟨z, hz, hx⟩ := Res.of_bind_ok hx
      obtain ⟨s2, g2, hs2⟩ := h _ _ _ _ hs1 hz
      simp only [hm', Res.ok_bind, g2]
      show ∃ s', (if z < value then _ else _) = _ ∧ _
      split at hx
      · rename_i hz
        cases hx
        rw [if_pos hz]
        exact ⟨s2, rfl, hs2⟩
      · rename_i hz
        rw [if_neg hz]
        exact ih ((start + limit) / 2 - start) (by omega) (by omega) hx hs2 rfl
    · rename_i hv
      rw [if_neg hv]
      rw [addN_ok (by omega), Res.ok_bind] at hx
      rw [addN_ok (by omega)]
      simp only [Res.ok_bind]
      exact ih (limit - ((start + limit) / 2 + 1)) (by omega) hl hx hs1 rfl
  · rename_i hlt
    cases hx
    rw [if_neg hlt]
    exact ⟨s, rfl, hs⟩

theorem binarySearch_counts {rank : Nat → HM S Nat} {f : Nat → Res Nat} {I : S → Nat → Prop} {bits value : Nat} (hb : 2 ≤ bits)
    (h : ∀ i y s k, I s k → f i = .ok y → ∃ s', rank i s = .ok (y, s') ∧ I s' (k + 1)) {start limit : Nat}
    (hl : limit < 2 ^ bits) {n : Nat} {x : Option Nat} (hx : binarySearchN c bits start limit value f = .ok (x, n)) {s : S}
    (hs : I s 0) : ∃ s', Hidden.binarySearch c bits start limit value rank s = .ok (x, s') ∧ I s' n := by
  unfold binarySearchN at hx
  unfold Hidden.binarySearch
  split at hx
  · rename_i h1
    cases hx
    rw [if_pos h1]
    exact ⟨s, rfl, hs⟩
  · rename_i h1
    rw [if_neg h1]
    obtain ⟨y, hy, hx⟩ := Res.of_bind_ok hx
    obtain ⟨s1, g1, hs1⟩ := h _ _ _ _ hs hy
    simp only [HM.bind_run, HM.lift_run, Res.ok_bind, g1, HM.ite_run]
    split at hx
    · rename_i hv
      cases hx
      rw [if_pos hv]
      exact ⟨s1, rfl, hs1⟩
    · rename_i hv
      rw [if_neg hv]
      rw [addN_ok (by omega), Res.ok_bind] at hx
      rw [addN_ok (by omega)]
      simp only [Res.ok_bind]
      exact searchLoop_counts c hb h hl hx hs1

/-- C138. A select query by binary search over a `Rank9` asks once for the number of bits and then only reads
blocks: at most `2k + 1` if there are at most `2^k` bits. -/
theorem C138_select_rank9 {o : BitVecOps 64 S} {P : S → List Bool → Prop} (hl : BVLaw c o P) (hbl : BVBlockRead o P) {s : S}
    {bits : List Bool} (hP : P s bits) (hu : blocksFor 64 bits.length + 8 < 2 ^ c.usz) {r : Rank9 S} (hr : Rank9.new c o s = .ok r)
    {idx : Nat} (hi : idx + 1 < 2 ^ 64) (v : Bool) (k : Nat) (hk : bits.length ≤ 2 ^ k) (l : List VCall) :
    ∃ x, ∃ bs : List Nat, selectBy c (rank9 c (logged o)) (fun i => (rank9 c (logged o)).rank i v) idx ⟨⟨⟨s, l⟩, r.counts⟩⟩ =
        .ok (x, ⟨⟨⟨s, l ++ .bitLen :: bs.map .getBlock⟩, r.counts⟩⟩) ∧ IsSelect v bits idx x ∧ bs.length ≤ 2 * k + 1 := by
  obtain ⟨r', hr', rfl, law⟩ := C39_rank9 hl hbl hP hu
  rw [hr] at hr'
  cases hr'
  obtain ⟨x, n, h1, h2, h3, -⟩ := C90_select_cost c law hi v k hk
  obtain ⟨x', hx', hsel⟩ := (C44_select_partial c law hi).2.2 v
  have hx' : BinSearchSelect.select c (Rank9.ops c o) (.new r) idx v = .ok x' := hx'
  rw [h1] at hx'
  cases hx'
  unfold BinSearchSelect.selectByN at h2
  rw [show (BinSearchSelect.rankOps (Rank9.ops c o)).limit (.new r) = .ok bits.length from law.limit, Res.ok_bind, addN_ok hi, Res.ok_bind] at h2
  have hstep : ∀ i y (t : BinSearchSelect (Rank9 (Logged S))) k,
      (∃ bs : List Nat, t = ⟨⟨⟨r.inner, l ++ .bitLen :: bs.map .getBlock⟩, r.counts⟩⟩ ∧ bs.length = k) →
      (Rank9.ops c o).rank r i v = .ok y → ∃ t', inSelect ((rank9 c (logged o)).rank i v) t = .ok (y, t') ∧
        ∃ bs : List Nat, t' = ⟨⟨⟨r.inner, l ++ .bitLen :: bs.map .getBlock⟩, r.counts⟩⟩ ∧ bs.length = k + 1 := by
    rintro i y t k ⟨bs, rfl, hlen⟩ hy
    refine ⟨⟨⟨⟨r.inner, l ++ .bitLen :: (bs ++ [i / 64]).map .getBlock⟩, r.counts⟩⟩, ?_, bs ++ [i / 64], rfl, by
      rw [List.length_append, hlen]; rfl⟩
    have g := C138_rank9_rank1 c o r (l ++ .bitLen :: bs.map .getBlock) i
    have e : (l ++ .bitLen :: bs.map .getBlock) ++ [.getBlock (i / 64)] = l ++ .bitLen :: (bs ++ [i / 64]).map VCall.getBlock := by
      rw [List.map_append, List.append_assoc]; rfl
    rw [e] at g
    have hin : ∀ m : HM (Rank9 (Logged S)) Nat, inSelect m ⟨⟨⟨r.inner, l ++ .bitLen :: bs.map .getBlock⟩, r.counts⟩⟩ =
      m ⟨⟨r.inner, l ++ .bitLen :: bs.map .getBlock⟩, r.counts⟩ >>= fun p => .ok (p.1, ⟨p.2⟩) := fun _ => rfl
    rw [hin]
    cases v with
    | true =>
      have hy : (Rank9.ops c o).rank1 r i = .ok y := hy
      rw [hy, Res.ok_bind] at g
      rw [show (rank9 c (logged o)).rank i true = (rank9 c (logged o)).rank1 i from rfl]
      erw [g]; rfl
    | false =>
      have hy : (addN c 64 i 1 >>= fun p => (Rank9.ops c o).rank1 r i >>= fun q => subN c 64 p q) = .ok y := hy
      rw [show (rank9 c (logged o)).rank i false = (liftM (addN c 64 i 1) >>= fun p => (rank9 c (logged o)).rank1 i >>= fun q => liftM (subN c 64 p q)) from rfl]
      obtain ⟨p, hp, hy⟩ := Res.of_bind_ok hy
      obtain ⟨q, hq, hy⟩ := Res.of_bind_ok hy
      rw [hq, Res.ok_bind] at g
      simp only [HM.bind_run, HM.lift_run, hp, Res.ok_bind]
      erw [g]
      simp only [Res.ok_bind, hy]
      rfl
  obtain ⟨t', g1, bs, rfl, hlen⟩ := binarySearch_counts c (rank := fun i => inSelect ((rank9 c (logged o)).rank i v))
    (I := fun t k => ∃ bs : List Nat, t = ⟨⟨⟨r.inner, l ++ .bitLen :: bs.map .getBlock⟩, r.counts⟩⟩ ∧ bs.length = k)
    (by omega) hstep law.small h2 (s := ⟨⟨⟨r.inner, l ++ [.bitLen]⟩, r.counts⟩⟩) ⟨[], rfl, rfl⟩
  refine ⟨x, bs, ?_, hsel, by omega⟩
  unfold selectBy
  have hlim : inSelect (rank9 c (logged o)).limit ⟨⟨⟨r.inner, l⟩, r.counts⟩⟩ = .ok (bits.length, ⟨⟨⟨r.inner, l ++ [.bitLen]⟩, r.counts⟩⟩) := by
    have hlen : o.bitLen r.inner = .ok bits.length := law.limit
    show (((Logged.call .bitLen o.bitLen) ⟨r.inner, l⟩ >>= fun p => Res.ok (p.1, (⟨p.2, r.counts⟩ : Rank9 (Logged S)))) >>= fun p =>
      Res.ok (p.1, (⟨p.2⟩ : BinSearchSelect (Rank9 (Logged S))))) = _
    rw [call_run, hlen]
    rfl
  rw [HM.bind_run, hlim]
  simp only [Res.ok_bind, HM.bind_run, HM.lift_run, addN_ok hi]
  exact g1

end

-- a `Rank9` over three blocks, and one question
example : (do let r ← rank9New ⟨true, .p64, true⟩ (logged (bvBitVec ⟨true, .p64, true⟩ 64)) ⟨⟨130, [5#64, 7#64, 3#64]⟩, []⟩
              let (a, r) ← (rank9 ⟨true, .p64, true⟩ (logged (bvBitVec ⟨true, .p64, true⟩ 64))).rank1 70 r
              .ok (a, r.bitStore.log)) =
    .ok (5, [.blockLen, .blockLen, .getBlock 0, .getBlock 1, .getBlock 2, .blockLen, .getBlock 1]) := by decide +kernel

-- three bits across a block boundary: two blocks are read, by default
example : (do let (x, s) ← Hidden.getBits ⟨true, .p64, true⟩ (logged (bvBitVec ⟨true, .p64, true⟩ 8)).bitLen
                (logged (bvBitVec ⟨true, .p64, true⟩ 8)).getBlock 7 3 ⟨⟨16, [0x80#8, 3#8]⟩, []⟩
              .ok (x, s.log)) = .ok (7#8, [.bitLen, .getBlock 0, .getBlock 1]) := by decide +kernel

-- three bits written across a block boundary: both blocks are read before either is written
example : (do let (_, s) ← Hidden.setBits ⟨true, .p64, true⟩ (loggedMut (bvBitVecMut ⟨true, .p64, true⟩ 8)).bitLen
                (loggedMut (bvBitVecMut ⟨true, .p64, true⟩ 8)).getBlock (loggedMut (bvBitVecMut ⟨true, .p64, true⟩ 8)).setBlock 7 3 5#8
                ⟨⟨16, [0#8, 0#8]⟩, []⟩
              .ok (s.data.vec, s.log)) =
    .ok ([0x80#8, 2#8], [.bitLen, .getBlock 0, .getBlock 1, .setBlock 0, .setBlock 1]) := by decide +kernel

-- reading the last bit from a buffer, and then nothing
example : (do let (a, s) ← bufReadBit ⟨true, .p64, true⟩ (logged (bvBitVec ⟨true, .p64, true⟩ 8)) ⟨⟨⟨9, [0#8, 1#8]⟩, []⟩, 8⟩
              let (b, s) ← bufReadBit ⟨true, .p64, true⟩ (logged (bvBitVec ⟨true, .p64, true⟩ 8)) s
              .ok (a, b, s.data.log)) = .ok (some true, none, [.bitLen, .bitLen, .getBlock 1, .bitLen]) := by decide +kernel

/-! Each theorem of this file that has hypotheses is applied to concrete data in `Verif/Instances/Calls.lean`. -/

end Succinct
