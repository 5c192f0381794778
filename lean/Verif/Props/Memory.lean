import Verif.Model.Memory
import Verif.Props.CapacityOps
import Verif.Props.Totality
import Verif.Props.Rank
/-! Property C109: vectors in a memory that may be exhausted. -/
namespace Succinct
open Spec

/-! ### Without any assumption, failing allocations only add panics -/

theorem tryReserve_cases (H : Heap) (s : CVB w) (n : Nat) :
    s.tryReserve H n = .panic ∨ s.tryReserve H n = .ok (s.vecReserve H.toAlloc n) := by
  unfold CVB.tryReserve CVB.vecReserve assertR
  split
  · exact .inr rfl
  · split
    · exact .inr rfl
    · exact .inl rfl

theorem tryReserveExact_cases (H : Heap) (s : CVB w) (n : Nat) :
    s.tryReserveExact H n = .panic ∨ s.tryReserveExact H n = .ok (s.vecReserveExact H.toAlloc n) := by
  unfold CVB.tryReserveExact CVB.vecReserveExact assertR
  split
  · exact .inr rfl
  · split
    · exact .inr rfl
    · exact .inl rfl

theorem tryChange_cases (H : Heap) (s : CVB w) (b : VB w) :
    s.tryChange H b = .panic ∨ s.tryChange H b = .ok (s.change H.toAlloc b) := by
  unfold CVB.tryChange CVB.change
  rcases tryReserve_cases H s (b.vec.length - s.base.vec.length) with h | h <;> rw [h]
  · exact .inl rfl
  · exact .inr rfl

theorem tryShrink_cases (H : Heap) (s : CVB w) :
    s.tryShrink H = .panic ∨ s.tryShrink H = .ok (s.shrinkToFit H.toAlloc) := by
  unfold CVB.tryShrink CVB.shrinkToFit assertR
  split
  · rename_i h
    rw [h]
    exact .inr rfl
  · split
    · exact .inr rfl
    · exact .inl rfl

theorem heapCall_cases (c : Cfg) (H : Heap) (eb : Nat) (step : VB w → Op → Res (O × VB w)) (s : CVB w) (op : CapCall Op) :
    heapCall c H eb step s op = .panic ∨ heapCall c H eb step s op = capCall c H.toAlloc eb step s op := by
  cases op with
  | edit op =>
    simp only [heapCall, capCall]
    generalize step s.base op = x
    rcases x with ⟨o, b⟩ | _ | _
    · simp only [Res.ok_bind]
      rcases tryChange_cases H s b with h | h <;> rw [h]
      · exact .inl rfl
      · exact .inr rfl
    · exact .inl rfl
    · exact .inr rfl
  | reserve n =>
    simp only [heapCall, capCall, CVB.reserve, CVB.blockReserve]
    generalize s.additionalBlocks c eb n = x
    rcases x with k | _ | _
    · simp only [Res.ok_bind]
      rcases tryReserve_cases H s k with h | h <;> rw [h]
      · exact .inl rfl
      · exact .inr rfl
    · exact .inl rfl
    · exact .inr rfl
  | reserveExact n =>
    simp only [heapCall, capCall, CVB.reserveExact, CVB.blockReserveExact]
    generalize s.additionalBlocks c eb n = x
    rcases x with k | _ | _
    · simp only [Res.ok_bind]
      rcases tryReserveExact_cases H s k with h | h <;> rw [h]
      · exact .inl rfl
      · exact .inr rfl
    · exact .inl rfl
    · exact .inr rfl
  | blockReserve n =>
    simp only [heapCall, capCall, CVB.blockReserve]
    rcases tryReserve_cases H s n with h | h <;> rw [h]
    · exact .inl rfl
    · exact .inr rfl
  | blockReserveExact n =>
    simp only [heapCall, capCall, CVB.blockReserveExact]
    rcases tryReserveExact_cases H s n with h | h <;> rw [h]
    · exact .inl rfl
    · exact .inr rfl
  | shrinkToFit =>
    simp only [heapCall, capCall]
    rcases tryShrink_cases H s with h | h <;> rw [h]
    · exact .inl rfl
    · exact .inr rfl

/-- C109, for any vector type built on `VectorBase` (given by its methods `step`), whatever its state: with
allocations which may fail, a sequence of calls panics or does what it does with unlimited memory. -/
theorem C109_only_fails (c : Cfg) (H : Heap) (eb : Nat) (step : VB w → Op → Res (O × VB w)) (ops : List (CapCall Op)) (s : CVB w) :
    heapCalls c H eb step ops s = .panic ∨ heapCalls c H eb step ops s = capCalls c H.toAlloc eb step ops s := by
  induction ops generalizing s with
  | nil => exact .inr rfl
  | cons op ops ih =>
    unfold heapCalls capCalls
    rcases heapCall_cases c H eb step s op with h | h
    · rw [h]; exact .inl rfl
    · rw [h]
      rcases capCall c H.toAlloc eb step s op with ⟨o, s'⟩ | _ | _
      · rcases ih s' with h' | h' <;> simp [h']
      · exact .inl rfl
      · exact .inr rfl

/-- A memory that can satisfy every request is the unlimited one. -/
theorem C109_unlimited (c : Cfg) (H : Heap) (hH : ∀ n, H.allow n = true) (eb : Nat) (step : VB w → Op → Res (O × VB w))
    (ops : List (CapCall Op)) (s : CVB w) : heapCalls c H eb step ops s = capCalls c H.toAlloc eb step ops s := by
  have hg : ∀ n, H.Grants n := fun n => .inr (hH n)
  have r1 : ∀ (s : CVB w) n, s.tryReserve H n = .ok (s.vecReserve H.toAlloc n) := by
    intro s n
    unfold CVB.tryReserve CVB.vecReserve
    split
    · rfl
    · rw [assertR_true (hg _)]; rfl
  have r2 : ∀ (s : CVB w) n, s.tryReserveExact H n = .ok (s.vecReserveExact H.toAlloc n) := by
    intro s n
    unfold CVB.tryReserveExact CVB.vecReserveExact
    split
    · rfl
    · rw [assertR_true (hg _)]; rfl
  have r3 : ∀ s : CVB w, s.tryShrink H = .ok (s.shrinkToFit H.toAlloc) := by
    intro s
    unfold CVB.tryShrink
    split
    · rename_i h
      unfold CVB.shrinkToFit
      rw [h]
    · rw [assertR_true (hg _)]; rfl
  have key : ∀ (s : CVB w) op, heapCall c H eb step s op = capCall c H.toAlloc eb step s op := by
    intro s op
    cases op <;> simp only [heapCall, capCall, CVB.tryChange, CVB.change, CVB.reserve, CVB.reserveExact, CVB.blockReserve,
      CVB.blockReserveExact, r1, r2, r3, Res.ok_bind]
    · rcases s.additionalBlocks c eb _ with k | _ | _ <;> rfl
    · rcases s.additionalBlocks c eb _ with k | _ | _ <;> rfl
  induction ops generalizing s with
  | nil => rfl
  | cons op ops ih =>
    unfold heapCalls capCalls
    rw [key]
    simp only [ih]

/-! ### Sizes of results -/

/-- The computation panics or ends in a value with `P`. -/
def PanicOr (P : α → Prop) (x : Res α) : Prop := x = .panic ∨ ∃ a, x = .ok a ∧ P a

theorem PanicOr.bind {x : Res α} {f : α → Res β} (hx : Ends x) (h : ∀ a, x = .ok a → PanicOr P (f a)) : PanicOr P (x >>= f) := by
  rcases x with a | _ | _
  · exact h a rfl
  · exact .inl rfl
  · exact absurd rfl hx.ne

theorem PanicOr.bind' {x : Res α} {f : α → Res β} (hx : PanicOr Q x) (h : ∀ a, Q a → PanicOr P (f a)) : PanicOr P (x >>= f) := by
  rcases hx with h1 | ⟨a, h1, h2⟩ <;> rw [h1]
  · exact .inl rfl
  · exact h a h2

theorem PanicOr.ok {a : α} (h : P a) : PanicOr P (.ok a) := .inr ⟨a, rfl, h⟩

theorem PanicOr.forLoop {f : Nat → σ → Res σ} (hf : ∀ k s, P s → PanicOr P (f k s)) {n i : Nat} {s : σ} (hs : P s) :
    PanicOr P (forLoop n i s f) := by
  induction n generalizing i s with
  | zero => exact .ok hs
  | succ n ih => exact (hf i s hs).bind' fun a ha => ih ha

theorem yields_clearExtraBits (c : Cfg) (s : VB w) (eb : Nat) : PanicOr (·.vec.length = s.vec.length) (s.clearExtraBits c eb) := by
  unfold VB.clearExtraBits
  refine PanicOr.bind Ends.mulN fun n _ => ?_
  split
  · exact .ok rfl
  · refine PanicOr.bind (by ends) fun _ _ => PanicOr.bind (by ends) fun _ _ => .ok ?_
    simp

theorem yields_setLenFromBlocks (c : Cfg) (s : VB w) (eb : Nat) : PanicOr (·.vec.length = s.vec.length) (s.setLenFromBlocks c eb) := by
  unfold VB.setLenFromBlocks
  exact PanicOr.bind (by ends) fun _ _ => PanicOr.bind (by ends) fun _ _ => yields_clearExtraBits c _ eb

theorem length_vecResize (v : List α) (n : Nat) (x : α) : (vecResize v n x).length = n := by
  unfold vecResize
  simp
  omega

theorem yields_blockResize (c : Cfg) (s : VB w) (eb n : Nat) (x : BitVec w) : PanicOr (·.vec.length = n) (s.blockResize c eb n x) := by
  have := yields_setLenFromBlocks c { s with vec := vecResize s.vec n x } eb
  simp only [length_vecResize] at this
  exact this

/-- Shrinking to a length whose blocks are all there keeps the number of blocks. -/
theorem yields_truncate (c : Cfg) (h : IsBlk w) (s : VB w) {n : Nat} (hn : n + (w - 1) < 2 ^ 64) (hu : blocksFor w n < 2 ^ c.usz)
    (hs : s.vec.length = blocksFor w n) : PanicOr (·.vec.length = blocksFor w n) (s.truncate c 1 n) := by
  unfold VB.truncate
  split
  · rw [mulN_ok (by omega), Res.ok_bind, Nat.mul_one, ceilDivNbits_eq c h hn, Res.ok_bind]
    have e : (n + (w - 1)) / w % 2 ^ c.usz = blocksFor w n := Nat.mod_eq_of_lt hu
    rw [e]
    have := yields_clearExtraBits c (⟨n, s.vec.take (blocksFor w n)⟩ : VB w) 1
    rw [show (s.vec.take (blocksFor w n)).length = blocksFor w n by rw [List.length_take]; omega] at this
    exact this
  · exact .ok hs

theorem checkedCeilDiv_yields (c : Cfg) (h : IsBlk w) {n : Nat} (hn : c.debug = true ∨ n + (w - 1) < 2 ^ 64) {o : Option Nat}
    (ho : checkedCeilDivNbits c w n = .ok o) : ∀ m, o = some m → m = blocksFor w n ∧ m < 2 ^ c.usz ∧ n + (w - 1) < 2 ^ 64 := by
  rintro m rfl
  have hw := h.pos
  by_cases hf : n + (w - 1) < 2 ^ 64
  · rw [checkedCeilDivNbits_eq c h hf, toUsize] at ho
    split at ho
    · cases ho; exact ⟨rfl, by assumption, hf⟩
    · cases ho
  · have hd : c.debug = true := hn.resolve_right hf
    unfold checkedCeilDivNbits at ho
    rw [subN_ok (by omega), Res.ok_bind, addN, if_neg hf, overflow, if_pos hd] at ho
    cases ho

theorem of_expectR {o : Option α} {a : α} (h : expectR o = .ok a) : o = some a := by
  cases o with
  | none => cases h
  | some b => cases h; rfl

theorem yields_bvResize (c : Cfg) (h : IsBlk w) (s : VB w) {n : Nat} (b : Bool) (hn : c.debug = true ∨ n + (w - 1) < 2 ^ 64) :
    PanicOr (·.vec.length = blocksFor w n) (BV.resize c s n b) := by
  unfold BV.resize
  refine PanicOr.bind (by ends) fun o ho => PanicOr.bind (by ends) fun m hm => ?_
  obtain ⟨rfl, hu, hn⟩ := checkedCeilDiv_yields c h hn ho m (of_expectR hm)
  refine PanicOr.bind' (Q := fun t : VB w => t.vec.length = blocksFor w n) ?_ fun t ht => yields_truncate c h t hn hu ht
  split
  · exact yields_blockResize c s 1 _ _
  · refine PanicOr.bind (by ends) fun _ _ => PanicOr.bind (by ends) fun _ _ => ?_
    refine PanicOr.bind (by unfold forRange; ends) fun t _ => yields_blockResize c t 1 _ _

theorem yields_bvWithFill (c : Cfg) (h : IsBlk w) {n : Nat} (b : Bool) (hn : c.debug = true ∨ n + (w - 1) < 2 ^ 64) :
    PanicOr (·.vec.length = blocksFor w n) (BV.withFill c w n b) := by
  unfold BV.withFill
  refine PanicOr.bind (by ends) fun o ho => PanicOr.bind (by ends) fun m hm => ?_
  obtain ⟨rfl, hu, hn⟩ := checkedCeilDiv_yields c h hn ho m (of_expectR hm)
  have := yields_setLenFromBlocks c (⟨0, List.replicate (blocksFor w n) (if b then ~~~ 0 else 0)⟩ : VB w) 1
  simp only [List.length_replicate] at this
  exact this.bind' fun t ht => yields_truncate c h t hn hu ht

theorem yields_vecSet {v : List α} (i : Nat) (x : α) {n : Nat} (hv : v.length = n) : PanicOr (·.length = n) (vecSet v i x) := by
  unfold vecSet
  split
  · exact .ok (by simpa using hv)
  · exact .inl rfl

theorem yields_setBits (c : Cfg) (s : VB w) (eb p n : Nat) (x : BitVec w) : PanicOr (·.vec.length = s.vec.length) (s.setBits c eb p n x) := by
  unfold VB.setBits
  refine PanicOr.bind (by ends) fun _ _ => PanicOr.bind (by ends) fun _ _ => PanicOr.bind (by ends) fun _ _ => ?_
  refine PanicOr.bind' (Q := fun v : List (BitVec w) => v.length = s.vec.length) ?_ fun v hv => .ok hv
  show PanicOr _ (dfltSetBits c _ _ _ _ _ _ _)
  unfold dfltSetBits
  have hg : ∀ i, Ends ((vecBitVec c w).getBlock s.vec i) := fun i => Ends.vecGet
  refine PanicOr.bind (by ends) fun _ _ => PanicOr.bind (by exact Ends.mulN) fun _ _ => PanicOr.bind (by ends) fun _ _ =>
    PanicOr.bind (by ends) fun _ _ => PanicOr.bind (by ends) fun _ _ => ?_
  split
  · exact PanicOr.bind (hg _) fun _ _ => PanicOr.bind (by ends) fun _ _ => yields_vecSet _ _ rfl
  · refine PanicOr.bind (by ends) fun _ _ => PanicOr.bind (hg _) fun _ _ => PanicOr.bind (by ends) fun _ _ => PanicOr.bind (hg _) fun _ _ =>
      PanicOr.bind (by ends) fun _ _ => PanicOr.bind (by ends) fun _ _ => PanicOr.bind (by ends) fun _ _ => ?_
    exact (yields_vecSet _ _ rfl).bind' fun v hv => PanicOr.bind (by ends) fun _ _ => yields_vecSet _ _ hv

theorem lenToBlockLen_yields (c : Cfg) (h : IsBlk w) {eb n : Nat} (hn : n * eb < 2 ^ 64 → c.debug = true ∨ n * eb + (w - 1) < 2 ^ 64) {o : Option Nat}
    (ho : lenToBlockLen c w eb n = .ok o) : ∀ m, o = some m → m = blocksFor w (n * eb) := by
  unfold lenToBlockLen checkedMul at ho
  split at ho
  · cases ho; nofun
  · rename_i e
    split at e
    · rename_i hlt
      cases e
      exact fun m hm => (checkedCeilDiv_yields c h (hn hlt) ho m hm).1
    · cases e

theorem yields_resize (c : Cfg) (h : IsBlk w) (s : VB w) {eb n : Nat} (x : BitVec w)
    (hn : n * eb < 2 ^ 64 → c.debug = true ∨ n * eb + (w - 1) < 2 ^ 64) :
    PanicOr (·.vec.length = blocksFor w (n * eb)) (s.resize c eb n x) := by
  unfold VB.resize
  refine PanicOr.bind Ends.lenToBlockLen fun o ho => PanicOr.bind (by ends) fun m hm => ?_
  obtain rfl := lenToBlockLen_yields c h hn ho m (of_expectR hm)
  dsimp only
  split
  · have := yields_clearExtraBits c (⟨n, vecResize s.vec (blocksFor w (n * eb)) 0⟩ : VB w) eb
    simp only [length_vecResize] at this
    exact this
  · refine PanicOr.forLoop (fun i t ht => ?_) (length_vecResize _ _ _)
    refine PanicOr.bind (by ends) fun _ _ => ?_
    have := yields_setBits c t eb ‹_› eb x
    rw [ht] at this
    exact this

theorem yields_withFill (c : Cfg) (h : IsBlk w) {eb n : Nat} (x : BitVec w)
    (hn : n * eb < 2 ^ 64 → c.debug = true ∨ n * eb + (w - 1) < 2 ^ 64) :
    PanicOr (·.vec.length = blocksFor w (n * eb)) (VB.withFill c eb n x : Res (VB w)) := by
  unfold VB.withFill
  refine PanicOr.bind Ends.lenToBlockLen fun o ho => PanicOr.bind (by ends) fun m hm => ?_
  obtain rfl := lenToBlockLen_yields c h hn ho m (of_expectR hm)
  refine PanicOr.forLoop (fun i t ht => ?_) (by simp)
  refine PanicOr.bind (by ends) fun _ _ => ?_
  have := yields_setBits c t eb ‹_› eb x
  rw [ht] at this
  exact this

theorem yields_blockWithFill (c : Cfg) {eb n : Nat} (x : BitVec w) :
    PanicOr (·.vec.length = n) (VB.blockWithFill c eb n x : Res (VB w)) := by
  have := yields_setLenFromBlocks c (⟨0, List.replicate n x⟩ : VB w) eb
  simp only [List.length_replicate] at this
  exact this

/-! ### Vectors in a bounded memory -/

/-- The memory is too small for the vectors for which the bit positions are not 64-bit numbers or the block numbers
not `usize`s. -/
def Heap.Bounded (H : Heap) (usz w : Nat) : Prop :=
  ∀ n, H.allow n = true → (n + 1) * w + w < 2 ^ 64 ∧ n + 1 < 2 ^ usz

theorem Heap.Bounded.le {c : Cfg} {H : Heap} (hB : H.Bounded c.usz w) (h : IsBlk w) {n m : Nat} (hg : H.Grants m) (hn : n ≤ m) :
    (n + 1) * w + w < 2 ^ 64 ∧ n + 1 < 2 ^ c.usz := by
  have h1 : (m + 1) * w + w < 2 ^ 64 ∧ m + 1 < 2 ^ c.usz := by
    rcases hg with rfl | hg
    · have := c.le_pow_usz
      have := h.le
      omega
    · exact hB m hg
  have := Nat.mul_le_mul_right w (show n + 1 ≤ m + 1 by omega)
  omega

theorem Heap.Bounded.fits {c : Cfg} {H : Heap} (hB : H.Bounded c.usz w) (h : IsBlk w) {n m : Nat} (hg : H.Grants m)
    (hn : blocksFor w n ≤ m + 1) : Fits c.usz w n := by
  obtain ⟨h1, h2⟩ := hB.le h hg (Nat.le_refl m)
  have := Nat.mul_le_mul_right w hn
  exact ⟨by omega, by omega⟩

/-- The conditions on the arguments of a call alone: they are machine numbers of their Rust type, a bit field is not
empty and at most one block wide; and in release builds the length given to `resize` is not among the last `w - 1`
below 2^64 (for which see `C17`). -/
def Spec.BvOp.Arg (debug : Bool) (usz w : Nat) : BvOp w → Prop
  | .setBit i _ => i < 2 ^ 64
  | .setBlock i _ => i < 2 ^ usz
  | .setBits p n _ => p < 2 ^ 64 ∧ 1 ≤ n ∧ n ≤ w
  | .resize n _ => debug = true ∨ n + (w - 1) < 2 ^ 64
  | .truncate n => n < 2 ^ 64
  | .blockTruncate n => n < 2 ^ usz
  | .getBit i => i < 2 ^ 64
  | .getBlock i => i < 2 ^ usz
  | .getBits p n => p < 2 ^ 64 ∧ 1 ≤ n ∧ n ≤ w
  | _ => True

/-- The same for integer vectors; here only a `resize` whose number of bits is among the last below 2^64 is excluded
in release builds (for which see `C64`). -/
def Spec.IvOp.Arg (debug : Bool) (usz w k : Nat) : IvOp w → Prop
  | .set i _ => i < 2 ^ 64 ∧ (k = w → i < 2 ^ usz)
  | .setRandom off n i _ => off < 2 ^ 64 ∧ i < 2 ^ 64 ∧ 1 ≤ n ∧ n ≤ w
  | .setBlock i _ => i < 2 ^ usz
  | .truncate n => n < 2 ^ 64
  | .blockTruncate n => n < 2 ^ usz
  | .resize n _ => n * k < 2 ^ 64 → debug = true ∨ n * k + (w - 1) < 2 ^ 64
  | .get i => i < 2 ^ 64 ∧ (k = w → i < 2 ^ usz)
  | .getRandom off n i => off < 2 ^ 64 ∧ i < 2 ^ 64 ∧ 1 ≤ n ∧ n ≤ w
  | _ => True

/-- The calls on the capacity take any argument. -/
def CapCall.Arg (arg : Op → Prop) : CapCall Op → Prop
  | .edit op => arg op
  | _ => True

section
variable {A O Op : Type} {c : Cfg} {w eb : Nat} {H : Heap} {R : VB w → A → Prop}
  {step : VB w → Op → Res (O × VB w)} {spec : A → Op → Option (O × A)} {arg : Op → Prop}

/-- A vector whose contents are `a`, in memory it has been granted. -/
structure Held (H : Heap) (R : VB w → A → Prop) (s : CVB w) (a : A) : Prop where
  rep : R s.base a
  room : s.base.vec.length ≤ s.cap
  granted : H.Grants s.cap

/-- What is needed of the methods: they end, and if the blocks of the vector before and after fit in granted memory, the
call did what it should. -/
structure StepOk (H : Heap) (R : VB w → A → Prop) (step : VB w → Op → Res (O × VB w)) (spec : A → Op → Option (O × A))
    (arg : Op → Prop) : Prop where
  ends : ∀ b op, step b op ≠ .diverge
  refines : ∀ {b a op o b' m m'}, R b a → arg op → H.Grants m → b.vec.length ≤ m → step b op = .ok (o, b') → H.Grants m' →
    b'.vec.length ≤ m' → ∃ a', spec a op = some (o, a') ∧ R b' a'

theorem Held.tryReserve (hA : H.toAlloc.Lawful) {s : CVB w} {a : A} (hs : Held H R s a) (n : Nat) :
    PanicOr (fun s' => Held H R s' a ∧ s'.base = s.base ∧ s.base.vec.length + n ≤ s'.cap) (s.tryReserve H n) := by
  have hr := hs.room
  unfold CVB.tryReserve CVB.vecReserve assertR
  split
  · exact .ok ⟨hs, rfl, by omega⟩
  · split
    · have := hA.grow s.base.vec.length s.cap n
      exact .ok ⟨⟨hs.rep, by simp only; omega, by assumption⟩, rfl, this⟩
    · exact .inl rfl

theorem Held.tryReserveExact (hA : H.toAlloc.Lawful) {s : CVB w} {a : A} (hs : Held H R s a) (n : Nat) :
    PanicOr (fun s' => Held H R s' a) (s.tryReserveExact H n) := by
  have hr := hs.room
  unfold CVB.tryReserveExact CVB.vecReserveExact assertR
  split
  · exact .ok hs
  · split
    · have := hA.growExact s.base.vec.length s.cap n
      exact .ok ⟨hs.rep, by simp only; omega, by assumption⟩
    · exact .inl rfl

theorem Held.tryShrink (hA : H.toAlloc.Lawful) {s : CVB w} {a : A} (hs : Held H R s a) :
    PanicOr (fun s' => Held H R s' a) (s.tryShrink H) := by
  unfold CVB.tryShrink CVB.shrinkToFit assertR
  split
  · exact .ok hs
  · split
    · exact .ok ⟨hs.rep, (hA.shrink _ _ hs.room).1, by assumption⟩
    · exact .inl rfl

theorem heapCall_held (hA : H.toAlloc.Lawful) (hstep : StepOk H R step spec arg) {s : CVB w} {a : A} (hs : Held H R s a)
    (op : CapCall Op) (hop : op.Arg arg) :
    PanicOr (fun r => ∃ a', capSpec spec a op = some (r.1, a') ∧ Held H R r.2 a') (heapCall c H eb step s op) := by
  have hadd : ∀ n, Ends (s.additionalBlocks c eb n) := by
    intro n
    unfold CVB.additionalBlocks
    ends
  cases op with
  | edit op =>
    refine PanicOr.bind ⟨hstep.ends _ _⟩ fun r hr => ?_
    obtain ⟨o, b⟩ := r
    refine PanicOr.bind' (Q := fun s' : CVB w => s'.base = b ∧ b.vec.length ≤ s'.cap ∧ H.Grants s'.cap) ?_ ?_
    · refine (hs.tryReserve hA _).bind' fun s' h' => .ok ⟨rfl, ?_, h'.1.granted⟩
      have := h'.2.2
      simp only
      omega
    · rintro s' ⟨rfl, h1, h2⟩
      obtain ⟨a', h3, h4⟩ := hstep.refines hs.rep hop hs.granted hs.room hr h2 h1
      exact .ok ⟨a', by rw [capSpec, h3]; rfl, h4, h1, h2⟩
  | reserve n =>
    exact PanicOr.bind (hadd n) fun k _ => (hs.tryReserve hA k).bind' fun s' h' => .ok ⟨a, rfl, h'.1⟩
  | reserveExact n =>
    exact PanicOr.bind (hadd n) fun k _ => (hs.tryReserveExact hA k).bind' fun s' h' => .ok ⟨a, rfl, h'⟩
  | blockReserve n => exact (hs.tryReserve hA n).bind' fun s' h' => .ok ⟨a, rfl, h'.1⟩
  | blockReserveExact n => exact (hs.tryReserveExact hA n).bind' fun s' h' => .ok ⟨a, rfl, h'⟩
  | shrinkToFit => exact (hs.tryShrink hA).bind' fun s' h' => .ok ⟨a, rfl, h'⟩

theorem heapCalls_held (hA : H.toAlloc.Lawful) (hstep : StepOk H R step spec arg) (ops : List (CapCall Op)) {s : CVB w} {a : A}
    (hs : Held H R s a) (hops : ∀ op ∈ ops, op.Arg arg) :
    PanicOr (fun r => ∃ a', capSpecs spec ops a = some (r.1, a') ∧ Held H R r.2 a') (heapCalls c H eb step ops s) := by
  induction ops generalizing s a with
  | nil => exact .ok ⟨a, rfl, hs⟩
  | cons op ops ih =>
    refine (heapCall_held hA hstep hs op (hops op (.head _))).bind' fun r hr => ?_
    obtain ⟨a1, h1, h2⟩ := hr
    refine (ih h2 fun op h => hops op (.tail _ h)).bind' fun r' hr' => ?_
    obtain ⟨a2, h3, h4⟩ := hr'
    exact .ok ⟨a2, by simp only [capSpecs, h1, h3, Option.bind_eq_bind, Option.bind_some], h4⟩

end

theorem bv_stepOk (c : Cfg) (h : IsBlk w) {H : Heap} (hB : H.Bounded c.usz w) :
    StepOk H (bvR c w) (bvStep c) (bvSpec w) (fun op => op.Arg c.debug c.usz w) := by
  refine ⟨fun b op => C95_bit_vector c h b op, fun {b a op o b' m m'} hR hop hg hm hst hg' hm' => ?_⟩
  have hw := h.pos
  have hbl : blocksFor w a.length ≤ m := by have := hR.blocks; omega
  suffices hok : op.Ok c.usz w a by
    have key := bvStep_refines c h hR op hok
    rw [hst] at key
    rcases hsp : bvSpec w a op with _ | ⟨o', a'⟩
    · rw [hsp] at key; cases key
    · rw [hsp] at key
      obtain ⟨s, h1, h2⟩ := key
      cases h1
      exact ⟨a', rfl, h2⟩
  cases op with
  | pushBit x =>
    refine hB.fits h hg ?_
    rw [blocksFor_le hw] at hbl ⊢
    rw [Nat.succ_mul]; omega
  | pushBlock x =>
    refine hB.fits h hg ?_
    rw [← Nat.succ_mul, blocksFor_mul w _ hw]; omega
  | resize n x =>
    simp only [bvStep] at hst
    rcases yields_bvResize c h b x hop with h1 | ⟨t, h1, h2⟩ <;> rw [h1] at hst <;> cases hst
    exact hB.fits (n := n) h hg' (by omega)
  | blockResize n x =>
    simp only [bvStep, BV.blockResize] at hst
    rcases yields_blockResize c b 1 n x with h1 | ⟨t, h1, h2⟩ <;> rw [h1] at hst <;> cases hst
    exact hB.fits h hg' (by rw [blocksFor_mul w n hw]; omega)
  | _ => exact hop

/-- The methods of `IntVector` on the underlying `VectorBase`. -/
def ivBaseStep (c : Cfg) (k : Nat) (b : VB w) (op : IvOp w) : Res (IvOut × VB w) := do
  let (o, s) ← ivStep c ⟨k, b⟩ op
  .ok (o, s.base)

theorem iv_stepOk (c : Cfg) (h : IsBlk w) {H : Heap} (hB : H.Bounded c.usz w) (hk1 : 1 ≤ k) (hkw : k ≤ w) :
    StepOk H (fun b xs => IR c w k ⟨k, b⟩ xs) (ivBaseStep c k) (ivSpec w k) (fun op => op.Arg c.debug c.usz w k) := by
  refine ⟨fun b op => ?_, fun {b a op o b' m m'} hR hop hg hm hst hg' hm' => ?_⟩
  · exact (Ends.bind ⟨C95_int_vector c ⟨k, b⟩ op⟩ fun _ => .ok _).ne
  have hw := h.pos
  have hbl : blocksFor w (a.length * k) ≤ m := by have := hR.rep.blocks; rw [length_packBits] at this; simp only at this; omega
  suffices hok : op.Ok c.usz w k a by
    have key := ivStep_refines c h hR op hok
    unfold ivBaseStep at hst
    rcases hsp : ivSpec w k a op with _ | ⟨o', a'⟩
    · rw [hsp] at key
      have key' : ivStep c ⟨k, b⟩ op = .panic := key
      rw [key'] at hst; cases hst
    · rw [hsp] at key
      obtain ⟨⟨k', t⟩, h1, h2⟩ := key
      rw [h1] at hst; cases hst
      have : k' = k := h2.eb
      subst this
      exact ⟨a', rfl, h2⟩
  cases op with
  | push x =>
    refine hB.fits h hg ?_
    rw [blocksFor_le hw] at hbl ⊢
    rw [Nat.succ_mul]; omega
  | resize n x =>
    simp only [ivBaseStep, ivStep, IV.resize] at hst
    rcases yields_resize c h b x hop with h1 | ⟨t, h1, h2⟩ <;> rw [h1] at hst <;> cases hst
    simp only at hm'
    exact hB.fits (n := n * k) h hg' (by omega)
  | blockResize n x =>
    simp only [ivBaseStep, ivStep, IV.blockResize] at hst
    rcases yields_blockResize c b k n x with h1 | ⟨t, h1, h2⟩ <;> rw [h1] at hst <;> cases hst
    simp only at hm'
    exact hB.fits h hg' (by rw [blocksFor_mul w n hw]; omega)
  | _ => exact hop

/-- The constructors of `BitVector`: `new` allocates nothing, the `with_capacity` ones allocate what they are told, and the
`with_fill` ones make a `vec![x; n]`, whose length they do not change. -/
def heapBvInit (c : Cfg) (H : Heap) : BvInit w → Res (CVB w)
  | .new => .ok ⟨VB.new, 0, 0⟩
  | .withCapacity n => CVB.tryWithCapacity c H w 1 n
  | .withFill n x => do
    let b ← BV.withFill c w n x
    CVB.tryNew H b b.vec.length
  | .blockWithFill n x => do
    let b ← BV.blockWithFill c n x
    CVB.tryNew H b b.vec.length

/-- The condition on the argument of a constructor alone. -/
def Spec.BvInit.Arg (debug : Bool) : BvInit w → Prop
  | .withFill n _ => debug = true ∨ n + (w - 1) < 2 ^ 64
  | _ => True

theorem tryNew_held {H : Heap} (hA : H.toAlloc.Lawful) {R : VB w → A → Prop} {b : VB w} {n : Nat} {a : A} (hn : b.vec.length ≤ n)
    (hb : ∀ m, H.Grants m → n ≤ m → R b a) : PanicOr (fun s => Held H R s a) (CVB.tryNew H b n) := by
  have h1 := hA.withCapacity n
  unfold CVB.tryNew assertR
  split
  · exact .ok ⟨hb _ (by assumption) h1, by simp only; omega, by assumption⟩
  · exact .inl rfl

theorem heapBvInit_held (c : Cfg) (h : IsBlk w) {H : Heap} (hA : H.toAlloc.Lawful) (hB : H.Bounded c.usz w) (i : BvInit w)
    (hi : i.Arg c.debug) : PanicOr (fun s => Held H (bvR c w) s i.bits) (heapBvInit c H i) := by
  have hw := h.pos
  have hnil : bvR c w VB.new [] := VR.nil c h 1
  cases i with
  | new => exact .ok ⟨hnil, Nat.le_refl _, .inl rfl⟩
  | withCapacity n =>
    exact PanicOr.bind (by ends) fun o _ => PanicOr.bind (by ends) fun m _ => tryNew_held hA (Nat.zero_le _) fun _ _ _ => hnil
  | withFill n x =>
    have key := yields_bvWithFill c h x hi
    refine PanicOr.bind ⟨(C95_bit_vector_new c n x 0).2.1⟩ fun b hb => tryNew_held hA (Nat.le_refl _) fun m hg hm => ?_
    rcases key with h1 | ⟨t, h1, h2⟩ <;> rw [h1] at hb <;> cases hb
    obtain ⟨s, h3, h4⟩ := bv_withFill c h (n := n) (hB.fits h hg (by omega)) x
    rw [h1] at h3; cases h3
    exact h4
  | blockWithFill n x =>
    have key := yields_blockWithFill c (eb := 1) (n := n) x
    refine PanicOr.bind Ends.VB_blockWithFill fun b hb => tryNew_held hA (Nat.le_refl _) fun m hg hm => ?_
    rcases key with h1 | ⟨t, h1, h2⟩
    · exact absurd (h1.symm.trans hb) nofun
    · cases h1.symm.trans hb
      obtain ⟨s, h3, h4⟩ := bv_blockWithFill c h (n := n) (hB.fits h hg (by rw [blocksFor_mul w n hw]; omega)) x
      cases h1.symm.trans h3
      exact h4

/-- The constructors of `IntVector`. -/
def heapIvInit (c : Cfg) (H : Heap) (k : Nat) : IvInit w → Res (CVB w)
  | .new => do
    let s ← IV.create k VB.new
    .ok ⟨s.base, 0, 0⟩
  | .withCapacity n => do
    let s ← CVB.tryWithCapacity c H w k n
    let _ ← IV.create k s.base
    .ok s
  | .blockWithCapacity n => do
    let s ← CVB.tryNew H VB.new n
    let _ ← IV.create k s.base
    .ok s
  | .withFill n x => do
    let b ← VB.withFill c k n x
    let s ← CVB.tryNew H b b.vec.length
    let _ ← IV.create k s.base
    .ok s
  | .blockWithFill n x => do
    let b ← VB.blockWithFill c k n x
    let s ← CVB.tryNew H b b.vec.length
    let _ ← IV.create k s.base
    .ok s

/-- The condition on the argument of a constructor alone. -/
def Spec.IvInit.Arg (debug : Bool) (k : Nat) : IvInit w → Prop
  | .withFill n _ => n * k < 2 ^ 64 → debug = true ∨ n * k + (w - 1) < 2 ^ 64
  | _ => True

theorem heapIvInit_held (c : Cfg) (h : IsBlk w) {H : Heap} (hA : H.toAlloc.Lawful) (hB : H.Bounded c.usz w) (hk1 : 1 ≤ k)
    (hkw : k ≤ w) (i : IvInit w) (hi : i.Arg c.debug k) :
    PanicOr (fun s => Held H (fun b xs => IR c w k ⟨k, b⟩ xs) s (i.elems k)) (heapIvInit c H k i) := by
  have hw := h.pos
  have hnil : IR c w k ⟨k, VB.new⟩ [] := ⟨rfl, hk1, hkw, by simp, VR.nil c h k⟩
  have fin : ∀ {x : Res (CVB w)} {a}, PanicOr (fun s => Held H (fun b xs => IR c w k ⟨k, b⟩ xs) s a) x →
      PanicOr (fun s => Held H (fun b xs => IR c w k ⟨k, b⟩ xs) s a) (do let s ← x; let _ ← IV.create k s.base; .ok s) := by
    intro x a hx
    refine hx.bind' fun s hs => ?_
    rw [create_ok hk1 hkw]
    exact .ok hs
  cases i with
  | new =>
    simp only [heapIvInit]
    rw [create_ok hk1 hkw]
    exact .ok ⟨hnil, Nat.le_refl _, .inl rfl⟩
  | withCapacity n =>
    exact fin (PanicOr.bind (by ends) fun o _ => PanicOr.bind (by ends) fun m _ => tryNew_held hA (Nat.zero_le _) fun _ _ _ => hnil)
  | blockWithCapacity n => exact fin (tryNew_held hA (Nat.zero_le _) fun _ _ _ => hnil)
  | withFill n x =>
    have key := yields_withFill c h x hi
    refine PanicOr.bind Ends.VB_withFill fun b hb => fin (tryNew_held hA (Nat.le_refl _) fun m hg hm => ?_)
    rcases key with h1 | ⟨t, h1, h2⟩
    · exact absurd (h1.symm.trans hb) nofun
    · cases h1.symm.trans hb
      obtain ⟨s, h3, h4⟩ := ivInit_ok c h hk1 hkw (.withFill n x) (hB.fits (n := n * k) h hg (by omega))
      simp only [ivInit, IV.withFill, h1, Res.ok_bind, create_ok hk1 hkw] at h3
      cases h3
      exact h4
  | blockWithFill n x =>
    have key := yields_blockWithFill c (eb := k) (n := n) x
    refine PanicOr.bind Ends.VB_blockWithFill fun b hb => fin (tryNew_held hA (Nat.le_refl _) fun m hg hm => ?_)
    rcases key with h1 | ⟨t, h1, h2⟩
    · exact absurd (h1.symm.trans hb) nofun
    · cases h1.symm.trans hb
      obtain ⟨s, h3, h4⟩ := ivInit_ok c h hk1 hkw (.blockWithFill n x) (hB.fits h hg (by rw [blocksFor_mul w n hw]; omega))
      simp only [ivInit, IV.blockWithFill, h1, Res.ok_bind, create_ok hk1 hkw] at h3
      cases h3
      exact h4

/-- C109 for `BitVector`, with no assumption about the lengths reached: in a bounded memory, any constructor followed by
any calls panics or returns what the list operations return, leaving a vector that holds those bits in memory it was
granted. -/
theorem C109_bit_vector (c : Cfg) (h : IsBlk w) {H : Heap} (hA : H.toAlloc.Lawful) (hB : H.Bounded c.usz w) (i : BvInit w)
    (hi : i.Arg c.debug) (ops : List (CapCall (BvOp w))) (hops : ∀ op ∈ ops, op.Arg fun op => op.Arg c.debug c.usz w) :
    let run := heapBvInit c H i >>= heapCalls c H 1 (bvStep c) ops
    run = .panic ∨ ∃ os bits s, run = .ok (os, s) ∧ capSpecs (bvSpec w) ops i.bits = some (os, bits) ∧
      bvR c w s.base bits ∧ s.base.vec.length ≤ s.cap ∧ H.Grants s.cap ∧
      (bvBitVec c w).bitLen s.base = .ok bits.length ∧
      ∀ k < 2 ^ 64, (bvBitVec c w).getBit s.base k = expectR bits[k]? := by
  rcases (heapBvInit_held c h hA hB i hi).bind' fun s hs =>
      heapCalls_held (c := c) (eb := 1) hA (bv_stepOk c h hB) ops hs hops with h1 | ⟨⟨os, s⟩, h1, bits, h2, h3⟩
  · exact .inl h1
  · exact .inr ⟨os, bits, s, h1, h2, h3.rep, h3.room, h3.granted, bv_bitLen c h3.rep, fun k hk => (bv_law c h).getBit h3.rep k hk⟩

/-- C109 for `IntVector`. -/
theorem C109_int_vector (c : Cfg) (h : IsBlk w) {H : Heap} (hA : H.toAlloc.Lawful) (hB : H.Bounded c.usz w) (hk1 : 1 ≤ k)
    (hkw : k ≤ w) (i : IvInit w) (hi : i.Arg c.debug k) (ops : List (CapCall (IvOp w)))
    (hops : ∀ op ∈ ops, op.Arg fun op => op.Arg c.debug c.usz w k) :
    let run := heapIvInit c H k i >>= heapCalls c H k (ivBaseStep c k) ops
    run = .panic ∨ ∃ os xs s, run = .ok (os, s) ∧ capSpecs (ivSpec w k) ops (i.elems k) = some (os, xs) ∧
      IR c w k ⟨k, s.base⟩ xs ∧ s.base.vec.length ≤ s.cap ∧ H.Grants s.cap ∧
      s.base.len = xs.length ∧
      ∀ i < 2 ^ c.usz, (do let y ← (⟨k, s.base⟩ : IV w).get c i; .ok y.toNat) = expectR xs[i]? := by
  rcases (heapIvInit_held c h hA hB hk1 hkw i hi).bind' fun s hs =>
      heapCalls_held (c := c) (eb := k) hA (iv_stepOk c h hB hk1 hkw) ops hs hops with h1 | ⟨⟨os, s⟩, h1, xs, h2, h3⟩
  · exact .inl h1
  · have hR := h3.rep
    refine .inr ⟨os, xs, s, h1, h2, hR, h3.room, h3.granted, hR.len, fun i hi => ?_⟩
    by_cases hil : i < xs.length
    · obtain ⟨y, h5, h6⟩ := hR.get_ok h hil
      rw [h5, List.getElem?_eq_getElem hil, ← h6]; rfl
    · rw [hR.get_panic h (by omega) (fun _ => hi), List.getElem?_eq_none (by omega)]; rfl

/-! ### Limits in bytes -/

/-- No allocation exceeds `limit` bytes. -/
def Heap.Bytes (H : Heap) (w limit : Nat) : Prop := ∀ n, H.allow n = true → n * (w / 8) ≤ limit

/-- The largest allocation considered: `isize::MAX` bytes on 32-bit targets (std's limit), 2^60 bytes on 64-bit targets
(std's limit is 2^63 - 1, but no such machine can address as much as 2^60). -/
def Cfg.byteLimit (c : Cfg) : Nat := if c.usz = 32 then 2 ^ 31 - 1 else 2 ^ 60

theorem blocks_of_bytes (h : IsBlk w) {n l : Nat} (hn : n * (w / 8) ≤ l) : n * w ≤ 8 * l := by
  have h8 : w = w / 8 * 8 := by
    obtain ⟨k, -, h, rfl⟩ := h
    have e : 2 ^ k = 2 ^ (k - 3) * 8 := by rw [show 8 = 2 ^ 3 from rfl, ← Nat.pow_add]; congr 1; omega
    rw [e]
    exact (congrArg (· * 8) (Nat.mul_div_cancel _ (by decide))).symm
  have := Nat.mul_le_mul_right 8 hn
  rw [Nat.mul_assoc, ← h8] at this
  omega

/-- A memory that respects the limit in bytes is bounded, so `C109_bit_vector` and `C109_int_vector` apply. -/
theorem C109_bounded (c : Cfg) (h : IsBlk w) {H : Heap} (hH : H.Bytes w c.byteLimit) : H.Bounded c.usz w := by
  intro n hn
  have h1 := hH n hn
  have h2 := blocks_of_bytes h h1
  have hu : c.usz = 32 ∨ c.usz = 64 := by unfold Cfg.usz; split <;> simp
  unfold Cfg.byteLimit at h1 h2
  have hw := h.le
  rw [Nat.succ_mul]
  rcases hu with hu | hu
  · rw [if_pos hu] at h1 h2
    rw [hu]
    blk_cases h <;> omega
  · rw [if_neg (by omega)] at h1 h2
    rw [hu]
    blk_cases h <;> omega

/-- Every bit vector that such a run leaves is small enough for the rank structures (their own tables allowing):
`JacobsonRank` can be built on it if it has two bits, and so can `Rank9` if its blocks are `u64`s. -/
theorem C109_rank (c : Cfg) (h : IsBlk w) {H : Heap} (hA : H.toAlloc.Lawful) (hH : H.Bytes w c.byteLimit) (i : BvInit w)
    (hi : i.Arg c.debug) (ops : List (CapCall (BvOp w))) (hops : ∀ op ∈ ops, op.Arg fun op => op.Arg c.debug c.usz w)
    {os s} (hrun : (heapBvInit c H i >>= heapCalls c H 1 (bvStep c) ops) = .ok (os, s)) :
    ∃ bits, capSpecs (bvSpec w) ops i.bits = some (os, bits) ∧ InMemory c.usz bits.length ∧
      (2 ≤ bits.length → ∃ j, Jacobson.new c (bvBitVec c w) s.base = .ok j ∧ RankLaw (Jacobson.ops c (bvBitVec c w)) j bits) ∧
      (∀ hw : w = 64, ∃ r, Rank9.new c (bvBitVec c 64) (hw ▸ s.base) = .ok r ∧ RankLaw (Rank9.ops c (bvBitVec c 64)) r bits) := by
  have hB := C109_bounded c h hH
  rcases C109_bit_vector c h hA hB i hi ops hops with h1 | ⟨os', bits, s', h1, h2, h3, h4, h5, -⟩
  · rw [hrun] at h1; cases h1
  rw [hrun] at h1; cases h1
  have hu : c.usz = 32 ∨ c.usz = 64 := by unfold Cfg.usz; split <;> simp
  have hlen : bits.length ≤ s.cap * w := by
    have := h3.blocks
    have := le_blocksFor_mul bits.length h.pos (w := w)
    exact Nat.le_trans this (Nat.mul_le_mul_right w (by omega))
  have hbytes : s.cap * w ≤ 8 * c.byteLimit := by
    rcases h5 with h5 | h5
    · rw [h5]; omega
    · exact blocks_of_bytes h (hH _ h5)
  have hmem : InMemory c.usz bits.length := by
    unfold InMemory
    unfold Cfg.byteLimit at hbytes
    rcases hu with hu | hu
    · rw [if_pos hu] at hbytes ⊢; omega
    · rw [if_neg (by omega)] at hbytes ⊢; omega
  refine ⟨bits, h2, hmem, fun h2' => C37_bit_vector c h h3 hmem h2', ?_⟩
  rintro rfl
  refine C39_bit_vector c h3 ?_
  unfold InMemory at hmem
  unfold blocksFor
  rcases hu with hu | hu
  · rw [if_pos hu] at hmem; rw [hu]; omega
  · rw [if_neg (by omega)] at hmem; rw [hu]; omega

/-! ### Reserved memory suffices -/

section
variable {A O Op : Type} {c : Cfg} {w eb : Nat} {H : Heap} {R : VB w → A → Prop} {bitsOf : A → List Bool} {len : A → Nat}
  {step : VB w → Op → Res (O × VB w)} {spec : A → Op → Option (O × A)} {ok : A → Op → Prop}

theorem heapCalls_room
    (hrep : ∀ {b a}, R b a → VR c w eb b (bitsOf a) ∧ (bitsOf a).length = len a * eb)
    (hstep : ∀ {b a op}, R b a → ok a op → Refines R (step b op) (spec a op))
    (ops : List (CapCall Op)) {s : CVB w} {a : A} (hR : R s.base a) (hroom : s.base.vec.length ≤ s.cap)
    (hok : capEach spec (CapCall.Ok c.usz w eb ok len) ops a) {need : Nat} (hn : need ≤ s.cap)
    (hall : capEach spec (fun a op => (∃ e, op = .edit e) ∧
      ∀ r, capSpec spec a op = some r → blocksFor w (bitsOf r.2).length ≤ need) ops a) :
    heapCalls c H eb step ops s = capCalls c H.toAlloc eb step ops s := by
  induction ops generalizing s a with
  | nil => rfl
  | cons op ops ih =>
    obtain ⟨⟨⟨e, rfl⟩, h1⟩, h2⟩ := hall
    have hop : ok a e := hok.1
    have key := hstep hR hop
    unfold heapCalls capCalls
    simp only [heapCall, capCall]
    rcases hsp : spec a e with _ | ⟨o, a'⟩
    · rw [hsp] at key
      have key' : step s.base e = .panic := key
      rw [key']; rfl
    · rw [hsp] at key
      obtain ⟨b, h3, h4⟩ := key
      have hcs : capSpec spec a (.edit e) = some (some o, a') := by rw [capSpec, hsp]; rfl
      have hbl : b.vec.length ≤ s.cap := by
        have := h1 _ hcs
        rw [(hrep h4).1.blocks]
        exact Nat.le_trans this hn
      have e1 : s.tryChange H b = .ok { s with base := b } := by
        unfold CVB.tryChange CVB.tryReserve
        rw [if_pos (by omega)]; rfl
      have e2 := change_room (A := H.toAlloc) hbl
      simp only [h3, Res.ok_bind, e1, e2]
      rw [ih (s := { s with base := b }) h4 hbl (hok.2 _ hcs) hn (h2 _ hcs)]

end

/-- C109. Once `with_capacity(n)` has been granted, calls that keep a bit vector at no more than `n` bits cannot fail for
lack of memory, even if nothing more is ever granted. -/
theorem C109_reserved_bits (c : Cfg) (h : IsBlk w) {H : Heap} (hA : H.toAlloc.Lawful) {n : Nat} (hn : Fits c.usz w n)
    {s : CVB w} (hs : CVB.tryWithCapacity c H w 1 n = .ok s) (ops : List (BvOp w)) (H' : Heap) (hA' : H'.toAlloc.Lawful)
    (hok : capEach (bvSpec w) (CapCall.Ok c.usz w 1 (fun a op => op.Ok c.usz w a) List.length) (ops.map .edit) [])
    (hall : capEach (bvSpec w) (fun a op => ∀ r, capSpec (bvSpec w) a op = some r → r.2.length ≤ n) (ops.map .edit) []) :
    match capSpecs (bvSpec w) (ops.map .edit) [] with
    | none => heapCalls c H' 1 (bvStep c) (ops.map .edit) s = .panic
    | some (os, bits) => ∃ s', heapCalls c H' 1 (bvStep c) (ops.map .edit) s = .ok (os, s') ∧ bvR c w s'.base bits ∧
        s'.cap = s.cap ∧ s'.moves = 0 := by
  have hbase : s.base = VB.new ∧ blocksFor w n ≤ s.cap ∧ s.moves = 0 := by
    unfold CVB.tryWithCapacity at hs
    rw [lenToBlockLen_ok h (by rw [Nat.mul_one]; exact hn), Res.ok_bind, expectR_some, Res.ok_bind, CVB.tryNew] at hs
    obtain ⟨_, -, hs⟩ := Res.of_bind_ok hs
    cases hs
    exact ⟨rfl, by simp only [Nat.mul_one]; exact hA.withCapacity _, rfl⟩
  have hR : bvR c w s.base [] := by rw [hbase.1]; exact VR.nil c h 1
  have hroom : s.base.vec.length ≤ s.cap := by rw [hbase.1]; exact Nat.zero_le _
  have hall' : capEach (bvSpec w) (fun a op => (∃ e, op = .edit e) ∧
      ∀ r, capSpec (bvSpec w) a op = some r → blocksFor w (id r.2).length ≤ blocksFor w n) (ops.map .edit) [] := by
    clear hok hR
    generalize ([] : List Bool) = a at hall
    induction ops generalizing a with
    | nil => trivial
    | cons op ops ih => exact ⟨⟨⟨op, rfl⟩, fun r hr => blocksFor_mono (hall.1 r hr)⟩, fun r hr => ih _ (hall.2 r hr)⟩
  have e := heapCalls_room (A := List Bool) (O := BvOut w) (Op := BvOp w) (c := c) (H := H') (eb := 1) (R := bvR c w) (bitsOf := id)
    (len := List.length) (step := bvStep c) (spec := bvSpec w) (ok := fun a op => op.Ok c.usz w a)
    (fun hb => ⟨hb, (Nat.mul_one _).symm⟩) (fun hb ho => bvStep_refines c h hb _ ho) (ops.map .edit) hR hroom hok hbase.2.1 hall'
  have key := capCalls_refines (A := List Bool) (O := BvOut w) (Op := BvOp w) (c := c) (Al := H'.toAlloc) (eb := 1) (R := bvR c w)
    (bitsOf := id) (len := List.length) (step := bvStep c) (spec := bvSpec w) (ok := fun a op => op.Ok c.usz w a) h hA' (Nat.le_refl _)
    (fun hb => ⟨hb, (Nat.mul_one _).symm⟩) (fun hb ho => bvStep_refines c h hb _ ho) (ops.map .edit) hR hroom hok
  rw [e]
  rcases hsp : capSpecs (bvSpec w) (ops.map .edit) [] with _ | ⟨os, bits⟩
  · rw [hsp] at key; exact key
  · rw [hsp] at key
    obtain ⟨s', g1, g2, -, g4⟩ := key
    obtain ⟨k1, k2⟩ := g4 _ hbase.2.1 hall'
    exact ⟨s', g1, g2, k1, k2.trans hbase.2.2⟩

/-- The same for integer vectors and `n` elements. -/
theorem C109_reserved_ints (c : Cfg) (h : IsBlk w) {H : Heap} (hA : H.toAlloc.Lawful) (hk1 : 1 ≤ k) (hkw : k ≤ w) {n : Nat}
    (hn : Fits c.usz w (n * k)) {s : CVB w} (hs : CVB.tryWithCapacity c H w k n = .ok s) (ops : List (IvOp w)) (H' : Heap)
    (hA' : H'.toAlloc.Lawful)
    (hok : capEach (ivSpec w k) (CapCall.Ok c.usz w k (fun a op => op.Ok c.usz w k a) List.length) (ops.map .edit) [])
    (hall : capEach (ivSpec w k) (fun a op => ∀ r, capSpec (ivSpec w k) a op = some r → r.2.length ≤ n) (ops.map .edit) []) :
    match capSpecs (ivSpec w k) (ops.map .edit) [] with
    | none => heapCalls c H' k (ivBaseStep c k) (ops.map .edit) s = .panic
    | some (os, xs) => ∃ s', heapCalls c H' k (ivBaseStep c k) (ops.map .edit) s = .ok (os, s') ∧ IR c w k ⟨k, s'.base⟩ xs ∧
        s'.cap = s.cap ∧ s'.moves = 0 := by
  have hbase : s.base = VB.new ∧ blocksFor w (n * k) ≤ s.cap ∧ s.moves = 0 := by
    unfold CVB.tryWithCapacity at hs
    rw [lenToBlockLen_ok h hn, Res.ok_bind, expectR_some, Res.ok_bind, CVB.tryNew] at hs
    obtain ⟨_, -, hs⟩ := Res.of_bind_ok hs
    cases hs
    exact ⟨rfl, hA.withCapacity _, rfl⟩
  have hR : IR c w k ⟨k, s.base⟩ [] := by rw [hbase.1]; exact ⟨rfl, hk1, hkw, by simp, VR.nil c h k⟩
  have hroom : s.base.vec.length ≤ s.cap := by rw [hbase.1]; exact Nat.zero_le _
  have hall' : capEach (ivSpec w k) (fun a op => (∃ e, op = .edit e) ∧
      ∀ r, capSpec (ivSpec w k) a op = some r → blocksFor w (packBits k r.2).length ≤ blocksFor w (n * k)) (ops.map .edit) [] := by
    clear hok hR
    generalize ([] : List Nat) = a at hall
    induction ops generalizing a with
    | nil => trivial
    | cons op ops ih =>
      refine ⟨⟨⟨op, rfl⟩, fun r hr => blocksFor_mono ?_⟩, fun r hr => ih _ (hall.2 r hr)⟩
      rw [length_packBits]
      exact Nat.mul_le_mul_right k (hall.1 r hr)
  have hst : ∀ {b a op}, IR c w k ⟨k, b⟩ a → IvOp.Ok c.usz w k a op →
      Refines (fun b xs => IR c w k ⟨k, b⟩ xs) (ivBaseStep c k b op) (ivSpec w k a op) := by
    intro b a op hb ho
    have := ivStep_refines c h hb op ho
    unfold ivBaseStep
    rcases hsp : ivSpec w k a op with _ | ⟨o, a'⟩
    · rw [hsp] at this
      have h' : ivStep c ⟨k, b⟩ op = .panic := this
      rw [h']; rfl
    · rw [hsp] at this
      obtain ⟨⟨k', b'⟩, h3, h4⟩ := this
      have : k' = k := h4.eb
      subst this
      exact ⟨b', by simp only [h3]; rfl, h4⟩
  have e := heapCalls_room (A := List Nat) (O := IvOut) (Op := IvOp w) (c := c) (H := H') (eb := k)
    (R := fun b xs => IR c w k ⟨k, b⟩ xs) (bitsOf := packBits k) (len := List.length) (step := ivBaseStep c k) (spec := ivSpec w k)
    (ok := fun a op => op.Ok c.usz w k a) (fun hb => ⟨hb.rep, length_packBits _ _⟩) hst (ops.map .edit) hR hroom hok hbase.2.1 hall'
  have key := capCalls_refines (A := List Nat) (O := IvOut) (Op := IvOp w) (c := c) (Al := H'.toAlloc) (eb := k)
    (R := fun b xs => IR c w k ⟨k, b⟩ xs) (bitsOf := packBits k) (len := List.length) (step := ivBaseStep c k) (spec := ivSpec w k)
    (ok := fun a op => op.Ok c.usz w k a) h hA' hk1 (fun hb => ⟨hb.rep, length_packBits _ _⟩) hst (ops.map .edit) hR hroom hok
  rw [e]
  rcases hsp : capSpecs (ivSpec w k) (ops.map .edit) [] with _ | ⟨os, xs⟩
  · rw [hsp] at key; exact key
  · rw [hsp] at key
    obtain ⟨s', g1, g2, -, g4⟩ := key
    obtain ⟨k1, k2⟩ := g4 _ hbase.2.1 hall'
    exact ⟨s', g1, g2, k1, k2.trans hbase.2.2⟩

/-! ### Examples -/

/-- A memory that grants allocations of at most `m` blocks, and never more than asked for. -/
def smallHeap (m : Nat) : Heap := { Alloc.exact with allow := fun n => n ≤ m }

theorem smallHeap_lawful (m : Nat) : (smallHeap m).toAlloc.Lawful :=
  ⟨fun _ => Nat.le_refl _, fun _ _ _ => Nat.le_refl _, fun _ _ _ => Nat.le_refl _, fun _ _ h => ⟨Nat.le_refl _, h⟩⟩

/-- Three blocks of 8 bits are granted: 24 bits can be had. -/
example : (match heapBvInit ⟨false, .p64, false⟩ (smallHeap 3) (.withFill 15 true : BvInit 8) >>=
      heapCalls ⟨false, .p64, false⟩ (smallHeap 3) 1 (bvStep ⟨false, .p64, false⟩) [.edit (.pushBit false), .edit (.pushBlock 5#8), .edit .bitLen] with
    | .ok (os, s) => some (os, s.base.vec, s.cap)
    | _ => none) = some ([some .unit, some .unit, some (.num 24)], [0xff#8, 0x7f#8, 5#8], 3) := by decide +kernel
/-- And a 25th cannot. -/
example : heapBvInit ⟨false, .p64, false⟩ (smallHeap 3) (.withFill 24 true : BvInit 8) >>=
      heapCalls ⟨false, .p64, false⟩ (smallHeap 3) 1 (bvStep ⟨false, .p64, false⟩) [.edit (.pushBit false)] matches .panic := by decide +kernel
/-- `reserve` is refused as well, and `shrink_to_fit` makes no request that is. -/
example : heapIvInit ⟨true, .p32, true⟩ (smallHeap 2) 5 (.withCapacity 3 : IvInit 8) >>=
      heapCalls ⟨true, .p32, true⟩ (smallHeap 2) 5 (ivBaseStep ⟨true, .p32, true⟩ 5) [.edit (.push 9#8), .reserve 6] matches .panic := by decide +kernel
example : (match heapIvInit ⟨true, .p32, true⟩ (smallHeap 2) 5 (.withCapacity 3 : IvInit 8) >>=
      heapCalls ⟨true, .p32, true⟩ (smallHeap 2) 5 (ivBaseStep ⟨true, .p32, true⟩ 5) [.edit (.push 9#8), .shrinkToFit, .edit (.push 7#8), .edit (.get 0)] with
    | .ok (os, s) => some (os, s.base.len, s.cap)
    | _ => none) = some ([some .unit, none, some .unit, some (.num 9)], 2, 2) := by decide +kernel

theorem blockWithFill_wraps (d a : Bool) (x : BitVec 8) {n m : Nat} (h1 : 1 ≤ n) (hm : n ≤ m) (e0 : n * 8 % 2 ^ 64 = 0) :
    ∃ s, heapBvInit ⟨d, .p64, a⟩ (smallHeap m) (.blockWithFill n x) = .ok s ∧ (bvBitVec ⟨d, .p64, a⟩ 8).bitLen s.base = .ok 0 := by
  have h8 : IsBlk 8 := isBlk8
  have hl : (List.replicate n x).getLast? = some x := by
    rw [List.getLast?_replicate, if_neg (by omega)]
  have e1 : divN 0 1 = .ok 0 := rfl
  have e2 : lastBlockBits ⟨d, .p64, a⟩ 8 0 = .ok 8 := by cases d <;> cases a <;> decide
  have e3 : lowMask ⟨d, .p64, a⟩ 8 8 = .ok 0xff#8 := by cases d <;> cases a <;> decide
  have e4 : mulN ⟨d, .p64, a⟩ 64 0 1 = .ok 0 := rfl
  have e5 : BV.blockWithFill ⟨d, .p64, a⟩ n x = .ok ⟨0, (List.replicate n x).set (n - 1) (x &&& 0xff#8)⟩ := by
    unfold BV.blockWithFill VB.blockWithFill VB.setLenFromBlocks
    simp only [List.length_replicate]
    rw [mulNbits_eq _ h8, e0]
    simp only [Res.ok_bind, e1, VB.clearExtraBits, e4, hl, e2, e3, List.length_replicate]
  unfold heapBvInit
  simp only [e5, Res.ok_bind, CVB.tryNew, List.length_set, List.length_replicate]
  rw [assertR_true (show (smallHeap m).Grants ((smallHeap m).withCapacity n) from .inr (decide_eq_true hm)), Res.ok_bind]
  exact ⟨_, rfl, rfl⟩

/-- Std's own limit on 64-bit targets, `isize::MAX` bytes, would not be enough for `C109_bit_vector`: 2^61 blocks of 8 bits
are 2^64 bits, and the vector would be empty, in debug builds as well. -/
theorem C109_isize_max_not_enough (d a : Bool) (x : BitVec 8) : ∃ m n, m = 2 ^ 63 - 1 ∧ n = 2 ^ 61 ∧ (smallHeap m).Bytes 8 m ∧
    ∃ s, heapBvInit ⟨d, .p64, a⟩ (smallHeap m) (.blockWithFill n x) = .ok s ∧ (bvBitVec ⟨d, .p64, a⟩ 8).bitLen s.base = .ok 0 := by
  refine ⟨_, _, rfl, rfl, fun n hn => ?_, blockWithFill_wraps d a x (by decide) (by decide) (by decide)⟩
  have := of_decide_eq_true hn
  omega

/-! Each theorem of this file that has hypotheses is applied to concrete data in `Verif/Instances/Memory.lean`. -/

end Succinct
