import Verif.Props.Capacity
import Verif.Props.BitVector
/-! Property C100: capacity under arbitrary sequences of calls on `BitVector` and `IntVector`. -/
namespace Succinct
open Spec

/-- What a call does to the contents: the capacity calls do nothing. -/
def capSpec (spec : A → Op → Option (O × A)) (a : A) : CapCall Op → Option (Option O × A)
  | .edit op => (spec a op).map fun r => (some r.1, r.2)
  | _ => some (none, a)

/-- What a sequence of calls does to the contents; stops at the first panic. -/
def capSpecs (spec : A → Op → Option (O × A)) : List (CapCall Op) → A → Option (List (Option O) × A)
  | [], a => some ([], a)
  | op :: ops, a => do
    let (o, a) ← capSpec spec a op
    let (os, a) ← capSpecs spec ops a
    some (o :: os, a)

/-- Every call of the sequence satisfies `P` on the contents it is applied to. -/
def capEach (spec : A → Op → Option (O × A)) (P : A → CapCall Op → Prop) : List (CapCall Op) → A → Prop
  | [], _ => True
  | op :: ops, a => P a op ∧ ∀ r, capSpec spec a op = some r → capEach spec P ops r.2

/-- The calls that are in range: those of the vector proper as given by `ok`, a request for room if the vector with
the requested room (`len` elements of `eb` bits) would be addressable. -/
def CapCall.Ok (usz w eb : Nat) (ok : A → Op → Prop) (len : A → Nat) (a : A) : CapCall Op → Prop
  | .edit op => ok a op
  | .reserve n => Fits usz w ((len a + n) * eb)
  | .reserveExact n => Fits usz w ((len a + n) * eb)
  | _ => True

section
variable {A O Op : Type} {c : Cfg} {w eb : Nat} {Al : Alloc} {R : VB w → A → Prop} {bitsOf : A → List Bool} {len : A → Nat}
  {step : VB w → Op → Res (O × VB w)} {spec : A → Op → Option (O × A)} {ok : A → Op → Prop}

theorem capCall_refines (h : IsBlk w) (hA : Al.Lawful) (he : 1 ≤ eb)
    (hrep : ∀ {b a}, R b a → VR c w eb b (bitsOf a) ∧ (bitsOf a).length = len a * eb)
    (hstep : ∀ {b a op}, R b a → ok a op → Refines R (step b op) (spec a op))
    {s : CVB w} {a : A} (hR : R s.base a) (hroom : s.base.vec.length ≤ s.cap) (op : CapCall Op)
    (hok : op.Ok c.usz w eb ok len a) :
    match capSpec spec a op with
    | none => capCall c Al eb step s op = .panic
    | some (o, a') => ∃ s', capCall c Al eb step s op = .ok (o, s') ∧ R s'.base a' ∧ s'.base.vec.length ≤ s'.cap ∧
        ((∃ e, op = .edit e) → blocksFor w (bitsOf a').length ≤ s.cap → s'.cap = s.cap ∧ s'.moves = s.moves) := by
  obtain ⟨hv, hlen⟩ := hrep hR
  have hs : CapOk c w eb s (bitsOf a) := ⟨hv, hroom⟩
  have he' : ∀ n, (len a + n) * eb = (bitsOf a).length + n * eb := fun n => by rw [Nat.add_mul, hlen]
  cases op with
  | edit op =>
    have h1 := hstep hR hok
    rcases hsp : spec a op with _ | ⟨o, a'⟩
    · rw [hsp] at h1
      have h1' : step s.base op = .panic := h1
      simp only [capSpec, hsp, Option.map_none]
      simp only [capCall, h1']; rfl
    · rw [hsp] at h1
      obtain ⟨b, h2, h3⟩ := h1
      simp only [capSpec, hsp, Option.map_some]
      obtain ⟨k1, k2⟩ := C70_change c hA hs (hrep h3).1
      refine ⟨CVB.change Al s b, by simp only [capCall, h2]; rfl, h3, k1.room, fun _ hc => k2 ?_⟩
      rw [(hrep h3).1.blocks]; exact hc
  | reserve n =>
    obtain ⟨s', h1, h2, h3, -⟩ := (C70_reserve_partial c h hA he hs (n := n) (by rw [← he']; exact hok)).1
    exact ⟨s', by simp only [capCall, h1]; rfl, by rw [h3]; exact hR, h2.room, by rintro ⟨e, he⟩; cases he⟩
  | reserveExact n =>
    obtain ⟨s', h1, h2, h3, -⟩ := (C70_reserve_partial c h hA he hs (n := n) (by rw [← he']; exact hok)).2
    exact ⟨s', by simp only [capCall, h1]; rfl, by rw [h3]; exact hR, h2.room, by rintro ⟨e, he⟩; cases he⟩
  | blockReserve n =>
    obtain ⟨⟨h2, h3, -⟩, -⟩ := C70_block_reserve c hA hs n
    exact ⟨_, rfl, by rw [h3]; exact hR, h2.room, by rintro ⟨e, he⟩; cases he⟩
  | blockReserveExact n =>
    obtain ⟨-, h2, h3, -⟩ := C70_block_reserve c hA hs n
    exact ⟨_, rfl, by rw [h3]; exact hR, h2.room, by rintro ⟨e, he⟩; cases he⟩
  | shrinkToFit =>
    obtain ⟨h2, h3, -⟩ := C70_shrink c hA hs
    exact ⟨_, rfl, by rw [h3]; exact hR, h2.room, by rintro ⟨e, he⟩; cases he⟩

theorem capCalls_refines (h : IsBlk w) (hA : Al.Lawful) (he : 1 ≤ eb)
    (hrep : ∀ {b a}, R b a → VR c w eb b (bitsOf a) ∧ (bitsOf a).length = len a * eb)
    (hstep : ∀ {b a op}, R b a → ok a op → Refines R (step b op) (spec a op))
    (ops : List (CapCall Op)) {s : CVB w} {a : A} (hR : R s.base a) (hroom : s.base.vec.length ≤ s.cap)
    (hok : capEach spec (CapCall.Ok c.usz w eb ok len) ops a) :
    match capSpecs spec ops a with
    | none => capCalls c Al eb step ops s = .panic
    | some (os, a') => ∃ s', capCalls c Al eb step ops s = .ok (os, s') ∧ R s'.base a' ∧ s'.base.vec.length ≤ s'.cap ∧
        ∀ need, need ≤ s.cap → capEach spec (fun a op => (∃ e, op = .edit e) ∧
            ∀ r, capSpec spec a op = some r → blocksFor w (bitsOf r.2).length ≤ need) ops a →
          s'.cap = s.cap ∧ s'.moves = s.moves := by
  induction ops generalizing s a with
  | nil => exact ⟨s, rfl, hR, hroom, fun _ _ _ => ⟨rfl, rfl⟩⟩
  | cons op ops ih =>
    have h1 := capCall_refines (R := R) (step := step) (spec := spec) (ok := ok) h hA he hrep hstep hR hroom op hok.1
    have h2 := hok.2
    unfold capSpecs capCalls
    rcases hsp : capSpec spec a op with _ | ⟨o, a'⟩
    · rw [hsp] at h1
      have h1' : capCall c Al eb step s op = .panic := h1
      rw [h1']; rfl
    · rw [hsp] at h1
      obtain ⟨s1, h3, h4, h5, h6⟩ := h1
      have h7 := ih h4 h5 (h2 _ hsp)
      simp only [Option.bind_eq_bind, Option.bind_some]
      rcases hsp2 : capSpecs spec ops a' with _ | ⟨os, a2⟩
      · rw [hsp2] at h7
        have h7' : capCalls c Al eb step ops s1 = .panic := h7
        simp only [Option.bind_none]
        rw [h3, Res.ok_bind]
        simp only [h7']; rfl
      · rw [hsp2] at h7
        obtain ⟨s2, g1, g2, g3, g4⟩ := h7
        refine ⟨s2, by rw [h3, Res.ok_bind]; simp only [g1]; rfl, g2, g3, fun need hn hall => ?_⟩
        obtain ⟨hall1, hall2⟩ := hall
        obtain ⟨k1, k2⟩ := h6 hall1.1 (Nat.le_trans (hall1.2 _ hsp) hn)
        obtain ⟨k3, k4⟩ := g4 need (by rw [k1]; exact hn) (hall2 _ hsp)
        exact ⟨k3.trans k1, k4.trans k2⟩

end

theorem capacity_ge (c : Cfg) (h : IsBlk w) (he : 1 ≤ eb) {s : CVB w} {bits} (hv : VR c w eb s.base bits)
    (hroom : s.base.vec.length ≤ s.cap) (hc : s.cap * w < 2 ^ 64) :
    ∃ k, CVB.capacity c s eb = .ok k ∧ s.base.len ≤ k := by
  refine ⟨s.cap * w / eb, ?_, ?_⟩
  · rw [CVB.capacity, mulNbits_ok c h (by exact hc), Res.ok_bind, divN_ok he]
    rfl
  · rw [Nat.le_div_iff_mul_le he, hv.len]
    rw [hv.blocks] at hroom
    exact Nat.le_trans (le_blocksFor_mul bits.length h.pos) (Nat.mul_le_mul_right w hroom)

/-- C100 for `BitVector`: any calls whatever, mixed in any order with calls that reserve or give back capacity, on a
vector made by `with_capacity(n)`: the capacity calls do not affect the contents or the results of the other
calls, `capacity() ≥ bit_len()` afterwards, and if there are no capacity calls and the length never exceeds `n`,
nothing is reallocated. -/
theorem C100_bit_vector (c : Cfg) (h : IsBlk w) {A : Alloc} (hA : A.Lawful) {n : Nat} (hn : Fits c.usz w n)
    (ops : List (CapCall (BvOp w)))
    (hok : capEach (bvSpec w) (CapCall.Ok c.usz w 1 (fun a op => op.Ok c.usz w a) List.length) ops []) :
    ∃ s, CVB.withCapacity c A w 1 n = .ok s ∧
    match capSpecs (bvSpec w) ops [] with
    | none => capCalls c A 1 (bvStep c) ops s = .panic
    | some (os, bits) => ∃ s', capCalls c A 1 (bvStep c) ops s = .ok (os, s') ∧
        (bvBitVec c w).bitLen s'.base = .ok bits.length ∧
        (∀ k < 2 ^ 64, (bvBitVec c w).getBit s'.base k = expectR bits[k]?) ∧
        (s'.cap * w < 2 ^ 64 → ∃ k, CVB.capacity c s' 1 = .ok k ∧ bits.length ≤ k) ∧
        (capEach (bvSpec w) (fun a op => (∃ e, op = .edit e) ∧ ∀ r, capSpec (bvSpec w) a op = some r → r.2.length ≤ n) ops [] →
          s'.cap = s.cap ∧ s'.moves = 0) := by
  obtain ⟨s, h1, h2, h3, -⟩ := C70_with_capacity c h hA (eb := 1) (Nat.le_refl _) h.pos (n := n) (by rw [Nat.mul_one]; exact hn)
  have hcap : blocksFor w n ≤ s.cap := by
    rw [CVB.withCapacity, lenToBlockLen_ok h (by rw [Nat.mul_one]; exact hn)] at h1
    cases h1
    show blocksFor w n ≤ A.withCapacity (blocksFor w (n * 1))
    rw [Nat.mul_one]
    exact hA.withCapacity _
  have hR : bvR c w s.base [] := by rw [h2]; exact VR.nil c h 1
  have key := capCalls_refines (A := List Bool) (O := BvOut w) (Op := BvOp w) (c := c) (Al := A) (eb := 1) (R := bvR c w) (bitsOf := id)
    (len := List.length) (step := bvStep c) (spec := bvSpec w) (ok := fun a op => op.Ok c.usz w a) h hA (Nat.le_refl _)
    (fun hb => ⟨hb, (Nat.mul_one _).symm⟩) (fun hb ho => bvStep_refines c h hb _ ho) ops hR
    (by rw [h2]; exact Nat.zero_le _) hok
  refine ⟨s, h1, ?_⟩
  rcases hsp : capSpecs (bvSpec w) ops [] with _ | ⟨os, bits⟩
  · rw [hsp] at key; exact key
  · rw [hsp] at key
    obtain ⟨s', g1, g2, g3, g4⟩ := key
    refine ⟨s', g1, bv_bitLen c g2, fun k hk => (bv_law c h).getBit g2 k hk, fun hc => ?_, fun hall => ?_⟩
    · obtain ⟨k, k1, k2⟩ := capacity_ge c h (Nat.le_refl _) g2 g3 hc
      have := g2.len
      exact ⟨k, k1, by omega⟩
    · rw [← h3]
      refine g4 (blocksFor w n) hcap ?_
      clear g4 g1 g2 g3 hok hsp hR h2 hcap h1 h3
      generalize ([] : List Bool) = a at hall
      induction ops generalizing a with
      | nil => trivial
      | cons op ops ih =>
        exact ⟨⟨hall.1.1, fun r hr => blocksFor_mono (hall.1.2 r hr)⟩, fun r hr => ih _ (hall.2 r hr)⟩

/-- Two blocks are enough for these calls, which add bits in four ways. -/
example : (match CVB.withCapacity ⟨true, .p64, true⟩ .exact 8 1 16 with
    | .ok s => (match capCalls ⟨true, .p64, true⟩ .exact 1 (bvStep ⟨true, .p64, true⟩) [.edit (.pushBit true), .edit (.pushBlock 5#8),
        .edit .popBit, .edit (.resize 3 false), .edit (.blockResize 2 7#8), .edit (.resize 11 true),
        .edit (.resize 16 true)] s with
      | .ok (_, s') => some (s'.base.vec, s'.cap, s'.moves)
      | _ => none)
    | _ => none) = some ([0x01#8, 0xff#8], 2, 0) := by decide +kernel

/-- C100 for `IntVector`. -/
theorem C100_int_vector (c : Cfg) (h : IsBlk w) {A : Alloc} (hA : A.Lawful) (hk1 : 1 ≤ k) (hkw : k ≤ w) {n : Nat}
    (hn : Fits c.usz w (n * k)) (ops : List (CapCall (IvOp w)))
    (hok : capEach (ivSpec w k) (CapCall.Ok c.usz w k (fun a op => op.Ok c.usz w k a) List.length) ops []) :
    ∃ s, CVB.withCapacity c A w k n = .ok s ∧
    match capSpecs (ivSpec w k) ops [] with
    | none => capCalls c A k (fun b op => do let (o, s) ← ivStep c ⟨k, b⟩ op; .ok (o, s.base)) ops s = .panic
    | some (os, xs) => ∃ s', capCalls c A k (fun b op => do let (o, s) ← ivStep c ⟨k, b⟩ op; .ok (o, s.base)) ops s = .ok (os, s') ∧
        s'.base.len = xs.length ∧
        (∀ i < 2 ^ c.usz, (do let y ← (⟨k, s'.base⟩ : IV w).get c i; .ok y.toNat) = expectR xs[i]?) ∧
        (s'.cap * w < 2 ^ 64 → ∃ m, CVB.capacity c s' k = .ok m ∧ xs.length ≤ m) ∧
        (capEach (ivSpec w k) (fun a op => (∃ e, op = .edit e) ∧ ∀ r, capSpec (ivSpec w k) a op = some r → r.2.length ≤ n) ops [] →
          s'.cap = s.cap ∧ s'.moves = 0) := by
  obtain ⟨s, h1, h2, h3, -⟩ := C70_with_capacity c h hA hk1 hkw hn
  have hcap : blocksFor w (n * k) ≤ s.cap := by
    rw [CVB.withCapacity, lenToBlockLen_ok h hn] at h1
    cases h1
    exact hA.withCapacity _
  have hR : IR c w k ⟨k, s.base⟩ [] := by
    rw [h2]; exact ⟨rfl, hk1, hkw, by simp, VR.nil c h k⟩
  have key := capCalls_refines (A := List Nat) (O := IvOut) (Op := IvOp w) (c := c) (Al := A) (eb := k)
    (R := fun b xs => IR c w k ⟨k, b⟩ xs) (bitsOf := packBits k)
    (len := List.length) (step := fun b op => do let (o, s) ← ivStep c ⟨k, b⟩ op; .ok (o, s.base)) (spec := ivSpec w k)
    (ok := fun a op => op.Ok c.usz w k a) h hA hk1
    (fun hb => ⟨hb.rep, length_packBits _ _⟩)
    (fun {b a op} hb ho => by
      have := ivStep_refines c h hb op ho
      rcases hsp : ivSpec w k a op with _ | ⟨o, a'⟩
      · rw [hsp] at this
        have h' : ivStep c ⟨k, b⟩ op = .panic := this
        show (do let (o, s) ← ivStep c ⟨k, b⟩ op; Res.ok (o, s.base)) = .panic
        rw [h']; rfl
      · rw [hsp] at this
        obtain ⟨⟨k', b'⟩, h3, h4⟩ := this
        have : k' = k := h4.eb
        subst this
        exact ⟨b', by simp only [h3]; rfl, h4⟩) ops hR
    (by rw [h2]; exact Nat.zero_le _) hok
  refine ⟨s, h1, ?_⟩
  rcases hsp : capSpecs (ivSpec w k) ops [] with _ | ⟨os, xs⟩
  · rw [hsp] at key; exact key
  · rw [hsp] at key
    obtain ⟨s', g1, g2, g3, g4⟩ := key
    refine ⟨s', g1, g2.len, fun i hi => ?_, fun hc => ?_, fun hall => ?_⟩
    · by_cases hil : i < xs.length
      · obtain ⟨y, h5, h6⟩ := g2.get_ok h hil
        rw [h5, List.getElem?_eq_getElem hil, ← h6]; rfl
      · rw [g2.get_panic h (by omega) (fun _ => hi), List.getElem?_eq_none (by omega)]; rfl
    · obtain ⟨m, k1, k2⟩ := capacity_ge c h hk1 g2.rep g3 hc
      exact ⟨m, k1, by have := g2.len; simp only at this; omega⟩
    · rw [← h3]
      refine g4 (blocksFor w (n * k)) hcap ?_
      clear g4 g1 g2 g3 hok hsp hR h2 hcap h1 h3
      generalize ([] : List Nat) = a at hall
      induction ops generalizing a with
      | nil => trivial
      | cons op ops ih =>
        refine ⟨⟨hall.1.1, fun r hr => blocksFor_mono ?_⟩, fun r hr => ih _ (hall.2 r hr)⟩
        rw [length_packBits]
        exact Nat.mul_le_mul_right k (hall.1.2 r hr)

example : (match CVB.withCapacity ⟨true, .p64, true⟩ .exact 8 5 3 with
    | .ok s => (match capCalls ⟨true, .p64, true⟩ .exact 5 (fun b op => do let (o, s) ← ivStep ⟨true, .p64, true⟩ ⟨5, b⟩ op; .ok (o, s.base))
        [.edit (.push 9#8), .edit (.push 31#8), .edit (.push 4#8), .edit .pop, .edit (.blockResize 1 0#8), .edit (.resize 3 6#8)] s with
      | .ok (_, s') => some (s'.base.len, s'.cap, s'.moves)
      | _ => none)
    | _ => none) = some (3, 2, 0) := by decide +kernel

/-! Each theorem of this file that has hypotheses is applied to concrete data in `Verif/Instances/CapacityOps.lean`. -/

end Succinct
