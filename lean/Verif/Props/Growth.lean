import Verif.Props.CapacityOps
/-! Property C112: growth is amortised. -/
namespace Succinct
open Spec

/-- An allocator that at least doubles the capacity when a `Vec` has to grow. (`std` promises amortised constant
time for `push`; its implementation doubles.) -/
def Alloc.Doubles (A : Alloc) : Prop := ∀ len cap additional, 2 * cap ≤ A.grow len cap additional

/-- The growth of `Vec` as `std` implements it, for elements of up to 1024 bytes that are larger than one byte: the
capacity doubles, but is at least what is asked for and at least four. -/
def Alloc.amortized : Alloc where
  withCapacity n := n
  grow len cap additional := max 4 (max (2 * cap) (len + additional))
  growExact len _ additional := len + additional
  shrink len _ := len

theorem Alloc.amortized_lawful : Alloc.amortized.Lawful ∧ Alloc.amortized.Doubles := by
  refine ⟨⟨fun n => Nat.le_refl _, fun _ _ _ => ?_, fun _ _ _ => Nat.le_refl _, fun _ _ h => ⟨Nat.le_refl _, h⟩⟩, fun _ _ _ => ?_⟩ <;>
  · show _ ≤ max 4 (max _ _); omega

/-- A sequence of calls of methods of a vector, and the number of blocks that its `Vec` copied while growing: a
reallocation copies the blocks there are. -/
def growRun (A : Alloc) (step : VB w → Op → Res (O × VB w)) : List Op → CVB w → Res (Nat × CVB w)
  | [], s => .ok (0, s)
  | op :: ops, s => do
    let (_, b) ← step s.base op
    let s' := s.change A b
    let (n, t) ← growRun A step ops s'
    .ok ((if s'.moves = s.moves then 0 else s.base.vec.length) + n, t)

/-- What the calls do to the contents, as long as none panics. -/
def specRun (spec : A → Op → Option (O × A)) : List Op → A → Option A
  | [], a => some a
  | op :: ops, a => do
    let (_, a) ← spec a op
    specRun spec ops a

/-- Every call of the sequence satisfies `P` on the contents it is applied to. -/
def specEach (spec : A → Op → Option (O × A)) (P : A → Op → Prop) : List Op → A → Prop
  | [], _ => True
  | op :: ops, a => P a op ∧ ∀ r, spec a op = some r → specEach spec P ops r.2

/-- What is known while growing, with `m` reallocations and `n` blocks copied so far. -/
structure Amortized (s : CVB w) (B m n : Nat) : Prop where
  room : s.base.vec.length ≤ s.cap
  pow : 0 < m → 2 ^ m ≤ 2 * s.cap
  few : 0 < m → 2 ^ m ≤ 4 * B
  copied : n ≤ s.cap
  little : n ≤ 2 * B

theorem Amortized.change {A : Alloc} (hA : A.Lawful) (hd : A.Doubles) {s : CVB w} {B m n : Nat} (g : Amortized s B m n)
    {b : VB w} (hb : b.vec.length ≤ B) :
    ∃ k, (s.change A b).moves = s.moves + k ∧
      Amortized (s.change A b) B (m + k) (n + if (s.change A b).moves = s.moves then 0 else s.base.vec.length) := by
  obtain ⟨g1, g2, g3, g4, g5⟩ := g
  unfold CVB.change CVB.vecReserve
  by_cases hc : b.vec.length - s.base.vec.length ≤ s.cap - s.base.vec.length
  · rw [if_pos hc]
    exact ⟨0, rfl, by simp only; omega, g2, g3, by simpa using g4, by simpa using g5⟩
  · rw [if_neg hc]
    have h1 := hA.grow s.base.vec.length s.cap (b.vec.length - s.base.vec.length)
    have h2 := hd s.base.vec.length s.cap (b.vec.length - s.base.vec.length)
    refine ⟨1, rfl, by simp only; omega, fun _ => ?_, fun _ => ?_, ?_, ?_⟩
    · simp only
      rcases Nat.eq_zero_or_pos m with rfl | hm
      · simp; omega
      · have := g2 hm; rw [Nat.pow_succ]; omega
    · rcases Nat.eq_zero_or_pos m with rfl | hm
      · simp; omega
      · have := g2 hm; rw [Nat.pow_succ]; omega
    · simp only; rw [if_neg (by omega)]; omega
    · simp only; rw [if_neg (by omega)]; omega

section
variable {A O Op : Type} {c : Cfg} {w eb : Nat} {Al : Alloc} {R : VB w → A → Prop} {bitsOf : A → List Bool}
  {step : VB w → Op → Res (O × VB w)} {spec : A → Op → Option (O × A)} {ok : A → Op → Prop}

theorem growRun_refines (hA : Al.Lawful) (hd : Al.Doubles)
    (hrep : ∀ {b a}, R b a → VR c w eb b (bitsOf a))
    (hstep : ∀ {b a op}, R b a → ok a op → Refines R (step b op) (spec a op))
    (ops : List Op) {B : Nat} {s : CVB w} {a : A} {m n : Nat} (hR : R s.base a) (g : Amortized s B m n)
    (hok : specEach spec (fun a op => ok a op ∧ ∀ r, spec a op = some r → blocksFor w (bitsOf r.2).length ≤ B) ops a) :
    match specRun spec ops a with
    | none => growRun Al step ops s = .panic
    | some a' => ∃ k n' s', growRun Al step ops s = .ok (n', s') ∧ R s'.base a' ∧ s'.moves = s.moves + k ∧
        Amortized s' B (m + k) (n + n') := by
  induction ops generalizing s a m n with
  | nil => exact ⟨0, 0, s, rfl, hR, rfl, g⟩
  | cons op ops ih =>
    obtain ⟨⟨ho, hB⟩, hops⟩ := hok
    have h1 := hstep hR ho
    unfold specRun growRun
    rcases hsp : spec a op with _ | ⟨o, a'⟩
    · rw [hsp] at h1
      have h1' : step s.base op = .panic := h1
      rw [h1']; rfl
    · rw [hsp] at h1
      obtain ⟨b, h2, h3⟩ := h1
      have hl : b.vec.length ≤ B := by rw [(hrep h3).blocks]; exact hB _ hsp
      obtain ⟨k, k1, k2⟩ := g.change hA hd hl
      have h4 := ih (s := s.change Al b) h3 k2 (hops _ hsp)
      simp only [Option.bind_eq_bind, Option.bind_some]
      rw [h2, Res.ok_bind]
      rcases hsp2 : specRun spec ops a' with _ | a2
      · rw [hsp2] at h4
        have h4' : growRun Al step ops (s.change Al b) = .panic := h4
        simp only [h4']; rfl
      · rw [hsp2] at h4
        obtain ⟨k', n', s', g1, g2, g3, g4⟩ := h4
        refine ⟨k + k', _, s', by simp only [g1]; rfl, g2, by rw [g3, k1, Nat.add_assoc], ?_⟩
        rw [← Nat.add_assoc, ← Nat.add_assoc]
        exact g4

end

theorem log_of_pow {k B : Nat} (h : 0 < k → 2 ^ k ≤ 4 * B) : k ≤ Nat.log2 B + 2 := by
  rcases Nat.eq_zero_or_pos k with rfl | hk
  · omega
  · have h1 := h hk
    have hB : B ≠ 0 := by rintro rfl; have := Nat.two_pow_pos k; omega
    have h2 := Nat.lt_log2_self (n := B)
    have h3 : 2 ^ k < 2 ^ (Nat.log2 B + 3) := by
      rw [show Nat.log2 B + 3 = Nat.log2 B + 1 + 2 from rfl, Nat.pow_add 2 _ 2]; omega
    have := (Nat.pow_lt_pow_iff_right (by omega : 1 < 2)).1 h3
    omega

/-- C112 for `BitVector`: with an allocator that doubles, a vector made by `with_capacity(k)`, for any `k`, on which any
methods are called in any order without its length ever exceeding `n` bits, reallocates at most
`log2(⌈n / w⌉) + 2` times, and these reallocations copy at most `2 ⌈n / w⌉` blocks altogether. -/
theorem C112_bit_vector (c : Cfg) (h : IsBlk w) {A : Alloc} (hA : A.Lawful) (hd : A.Doubles) {k n : Nat}
    (hk : Fits c.usz w k) (ops : List (BvOp w))
    (hok : specEach (bvSpec w) (fun bits op => op.Ok c.usz w bits ∧ ∀ r, bvSpec w bits op = some r → r.2.length ≤ n) ops []) :
    ∃ s, CVB.withCapacity c A w 1 k = .ok s ∧
    match specRun (bvSpec w) ops [] with
    | none => growRun A (bvStep c) ops s = .panic
    | some bits => ∃ copied s', growRun A (bvStep c) ops s = .ok (copied, s') ∧
        (bvBitVec c w).bitLen s'.base = .ok bits.length ∧
        s'.moves ≤ Nat.log2 (blocksFor w n) + 2 ∧ copied ≤ 2 * blocksFor w n := by
  obtain ⟨s, h1, h2, h3, -⟩ := C70_with_capacity c h hA (eb := 1) (Nat.le_refl _) h.pos (n := k) (by rw [Nat.mul_one]; exact hk)
  have hR : bvR c w s.base [] := by rw [h2]; exact VR.nil c h 1
  have g : Amortized s (blocksFor w n) 0 0 :=
    ⟨by rw [h2]; exact Nat.zero_le _, fun h => absurd h (by omega), fun h => absurd h (by omega), Nat.zero_le _, Nat.zero_le _⟩
  have hok' : specEach (bvSpec w) (fun bits op => op.Ok c.usz w bits ∧
      ∀ r, bvSpec w bits op = some r → blocksFor w (id r.2).length ≤ blocksFor w n) ops [] := by
    clear g hR h2 h3 h1
    generalize ([] : List Bool) = a at hok
    induction ops generalizing a with
    | nil => trivial
    | cons op ops ih =>
      exact ⟨⟨hok.1.1, fun r hr => blocksFor_mono (hok.1.2 r hr)⟩, fun r hr => ih _ (hok.2 r hr)⟩
  have key := growRun_refines (A := List Bool) (R := bvR c w) (bitsOf := id) (step := bvStep c) (spec := bvSpec w)
    (ok := fun bits op => op.Ok c.usz w bits) (eb := 1) hA hd (fun hb => hb) (fun hb ho => bvStep_refines c h hb _ ho)
    ops hR g hok'
  refine ⟨s, h1, ?_⟩
  rcases hsp : specRun (bvSpec w) ops [] with _ | bits
  · rw [hsp] at key; exact key
  · rw [hsp] at key
    obtain ⟨j, n', s', g1, g2, g3, g4⟩ := key
    refine ⟨n', s', g1, bv_bitLen c g2, ?_, ?_⟩
    · rw [g3, h3, Nat.zero_add]
      exact log_of_pow (by simpa using g4.few)
    · simpa using g4.little

/-- C112 for `IntVector`, with elements of `eb` bits. -/
theorem C112_int_vector (c : Cfg) (h : IsBlk w) {A : Alloc} (hA : A.Lawful) (hd : A.Doubles) (he1 : 1 ≤ eb) (hew : eb ≤ w)
    {k n : Nat} (hk : Fits c.usz w (k * eb)) (ops : List (IvOp w))
    (hok : specEach (ivSpec w eb) (fun xs op => op.Ok c.usz w eb xs ∧ ∀ r, ivSpec w eb xs op = some r → r.2.length ≤ n) ops []) :
    ∃ s, CVB.withCapacity c A w eb k = .ok s ∧
    match specRun (ivSpec w eb) ops [] with
    | none => growRun A (fun b op => do let (o, s) ← ivStep c ⟨eb, b⟩ op; .ok (o, s.base)) ops s = .panic
    | some xs => ∃ copied s', growRun A (fun b op => do let (o, s) ← ivStep c ⟨eb, b⟩ op; .ok (o, s.base)) ops s = .ok (copied, s') ∧
        s'.base.len = xs.length ∧
        s'.moves ≤ Nat.log2 (blocksFor w (n * eb)) + 2 ∧ copied ≤ 2 * blocksFor w (n * eb) := by
  obtain ⟨s, h1, h2, h3, -⟩ := C70_with_capacity c h hA he1 hew hk
  have hR : IR c w eb ⟨eb, s.base⟩ [] := by
    rw [h2]; exact ⟨rfl, he1, hew, by simp, VR.nil c h eb⟩
  have g : Amortized s (blocksFor w (n * eb)) 0 0 :=
    ⟨by rw [h2]; exact Nat.zero_le _, fun h => absurd h (by omega), fun h => absurd h (by omega), Nat.zero_le _, Nat.zero_le _⟩
  have hok' : specEach (ivSpec w eb) (fun xs op => op.Ok c.usz w eb xs ∧
      ∀ r, ivSpec w eb xs op = some r → blocksFor w (packBits eb r.2).length ≤ blocksFor w (n * eb)) ops [] := by
    clear g hR h2 h3 h1
    generalize ([] : List Nat) = a at hok
    induction ops generalizing a with
    | nil => trivial
    | cons op ops ih =>
      refine ⟨⟨hok.1.1, fun r hr => blocksFor_mono ?_⟩, fun r hr => ih _ (hok.2 r hr)⟩
      rw [length_packBits]
      exact Nat.mul_le_mul_right eb (hok.1.2 r hr)
  have key := growRun_refines (A := List Nat) (O := IvOut) (R := fun b xs => IR c w eb ⟨eb, b⟩ xs) (bitsOf := packBits eb)
    (step := fun b op => do let (o, s) ← ivStep c ⟨eb, b⟩ op; .ok (o, s.base)) (spec := ivSpec w eb)
    (ok := fun xs op => op.Ok c.usz w eb xs) (eb := eb) hA hd (fun hb => hb.rep)
    (fun {b a op} hb ho => by
      have := ivStep_refines c h hb op ho
      rcases hsp : ivSpec w eb a op with _ | ⟨o, a'⟩
      · rw [hsp] at this
        have h' : ivStep c ⟨eb, b⟩ op = .panic := this
        show (do let (o, s) ← ivStep c ⟨eb, b⟩ op; Res.ok (o, s.base)) = .panic
        rw [h']; rfl
      · rw [hsp] at this
        obtain ⟨⟨k', b'⟩, h3, h4⟩ := this
        have : k' = eb := h4.eb
        subst this
        exact ⟨b', by simp only [h3]; rfl, h4⟩) ops hR g hok'
  refine ⟨s, h1, ?_⟩
  rcases hsp : specRun (ivSpec w eb) ops [] with _ | xs
  · rw [hsp] at key; exact key
  · rw [hsp] at key
    obtain ⟨j, n', s', g1, g2, g3, g4⟩ := key
    refine ⟨n', s', g1, g2.len, ?_, ?_⟩
    · rw [g3, h3, Nat.zero_add]
      exact log_of_pow (by simpa using g4.few)
    · simpa using g4.little

/-- A hundred pushes into an empty vector of bytes: capacities 4, 8, 16, three reallocations, 12 blocks copied. The
bounds for 13 blocks are 5 and 26. -/
example : growRun .amortized (bvStep ⟨true, .p64, true⟩) (List.replicate 100 (BvOp.pushBit true)) (⟨⟨0, []⟩, 0, 0⟩ : CVB 8) =
    .ok (12, ⟨⟨100, List.replicate 12 0xff#8 ++ [0x0f#8]⟩, 16, 3⟩) := by decide +kernel

/-- An allocator that gives exactly what is asked for does not double, and reallocates for every block: for `n` blocks
`n` times, copying `n (n - 1) / 2` blocks. -/
theorem C112_exact_allocator (c : Cfg) (h : IsBlk w) (n : Nat) (hf : Fits c.usz w (n * w)) (x : BitVec w) :
    ∃ s', growRun .exact (bvStep c) (List.replicate n (BvOp.pushBlock x)) (⟨⟨0, []⟩, 0, 0⟩ : CVB w) =
      .ok (n * (n - 1) / 2, s') ∧ s'.moves = n := by
  have key : ∀ (m : Nat) (s : CVB w) (bits : List Bool), bvR c w s.base bits → bits.length + m * w ≤ n * w →
      s.cap = s.base.vec.length → bits.length = s.cap * w →
      ∃ s', growRun .exact (bvStep c) (List.replicate m (BvOp.pushBlock x)) s =
        .ok (s.cap * m + m * (m - 1) / 2, s') ∧ s'.moves = s.moves + m := by
    intro m
    induction m with
    | zero => intro s _ _ _ _ _; exact ⟨s, by simp [growRun], rfl⟩
    | succ m ih =>
      intro s bits hR hm hcap hlen
      have hm' : bits.length + w + m * w ≤ n * w := by rw [Nat.succ_mul] at hm; omega
      have hb : blocksFor w bits.length = s.cap := by rw [hlen]; exact blocksFor_mul _ _ h.pos
      obtain ⟨b, h1, h2⟩ := bvStep_refines c h hR (.pushBlock x)
        (show Fits c.usz w (blocksFor w bits.length * w + w) from hf.mono (by rw [hb, ← hlen]; omega))
      have hl : (padTo w bits ++ blockBits x).length = bits.length + w := by
        rw [List.length_append, length_padTo h.pos, hb, ← hlen]; simp
      have hbl : b.vec.length = s.cap + 1 := by
        have : VR c w 1 b (padTo w bits ++ blockBits x) := h2
        rw [this.blocks, hl, hlen, ← Nat.succ_mul]; exact blocksFor_mul _ _ h.pos
      have hch : s.change .exact b = ⟨b, s.cap + 1, s.moves + 1⟩ := by
        unfold CVB.change CVB.vecReserve
        rw [if_neg (by omega)]
        simp only [Alloc.exact, CVB.mk.injEq, and_true, true_and]; omega
      obtain ⟨s', g1, g2⟩ := ih ⟨b, s.cap + 1, s.moves + 1⟩ _ h2 (by rw [hl]; exact hm') hbl.symm
        (by rw [hl, hlen]; simp only; rw [Nat.succ_mul])
      refine ⟨s', ?_, by rw [g2]; simp only; omega⟩
      rw [List.replicate_succ]
      unfold growRun
      rw [h1, Res.ok_bind]
      simp only [hch, g1, Res.ok_bind]
      rw [if_neg (by omega), ← hcap]
      congr 2
      have e : (m + 1) * m = m * (m - 1) + 2 * m := by
        cases m with
        | zero => rfl
        | succ m => simp only [Nat.add_sub_cancel]; rw [Nat.mul_comm (m + 1) m, ← Nat.add_mul]
      rw [Nat.add_sub_cancel, e, Nat.add_mul_div_left _ _ (by omega : 0 < 2), Nat.mul_succ, Nat.succ_mul]
      omega
  obtain ⟨s', h1, h2⟩ := key n ⟨⟨0, []⟩, 0, 0⟩ [] (VR.nil c h 1) (by simp) rfl (by simp)
  exact ⟨s', by simpa using h1, by simpa using h2⟩

example : growRun .exact (bvStep ⟨true, .p64, true⟩) (List.replicate 5 (BvOp.pushBlock 7#8)) (⟨⟨0, []⟩, 0, 0⟩ : CVB 8) =
    .ok (10, ⟨⟨40, List.replicate 5 7#8⟩, 5, 5⟩) := by decide +kernel

/-! Each theorem of this file that has hypotheses is applied to concrete data in `Verif/Instances/Growth.lean`. -/

end Succinct
