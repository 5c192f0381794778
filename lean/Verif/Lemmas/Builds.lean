import Verif.Model.Slice
import Verif.Model.Iter
import Verif.Model.Select
import Verif.Model.Broadword
import Verif.Model.Coding
import Verif.Model.RankCapacity
/-!
# Builds with more and with fewer checks agree

`Agree x y`: the computation `x` panics, or both do the same. Every function of the model is shown to agree with
itself in every configuration with fewer checks. The relation is a class so that instance search assembles the proofs.
-/
namespace Succinct

/-- Which checks to keep. -/
structure Kept where
  debug : Bool
  asserts : Bool

/-- The same target, with at most the overflow checks and debug assertions it had. -/
def Cfg.fewer (c : Cfg) (kp : Kept) : Cfg := { c with debug := c.debug && kp.debug, asserts := c.asserts && kp.asserts }

@[simp] theorem fewer_usz (c : Cfg) : (c.fewer kp).usz = c.usz := rfl
@[simp] theorem fewer_ptr (c : Cfg) : (c.fewer kp).ptr = c.ptr := rfl
@[simp] theorem fewer_asUsize (c : Cfg) (x : Nat) : asUsize (c.fewer kp) x = asUsize c x := rfl
@[simp] theorem fewer_toUsize (c : Cfg) (x : Nat) : toUsize (c.fewer kp) x = toUsize c x := rfl

/-- `x` panics, or `y` has the same outcome. The flags relax this for one step of a recursion: with `d`, `x` may
not return, with `e`, `y` may not. -/
class Agree (d e : Bool) (x y : Res α) : Prop where
  out : (d = true ∧ x = .diverge) ∨ (e = true ∧ y = .diverge) ∨ x = .panic ∨ x = y

/-- The same for methods of streams: from every state. -/
class AgreeS (d e : Bool) (x y : SM σ α) : Prop where
  out : ∀ s, Agree d e (x s) (y s)

namespace Agree
variable {d e : Bool}

instance refl (x : Res α) : Agree d e x x := ⟨.inr (.inr (.inr rfl))⟩

theorem panic {y : Res α} : Agree d e .panic y := ⟨.inr (.inr (.inl rfl))⟩

theorem bind' {x y : Res α} {f g : α → Res β} (h : Agree d e x y) (h' : ∀ a, Agree d e (f a) (g a)) : Agree d e (x >>= f) (y >>= g) := by
  rcases h.out with ⟨hd, h⟩ | ⟨he, h⟩ | h | h
  · subst h; exact ⟨.inl ⟨hd, rfl⟩⟩
  · subst h; exact ⟨.inr (.inl ⟨he, rfl⟩)⟩
  · subst h; exact panic
  · subst h
    cases x with
    | ok a => exact h' a
    | panic => exact panic
    | diverge => exact ⟨.inr (.inr (.inr rfl))⟩

instance bind {x y : Res α} {f g : α → Res β} [h : Agree d e x y] [h' : ∀ a, Agree d e (f a) (g a)] : Agree d e (x >>= f) (y >>= g) :=
  bind' h h'

instance ite {p : Prop} [Decidable p] {x y x' y' : Res α} [h : Agree d e x y] [h' : Agree d e x' y'] :
    Agree d e (if p then x else x') (if p then y else y') := by
  split <;> assumption

/-- The two relaxed forms together give the full one. -/
theorem both {x y : Res α} (h : Agree true false x y) (h' : Agree false true x y) : Agree d e x y := by
  rcases h.out with ⟨-, h⟩ | ⟨h, -⟩ | h | h
  · rcases h'.out with ⟨h', -⟩ | ⟨-, h'⟩ | h' | h'
    · cases h'
    · exact ⟨.inr (.inr (.inr (h.trans h'.symm)))⟩
    · exact ⟨.inr (.inr (.inl h'))⟩
    · exact ⟨.inr (.inr (.inr h'))⟩
  · cases h
  · exact ⟨.inr (.inr (.inl h))⟩
  · exact ⟨.inr (.inr (.inr h))⟩

theorem cases {x y : Res α} (h : Agree false false x y) : x = .panic ∨ x = y := by
  rcases h.out with ⟨h, -⟩ | ⟨h, -⟩ | h
  · cases h
  · cases h
  · exact h

instance overflow (c : Cfg) (a : α) : Agree d e (Succinct.overflow c a) (Succinct.overflow (c.fewer kp) a) := by
  unfold Succinct.overflow
  by_cases h : c.debug
  · rw [if_pos h]; exact panic
  · rw [if_neg h, if_neg (by simp [Cfg.fewer, h])]; exact refl _

instance debugAssert (c : Cfg) (p : Prop) [Decidable p] : Agree d e (Succinct.debugAssert c p) (Succinct.debugAssert (c.fewer kp) p) := by
  unfold Succinct.debugAssert assertR
  by_cases h : c.asserts
  · rw [if_pos h]
    by_cases hp : p
    · rw [if_pos hp]; split <;> exact refl _
    · rw [if_neg hp]; exact panic
  · rw [if_neg h, if_neg (by simp [Cfg.fewer, h])]; exact refl _

instance forLoop {n i : Nat} {s : σ} {f g : Nat → σ → Res σ} [h : ∀ i s, Agree d e (f i s) (g i s)] :
    Agree d e (Succinct.forLoop n i s f) (Succinct.forLoop n i s g) := by
  induction n generalizing i s with
  | zero => exact refl _
  | succ n ih => exact bind' (h i s) (fun _ => ih)

instance forRange {lo hi : Nat} {s : σ} {f g : Nat → σ → Res σ} [h : ∀ i s, Agree d e (f i s) (g i s)] :
    Agree d e (Succinct.forRange lo hi s f) (Succinct.forRange lo hi s g) := forLoop (h := h)

section Admissible
open Lean.Order
theorem adm (y : Res α) : admissible (fun x : Res α => Agree true false x y) := admissible_flatOrder _ ⟨.inl ⟨rfl, rfl⟩⟩
theorem adm' (x : Res α) : admissible (fun y : Res α => Agree false true x y) := admissible_flatOrder _ ⟨.inr (.inl ⟨rfl, rfl⟩)⟩
theorem adm1 (y : γ → Res α) : admissible (fun f : γ → Res α => ∀ s, Agree true false (f s) (y s)) :=
  admissible_pi_apply (fun s (x : Res α) => Agree true false x (y s)) (fun _ => adm _)
theorem adm1' (x : γ → Res α) : admissible (fun f : γ → Res α => ∀ s, Agree false true (x s) (f s)) :=
  admissible_pi_apply (fun s (y : Res α) => Agree false true (x s) y) (fun _ => adm' _)
theorem adm2 (y : γ → δ → Res α) : admissible (fun f : γ → δ → Res α => ∀ s t, Agree true false (f s t) (y s t)) :=
  admissible_pi_apply (fun s (x : δ → Res α) => ∀ t, Agree true false (x t) (y s t)) (fun _ => adm1 _)
theorem adm2' (x : γ → δ → Res α) : admissible (fun f : γ → δ → Res α => ∀ s t, Agree false true (x s t) (f s t)) :=
  admissible_pi_apply (fun s (y : δ → Res α) => ∀ t, Agree false true (x s t) (y t)) (fun _ => adm1' _)
theorem adm3 (y : γ → δ → ε → Res α) :
    admissible (fun f : γ → δ → ε → Res α => ∀ s t u, Agree true false (f s t u) (y s t u)) :=
  admissible_pi_apply (fun s (x : δ → ε → Res α) => ∀ t u, Agree true false (x t u) (y s t u)) (fun _ => adm2 _)
theorem adm3' (x : γ → δ → ε → Res α) :
    admissible (fun f : γ → δ → ε → Res α => ∀ s t u, Agree false true (x s t u) (f s t u)) :=
  admissible_pi_apply (fun s (y : δ → ε → Res α) => ∀ t u, Agree false true (x s t u) (y t u)) (fun _ => adm2' _)
theorem adm4 (y : γ → δ → ε → ζ → Res α) :
    admissible (fun f : γ → δ → ε → ζ → Res α => ∀ s t u v, Agree true false (f s t u v) (y s t u v)) :=
  admissible_pi_apply (fun s (x : δ → ε → ζ → Res α) => ∀ t u v, Agree true false (x t u v) (y s t u v)) (fun _ => adm3 _)
theorem adm4' (x : γ → δ → ε → ζ → Res α) :
    admissible (fun f : γ → δ → ε → ζ → Res α => ∀ s t u v, Agree false true (x s t u v) (f s t u v)) :=
  admissible_pi_apply (fun s (y : δ → ε → ζ → Res α) => ∀ t u v, Agree false true (x s t u v) (y t u v)) (fun _ => adm3' _)
end Admissible

end Agree

/-- Assemble an agreement proof. -/
macro "agree" : tactic => `(tactic|
  ((try simp only [fewer_usz, fewer_ptr, fewer_asUsize, fewer_toUsize])
   repeat' (first | infer_instance | refine Agree.bind' ?_ (fun _ => ?_) | (intro _) | split)))

variable {d e : Bool}

section Arith
variable (c : Cfg) (n a b : Nat)
instance : Agree d e (addN c n a b) (addN (c.fewer kp) n a b) := by unfold addN; agree
instance : Agree d e (subN c n a b) (subN (c.fewer kp) n a b) := by unfold subN; agree
instance : Agree d e (mulN c n a b) (mulN (c.fewer kp) n a b) := by unfold mulN; agree
instance : Agree d e (shlN c n a b) (shlN (c.fewer kp) n a b) := by unfold shlN; agree
instance : Agree d e (shrN c n a b) (shrN (c.fewer kp) n a b) := by unfold shrN; agree
variable {w : Nat} (x y : BitVec w)
instance : Agree d e (shlB c x n) (shlB (c.fewer kp) x n) := by unfold shlB; agree
instance : Agree d e (shrB c x n) (shrB (c.fewer kp) x n) := by unfold shrB; agree
instance : Agree d e (addB c x y) (addB (c.fewer kp) x y) := by unfold addB; agree
instance : Agree d e (subB c x y) (subB (c.fewer kp) x y) := by unfold subB; agree
instance : Agree d e (mulB c x y) (mulB (c.fewer kp) x y) := by unfold mulB; agree
end Arith

section Storage
variable (c : Cfg) {w : Nat} (x y : BitVec w) (n i j : Nat)
instance : Agree d e (floorLg c x) (floorLg (c.fewer kp) x) := by unfold floorLg; agree
instance : Agree d e (ceilLg c x) (ceilLg (c.fewer kp) x) := by unfold ceilLg; agree
instance : Agree d e (ceilDiv c n i j) (ceilDiv (c.fewer kp) n i j) := by unfold ceilDiv; agree
instance : Agree d e (lgNbits c n) (lgNbits (c.fewer kp) n) := by
  unfold lgNbits
  exact (inferInstance : Agree d e (floorLg c (BitVec.ofNat c.usz n)) (floorLg (c.fewer kp) (BitVec.ofNat c.usz n)))
instance : Agree d e (divNbits c n i) (divNbits (c.fewer kp) n i) := by unfold divNbits; agree
instance : Agree d e (checkedDivNbits c n i) (checkedDivNbits (c.fewer kp) n i) := by unfold checkedDivNbits; agree
instance : Agree d e (ceilDivNbits c n i) (ceilDivNbits (c.fewer kp) n i) := by unfold ceilDivNbits; agree
instance : Agree d e (checkedCeilDivNbits c n i) (checkedCeilDivNbits (c.fewer kp) n i) := by unfold checkedCeilDivNbits; agree
instance : Agree d e (lowMaskDefault c n i) (lowMaskDefault (c.fewer kp) n i) := by unfold lowMaskDefault; agree
instance : Agree d e (lowMask c n i) (lowMask (c.fewer kp) n i) := by unfold lowMask; agree
instance : Agree d e (lgNbitsMask c v n) (lgNbitsMask (c.fewer kp) v n) := by unfold lgNbitsMask; agree
instance : Agree d e (modNbits c n i) (modNbits (c.fewer kp) n i) := by unfold modNbits; agree
instance : Agree d e (mulNbits c n i) (mulNbits (c.fewer kp) n i) := by unfold mulNbits; agree
instance : Agree d e (lastBlockBits c n i) (lastBlockBits (c.fewer kp) n i) := by unfold lastBlockBits; agree
instance : Agree d e (nthMask c n i) (nthMask (c.fewer kp) n i) := by unfold nthMask; agree
instance : Agree d e (blkGetBit c x i) (blkGetBit (c.fewer kp) x i) := by unfold blkGetBit; agree
instance (b : Bool) : Agree d e (blkWithBit c x i b) (blkWithBit (c.fewer kp) x i b) := by unfold blkWithBit; agree
instance : Agree d e (blkGetBits c x i j) (blkGetBits (c.fewer kp) x i j) := by unfold blkGetBits; agree
instance : Agree d e (blkWithBits c x i j y) (blkWithBits (c.fewer kp) x i j y) := by unfold blkWithBits; agree
instance : Agree d e (Address.new c n i) (Address.new (c.fewer kp) n i) := by unfold Address.new; agree
instance (a : Address) : Agree d e (Address.bitIndex c n a) (Address.bitIndex (c.fewer kp) n a) := by unfold Address.bitIndex; agree
end Storage

section Defaults
variable {w : Nat} {S : Type} (c : Cfg) {bitLen bitLen' blockLen blockLen' : S → Res Nat}
  {getBit getBit' : S → Nat → Res Bool} {getBlock getBlock' : S → Nat → Res (BitVec w)} {setBit setBit' : S → Nat → Bool → Res S}
  {setBlock setBlock' : S → Nat → BitVec w → Res S} {pushBit pushBit' alignBlock alignBlock' : S → Bool → Res S}
  (s : S) (i n : Nat) (b : Bool) (x : BitVec w)

instance [∀ s, Agree d e (bitLen s) (bitLen' s)] : Agree d e (dfltBlockLen c n bitLen s) (dfltBlockLen (c.fewer kp) n bitLen' s) := by
  unfold dfltBlockLen; agree
instance [∀ s, Agree d e (bitLen s) (bitLen' s)] [∀ s i, Agree d e (getBlock s i) (getBlock' s i)] :
    Agree d e (dfltGetBit c bitLen getBlock s i) (dfltGetBit (c.fewer kp) bitLen' getBlock' s i) := by
  unfold dfltGetBit; agree
instance [∀ s, Agree d e (bitLen s) (bitLen' s)] [∀ s, Agree d e (blockLen s) (blockLen' s)] [∀ s i, Agree d e (getBit s i) (getBit' s i)] :
    Agree d e (dfltGetBlock (w := w) c bitLen blockLen getBit s i) (dfltGetBlock (c.fewer kp) bitLen' blockLen' getBit' s i) := by
  unfold dfltGetBlock; agree
instance [∀ s, Agree d e (bitLen s) (bitLen' s)] [∀ s i, Agree d e (getBlock s i) (getBlock' s i)] :
    Agree d e (dfltGetBits c bitLen getBlock s i n) (dfltGetBits (c.fewer kp) bitLen' getBlock' s i n) := by
  unfold dfltGetBits; agree
instance [∀ s, Agree d e (bitLen s) (bitLen' s)] [∀ s i, Agree d e (getBlock s i) (getBlock' s i)]
    [∀ s i x, Agree d e (setBlock s i x) (setBlock' s i x)] :
    Agree d e (dfltSetBit c bitLen getBlock setBlock s i b) (dfltSetBit (c.fewer kp) bitLen' getBlock' setBlock' s i b) := by
  unfold dfltSetBit; agree
instance [∀ s, Agree d e (bitLen s) (bitLen' s)] [∀ s, Agree d e (blockLen s) (blockLen' s)]
    [∀ s i b, Agree d e (setBit s i b) (setBit' s i b)] :
    Agree d e (dfltSetBlock c bitLen blockLen setBit s i x) (dfltSetBlock (c.fewer kp) bitLen' blockLen' setBit' s i x) := by
  unfold dfltSetBlock; agree
instance [∀ s, Agree d e (bitLen s) (bitLen' s)] [∀ s i, Agree d e (getBlock s i) (getBlock' s i)]
    [∀ s i x, Agree d e (setBlock s i x) (setBlock' s i x)] :
    Agree d e (dfltSetBits c bitLen getBlock setBlock s i n x) (dfltSetBits (c.fewer kp) bitLen' getBlock' setBlock' s i n x) := by
  unfold dfltSetBits; agree
instance [∀ s b, Agree d e (alignBlock s b) (alignBlock' s b)] [∀ s b, Agree d e (pushBit s b) (pushBit' s b)] :
    Agree d e (dfltPushBlock c alignBlock pushBit s x) (dfltPushBlock (c.fewer kp) alignBlock' pushBit' s x) := by
  unfold dfltPushBlock; agree
instance alignBlock_agree [h1 : ∀ d e s, Agree d e (bitLen s) (bitLen' s)] [h2 : ∀ d e s b, Agree d e (pushBit s b) (pushBit' s b)] :
    Agree d e (dfltAlignBlock c n bitLen pushBit s b) (dfltAlignBlock (c.fewer kp) n bitLen' pushBit' s b) := by
  apply Agree.both
  · apply dfltAlignBlock.fixpoint_induct c n bitLen pushBit b
      (fun f => ∀ s, Agree true false (f s) (dfltAlignBlock (c.fewer kp) n bitLen' pushBit' s b)) (Agree.adm1 _)
    intro f ih s
    rw [dfltAlignBlock]
    agree
  · apply dfltAlignBlock.fixpoint_induct (c.fewer kp) n bitLen' pushBit' b
      (fun f => ∀ s, Agree false true (dfltAlignBlock c n bitLen pushBit s b) (f s)) (Agree.adm1' _)
    intro f ih s
    rw [dfltAlignBlock]
    agree
end Defaults

/-! ### Dictionaries -/

/-- Two implementations of `BitVec` agree, method by method. -/
class AgreeBV (o o' : BitVecOps w S) : Prop where
  bitLen : ∀ d e s, Agree d e (o.bitLen s) (o'.bitLen s)
  blockLen : ∀ d e s, Agree d e (o.blockLen s) (o'.blockLen s)
  getBit : ∀ d e s i, Agree d e (o.getBit s i) (o'.getBit s i)
  getBlock : ∀ d e s i, Agree d e (o.getBlock s i) (o'.getBlock s i)
  getBits : ∀ d e s i n, Agree d e (o.getBits s i n) (o'.getBits s i n)

/-- Two implementations of `BitVecMut` agree. -/
class AgreeBVM (o o' : BitVecMutOps w S) : Prop where
  base : AgreeBV o.toBitVecOps o'.toBitVecOps
  setBit : ∀ d e s i b, Agree d e (o.setBit s i b) (o'.setBit s i b)
  setBlock : ∀ d e s i x, Agree d e (o.setBlock s i x) (o'.setBlock s i x)
  setBits : ∀ d e s i n x, Agree d e (o.setBits s i n x) (o'.setBits s i n x)

/-- Two implementations of `BitVecPush` agree. -/
class AgreeBVP (o o' : BitVecPushOps w S) : Prop where
  base : AgreeBVM o.toBitVecMutOps o'.toBitVecMutOps
  pushBit : ∀ d e s b, Agree d e (o.pushBit s b) (o'.pushBit s b)
  popBit : ∀ d e s, Agree d e (o.popBit s) (o'.popBit s)
  alignBlock : ∀ d e s b, Agree d e (o.alignBlock s b) (o'.alignBlock s b)
  pushBlock : ∀ d e s x, Agree d e (o.pushBlock s x) (o'.pushBlock s x)

/-- Two implementations of rank support agree. -/
class AgreeRank (o o' : RankOps S) : Prop where
  rank : ∀ d e s p v, Agree d e (o.rank s p v) (o'.rank s p v)
  limit : ∀ d e s, Agree d e (o.limit s) (o'.limit s)
  rank1 : ∀ d e s p, Agree d e (o.rank1 s p) (o'.rank1 s p)
  rank0 : ∀ d e s p, Agree d e (o.rank0 s p) (o'.rank0 s p)

/-- Two implementations of select support agree. -/
class AgreeSelect (o o' : SelectOps S) : Prop where
  select1 : ∀ d e s k, Agree d e (o.select1 s k) (o'.select1 s k)
  select0 : ∀ d e s k, Agree d e (o.select0 s k) (o'.select0 s k)
  select : ∀ d e s k v, Agree d e (o.select s k v) (o'.select s k v)

section Dict
variable {w : Nat} {S : Type} (s : S) (i n : Nat) (b : Bool) (x : BitVec w)
section
variable {o o' : BitVecOps w S} [h : AgreeBV o o']
instance : Agree d e (o.bitLen s) (o'.bitLen s) := h.bitLen d e s
instance : Agree d e (o.blockLen s) (o'.blockLen s) := h.blockLen d e s
instance : Agree d e (o.getBit s i) (o'.getBit s i) := h.getBit d e s i
instance : Agree d e (o.getBlock s i) (o'.getBlock s i) := h.getBlock d e s i
instance : Agree d e (o.getBits s i n) (o'.getBits s i n) := h.getBits d e s i n
end
section
variable {o o' : BitVecMutOps w S} [h : AgreeBVM o o']
instance : AgreeBV o.toBitVecOps o'.toBitVecOps := h.base
instance : Agree d e (o.setBit s i b) (o'.setBit s i b) := h.setBit d e s i b
instance : Agree d e (o.setBlock s i x) (o'.setBlock s i x) := h.setBlock d e s i x
instance : Agree d e (o.setBits s i n x) (o'.setBits s i n x) := h.setBits d e s i n x
end
section
variable {o o' : BitVecPushOps w S} [h : AgreeBVP o o']
instance : AgreeBVM o.toBitVecMutOps o'.toBitVecMutOps := h.base
instance : Agree d e (o.pushBit s b) (o'.pushBit s b) := h.pushBit d e s b
instance : Agree d e (o.popBit s) (o'.popBit s) := h.popBit d e s
instance : Agree d e (o.alignBlock s b) (o'.alignBlock s b) := h.alignBlock d e s b
instance : Agree d e (o.pushBlock s x) (o'.pushBlock s x) := h.pushBlock d e s x
end
section
variable {o o' : RankOps S} [h : AgreeRank o o']
instance : Agree d e (o.rank s i b) (o'.rank s i b) := h.rank d e s i b
instance : Agree d e (o.limit s) (o'.limit s) := h.limit d e s
instance : Agree d e (o.rank1 s i) (o'.rank1 s i) := h.rank1 d e s i
instance : Agree d e (o.rank0 s i) (o'.rank0 s i) := h.rank0 d e s i
end
section
variable {o o' : SelectOps S} [h : AgreeSelect o o']
instance : Agree d e (o.select1 s i) (o'.select1 s i) := h.select1 d e s i
instance : Agree d e (o.select0 s i) (o'.select0 s i) := h.select0 d e s i
instance : Agree d e (o.select s i b) (o'.select s i b) := h.select d e s i b
end
end Dict

section Instances
variable (c : Cfg) (w : Nat)

instance vec_agree : AgreeBVM (vecBitVecMut c w) (vecBitVecMut (c.fewer kp) w) where
  base := ⟨fun _ _ _ => by unfold vecBitVecMut vecBitVec; dsimp only; agree, fun _ _ _ => Agree.refl _,
    fun _ _ _ _ => by unfold vecBitVecMut vecBitVec; dsimp only; agree, fun _ _ _ _ => Agree.refl _,
    fun _ _ _ _ _ => by unfold vecBitVecMut vecBitVec; dsimp only; agree⟩
  setBit := fun _ _ _ _ _ => by unfold vecBitVecMut vecBitVec; dsimp only; agree
  setBlock := fun _ _ _ _ _ => Agree.refl _
  setBits := fun _ _ _ _ _ _ => by unfold vecBitVecMut vecBitVec; dsimp only; agree

instance vec_agree_read : AgreeBV (vecBitVec c w) (vecBitVec (c.fewer kp) w) := (vec_agree c w).base

instance boolVec_agree : AgreeBVP (boolVecBitVecPush c) (boolVecBitVecPush (c.fewer kp)) where
  base := {
    base := ⟨fun _ _ _ => Agree.refl _,
      fun _ _ _ => by unfold boolVecBitVecPush boolVecBitVecMut boolVecBitVec; dsimp only; agree,
      fun _ _ _ _ => Agree.refl _,
      fun _ _ _ _ => by unfold boolVecBitVecPush boolVecBitVecMut boolVecBitVec; dsimp only; agree,
      fun _ _ _ _ _ => by unfold boolVecBitVecPush boolVecBitVecMut boolVecBitVec; dsimp only; agree⟩
    setBit := fun _ _ _ _ _ => Agree.refl _
    setBlock := fun _ _ _ _ _ => by unfold boolVecBitVecPush boolVecBitVecMut boolVecBitVec; dsimp only; agree
    setBits := fun _ _ _ _ _ _ => by unfold boolVecBitVecPush boolVecBitVecMut boolVecBitVec; dsimp only; agree }
  pushBit := fun _ _ _ _ => Agree.refl _
  popBit := fun _ _ _ => Agree.refl _
  alignBlock := fun _ _ _ _ => by unfold boolVecBitVecPush boolVecBitVecMut boolVecBitVec; dsimp only; agree
  pushBlock := fun _ _ _ _ => by unfold boolVecBitVecPush boolVecBitVecMut boolVecBitVec; dsimp only; agree

instance prim_agree : AgreeBVM (primBitVecMut c w) (primBitVecMut (c.fewer kp) w) where
  base := ⟨fun _ _ _ => Agree.refl _, fun _ _ _ => Agree.refl _,
    fun _ _ _ _ => by unfold primBitVecMut primBitVec; dsimp only; agree, fun _ _ _ _ => Agree.refl _,
    fun _ _ _ _ _ => by unfold primBitVecMut primBitVec; dsimp only; agree⟩
  setBit := fun _ _ _ _ _ => by unfold primBitVecMut primBitVec; dsimp only; agree
  setBlock := fun _ _ _ _ _ => Agree.refl _
  setBits := fun _ _ _ _ _ _ => by unfold primBitVecMut primBitVec; dsimp only; agree

instance prim_agree_read : AgreeBV (primBitVec c w) (primBitVec (c.fewer kp) w) := (prim_agree c w).base

end Instances

section VectorBase
variable (c : Cfg) {w : Nat} (s : VB w) (eb i n : Nat) (b : Bool) (x : BitVec w)
instance : Agree d e (lenToBlockLen c w eb n) (lenToBlockLen (c.fewer kp) w eb n) := by unfold lenToBlockLen; agree
instance : Agree d e (VB.clearExtraBits c s eb) (VB.clearExtraBits (c.fewer kp) s eb) := by unfold VB.clearExtraBits; agree
instance : Agree d e (VB.setLenFromBlocks c s eb) (VB.setLenFromBlocks (c.fewer kp) s eb) := by unfold VB.setLenFromBlocks; agree
instance : Agree d e (VB.withCapacity c w eb n) (VB.withCapacity (c.fewer kp) w eb n) := by unfold VB.withCapacity; agree
instance : Agree d e (VB.blockWithFill c eb n x) (VB.blockWithFill (c.fewer kp) eb n x) := by unfold VB.blockWithFill; agree
instance : Agree d e (VB.setBlock c s eb i x) (VB.setBlock (c.fewer kp) s eb i x) := by unfold VB.setBlock; agree
instance : Agree d e (VB.getBits c s eb i n) (VB.getBits (c.fewer kp) s eb i n) := by unfold VB.getBits; agree
instance : Agree d e (VB.setBits c s eb i n x) (VB.setBits (c.fewer kp) s eb i n x) := by unfold VB.setBits; agree
instance : Agree d e (VB.withFill c eb n x) (VB.withFill (c.fewer kp) eb n x) := by unfold VB.withFill; agree
instance : Agree d e (VB.getBit c s i) (VB.getBit (c.fewer kp) s i) := by unfold VB.getBit; agree
instance : Agree d e (VB.setBit c s i b) (VB.setBit (c.fewer kp) s i b) := by unfold VB.setBit; agree
instance : Agree d e (VB.pushBlock c s eb x) (VB.pushBlock (c.fewer kp) s eb x) := by unfold VB.pushBlock; agree
instance : Agree d e (VB.popBlock c s eb) (VB.popBlock (c.fewer kp) s eb) := by unfold VB.popBlock; agree
instance : Agree d e (VB.pushBits c s eb x) (VB.pushBits (c.fewer kp) s eb x) := by unfold VB.pushBits; agree
instance : Agree d e (VB.popBits c s eb) (VB.popBits (c.fewer kp) s eb) := by unfold VB.popBits; agree
instance : Agree d e (VB.pushBit c s b) (VB.pushBit (c.fewer kp) s b) := by unfold VB.pushBit; agree
instance : Agree d e (VB.popBit c s) (VB.popBit (c.fewer kp) s) := by unfold VB.popBit; agree
instance : Agree d e (VB.blockTruncate c s eb n) (VB.blockTruncate (c.fewer kp) s eb n) := by unfold VB.blockTruncate; agree
instance : Agree d e (VB.truncate c s eb n) (VB.truncate (c.fewer kp) s eb n) := by unfold VB.truncate; agree
instance : Agree d e (VB.blockResize c s eb n x) (VB.blockResize (c.fewer kp) s eb n x) := by unfold VB.blockResize; agree
instance : Agree d e (VB.resize c s eb n x) (VB.resize (c.fewer kp) s eb n x) := by unfold VB.resize; agree
instance : Agree d e (BV.withCapacity c w n) (BV.withCapacity (c.fewer kp) w n) := by unfold BV.withCapacity; agree
instance : Agree d e (BV.blockWithFill c n x) (BV.blockWithFill (c.fewer kp) n x) := by unfold BV.blockWithFill; agree
instance : Agree d e (BV.withFill c w n b) (BV.withFill (c.fewer kp) w n b) := by unfold BV.withFill; agree
instance : Agree d e (BV.blockResize c s n x) (BV.blockResize (c.fewer kp) s n x) := by unfold BV.blockResize; agree
instance : Agree d e (BV.resize c s n b) (BV.resize (c.fewer kp) s n b) := by unfold BV.resize; agree
instance : Agree d e (BV.truncate c s n) (BV.truncate (c.fewer kp) s n) := by unfold BV.truncate; agree
instance : Agree d e (BV.blockTruncate c s n) (BV.blockTruncate (c.fewer kp) s n) := by unfold BV.blockTruncate; agree
end VectorBase

instance bv_agree (c : Cfg) (w : Nat) : AgreeBVP (bvBitVecPush c w) (bvBitVecPush (c.fewer kp) w) where
  base := {
    base := ⟨fun _ _ _ => Agree.refl _, fun _ _ _ => by unfold bvBitVecPush bvBitVecMut bvBitVec; dsimp only; agree,
      fun _ _ _ _ => by unfold bvBitVecPush bvBitVecMut bvBitVec; dsimp only; agree, fun _ _ _ _ => Agree.refl _,
      fun _ _ _ _ _ => by unfold bvBitVecPush bvBitVecMut bvBitVec; dsimp only; agree⟩
    setBit := fun _ _ _ _ _ => by unfold bvBitVecPush bvBitVecMut bvBitVec; dsimp only; agree
    setBlock := fun _ _ _ _ _ => by unfold bvBitVecPush bvBitVecMut bvBitVec; dsimp only; agree
    setBits := fun _ _ _ _ _ _ => by unfold bvBitVecPush bvBitVecMut bvBitVec; dsimp only; agree }
  pushBit := fun _ _ _ _ => by unfold bvBitVecPush bvBitVecMut bvBitVec; dsimp only; agree
  popBit := fun _ _ _ => by unfold bvBitVecPush bvBitVecMut bvBitVec; dsimp only; agree
  alignBlock := fun _ _ _ _ => by unfold bvBitVecPush bvBitVecMut bvBitVec; dsimp only; agree
  pushBlock := fun _ _ _ _ => by unfold bvBitVecPush bvBitVecMut bvBitVec; dsimp only; agree

section IntVector
variable (c : Cfg) {w : Nat} (s : IV w) (eb i j n : Nat) (x : BitVec w)
instance : Agree d e (IV.checkValueRandom c eb x) (IV.checkValueRandom (c.fewer kp) eb x) := by unfold IV.checkValueRandom; agree
instance : Agree d e (IV.checkValue c s x) (IV.checkValue (c.fewer kp) s x) := by unfold IV.checkValue; agree
instance : Agree d e (IV.withCapacity c w eb n) (IV.withCapacity (c.fewer kp) w eb n) := by unfold IV.withCapacity; agree
instance : Agree d e (IV.withFill c eb n x) (IV.withFill (c.fewer kp) eb n x) := by unfold IV.withFill; agree
instance : Agree d e (IV.blockWithFill c eb n x) (IV.blockWithFill (c.fewer kp) eb n x) := by unfold IV.blockWithFill; agree
instance : Agree d e (IV.getRandom c s i eb j) (IV.getRandom (c.fewer kp) s i eb j) := by unfold IV.getRandom; agree
instance : Agree d e (IV.setRandom c s i eb j x) (IV.setRandom (c.fewer kp) s i eb j x) := by unfold IV.setRandom; agree
instance : Agree d e (IV.push c s x) (IV.push (c.fewer kp) s x) := by unfold IV.push; agree
instance : Agree d e (IV.pop c s) (IV.pop (c.fewer kp) s) := by unfold IV.pop; agree
instance : Agree d e (IV.resize c s n x) (IV.resize (c.fewer kp) s n x) := by unfold IV.resize; agree
instance : Agree d e (IV.blockResize c s n x) (IV.blockResize (c.fewer kp) s n x) := by unfold IV.blockResize; agree
instance : Agree d e (IV.truncate c s n) (IV.truncate (c.fewer kp) s n) := by unfold IV.truncate; agree
instance : Agree d e (IV.blockTruncate c s n) (IV.blockTruncate (c.fewer kp) s n) := by unfold IV.blockTruncate; agree
instance : Agree d e (IV.get c s i) (IV.get (c.fewer kp) s i) := by unfold IV.get; agree
instance : Agree d e (IV.set c s i x) (IV.set (c.fewer kp) s i x) := by unfold IV.set; agree
instance : Agree d e (IV.setBlock c s i x) (IV.setBlock (c.fewer kp) s i x) := by unfold IV.setBlock; agree
end IntVector

instance iv_agree (c : Cfg) (w : Nat) : AgreeBVM (ivBitVecMut c w) (ivBitVecMut (c.fewer kp) w) where
  base := ⟨fun _ _ _ => by unfold ivBitVecMut ivBitVec; dsimp only; agree, fun _ _ _ => Agree.refl _,
    fun _ _ _ _ => by unfold ivBitVecMut ivBitVec; dsimp only; agree, fun _ _ _ _ => Agree.refl _,
    fun _ _ _ _ _ => by unfold ivBitVecMut ivBitVec; dsimp only; agree⟩
  setBit := fun _ _ _ _ _ => by unfold ivBitVecMut ivBitVec; dsimp only; agree
  setBlock := fun _ _ _ _ _ => by unfold ivBitVecMut ivBitVec; dsimp only; agree
  setBits := fun _ _ _ _ _ _ => by unfold ivBitVecMut ivBitVec; dsimp only; agree

section Iter
variable (c : Cfg) {w : Nat} (it : VIter w) (n : Nat)
instance : Agree d e (VIter.next c it) (VIter.next (c.fewer kp) it) := by unfold VIter.next; agree
instance : Agree d e (VIter.len c it) (VIter.len (c.fewer kp) it) := by unfold VIter.len; agree
instance : Agree d e (VIter.sizeHint c it) (VIter.sizeHint (c.fewer kp) it) := by
  unfold VIter.sizeHint; simp only [fewer_ptr]; cases c.ptr <;> dsimp only <;> agree
instance : Agree d e (VIter.count c it) (VIter.count (c.fewer kp) it) := by unfold VIter.count; agree
instance : Agree d e (VIter.nextBack c it) (VIter.nextBack (c.fewer kp) it) := by unfold VIter.nextBack; agree
instance : Agree d e (VIter.last c it) (VIter.last (c.fewer kp) it) := by unfold VIter.last; agree
instance : Agree d e (VIter.nth c it n) (VIter.nth (c.fewer kp) it n) := by unfold VIter.nth; agree
instance forEach_agree (acc : α) (f : α → BitVec w → Res α) :
    Agree d e (VIter.forEach c it acc f) (VIter.forEach (c.fewer kp) it acc f) := by
  apply Agree.both
  · apply VIter.forEach.fixpoint_induct c f
      (fun g => ∀ it acc, Agree true false (g it acc) (VIter.forEach (c.fewer kp) it acc f)) (Agree.adm2 _)
    intro g ih it acc
    rw [VIter.forEach]
    agree
  · apply VIter.forEach.fixpoint_induct (c.fewer kp) f
      (fun g => ∀ it acc, Agree false true (VIter.forEach c it acc f) (g it acc)) (Agree.adm2' _)
    intro g ih it acc
    rw [VIter.forEach]
    agree
instance (s : VB w) : Agree d e (BV.fmtBinary c s) (BV.fmtBinary (c.fewer kp) s) := by unfold BV.fmtBinary; agree
instance (s : IV w) : Agree d e (IV.fmtDebug c s) (IV.fmtDebug (c.fewer kp) s) := by unfold IV.fmtDebug; agree
end Iter

section Slice
variable (c : Cfg) {w : Nat} {S : Type} (s : Slice S) (r : RangeArg) (i n : Nat) (b : Bool) (x : BitVec w)
instance {o o' : BitVecOps w S} [AgreeBV o o'] (v : S) : Agree d e (Slice.new o v r) (Slice.new o' v r) := by unfold Slice.new; agree
instance : Agree d e (Slice.slice c s r) (Slice.slice (c.fewer kp) s r) := by unfold Slice.slice; agree
section
variable {o o' : BitVecOps w S} [AgreeBV o o']
instance : Agree d e (Slice.getBit c o s i) (Slice.getBit (c.fewer kp) o' s i) := by unfold Slice.getBit; agree
instance : Agree d e (Slice.getBits c o s i n) (Slice.getBits (c.fewer kp) o' s i n) := by unfold Slice.getBits; agree
instance : Agree d e (Slice.getBlock c o s i) (Slice.getBlock (c.fewer kp) o' s i) := by unfold Slice.getBlock; agree
end
section
variable {o o' : BitVecMutOps w S} [AgreeBVM o o']
instance : Agree d e (Slice.setBit c o s i b) (Slice.setBit (c.fewer kp) o' s i b) := by unfold Slice.setBit; agree
instance : Agree d e (Slice.setBits c o s i n x) (Slice.setBits (c.fewer kp) o' s i n x) := by unfold Slice.setBits; agree
instance : Agree d e (Slice.setBlock c o s i x) (Slice.setBlock (c.fewer kp) o' s i x) := by unfold Slice.setBlock; agree
end
instance slice_agree_read {o o' : BitVecOps w S} [AgreeBV o o'] : AgreeBV (sliceBitVec c o) (sliceBitVec (c.fewer kp) o') :=
  ⟨fun _ _ _ => Agree.refl _, fun _ _ _ => by unfold sliceBitVec; dsimp only; agree,
    fun _ _ _ _ => by unfold sliceBitVec; dsimp only; agree, fun _ _ _ _ => by unfold sliceBitVec; dsimp only; agree,
    fun _ _ _ _ _ => by unfold sliceBitVec; dsimp only; agree⟩
instance slice_agree {o o' : BitVecMutOps w S} [AgreeBVM o o'] : AgreeBVM (sliceBitVecMut c o) (sliceBitVecMut (c.fewer kp) o') where
  base := slice_agree_read c
  setBit := fun _ _ _ _ _ => by unfold sliceBitVecMut; dsimp only; agree
  setBlock := fun _ _ _ _ _ => by unfold sliceBitVecMut; dsimp only; agree
  setBits := fun _ _ _ _ _ _ => by unfold sliceBitVecMut; dsimp only; agree
end Slice

section Rank
variable (c : Cfg) {w : Nat} {S : Type} (i : Nat)
instance {rank1 rank1' : S → Nat → Res Nat} [∀ s p, Agree d e (rank1 s p) (rank1' s p)] (s : S) :
    Agree d e (dfltRank0 c rank1 s i) (dfltRank0 (c.fewer kp) rank1' s i) := by unfold dfltRank0; agree
instance rankOps_agree {limit limit' : S → Res Nat} {rank1 rank1' : S → Nat → Res Nat} [∀ d e s, Agree d e (limit s) (limit' s)]
    [∀ d e s p, Agree d e (rank1 s p) (rank1' s p)] : AgreeRank (rankOps c limit rank1) (rankOps (c.fewer kp) limit' rank1') :=
  ⟨fun _ _ _ _ _ => by unfold rankOps; dsimp only; agree, fun _ _ _ => by unfold rankOps; dsimp only; agree,
    fun _ _ _ _ => by unfold rankOps; dsimp only; agree, fun _ _ _ _ => by unfold rankOps; dsimp only; agree⟩
instance (x : BitVec w) : Agree d e (primRank1 c x i) (primRank1 (c.fewer kp) x i) := by unfold primRank1; agree
instance primRank_agree : AgreeRank (primRank c w) (primRank (c.fewer kp) w) := rankOps_agree c

variable {o o' : BitVecOps w S} [AgreeBV o o'] (bits : S)
instance (n : Nat) (l : Jacobson.Loop) : Agree d e (Jacobson.step c o bits n i l) (Jacobson.step (c.fewer kp) o' bits n i l) := by
  unfold Jacobson.step; agree
instance jacobson_new_agree : Agree d e (Jacobson.new c o bits) (Jacobson.new (c.fewer kp) o' bits) := by
  unfold Jacobson.new; agree
instance (s : Jacobson S) : Agree d e (Jacobson.rank1 c o s i) (Jacobson.rank1 (c.fewer kp) o' s i) := by
  unfold Jacobson.rank1; agree
instance jacobson_agree : AgreeRank (Jacobson.ops c o) (Jacobson.ops (c.fewer kp) o') := rankOps_agree c
end Rank

section Rank9
variable (c : Cfg) {S : Type} {o o' : BitVecOps 64 S} [AgreeBV o o'] (bits : S) (l : BitVec 64) (i t : Nat) (x : BitVec 64)
instance level2Shift_agree : Agree d e (Rank9.level2Shift c t) (Rank9.level2Shift (c.fewer kp) t) :=
  have h (u : Nat) : Agree d e (mulN c c.usz u 9) (mulN (c.fewer kp) c.usz u 9) := inferInstance
  h _
instance : Agree d e (Rank9.level2Get c l t) (Rank9.level2Get (c.fewer kp) l t) := by unfold Rank9.level2Get; agree
instance : Agree d e (Rank9.level2Set c l t x) (Rank9.level2Set (c.fewer kp) l t x) := by unfold Rank9.level2Set; agree
instance (l : Rank9.Loop) : Agree d e (Rank9.storeCounts c i l) (Rank9.storeCounts (c.fewer kp) i l) := by unfold Rank9.storeCounts; agree
instance (l : Rank9.Loop) : Agree d e (Rank9.step c o bits i l) (Rank9.step (c.fewer kp) o' bits i l) := by unfold Rank9.step; agree
instance rank9_new_agree : Agree d e (Rank9.new c o bits) (Rank9.new (c.fewer kp) o' bits) := by unfold Rank9.new; agree
instance (s : Rank9 S) : Agree d e (Rank9.rank1 c o s i) (Rank9.rank1 (c.fewer kp) o' s i) := by unfold Rank9.rank1; agree
instance rank9_agree : AgreeRank (Rank9.ops c o) (Rank9.ops (c.fewer kp) o') := rankOps_agree c
end Rank9

instance adaptBitVec_agree {o o' : BitVecOps w S} [h : AgreeBV o o'] (field : T → S) : AgreeBV (adaptBitVec field o) (adaptBitVec field o') :=
  ⟨fun _ _ _ => h.bitLen _ _ _, fun _ _ _ => h.blockLen _ _ _, fun _ _ _ _ => h.getBit _ _ _ _,
    fun _ _ _ _ => h.getBlock _ _ _ _, fun _ _ _ _ _ => h.getBits _ _ _ _ _⟩
instance adaptRank_agree {r r' : RankOps S} [h : AgreeRank r r'] (field : T → S) : AgreeRank (adaptRank field r) (adaptRank field r') :=
  ⟨fun _ _ _ _ _ => h.rank _ _ _ _ _, fun _ _ _ => h.limit _ _ _, fun _ _ _ _ => h.rank1 _ _ _ _, fun _ _ _ _ => h.rank0 _ _ _ _⟩
instance adaptSelect_agree {r r' : SelectOps S} [h : AgreeSelect r r'] (field : T → S) :
    AgreeSelect (adaptSelect field r) (adaptSelect field r') :=
  ⟨fun _ _ _ _ => h.select1 _ _ _ _, fun _ _ _ _ => h.select0 _ _ _ _, fun _ _ _ _ _ => h.select _ _ _ _ _⟩

section Select
variable (c : Cfg) (n x y : Nat)
instance : Agree d e (average c n x y) (average (c.fewer kp) n x y) := by unfold average; agree
theorem searchLoop_agree {f g : Nat → Res Nat} (h : ∀ d e i, Agree d e (f i) (g i)) (value start limit : Nat) :
    Agree d e (searchLoop c n f value start limit) (searchLoop (c.fewer kp) n g value start limit) := by
  apply Agree.both
  · apply searchLoop.fixpoint_induct c n f value
      (fun k => ∀ a b, Agree true false (k a b) (searchLoop (c.fewer kp) n g value a b)) (Agree.adm2 _)
    intro k ih a b
    rw [searchLoop]
    agree
  · apply searchLoop.fixpoint_induct (c.fewer kp) n g value
      (fun k => ∀ a b, Agree false true (searchLoop c n f value a b) (k a b)) (Agree.adm2' _)
    intro k ih a b
    rw [searchLoop]
    agree
instance binarySearch_agree {f g : Nat → Res Nat} [h : ∀ d e i, Agree d e (f i) (g i)] (start limit value : Nat) :
    Agree d e (binarySearch c n start limit value f) (binarySearch (c.fewer kp) n start limit value g) := by
  have := fun v a b => searchLoop_agree (kp := kp) (d := d) (e := e) c n h v a b
  unfold binarySearch; agree
instance binSearch_agree {r r' : RankOps S} [AgreeRank r r'] :
    AgreeSelect (BinSearchSelect.ops c r) (BinSearchSelect.ops (c.fewer kp) r') :=
  ⟨fun _ _ _ _ => by
      unfold BinSearchSelect.ops BinSearchSelect.select1 BinSearchSelect.selectBy BinSearchSelect.rankOps; dsimp only; agree,
    fun _ _ _ _ => by
      unfold BinSearchSelect.ops BinSearchSelect.select0 BinSearchSelect.selectBy BinSearchSelect.rankOps; dsimp only; agree,
    fun _ _ _ _ _ => by
      unfold BinSearchSelect.ops BinSearchSelect.select BinSearchSelect.selectBy BinSearchSelect.rankOps; dsimp only; agree⟩
instance binSearch_rank_agree {r r' : RankOps S} [AgreeRank r r'] :
    AgreeRank (BinSearchSelect.rankOps r) (BinSearchSelect.rankOps r') := adaptRank_agree BinSearchSelect.rankSupport
end Select

section Broadword
variable (c : Cfg) (x y : BitVec 64) (r : Nat)
instance : Agree d e (bwCountOnes c x) (bwCountOnes (c.fewer kp) x) := by unfold bwCountOnes; agree
instance : Agree d e (uLe8 c x y) (uLe8 (c.fewer kp) x y) := by unfold uLe8; agree
instance : Agree d e (le8 c x y) (le8 (c.fewer kp) x y) := by unfold le8; agree
instance : Agree d e (uNz8 c x) (uNz8 (c.fewer kp) x) := by unfold uNz8; agree
instance : Agree d e (select1Raw c r x) (select1Raw (c.fewer kp) r x) := by unfold select1Raw; agree
instance : Agree d e (bwSelect1 c r x) (bwSelect1 (c.fewer kp) r x) := by unfold bwSelect1; agree
instance : Agree d e (bwRank1 c x r) (bwRank1 (c.fewer kp) x r) := by unfold bwRank1; agree
instance : Agree d e (bwSelectSupport c x r) (bwSelectSupport (c.fewer kp) x r) := by unfold bwSelectSupport; agree
instance bwRank_agree : AgreeRank (bwRank c) (bwRank (c.fewer kp)) := rankOps_agree c
end Broadword

/-! ### Streams and codes -/

namespace AgreeS

theorem run {x y : SM σ α} (h : AgreeS d e x y) (s : σ) : Agree d e (x s) (y s) := h.out s

instance refl (x : SM σ α) : AgreeS d e x x := ⟨fun _ => inferInstance⟩

theorem bind' {x y : SM σ α} {f g : α → SM σ β} (h : AgreeS d e x y) (h' : ∀ a, AgreeS d e (f a) (g a)) :
    AgreeS d e (x >>= f) (y >>= g) := by
  refine ⟨fun s => Agree.bind' (h.out s) (fun r => ?_)⟩
  rcases r with ⟨r | r, s⟩
  · exact Agree.refl _
  · exact (h' r).out s

instance bind {x y : SM σ α} {f g : α → SM σ β} [h : AgreeS d e x y] [h' : ∀ a, AgreeS d e (f a) (g a)] :
    AgreeS d e (x >>= f) (y >>= g) := bind' h h'

instance ite {p : Prop} [Decidable p] {x y x' y' : SM σ α} [h : AgreeS d e x y] [h' : AgreeS d e x' y'] :
    AgreeS d e (if p then x else x') (if p then y else y') := by
  split <;> assumption

instance lift {x y : Res α} [h : Agree d e x y] : AgreeS (σ := σ) d e (SM.lift x) (SM.lift y) := by
  refine ⟨fun s => ?_⟩
  unfold SM.lift
  exact Agree.bind' h (fun _ => Agree.refl _)

end AgreeS

/-- Assemble an agreement proof for a method of a stream. -/
macro "agreeS" : tactic => `(tactic|
  ((try simp only [fewer_usz, fewer_ptr, fewer_asUsize, fewer_toUsize])
   repeat' (first | infer_instance | refine AgreeS.bind' ?_ (fun _ => ?_) | refine AgreeS.lift (h := ?_) |
     refine Agree.bind' ?_ (fun _ => ?_) | (intro _) | split)))

/-- Two sources of bits agree. -/
class AgreeRd (R R' : BitRead σ) : Prop where
  readBit : ∀ d e, AgreeS d e R.readBit R'.readBit

/-- Two sinks of bits agree. -/
class AgreeWr (W W' : BitWrite σ) : Prop where
  writeBit : ∀ d e b, AgreeS d e (W.writeBit b) (W'.writeBit b)

instance {R R' : BitRead σ} [h : AgreeRd R R'] : AgreeS d e R.readBit R'.readBit := h.readBit d e
instance {W W' : BitWrite σ} [h : AgreeWr W W'] (b : Bool) : AgreeS d e (W.writeBit b) (W'.writeBit b) := h.writeBit d e b
instance AgreeRd.refl (R : BitRead σ) : AgreeRd R R := ⟨fun _ _ => inferInstance⟩
instance AgreeWr.refl (W : BitWrite σ) : AgreeWr W W := ⟨fun _ _ _ => inferInstance⟩

/-- Two codes agree. -/
class AgreeCode (K K' : Code) : Prop where
  encode : ∀ {σ : Type} (W W' : BitWrite σ) [AgreeWr W W'] d e v, AgreeS d e (K.encode W v) (K'.encode W' v)
  decode : ∀ {σ : Type} (R R' : BitRead σ) [AgreeRd R R'] d e, AgreeS d e (K.decode R) (K'.decode R')

section Stream
variable (c : Cfg) {w : Nat} (n k : Nat) (x y : BitVec w) (signed b : Bool)
instance : Agree d e (shrI c signed x n) (shrI (c.fewer kp) signed x n) := by unfold shrI; agree
section
variable {R R' : BitRead σ} [AgreeRd R R']
instance readIntLoop_agree : AgreeS d e (readIntLoop c R n x y b) (readIntLoop (c.fewer kp) R' n x y b) := by
  induction n generalizing x y b with
  | zero => exact AgreeS.refl _
  | succ n ih => unfold readIntLoop; agreeS
instance : AgreeS d e (readInt c R w n) (readInt (c.fewer kp) R' w n) := by unfold readInt; agreeS
instance readIntBeLoop_agree : AgreeS d e (readIntBeLoop c R n x b) (readIntBeLoop (c.fewer kp) R' n x b) := by
  induction n generalizing x b with
  | zero => exact AgreeS.refl _
  | succ n ih => unfold readIntBeLoop; agreeS
instance : AgreeS d e (readIntBe c R w n) (readIntBe (c.fewer kp) R' w n) := by unfold readIntBe; agreeS
end
section
variable {W W' : BitWrite σ} [AgreeWr W W']
instance writeIntLoop_agree : AgreeS d e (writeIntLoop c signed W n x) (writeIntLoop (c.fewer kp) signed W' n x) := by
  induction n generalizing x with
  | zero => exact AgreeS.refl _
  | succ n ih => unfold writeIntLoop; agreeS
instance : AgreeS d e (writeInt c signed W n x) (writeInt (c.fewer kp) signed W' n x) := by unfold writeInt; agreeS
instance writeIntBeLoop_agree : AgreeS d e (writeIntBeLoop c signed W x n y) (writeIntBeLoop (c.fewer kp) signed W' x n y) := by
  induction n generalizing y with
  | zero => exact AgreeS.refl _
  | succ n ih => unfold writeIntBeLoop; agreeS
instance : AgreeS d e (writeIntBe c signed W n x) (writeIntBe (c.fewer kp) signed W' n x) := by unfold writeIntBe; agreeS
instance popBits_agree (l : List Bool) : AgreeS d e (popBits W l) (popBits W' l) := by
  induction l with
  | nil => exact AgreeS.refl _
  | cons b l ih => unfold popBits; agreeS
end
end Stream

namespace BitBuf
variable (c : Cfg) {w : Nat} {S : Type} (s : BitBuf S) (n : Nat)
instance : Agree d e (withCapacity c w n) (withCapacity (c.fewer kp) w n) := by unfold withCapacity; agree
instance : Agree d e (new c w) (new (c.fewer kp) w) := by unfold new; agree
instance {o o' : BitVecOps w S} [AgreeBV o o'] (v : S) : Agree d e (append o v) (append o' v) := by unfold append; agree
instance {o o' : BitVecOps w S} [AgreeBV o o'] : AgreeS d e (seek o n) (seek o' n) := ⟨fun _ => by unfold seek; agree⟩
instance agree_bitVec {o o' : BitVecOps w S} [h : AgreeBV o o'] : AgreeBV (bitVec c o) (bitVec (c.fewer kp) o') :=
  ⟨fun _ _ _ => h.bitLen _ _ _, fun _ _ _ => h.blockLen _ _ _, fun _ _ _ _ => by unfold bitVec; dsimp only; agree,
    fun _ _ _ _ => h.getBlock _ _ _ _, fun _ _ _ _ _ => by unfold bitVec; dsimp only; agree⟩
instance agree_bitVecMut {o o' : BitVecMutOps w S} [h : AgreeBVM o o'] : AgreeBVM (bitVecMut c o) (bitVecMut (c.fewer kp) o') where
  base := agree_bitVec c
  setBit := fun _ _ _ _ _ => by unfold bitVecMut bitVec; dsimp only; agree
  setBlock := fun _ _ _ _ _ => by unfold bitVecMut bitVec; dsimp only; agree
  setBits := fun _ _ _ _ _ _ => by unfold bitVecMut bitVec; dsimp only; agree
instance agree_read {o o' : BitVecOps w S} [AgreeBV o o'] : AgreeRd (read c o) (read (c.fewer kp) o') :=
  ⟨fun _ _ => ⟨fun _ => by unfold read; dsimp only; agree⟩⟩
instance pad_agree {o o' : BitVecPushOps w S} [AgreeBVP o o'] : Agree d e (pad c o s) (pad (c.fewer kp) o' s) := by
  apply Agree.both
  · apply pad.fixpoint_induct c o (fun k => ∀ s, Agree true false (k s) (pad (c.fewer kp) o' s)) (Agree.adm1 _)
    intro k ih s
    rw [pad]
    agree
  · apply pad.fixpoint_induct (c.fewer kp) o' (fun k => ∀ s, Agree false true (pad c o s) (k s)) (Agree.adm1' _)
    intro k ih s
    rw [pad]
    agree
instance agree_write {o o' : BitVecPushOps w S} [AgreeBVP o o'] : AgreeWr (write c o) (write (c.fewer kp) o') :=
  ⟨fun _ _ _ => ⟨fun _ => by unfold write; dsimp only; agree⟩⟩
end BitBuf

section Codes
variable (c : Cfg) (n m : Nat) (b : Bool)

section Unary
variable {R R' : BitRead σ} [AgreeRd R R'] {W W' : BitWrite σ} [AgreeWr W W']
instance unary_encode_agree : AgreeS d e (Unary.encode W n) (Unary.encode W' n) := by
  induction n with
  | zero => unfold Unary.encode; agreeS
  | succ n ih => unfold Unary.encode; agreeS
instance unary_decodeLoop_agree : AgreeS d e (Unary.decodeLoop c R n b) (Unary.decodeLoop (c.fewer kp) R' n b) := by
  refine ⟨fun s => Agree.both ?_ ?_⟩
  · apply Unary.decodeLoop.fixpoint_induct c R
      (fun k => ∀ n b s, Agree true false (k n b s) (Unary.decodeLoop (c.fewer kp) R' n b s)) (Agree.adm3 _)
    intro k ih n b s
    have h (n) (b) : AgreeS true false (k n b) (Unary.decodeLoop (c.fewer kp) R' n b) := ⟨ih n b⟩
    refine AgreeS.run ?_ s
    rw [Unary.decodeLoop]
    agreeS
  · apply Unary.decodeLoop.fixpoint_induct (c.fewer kp) R'
      (fun k => ∀ n b s, Agree false true (Unary.decodeLoop c R n b s) (k n b s)) (Agree.adm3' _)
    intro k ih n b s
    have h (n) (b) : AgreeS false true (Unary.decodeLoop c R n b) (k n b) := ⟨ih n b⟩
    refine AgreeS.run ?_ s
    rw [Unary.decodeLoop]
    agreeS
end Unary
instance unary_agree : AgreeCode (unary c) (unary (c.fewer kp)) :=
  ⟨fun _ _ _ _ _ _ => by unfold unary; dsimp only; agreeS, fun _ _ _ _ _ => by unfold unary Unary.decode; dsimp only; agreeS⟩

section
variable {K K' : Code} [h : AgreeCode K K']
instance {R R' : BitRead σ} [AgreeRd R R'] : AgreeS d e (K.decode R) (K'.decode R') := h.decode R R' d e
instance {W W' : BitWrite σ} [AgreeWr W W'] : AgreeS d e (K.encode W n) (K'.encode W' n) := h.encode W W' d e n
instance elias_agree : AgreeCode (elias c K) (elias (c.fewer kp) K') :=
  ⟨fun _ _ _ _ _ _ => by unfold elias Elias.encode; dsimp only; agreeS,
    fun _ _ _ _ _ => by unfold elias Elias.decode; dsimp only; agreeS⟩
instance lift0_agree : AgreeCode (lift0 c K) (lift0 (c.fewer kp) K') :=
  ⟨fun _ _ _ _ _ _ => by unfold lift0 Lift0.encode; dsimp only; agreeS,
    fun _ _ _ _ _ => by unfold lift0 Lift0.decode; dsimp only; agreeS⟩
end
instance gamma_agree : AgreeCode (gamma c) (gamma (c.fewer kp)) := elias_agree c
instance delta_agree : AgreeCode (delta c) (delta (c.fewer kp)) := elias_agree c

section Omega
variable {R R' : BitRead σ} [AgreeRd R R'] {W W' : BitWrite σ} [AgreeWr W W']
instance omega_push_agree (l : List (Nat × Nat)) : Agree d e (Omega.push c l n) (Omega.push (c.fewer kp) l n) := by
  apply Agree.both
  · apply Omega.push.fixpoint_induct c (fun k => ∀ l n, Agree true false (k l n) (Omega.push (c.fewer kp) l n)) (Agree.adm2 _)
    intro k ih l n
    rw [Omega.push]
    agree
  · apply Omega.push.fixpoint_induct (c.fewer kp) (fun k => ∀ l n, Agree false true (Omega.push c l n) (k l n)) (Agree.adm2' _)
    intro k ih l n
    rw [Omega.push]
    agree
instance omega_pop_agree (l : List (Nat × Nat)) : AgreeS d e (Omega.pop c W l) (Omega.pop (c.fewer kp) W' l) := by
  induction l with
  | nil => exact AgreeS.refl _
  | cons b l ih => unfold Omega.pop; agreeS
instance omega_decodeLoop_agree : AgreeS d e (Omega.decodeLoop c R n) (Omega.decodeLoop (c.fewer kp) R' n) := by
  refine ⟨fun s => Agree.both ?_ ?_⟩
  · apply Omega.decodeLoop.fixpoint_induct c R
      (fun k => ∀ n s, Agree true false (k n s) (Omega.decodeLoop (c.fewer kp) R' n s)) (Agree.adm2 _)
    intro k ih n s
    have h (n) : AgreeS true false (k n) (Omega.decodeLoop (c.fewer kp) R' n) := ⟨ih n⟩
    refine AgreeS.run ?_ s
    rw [Omega.decodeLoop]
    agreeS
  · apply Omega.decodeLoop.fixpoint_induct (c.fewer kp) R'
      (fun k => ∀ n s, Agree false true (Omega.decodeLoop c R n s) (k n s)) (Agree.adm2' _)
    intro k ih n s
    have h (n) : AgreeS false true (Omega.decodeLoop c R n) (k n) := ⟨ih n⟩
    refine AgreeS.run ?_ s
    rw [Omega.decodeLoop]
    agreeS
end Omega
instance omega_agree : AgreeCode (omegaCode c) (omegaCode (c.fewer kp)) :=
  ⟨fun _ _ _ _ _ _ => by unfold omegaCode Omega.encode; dsimp only; agreeS,
    fun _ _ _ _ _ => by unfold omegaCode Omega.decode; dsimp only; agreeS⟩

section Comma
variable {R R' : BitRead σ} [AgreeRd R R'] {W W' : BitWrite σ} [AgreeWr W W'] (r : Nat)
instance : Agree d e (Comma.base c n) (Comma.base (c.fewer kp) n) := by unfold Comma.base; agree
instance comma_pop_agree (l : List Nat) : AgreeS d e (Comma.pop c W n l) (Comma.pop (c.fewer kp) W' n l) := by
  induction l with
  | nil => exact AgreeS.refl _
  | cons b l ih => unfold Comma.pop; agreeS
instance comma_decodeLoop_agree : AgreeS d e (Comma.decodeLoop c n m R r b) (Comma.decodeLoop (c.fewer kp) n m R' r b) := by
  refine ⟨fun s => Agree.both ?_ ?_⟩
  · apply Comma.decodeLoop.fixpoint_induct c n m R
      (fun k => ∀ r b s, Agree true false (k r b s) (Comma.decodeLoop (c.fewer kp) n m R' r b s)) (Agree.adm3 _)
    intro k ih r b s
    have h (r) (b) : AgreeS true false (k r b) (Comma.decodeLoop (c.fewer kp) n m R' r b) := ⟨ih r b⟩
    refine AgreeS.run ?_ s
    rw [Comma.decodeLoop]
    agreeS
  · apply Comma.decodeLoop.fixpoint_induct (c.fewer kp) n m R'
      (fun k => ∀ r b s, Agree false true (Comma.decodeLoop c n m R r b s) (k r b s)) (Agree.adm3' _)
    intro k ih r b s
    have h (r) (b) : AgreeS false true (Comma.decodeLoop c n m R r b) (k r b) := ⟨ih r b⟩
    refine AgreeS.run ?_ s
    rw [Comma.decodeLoop]
    agreeS
end Comma
instance comma_agree : AgreeCode (comma c n) (comma (c.fewer kp) n) :=
  ⟨fun _ _ _ _ _ _ => by unfold comma Comma.encode; dsimp only; agreeS,
    fun _ _ _ _ _ => by unfold comma Comma.decode; dsimp only; agreeS⟩

section Fibonacci
variable {R R' : BitRead σ} [AgreeRd R R'] {W W' : BitWrite σ} [AgreeWr W W'] (f : Fib)
instance : Agree d e (Fib.prev c f) (Fib.prev (c.fewer kp) f) := by unfold Fib.prev; agree
instance fib_descend_agree (l : List Bool) : Agree d e (Fibonacci.descend c f n l) (Fibonacci.descend (c.fewer kp) f n l) := by
  apply Agree.both
  · apply Fibonacci.descend.fixpoint_induct c
      (fun k => ∀ f n l, Agree true false (k f n l) (Fibonacci.descend (c.fewer kp) f n l)) (Agree.adm3 _)
    intro k ih f n l
    rw [Fibonacci.descend]
    agree
  · apply Fibonacci.descend.fixpoint_induct (c.fewer kp)
      (fun k => ∀ f n l, Agree false true (Fibonacci.descend c f n l) (k f n l)) (Agree.adm3' _)
    intro k ih f n l
    rw [Fibonacci.descend]
    agree
instance fib_decodeLoop_agree : AgreeS d e (Fibonacci.decodeLoop c R n f b) (Fibonacci.decodeLoop (c.fewer kp) R' n f b) := by
  refine ⟨fun s => Agree.both ?_ ?_⟩
  · apply Fibonacci.decodeLoop.fixpoint_induct c R
      (fun k => ∀ n f b s, Agree true false (k n f b s) (Fibonacci.decodeLoop (c.fewer kp) R' n f b s)) (Agree.adm4 _)
    intro k ih n f b s
    have h (n) (f) (b) : AgreeS true false (k n f b) (Fibonacci.decodeLoop (c.fewer kp) R' n f b) := ⟨ih n f b⟩
    refine AgreeS.run ?_ s
    rw [Fibonacci.decodeLoop]
    agreeS
  · apply Fibonacci.decodeLoop.fixpoint_induct (c.fewer kp) R'
      (fun k => ∀ n f b s, Agree false true (Fibonacci.decodeLoop c R n f b s) (k n f b s)) (Agree.adm4' _)
    intro k ih n f b s
    have h (n) (f) (b) : AgreeS false true (Fibonacci.decodeLoop c R n f b) (k n f b) := ⟨ih n f b⟩
    refine AgreeS.run ?_ s
    rw [Fibonacci.decodeLoop]
    agreeS
end Fibonacci
instance fibonacci_agree : AgreeCode (fibonacci c) (fibonacci (c.fewer kp)) :=
  ⟨fun _ _ _ _ _ _ => by unfold fibonacci Fibonacci.encode; dsimp only; agreeS,
    fun _ _ _ _ _ => by unfold fibonacci Fibonacci.decode; dsimp only; agreeS⟩
end Codes

/-! ### Capacities and space usage -/

section Capacity
variable (c : Cfg) {w : Nat} (A : Alloc) (s : CVB w) (eb n : Nat) (x : BitVec w) (b : Bool)
instance : Agree d e (CVB.withCapacity c A w eb n) (CVB.withCapacity (c.fewer kp) A w eb n) := by unfold CVB.withCapacity; agree
instance : Agree d e (CVB.capacity c s eb) (CVB.capacity (c.fewer kp) s eb) := by unfold CVB.capacity; agree
instance : Agree d e (CVB.additionalBlocks c s eb n) (CVB.additionalBlocks (c.fewer kp) s eb n) := by
  unfold CVB.additionalBlocks; agree
instance : Agree d e (CVB.reserve c A s eb n) (CVB.reserve (c.fewer kp) A s eb n) := by unfold CVB.reserve; agree
instance : Agree d e (CVB.reserveExact c A s eb n) (CVB.reserveExact (c.fewer kp) A s eb n) := by unfold CVB.reserveExact; agree
instance : Agree d e (CVB.pushBits c A s eb x) (CVB.pushBits (c.fewer kp) A s eb x) := by unfold CVB.pushBits; agree
instance : Agree d e (CVB.pushBit c A s b) (CVB.pushBit (c.fewer kp) A s b) := by unfold CVB.pushBit; agree
instance : Agree d e (CVB.popBits c A s eb) (CVB.popBits (c.fewer kp) A s eb) := by unfold CVB.popBits; agree
instance : Agree d e (CVB.truncate c A s eb n) (CVB.truncate (c.fewer kp) A s eb n) := by unfold CVB.truncate; agree
instance : Agree d e (CVB.resize c A s eb n x) (CVB.resize (c.fewer kp) A s eb n x) := by unfold CVB.resize; agree
instance capStep_agree (op : CapOp w) : Agree d e (capStep c A eb s op) (capStep (c.fewer kp) A eb s op) := by
  cases op <;> unfold capStep <;> agree
instance capRun_agree (ops : List (CapOp w)) : Agree d e (capRun c A eb ops s) (capRun (c.fewer kp) A eb ops s) := by
  induction ops generalizing s with
  | nil => exact Agree.refl _
  | cons op ops ih => unfold capRun; agree
instance capCall_agree {step step' : VB w → Op → Res (O × VB w)} [∀ s op, Agree d e (step s op) (step' s op)] (op : CapCall Op) :
    Agree d e (capCall c A eb step s op) (capCall (c.fewer kp) A eb step' s op) := by
  cases op <;> unfold capCall <;> agree
instance capCalls_agree {step step' : VB w → Op → Res (O × VB w)} [∀ s op, Agree d e (step s op) (step' s op)]
    (ops : List (CapCall Op)) : Agree d e (capCalls c A eb step ops s) (capCalls (c.fewer kp) A eb step' ops s) := by
  induction ops generalizing s with
  | nil => exact Agree.refl _
  | cons op ops ih => unfold capCalls; agree

instance : Agree d e (SpaceOps.CIV.withCapacity c A w eb n) (SpaceOps.CIV.withCapacity (c.fewer kp) A w eb n) := by
  unfold SpaceOps.CIV.withCapacity; agree
instance (s : SpaceOps.CIV w) : Agree d e (SpaceOps.CIV.push c A s x) (SpaceOps.CIV.push (c.fewer kp) A s x) := by
  unfold SpaceOps.CIV.push; agree

section
variable {S : Type} {o o' : BitVecOps 64 S} [AgreeBV o o'] (bits : S) (i : Nat) (l : Rank9.CLoop)
instance : Agree d e (Rank9.storeCountsC c A i l) (Rank9.storeCountsC (c.fewer kp) A i l) := by unfold Rank9.storeCountsC; agree
instance : Agree d e (Rank9.stepC c A o bits i l) (Rank9.stepC (c.fewer kp) A o' bits i l) := by unfold Rank9.stepC; agree
instance rank9_newC_agree : Agree d e (Rank9.newC c A o bits) (Rank9.newC (c.fewer kp) A o' bits) := by unfold Rank9.newC; agree
end
section
variable {S : Type} {o o' : BitVecOps w S} [AgreeBV o o'] (bits : S) (i : Nat) (l : Jacobson.CLoop)
instance : Agree d e (Jacobson.stepC c A o bits n i l) (Jacobson.stepC (c.fewer kp) A o' bits n i l) := by unfold Jacobson.stepC; agree
instance jacobson_newC_agree : Agree d e (Jacobson.newC c A o bits) (Jacobson.newC (c.fewer kp) A o' bits) := by
  unfold Jacobson.newC; agree
end
end Capacity

/-- Two implementations of `SpaceUsage` agree. -/
class AgreeSpace (S S' : SpaceOps α) : Prop where
  stackOnly : S.isStackOnly = S'.isStackOnly
  stackBytes : S.stackBytes = S'.stackBytes
  heapBytes : ∀ d e a, Agree d e (S.heapBytes a) (S'.heapBytes a)

namespace SpaceOps
variable (c : Cfg) {S S' : SpaceOps α} [h : AgreeSpace S S']
instance (a : α) : Agree d e (S.heapBytes a) (S'.heapBytes a) := h.heapBytes d e a
instance AgreeSpace.refl (S : SpaceOps α) : AgreeSpace S S := ⟨rfl, rfl, fun _ _ _ => inferInstance⟩
instance (a : α) : Agree d e (totalBytes c S a) (totalBytes (c.fewer kp) S' a) := by
  unfold totalBytes; rw [h.stackBytes]; agree
instance vecSum_agree (l : List α) (n : Nat) : Agree d e (vecSum c S l n) (vecSum (c.fewer kp) S' l n) := by
  induction l generalizing n with
  | nil => exact Agree.refl _
  | cons a l ih => unfold vecSum; agree
instance tupleSum_agree {ts : List Ty} (a : Tuple ts) (n : Nat) : Agree d e (tupleSum c a n) (tupleSum (c.fewer kp) a n) := by
  induction a generalizing n with
  | nil => exact Agree.refl _
  | cons a l ih => unfold tupleSum; agree
instance vec_agree (n : Nat) : AgreeSpace (vec c n S) (vec (c.fewer kp) n S') :=
  ⟨rfl, rfl, fun _ _ _ => by unfold vec; dsimp only; rw [h.stackBytes, h.stackOnly]; agree⟩
instance box_agree (n : Nat) : AgreeSpace (box c n S) (box (c.fewer kp) n S') :=
  ⟨rfl, rfl, fun _ _ _ => by unfold box; dsimp only; agree⟩
instance wrapper_agree (n : Nat) (f : β → α) : AgreeSpace (wrapper n f S) (wrapper n f S') :=
  ⟨rfl, rfl, fun _ _ _ => by unfold wrapper; dsimp only; agree⟩
instance vectorBase_agree (w a b : Nat) : AgreeSpace (vectorBase c w a b) (vectorBase (c.fewer kp) w a b) := wrapper_agree _ _
instance bitVector_agree (w a b n : Nat) : AgreeSpace (bitVector c w a b n) (bitVector (c.fewer kp) w a b n) := wrapper_agree _ _
instance intVector_agree (w a b n : Nat) : AgreeSpace (intVector c w a b n) (intVector (c.fewer kp) w a b n) := wrapper_agree _ _
instance rank9_agree (a n : Nat) : AgreeSpace (rank9 c a n S) (rank9 (c.fewer kp) a n S') :=
  ⟨rfl, rfl, fun _ _ _ => by unfold rank9; dsimp only; agree⟩
instance jacobson_agree (a b f n : Nat) : AgreeSpace (jacobson c a b f n S) (jacobson (c.fewer kp) a b f n S') :=
  ⟨rfl, rfl, fun _ _ _ => by unfold jacobson; dsimp only; agree⟩
instance binSearchSelect_agree (n : Nat) : AgreeSpace (binSearchSelect n S) (binSearchSelect n S') :=
  ⟨h.stackOnly, rfl, fun _ _ _ => by unfold binSearchSelect; dsimp only; agree⟩
end SpaceOps

end Succinct
