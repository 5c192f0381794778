import Verif.Model.VectorBase
/-! Termination: the model functions below never diverge, whatever their arguments. -/
namespace Succinct

/-- the computation ends (with a value or a panic) -/
structure Ends (x : Res α) : Prop where
  ne : x ≠ .diverge

theorem Ends.ok (a : α) : Ends (Res.ok a) := ⟨nofun⟩
theorem Ends.panic : Ends (Res.panic : Res α) := ⟨nofun⟩

theorem Ends.bind {x : Res α} {f : α → Res β} (hx : Ends x) (hf : ∀ a, Ends (f a)) : Ends (x >>= f) := by
  cases x with
  | ok a => exact hf a
  | panic => exact ⟨nofun⟩
  | diverge => exact absurd rfl hx.ne

theorem Ends.forLoop {n i : Nat} {s : σ} {f : Nat → σ → Res σ} (hf : ∀ k s, Ends (f k s)) : Ends (forLoop n i s f) := by
  induction n generalizing i s with
  | zero => exact ⟨nofun⟩
  | succ n ih => exact Ends.bind (hf _ _) fun _ => ih

/-- closes `Ends x` for a known function; extended below -/
syntax "ends_leaf" : tactic
macro_rules | `(tactic| ends_leaf) => `(tactic| assumption)
macro_rules | `(tactic| ends_leaf) => `(tactic| with_reducible exact Ends.ok _)
macro_rules | `(tactic| ends_leaf) => `(tactic| with_reducible exact Ends.panic)

/-- Walk through a model function: binds, case splits, final values. -/
macro "ends" : tactic => `(tactic| repeat' (first
  | intro _
  | ends_leaf
  | with_reducible apply Ends.forLoop
  | with_reducible apply Ends.bind
  | split))

theorem Ends.assertR (p : Prop) [Decidable p] : Ends (assertR p) := by unfold Succinct.assertR; ends
macro_rules | `(tactic| ends_leaf) => `(tactic| with_reducible exact Ends.assertR _)
theorem Ends.debugAssert (c : Cfg) (p : Prop) [Decidable p] : Ends (debugAssert c p) := by unfold Succinct.debugAssert; ends
macro_rules | `(tactic| ends_leaf) => `(tactic| with_reducible exact Ends.debugAssert _ _)
theorem Ends.overflow (c : Cfg) (a : α) : Ends (overflow c a) := by unfold Succinct.overflow; ends
macro_rules | `(tactic| ends_leaf) => `(tactic| with_reducible exact Ends.overflow _ _)
theorem Ends.expectR (o : Option α) : Ends (expectR o) := by cases o <;> exact ⟨nofun⟩
macro_rules | `(tactic| ends_leaf) => `(tactic| with_reducible exact Ends.expectR _)
theorem Ends.addN : Ends (addN c n a b) := by unfold Succinct.addN; split; exact .ok _; exact .overflow _ _
macro_rules | `(tactic| ends_leaf) => `(tactic| with_reducible exact Ends.addN)
theorem Ends.subN : Ends (subN c n a b) := by unfold Succinct.subN; split; exact .ok _; exact .overflow _ _
macro_rules | `(tactic| ends_leaf) => `(tactic| with_reducible exact Ends.subN)
theorem Ends.mulN : Ends (mulN c n a b) := by unfold Succinct.mulN; split; exact .ok _; exact .overflow _ _
macro_rules | `(tactic| ends_leaf) => `(tactic| with_reducible exact Ends.mulN)
theorem Ends.divN : Ends (divN a b) := by unfold Succinct.divN; ends
macro_rules | `(tactic| ends_leaf) => `(tactic| with_reducible exact Ends.divN)
theorem Ends.remN : Ends (remN a b) := by unfold Succinct.remN; ends
macro_rules | `(tactic| ends_leaf) => `(tactic| with_reducible exact Ends.remN)
theorem Ends.shlN : Ends (shlN c n a b) := by unfold Succinct.shlN; split; exact .ok _; exact .overflow _ _
macro_rules | `(tactic| ends_leaf) => `(tactic| with_reducible exact Ends.shlN)
theorem Ends.shrN : Ends (shrN c n a b) := by unfold Succinct.shrN; split; exact .ok _; exact .overflow _ _
macro_rules | `(tactic| ends_leaf) => `(tactic| with_reducible exact Ends.shrN)
theorem Ends.shlB {x : BitVec w} : Ends (shlB c x k) := by unfold Succinct.shlB; split; exact .ok _; exact .overflow _ _
macro_rules | `(tactic| ends_leaf) => `(tactic| with_reducible exact Ends.shlB)
theorem Ends.shrB {x : BitVec w} : Ends (shrB c x k) := by unfold Succinct.shrB; split; exact .ok _; exact .overflow _ _
macro_rules | `(tactic| ends_leaf) => `(tactic| with_reducible exact Ends.shrB)
theorem Ends.addB {x y : BitVec w} : Ends (addB c x y) := by unfold Succinct.addB; split; exact .ok _; exact .overflow _ _
macro_rules | `(tactic| ends_leaf) => `(tactic| with_reducible exact Ends.addB)
theorem Ends.subB {x y : BitVec w} : Ends (subB c x y) := by unfold Succinct.subB; split; exact .ok _; exact .overflow _ _
macro_rules | `(tactic| ends_leaf) => `(tactic| with_reducible exact Ends.subB)
theorem Ends.mulB {x y : BitVec w} : Ends (mulB c x y) := by unfold Succinct.mulB; split; exact .ok _; exact .overflow _ _
macro_rules | `(tactic| ends_leaf) => `(tactic| with_reducible exact Ends.mulB)

theorem Ends.floorLg {x : BitVec w} : Ends (floorLg c x) := by unfold Succinct.floorLg; ends
macro_rules | `(tactic| ends_leaf) => `(tactic| with_reducible exact Ends.floorLg)
theorem Ends.lgNbits : Ends (lgNbits c w) := by unfold Succinct.lgNbits; ends
macro_rules | `(tactic| ends_leaf) => `(tactic| with_reducible exact Ends.lgNbits)
theorem Ends.divNbits : Ends (divNbits c w i) := by unfold Succinct.divNbits; ends
macro_rules | `(tactic| ends_leaf) => `(tactic| with_reducible exact Ends.divNbits)
theorem Ends.checkedDivNbits : Ends (checkedDivNbits c w i) := by unfold Succinct.checkedDivNbits; ends
macro_rules | `(tactic| ends_leaf) => `(tactic| with_reducible exact Ends.checkedDivNbits)
theorem Ends.checkedCeilDivNbits : Ends (checkedCeilDivNbits c w i) := by unfold Succinct.checkedCeilDivNbits; ends
macro_rules | `(tactic| ends_leaf) => `(tactic| with_reducible exact Ends.checkedCeilDivNbits)
theorem Ends.lowMask : Ends (lowMask c w k) := by unfold Succinct.lowMask; ends
macro_rules | `(tactic| ends_leaf) => `(tactic| with_reducible exact Ends.lowMask)
theorem Ends.modNbits : Ends (modNbits c w k) := by unfold Succinct.modNbits lgNbitsMask; ends
macro_rules | `(tactic| ends_leaf) => `(tactic| with_reducible exact Ends.modNbits)
theorem Ends.mulNbits : Ends (mulNbits c w k) := by unfold Succinct.mulNbits; ends
macro_rules | `(tactic| ends_leaf) => `(tactic| with_reducible exact Ends.mulNbits)
theorem Ends.lastBlockBits : Ends (lastBlockBits c w k) := by unfold Succinct.lastBlockBits; ends
macro_rules | `(tactic| ends_leaf) => `(tactic| with_reducible exact Ends.lastBlockBits)
theorem Ends.address : Ends (Address.new c w k) := by unfold Address.new; ends
macro_rules | `(tactic| ends_leaf) => `(tactic| with_reducible exact Ends.address)
theorem Ends.blkWithBits {x v : BitVec w} : Ends (blkWithBits c x p n v) := by unfold Succinct.blkWithBits; ends
macro_rules | `(tactic| ends_leaf) => `(tactic| with_reducible exact Ends.blkWithBits)
theorem Ends.vecGet {v : List α} : Ends (vecGet v i) := by unfold Succinct.vecGet; ends
macro_rules | `(tactic| ends_leaf) => `(tactic| with_reducible exact Ends.vecGet)
theorem Ends.vecSet {v : List α} : Ends (vecSet v i x) := by unfold Succinct.vecSet; ends
macro_rules | `(tactic| ends_leaf) => `(tactic| with_reducible exact Ends.vecSet)

theorem Ends.dfltSetBits {bitLen : S → Res Nat} {getBlock : S → Nat → Res (BitVec w)}
    {setBlock : S → Nat → BitVec w → Res S} (h1 : ∀ s, Ends (bitLen s)) (h2 : ∀ s i, Ends (getBlock s i))
    (h3 : ∀ s i x, Ends (setBlock s i x)) {s : S} {p n : Nat} {v : BitVec w} :
    Ends (dfltSetBits c bitLen getBlock setBlock s p n v) := by
  unfold Succinct.dfltSetBits
  ends
  all_goals first | exact h1 _ | exact h2 _ _ | exact h3 _ _ _

theorem vecSetBits_dflt (c : Cfg) (w : Nat) : (vecBitVecMut c w).setBits =
    dfltSetBits c (fun v : List (BitVec w) => mulN c 64 v.length w) vecGet vecSet := rfl

theorem Ends.vecSetBits {s : List (BitVec w)} : Ends ((vecBitVecMut c w).setBits s p n v) := by
  rw [vecSetBits_dflt]
  exact Ends.dfltSetBits (fun _ => Ends.mulN) (fun _ _ => Ends.vecGet) (fun _ _ _ => Ends.vecSet)
macro_rules | `(tactic| ends_leaf) => `(tactic| with_reducible exact Ends.vecSetBits)

theorem Ends.VB_setBits {s : VB w} : Ends (VB.setBits c s eb p n v) := by unfold VB.setBits; ends
macro_rules | `(tactic| ends_leaf) => `(tactic| with_reducible exact Ends.VB_setBits)
theorem Ends.lenToBlockLen : Ends (lenToBlockLen c w eb n) := by unfold Succinct.lenToBlockLen; ends
macro_rules | `(tactic| ends_leaf) => `(tactic| with_reducible exact Ends.lenToBlockLen)
theorem Ends.VB_withFill {v : BitVec w} : Ends (VB.withFill c eb n v) := by unfold VB.withFill forRange; ends
macro_rules | `(tactic| ends_leaf) => `(tactic| with_reducible exact Ends.VB_withFill)
theorem Ends.VB_withCapacity : Ends (VB.withCapacity c w eb n) := by unfold VB.withCapacity; ends
macro_rules | `(tactic| ends_leaf) => `(tactic| with_reducible exact Ends.VB_withCapacity)
theorem Ends.VB_blockWithFill {v : BitVec w} : Ends (VB.blockWithFill c eb n v) := by
  unfold VB.blockWithFill VB.setLenFromBlocks VB.clearExtraBits; ends
macro_rules | `(tactic| ends_leaf) => `(tactic| with_reducible exact Ends.VB_blockWithFill)

end Succinct
