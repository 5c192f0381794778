import Verif.Model.Unwind
import Verif.Spec.Unwind
import Verif.Lemmas.BitVector
import Verif.Lemmas.Instances
import Verif.Lemmas.IntVector
/-!
# The methods with unwinding refine the methods of the other models
-/
namespace Succinct

/-- forgetting the state left behind by a panic -/
def Out.res : Out σ α → Res (α × σ)
  | .ok a s => .ok (a, s)
  | .panic _ => .panic
  | .diverge => .diverge

/-- the result of a method without return value -/
def Res.unit (x : Res σ) : Res (Unit × σ) := do let s ← x; .ok ((), s)

theorem PM.res_pure (a : α) (s : σ) : ((pure a : PM σ α) s).res = .ok (a, s) := rfl
theorem PM.res_bind (x : PM σ α) (f : α → PM σ β) (s : σ) :
    ((x >>= f) s).res = (do let p ← (x s).res; (f p.1 p.2).res) := by
  show (PM.bind x f s).res = _
  unfold PM.bind
  cases x s <;> rfl
theorem PM.res_eval (f : σ → Res α) (s : σ) : (PM.eval f s).res = (do let a ← f s; .ok (a, s)) := by
  unfold PM.eval
  cases f s <;> rfl
theorem PM.res_lift (x : Res α) (s : σ) : (PM.lift x s).res = (do let a ← x; .ok (a, s)) := PM.res_eval _ s
theorem PM.res_modify (f : σ → σ) (s : σ) : (PM.modify f s).res = .ok ((), f s) := rfl
theorem PM.res_zoom (get : σ → τ) (put : τ → σ → σ) (m : PM τ α) (s : σ) :
    (PM.zoom get put m s).res = (do let p ← (m (get s)).res; .ok (p.1, put p.2 s)) := by
  unfold PM.zoom
  cases m (get s) <;> rfl
theorem PM.res_ite (p : Prop) [Decidable p] (x y : PM σ α) (s : σ) :
    ((if p then x else y) s).res = if p then (x s).res else (y s).res := by split <;> rfl

theorem Res.unit_bind (x : Res σ) (f : Unit × σ → Res β) : (x.unit >>= f) = (do let s ← x; f ((), s)) := by
  unfold Res.unit
  cases x <;> rfl
theorem Res.unit_ok (s : σ) : (Res.ok s).unit = .ok ((), s) := rfl
theorem Res.unit_of_bind (x : Res α) (f : α → Res σ) : (x >>= f).unit = (do let a ← x; (f a).unit) := by
  cases x <;> rfl
theorem Res.unit_ite (p : Prop) [Decidable p] (x y : Res σ) :
    (if p then x else y).unit = if p then x.unit else y.unit := by split <;> rfl

/-- rewriting rules for `res` -/
macro "pm_res" : tactic =>
  `(tactic| simp only [PM.res_pure, PM.res_bind, PM.res_eval, PM.res_lift, PM.res_modify, PM.res_zoom, PM.res_ite,
      Res.unit_bind, Res.unit_ok, Res.unit_of_bind, Res.unit_ite, bind_assoc, pure_bind, Res.ok_bind])

theorem PM.res_loop (n i : Nat) (f : Nat → PM σ Unit) (g : Nat → σ → Res σ)
    (h : ∀ i s, (f i s).res = (g i s).unit) (s : σ) : (PM.loop n i f s).res = (forLoop n i s g).unit := by
  induction n generalizing i s with
  | zero => rfl
  | succ n ih =>
    unfold PM.loop forLoop
    pm_res
    rw [h]
    pm_res
    congr 1; funext t; exact ih _ t

theorem PM.res_forRange (lo hi : Nat) (f : Nat → PM σ Unit) (g : Nat → σ → Res σ)
    (h : ∀ i s, (f i s).res = (g i s).unit) (s : σ) : (PM.forRange lo hi f s).res = (Succinct.forRange lo hi s g).unit :=
  PM.res_loop _ _ f g h s

section
variable {w : Nat} {S : Type} (c : Cfg)

theorem dfltSetBitP_res {bitLen : S → Res Nat} {getBlock : S → Nat → Res (BitVec w)}
    {setP : Nat → BitVec w → PM S Unit} {set : S → Nat → BitVec w → Res S}
    (h : ∀ s i x, (setP i x s).res = (set s i x).unit) (s : S) (p : Nat) (v : Bool) :
    (dfltSetBitP c bitLen getBlock setP p v s).res = (dfltSetBit c bitLen getBlock set s p v).unit := by
  unfold dfltSetBitP dfltSetBit
  pm_res
  simp only [h]

theorem dfltSetBitsP_res {bitLen : S → Res Nat} {getBlock : S → Nat → Res (BitVec w)}
    {setP : Nat → BitVec w → PM S Unit} {set : S → Nat → BitVec w → Res S}
    (h : ∀ s i x, (setP i x s).res = (set s i x).unit) (s : S) (p n : Nat) (v : BitVec w) :
    (dfltSetBitsP c bitLen getBlock setP p n v s).res = (dfltSetBits c bitLen getBlock set s p n v).unit := by
  unfold dfltSetBitsP dfltSetBits
  pm_res
  simp only [h]
  pm_res

theorem vecSetP_res (v : List α) (i : Nat) (x : α) : (vecSetP i x v).res = (vecSet v i x).unit := by
  unfold vecSetP vecSet vecGet
  pm_res
  by_cases hi : i < v.length
  · simp only [List.getElem?_eq_getElem hi, expectR, if_pos hi]; rfl
  · simp only [List.getElem?_eq_none (by omega : v.length ≤ i), expectR, if_neg hi]; rfl

theorem vecSetBitP_res (s : List (BitVec w)) (p : Nat) (v : Bool) :
    (vecSetBitP c w p v s).res = ((vecBitVecMut c w).setBit s p v).unit :=
  dfltSetBitP_res c vecSetP_res s p v

theorem vecSetBitsP_res (s : List (BitVec w)) (p n : Nat) (v : BitVec w) :
    (vecSetBitsP c w p n v s).res = ((vecBitVecMut c w).setBits s p n v).unit :=
  dfltSetBitsP_res c vecSetP_res s p n v

namespace VB

theorem onVec_res (m : PM (List (BitVec w)) Unit) (f : List (BitVec w) → Res (List (BitVec w)))
    (h : ∀ v, (m v).res = (f v).unit) (s : VB w) :
    (onVec m s).res = (do let v ← f s.vec; Res.ok { s with vec := v }).unit := by
  unfold onVec
  pm_res
  rw [h]; pm_res

theorem clearExtraBitsP_res (s : VB w) (eb : Nat) :
    (clearExtraBitsP c eb s).res = (clearExtraBits c s eb).unit := by
  unfold clearExtraBitsP clearExtraBits putVec
  pm_res
  congr 1; funext b
  cases s.vec.getLast? <;> (pm_res)

theorem setLenFromBlocksP_res (s : VB w) (eb : Nat) :
    (setLenFromBlocksP c eb s).res = (setLenFromBlocks c s eb).unit := by
  unfold setLenFromBlocksP setLenFromBlocks putLen
  pm_res
  simp only [clearExtraBitsP_res]

theorem setBlockP_res (s : VB w) (eb i : Nat) (x : BitVec w) :
    (setBlockP c eb i x s).res = (setBlock c s eb i x).unit := by
  unfold setBlockP setBlock
  pm_res
  rw [onVec_res _ _ (fun v => vecSetP_res v i x)]
  pm_res
  simp only [clearExtraBitsP_res]

theorem setBitsP_res (s : VB w) (eb i n : Nat) (x : BitVec w) :
    (setBitsP c eb i n x s).res = (setBits c s eb i n x).unit := by
  unfold setBitsP setBits
  pm_res
  rw [onVec_res _ _ (fun v => vecSetBitsP_res c v i n x)]
  pm_res

theorem setBitP_res (s : VB w) (i : Nat) (x : Bool) :
    (setBitP c i x s).res = (setBit c s i x).unit := by
  unfold setBitP setBit
  pm_res
  rw [onVec_res _ _ (fun v => vecSetBitP_res c v i x)]
  pm_res

theorem pushBlockP_res (s : VB w) (eb : Nat) (x : BitVec w) :
    (pushBlockP c eb x s).res = (pushBlock c s eb x).unit := by
  unfold pushBlockP pushBlock putVec
  pm_res
  simp only [setLenFromBlocksP_res]

theorem popBlockP_res (s : VB w) (eb : Nat) : (popBlockP c eb s).res = popBlock c s eb := by
  unfold popBlockP popBlock putVec
  pm_res
  simp only [setLenFromBlocksP_res]
  pm_res

theorem pushBitsP_res (s : VB w) (eb : Nat) (x : BitVec w) :
    (pushBitsP c eb x s).res = (pushBits c s eb x).unit := by
  unfold pushBitsP pushBits putVec putLen
  pm_res
  simp only [setBitsP_res]
  congr 1; funext l1; congr 1; funext need; congr 1; funext hv
  split <;> (pm_res)

theorem popBitsP_res (s : VB w) (eb : Nat) : (popBitsP c eb s).res = popBits c s eb := by
  unfold popBitsP popBits putVec putLen
  pm_res
  simp only [setBitsP_res]
  pm_res
  split
  · rfl
  · congr 1; funext l1; congr 1; funext need; congr 1; funext hv; congr 1; funext r; congr 1; funext s1
    congr 1; funext l
    split <;> (pm_res)

theorem pushBitP_res (s : VB w) (x : Bool) :
    (pushBitP c x s).res = (pushBit c s x).unit := by
  unfold pushBitP pushBit putVec putLen
  pm_res
  simp only [setBitP_res]
  congr 1; funext l1; congr 1; funext need
  split <;> (pm_res)

theorem popBitP_res (s : VB w) : (popBitP c s).res = popBit c s := by
  unfold popBitP popBit putVec putLen
  pm_res
  simp only [setBitP_res]
  pm_res
  split
  · rfl
  · congr 1; funext l1; congr 1; funext need; congr 1; funext hv; congr 1; funext r
    split <;> (pm_res)

theorem blockTruncateP_res (s : VB w) (eb n : Nat) :
    (blockTruncateP c eb n s).res = (blockTruncate c s eb n).unit := by
  unfold blockTruncateP blockTruncate putVec
  pm_res
  simp only [setLenFromBlocksP_res]

theorem truncateP_res (s : VB w) (eb n : Nat) :
    (truncateP c eb n s).res = (truncate c s eb n).unit := by
  unfold truncateP truncate putVec putLen
  pm_res
  simp only [clearExtraBitsP_res]

theorem clearP_res (s : VB w) : (clearP s).res = (Res.ok s.clear).unit := rfl

theorem blockResizeP_res (s : VB w) (eb n : Nat) (x : BitVec w) :
    (blockResizeP c eb n x s).res = (blockResize c s eb n x).unit := by
  unfold blockResizeP blockResize putVec
  pm_res
  simp only [setLenFromBlocksP_res]

theorem resizeP_res (s : VB w) (eb n : Nat) (x : BitVec w) :
    (resizeP c eb n x s).res = (resize c s eb n x).unit := by
  unfold resizeP resize putVec putLen
  pm_res
  simp only [clearExtraBitsP_res]
  congr 1; funext o; congr 1; funext bl
  split
  · rfl
  · exact PM.res_forRange _ _ _ _ (fun i s => by pm_res; simp only [setBitsP_res]) _

end VB

namespace BV

theorem resizeP_res (s : VB w) (n : Nat) (b : Bool) : (resizeP c n b s).res = (resize c s n b).unit := by
  unfold resizeP resize
  pm_res
  simp only [VB.truncateP_res, VB.blockResizeP_res]
  congr 1; funext o; congr 1; funext bl
  split
  · pm_res; rfl
  · pm_res
    congr 1; funext t; congr 1; funext r
    rw [PM.res_forRange _ _ _ _ (fun i s => VB.pushBitP_res c s true)]
    pm_res; rfl

theorem setBitsP_res (s : VB w) (p n : Nat) (x : BitVec w) :
    (setBitsP c p n x s).res = ((bvBitVecMut c w).setBits s p n x).unit :=
  dfltSetBitsP_res c (fun s i x => VB.setBlockP_res c s 1 i x) s p n x

end BV

namespace IV

theorem onBase_res (m : Nat → PM (VB w) α) (s : IV w) :
    (onBase m s).res = (do let p ← (m s.elementBits s.base).res; .ok (p.1, { s with base := p.2 })) := by
  unfold onBase
  pm_res

theorem setRandomP_res (s : IV w) (off n i : Nat) (x : BitVec w) :
    (setRandomP c off n i x s).res = (setRandom c s off n i x).unit := by
  unfold setRandomP setRandom
  pm_res
  simp only [onBase_res, VB.setBitsP_res]
  pm_res

theorem pushP_res (s : IV w) (x : BitVec w) : (pushP c x s).res = (push c s x).unit := by
  unfold pushP push
  pm_res
  simp only [onBase_res, VB.pushBitsP_res]
  pm_res

theorem popP_res (s : IV w) : (popP c s).res = pop c s := by
  unfold popP pop
  simp only [onBase_res, VB.popBitsP_res]

theorem resizeP_res (s : IV w) (n : Nat) (x : BitVec w) : (resizeP c n x s).res = (resize c s n x).unit := by
  unfold resizeP resize
  simp only [onBase_res, VB.resizeP_res]; pm_res
theorem blockResizeP_res (s : IV w) (n : Nat) (x : BitVec w) :
    (blockResizeP c n x s).res = (blockResize c s n x).unit := by
  unfold blockResizeP blockResize
  simp only [onBase_res, VB.blockResizeP_res]; pm_res
theorem truncateP_res (s : IV w) (n : Nat) : (truncateP c n s).res = (truncate c s n).unit := by
  unfold truncateP truncate
  simp only [onBase_res, VB.truncateP_res]; pm_res
theorem blockTruncateP_res (s : IV w) (n : Nat) : (blockTruncateP c n s).res = (blockTruncate c s n).unit := by
  unfold blockTruncateP blockTruncate
  simp only [onBase_res, VB.blockTruncateP_res]; pm_res
theorem clearP_res (s : IV w) : (clearP s).res = (Res.ok s.clear).unit := rfl
theorem setBlockP_res (s : IV w) (i : Nat) (x : BitVec w) : (setBlockP c i x s).res = (setBlock c s i x).unit := by
  unfold setBlockP setBlock
  simp only [onBase_res, VB.setBlockP_res]; pm_res

theorem setP_res (s : IV w) (i : Nat) (x : BitVec w) : (setP c i x s).res = (set c s i x).unit := by
  unfold setP set
  pm_res
  simp only [onBase_res, VB.setBlockP_res, VB.setBitsP_res]
  pm_res

theorem setBitP_res (s : IV w) (p : Nat) (x : Bool) :
    (setBitP c p x s).res = ((ivBitVecMut c w).setBit s p x).unit :=
  dfltSetBitP_res c (fun s i x => setBlockP_res c s i x) s p x
theorem setBitsP_res (s : IV w) (p n : Nat) (x : BitVec w) :
    (setBitsP c p n x s).res = ((ivBitVecMut c w).setBits s p n x).unit :=
  dfltSetBitsP_res c (fun s i x => setBlockP_res c s i x) s p n x

end IV
end


/-! ### a panic leaves the state as it was -/

open Spec

/-- If `p` unwinds from `s`, it leaves `s` behind unchanged. -/
def Atomic (p : PM σ α) (s : σ) : Prop := ∀ s', p s = .panic s' → s' = s

theorem Atomic.eval (f : σ → Res α) (s : σ) : Atomic (PM.eval f) s := by
  intro s' h
  unfold PM.eval at h
  split at h
  · cases h
  · cases h; rfl
  · cases h

theorem Atomic.lift (x : Res α) (s : σ) : Atomic (PM.lift x) s := Atomic.eval _ s

theorem Atomic.pure (a : α) (s : σ) : Atomic (Pure.pure a : PM σ α) s := fun _ h => by cases h

theorem Atomic.evalBind {f : σ → Res α} {k : α → PM σ β} {s : σ} (h : ∀ a, f s = .ok a → Atomic (k a) s) :
    Atomic (PM.eval f >>= k) s := by
  intro s' h'
  change PM.bind (PM.eval f) k s = _ at h'
  unfold PM.bind PM.eval at h'
  rcases hf : f s with a | _ | _
  · rw [hf] at h'; exact h a hf s' h'
  · rw [hf] at h'; cases h'; rfl
  · rw [hf] at h'; cases h'

theorem Atomic.liftBind {x : Res α} {k : α → PM σ β} {s : σ} (h : ∀ a, x = .ok a → Atomic (k a) s) :
    Atomic (PM.lift x >>= k) s := Atomic.evalBind h

theorem Atomic.ite {p : Prop} [Decidable p] {x y : PM σ α} {s : σ} (hx : p → Atomic x s) (hy : ¬ p → Atomic y s) :
    Atomic (if p then x else y) s := by
  split
  · next h => exact hx h
  · next h => exact hy h

theorem Atomic.ofOk {p : PM σ α} {s s1 : σ} {a : α} (h : p s = .ok a s1) : Atomic p s := by
  intro s' h'
  rw [h] at h'; cases h'

theorem PM.ok_of_res {p : PM σ α} {s s1 : σ} {a : α} (h : (p s).res = .ok (a, s1)) : p s = .ok a s1 := by
  unfold Out.res at h
  cases hp : p s with
  | ok a s => rw [hp] at h; simp only [Res.ok.injEq, Prod.mk.injEq] at h; rw [h.1, h.2]
  | panic s => rw [hp] at h; cases h
  | diverge => rw [hp] at h; cases h

theorem PM.ok_of_unit {p : PM σ Unit} {s s1 : σ} {x : Res σ} (h : (p s).res = x.unit) (hx : x = .ok s1) :
    p s = .ok () s1 := PM.ok_of_res (by rw [h, hx]; rfl)

theorem Atomic.panic {p : PM σ α} {s : σ} (h : Atomic p s) (hr : (p s).res = .panic) : p s = .panic s := by
  unfold Out.res at hr
  cases hp : p s with
  | ok a s => rw [hp] at hr; cases hr
  | panic s' => rw [h s' hp]
  | diverge => rw [hp] at hr; cases hr

theorem PM.bind_ok {p : PM σ α} {k : α → PM σ β} {s s1 : σ} {a : α} (h : p s = .ok a s1) :
    (p >>= k) s = k a s1 := by
  show PM.bind p k s = _
  unfold PM.bind
  rw [h]

theorem Atomic.zoom {get : σ → τ} {put : τ → σ → σ} {m : PM τ α} {s : σ} (hput : put (get s) s = s)
    (h : Atomic m (get s)) : Atomic (PM.zoom get put m) s := by
  intro s' h'
  unfold PM.zoom at h'
  cases hm : m (get s) with
  | ok a t => rw [hm] at h'; cases h'
  | panic t => rw [hm] at h'; cases h'; rw [h t hm, hput]
  | diverge => rw [hm] at h'; cases h'

section
variable {w : Nat} {S : Type} (c : Cfg)

/-- `set_block` succeeds wherever `get_block` does, and keeps all blocks readable. -/
def SetsReadable (I : S → Prop) (getBlock : S → Nat → Res (BitVec w)) (setP : Nat → BitVec w → PM S Unit) : Prop :=
  ∀ s i x, I s → (∃ y, getBlock s i = .ok y) →
    ∃ s1, setP i x s = .ok () s1 ∧ I s1 ∧ ∀ j, (∃ y, getBlock s j = .ok y) → ∃ y, getBlock s1 j = .ok y

theorem dfltSetBitP_atomic {I : S → Prop} {bitLen : S → Res Nat} {getBlock : S → Nat → Res (BitVec w)}
    {setP : Nat → BitVec w → PM S Unit} (hset : SetsReadable I getBlock setP) {s : S} (hs : I s) (p : Nat) (v : Bool) :
    Atomic (dfltSetBitP c bitLen getBlock setP p v) s := by
  unfold dfltSetBitP
  refine .evalBind fun n _ => .liftBind fun _ _ => .liftBind fun a _ => .evalBind fun old ho => .liftBind fun new _ => ?_
  obtain ⟨s1, h1, _⟩ := hset s a.blockIndex new hs ⟨old, ho⟩
  exact .ofOk h1

theorem dfltSetBitsP_atomic {I : S → Prop} {bitLen : S → Res Nat} {getBlock : S → Nat → Res (BitVec w)}
    {setP : Nat → BitVec w → PM S Unit} (hset : SetsReadable I getBlock setP) {s : S} (hs : I s) (p n : Nat)
    (v : BitVec w) : Atomic (dfltSetBitsP c bitLen getBlock setP p n v) s := by
  unfold dfltSetBitsP
  refine .liftBind fun l _ => .evalBind fun n _ => .liftBind fun _ _ => .liftBind fun a _ => .liftBind fun m _ =>
    .ite (fun _ => ?_) (fun _ => ?_)
  · refine .evalBind fun old ho => .liftBind fun new _ => ?_
    obtain ⟨s1, h1, _⟩ := hset s a.blockIndex new hs ⟨old, ho⟩
    exact .ofOk h1
  · refine .liftBind fun extra _ => .evalBind fun old1 ho1 => .liftBind fun i2 hi2 => .evalBind fun old2 ho2 =>
      .liftBind fun high _ => .liftBind fun new1 _ => .liftBind fun new2 _ => ?_
    obtain ⟨s1, h1, hI1, hread⟩ := hset s a.blockIndex new1 hs ⟨old1, ho1⟩
    obtain ⟨s2, h2, _⟩ := hset s1 i2 new2 hI1 (hread i2 ⟨old2, ho2⟩)
    refine .ofOk (a := ()) (s1 := s2) ?_
    rw [PM.bind_ok h1, hi2]
    exact h2

theorem vecGet_ok {v : List α} {i : Nat} : (∃ y, vecGet v i = .ok y) ↔ i < v.length := by
  unfold vecGet
  constructor
  · intro ⟨y, h⟩
    by_cases hi : i < v.length
    · exact hi
    · rw [List.getElem?_eq_none (by omega)] at h; cases h
  · intro hi
    rw [List.getElem?_eq_getElem hi]; exact ⟨_, rfl⟩

theorem vecSetP_atomic (v : List α) (i : Nat) (x : α) : Atomic (vecSetP i x) v :=
  .evalBind fun _ _ _ h => by cases h

theorem vecSetP_ok {v : List α} {i : Nat} (hi : i < v.length) (x : α) : vecSetP i x v = .ok () (v.set i x) :=
  PM.ok_of_unit (vecSetP_res v i x) (by rw [vecSet, if_pos hi])

theorem vec_setsReadable : SetsReadable (fun _ => True) (vecBitVec c w).getBlock vecSetP := by
  intro s i x _ hr
  have hi := vecGet_ok.1 hr
  refine ⟨_, vecSetP_ok hi x, trivial, fun j hj => vecGet_ok.2 ?_⟩
  have := vecGet_ok.1 hj
  simpa using this

theorem VR.setBlockP_ok (h : IsBlk w) {eb : Nat} {s : VB w} {bits} (hR : VR c w eb s bits) {i : Nat}
    (hi : i < s.vec.length) (x : BitVec w) : ∃ s1 bits1, VB.setBlockP c eb i x s = .ok () s1 ∧
      VR c w eb s1 bits1 ∧ s1.vec.length = s.vec.length := by
  rw [hR.blocks] at hi
  obtain ⟨s1, h1, hl, hR1⟩ := hR.setBlock_ok h hi x
  refine ⟨s1, _, PM.ok_of_unit (VB.setBlockP_res c s eb i x) h1, hR1, ?_⟩
  rw [hR1.blocks, hR.blocks]
  congr 1
  rw [← hR1.len, ← hR.len, hl]

theorem VR.setBlockP_atomic (h : IsBlk w) {eb : Nat} {s : VB w} {bits} (hR : VR c w eb s bits) (i : Nat)
    (x : BitVec w) : Atomic (VB.setBlockP c eb i x) s := by
  by_cases hi : i < s.vec.length
  · obtain ⟨s1, _, h1, _⟩ := hR.setBlockP_ok c h hi x
    exact .ofOk h1
  · have hp : vecSetP i x s.vec = .panic s.vec :=
      (vecSetP_atomic s.vec i x).panic (by rw [vecSetP_res, vecSet, if_neg hi]; rfl)
    intro s' h'
    have : VB.setBlockP c eb i x s = .panic s := by
      unfold VB.setBlockP
      show PM.bind _ _ s = _
      unfold PM.bind VB.onVec PM.zoom
      rw [hp]
    rw [this] at h'
    cases h'; rfl

theorem bv_setsReadable (h : IsBlk w) :
    SetsReadable (fun s => ∃ bits, bvR c w s bits) (bvBitVec c w).getBlock (VB.setBlockP c 1) := by
  intro s i x ⟨bits, hR⟩ hr
  have hi := vecGet_ok.1 hr
  obtain ⟨s1, bits1, h1, hR1, hl⟩ := VR.setBlockP_ok c h hR hi x
  refine ⟨s1, h1, ⟨bits1, hR1⟩, fun j hj => vecGet_ok.2 ?_⟩
  have := vecGet_ok.1 hj
  omega

theorem onVec_atomic {m : PM (List (BitVec w)) α} {s : VB w} (h : Atomic m s.vec) : Atomic (VB.onVec m) s :=
  Atomic.zoom rfl h

theorem VB.setBitP_atomic (s : VB w) (i : Nat) (x : Bool) : Atomic (VB.setBitP c i x) s :=
  .evalBind fun _ _ => .liftBind fun _ _ => onVec_atomic (dfltSetBitP_atomic c (vec_setsReadable c) trivial i x)

theorem VB.setBitsP_atomic (s : VB w) (eb i n : Nat) (x : BitVec w) : Atomic (VB.setBitsP c eb i n x) s :=
  .liftBind fun _ _ => .evalBind fun _ _ => .liftBind fun _ _ =>
    onVec_atomic (dfltSetBitsP_atomic c (vec_setsReadable c) trivial i n x)

theorem BV.setBitsP_atomic (h : IsBlk w) {s : VB w} {bits} (hR : bvR c w s bits) (i n : Nat) (x : BitVec w) :
    Atomic (BV.setBitsP c i n x) s :=
  dfltSetBitsP_atomic c (bv_setsReadable c h) ⟨bits, hR⟩ i n x

theorem onBase_atomic {m : Nat → PM (VB w) α} {s : IV w} (h : Atomic (m s.elementBits) s.base) :
    Atomic (IV.onBase m) s :=
  .evalBind fun _ he => by cases he; exact Atomic.zoom rfl h

theorem IV.setRandomP_atomic (s : IV w) (off n i : Nat) (x : BitVec w) : Atomic (IV.setRandomP c off n i x) s :=
  .liftBind fun _ _ => .liftBind fun _ _ => onBase_atomic (VB.setBitsP_atomic c _ _ _ _ _)

theorem ivR_setBlockP_atomic (h : IsBlk w) {s : IV w} {bits} (hR : ivR c w s bits) (i : Nat) (x : BitVec w) :
    Atomic (IV.setBlockP c i x) s :=
  onBase_atomic (hR.rep.setBlockP_atomic c h i x)

theorem ivR_setP_atomic (h : IsBlk w) {s : IV w} {bits} (hR : ivR c w s bits) (i : Nat) (x : BitVec w) :
    Atomic (IV.setP c i x) s :=
  .evalBind fun _ _ => .ite (fun _ => onBase_atomic (hR.rep.setBlockP_atomic c h _ x))
    (fun _ => .evalBind fun _ _ => .evalBind fun _ _ => onBase_atomic (VB.setBitsP_atomic c _ _ _ _ _))

theorem iv_setsReadable (h : IsBlk w) :
    SetsReadable (fun s => ∃ bits, ivR c w s bits) (ivBitVec c w).getBlock (IV.setBlockP c) := by
  intro s i x ⟨bits, hR⟩ hr
  have hi := vecGet_ok.1 hr
  obtain ⟨b1, bits1, h1, hR1, hl⟩ := hR.rep.setBlockP_ok c h hi x
  refine ⟨{ s with base := b1 }, ?_, ⟨bits1, hR.pos, hR.le, hR1⟩, fun j hj => vecGet_ok.2 ?_⟩
  · refine PM.ok_of_res ?_
    unfold IV.setBlockP
    rw [IV.onBase_res, h1]; rfl
  · have := vecGet_ok.1 hj
    show j < b1.vec.length
    omega

theorem ivR_setBitP_atomic (h : IsBlk w) {s : IV w} {bits} (hR : ivR c w s bits) (p : Nat) (x : Bool) :
    Atomic (IV.setBitP c p x) s :=
  dfltSetBitP_atomic c (iv_setsReadable c h) ⟨bits, hR⟩ p x

theorem ivR_setBitsP_atomic (h : IsBlk w) {s : IV w} {bits} (hR : ivR c w s bits) (p n : Nat) (x : BitVec w) :
    Atomic (IV.setBitsP c p n x) s :=
  dfltSetBitsP_atomic c (iv_setsReadable c h) ⟨bits, hR⟩ p n x

/-! ### `align_block` -/

theorem dfltAlignBlockP_ok (h : IsBlk w) {bitLen : S → Res Nat} {pushP : Bool → PM S Unit}
    {R : S → List Bool → Prop} {Fit : Nat → Prop} (hmono : ∀ {m n}, Fit n → m ≤ n → Fit m)
    (hlen : ∀ {s bits}, R s bits → bitLen s = .ok bits.length)
    (hpush : ∀ {s bits}, R s bits → ∀ v, Fit (bits.length + 1) → ∃ s', pushP v s = .ok () s' ∧ R s' (bits ++ [v]))
    {s : S} {bits : List Bool} (hR : R s bits) (v : Bool) (hfit : Fit (blocksFor w bits.length * w)) (fuel : Nat)
    (hfuel : blocksFor w bits.length * w - bits.length < fuel) :
    ∃ s', dfltAlignBlockP c w bitLen pushP v fuel s = .ok () s' ∧
      R s' (bits ++ List.replicate (blocksFor w bits.length * w - bits.length) v) := by
  have hw := h.pos
  have hev : ∀ {s : S} {bits : List Bool} {k : Nat → PM S Unit}, R s bits →
      (PM.eval bitLen >>= fun n => PM.lift (modNbits c w n) >>= k) s = k (bits.length % w) s := by
    intro s bits k hR
    rw [PM.bind_ok (a := bits.length) (s1 := s) (PM.ok_of_res (by rw [PM.res_eval, hlen hR]; rfl)),
      PM.bind_ok (a := bits.length % w) (s1 := s) (PM.ok_of_res (by rw [PM.res_lift, modNbits_eq c h]; rfl))]
  induction fuel generalizing s bits with
  | zero => omega
  | succ fuel ih =>
    have hle := le_blocksFor_mul bits.length hw
    have hlt := blocksFor_mul_lt (n := bits.length) hw
    unfold dfltAlignBlockP
    rw [hev hR]
    by_cases hz : blocksFor w bits.length * w - bits.length = 0
    · rw [if_neg (by rw [show bits.length = blocksFor w bits.length * w by omega, Nat.mul_mod_left]; simp)]
      exact ⟨s, rfl, by rw [hz]; simpa using hR⟩
    · have hne : bits.length % w ≠ 0 := by
        intro h0
        have hdvd : bits.length / w * w = bits.length := Nat.div_mul_cancel (Nat.dvd_of_mod_eq_zero h0)
        have := blocksFor_mul w (bits.length / w) hw
        rw [hdvd] at this
        rw [this] at hz
        omega
      rw [if_pos hne]
      obtain ⟨s1, hs1, hR1⟩ := hpush hR v (hmono hfit (by omega))
      have hbl : blocksFor w (bits ++ [v]).length = blocksFor w bits.length := by
        apply Nat.le_antisymm
        · rw [blocksFor_le hw]; simp; omega
        · exact blocksFor_mono (by simp)
      obtain ⟨s2, hs2, hR2⟩ := ih hR1 (by rw [hbl]; exact hfit)
        (by rw [hbl]; simp only [List.length_append, List.length_singleton]; omega)
      refine ⟨s2, by rw [PM.bind_ok hs1, hs2], ?_⟩
      rw [hbl] at hR2
      rw [show blocksFor w bits.length * w - bits.length =
        (blocksFor w bits.length * w - (bits ++ [v]).length) + 1 by
          simp only [List.length_append, List.length_singleton]; omega, List.replicate_succ]
      simpa using hR2

theorem alignBlockP_ok (h : IsBlk w) {s : VB w} {bits} (hR : bvR c w s bits) (v : Bool) :
    ∃ s', BV.alignBlockP c v s = .ok () s' ∧
      bvR c w s' (bits ++ List.replicate (blocksFor w bits.length * w - bits.length) v) := by
  have hw := h.pos
  refine dfltAlignBlockP_ok (R := bvR c w) (Fit := Fits c.usz w) c h (fun hf hm => hf.mono hm)
    (fun hR => bv_bitLen c hR) (fun hR v hf => ?_) hR v (hR.fits.pad hw) (w + 1) ?_
  · obtain ⟨s', h1, h2⟩ := bv_pushBit c h hR v hf
    exact ⟨s', PM.ok_of_unit (VB.pushBitP_res c _ v) h1, h2⟩
  · have := blocksFor_mul_lt (n := bits.length) hw
    omega

/-- Whenever the loop of `alignBlockP` is not cut off, it is the loop of the model without unwinding. -/
theorem dfltAlignBlockP_res {bitLen : S → Res Nat} {pushP : Bool → PM S Unit} {push : S → Bool → Res S}
    (h : ∀ s v, (pushP v s).res = (push s v).unit) (v : Bool) (fuel : Nat) (s : S) :
    (dfltAlignBlockP c w bitLen pushP v fuel s).res = .diverge ∨
      (dfltAlignBlockP c w bitLen pushP v fuel s).res = (dfltAlignBlock c w bitLen push s v).unit := by
  induction fuel generalizing s with
  | zero => exact .inl rfl
  | succ fuel ih =>
    unfold dfltAlignBlockP
    rw [dfltAlignBlock]
    pm_res
    rcases bitLen s with n | _ | _
    · rw [Res.ok_bind, Res.ok_bind]
      rcases modNbits c w n with m | _ | _
      · rw [Res.ok_bind, Res.ok_bind]
        split
        · rw [h]; pm_res
          rcases push s v with s1 | _ | _
          · exact ih s1
          · exact .inr rfl
          · exact .inr rfl
        · exact .inr rfl
      · exact .inr rfl
      · exact .inr rfl
    · exact .inr rfl
    · exact .inr rfl

end

/-! ### one call, and sequences of calls with every panic caught -/

/-- one call -/
def bvStepP (c : Cfg) : BvOp w → PM (VB w) (BvOut w)
  | .pushBit b => do VB.pushBitP c b; pure .unit
  | .popBit => do let o ← VB.popBitP c; pure (.optBit o)
  | .setBit i b => do VB.setBitP c i b; pure .unit
  | .setBlock i x => do VB.setBlockP c 1 i x; pure .unit
  | .setBits p n x => do BV.setBitsP c p n x; pure .unit
  | .pushBlock x => do VB.pushBlockP c 1 x; pure .unit
  | .alignBlock b => do BV.alignBlockP c b; pure .unit
  | .resize n b => do BV.resizeP c n b; pure .unit
  | .blockResize n x => do VB.blockResizeP c 1 n x; pure .unit
  | .truncate n => do VB.truncateP c 1 n; pure .unit
  | .blockTruncate n => do VB.blockTruncateP c 1 n; pure .unit
  | .clear => do VB.clearP; pure .unit
  | .bitLen => do let n ← PM.eval (bvBitVec c w).bitLen; pure (.num n)
  | .blockLen => do let n ← PM.eval (bvBitVec c w).blockLen; pure (.num n)
  | .getBit i => do let b ← PM.eval fun s => (bvBitVec c w).getBit s i; pure (.bit b)
  | .getBlock i => do let x ← PM.eval fun s => (bvBitVec c w).getBlock s i; pure (.block x)
  | .getBits p n => do let x ← PM.eval fun s => (bvBitVec c w).getBits s p n; pure (.block x)

def ivStepP (c : Cfg) : IvOp w → PM (IV w) IvOut
  | .push x => do IV.pushP c x; pure .unit
  | .pop => do let o ← IV.popP c; pure (.optNum (o.map BitVec.toNat))
  | .set i x => do IV.setP c i x; pure .unit
  | .setRandom off n i x => do IV.setRandomP c off n i x; pure .unit
  | .setBlock i x => do IV.setBlockP c i x; pure .unit
  | .truncate n => do IV.truncateP c n; pure .unit
  | .blockTruncate n => do IV.blockTruncateP c n; pure .unit
  | .resize n x => do IV.resizeP c n x; pure .unit
  | .blockResize n x => do IV.blockResizeP c n x; pure .unit
  | .clear => do IV.clearP; pure .unit
  | .len => do let n ← PM.eval fun s : IV w => .ok s.len; pure (.num n)
  | .isEmpty => do let b ← PM.eval fun s : IV w => .ok s.isEmpty; pure (.flag b)
  | .get i => do let x ← PM.eval fun s : IV w => s.get c i; pure (.num x.toNat)
  | .getRandom off n i => do let x ← PM.eval fun s : IV w => s.getRandom c off n i; pure (.num x.toNat)

/-- A sequence of calls, each inside `catch_unwind`: the outputs (`none`: the call panicked) and what
is left at the end. -/
def runCatch (step : Op → PM S O) (s : S) : List Op → Res (List (Option O) × S)
  | [] => .ok ([], s)
  | op :: ops =>
    match step op s with
    | .ok o s' => do
      let (os, s'') ← runCatch step s' ops
      .ok (some o :: os, s'')
    | .panic s' => do
      let (os, s'') ← runCatch step s' ops
      .ok (none :: os, s'')
    | .diverge => .diverge

section
variable {w : Nat} (c : Cfg)

theorem bvStepP_res (s : VB w) (op : BvOp w) (ha : ∀ b, op ≠ .alignBlock b) :
    (bvStepP c op s).res = bvStep c s op := by
  cases op with
  | alignBlock b => exact absurd rfl (ha b)
  | clear => rfl
  | _ =>
    unfold bvStepP bvStep
    simp only [VB.pushBitP_res, VB.popBitP_res, VB.setBitP_res, VB.setBlockP_res, BV.setBitsP_res,
      VB.pushBlockP_res, BV.resizeP_res, VB.blockResizeP_res, VB.truncateP_res, VB.blockTruncateP_res,
      PM.res_bind, PM.res_pure, PM.res_eval, Res.unit_bind, bind_assoc, Res.ok_bind]
    first | done | rfl

theorem ivStepP_res (s : IV w) (op : IvOp w) : (ivStepP c op s).res = ivStep c s op := by
  cases op with
  | clear => rfl
  | _ =>
    unfold ivStepP ivStep
    simp only [IV.pushP_res, IV.popP_res, IV.setP_res, IV.setRandomP_res, IV.setBlockP_res, IV.truncateP_res,
      IV.blockTruncateP_res, IV.resizeP_res, IV.blockResizeP_res,
      PM.res_bind, PM.res_pure, PM.res_eval, Res.unit_bind, bind_assoc, Res.ok_bind]
    first | done | rfl

theorem Atomic.thenPure {p : PM σ α} {s : σ} {f : α → β} (h : Atomic p s) : Atomic (do let a ← p; Pure.pure (f a)) s := by
  intro s' h'
  change PM.bind p _ s = _ at h'
  unfold PM.bind at h'
  cases hp : p s with
  | ok a t => rw [hp] at h'; cases h'
  | panic t => rw [hp] at h'; cases h'; exact h _ hp
  | diverge => rw [hp] at h'; cases h'

/-- calls that can panic although the vector stays addressable -/
theorem bvStepP_atomic (h : IsBlk w) {s : VB w} {bits} (hR : bvR c w s bits) (op : BvOp w)
    (hsp : bvSpec w bits op = none) : Atomic (bvStepP c op) s := by
  cases op with
  | setBit i b => exact (VB.setBitP_atomic c s i b).thenPure
  | setBlock i x => exact (VR.setBlockP_atomic c h hR i x).thenPure
  | setBits p n x => exact (BV.setBitsP_atomic c h hR p n x).thenPure
  | getBit i => exact (Atomic.eval _ s).thenPure
  | getBlock i => exact (Atomic.eval _ s).thenPure
  | getBits p n => exact (Atomic.eval _ s).thenPure
  | _ => simp [bvSpec] at hsp

theorem pushP_atomic_of_large (h : IsBlk w) {k : Nat} {s : IV w} {xs} (hR : IR c w k s xs) {x : BitVec w}
    (hx : ¬ x.toNat < 2 ^ k) : Atomic (IV.pushP c x) s := by
  refine .evalBind fun a ha => ?_
  unfold IV.checkValue at ha
  rw [hR.eb, checkValueRandom_eq c h hR.le, if_neg hx] at ha
  cases ha

theorem ivStepP_atomic (h : IsBlk w) {k : Nat} {s : IV w} {xs} (hR : IR c w k s xs) (op : IvOp w)
    (hsp : ivSpec w k xs op = none) : Atomic (ivStepP c op) s := by
  cases op with
  | push x =>
    refine (pushP_atomic_of_large c h hR (x := x) ?_).thenPure
    intro hx
    simp [ivSpec, hx] at hsp
  | set i x => exact (ivR_setP_atomic c h hR.ivR i x).thenPure
  | setRandom off n i x => exact (IV.setRandomP_atomic c s off n i x).thenPure
  | setBlock i x => exact (ivR_setBlockP_atomic c h hR.ivR i x).thenPure
  | get i => exact (Atomic.eval _ s).thenPure
  | getRandom off n i => exact (Atomic.eval _ s).thenPure
  | _ => simp [ivSpec] at hsp

/-- The step does what the specification says, and a panic leaves the state exactly as it was. -/
def RefinesP (R : S → A → Prop) (p : PM S O) (s : S) : Option (O × A) → Prop
  | some (o, a) => ∃ s', p s = .ok o s' ∧ R s' a
  | none => p s = .panic s

theorem refinesP_of {R : S → A → Prop} {p : PM S O} {s : S} {m : Res (O × S)} {sp : Option (O × A)}
    (hm : (p s).res = m) (hr : Refines R m sp) (ha : sp = none → Atomic p s) : RefinesP R p s sp := by
  cases sp with
  | none => exact (ha rfl).panic (hm.trans hr)
  | some r =>
    obtain ⟨s', h1, h2⟩ := hr
    exact ⟨s', PM.ok_of_res (hm.trans h1), h2⟩

theorem bvStepP_refines (h : IsBlk w) {s : VB w} {bits} (hR : bvR c w s bits) (op : BvOp w)
    (hok : op.Ok c.usz w bits) : RefinesP (bvR c w) (bvStepP c op) s (bvSpec w bits op) := by
  by_cases ha : ∀ b, op ≠ .alignBlock b
  · exact refinesP_of (bvStepP_res c s op ha) (bvStep_refines c h hR op hok) (bvStepP_atomic c h hR op)
  · obtain ⟨b, rfl⟩ : ∃ b, op = .alignBlock b := by
      cases op with
      | alignBlock b => exact ⟨b, rfl⟩
      | _ => exact absurd (fun b => by simp) ha
    obtain ⟨s', h1, h2⟩ := alignBlockP_ok c h hR b
    exact ⟨s', by show (BV.alignBlockP c b >>= _) s = _; rw [PM.bind_ok h1]; rfl, h2⟩

theorem ivStepP_refines (h : IsBlk w) {k : Nat} {s : IV w} {xs} (hR : IR c w k s xs) (op : IvOp w)
    (hok : op.Ok c.usz w k xs) : RefinesP (IR c w k) (ivStepP c op) s (ivSpec w k xs op) :=
  refinesP_of (ivStepP_res c s op) (ivStep_refines c h hR op hok) (ivStepP_atomic c h hR op)

theorem runCatch_refines {R : S → A → Prop} {stepP : Op → PM S O} {step : A → Op → Option (O × A)}
    {ok : A → Op → Prop} (href : ∀ s a op, R s a → ok a op → RefinesP R (stepP op) s (step a op))
    (ops : List Op) (s : S) (a : A) (hR : R s a) (hok : catchOk step ok a ops) :
    ∃ s', runCatch stepP s ops = .ok ((catchRun step a ops).1, s') ∧ R s' (catchRun step a ops).2 := by
  induction ops generalizing s a with
  | nil => exact ⟨s, rfl, hR⟩
  | cons op ops ih =>
    obtain ⟨h1, h2⟩ := hok
    have hr := href s a op hR h1
    unfold runCatch catchRun
    cases hs : step a op with
    | none =>
      rw [hs] at hr h2
      have hr : stepP op s = .panic s := hr
      obtain ⟨s', h3, h4⟩ := ih s a hR h2
      exact ⟨s', by simp only [hr, h3, Res.ok_bind], h4⟩
    | some r =>
      rw [hs] at hr h2
      obtain ⟨s1, hr1, hR1⟩ := hr
      obtain ⟨s', h3, h4⟩ := ih s1 r.2 hR1 h2
      exact ⟨s', by simp only [hr1, h3, Res.ok_bind], h4⟩

end


/-! ### the default `set_block`, used by `Vec<bool>` -/

section
variable {w : Nat} {S : Type} (c : Cfg)

theorem PM.res_loopL (n i : Nat) (t : τ) (f : Nat → τ → PM σ τ) (g : Nat → σ × τ → Res (σ × τ))
    (h : ∀ i t s, (f i t s).res = (do let p ← g i (s, t); .ok (p.2, p.1))) (s : σ) :
    (PM.loopL n i t f s).res = (do let p ← forLoop n i (s, t) g; .ok (p.2, p.1)) := by
  induction n generalizing i s t with
  | zero => rfl
  | succ n ih =>
    unfold PM.loopL forLoop
    pm_res
    rw [h]
    pm_res
    congr 1; funext p; exact ih _ _ _

theorem dfltSetBlockP_res {bitLen blockLen : S → Res Nat} {setP : Nat → Bool → PM S Unit}
    {set : S → Nat → Bool → Res S} (h : ∀ s i x, (setP i x s).res = (set s i x).unit) (s : S) (p : Nat)
    (v : BitVec w) :
    (dfltSetBlockP c bitLen blockLen setP p v s).res = (dfltSetBlock c bitLen blockLen set s p v).unit := by
  have hl : ∀ (limit start : Nat) (s : S), (PM.loopL limit 0 v (fun i value => do
        let bit := value &&& 1 != 0
        let p ← PM.lift (addN c 64 start i)
        setP p bit
        PM.lift (shrB c value 1)) s).res = (do
      let p ← forRange 0 limit (s, v) fun i (s, value) => do
        let bit := value &&& 1 != 0
        let p ← addN c 64 start i
        let s ← set s p bit
        let value ← shrB c value 1
        .ok (s, value)
      .ok (p.2, p.1)) := by
    intro limit start s
    refine PM.res_loopL _ _ _ _ _ (fun i t s => ?_) s
    pm_res
    simp only [h]
    pm_res
  unfold dfltSetBlockP dfltSetBlock
  pm_res
  congr 1; funext p1; congr 1; funext bl
  split
  · pm_res
    congr 1; funext n; congr 1; funext limit; congr 1; funext start
    rw [hl]
    pm_res
  · pm_res
    congr 1; funext start
    rw [hl]
    pm_res

theorem boolVecSetBitP_res (s : List Bool) (p : Nat) (v : Bool) :
    (boolVecSetBitP c p v s).res = ((boolVecBitVecMut c).setBit s p v).unit := by
  unfold boolVecSetBitP
  show _ = (do let i ← expectR (toUsize c p); vecSet s i v).unit
  pm_res
  simp only [vecSetP_res]

theorem boolVecSetBlockP_res (s : List Bool) (p : Nat) (v : BitVec 8) :
    (boolVecSetBlockP c p v s).res = ((boolVecBitVecMut c).setBlock s p v).unit :=
  dfltSetBlockP_res c (fun s i x => boolVecSetBitP_res c s i x) s p v

theorem PM.bind_assoc (x : PM σ α) (f : α → PM σ β) (g : β → PM σ γ) :
    (x >>= f) >>= g = x >>= fun a => f a >>= g := by
  show PM.bind (PM.bind x f) g = PM.bind x (fun a => PM.bind (f a) g)
  funext s
  unfold PM.bind
  cases x s <;> rfl

theorem PM.bind_panic {p : PM σ α} {k : α → PM σ β} {s s1 : σ} (h : p s = .panic s1) :
    (p >>= k) s = .panic s1 := by
  show PM.bind p k s = _
  unfold PM.bind
  rw [h]

theorem boolVecSetBitP_panic {v : List Bool} (hv : v.length < 2 ^ c.usz) {p : Nat} (hp : v.length ≤ p) (x : Bool) :
    boolVecSetBitP c p x v = .panic v := by
  refine Atomic.panic (.liftBind fun i _ => vecSetP_atomic v i x) ?_
  rw [boolVecSetBitP_res, boolVec_setBit c hv, if_neg (by omega)]; rfl

theorem boolVecSetBlockP_atomic {v : List Bool} (hf : Fits c.usz 8 v.length) (hv : v.length < 2 ^ c.usz)
    {pos : Nat} (hp8 : pos * 8 < 2 ^ 64) (x : BitVec 8) : Atomic (boolVecSetBlockP c pos x) v := by
  by_cases hpos : pos < blocksFor 8 v.length
  · obtain ⟨v1, h1, -⟩ := dfltSetBlock_ok (c := c) (o := boolVecBitVec c) (setBit := (boolVecBitVecMut c).setBit)
      (R := boolR c) isBlk8 boolR.fits boolR.bitLen boolR.blockLen (boolVec_setBit_ok c) (s := v) (bits := v)
      ⟨rfl, hf, hv⟩ x hpos
    exact .ofOk (PM.ok_of_unit (boolVecSetBlockP_res c v pos x) h1)
  · have hle := le_blocksFor_mul v.length (w := 8) (by omega)
    have hloop : ∀ limit start, pos * 8 = start → ∀ (f : BitVec 8 → PM (List Bool) Unit),
        (∀ t, f t = Pure.pure ()) → Atomic (PM.loopL limit 0 x (fun i value => do
          let bit := value &&& 1 != 0
          let p ← PM.lift (addN c 64 start i)
          boolVecSetBitP c p bit
          PM.lift (shrB c value 1)) >>= f) v := by
      intro limit start hs f hf'
      cases limit with
      | zero =>
        rw [PM.loopL]
        intro s' h'
        have h2 : f x v = .panic s' := h'
        rw [hf'] at h2
        cases h2
      | succ n =>
        rw [PM.loopL]
        have : (PM.lift (addN c 64 start 0) >>= fun p => do
            boolVecSetBitP c p (x &&& 1 != 0)
            PM.lift (shrB c x 1)) v = .panic v := by
          rw [PM.bind_ok (a := start) (s1 := v)
            (PM.ok_of_res (by rw [PM.res_lift, addN_ok (by omega)]; rfl))]
          exact PM.bind_panic (boolVecSetBitP_panic c hv (by omega) _)
        intro s' h'
        rw [PM.bind_panic (PM.bind_panic this)] at h'
        cases h'; rfl
    unfold boolVecSetBlockP dfltSetBlockP
    refine .liftBind fun p1 _ => .evalBind fun bl _ => ?_
    have hstart : ∀ start, mulNbits c 8 pos = .ok start → pos * 8 = start := by
      intro start hs
      rw [mulNbits_eq c isBlk8, Nat.mod_eq_of_lt hp8] at hs
      exact Res.ok.inj hs
    split
    · rw [PM.bind_assoc]
      exact .evalBind fun n _ => .liftBind fun limit _ => .liftBind fun start hs =>
        hloop limit start (hstart start hs) _ (fun _ => rfl)
    · intro s' h'
      exact Atomic.liftBind (fun start hs => hloop 8 start (hstart start hs) _ (fun _ => rfl)) s' h'

end

end Succinct
