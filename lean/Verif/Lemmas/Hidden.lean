import Verif.Model.Hidden
/-! Running generic code on two bit vectors side by side. -/
namespace Succinct
open Lean.Order

/-- `m` and `m'`, run on related receivers, do the same as far as `m` ends: both panic, or both return related
values and leave related receivers. -/
def Half (R : S → T → Prop) (V : α → β → Prop) (m : HM S α) (m' : HM T β) : Prop :=
  ∀ s t, R s t → match m s with
    | .diverge => True
    | .panic => m' t = .panic
    | .ok (a, s') => ∃ b t', m' t = .ok (b, t') ∧ V a b ∧ R s' t'

namespace Half
variable {S T α β γ δ : Type} {R : S → T → Prop} {V : α → β → Prop} {W : γ → δ → Prop}

theorem pure' {a : α} {b : β} (h : V a b) : Half R V (pure a) (pure b) := fun _ _ hR => ⟨b, _, rfl, h, hR⟩

theorem pure (a : α) : Half R Eq (Pure.pure a) (Pure.pure a) := pure' rfl

theorem lift (x : Res α) : Half R Eq (liftM x : HM S α) (liftM x : HM T α) := by
  intro s t hR
  cases x with
  | ok a => exact ⟨a, t, rfl, rfl, hR⟩
  | panic => exact rfl
  | diverge => trivial

theorem bind {m : HM S α} {m' : HM T β} {f : α → HM S γ} {f' : β → HM T δ} (h : Half R V m m')
    (hf : ∀ a b, V a b → Half R W (f a) (f' b)) : Half R W (m >>= f) (m' >>= f') := by
  intro s t hR
  have := h s t hR
  show match (m s >>= fun p => f p.1 p.2) with | .diverge => True | .panic => _ | .ok (a, s') => _
  change match (m s >>= fun p => f p.1 p.2) with
    | .diverge => True
    | .panic => (m' t >>= fun p => f' p.1 p.2) = .panic
    | .ok (a, s') => ∃ b t', (m' t >>= fun p => f' p.1 p.2) = .ok (b, t') ∧ W a b ∧ R s' t'
  cases hm : m s with
  | ok p =>
    obtain ⟨a, s'⟩ := p
    rw [hm] at this
    obtain ⟨b, t', h1, h2, h3⟩ := this
    rw [h1]
    exact hf a b h2 s' t' h3
  | panic =>
    rw [hm] at this
    rw [show m' t = .panic from this]; rfl
  | diverge => trivial

theorem bindE {m : HM S α} {m' : HM T α} {f : α → HM S γ} {f' : α → HM T δ} (h : Half R Eq m m')
    (hf : ∀ a, Half R W (f a) (f' a)) : Half R W (m >>= f) (m' >>= f') :=
  h.bind fun a _ e => e ▸ hf a

theorem get : Half R R (MonadState.get : HM S S) (MonadState.get : HM T T) := fun _ t hR => ⟨t, t, rfl, hR, hR⟩

theorem modify {f : S → S} {g : T → T} (h : ∀ s t, R s t → R (f s) (g t)) :
    Half R Eq (modify f : HM S Unit) (modify g : HM T Unit) := fun s t hR => ⟨(), g t, rfl, rfl, h s t hR⟩

theorem ite {p : Prop} [Decidable p] {a b : HM S α} {a' b' : HM T β} (h1 : p → Half R V a a') (h2 : ¬ p → Half R V b b') :
    Half R V (if p then a else b) (if p then a' else b') := by
  split
  · exact h1 ‹_›
  · exact h2 ‹_›

theorem loop {n i : Nat} {a : α} {f : Nat → α → HM S α} {f' : Nat → α → HM T α}
    (h : ∀ i a, Half R Eq (f i a) (f' i a)) : Half R Eq (HM.loop n i a f) (HM.loop n i a f') := by
  induction n generalizing i a with
  | zero => exact pure a
  | succ n ih => exact (h i a).bindE fun a => ih

theorem range {lo hi : Nat} {a : α} {f : Nat → α → HM S α} {f' : Nat → α → HM T α}
    (h : ∀ i a, Half R Eq (f i a) (f' i a)) : Half R Eq (HM.range lo hi a f) (HM.range lo hi a f') := loop h

theorem on {B C : Type} {Q : B → C → Prop} {gB : B → S} {pB : B → S → B} {gC : C → T} {pC : C → T → C}
    (h1 : ∀ b c, Q b c → R (gB b) (gC c)) (h2 : ∀ b c s t, Q b c → R s t → Q (pB b s) (pC c t))
    {m : HM S α} {m' : HM T β} (h : Half R V m m') : Half Q V (m.on gB pB) (m'.on gC pC) := by
  intro b c hQ
  have := h _ _ (h1 b c hQ)
  unfold HM.on
  cases hm : m (gB b) with
  | ok p =>
    obtain ⟨a, s'⟩ := p
    rw [hm] at this
    obtain ⟨x, t', g1, g2, g3⟩ := this
    rw [g1]
    exact ⟨x, pC c t', rfl, g2, h2 b c s' t' hQ g3⟩
  | panic =>
    rw [hm] at this
    rw [show m' (gC c) = .panic from this]; rfl
  | diverge => trivial

/-- The receivers stay as they are; the results are compared. -/
theorem look {f : S → Res α} {f' : T → Res α} (h : ∀ s t, R s t → f s = f' t) : Half R Eq (HM.look f) (HM.look f') := by
  intro s t hR
  unfold HM.look
  rw [h s t hR]
  cases f' t with
  | ok a => exact ⟨a, t, rfl, rfl, hR⟩
  | panic => exact rfl
  | diverge => trivial

/-- What follows for a single run. -/
theorem ok {m : HM S α} {m' : HM T β} (h : Half R V m m') {s : S} {t : T} (hR : R s t) {a : α} {s' : S} (hm : m s = .ok (a, s')) :
    ∃ b t', m' t = .ok (b, t') ∧ V a b ∧ R s' t' := by
  have := h s t hR
  rw [hm] at this; exact this

theorem admissible_half {x : T → Res (β × T)} : admissible (fun f : HM S α => Half R V f x) := by
  apply admissible_pi_apply (fun s (y : Res (α × S)) => ∀ t, R s t → match y with
    | .diverge => True
    | .panic => x t = .panic
    | .ok (a, s') => ∃ b t', x t = .ok (b, t') ∧ V a b ∧ R s' t')
  intro s
  apply admissible_flatOrder
  intro t _
  trivial

end Half

/-- One step of comparing two programs call by call. -/
macro "half1" : tactic => `(tactic| first
  | apply Half.lift
  | apply Half.pure
  | (apply Half.ite <;> intro _)
  | (apply Half.bindE (Half.lift _); intro _)
  | (apply Half.bindE (Half.ite ?_ ?_))
  | (apply Half.range; intro _ _))

/-- The methods of `h`, called on related receivers, do what those of `h'` do, as far as they end. -/
structure Mimics (R : S → T → Prop) (h : HVec w S) (h' : HVec w T) : Prop where
  bitLen : Half R Eq h.bitLen h'.bitLen
  blockLen : Half R Eq h.blockLen h'.blockLen
  getBit : ∀ i, Half R Eq (h.getBit i) (h'.getBit i)
  getBlock : ∀ i, Half R Eq (h.getBlock i) (h'.getBlock i)
  getBits : ∀ i n, Half R Eq (h.getBits i n) (h'.getBits i n)

structure MimicsMut (R : S → T → Prop) (h : HVecMut w S) (h' : HVecMut w T) : Prop extends
    Mimics R h.toHVec h'.toHVec where
  setBit : ∀ i b, Half R Eq (h.setBit i b) (h'.setBit i b)
  setBlock : ∀ i x, Half R Eq (h.setBlock i x) (h'.setBlock i x)
  setBits : ∀ i n x, Half R Eq (h.setBits i n x) (h'.setBits i n x)

structure MimicsPush (R : S → T → Prop) (h : HVecPush w S) (h' : HVecPush w T) : Prop extends
    MimicsMut R h.toHVecMut h'.toHVecMut where
  pushBit : ∀ b, Half R Eq (h.pushBit b) (h'.pushBit b)
  popBit : Half R Eq h.popBit h'.popBit
  alignBlock : ∀ b, Half R Eq (h.alignBlock b) (h'.alignBlock b)
  pushBlock : ∀ x, Half R Eq (h.pushBlock x) (h'.pushBlock x)

namespace Hidden
variable {w : Nat} {S T : Type} {R : S → T → Prop} (c : Cfg)

/-! ### The default methods -/
section
variable {bitLen : HM S Nat} {bitLen' : HM T Nat} {blockLen : HM S Nat} {blockLen' : HM T Nat}
  {getBlock : Nat → HM S (BitVec w)} {getBlock' : Nat → HM T (BitVec w)} {getBit : Nat → HM S Bool} {getBit' : Nat → HM T Bool}
  {setBlock : Nat → BitVec w → HM S Unit} {setBlock' : Nat → BitVec w → HM T Unit}
  {setBit : Nat → Bool → HM S Unit} {setBit' : Nat → Bool → HM T Unit}
  {pushBit : Bool → HM S Unit} {pushBit' : Bool → HM T Unit}
  {alignBlock : Bool → HM S Unit} {alignBlock' : Bool → HM T Unit}
  (hbl : Half R Eq bitLen bitLen') (hkl : Half R Eq blockLen blockLen')
  (hb : ∀ i, Half R Eq (getBlock i) (getBlock' i)) (hg : ∀ i, Half R Eq (getBit i) (getBit' i))
  (hsb : ∀ i x, Half R Eq (setBlock i x) (setBlock' i x)) (hst : ∀ i x, Half R Eq (setBit i x) (setBit' i x))
  (hp : ∀ b, Half R Eq (pushBit b) (pushBit' b)) (ha : ∀ b, Half R Eq (alignBlock b) (alignBlock' b))
include hbl

theorem half_blockLen : Half R Eq (Hidden.blockLen c w bitLen) (Hidden.blockLen c w bitLen') := by
  refine hbl.bindE fun n => ?_
  repeat half1

include hb in
theorem half_getBit (p : Nat) : Half R Eq (Hidden.getBit c bitLen getBlock p) (Hidden.getBit c bitLen' getBlock' p) := by
  refine hbl.bindE fun n => ?_
  half1; half1
  refine (hb _).bindE fun b => ?_
  half1

omit hbl in
include hbl hkl hg in
theorem half_getBlock (p : Nat) : Half R Eq (Hidden.getBlock (w := w) c bitLen blockLen getBit p)
    (Hidden.getBlock c bitLen' blockLen' getBit' p) := by
  refine hkl.bindE fun n => ?_
  half1; half1
  refine (Half.range fun i r => ?_).bindE fun r => by half1
  unfold getBlockStep
  half1
  refine hbl.bindE fun n => ?_
  refine (Half.ite (fun _ => ?_) (fun _ => ?_)).bindE fun b => ?_
  · half1; exact hg _
  · half1
  · half1; half1

include hb in
theorem half_getBits (p n : Nat) : Half R Eq (Hidden.getBits c bitLen getBlock p n) (Hidden.getBits c bitLen' getBlock' p n) := by
  unfold Hidden.getBits
  half1
  refine hbl.bindE fun n => ?_
  half1; half1; half1; half1
  · refine (hb _).bindE fun b => ?_
    half1
  · half1
    refine (hb _).bindE fun b => ?_
    half1
    refine (hb _).bindE fun b => ?_
    half1; half1; half1; half1

include hb hsb in
theorem half_setBit (p : Nat) (b : Bool) : Half R Eq (Hidden.setBit c bitLen getBlock setBlock p b)
    (Hidden.setBit c bitLen' getBlock' setBlock' p b) := by
  unfold Hidden.setBit
  refine hbl.bindE fun n => ?_
  half1; half1
  refine (hb _).bindE fun b => ?_
  half1
  exact hsb _ _

include hkl hst in
theorem half_setBlock (p : Nat) (x : BitVec w) : Half R Eq (Hidden.setBlock c bitLen blockLen setBit p x)
    (Hidden.setBlock c bitLen' blockLen' setBit' p x) := by
  unfold Hidden.setBlock
  half1
  refine hkl.bindE fun n => ?_
  refine (Half.ite (fun _ => ?_) (fun _ => ?_)).bindE fun b => ?_
  · exact hbl.bindE fun n => by half1
  · half1
  · half1
    refine (Half.range fun i r => ?_).bindE fun r => by half1
    unfold setBlockStep
    half1
    exact (hst _ _).bindE fun _ => by half1

include hb hsb in
theorem half_setBits (p n : Nat) (x : BitVec w) : Half R Eq (Hidden.setBits c bitLen getBlock setBlock p n x)
    (Hidden.setBits c bitLen' getBlock' setBlock' p n x) := by
  unfold Hidden.setBits
  half1
  refine hbl.bindE fun n => ?_
  half1; half1; half1; half1
  · refine (hb _).bindE fun b => ?_
    half1
    exact hsb _ _
  · half1
    refine (hb _).bindE fun b => ?_
    half1
    refine (hb _).bindE fun b => ?_
    half1; half1; half1
    refine (hsb _ _).bindE fun b => ?_
    half1
    exact hsb _ _

include hp in
theorem half_alignBlock (b : Bool) : Half R Eq (Hidden.alignBlock c w bitLen pushBit b) (Hidden.alignBlock c w bitLen' pushBit' b) := by
  refine Hidden.alignBlock.fixpoint_induct c w bitLen pushBit b
    (fun f => Half R Eq f (Hidden.alignBlock c w bitLen' pushBit' b)) Half.admissible_half ?_
  intro f ih
  rw [Hidden.alignBlock.eq_def]
  refine hbl.bindE fun n => ?_
  half1; half1
  · exact (hp _).bindE fun _ => ih
  · half1

omit hbl in
include ha hp in
theorem half_pushBlock (x : BitVec w) : Half R Eq (Hidden.pushBlock c alignBlock pushBit x)
    (Hidden.pushBlock c alignBlock' pushBit' x) := by
  refine (ha _).bindE fun _ => ?_
  refine (Half.range fun i r => ?_).bindE fun r => by half1
  exact (hp _).bindE fun _ => by half1

end

/-! ### Slices -/

/-- Two slices of related vectors. -/
def SliceRel (R : S → T → Prop) (a : Slice S) (b : Slice T) : Prop := R a.data b.data ∧ a.start = b.start ∧ a.len = b.len

theorem half_base {m : HM S α} {m' : HM T β} {V : α → β → Prop} (h : Half R V m m') : Half (SliceRel R) V (base m) (base m') :=
  Half.on (fun _ _ h => h.1) (fun _ _ _ _ h h' => ⟨h', h.2⟩) h

theorem half_sliceGetBits {h : HVec w S} {h' : HVec w T} (hh : Mimics R h h') (p n : Nat) :
    Half (SliceRel R) Eq (sliceGetBits c h p n) (sliceGetBits c h' p n) := by
  refine Half.get.bind fun a b hab => ?_
  rw [hab.2.1, hab.2.2]
  half1; half1; half1
  exact half_base (hh.getBits _ _)

theorem mimics_slice {h : HVec w S} {h' : HVec w T} (hh : Mimics R h h') : Mimics (SliceRel R) (slice c h) (slice c h') where
  bitLen := Half.look fun _ _ h => by rw [h.2.2]
  blockLen := half_blockLen c (Half.look fun _ _ h => by rw [h.2.2])
  getBit i := by
    refine Half.get.bind fun a b hab => ?_
    rw [hab.2.1, hab.2.2]
    half1; half1
    exact half_base (hh.getBit _)
  getBlock i := by
    unfold slice
    half1
    exact half_sliceGetBits c hh _ _
  getBits := half_sliceGetBits c hh

theorem half_sliceSetBits {h : HVecMut w S} {h' : HVecMut w T} (hh : MimicsMut R h h') (p n : Nat) (x : BitVec w) :
    Half (SliceRel R) Eq (sliceSetBits c h p n x) (sliceSetBits c h' p n x) := by
  refine Half.get.bind fun a b hab => ?_
  rw [hab.2.1, hab.2.2]
  half1; half1; half1
  exact half_base (hh.setBits _ _ _)

theorem mimics_sliceMut {h : HVecMut w S} {h' : HVecMut w T} (hh : MimicsMut R h h') :
    MimicsMut (SliceRel R) (sliceMut c h) (sliceMut c h') where
  toMimics := mimics_slice c hh.toMimics
  setBit i x := by
    refine Half.get.bind fun a b hab => ?_
    rw [hab.2.1, hab.2.2]
    half1; half1
    exact half_base (hh.setBit _ _)
  setBlock i x := by
    unfold sliceMut
    half1
    exact half_sliceSetBits c hh _ _ _
  setBits := half_sliceSetBits c hh

/-! ### Rank -/

/-- The methods of `r` do what those of `r'` do. -/
structure MimicsRank (R : S → T → Prop) (r : HRank S) (r' : HRank T) : Prop where
  limit : Half R Eq r.limit r'.limit
  rank : ∀ p v, Half R Eq (r.rank p v) (r'.rank p v)
  rank1 : ∀ p, Half R Eq (r.rank1 p) (r'.rank1 p)
  rank0 : ∀ p, Half R Eq (r.rank0 p) (r'.rank0 p)

theorem mimics_rankBy {l : HM S Nat} {l' : HM T Nat} {r : Nat → HM S Nat} {r' : Nat → HM T Nat} (hl : Half R Eq l l')
    (hr : ∀ p, Half R Eq (r p) (r' p)) : MimicsRank R (rankBy c l r) (rankBy c l' r') := by
  have h0 : ∀ p, Half R Eq (rank0 c r p) (rank0 c r' p) := fun p => by
    unfold rank0
    half1
    exact (hr p).bindE fun _ => by half1
  exact ⟨hl, fun p v => Half.ite (fun _ => hr p) (fun _ => h0 p), hr, h0⟩

/-- Two Jacobson structures with the same tables over related vectors. -/
def JacobsonRel (R : S → T → Prop) (a : Jacobson S) (b : Jacobson T) : Prop :=
  R a.bitStore b.bitStore ∧ a.largeBlockSize = b.largeBlockSize ∧ a.largeBlockRanks = b.largeBlockRanks ∧
    a.smallBlockRanks = b.smallBlockRanks

theorem half_inJacobson {m : HM S α} {m' : HM T β} {V : α → β → Prop} (h : Half R V m m') :
    Half (JacobsonRel R) V (inJacobson m) (inJacobson m') :=
  Half.on (fun _ _ h => h.1) (fun _ _ _ _ h h' => ⟨h', h.2⟩) h

theorem half_jacobsonParts {h : HVec w S} {h' : HVec w T} (hh : Mimics R h h') :
    Half R Eq (jacobsonParts c h) (jacobsonParts c h') := by
  unfold jacobsonParts
  refine hh.bitLen.bindE fun n => ?_
  iterate 14 half1
  refine hh.blockLen.bindE fun n => ?_
  refine (Half.range fun i l => ?_).bindE fun r => by repeat half1
  unfold jacobsonStep
  refine (Half.ite (fun _ => ?_) (fun _ => ?_)).bindE fun b => ?_
  · half1; half1
  · half1
  · half1; half1
    exact (hh.getBlock _).bindE fun b => by repeat half1

theorem mimics_jacobson {h : HVec w S} {h' : HVec w T} (hh : Mimics R h h') :
    MimicsRank (JacobsonRel R) (jacobson c h) (jacobson c h') := by
  refine mimics_rankBy c (half_inJacobson hh.bitLen) fun p => ?_
  refine Half.get.bind fun a b hab => ?_
  rw [hab.2.1, hab.2.2.1, hab.2.2.2]
  refine (half_inJacobson hh.bitLen).bindE fun n => ?_
  iterate 5 half1
  exact (half_inJacobson (hh.getBlock _)).bindE fun b => by repeat half1

/-- Two `Rank9` structures with the same counts over related vectors. -/
def Rank9Rel (R : S → T → Prop) (a : Rank9 S) (b : Rank9 T) : Prop := R a.bitStore b.bitStore ∧ a.counts = b.counts

theorem half_inRank9 {m : HM S α} {m' : HM T β} {V : α → β → Prop} (h : Half R V m m') :
    Half (Rank9Rel R) V (inRank9 m) (inRank9 m') :=
  Half.on (fun _ _ h => h.1) (fun _ _ _ _ h h' => ⟨h', h.2⟩) h

theorem half_rank9Parts {h : HVec 64 S} {h' : HVec 64 T} (hh : Mimics R h h') :
    Half R Eq (rank9Parts c h) (rank9Parts c h') := by
  unfold rank9Parts
  refine hh.blockLen.bindE fun n => ?_
  half1; half1
  refine hh.blockLen.bindE fun n => ?_
  refine (Half.range fun i l => ?_).bindE fun r => ?_
  · unfold rank9Step
    half1
    exact (hh.getBlock _).bindE fun b => by repeat half1
  · exact hh.blockLen.bindE fun n => by repeat half1

theorem mimics_rank9 {h : HVec 64 S} {h' : HVec 64 T} (hh : Mimics R h h') :
    MimicsRank (Rank9Rel R) (rank9 c h) (rank9 c h') := by
  refine mimics_rankBy c (half_inRank9 hh.bitLen) fun p => ?_
  refine Half.get.bind fun a b hab => ?_
  rw [hab.2]
  iterate 4 half1
  exact (half_inRank9 (hh.getBlock _)).bindE fun b => by repeat half1

/-! ### Select -/

theorem half_searchLoop {f : Nat → HM S Nat} {f' : Nat → HM T Nat} (hf : ∀ i, Half R Eq (f i) (f' i)) (bits value start limit : Nat) :
    Half R Eq (searchLoop c bits f value start limit) (searchLoop c bits f' value start limit) := by
  refine searchLoop.fixpoint_induct c bits f value
    (fun F => ∀ start limit, Half R Eq (F start limit) (searchLoop c bits f' value start limit)) ?_ ?_ start limit
  · refine admissible_pi_apply (fun start (F : Nat → HM S (Option Nat)) => ∀ limit, Half R Eq (F limit)
      (searchLoop c bits f' value start limit)) fun start => ?_
    exact admissible_pi_apply (fun limit (F : HM S (Option Nat)) => Half R Eq F
      (searchLoop c bits f' value start limit)) fun limit => Half.admissible_half
  intro F ih start limit
  rw [searchLoop.eq_def]
  half1
  · half1
    refine (hf _).bindE fun y => ?_
    half1
    · half1
      refine (hf _).bindE fun z => ?_
      half1
      · half1
      · exact ih _ _
    · half1
      exact ih _ _
  · half1

theorem half_binarySearch {f : Nat → HM S Nat} {f' : Nat → HM T Nat} (hf : ∀ i, Half R Eq (f i) (f' i)) (bits start limit value : Nat) :
    Half R Eq (binarySearch c bits start limit value f) (binarySearch c bits start limit value f') := by
  unfold binarySearch
  half1
  · half1
  · refine (hf _).bindE fun y => ?_
    half1
    · half1
    · half1
      exact half_searchLoop c hf _ _ _ _

/-- Two select structures over related rank structures. -/
def SelectRel (R : S → T → Prop) (a : BinSearchSelect S) (b : BinSearchSelect T) : Prop := R a.rankSupport b.rankSupport

theorem half_inSelect {m : HM S α} {m' : HM T β} {V : α → β → Prop} (h : Half R V m m') :
    Half (SelectRel R) V (inSelect m) (inSelect m') :=
  Half.on (R := R) (fun a b (h : SelectRel R a b) => h) (fun _ _ _ _ _ h' => h') h

theorem half_selectBy {r : HRank S} {r' : HRank T} {f : Nat → HM S Nat} {f' : Nat → HM T Nat} (hl : Half R Eq r.limit r'.limit)
    (hf : ∀ i, Half R Eq (f i) (f' i)) (k : Nat) : Half (SelectRel R) Eq (selectBy c r f k) (selectBy c r' f' k) := by
  refine (half_inSelect hl).bindE fun n => ?_
  half1
  exact half_binarySearch c (fun i => half_inSelect (hf i)) _ _ _ _

/-! ### `BitBuffer` -/

/-- Two buffers at the same position over related vectors. -/
def BufRel (R : S → T → Prop) (a : BitBuf S) (b : BitBuf T) : Prop := R a.data b.data ∧ a.pos = b.pos

theorem half_inBuf {m : HM S α} {m' : HM T β} {V : α → β → Prop} (h : Half R V m m') :
    Half (BufRel R) V (inBuf m) (inBuf m') :=
  Half.on (fun _ _ h => h.1) (fun _ _ _ _ h h' => ⟨h', h.2⟩) h

theorem mimics_buf {h : HVec w S} {h' : HVec w T} (hh : Mimics R h h') : Mimics (BufRel R) (buf c h) (buf c h') := by
  have h1 := half_inBuf hh.bitLen
  have h2 := half_inBuf hh.blockLen
  have h3 := fun i => half_inBuf (hh.getBlock i)
  have h4 := half_getBit c h1 h3
  have h5 := half_getBits c h1 h3
  exact ⟨h1, h2, h4, h3, h5⟩

theorem mimics_bufMut {h : HVecMut w S} {h' : HVecMut w T} (hh : MimicsMut R h h') :
    MimicsMut (BufRel R) (bufMut c h) (bufMut c h') := by
  have h1 := half_inBuf hh.bitLen
  have h3 := fun i => half_inBuf (hh.getBlock i)
  have h6 := fun i x => half_inBuf (hh.setBlock i x)
  have h4 := half_setBit c h1 h3 h6
  have h5 := half_setBits c h1 h3 h6
  exact ⟨mimics_buf c hh.toMimics, h4, h6, h5⟩

theorem half_bufReadBit {h : HVec w S} {h' : HVec w T} (hh : Mimics R h h') :
    Half (BufRel R) Eq (bufReadBit c h) (bufReadBit c h') := by
  refine Half.get.bind fun a b hab => ?_
  rw [hab.2]
  refine (mimics_buf c hh).bitLen.bindE fun n => ?_
  half1
  · refine ((mimics_buf c hh).getBit _).bindE fun r => ?_
    half1
    refine (Half.modify fun a b h => ?_).bindE fun _ => by half1
    exact ⟨h.1, rfl⟩
  · half1

theorem half_bufPad {h : HVecPush w S} {h' : HVecPush w T} (hh : MimicsPush R h h') :
    Half (BufRel R) Eq (bufPad c h) (bufPad c h') := by
  refine bufPad.fixpoint_induct c h (fun f => Half (BufRel R) Eq f (bufPad c h')) Half.admissible_half ?_
  intro f ih
  rw [bufPad.eq_def]
  refine Half.get.bind fun a b hab => ?_
  rw [hab.2]
  refine (mimics_buf c hh.toMimics).bitLen.bindE fun n => ?_
  half1
  · exact (half_inBuf (hh.pushBit _)).bindE fun _ => ih
  · half1

theorem half_bufWriteBit {h : HVecPush w S} {h' : HVecPush w T} (hh : MimicsPush R h h') (x : Bool) :
    Half (BufRel R) Eq (bufWriteBit c h x) (bufWriteBit c h' x) := by
  refine (half_bufPad c hh).bindE fun _ => ?_
  refine Half.get.bind fun a b hab => ?_
  rw [hab.2]
  refine ((mimics_bufMut c hh.toMimicsMut).setBit _ _).bindE fun _ => ?_
  half1
  exact Half.modify fun a b h => ⟨h.1, rfl⟩

end Hidden
end Succinct
