import Verif.Lemmas.Hidden
/-! Without hidden state, the generic code of `Model/Hidden.lean` is that of the other models. -/
namespace Succinct
open Lean.Order

namespace HM
variable {S B α β : Type}

theorem look_bind (f : S → Res α) (g : α → HM S β) (s : S) : (look f >>= g) s = f s >>= fun a => g a s := by
  show ((f s >>= fun a => Res.ok (a, s)) >>= fun p => g p.1 p.2) = _
  cases f s <;> rfl
theorem act_bind (f : S → Res S) (g : Unit → HM S β) (s : S) : (act f >>= g) s = f s >>= fun s => g () s := by
  show ((f s >>= fun s => Res.ok ((), s)) >>= fun p => g p.1 p.2) = _
  cases f s <;> rfl
theorem lift_bind (x : Res α) (g : α → HM S β) (s : S) : ((liftM x : HM S α) >>= g) s = x >>= fun a => g a s := by
  show ((x >>= fun a => Res.ok (a, s)) >>= fun p => g p.1 p.2) = _
  cases x <;> rfl
theorem lift_run (x : Res α) (s : S) : (liftM x : HM S α) s = x >>= fun a => .ok (a, s) := rfl
theorem pure_run (a : α) (s : S) : (pure a : HM S α) s = .ok (a, s) := rfl
theorem get_bind (g : S → HM S β) (s : S) : ((get : HM S S) >>= g) s = g s s := rfl
theorem modify_bind (f : S → S) (g : Unit → HM S β) (s : S) : ((modify f : HM S Unit) >>= g) s = g () (f s) := rfl
theorem modify_run (f : S → S) (s : S) : (modify f : HM S Unit) s = .ok ((), f s) := rfl
theorem bind_run (m : HM S α) (g : α → HM S β) (s : S) : (m >>= g) s = m s >>= fun p => g p.1 p.2 := rfl
theorem ite_run {p : Prop} [Decidable p] (a b : HM S α) (s : S) : (if p then a else b) s = if p then a s else b s := by
  split <;> rfl
theorem ite_bind {p : Prop} [Decidable p] (a b : HM S α) (f : α → HM S β) :
    ((if p then a else b) >>= f) = if p then a >>= f else b >>= f := by
  split <;> rfl
theorem pure_bind (a : α) (f : α → HM S β) : ((pure a : HM S α) >>= f) = f a := rfl
theorem bind_assoc (m : HM S α) (f : α → HM S β) (g : β → HM S γ) : (m >>= f) >>= g = m >>= fun a => f a >>= g := by
  funext s
  simp only [bind_run]
  cases m s <;> rfl
theorem look_run (f : S → Res α) (s : S) : look f s = f s >>= fun a => .ok (a, s) := rfl
theorem act_run (f : S → Res S) (s : S) : act f s = f s >>= fun s => .ok ((), s) := rfl
theorem res_ite {p : Prop} [Decidable p] (a b : Res α) (f : α → Res β) :
    ((if p then a else b) >>= f) = if p then a >>= f else b >>= f := by
  split <;> rfl

theorem on_look (gt : B → S) (pt : B → S → B) (h : ∀ b, pt b (gt b) = b) (f : S → Res α) :
    (look f).on gt pt = look fun b => f (gt b) := by
  funext b
  unfold on
  rw [look_run, look_run]
  cases f (gt b) with
  | ok a => show Res.ok (a, pt b (gt b)) = _; rw [h]; rfl
  | panic => rfl
  | diverge => rfl

theorem on_act (gt : B → S) (pt : B → S → B) (f : S → Res S) :
    (act f).on gt pt = act fun b => f (gt b) >>= fun s => .ok (pt b s) := by
  funext b
  unfold on
  rw [act_run, act_run]
  cases f (gt b) <;> rfl

/-- A loop that leaves the receiver as it is. -/
theorem loop_look (n i : Nat) (a : α) (f : Nat → α → S → Res α) (s : S) :
    loop n i a (fun i a => look (f i a)) s = forLoop n i a (fun i a => f i a s) >>= fun a => .ok (a, s) := by
  induction n generalizing i a with
  | zero => rfl
  | succ n ih =>
    unfold loop
    rw [look_bind]
    show _ = (f i a s >>= fun a => forLoop n (i + 1) a fun i a => f i a s) >>= _
    cases f i a s with
    | ok a => exact ih _ _
    | _ => rfl

/-- A loop whose body changes the receiver and the local variable. -/
theorem loop_swap (n i : Nat) (a : α) (f : Nat → α → HM S α) (g : Nat → S × α → Res (S × α))
    (h : ∀ i a s, f i a s = g i (s, a) >>= fun p => .ok (p.2, p.1)) (s : S) :
    loop n i a f s = forLoop n i (s, a) g >>= fun p => .ok (p.2, p.1) := by
  induction n generalizing i a s with
  | zero => rfl
  | succ n ih =>
    unfold loop
    rw [bind_run, h]
    show _ = (g i (s, a) >>= fun p => forLoop n (i + 1) p g) >>= _
    cases g i (s, a) with
    | ok p => exact ih _ _ _
    | _ => rfl

end HM

theorem Res.bind_bind (x : Res α) (f : α → Res β) (g : β → Res γ) : (x >>= f) >>= g = x >>= fun a => f a >>= g := by
  cases x <;> rfl

/-- Run both sides on a receiver. -/
macro "still" : tactic => `(tactic| (funext s; simp only [HM.look_bind, HM.act_bind, HM.lift_bind, HM.lift_run, HM.pure_run, HM.get_bind,
  HM.modify_bind, HM.modify_run, HM.look_run, HM.act_run, HM.ite_run, HM.ite_bind, HM.pure_bind, HM.bind_assoc, HM.res_ite, Res.bind_bind, Res.ok_bind]))

namespace Hidden
variable {w : Nat} {S : Type} (c : Cfg)

section
variable (bl kl : S → Res Nat) (gb : S → Nat → Res (BitVec w)) (gt : S → Nat → Res Bool)
  (sb : S → Nat → BitVec w → Res S) (st : S → Nat → Bool → Res S) (pb : S → Bool → Res S) (ab : S → Bool → Res S)

theorem still_blockLen : blockLen c w (HM.look bl) = HM.look (dfltBlockLen c w bl) := by
  unfold blockLen dfltBlockLen
  still

theorem still_getBit (p : Nat) : getBit c (HM.look bl) (fun i => HM.look fun s => gb s i) p =
    HM.look fun s => dfltGetBit c bl gb s p := by
  unfold getBit dfltGetBit
  still

theorem still_getBlock (p : Nat) : getBlock (w := w) c (HM.look bl) (HM.look kl) (fun i => HM.look fun s => gt s i) p =
    HM.look fun s => dfltGetBlock c bl kl gt s p := by
  unfold getBlock dfltGetBlock
  still
  refine congrArg _ (funext fun m => congrArg _ (funext fun _ => congrArg _ (funext fun q => ?_)))
  have h : ∀ q, getBlockStep (w := w) c (HM.look bl) (fun i => HM.look fun s => gt s i) q =
      fun i r => HM.look fun s => (do
        let p ← addN c 64 q i
        let n ← bl s
        let b ← (if p < n then do
            let p ← addN c 64 q i
            gt s p
          else .ok false)
        let mask ← shlB c r.2 1
        .ok (if b then r.1 ||| r.2 else r.1, mask)) := by
    intro q
    funext i r
    unfold getBlockStep
    still
  rw [HM.bind_run, h]
  unfold HM.range forRange
  rw [HM.loop_look, Res.bind_bind]
  simp only [HM.res_ite, Res.bind_bind, Res.ok_bind]
  rfl

theorem still_getBits (p n : Nat) : getBits c (HM.look bl) (fun i => HM.look fun s => gb s i) p n =
    HM.look fun s => dfltGetBits c bl gb s p n := by
  unfold getBits dfltGetBits
  still

theorem still_setBit (p : Nat) (b : Bool) : setBit c (HM.look bl) (fun i => HM.look fun s => gb s i)
    (fun i x => HM.act fun s => sb s i x) p b = HM.act fun s => dfltSetBit c bl gb sb s p b := by
  unfold setBit dfltSetBit
  still

theorem still_setBits (p n : Nat) (x : BitVec w) : setBits c (HM.look bl) (fun i => HM.look fun s => gb s i)
    (fun i x => HM.act fun s => sb s i x) p n x = HM.act fun s => dfltSetBits c bl gb sb s p n x := by
  unfold setBits dfltSetBits
  still

theorem still_setBlock (p : Nat) (x : BitVec w) : setBlock c (HM.look bl) (HM.look kl)
    (fun i b => HM.act fun s => st s i b) p x = HM.act fun s => dfltSetBlock c bl kl st s p x := by
  unfold setBlock dfltSetBlock
  still
  have h : ∀ q m s, HM.range 0 m x (setBlockStep c (fun i b => HM.act fun s => st s i b) q) s =
      forRange 0 m (s, x) (fun i p => (do
        let bit := p.2 &&& 1 != 0
        let q ← addN c 64 q i
        let s ← st p.1 q bit
        let value ← shrB c p.2 1
        .ok (s, value))) >>= fun p => .ok (p.2, p.1) := by
    intro q m s
    unfold HM.range forRange
    refine HM.loop_swap _ _ _ _ _ ?_ s
    intro i a s
    unfold setBlockStep
    revert s
    refine funext_iff.mp ?_
    still
  simp only [HM.bind_run, h, Res.bind_bind, Res.ok_bind]
  rfl

theorem still_pushBlock (x : BitVec w) : pushBlock c (fun b => HM.act fun s => ab s b) (fun b => HM.act fun s => pb s b) x =
    HM.act fun s => dfltPushBlock c ab pb s x := by
  unfold pushBlock dfltPushBlock
  still
  have h : ∀ s, HM.range 0 w x (pushBlockStep c (fun b => HM.act fun s => pb s b)) s =
      forRange 0 w (s, x) (fun _ p => (do
        let s ← pb p.1 (p.2 &&& 1 != 0)
        let value ← shrB c p.2 1
        .ok (s, value))) >>= fun p => .ok (p.2, p.1) := by
    intro s
    unfold HM.range forRange
    refine HM.loop_swap _ _ _ _ _ ?_ s
    intro i a s
    unfold pushBlockStep
    revert s
    refine funext_iff.mp ?_
    still
  simp only [HM.bind_run, h, Res.bind_bind, Res.ok_bind]
  rfl

theorem bind_mono_right' {α β : Type} (x : Res α) {f g : α → Res β} (h : ∀ a, f a ⊑ g a) : (x >>= f) ⊑ (x >>= g) := by
  cases x with
  | ok a => exact h a
  | panic => exact FlatOrder.rel.refl
  | diverge => exact FlatOrder.rel.refl

theorem still_alignBlock (b : Bool) : alignBlock c w (HM.look bl) (fun b => HM.act fun s => pb s b) b =
    HM.act fun s => dfltAlignBlock c w bl pb s b := by
  funext s
  apply PartialOrder.rel_antisymm
  · refine alignBlock.fixpoint_induct c w (HM.look bl) (fun b => HM.act fun s => pb s b) b
      (fun f => ∀ s, f s ⊑ (HM.act fun s => dfltAlignBlock c w bl pb s b) s) ?_ ?_ s
    · exact admissible_pi_apply (fun s (x : Res (Unit × S)) => x ⊑ (HM.act fun s => dfltAlignBlock c w bl pb s b) s)
        fun s => admissible_flatOrder _ FlatOrder.rel.bot
    · intro f ih s
      rw [HM.act_run, dfltAlignBlock.eq_def]
      simp only [HM.look_bind, HM.lift_bind, HM.ite_run, HM.act_bind, HM.pure_run, HM.res_ite, Res.bind_bind, Res.ok_bind]
      refine bind_mono_right' _ fun n => bind_mono_right' _ fun m => ?_
      split
      · exact bind_mono_right' _ fun s => ih s
      · exact PartialOrder.rel_refl
  · refine dfltAlignBlock.fixpoint_induct c w bl pb b
      (fun f => ∀ s, (f s >>= fun s => Res.ok ((), s)) ⊑ alignBlock c w (HM.look bl) (fun b => HM.act fun s => pb s b) b s) ?_ ?_ s
    · exact admissible_pi_apply (fun s (x : Res S) => (x >>= fun s => Res.ok ((), s)) ⊑
        alignBlock c w (HM.look bl) (fun b => HM.act fun s => pb s b) b s)
        fun s => admissible_flatOrder _ FlatOrder.rel.bot
    · intro f ih s
      rw [alignBlock.eq_def]
      simp only [HM.look_bind, HM.lift_bind, HM.ite_run, HM.act_bind, HM.pure_run, HM.res_ite, Res.bind_bind, Res.ok_bind]
      refine bind_mono_right' _ fun n => bind_mono_right' _ fun m => ?_
      split
      · exact bind_mono_right' _ fun s => ih s
      · exact PartialOrder.rel_refl

end

/-! ### Slices -/

theorem still_sliceNew (o : BitVecOps w S) (r : RangeArg) (s : S) : sliceNew o.still r s = Slice.new o s r := by
  unfold sliceNew Slice.new
  simp only [BitVecOps.still, HM.look_run, Res.bind_bind, Res.ok_bind]

theorem base_look (f : S → Res α) : base (HM.look f) = HM.look fun s => f s.data := HM.on_look _ _ (fun _ => rfl) f
theorem base_act (f : S → Res S) : base (HM.act f) = HM.act fun s => f s.data >>= fun d => .ok { s with data := d } := HM.on_act _ _ f

theorem still_sliceGetBits (o : BitVecOps w S) (p n : Nat) : sliceGetBits c o.still p n = HM.look fun s => Slice.getBits c o s p n := by
  unfold sliceGetBits Slice.getBits BitVecOps.still
  simp only [base_look]
  still

theorem still_slice (o : BitVecOps w S) : slice c o.still = (sliceBitVec c o).still := by
  have h : sliceGetBits c o.still = fun p n => HM.look fun s => Slice.getBits c o s p n := by
    funext p n; exact still_sliceGetBits c o p n
  unfold slice sliceBitVec Slice.getBit Slice.getBlock
  simp only [h, still_blockLen]
  simp only [BitVecOps.still, base_look]
  congr 1
  · funext p; still
  · funext p; still

theorem still_sliceSetBits (o : BitVecMutOps w S) (p n : Nat) (x : BitVec w) : sliceSetBits c o.still p n x =
    HM.act fun s => Slice.setBits c o s p n x := by
  unfold sliceSetBits Slice.setBits BitVecMutOps.still
  simp only [base_act]
  still

theorem still_sliceMut (o : BitVecMutOps w S) : sliceMut c o.still = (sliceBitVecMut c o).still := by
  have h : sliceSetBits c o.still = fun p n x => HM.act fun s => Slice.setBits c o s p n x := by
    funext p n x; exact still_sliceSetBits c o p n x
  unfold sliceMut sliceBitVecMut Slice.setBit Slice.setBlock
  simp only [h]
  simp only [BitVecMutOps.still, base_act, still_slice]
  congr 1
  · funext p x; still
  · funext p x; still

/-! ### Rank -/

/-- A rank structure without hidden state. -/
def stillRank (r : RankOps S) : HRank S where
  rank p v := HM.look fun s => r.rank s p v
  limit := HM.look r.limit
  rank1 p := HM.look fun s => r.rank1 s p
  rank0 p := HM.look fun s => r.rank0 s p

theorem still_rankBy (l : S → Res Nat) (r : S → Nat → Res Nat) : rankBy c (HM.look l) (fun p => HM.look fun s => r s p) =
    stillRank (rankOps c l r) := by
  have h0 : rank0 c (fun p => HM.look fun s => r s p) = fun p => HM.look fun s => dfltRank0 c r s p := by
    funext p
    unfold rank0 dfltRank0
    still
  unfold rankBy stillRank rankOps
  rw [h0]
  congr 1
  funext p v
  cases v <;> rfl

theorem inJacobson_look (f : S → Res α) : inJacobson (HM.look f) = HM.look fun s => f s.bitStore :=
  HM.on_look _ _ (fun _ => rfl) f

theorem still_jacobsonStep (o : BitVecOps w S) (k : Nat) : jacobsonStep c o.still k =
    fun i l => HM.look fun s => Jacobson.step c o s k i l := by
  funext i l
  unfold jacobsonStep Jacobson.step BitVecOps.still
  still

theorem still_jacobsonNew (o : BitVecOps w S) (s : S) : jacobsonNew c o.still s = Jacobson.new c o s := by
  unfold jacobsonNew jacobsonParts Jacobson.new
  simp only [still_jacobsonStep]
  simp only [BitVecOps.still, HM.bind_run, HM.look_run, HM.range, HM.loop_look, forRange, HM.lift_run, HM.pure_run,
    Res.bind_bind, Res.ok_bind]

theorem still_jacobson (o : BitVecOps w S) : jacobson c o.still = stillRank (Jacobson.ops c o) := by
  unfold jacobson Jacobson.ops
  have : jacobsonRank1 c o.still = fun p => HM.look fun s => Jacobson.rank1 c o s p := by
    funext p
    unfold jacobsonRank1 Jacobson.rank1 BitVecOps.still
    simp only [inJacobson_look]
    still
  rw [this]
  unfold BitVecOps.still
  rw [inJacobson_look, still_rankBy]

theorem inRank9_look (f : S → Res α) : inRank9 (HM.look f) = HM.look fun s => f s.bitStore :=
  HM.on_look _ _ (fun _ => rfl) f

theorem still_rank9Step (o : BitVecOps 64 S) : rank9Step c o.still = fun i l => HM.look fun s => Rank9.step c o s i l := by
  funext i l
  unfold rank9Step Rank9.step BitVecOps.still
  still

theorem still_rank9New (o : BitVecOps 64 S) (s : S) : rank9New c o.still s = Rank9.new c o s := by
  unfold rank9New rank9Parts Rank9.new
  simp only [still_rank9Step]
  simp only [BitVecOps.still, HM.bind_run, HM.look_run, HM.range, HM.loop_look, forRange, HM.lift_run, HM.pure_run,
    Res.bind_bind, Res.ok_bind]

theorem still_rank9 (o : BitVecOps 64 S) : rank9 c o.still = stillRank (Rank9.ops c o) := by
  unfold rank9 Rank9.ops
  have : rank9Rank1 c o.still = fun p => HM.look fun s => Rank9.rank1 c o s p := by
    funext p
    unfold rank9Rank1 Rank9.rank1 BitVecOps.still
    simp only [inRank9_look]
    still
  rw [this]
  unfold BitVecOps.still
  rw [inRank9_look, still_rankBy]

/-! ### Select -/

theorem inSelect_look (f : S → Res α) : inSelect (HM.look f) = HM.look fun s => f s.rankSupport :=
  HM.on_look _ _ (fun _ => rfl) f

theorem still_searchLoop (bits : Nat) (f : S → Nat → Res Nat) (value start limit : Nat) :
    searchLoop c bits (fun i => HM.look fun s => f s i) value start limit =
      HM.look fun s => Succinct.searchLoop c bits (f s) value start limit := by
  funext s
  apply PartialOrder.rel_antisymm
  · refine searchLoop.fixpoint_induct c bits (fun i => HM.look fun s => f s i) value
      (fun F => ∀ start limit s, F start limit s ⊑ (HM.look fun s => Succinct.searchLoop c bits (f s) value start limit) s)
      ?_ ?_ start limit s
    · refine admissible_pi_apply (fun start (F : Nat → HM S (Option Nat)) => ∀ limit s, F limit s ⊑
        (HM.look fun s => Succinct.searchLoop c bits (f s) value start limit) s) fun start => ?_
      refine admissible_pi_apply (fun limit (F : HM S (Option Nat)) => ∀ s, F s ⊑
        (HM.look fun s => Succinct.searchLoop c bits (f s) value start limit) s) fun limit => ?_
      exact admissible_pi_apply (fun s (x : Res (Option Nat × S)) => x ⊑
        (HM.look fun s => Succinct.searchLoop c bits (f s) value start limit) s) fun s =>
        admissible_flatOrder _ FlatOrder.rel.bot
    · intro F ih start limit s
      rw [HM.look_run, Succinct.searchLoop.eq_def]
      simp only [HM.look_bind, HM.lift_bind, HM.ite_run, HM.pure_run, HM.res_ite, Res.bind_bind, Res.ok_bind]
      split
      · refine bind_mono_right' _ fun m => bind_mono_right' _ fun y => ?_
        split
        · refine bind_mono_right' _ fun m => bind_mono_right' _ fun z => ?_
          split
          · exact PartialOrder.rel_refl
          · exact ih _ _ _
        · exact bind_mono_right' _ fun m => ih _ _ _
      · exact PartialOrder.rel_refl
  · refine Succinct.searchLoop.fixpoint_induct c bits (f s) value
      (fun F => ∀ start limit, (F start limit >>= fun a => Res.ok (a, s)) ⊑
        searchLoop c bits (fun i => HM.look fun s => f s i) value start limit s) ?_ ?_ start limit
    · refine admissible_pi_apply (fun start (F : Nat → Res (Option Nat)) => ∀ limit, (F limit >>= fun a => Res.ok (a, s)) ⊑
        searchLoop c bits (fun i => HM.look fun s => f s i) value start limit s) fun start => ?_
      exact admissible_pi_apply (fun limit (F : Res (Option Nat)) => (F >>= fun a => Res.ok (a, s)) ⊑
        searchLoop c bits (fun i => HM.look fun s => f s i) value start limit s) fun limit =>
        admissible_flatOrder _ FlatOrder.rel.bot
    · intro F ih start limit
      rw [searchLoop.eq_def]
      simp only [HM.look_bind, HM.lift_bind, HM.ite_run, HM.pure_run, HM.res_ite, Res.bind_bind, Res.ok_bind]
      split
      · refine bind_mono_right' _ fun m => bind_mono_right' _ fun y => ?_
        split
        · refine bind_mono_right' _ fun m => bind_mono_right' _ fun z => ?_
          split
          · exact PartialOrder.rel_refl
          · exact ih _ _
        · exact bind_mono_right' _ fun m => ih _ _
      · exact PartialOrder.rel_refl

theorem still_binarySearch (bits start limit value : Nat) (f : S → Nat → Res Nat) :
    binarySearch c bits start limit value (fun i => HM.look fun s => f s i) =
      HM.look fun s => Succinct.binarySearch c bits start limit value (f s) := by
  unfold binarySearch Succinct.binarySearch
  simp only [still_searchLoop]
  still

theorem still_selectBy (r : RankOps S) (rank : S → Nat → Res Nat) (k : Nat) :
    selectBy c (stillRank r) (fun i => HM.look fun s => rank s i) k = HM.look fun s => BinSearchSelect.selectBy c r rank s k := by
  unfold selectBy BinSearchSelect.selectBy stillRank
  simp only [inSelect_look]
  have := fun n v => still_binarySearch c 64 0 n v fun (s : BinSearchSelect S) i => rank s.rankSupport i
  simp only [this]
  still
  rfl

/-! ### `BitBuffer` -/

theorem inBuf_look (f : S → Res α) : inBuf (HM.look f) = HM.look fun s => f s.data := HM.on_look _ _ (fun _ => rfl) f
theorem inBuf_act (f : S → Res S) : inBuf (HM.act f) = HM.act fun s => f s.data >>= fun d => .ok { s with data := d } := HM.on_act _ _ f

theorem still_bufAppend (o : BitVecOps w S) (s : S) : bufAppend o.still s = BitBuf.append o s := by
  unfold bufAppend BitBuf.append
  simp only [BitVecOps.still, HM.look_run, Res.bind_bind, Res.ok_bind]

theorem still_bufSeek (o : BitVecOps w S) (p : Nat) : bufSeek o.still p = BitBuf.seek o p := by
  funext s
  unfold bufSeek BitBuf.seek
  simp only [BitVecOps.still, HM.look_run, Res.bind_bind, Res.ok_bind]

theorem still_buf (o : BitVecOps w S) : buf c o.still = (BitBuf.bitVec c o).still := by
  unfold buf BitBuf.bitVec BitVecOps.still
  simp only [inBuf_look]
  congr 1
  · funext p
    exact still_getBit c (fun s : BitBuf S => o.bitLen s.data) (fun s i => o.getBlock s.data i) p
  · funext p n
    exact still_getBits c (fun s : BitBuf S => o.bitLen s.data) (fun s i => o.getBlock s.data i) p n

theorem still_bufMut (o : BitVecMutOps w S) : bufMut c o.still = (BitBuf.bitVecMut c o).still := by
  have h1 : (BitVecMutOps.still o).toHVec = o.toBitVecOps.still := rfl
  unfold bufMut BitBuf.bitVecMut
  rw [h1, still_buf]
  unfold BitVecMutOps.still BitVecOps.still
  simp only [inBuf_look, inBuf_act]
  congr 1
  · funext p x
    exact still_setBit c (fun s : BitBuf S => o.bitLen s.data) (fun s i => o.getBlock s.data i)
      (fun s i x => o.setBlock s.data i x >>= fun d => .ok { s with data := d }) p x
  · funext p n x
    exact still_setBits c (fun s : BitBuf S => o.bitLen s.data) (fun s i => o.getBlock s.data i)
      (fun s i x => o.setBlock s.data i x >>= fun d => .ok { s with data := d }) p n x

theorem still_bufRead (o : BitVecOps w S) : bufRead c o.still = BitBuf.read c o := by
  unfold bufRead BitBuf.read bufReadBit
  rw [still_buf]
  congr 1
  funext s
  simp only [BitVecOps.still, HM.get_bind, HM.look_bind, HM.lift_bind, HM.ite_run, HM.modify_bind, HM.pure_run, HM.res_ite,
    Res.bind_bind, Res.ok_bind]

theorem still_bufPad (o : BitVecPushOps w S) : bufPad c o.still = HM.act (BitBuf.pad c o) := by
  have h1 : (BitVecPushOps.still o).toHVec = o.toBitVecOps.still := rfl
  funext s
  apply PartialOrder.rel_antisymm
  · refine bufPad.fixpoint_induct c o.still (fun f => ∀ s, f s ⊑ HM.act (BitBuf.pad c o) s) ?_ ?_ s
    · exact admissible_pi_apply (fun s (x : Res (Unit × BitBuf S)) => x ⊑ HM.act (BitBuf.pad c o) s)
        fun s => admissible_flatOrder _ FlatOrder.rel.bot
    · intro f ih s
      rw [HM.act_run, BitBuf.pad.eq_def]
      simp only [h1, still_buf]
      simp only [BitVecOps.still, BitVecPushOps.still, inBuf_act, HM.get_bind, HM.look_bind, HM.ite_run, HM.act_bind,
        HM.pure_run, HM.res_ite, Res.bind_bind, Res.ok_bind]
      refine bind_mono_right' _ fun n => ?_
      split
      · exact bind_mono_right' _ fun s => ih _
      · exact PartialOrder.rel_refl
  · refine BitBuf.pad.fixpoint_induct c o (fun f => ∀ s, (f s >>= fun s => Res.ok ((), s)) ⊑ bufPad c o.still s) ?_ ?_ s
    · exact admissible_pi_apply (fun s (x : Res (BitBuf S)) => (x >>= fun s => Res.ok ((), s)) ⊑ bufPad c o.still s)
        fun s => admissible_flatOrder _ FlatOrder.rel.bot
    · intro f ih s
      rw [bufPad.eq_def]
      simp only [h1, still_buf]
      simp only [BitVecOps.still, BitVecPushOps.still, inBuf_act, HM.get_bind, HM.look_bind, HM.ite_run, HM.act_bind,
        HM.pure_run, HM.res_ite, Res.bind_bind, Res.ok_bind]
      refine bind_mono_right' _ fun n => ?_
      split
      · exact bind_mono_right' _ fun s => ih _
      · exact PartialOrder.rel_refl

theorem still_bufWrite (o : BitVecPushOps w S) : bufWrite c o.still = BitBuf.write c o := by
  have h1 : (BitVecPushOps.still o).toHVecMut = o.toBitVecMutOps.still := rfl
  unfold bufWrite BitBuf.write bufWriteBit
  rw [still_bufPad, h1, still_bufMut]
  congr 1
  funext x s
  simp only [BitVecMutOps.still, HM.get_bind, HM.act_bind, HM.lift_bind, HM.modify_run, Res.bind_bind, Res.ok_bind]

end Hidden
end Succinct
