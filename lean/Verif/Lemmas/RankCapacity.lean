import Verif.Model.RankCapacity
import Verif.Props.Capacity
import Verif.Props.SpaceUsage
/-! Lemmas about the constructors of the rank structures with capacities. -/
namespace Succinct
open Spec

/-- `x` does what `y` does, with results related by `R`. -/
def Sim (R : α → β → Prop) : Res α → Res β → Prop
  | .ok a, .ok b => R a b
  | .panic, .panic => True
  | .diverge, .diverge => True
  | _, _ => False

theorem Sim.bind {R : α → β → Prop} {Q : α' → β' → Prop} {x : Res α} {y : Res β} {f : α → Res α'} {g : β → Res β'}
    (h : Sim R x y) (hf : ∀ a b, R a b → Sim Q (f a) (g b)) : Sim Q (x >>= f) (y >>= g) := by
  cases x <;> cases y <;> first | exact hf _ _ h | exact h.elim | trivial

theorem Sim.bindEq {Q : α' → β' → Prop} {x : Res α} {f : α → Res α'} {g : α → Res β'}
    (hf : ∀ a, x = .ok a → Sim Q (f a) (g a)) : Sim Q (x >>= f) (x >>= g) := by
  cases x with
  | ok a => exact hf a rfl
  | panic => trivial
  | diverge => trivial

theorem Sim.bindL {Q : α' → β' → Prop} {x : Res α} {f : α → Res α'} {z : Res β'}
    (hx : ∃ a, x = .ok a ∧ Sim Q (f a) z) : Sim Q (x >>= f) z := by
  obtain ⟨a, rfl, h⟩ := hx; exact h

theorem Sim.ok {R : α → β → Prop} {x : Res α} {b : β} (h : Sim R x (.ok b)) : ∃ a, x = .ok a ∧ R a b := by
  cases x with
  | ok a => exact ⟨a, rfl, h⟩
  | panic => exact h.elim
  | diverge => exact h.elim

theorem Sim.forRange {R : α → β → Prop} {f : Nat → α → Res α} {g : Nat → β → Res β} {a : α} {b : β} (h0 : R a b)
    (h : ∀ i a b, R a b → Sim R (f i a) (g i b)) (lo hi : Nat) :
    Sim R (Succinct.forRange lo hi a f) (Succinct.forRange lo hi b g) := by
  unfold Succinct.forRange
  generalize hi - lo = n
  induction n generalizing lo a b with
  | zero => exact h0
  | succ n ih =>
    unfold forLoop
    exact (h lo a b h0).bind fun a b h => ih h (lo + 1)

/-- std's growth: at least 4 elements, or double the capacity, or what is needed. -/
def Alloc.Doubling (A : Alloc) : Prop :=
  ∀ len cap additional, A.grow len cap additional ≤ max 4 (max (2 * cap) (len + additional))

/-- How a `Vec` that started empty with capacity `cap0` and only ever grew to `len` elements stands: it has been
reallocated iff that was necessary. -/
structure Grown (A : Alloc) (cap0 len cap moves : Nat) : Prop where
  room : len ≤ cap
  exact : (moves = 0 ∧ cap = cap0 ∧ len ≤ cap0) ∨ (0 < moves ∧ cap0 < len)
  double : A.Doubling → cap ≤ max (max cap0 4) (2 * len)

theorem Grown.moves_iff (h : Grown A cap0 len cap moves) : moves = 0 ↔ len ≤ cap0 := by
  rcases h.exact with h | h <;> omega

theorem Grown.change {A : Alloc} (hA : A.Lawful) {s : CVB w} (h : Grown A cap0 s.base.vec.length s.cap s.moves) {b : VB w}
    (hb : s.base.vec.length ≤ b.vec.length) :
    Grown A cap0 b.vec.length (s.change A b).cap (s.change A b).moves := by
  unfold CVB.change CVB.vecReserve
  have hr := h.room
  by_cases hc : b.vec.length - s.base.vec.length ≤ s.cap - s.base.vec.length
  · rw [if_pos hc]
    refine ⟨by simp only; omega, ?_, fun hd => by have := h.double hd; simp only; omega⟩
    rcases h.exact with ⟨h1, h2, h3⟩ | ⟨h1, h2⟩
    · exact .inl ⟨h1, h2, by omega⟩
    · exact .inr ⟨h1, by omega⟩
  · rw [if_neg hc]
    have hg := hA.grow s.base.vec.length s.cap (b.vec.length - s.base.vec.length)
    refine ⟨by simp only; omega, .inr ⟨Nat.succ_pos _, ?_⟩, fun hd => ?_⟩
    · rcases h.exact with ⟨h1, h2, h3⟩ | ⟨h1, h2⟩ <;> omega
    · have := hd s.base.vec.length s.cap (b.vec.length - s.base.vec.length)
      simp only; omega

theorem vecSet_length {v v' : List α} (h : vecSet v i a = .ok v') : v'.length = v.length := by
  unfold vecSet at h
  split at h
  · cases h; simp
  · cases h

theorem vecSetBits_length {v v' : List (BitVec w)} (h : (vecBitVecMut c w).setBits v p n x = .ok v') :
    v'.length = v.length := by
  have h : dfltSetBits c (vecBitVecMut c w).bitLen (vecBitVecMut c w).getBlock (vecBitVecMut c w).setBlock v p n x = .ok v' := h
  have key : ∀ {v v' : List (BitVec w)} {i x}, (vecBitVecMut c w).setBlock v i x = .ok v' → v'.length = v.length :=
    fun h => vecSet_length h
  unfold dfltSetBits at h
  obtain ⟨_, -, h⟩ := Res.of_bind_ok h
  obtain ⟨_, -, h⟩ := Res.of_bind_ok h
  obtain ⟨_, -, h⟩ := Res.of_bind_ok h
  obtain ⟨_, -, h⟩ := Res.of_bind_ok h
  obtain ⟨_, -, h⟩ := Res.of_bind_ok h
  split at h
  · obtain ⟨_, -, h⟩ := Res.of_bind_ok h
    obtain ⟨_, -, h⟩ := Res.of_bind_ok h
    exact key h
  · obtain ⟨_, -, h⟩ := Res.of_bind_ok h
    obtain ⟨_, -, h⟩ := Res.of_bind_ok h
    obtain ⟨_, -, h⟩ := Res.of_bind_ok h
    obtain ⟨_, -, h⟩ := Res.of_bind_ok h
    obtain ⟨_, -, h⟩ := Res.of_bind_ok h
    obtain ⟨_, -, h⟩ := Res.of_bind_ok h
    obtain ⟨_, -, h⟩ := Res.of_bind_ok h
    obtain ⟨_, h1, h⟩ := Res.of_bind_ok h
    obtain ⟨_, -, h⟩ := Res.of_bind_ok h
    rw [key h, key h1]

/-- A push changes neither the element width nor, except to grow, the number of blocks. -/
theorem iv_push_length {s s' : IV w} (h : IV.push c s x = .ok s') :
    s'.elementBits = s.elementBits ∧ s.base.vec.length ≤ s'.base.vec.length := by
  unfold IV.push at h
  obtain ⟨_, -, h⟩ := Res.of_bind_ok h
  obtain ⟨b, hb, h⟩ := Res.of_bind_ok h
  cases h
  refine ⟨rfl, ?_⟩
  unfold VB.pushBits VB.setBits at hb
  obtain ⟨_, -, hb⟩ := Res.of_bind_ok hb
  obtain ⟨_, -, hb⟩ := Res.of_bind_ok hb
  obtain ⟨_, -, hb⟩ := Res.of_bind_ok hb
  obtain ⟨_, -, hb⟩ := Res.of_bind_ok hb
  obtain ⟨_, -, hb⟩ := Res.of_bind_ok hb
  obtain ⟨_, -, hb⟩ := Res.of_bind_ok hb
  obtain ⟨_, -, hb⟩ := Res.of_bind_ok hb
  obtain ⟨_, -, hb⟩ := Res.of_bind_ok hb
  obtain ⟨v, hv, hb⟩ := Res.of_bind_ok hb
  cases hb
  have := vecSetBits_length hv
  show s.base.vec.length ≤ v.length
  rw [this]
  simp only
  split
  · rw [List.length_append]; omega
  · exact Nat.le_refl _

/-! ### `Rank9` -/

/-- A vector of cells with capacity against one without. -/
def CellsRel (A : Alloc) (cap0 : Nat) (v : GVec α) (l : List α) : Prop :=
  v.elems = l ∧ Grown A cap0 l.length v.cap v.moves

theorem CellsRel.push {A : Alloc} (hA : A.Lawful) {v : GVec α} (h : CellsRel A cap0 v l) (a : α) :
    CellsRel A cap0 (v.push A a) (l ++ [a]) := by
  obtain ⟨rfl, h⟩ := h
  have hr := h.room
  unfold GVec.push
  by_cases hc : 1 ≤ v.cap - v.elems.length
  · rw [if_pos hc]
    refine ⟨rfl, by simp only [List.length_append, List.length_singleton]; omega, ?_, fun hd => ?_⟩
    · simp only [List.length_append, List.length_singleton]
      rcases h.exact with ⟨h1, h2, h3⟩ | ⟨h1, h2⟩
      · exact .inl ⟨h1, h2, by omega⟩
      · exact .inr ⟨h1, by omega⟩
    · have := h.double hd
      simp only [List.length_append, List.length_singleton]; omega
  · rw [if_neg hc]
    have hg := hA.grow v.elems.length v.cap 1
    refine ⟨rfl, by simp only [List.length_append, List.length_singleton]; omega, .inr ⟨Nat.succ_pos _, ?_⟩, fun hd => ?_⟩
    · simp only [List.length_append, List.length_singleton]
      rcases h.exact with ⟨h1, h2, h3⟩ | ⟨h1, h2⟩ <;> omega
    · have := hd v.elems.length v.cap 1
      simp only [List.length_append, List.length_singleton]; omega

def Rank9LoopRel (A : Alloc) (cap0 : Nat) (l : Rank9.CLoop) (l' : Rank9.Loop) : Prop :=
  CellsRel A cap0 l.result l'.result ∧ l.level1Count = l'.level1Count ∧ l.level2Count = l'.level2Count

theorem storeCountsC_sim {A : Alloc} (hA : A.Lawful) (h : Rank9LoopRel A cap0 l l') (i : Nat) :
    Sim (Rank9LoopRel A cap0) (Rank9.storeCountsC c A i l) (Rank9.storeCounts c i l') := by
  obtain ⟨h1, h2, h3⟩ := h
  unfold Rank9.storeCountsC Rank9.storeCounts
  by_cases h0 : i % 8 = 0
  · simp only [h0, if_true]
    exact ⟨by simpa only [h2] using h1.push hA _, h2, rfl⟩
  · simp only [h0, if_false]
    rw [h1.1, h3]
    refine Sim.bindEq fun cell _ => Sim.bindEq fun l2 _ => Sim.bindEq fun r hr => ?_
    exact ⟨⟨rfl, by rw [vecSet_length hr]; exact h1.2⟩, h2, rfl⟩

theorem rank9_newC_sim (c : Cfg) {A : Alloc} (hA : A.Lawful) (o : BitVecOps 64 S) (s : S) :
    Sim (fun p r => p.1 = r.bitStore ∧ ∃ m k, o.blockLen s = .ok m ∧ ceilDiv c c.usz m 8 = .ok k ∧ 
      ∃ k', addN c c.usz k 1 = .ok k' ∧ CellsRel A (A.withCapacity k') p.2 r.counts)
      (Rank9.newC c A o s) (Rank9.new c o s) := by
  unfold Rank9.newC Rank9.new
  refine Sim.bindEq fun m hm => Sim.bindEq fun k hk => Sim.bindEq fun k' hk' => Sim.bindEq fun m _ => ?_
  refine Sim.bind (R := Rank9LoopRel A (A.withCapacity k')) (Sim.forRange ?_ ?_ 0 m) ?_
  · exact ⟨⟨rfl, Nat.zero_le _, .inl ⟨rfl, rfl, Nat.zero_le _⟩, fun _ => by simp only [GVec.withCapacity]; omega⟩, rfl, rfl⟩
  · intro i l l' h
    unfold Rank9.stepC Rank9.step
    refine (storeCountsC_sim hA h i).bind fun l l' h => ?_
    obtain ⟨h1, h2, h3⟩ := h
    rw [h2, h3]
    exact Sim.bindEq fun b _ => Sim.bindEq fun x _ => Sim.bindEq fun y _ => ⟨h1, rfl, rfl⟩
  · intro l l' h
    refine Sim.bindEq fun m _ => (storeCountsC_sim hA h m).bind fun l l' h => ?_
    exact ⟨rfl, _, _, hm, hk, _, hk', h.1⟩

/-! ### `JacobsonRank` -/

/-- An `IntVector` with capacity against one without. -/
def IvRel (A : Alloc) (eb cap0 : Nat) (s : SpaceOps.CIV w) (v : IV w) : Prop :=
  v.elementBits = eb ∧ s.elementBits = v.elementBits ∧ s.base.base = v.base ∧ Grown A cap0 v.base.vec.length s.base.cap s.base.moves

theorem IvRel.push {A : Alloc} (hA : A.Lawful) {s : SpaceOps.CIV w} {v : IV w} (h : IvRel A eb cap0 s v) (x : BitVec w) :
    Sim (IvRel A eb cap0) (s.push c A x) (v.push c x) := by
  obtain ⟨h0, h1, h2, h3⟩ := h
  unfold SpaceOps.CIV.push
  rw [h1, h2]
  cases hp : IV.push c v x with
  | ok v' =>
    obtain ⟨e1, e2⟩ := iv_push_length hp
    refine ⟨e1.trans h0, rfl, rfl, ?_⟩
    rw [← h2] at h3 e2
    exact h3.change hA e2
  | panic => trivial
  | diverge => trivial

theorem IvRel.withCapacity (c : Cfg) (A : Alloc) (w eb n : Nat) :
    Sim (fun s v => ∃ k, lenToBlockLen c w eb n = .ok (some k) ∧ IvRel A eb (A.withCapacity k) s v)
      (SpaceOps.CIV.withCapacity c A w eb n) (IV.withCapacity c w eb n) := by
  unfold SpaceOps.CIV.withCapacity IV.withCapacity CVB.withCapacity VB.withCapacity
  cases h1 : lenToBlockLen c w eb n with
  | panic => trivial
  | diverge => trivial
  | ok k =>
    cases k with
    | none => trivial
    | some k =>
      show Sim _ (IV.create eb (VB.new : VB w) >>= fun v => Res.ok (⟨v.elementBits, CVB.blockWithCapacity A k⟩ : SpaceOps.CIV w))
        (IV.create eb (VB.new : VB w))
      unfold IV.create
      cases IV.checkElementBits w eb with
      | panic => trivial
      | diverge => trivial
      | ok u =>
        exact ⟨k, rfl, rfl, rfl, rfl, Nat.zero_le _, .inl ⟨rfl, rfl, Nat.zero_le _⟩, fun _ => by
          simp only [CVB.blockWithCapacity]; omega⟩

def JacobsonLoopRel (A : Alloc) (kl ks cl cs : Nat) (l : Jacobson.CLoop) (l' : Jacobson.Loop) : Prop :=
  IvRel A kl cl l.large l'.large ∧ IvRel A ks cs l.small l'.small ∧ l.current = l'.current ∧ l.last = l'.last ∧ l.index = l'.index

theorem jacobson_newC_sim (c : Cfg) {A : Alloc} (hA : A.Lawful) (o : BitVecOps w S) (s : S) :
    Sim (fun p j => p.1 = j.largeBlockSize ∧ p.2.bitStore = j.bitStore ∧ ∃ n, o.bitLen s = .ok n ∧
      (∃ q q' k, divN n j.largeBlockSize = .ok q ∧ addN c 64 q 1 = .ok q' ∧
        lenToBlockLen c 64 j.largeBlockRanks.elementBits q' = .ok (some k) ∧
        IvRel A j.largeBlockRanks.elementBits (A.withCapacity k) p.2.large j.largeBlockRanks) ∧
      (∃ q q' k, divN n w = .ok q ∧ addN c 64 q 1 = .ok q' ∧
        lenToBlockLen c 64 j.smallBlockRanks.elementBits q' = .ok (some k) ∧
        IvRel A j.smallBlockRanks.elementBits (A.withCapacity k) p.2.small j.smallBlockRanks))
      (Jacobson.newC c A o s) (Jacobson.new c o s) := by
  unfold Jacobson.newC Jacobson.new
  refine Sim.bindEq fun n hn => Sim.bindEq fun lg _ => Sim.bindEq fun lg2 _ => Sim.bindEq fun spl _ =>
    Sim.bindEq fun lbs _ => Sim.bindEq fun q hq => Sim.bindEq fun lc hlc => Sim.bindEq fun q2 hq2 =>
    Sim.bindEq fun sc hsc => Sim.bindEq fun n1 _ => Sim.bindEq fun kl _ => Sim.bindEq fun l1 _ => Sim.bindEq fun ks _ => ?_
  refine (IvRel.withCapacity c A 64 kl lc).bind fun large large' ⟨cl, hcl, hl⟩ => ?_
  refine (IvRel.withCapacity c A 64 ks sc).bind fun small small' ⟨cs, hcs, hs⟩ => Sim.bindEq fun m _ => ?_
  refine Sim.bind (R := JacobsonLoopRel A kl ks (A.withCapacity cl) (A.withCapacity cs)) (Sim.forRange ?_ ?_ 0 m) ?_
  · exact ⟨hl, hs, rfl, rfl, rfl⟩
  · intro i l l' h
    unfold Jacobson.stepC Jacobson.step
    refine Sim.bind (R := JacobsonLoopRel A kl ks (A.withCapacity cl) (A.withCapacity cs)) ?_ fun l l' h => ?_
    · obtain ⟨h1, h2, h3, h4, h5⟩ := h
      rw [h5, h3]
      by_cases h0 : l'.index = 0
      · rw [if_pos h0, if_pos h0]
        exact (h1.push hA _).bind fun a b hab => ⟨hab, h2, rfl, rfl, rfl⟩
      · rw [if_neg h0, if_neg h0]
        exact ⟨h1, h2, h3, h4, h5⟩
    · obtain ⟨h1, h2, h3, h4, h5⟩ := h
      rw [h5, h3, h4]
      exact Sim.bindEq fun e _ => (h2.push hA _).bind fun a b hab => Sim.bindEq fun _ _ => Sim.bindEq fun _ _ =>
        Sim.bindEq fun _ _ => ⟨h1, hab, rfl, rfl, rfl⟩
  · intro l l' ⟨h1, h2, h3, h4, h5⟩
    rw [h3, h4]
    refine (h1.push hA _).bind fun a b hab => Sim.bindEq fun e _ => (h2.push hA _).bind fun a' b' hab' => ?_
    exact ⟨rfl, rfl, n, hn, ⟨q, lc, cl, hq, hlc, by rw [hab.1]; exact hcl, by rw [hab.1]; exact hab⟩,
      ⟨q2, sc, cs, hq2, hsc, by rw [hab'.1]; exact hcs, by rw [hab'.1]; exact hab'⟩⟩

end Succinct
