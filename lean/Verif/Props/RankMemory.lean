import Verif.Model.MemoryMore
import Verif.Props.Memory
import Verif.Props.RankSpace
/-!
# C126: building rank directories in a memory that may be exhausted

`Rank9::new` asks for memory once, so it fails at once or not at all. `JacobsonRank::new` asks twice, and again when a directory has to be
reallocated (C104). Memory that is refused never leads to a wrong directory.
-/
namespace Succinct
open Spec

/-! ### Failing allocations only add panics -/

/-- `x` panics or is `y` -/
def OnlyFails (x y : Res α) : Prop := x = .panic ∨ x = y

theorem OnlyFails.rfl {x : Res α} : OnlyFails x x := .inr (Eq.refl _)

theorem OnlyFails.bind {x y : Res α} {f g : α → Res β} (h : OnlyFails x y) (hf : ∀ a, OnlyFails (f a) (g a)) :
    OnlyFails (x >>= f) (y >>= g) := by
  rcases h with h | h <;> rw [h]
  · exact .inl (Eq.refl _)
  · rcases y with a | _ | _
    · exact hf a
    · exact .inl (Eq.refl _)
    · exact .inr (Eq.refl _)

theorem OnlyFails.forRange {f g : Nat → α → Res α} (hf : ∀ i a, OnlyFails (f i a) (g i a)) (lo hi : Nat) (a : α) :
    OnlyFails (forRange lo hi a f) (forRange lo hi a g) := by
  unfold Succinct.forRange
  generalize hi - lo = n
  induction n generalizing lo a with
  | zero => exact .rfl
  | succ n ih => exact (hf lo a).bind fun a => ih (lo + 1) a

theorem tryPush_cases (H : Heap) (v : GVec α) (a : α) : OnlyFails (v.tryPush H a) (.ok (v.push H.toAlloc a)) := by
  unfold GVec.tryPush GVec.push assertR
  split
  · exact .rfl
  · split
    · exact .rfl
    · exact .inl rfl

theorem storeCountsH_cases (c : Cfg) (H : Heap) (i : Nat) (l : Rank9.CLoop) :
    OnlyFails (Rank9.storeCountsH c H i l) (Rank9.storeCountsC c H.toAlloc i l) := by
  unfold Rank9.storeCountsH Rank9.storeCountsC
  by_cases h : i % 8 = 0
  · simp only [h, if_true]
    rcases tryPush_cases H l.result ⟨l.level1Count, 0⟩ with h | h <;> rw [h]
    · exact .inl rfl
    · exact .rfl
  · simp only [h, if_false]
    exact .rfl

/-- C126. Whatever it is built over, and whatever memory is refused: the constructor panics or does what it does with unlimited memory. -/
theorem C126_rank9_only_fails (c : Cfg) (H : Heap) (o : BitVecOps 64 S) (s : S) :
    Rank9.newH c H o s = .panic ∨ Rank9.newH c H o s = Rank9.newC c H.toAlloc o s := by
  show OnlyFails _ _
  unfold Rank9.newH Rank9.newC
  refine OnlyFails.rfl.bind fun m => OnlyFails.rfl.bind fun k => OnlyFails.rfl.bind fun k' => ?_
  unfold GVec.tryWithCapacity assertR
  split
  · simp only [Res.ok_bind]
    refine OnlyFails.rfl.bind fun m => ?_
    refine (OnlyFails.forRange (fun i l => ?_) 0 m _).bind fun l => OnlyFails.rfl.bind fun m => ?_
    · exact (storeCountsH_cases c H i l).bind fun l => .rfl
    · exact (storeCountsH_cases c H m l).bind fun l => .rfl
  · exact .inl rfl

theorem civ_tryPush_cases (c : Cfg) (H : Heap) (s : SpaceOps.CIV w) (x : BitVec w) :
    OnlyFails (s.tryPush c H x) (s.push c H.toAlloc x) := by
  unfold SpaceOps.CIV.tryPush SpaceOps.CIV.push
  refine OnlyFails.rfl.bind fun v => ?_
  rcases tryChange_cases H s.base v.base with h | h <;> rw [h]
  · exact .inl rfl
  · exact .rfl

theorem civ_tryWithCapacity_cases (c : Cfg) (H : Heap) (w eb n : Nat) :
    OnlyFails (SpaceOps.CIV.tryWithCapacity c H w eb n) (SpaceOps.CIV.withCapacity c H.toAlloc w eb n) := by
  unfold SpaceOps.CIV.tryWithCapacity SpaceOps.CIV.withCapacity CVB.tryWithCapacity CVB.withCapacity
  refine OnlyFails.bind (OnlyFails.rfl.bind fun o => OnlyFails.rfl.bind fun k => ?_) fun b => .rfl
  unfold CVB.tryNew assertR
  split
  · exact .rfl
  · exact .inl rfl

theorem C126_jacobson_only_fails (c : Cfg) (H : Heap) (o : BitVecOps w S) (s : S) :
    Jacobson.newH c H o s = .panic ∨ Jacobson.newH c H o s = Jacobson.newC c H.toAlloc o s := by
  show OnlyFails _ _
  unfold Jacobson.newH Jacobson.newC
  refine OnlyFails.rfl.bind fun n => OnlyFails.rfl.bind fun lg => OnlyFails.rfl.bind fun lg2 => OnlyFails.rfl.bind fun spl =>
    OnlyFails.rfl.bind fun lbs => OnlyFails.rfl.bind fun q => OnlyFails.rfl.bind fun lc => OnlyFails.rfl.bind fun q2 =>
    OnlyFails.rfl.bind fun sc => OnlyFails.rfl.bind fun n1 => OnlyFails.rfl.bind fun kl => OnlyFails.rfl.bind fun l1 =>
    OnlyFails.rfl.bind fun ks => ?_
  refine (civ_tryWithCapacity_cases c H 64 kl lc).bind fun large => (civ_tryWithCapacity_cases c H 64 ks sc).bind fun small =>
    OnlyFails.rfl.bind fun m => ?_
  refine (OnlyFails.forRange (fun i l => ?_) 0 m _).bind fun l => ?_
  · unfold Jacobson.stepH Jacobson.stepC
    refine OnlyFails.bind ?_ fun l => OnlyFails.rfl.bind fun e => (civ_tryPush_cases c H _ _).bind fun small => .rfl
    split
    · exact (civ_tryPush_cases c H _ _).bind fun _ => .rfl
    · exact .rfl
  · exact (civ_tryPush_cases c H _ _).bind fun _ => OnlyFails.rfl.bind fun _ => (civ_tryPush_cases c H _ _).bind fun _ => .rfl

/-! ### When they fail -/

/-- A property of capacity and number of reallocations that, if it holds after a reallocation, held before, the reallocation having been
granted. -/
def Safe (H : Heap) (P : Nat → Nat → Prop) : Prop :=
  ∀ len cap m k, cap - len < k → P (H.grow len cap k) (m + 1) → P cap m ∧ H.Grants (H.grow len cap k)

theorem safe_unmoved (H : Heap) : Safe H fun _ m => m = 0 := fun _ _ _ _ _ h => by cases h

/-- Less memory is granted if more is. -/
def Heap.Monotone (H : Heap) : Prop := ∀ m n, m ≤ n → H.allow n = true → H.allow m = true

theorem Heap.Monotone.grants {H : Heap} (hM : H.Monotone) {m n : Nat} (h : m ≤ n) (hn : H.Grants n) : H.Grants m := by
  rcases hn with rfl | hn
  · exact .inl (by omega)
  · exact .inr (hM m n h hn)

theorem safe_granted {H : Heap} (hA : H.toAlloc.Lawful) (hM : H.Monotone) : Safe H fun cap _ => H.Grants cap := by
  intro len cap m k hk h
  have := hA.grow len cap k
  exact ⟨hM.grants (by omega) h, h⟩

theorem Safe.push {H : Heap} {P : Nat → Nat → Prop} (hP : Safe H P) (v : GVec α) (a : α)
    (h : P (v.push H.toAlloc a).cap (v.push H.toAlloc a).moves) :
    P v.cap v.moves ∧ v.tryPush H a = .ok (v.push H.toAlloc a) := by
  unfold GVec.push at h
  unfold GVec.tryPush GVec.push
  split
  · next hc => rw [if_pos hc] at h; exact ⟨h, rfl⟩
  · next hc =>
    rw [if_neg hc] at h
    obtain ⟨h1, h2⟩ := hP v.elems.length v.cap v.moves 1 (by omega) h
    rw [assertR_true h2]
    exact ⟨h1, rfl⟩

theorem Safe.change {H : Heap} {P : Nat → Nat → Prop} (hP : Safe H P) (s : CVB w) (b : VB w)
    (h : P (s.change H.toAlloc b).cap (s.change H.toAlloc b).moves) :
    P s.cap s.moves ∧ s.tryChange H b = .ok (s.change H.toAlloc b) := by
  unfold CVB.change CVB.vecReserve at h
  unfold CVB.tryChange CVB.tryReserve CVB.change CVB.vecReserve
  split
  · next hc => rw [if_pos hc] at h; exact ⟨h, rfl⟩
  · next hc =>
    rw [if_neg hc] at h
    obtain ⟨h1, h2⟩ := hP s.base.vec.length s.cap s.moves (b.vec.length - s.base.vec.length) (by omega) h
    rw [assertR_true h2]
    exact ⟨h1, rfl⟩

/-- If the result of `g` has `Q`, its argument had `P`, and `f` gives the same result. -/
def Steps (P : α → Prop) (Q : β → Prop) (f g : α → Res β) : Prop := ∀ a b, g a = .ok b → Q b → P a ∧ f a = .ok b

theorem Steps.forRange {P : α → Prop} {f g : Nat → α → Res α} (h : ∀ i, Steps P P (f i) (g i)) (lo hi : Nat) :
    Steps P P (fun a => forRange lo hi a f) (fun a => forRange lo hi a g) := by
  simp only [Succinct.forRange]
  generalize hi - lo = n
  induction n generalizing lo with
  | zero => intro a b h1 h2; cases h1; exact ⟨h2, rfl⟩
  | succ n ih =>
    intro a b h1 h2
    obtain ⟨a', h3, h4⟩ := Res.of_bind_ok h1
    obtain ⟨h5, h6⟩ := ih (lo + 1) a' b h4 h2
    obtain ⟨h7, h8⟩ := h lo a a' h3 h5
    refine ⟨h7, ?_⟩
    show (f lo a >>= fun a => forLoop n (lo + 1) a f) = _
    rw [h8]
    exact h6

theorem storeCountsH_steps (c : Cfg) {H : Heap} {P : Nat → Nat → Prop} (hP : Safe H P) (i : Nat) :
    Steps (fun l => P l.result.cap l.result.moves) (fun l => P l.result.cap l.result.moves)
      (Rank9.storeCountsH c H i) (Rank9.storeCountsC c H.toAlloc i) := by
  intro l l' h1 h2
  unfold Rank9.storeCountsC at h1
  unfold Rank9.storeCountsH
  by_cases h : i % 8 = 0
  · simp only [h, if_true] at h1 ⊢
    cases h1
    obtain ⟨h3, h4⟩ := hP.push _ _ h2
    exact ⟨h3, by rw [h4]; rfl⟩
  · simp only [h, if_false] at h1 ⊢
    refine ⟨?_, h1⟩
    obtain ⟨cell, -, h1⟩ := Res.of_bind_ok h1
    obtain ⟨l2, -, h1⟩ := Res.of_bind_ok h1
    obtain ⟨r, -, h1⟩ := Res.of_bind_ok h1
    cases h1
    exact h2

theorem rank9_stepH_steps (c : Cfg) {H : Heap} {P : Nat → Nat → Prop} (hP : Safe H P) (o : BitVecOps 64 S) (s : S) (i : Nat) :
    Steps (fun l => P l.result.cap l.result.moves) (fun l => P l.result.cap l.result.moves)
      (Rank9.stepH c H o s i) (Rank9.stepC c H.toAlloc o s i) := by
  intro l l' h1 h2
  unfold Rank9.stepC at h1
  obtain ⟨l1, h3, h4⟩ := Res.of_bind_ok h1
  have h5 : P l1.result.cap l1.result.moves := by
    obtain ⟨b, -, h4⟩ := Res.of_bind_ok h4
    obtain ⟨_, -, h4⟩ := Res.of_bind_ok h4
    obtain ⟨_, -, h4⟩ := Res.of_bind_ok h4
    cases h4
    exact h2
  obtain ⟨h6, h7⟩ := storeCountsH_steps c hP i l l1 h3 h5
  refine ⟨h6, ?_⟩
  unfold Rank9.stepH
  rw [h7]
  exact h4

/-- **C126** for `Rank9`, exactly: the constructor succeeds iff its one request is granted. -/
theorem C126_rank9 {c : Cfg} {H : Heap} (hA : H.toAlloc.Lawful) {o : BitVecOps 64 S} {R : S → List Bool → Prop} (hl : BVLaw c o R)
    (hbl : BVBlockRead o R) {s : S} {bits : List Bool} (hR : R s bits) (hu : blocksFor 64 bits.length + 8 < 2 ^ c.usz) :
    let request := H.withCapacity ((blocksFor 64 bits.length + 7) / 8 + 1)
    (H.Grants request → ∃ v, Rank9.newH c H o s = .ok (s, v) ∧ v.cap = request ∧ v.moves = 0 ∧
      Rank9.new c o s = .ok ⟨s, v.elems⟩) ∧
    (¬ H.Grants request → Rank9.newH c H o s = .panic) := by
  obtain ⟨r, v, h1, h2, h3, h4, h5⟩ := C104_rank9 hA hl hbl hR hu
  have hr : r = ⟨s, v.elems⟩ := by
    obtain ⟨blk, r', -, g1, g2, -⟩ := rank9_new_ok hbl hR (hl.fits hR) hu
    cases h1.symm.trans g1
    cases r
    simp only at g2 h3
    rw [g2, h3]
  unfold Rank9.newC at h2
  obtain ⟨m, hm, h2⟩ := Res.of_bind_ok h2
  rw [hbl.blockLen hR] at hm
  cases hm
  have hk : ceilDiv c c.usz (blocksFor 64 bits.length) 8 = .ok ((blocksFor 64 bits.length + 7) / 8) := by
    rw [ceilDiv, addN_ok hu, Res.ok_bind, subN_ok (by omega), Res.ok_bind, divN_ok (by omega)]
    rfl
  rw [hk, Res.ok_bind, addN_ok (by omega), Res.ok_bind, hbl.blockLen hR, Res.ok_bind] at h2
  obtain ⟨l, h6, h7⟩ := Res.of_bind_ok h2
  rw [Res.ok_bind] at h7
  obtain ⟨l', h8, h9⟩ := Res.of_bind_ok h7
  cases h9
  have hH : Rank9.newH c H o s = (GVec.tryWithCapacity H ((blocksFor 64 bits.length + 7) / 8 + 1) >>= fun v =>
      forRange 0 (blocksFor 64 bits.length) (Rank9.CLoop.mk v 0 0) (Rank9.stepH c H o s) >>= fun l =>
      Rank9.storeCountsH c H (blocksFor 64 bits.length) l >>= fun l => .ok (s, l.result)) := by
    unfold Rank9.newH
    rw [hbl.blockLen hR, Res.ok_bind, hk, Res.ok_bind, addN_ok (by omega), Res.ok_bind]
    simp only [Res.ok_bind]
  refine ⟨fun hg => ⟨l'.result, ?_, h5, h4, by rw [h1, hr]⟩, fun hg => ?_⟩
  · obtain ⟨g1, g2⟩ := storeCountsH_steps c (safe_unmoved H) _ l l' h8 h4
    obtain ⟨-, g4⟩ := Steps.forRange (fun i => rank9_stepH_steps c (safe_unmoved H) o s i) 0 _ _ l h6 g1
    simp only at g4
    rw [hH, GVec.tryWithCapacity, assertR_true hg]
    simp only [Res.ok_bind]
    rw [g4, Res.ok_bind, g2]
    rfl
  · rw [hH, GVec.tryWithCapacity, assertR, if_neg hg]
    rfl

/-! ### `JacobsonRank` -/

theorem civ_push_steps (c : Cfg) {H : Heap} {P : Nat → Nat → Prop} (hP : Safe H P) (x : BitVec w) :
    Steps (fun s : SpaceOps.CIV w => P s.base.cap s.base.moves) (fun s => P s.base.cap s.base.moves)
      (fun s => s.tryPush c H x) (fun s => s.push c H.toAlloc x) := by
  intro s s' h1 h2
  simp only at h1 h2 ⊢
  unfold SpaceOps.CIV.push at h1
  obtain ⟨v, h3, h4⟩ := Res.of_bind_ok h1
  cases h4
  obtain ⟨h5, h6⟩ := hP.change s.base v.base h2
  refine ⟨h5, ?_⟩
  unfold SpaceOps.CIV.tryPush
  rw [h3, Res.ok_bind, h6]
  rfl

theorem jacobson_stepH_steps (c : Cfg) {H : Heap} {P Q : Nat → Nat → Prop} (hP : Safe H P) (hQ : Safe H Q) (o : BitVecOps w S)
    (s : S) (spl i : Nat) :
    let G := fun l : Jacobson.CLoop => P l.large.base.cap l.large.base.moves ∧ Q l.small.base.cap l.small.base.moves
    Steps G G (Jacobson.stepH c H o s spl i) (Jacobson.stepC c H.toAlloc o s spl i) := by
  intro G l l' h1 h2
  unfold Jacobson.stepC at h1
  obtain ⟨l1, h3, h1⟩ := Res.of_bind_ok h1
  obtain ⟨e, h4, h1⟩ := Res.of_bind_ok h1
  obtain ⟨small, h5, h1⟩ := Res.of_bind_ok h1
  have h1' := h1
  obtain ⟨b, -, h1⟩ := Res.of_bind_ok h1
  obtain ⟨cur, -, h1⟩ := Res.of_bind_ok h1
  obtain ⟨ind, -, h1⟩ := Res.of_bind_ok h1
  cases h1
  obtain ⟨h6, h7⟩ := civ_push_steps c hQ _ l1.small small h5 h2.2
  simp only at h6 h7
  have key : G l ∧ (if l.index = 0 then do
      let large ← l.large.tryPush c H (BitVec.ofNat 64 l.current)
      .ok { l with large := large, last := l.current }
    else .ok l) = Res.ok l1 := by
    split at h3
    · next h0 =>
      obtain ⟨large, h8, h9⟩ := Res.of_bind_ok h3
      cases h9
      obtain ⟨g1, g2⟩ := civ_push_steps c hP _ l.large large h8 h2.1
      simp only at g1 g2
      rw [g2]
      exact ⟨⟨g1, h6⟩, if_pos h0⟩
    · next h0 =>
      cases h3
      exact ⟨⟨h2.1, h6⟩, if_neg h0⟩
  refine ⟨key.1, ?_⟩
  unfold Jacobson.stepH
  rw [key.2, Res.ok_bind, h4, Res.ok_bind, h7]
  exact h1'

theorem tryWithCapacity_ok {c : Cfg} {H : Heap} {w eb n : Nat} {s : SpaceOps.CIV w}
    (h : SpaceOps.CIV.withCapacity c H.toAlloc w eb n = .ok s) :
    s.base.moves = 0 ∧
    SpaceOps.CIV.tryWithCapacity c H w eb n = if H.Grants s.base.cap then .ok s else .panic := by
  unfold SpaceOps.CIV.withCapacity CVB.withCapacity at h
  obtain ⟨b, h1, h2⟩ := Res.of_bind_ok h
  obtain ⟨o, h3, h4⟩ := Res.of_bind_ok h1
  obtain ⟨k, h5, h6⟩ := Res.of_bind_ok h4
  obtain ⟨v, h7, h8⟩ := Res.of_bind_ok h2
  cases h6
  cases h8
  refine ⟨rfl, ?_⟩
  unfold SpaceOps.CIV.tryWithCapacity CVB.tryWithCapacity
  rw [h3, Res.ok_bind, h5, Res.ok_bind]
  unfold CVB.tryNew assertR
  by_cases hg : H.Grants (H.withCapacity k)
  · rw [if_pos hg, if_pos (show H.Grants (CVB.blockWithCapacity H.toAlloc k).cap from hg), Res.ok_bind, Res.ok_bind]
    show (IV.create eb (CVB.blockWithCapacity H.toAlloc k).base >>= _) = _
    rw [h7]
    rfl
  · rw [if_neg hg, if_neg (show ¬ H.Grants (CVB.blockWithCapacity H.toAlloc k).cap from hg)]
    rfl

/-- The parts of a run of the constructor. -/
theorem jacobson_newH_parts {c : Cfg} {H : Heap} {o : BitVecOps w S} {s : S} {r : Nat × SpaceOps.CJacobson S}
    (h : Jacobson.newC c H.toAlloc o s = .ok r) :
    ∃ (large0 small0 : SpaceOps.CIV 64), large0.base.moves = 0 ∧ small0.base.moves = 0 ∧
      (∀ P Q, Safe H P → Safe H Q → P r.2.large.base.cap r.2.large.base.moves → Q r.2.small.base.cap r.2.small.base.moves →
        P large0.base.cap 0 ∧ Q small0.base.cap 0 ∧
        (H.Grants large0.base.cap → H.Grants small0.base.cap → Jacobson.newH c H o s = .ok r)) ∧
      (¬ (H.Grants large0.base.cap ∧ H.Grants small0.base.cap) → Jacobson.newH c H o s = .panic) := by
  unfold Jacobson.newC at h
  obtain ⟨n, e1, h⟩ := Res.of_bind_ok h
  obtain ⟨lg, e2, h⟩ := Res.of_bind_ok h
  obtain ⟨lg2, e3, h⟩ := Res.of_bind_ok h
  obtain ⟨spl, e4, h⟩ := Res.of_bind_ok h
  obtain ⟨lbs, e5, h⟩ := Res.of_bind_ok h
  obtain ⟨q, e6, h⟩ := Res.of_bind_ok h
  obtain ⟨lc, e7, h⟩ := Res.of_bind_ok h
  obtain ⟨q2, e8, h⟩ := Res.of_bind_ok h
  obtain ⟨sc, e9, h⟩ := Res.of_bind_ok h
  obtain ⟨n1, e10, h⟩ := Res.of_bind_ok h
  obtain ⟨kl, e11, h⟩ := Res.of_bind_ok h
  obtain ⟨l1, e12, h⟩ := Res.of_bind_ok h
  obtain ⟨ks, e13, h⟩ := Res.of_bind_ok h
  obtain ⟨large0, e14, h⟩ := Res.of_bind_ok h
  obtain ⟨small0, e15, h⟩ := Res.of_bind_ok h
  obtain ⟨m, e16, h⟩ := Res.of_bind_ok h
  obtain ⟨l, e17, h⟩ := Res.of_bind_ok h
  obtain ⟨large, e18, h⟩ := Res.of_bind_ok h
  obtain ⟨ex, e19, h⟩ := Res.of_bind_ok h
  obtain ⟨small, e20, h⟩ := Res.of_bind_ok h
  cases h
  obtain ⟨a1, a2⟩ := tryWithCapacity_ok e14
  obtain ⟨b1, b2⟩ := tryWithCapacity_ok e15
  have hH : Jacobson.newH c H o s = (do
      let large ← SpaceOps.CIV.tryWithCapacity c H 64 kl lc
      let small ← SpaceOps.CIV.tryWithCapacity c H 64 ks sc
      let l ← forRange 0 m (Jacobson.CLoop.mk large small 0 0 0) (Jacobson.stepH c H o s spl)
      let large ← l.large.tryPush c H (BitVec.ofNat 64 l.current)
      let excess ← subN c 64 l.current l.last
      let small ← l.small.tryPush c H (BitVec.ofNat 64 excess)
      .ok (lbs, ⟨s, large, small⟩)) := by
    unfold Jacobson.newH
    rw [e1, Res.ok_bind, e2, Res.ok_bind, e3, Res.ok_bind, e4, Res.ok_bind, e5, Res.ok_bind, e6, Res.ok_bind, e7, Res.ok_bind,
      e8, Res.ok_bind, e9, Res.ok_bind, e10, Res.ok_bind, e11, Res.ok_bind, e12, Res.ok_bind, e13, Res.ok_bind]
    simp only [e16, Res.ok_bind]
  refine ⟨large0, small0, a1, b1, fun P Q hP hQ h1 h2 => ?_, fun hn => ?_⟩
  · obtain ⟨g1, g2⟩ := civ_push_steps c hP _ l.large large e18 h1
    obtain ⟨g3, g4⟩ := civ_push_steps c hQ _ l.small small e20 h2
    obtain ⟨g5, g6⟩ := Steps.forRange (fun i => jacobson_stepH_steps c hP hQ o s spl i) 0 m _ l e17 ⟨g1, g3⟩
    simp only at g1 g2 g3 g4 g5 g6
    rw [a1, b1] at g5
    refine ⟨g5.1, g5.2, fun hg1 hg2 => ?_⟩
    rw [hH, a2, if_pos hg1, Res.ok_bind, b2, if_pos hg2, Res.ok_bind, g6, Res.ok_bind, g2, Res.ok_bind, e19, Res.ok_bind, g4,
      Res.ok_bind]
  · rw [hH, a2]
    by_cases hg1 : H.Grants large0.base.cap
    · rw [if_pos hg1, Res.ok_bind, b2, if_neg (fun hg2 => hn ⟨hg1, hg2⟩)]
      rfl
    · rw [if_neg hg1]
      rfl

theorem forRange_keeps {P : α → Prop} {f : Nat → α → Res α} (h : ∀ i a b, f i a = .ok b → P a → P b) (lo hi : Nat) {a b : α}
    (hr : forRange lo hi a f = .ok b) (ha : P a) : P b := by
  unfold Succinct.forRange at hr
  generalize hi - lo = n at hr
  induction n generalizing lo a with
  | zero => cases hr; exact ha
  | succ n ih =>
    obtain ⟨a', h1, h2⟩ := Res.of_bind_ok hr
    exact ih (lo + 1) (h lo a a' h1 ha) h2

theorem civ_tryPush_granted {c : Cfg} {H : Heap} {s s' : SpaceOps.CIV w} {x : BitVec w} (h : s.tryPush c H x = .ok s')
    (hg : H.Grants s.base.cap) : H.Grants s'.base.cap := by
  unfold SpaceOps.CIV.tryPush CVB.tryChange CVB.tryReserve at h
  obtain ⟨v, -, h⟩ := Res.of_bind_ok h
  obtain ⟨b, h1, h⟩ := Res.of_bind_ok h
  cases h
  obtain ⟨t, h2, h1⟩ := Res.of_bind_ok h1
  cases h1
  split at h2
  · cases h2; exact hg
  · next hc =>
    unfold assertR at h2
    split at h2
    · next hg' =>
      rw [Res.ok_bind] at h2
      cases h2
      unfold CVB.vecReserve
      rw [if_neg hc]
      exact hg'
    · cases h2

theorem civ_tryWithCapacity_granted {c : Cfg} {H : Heap} {w eb n : Nat} {s : SpaceOps.CIV w}
    (h : SpaceOps.CIV.tryWithCapacity c H w eb n = .ok s) : H.Grants s.base.cap := by
  unfold SpaceOps.CIV.tryWithCapacity CVB.tryWithCapacity CVB.tryNew assertR at h
  obtain ⟨b, h1, h2⟩ := Res.of_bind_ok h
  obtain ⟨o, -, h4⟩ := Res.of_bind_ok h1
  obtain ⟨k, -, h6⟩ := Res.of_bind_ok h4
  obtain ⟨v, -, h8⟩ := Res.of_bind_ok h2
  cases h8
  split at h6
  · next hg => cases h6; exact hg
  · cases h6

/-- C126. The directories are in memory that was granted. -/
theorem C126_jacobson_granted {c : Cfg} {H : Heap} {o : BitVecOps w S} {s : S} {r : Nat × SpaceOps.CJacobson S}
    (h : Jacobson.newH c H o s = .ok r) : H.Grants r.2.large.base.cap ∧ H.Grants r.2.small.base.cap := by
  unfold Jacobson.newH at h
  obtain ⟨n, -, h⟩ := Res.of_bind_ok h
  obtain ⟨lg, -, h⟩ := Res.of_bind_ok h
  obtain ⟨lg2, -, h⟩ := Res.of_bind_ok h
  obtain ⟨spl, -, h⟩ := Res.of_bind_ok h
  obtain ⟨lbs, -, h⟩ := Res.of_bind_ok h
  obtain ⟨q, -, h⟩ := Res.of_bind_ok h
  obtain ⟨lc, -, h⟩ := Res.of_bind_ok h
  obtain ⟨q2, -, h⟩ := Res.of_bind_ok h
  obtain ⟨sc, -, h⟩ := Res.of_bind_ok h
  obtain ⟨n1, -, h⟩ := Res.of_bind_ok h
  obtain ⟨kl, -, h⟩ := Res.of_bind_ok h
  obtain ⟨l1, -, h⟩ := Res.of_bind_ok h
  obtain ⟨ks, -, h⟩ := Res.of_bind_ok h
  obtain ⟨large0, e14, h⟩ := Res.of_bind_ok h
  obtain ⟨small0, e15, h⟩ := Res.of_bind_ok h
  obtain ⟨m, -, h⟩ := Res.of_bind_ok h
  obtain ⟨l, e17, h⟩ := Res.of_bind_ok h
  obtain ⟨large, e18, h⟩ := Res.of_bind_ok h
  obtain ⟨ex, -, h⟩ := Res.of_bind_ok h
  obtain ⟨small, e20, h⟩ := Res.of_bind_ok h
  cases h
  obtain ⟨g1, g2⟩ := forRange_keeps (P := fun l : Jacobson.CLoop => H.Grants l.large.base.cap ∧ H.Grants l.small.base.cap) (by
    rintro i l l' h ⟨h1, h2⟩
    unfold Jacobson.stepH at h
    obtain ⟨l1, h3, h⟩ := Res.of_bind_ok h
    obtain ⟨e, -, h⟩ := Res.of_bind_ok h
    obtain ⟨small, h5, h⟩ := Res.of_bind_ok h
    obtain ⟨b, -, h⟩ := Res.of_bind_ok h
    obtain ⟨cur, -, h⟩ := Res.of_bind_ok h
    obtain ⟨ind, -, h⟩ := Res.of_bind_ok h
    cases h
    split at h3
    · obtain ⟨large, h8, h9⟩ := Res.of_bind_ok h3
      cases h9
      exact ⟨civ_tryPush_granted h8 h1, civ_tryPush_granted h5 h2⟩
    · cases h3
      exact ⟨h1, civ_tryPush_granted h5 h2⟩) 0 m e17 ⟨civ_tryWithCapacity_granted e14, civ_tryWithCapacity_granted e15⟩
  exact ⟨civ_tryPush_granted e18 g1, civ_tryPush_granted e20 g2⟩

/-- **C126** for `JacobsonRank`, exactly: if less memory is granted whenever more is, the constructor succeeds iff the directories have
been granted the room they have in the end, be it that of the first request or, where that was too little (C104), of a later one. The
directories are those built with unlimited memory. -/
theorem C126_jacobson {c : Cfg} {H : Heap} (hA : H.toAlloc.Lawful) (hM : H.Monotone) {o : BitVecOps w S}
    {R : S → List Bool → Prop} (hw : IsBlk w) (hl : BVLaw c o R) (hbl : BVBlockRead o R) (hpad : BVPadLaw o R) {s : S}
    {bits : List Bool} (hR : R s bits) (hmem : InMemory c.usz bits.length) (h2 : 2 ≤ bits.length) :
    ∃ lbs kl ks large small, Jacobson.newC c H.toAlloc o s = .ok (lbs, ⟨s, ⟨kl, large⟩, ⟨ks, small⟩⟩) ∧
      Jacobson.new c o s = .ok ⟨s, lbs, ⟨kl, large.base⟩, ⟨ks, small.base⟩⟩ ∧
      (H.Grants large.cap ∧ H.Grants small.cap →
        Jacobson.newH c H o s = .ok (lbs, ⟨s, ⟨kl, large⟩, ⟨ks, small⟩⟩)) ∧
      (¬ (H.Grants large.cap ∧ H.Grants small.cap) → Jacobson.newH c H o s = .panic) := by
  obtain ⟨j, spl, kl, ks, large, small, e1, e2, e3, -, e4, e5, -⟩ := C104_jacobson_partial hA hw hl hbl hpad hR hmem h2
  refine ⟨w * spl, kl, ks, large, small, e2, ?_, fun hg => ?_, fun hn => ?_⟩
  · obtain ⟨-, j', -, -, -, -, -, hj, hs, -⟩ := jacobson_new_ok hw hl hbl hpad hR hmem h2
    rw [e1]
    cases e1.symm.trans hj
    cases j
    simp only at hs e3 e4 e5
    rw [hs, e3, e4, e5]
  · obtain ⟨l0, s0, -, -, h3, -⟩ := jacobson_newH_parts e2
    obtain ⟨g1, g2, g3⟩ := h3 _ _ (safe_granted hA hM) (safe_granted hA hM) hg.1 hg.2
    exact g3 g1 g2
  · rcases C126_jacobson_only_fails c H o s with h | h
    · exact h
    · exact absurd (C126_jacobson_granted (h.trans e2)) hn

/-- C126. Over a whole number of large blocks there are only the two first requests. -/
theorem C126_jacobson_whole {c : Cfg} {H : Heap} (hA : H.toAlloc.Lawful) {o : BitVecOps w S}
    {R : S → List Bool → Prop} (hw : IsBlk w) (hl : BVLaw c o R) (hbl : BVBlockRead o R) (hpad : BVPadLaw o R) {s : S}
    {bits : List Bool} (hR : R s bits) (hmem : InMemory c.usz bits.length) (h2 : 2 ≤ bits.length) :
    ∃ lbs j, Jacobson.newC c H.toAlloc o s = .ok (lbs, j) ∧ (bits.length % lbs = 0 →
      (H.Grants j.large.base.cap ∧ H.Grants j.small.base.cap → Jacobson.newH c H o s = .ok (lbs, j)) ∧
      (¬ (H.Grants j.large.base.cap ∧ H.Grants j.small.base.cap) → Jacobson.newH c H o s = .panic)) := by
  obtain ⟨j, spl, kl, ks, large, small, -, e2, -, hp, -⟩ := C104_jacobson_partial hA hw hl hbl hpad hR hmem h2
  obtain ⟨lbs, j', e3, e4, e5⟩ := C104_jacobson_whole_partial hA hw hl hbl hpad hR hmem h2
  cases e2.symm.trans e3
  refine ⟨_, _, e2, fun h0 => ⟨fun hg => ?_, fun hn => ?_⟩⟩
  · have m1 := e5 h0
    have m2 := e4 (by
      obtain ⟨q, hq⟩ := Nat.dvd_of_mod_eq_zero h0
      rw [hq, Nat.mul_assoc, Nat.mul_mod_right])
    obtain ⟨l0, s0, -, -, h3, h4⟩ := jacobson_newH_parts e2
    -- nothing has moved: the first request is the last
    have hP : ∀ n, Safe H (fun cap m => cap = n ∧ m = 0) := by
      intro n len cap m k _ h
      cases h.2
    obtain ⟨g1, g2, g3⟩ := h3 _ _ (hP large.cap) (hP small.cap) ⟨rfl, m1⟩ ⟨rfl, m2⟩
    exact g3 (by rw [g1.1]; exact hg.1) (by rw [g2.1]; exact hg.2)
  · rcases C126_jacobson_only_fails c H o s with h | h
    · exact h
    · exact absurd (C126_jacobson_granted (h.trans e2)) hn

/-! ### Correct answers from limited memory -/

/-- C126. What is built answers correctly, whatever the memory. -/
theorem C126_answers {c : Cfg} {H : Heap} (hA : H.toAlloc.Lawful) :
    (∀ {S : Type} {o : BitVecOps 64 S} {R : S → List Bool → Prop}, BVLaw c o R → BVBlockRead o R → ∀ {s : S} {bits : List Bool},
      R s bits → blocksFor 64 bits.length + 8 < 2 ^ c.usz →
      Rank9.newH c H o s = .panic ∨ ∃ v, Rank9.newH c H o s = .ok (s, v) ∧ RankLaw (Rank9.ops c o) ⟨s, v.elems⟩ bits) ∧
    (∀ {w : Nat} {S : Type} {o : BitVecOps w S} {R : S → List Bool → Prop}, IsBlk w → BVLaw c o R → BVBlockRead o R → BVPadLaw o R →
      ∀ {s : S} {bits : List Bool}, R s bits → InMemory c.usz bits.length → 2 ≤ bits.length →
      Jacobson.newH c H o s = .panic ∨ ∃ lbs kl ks large small, Jacobson.newH c H o s = .ok (lbs, ⟨s, ⟨kl, large⟩, ⟨ks, small⟩⟩) ∧
        RankLaw (Jacobson.ops c o) ⟨s, lbs, ⟨kl, large.base⟩, ⟨ks, small.base⟩⟩ bits) := by
  refine ⟨fun {S o R} hl hbl {s bits} hR hu => ?_, fun {w S o R} hw hl hbl hpad {s bits} hR hmem h2 => ?_⟩
  · obtain ⟨h1, h2⟩ := C126_rank9 hA hl hbl hR hu
    by_cases hg : H.Grants (H.withCapacity ((blocksFor 64 bits.length + 7) / 8 + 1))
    · obtain ⟨v, h3, -, -, h4⟩ := h1 hg
      obtain ⟨r, h5, h6⟩ := C39_rank9 hl hbl hR hu
      cases h4.symm.trans h5
      exact .inr ⟨v, h3, h6.2⟩
    · exact .inl (h2 hg)
  · obtain ⟨j, spl, kl, ks, large, small, e1, e2, e3, -, e4, e5, -⟩ := C104_jacobson_partial hA hw hl hbl hpad hR hmem h2
    rcases C126_jacobson_only_fails c H o s with h | h
    · exact .inl h
    · obtain ⟨j', e6, e7⟩ := C37_jacobson hw hl hbl hpad hR hmem h2
      obtain ⟨-, j'', -, -, -, -, -, hj, hs, -⟩ := jacobson_new_ok hw hl hbl hpad hR hmem h2
      cases e1.symm.trans e6
      cases e1.symm.trans hj
      refine .inr ⟨_, _, _, _, _, h.trans e2, ?_⟩
      cases j
      simp only at hs e3 e4 e5
      subst hs e3 e4 e5
      exact e7.2

/-- C126. A vector is built in limited memory by any calls and then indexed in limited memory (of which directories and vector may have
different shares): every program ends with a panic or with an index that answers correctly for the bits of the list operations. Nothing
is assumed about the lengths. -/
theorem C126_pipeline (c : Cfg) {H H' : Heap} (hA : H.toAlloc.Lawful) (hA' : H'.toAlloc.Lawful)
    (hH : H.Bytes 64 c.byteLimit) (i : BvInit 64) (hi : i.Arg c.debug) (ops : List (CapCall (BvOp 64)))
    (hops : ∀ op ∈ ops, op.Arg fun op => op.Arg c.debug c.usz 64) :
    let run := heapBvInit c H i >>= heapCalls c H 1 (bvStep c) ops
    let o := bvBitVec c 64
    (let built := run >>= fun r => Rank9.newH c H' o r.2.base
     built = .panic ∨ ∃ s cells os bits, built = .ok (s, cells) ∧ capSpecs (bvSpec 64) ops i.bits = some (os, bits) ∧
      RankLaw (Rank9.ops c o) ⟨s, cells.elems⟩ bits) ∧
    (let built := run >>= fun r => Jacobson.newH c H' o r.2.base
     built = .panic ∨ ∃ os bits, capSpecs (bvSpec 64) ops i.bits = some (os, bits) ∧ (2 ≤ bits.length →
      ∃ lbs s kl ks large small, built = .ok (lbs, ⟨s, ⟨kl, large⟩, ⟨ks, small⟩⟩) ∧
        RankLaw (Jacobson.ops c o) ⟨s, lbs, ⟨kl, large.base⟩, ⟨ks, small.base⟩⟩ bits)) := by
  intro run o
  have hB := C109_bounded c isBlk64 hH
  rcases C109_bit_vector c isBlk64 hA hB i hi ops hops with h1 | ⟨os, bits, s, h1, h2, h3, h4, h5, -⟩
  · exact ⟨.inl (by show (run >>= _) = _; rw [show run = .panic from h1]; rfl),
      .inl (by show (run >>= _) = _; rw [show run = .panic from h1]; rfl)⟩
  obtain ⟨bits', g1, g2, -⟩ := C109_rank c isBlk64 hA hH i hi ops hops h1
  cases h2.symm.trans g1
  have hu : c.usz = 32 ∨ c.usz = 64 := by unfold Cfg.usz; split <;> simp
  have hsize : blocksFor 64 bits.length + 8 < 2 ^ c.usz := by
    unfold InMemory at g2
    unfold blocksFor
    rcases hu with hu | hu
    · rw [if_pos hu] at g2; rw [hu]; omega
    · rw [if_neg (by omega)] at g2; rw [hu]; omega
  have hrun : run = .ok (os, s) := h1
  obtain ⟨a1, a2⟩ := C126_answers (c := c) hA'
  simp only [hrun, Res.ok_bind]
  refine ⟨?_, ?_⟩
  · rcases a1 (bv_law c isBlk64) (bv_block c isBlk64).toBVBlockRead h3 hsize with h6 | ⟨v, h6, h7⟩
    · exact .inl h6
    · exact .inr ⟨_, _, os, bits, h6, h2, h7⟩
  · by_cases hlen : 2 ≤ bits.length
    · rcases a2 isBlk64 (bv_law c isBlk64) (bv_block c isBlk64).toBVBlockRead (bv_pad c isBlk64) h3 g2 hlen with
        h6 | ⟨lbs, kl, ks, large, small, h6, h7⟩
      · exact .inl h6
      · exact .inr ⟨os, bits, h2, fun _ => ⟨_, _, _, _, _, _, h6, h7⟩⟩
    · exact .inr ⟨os, bits, h2, fun h => absurd h hlen⟩

/-- 17 words need four cells: three are not enough. -/
example : (match Rank9.newH ⟨true, .p64, true⟩ (smallHeap 4) (vecBitVec ⟨true, .p64, true⟩ 64) (List.replicate 17 5#64) with
      | .ok (_, v) => some (v.elems.map (·.level1), v.cap)
      | _ => none) = some ([0, 16, 32], 4) ∧
    Rank9.newH ⟨true, .p64, true⟩ (smallHeap 3) (vecBitVec ⟨true, .p64, true⟩ 64) (List.replicate 17 5#64) = .panic := by
  exact ⟨by decide +kernel, by rfl⟩

/-- 73 bits in bytes: the small directory is first given one word and then needs two (`C104_counterexample`); in a memory of single
words the constructor fails, but only at the end. -/
example : (match Jacobson.newH ⟨true, .p64, true⟩ (smallHeap 2) (bvBitVec ⟨true, .p64, true⟩ 8) ⟨73, List.replicate 10 0#8⟩ with
      | .ok (_, j) => some (j.small.base.cap, j.small.base.moves, j.large.base.cap)
      | _ => none) = some (2, 1, 1) ∧
    (match Jacobson.newH ⟨true, .p64, true⟩ (smallHeap 1) (bvBitVec ⟨true, .p64, true⟩ 8) ⟨73, List.replicate 10 0#8⟩ with
      | .panic => true
      | _ => false) = true := by decide +kernel

/-- The memories of the examples grant less whenever they grant more. -/
example (m : Nat) : (smallHeap m).Monotone := by
  intro a b h hb
  simp only [smallHeap, decide_eq_true_eq] at hb ⊢
  omega

/-! Each theorem of this file that has hypotheses is applied to concrete data in `Verif/Instances/RankMemory.lean`. -/

end Succinct
