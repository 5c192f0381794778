import Verif.Spec.Index
import Verif.Props.BlockChoice
/-!
# `Rank9` and `JacobsonRank` are interchangeable

C144: a program that makes a `JacobsonRank` where another makes a `Rank9` returns the same, unless it makes one of fewer than two bits.
-/
namespace Succinct
open Spec

theorem Spec.stIndex.cases (h : stIndex st st') (i : Nat) :
    (st[i]? = none ∧ st'[i]? = none) ∨ ∃ o o', st[i]? = some o ∧ st'[i]? = some o' ∧ SObj.Index o o' := by
  by_cases hi : i < st.length
  · have hi' : i < st'.length := h.1 ▸ hi
    exact Or.inr ⟨st[i], st'[i], by simp [hi], by simp [hi'], h.2 i _ _ (by simp [hi]) (by simp [hi'])⟩
  · have hi' : ¬ i < st'.length := h.1 ▸ hi
    exact Or.inl ⟨by simp; omega, by simp; omega⟩

theorem Spec.stIndex.set (h : stIndex st st') (i : Nat) (ho : SObj.Index o o') : stIndex (st.set i o) (st'.set i o') := by
  refine ⟨by simp [h.1], fun j a a' ha ha' => ?_⟩
  rw [List.getElem?_set] at ha ha'
  split at ha
  · rename_i e
    rw [if_pos e] at ha'
    split at ha <;> split at ha' <;> simp_all
  · rename_i e
    rw [if_neg e] at ha'
    exact h.2 j a a' ha ha'

theorem Spec.stIndex.append (h : stIndex st st') (ho : SObj.Index o o') : stIndex (st ++ [o]) (st' ++ [o']) := by
  refine ⟨by simp [h.1], fun j a a' ha ha' => ?_⟩
  rw [List.getElem?_append] at ha ha'
  have := h.1
  split at ha
  · rw [if_pos (by omega)] at ha'
    exact h.2 j a a' ha ha'
  · rw [if_neg (by omega)] at ha'
    rcases hj : j - st.length with _ | k
    · rw [this] at hj
      simp_all
    · rw [hj] at ha; simp at ha

/-- what two commands that are alike must give -/
def SameIndex (r r' : Out × List SObj) : Prop := r.1 = r'.1 ∧ stIndex r.2 r'.2

theorem cmd_same (c : Cfg) (hst : stIndex st st') (cmd : Cmd) : SameRes SameIndex (cmdSpec c st cmd) (cmdSpec c st' cmd) := by
  cases cmd with
  | newBits w init => exact ⟨rfl, hst.append (.same _)⟩
  | newInts w k init => exact ⟨rfl, hst.append (.same _)⟩
  | eq i j | cmp i j =>
    rcases hst.cases i with ⟨e, e'⟩ | ⟨o, o', e, e', h1⟩ <;> rcases hst.cases j with ⟨f, f'⟩ | ⟨p, p', f, f', h2⟩
    · simp only [cmdSpec, e, e']; trivial
    · simp only [cmdSpec, e, e']; trivial
    · simp only [cmdSpec, f, f']
      cases h1 with
      | same o => cases o <;> simp only [e, e'] <;> trivial
      | swap l => simp only [e, e']; trivial
    · cases h1 with
      | same o =>
        cases h2 with
        | same p => cases o <;> cases p <;> simp only [cmdSpec, e, e', f, f'] <;> first
            | trivial
            | exact .ite .rfl fun _ => ⟨rfl, hst⟩
        | swap l => cases o <;> simp only [cmdSpec, e, e', f, f'] <;> trivial
      | swap l =>
        cases h2 with
        | same p => cases p <;> simp only [cmdSpec, e, e', f, f'] <;> trivial
        | swap l => simp only [cmdSpec, e, e', f, f']; trivial
  | edit i rs op =>
    rcases hst.cases i with ⟨e, e'⟩ | ⟨o, o', e, e', h1⟩
    · simp only [cmdSpec, e, e']; trivial
    · cases h1 with
      | same o =>
        simp only [cmdSpec, e, e']
        cases writeSpec o.list rs (op o.width) with
        | none => trivial
        | some l' =>
          simp only [Option.bind_eq_bind, Option.bind_some]
          cases o.withBits l' with
          | none => trivial
          | some o' => exact ⟨rfl, hst.set i (.same _)⟩
      | swap l =>
        simp only [cmdSpec, e, e', SObj.list, SObj.width]
        cases writeSpec l rs (op 64) <;> trivial
  | view i rs op =>
    rcases hst.cases i with ⟨e, e'⟩ | ⟨o, o', e, e', h1⟩
    · simp only [cmdSpec, e, e']; trivial
    · cases h1 with
      | same o =>
        cases o <;> simp only [cmdSpec, e, e'] <;> first
          | trivial
          | (cases readSpec _ _ rs op <;> first | trivial | exact ⟨rfl, hst⟩)
      | swap l =>
        simp only [cmdSpec, e, e', SObj.list, SObj.width]
        cases readSpec 64 l rs op <;> first | trivial | exact ⟨rfl, hst⟩
  | toRank9 i =>
    rcases hst.cases i with ⟨e, e'⟩ | ⟨o, o', e, e', h1⟩
    · simp only [cmdSpec, e, e']; trivial
    · cases h1 with
      | same o =>
        simp only [cmdSpec, e, e']
        split
        · exact ⟨rfl, hst.set i (.same _)⟩
        · trivial
      | swap l => simp only [cmdSpec, e, e']; trivial
  | clone i | onBits i op | onInts i op | onBuf i op | toBuf i e | toJacobson i | intoInner i | rank i p b | select i k b | encode i k v | decode i k
  | fmt i | iter i ops | readInt i W n be | writeInt i n sg be W x =>
    rcases hst.cases i with ⟨e, e'⟩ | ⟨o, o', e, e', h1⟩
    · simp only [cmdSpec, e, e']; trivial
    · have h1' := h1
      cases h1 with
      | same o =>
        cases o <;> simp only [cmdSpec, e, e'] <;> first
          | trivial
          | exact ⟨rfl, hst⟩
          | exact ⟨rfl, hst.append (.same _)⟩
          | exact ⟨rfl, hst.set i (.same _)⟩
          | (split <;> first | trivial | exact ⟨rfl, hst⟩ | exact ⟨rfl, hst.set i (.same _)⟩)
          | (cases bvSpec _ _ (op _) <;> first | trivial | exact ⟨rfl, hst.set i (.same _)⟩)
          | (cases ivSpec _ _ _ (op _) <;> first | trivial | exact ⟨rfl, hst.set i (.same _)⟩)
          | (cases bufSpec _ op <;> first | trivial | exact ⟨rfl, hst.set i (.same _)⟩)
      | swap l =>
        simp only [cmdSpec, e, e'] <;> first
          | trivial
          | exact ⟨rfl, hst⟩
          | exact ⟨rfl, hst.append (.swap _)⟩
          | exact ⟨rfl, hst.set i (.same _)⟩

/-- The programs have come to the point where the one makes a `Rank9` and the other a `JacobsonRank` of a vector that has fewer than two
bits, or no blocks of 64 bits. -/
def Parting (c : Cfg) (st st' : List SObj) (cmds cmds' : List Cmd) (p : Nat → List Bool → Prop) : Prop :=
  ∃ pre pre' i post post' outs ss ss' w l, cmds = pre ++ .toRank9 i :: post ∧ cmds' = pre' ++ .toJacobson i :: post' ∧
    progSpec c st pre = some (outs, ss) ∧ progSpec c st' pre' = some (outs, ss') ∧
    ss[i]? = some (.bits w l) ∧ ss'[i]? = some (.bits w l) ∧ p w l

theorem Parting.cons {p : Nat → List Bool → Prop} (h : Parting c s s' cmds cmds' p) (e : cmdSpec c st cmd = some (o, s))
    (e' : cmdSpec c st' cmd' = some (o, s')) : Parting c st st' (cmd :: cmds) (cmd' :: cmds') p := by
  obtain ⟨pre, pre', i, post, post', outs, ss, ss', w, l, rfl, rfl, h1, h2, h3⟩ := h
  refine ⟨cmd :: pre, cmd' :: pre', i, post, post', o :: outs, ss, ss', w, l, rfl, rfl, ?_, ?_, h3⟩
  · simp [progSpec, e, h1]
  · simp [progSpec, e', h2]

theorem prog_index (c : Cfg) (h : progIndex cmds cmds') {st st' : List SObj} (hst : stIndex st st') :
    SameRes (fun r r' => r.1 = r'.1 ∧ stIndex r.2 r'.2) (progSpec c st cmds) (progSpec c st' cmds') ∨
    Parting c st st' cmds cmds' fun w l => w ≠ 64 ∨ l.length < 2 := by
  induction h generalizing st st' with
  | nil => exact .inl ⟨rfl, hst⟩
  | @cons cmd cmd' cmds cmds' h t ih =>
    have k : SameRes SameIndex (cmdSpec c st cmd) (cmdSpec c st' cmd') ∨
        Parting c st st' (cmd :: cmds) (cmd' :: cmds') fun w l => w ≠ 64 ∨ l.length < 2 := by
      cases h with
      | same cmd => exact .inl (cmd_same c hst cmd)
      | swap i =>
        rcases hst.cases i with ⟨e, e'⟩ | ⟨o, o', e, e', h1⟩
        · left; simp only [cmdSpec, e, e']; trivial
        · cases h1 with
          | swap l => left; simp only [cmdSpec, e, e']; trivial
          | same o =>
            cases o with
            | bits w l =>
              by_cases hw : w = 64
              · subst hw
                by_cases hl : 2 ≤ l.length
                · left
                  simp only [cmdSpec, e, e', if_pos hl]
                  exact ⟨rfl, hst.set i (.swap l)⟩
                · exact .inr ⟨[], [], i, cmds, cmds', [], st, st', 64, l, rfl, rfl, rfl, rfl, e, e', .inr (by omega)⟩
              · exact .inr ⟨[], [], i, cmds, cmds', [], st, st', w, l, rfl, rfl, rfl, rfl, e, e', .inl hw⟩
            | _ => left; simp only [cmdSpec, e, e']; trivial
    rcases k with k | k
    · simp only [progSpec]
      rcases e : cmdSpec c st cmd with _ | ⟨o, s⟩ <;> rcases e' : cmdSpec c st' cmd' with _ | ⟨o', s'⟩ <;> rw [e, e'] at k
      · exact .inl trivial
      · exact k.elim
      · exact k.elim
      · obtain ⟨k1, k2⟩ := k
        simp only at k1 k2
        subst k1
        rcases ih k2 with k3 | k3
        · left
          simp only [Option.bind_eq_bind, Option.bind_some]
          rcases f : progSpec c s cmds with _ | ⟨os, s2⟩ <;> rcases f' : progSpec c s' cmds' with _ | ⟨os', s2'⟩ <;> rw [f, f'] at k3
          · trivial
          · exact k3.elim
          · exact k3.elim
          · exact ⟨congrArg (o :: ·) k3.1, k3.2⟩
        · exact .inr (k3.cons e e')
    · exact .inr k

theorem progSpec_append (c : Cfg) (pre post : List Cmd) (st : List SObj) (h : progSpec c st pre = some (outs, ss)) :
    progSpec c st (pre ++ post) = (progSpec c ss post).map fun r => (outs ++ r.1, r.2) := by
  induction pre generalizing st outs with
  | nil =>
    cases h
    simp
  | cons cmd pre ih =>
    simp only [progSpec, List.cons_append] at h ⊢
    rcases e : cmdSpec c st cmd with _ | ⟨o, s⟩
    · rw [e] at h; simp at h
    · rw [e] at h
      simp only [Option.bind_eq_bind, Option.bind_some] at h ⊢
      rcases f : progSpec c s pre with _ | ⟨os, s2⟩
      · rw [f] at h; simp at h
      · rw [f] at h
        simp only [Option.bind_some, Option.some.injEq, Prod.mk.injEq] at h
        obtain ⟨rfl, rfl⟩ := h
        rw [ih s f]
        cases progSpec c s2 post <;> simp

/-- **C144.** Two programs that differ only in that the one makes a `Rank9` wherever the other makes a `JacobsonRank` (`Rank9` being for
blocks of 64 bits only). If the one with `Rank9` runs to the end then either the other does as well, all their calls have returned the
same, and all objects have the same contents; or the other one panics, and does so where it makes a `JacobsonRank` of fewer than two
bits. -/
theorem C144_rank9 (c : Cfg) (cmds cmds' : List Cmd) (h : progIndex cmds cmds') (ho : progOk c [] cmds) (ho' : progOk c [] cmds')
    {outs : List Out} {st : List Obj} (hr : progRun c [] cmds = .ok (outs, st)) :
    (∃ st' ss ss', progRun c [] cmds' = .ok (outs, st') ∧ StR c st ss ∧ StR c st' ss' ∧ stIndex ss ss') ∨
    (progRun c [] cmds' = .panic ∧ Parting c [] [] cmds cmds' fun w l => w = 64 ∧ l.length < 2) := by
  have a := C117_from_start c cmds ho
  have a' := C117_from_start c cmds' ho'
  rcases e : progSpec c [] cmds with _ | ⟨os, s⟩
  · rw [e, hr] at a; cases a
  rw [e] at a
  obtain ⟨st1, h1, h2⟩ := a
  rw [hr] at h1
  injection h1 with h1
  injection h1 with e1 e2
  subst e1 e2
  rcases prog_index c h (st := []) (st' := []) ⟨rfl, fun i o o' h => by simp at h⟩ with k | k
  · rw [e] at k
    rcases e' : progSpec c [] cmds' with _ | ⟨os', s'⟩ <;> rw [e'] at k a'
    · exact k.elim
    · obtain ⟨st', h3, h4⟩ := a'
      obtain ⟨k1, k2⟩ := k
      simp only at k1 k2
      subst k1
      exact .inl ⟨st', s, s', h3, h2, h4, k2⟩
  · right
    obtain ⟨pre, pre', i, post, post', outs1, ss, ss', w, l, rfl, rfl, h3, h4, h5, h6, h7⟩ := k
    rw [progSpec_append c _ _ _ h3] at e
    have hw : w = 64 := by
      false_or_by_contra
      rename_i hw
      rw [show progSpec c ss (.toRank9 i :: post) = none from ?_] at e
      · cases e
      · simp only [progSpec, cmdSpec, h5]
        split
        · rename_i hh; cases hh; exact absurd rfl hw
        · rfl
    have hl : l.length < 2 := h7.resolve_left fun h => h hw
    have hn : progSpec c ss' (.toJacobson i :: post') = none := by
      simp only [progSpec, cmdSpec, h6, if_neg (show ¬ 2 ≤ l.length by omega)]
      rfl
    rw [progSpec_append c _ _ _ h4, hn] at a'
    exact ⟨a', pre, pre', i, post, post', outs1, ss, ss', w, l, rfl, rfl, h3, h4, h5, h6, hw, hl⟩

/-- **C144**, the other way round: if the program with `JacobsonRank` runs to the end then the one with `Rank9` does as well, with the
same results, unless it makes a `Rank9` of a vector that does not have blocks of 64 bits (which the Rust compiler rejects). -/
theorem C144_jacobson (c : Cfg) (cmds cmds' : List Cmd) (h : progIndex cmds cmds') (ho : progOk c [] cmds) (ho' : progOk c [] cmds')
    {outs : List Out} {st' : List Obj} (hr : progRun c [] cmds' = .ok (outs, st')) :
    (∃ st ss ss', progRun c [] cmds = .ok (outs, st) ∧ StR c st ss ∧ StR c st' ss' ∧ stIndex ss ss') ∨
    Parting c [] [] cmds cmds' fun w _ => w ≠ 64 := by
  have a := C117_from_start c cmds ho
  have a' := C117_from_start c cmds' ho'
  rcases e' : progSpec c [] cmds' with _ | ⟨os, s⟩
  · rw [e', hr] at a'; cases a'
  rw [e'] at a'
  obtain ⟨st1, h1, h2⟩ := a'
  rw [hr] at h1
  injection h1 with h1
  injection h1 with e1 e2
  subst e1 e2
  rcases prog_index c h (st := []) (st' := []) ⟨rfl, fun i o o' h => by simp at h⟩ with k | k
  · rw [e'] at k
    rcases e : progSpec c [] cmds with _ | ⟨os', s'⟩ <;> rw [e] at k a
    · exact k.elim
    · obtain ⟨st, h3, h4⟩ := a
      obtain ⟨k1, k2⟩ := k
      simp only at k1 k2
      subst k1
      exact .inl ⟨st, s', s, h3, h4, h2, k2⟩
  · right
    obtain ⟨pre, pre', i, post, post', outs1, ss, ss', w, l, rfl, rfl, h3, h4, h5, h6, h7⟩ := k
    refine ⟨pre, pre', i, post, post', outs1, ss, ss', w, l, rfl, rfl, h3, h4, h5, h6, fun hw => ?_⟩
    have hl : l.length < 2 := h7.resolve_left fun h => h hw
    rw [progSpec_append c _ _ _ h4, show progSpec c ss' (.toJacobson i :: post') = none from ?_] at e'
    · cases e'
    · simp only [progSpec, cmdSpec, h6, if_neg (show ¬ 2 ≤ l.length by omega)]
      rfl

/-- three ones, counted by a `Rank9` and by a `JacobsonRank` -/
example (c : Cfg) :
    let cmds (r : Cmd) : List Cmd := [.newBits 64 (.withFill 3 true), r, .rank 0 1 true, .select 0 2 true]
    ∃ st st', progRun c [] (cmds (.toRank9 0)) = .ok ([.unit, .unit, .num 2, .optNum (some 2)], st) ∧
      progRun c [] (cmds (.toJacobson 0)) = .ok ([.unit, .unit, .num 2, .optNum (some 2)], st') ∧
      progIndex (cmds (.toRank9 0)) (cmds (.toJacobson 0)) := by
  have hf : Fits c.usz 64 3 := by
    have := c.le_pow_usz
    unfold Fits blocksFor
    constructor <;> omega
  have key : ∀ r o, r = Cmd.toRank9 0 ∧ o = SObj.rank9 [true, true, true] ∨ r = Cmd.toJacobson 0 ∧ o = SObj.jacobson 64 [true, true, true] →
      ∀ cmds, cmds = ([.newBits 64 (.withFill 3 true), r, .rank 0 1 true, .select 0 2 true] : List Cmd) →
      progOk c [] cmds ∧ progSpec c [] cmds = some ([.unit, .unit, .num 2, .optNum (some 2)], [o]) := by
    intro r o hr cmds hc
    subst hc
    refine prog_cons ⟨by decide, hf⟩ rfl (ss' := [.bits 64 [true, true, true]]) ?_
    have hm : InMemory c.usz 3 := by rcases c with ⟨_ | _, _ | _, _ | _⟩ <;> decide
    refine prog_cons (o := .unit) (ss' := [o]) ?_ (by rcases hr with ⟨rfl, rfl⟩ | ⟨rfl, rfl⟩ <;> rfl) ?_
    · rcases hr with ⟨rfl, rfl⟩ | ⟨rfl, rfl⟩
      · intro l h; cases h; exact hm
      · intro w l h; cases h; exact hm
    refine prog_cons (o := .num 2) (ss' := [o]) ?_ (by rcases hr with ⟨rfl, rfl⟩ | ⟨rfl, rfl⟩ <;> rfl) ?_
    · rcases hr with ⟨rfl, rfl⟩ | ⟨rfl, rfl⟩ <;> rintro w' l (h | h) <;> cases h <;> decide
    refine prog_cons (o := .optNum (some 2)) (ss' := [o]) (show 2 + 1 < 2 ^ 64 by decide)
      (by rcases hr with ⟨rfl, rfl⟩ | ⟨rfl, rfl⟩ <;> rfl) ?_
    exact ⟨trivial, rfl⟩
  intro cmds
  have h9 := key _ _ (.inl ⟨rfl, rfl⟩) (cmds (.toRank9 0)) rfl
  have hj := key _ _ (.inr ⟨rfl, rfl⟩) (cmds (.toJacobson 0)) rfl
  have a := C117_from_start c _ h9.1
  rw [h9.2] at a
  obtain ⟨st, a, -⟩ := a
  have b := C117_from_start c _ hj.1
  rw [hj.2] at b
  obtain ⟨st', b, -⟩ := b
  exact ⟨st, st', a, b, .cons (.same _) (.cons (.swap 0) (.cons (.same _) (.cons (.same _) .nil)))⟩

/-- **C144.** The exception is needed: of a single bit, a `Rank9` can be made but no `JacobsonRank`. -/
theorem C144_short (c : Cfg) :
    (∃ st, progRun c [] [.newBits 64 (.withFill 1 true), .toRank9 0] = .ok ([.unit, .unit], st)) ∧
    progRun c [] [.newBits 64 (.withFill 1 true), .toJacobson 0] = .panic := by
  have hf : Fits c.usz 64 1 := by
    have := c.le_pow_usz
    unfold Fits blocksFor
    constructor <;> omega
  have hm : InMemory c.usz 1 := by rcases c with ⟨_ | _, _ | _, _ | _⟩ <;> decide
  constructor
  · have h : progOk c [] [.newBits 64 (.withFill 1 true), .toRank9 0] ∧
        progSpec c [] [.newBits 64 (.withFill 1 true), .toRank9 0] = some ([.unit, .unit], [.rank9 [true]]) := by
      refine prog_cons ⟨by decide, hf⟩ rfl (ss' := [.bits 64 [true]]) ?_
      refine prog_cons ?_ rfl ⟨trivial, rfl⟩
      intro l h; cases h; exact hm
    have a := C117_from_start c _ h.1
    rw [h.2] at a
    obtain ⟨st, a, -⟩ := a
    exact ⟨st, a⟩
  · have h : progOk c [] [.newBits 64 (.withFill 1 true), .toJacobson 0] := by
      refine ⟨⟨by decide, hf⟩, fun r hr => ?_⟩
      cases hr
      refine ⟨?_, fun r _ => trivial⟩
      intro w l h; cases h; exact hm
    exact C117_from_start c _ h

/-! Each theorem of this file that has hypotheses is applied to concrete data in `Verif/Instances/IndexChoice.lean`. -/

end Succinct
