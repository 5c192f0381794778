import Verif.Spec.Alike
import Verif.Props.Program
/-!
# The block type is only a choice of representation

C141: two programs that make the same calls on vectors with other block types return the same, panic at the same point and leave the
same contents behind, as long as they stay away from calls that name blocks and from comparisons.
-/
namespace Succinct
open Spec

theorem Spec.stAlike.cases (h : stAlike R st st') (i : Nat) :
    (st[i]? = none ∧ st'[i]? = none) ∨ ∃ o o', st[i]? = some o ∧ st'[i]? = some o' ∧ SObj.Alike R o o' := by
  by_cases hi : i < st.length
  · have hi' : i < st'.length := h.1 ▸ hi
    exact Or.inr ⟨st[i], st'[i], by simp [hi], by simp [hi'], h.2 i _ _ (by simp [hi]) (by simp [hi'])⟩
  · have hi' : ¬ i < st'.length := h.1 ▸ hi
    exact Or.inl ⟨by simp; omega, by simp; omega⟩

theorem Spec.stAlike.set (h : stAlike R st st') (i : Nat) (ho : SObj.Alike R o o') : stAlike R (st.set i o) (st'.set i o') := by
  refine ⟨by simp [h.1], fun j a a' ha ha' => ?_⟩
  rw [List.getElem?_set] at ha ha'
  split at ha
  · rename_i e
    rw [if_pos e] at ha'
    split at ha <;> split at ha' <;> simp_all
  · rename_i e
    rw [if_neg e] at ha'
    exact h.2 j a a' ha ha'

theorem Spec.stAlike.append (h : stAlike R st st') (ho : SObj.Alike R o o') : stAlike R (st ++ [o]) (st' ++ [o']) := by
  refine ⟨by simp [h.1], fun j a a' ha ha' => ?_⟩
  rw [List.getElem?_append] at ha ha'
  have := h.1
  split at ha
  · rw [if_pos (by omega)] at ha'
    exact h.2 j a a' ha ha'
  · rw [if_neg (by omega)] at ha'
    rcases hj : j - st.length with _ | k
    · rw [this] at hj
      simp_all
    · rw [hj] at ha; simp at ha

/-- both panic, or both succeed with results that are alike -/
def SameRes (P : α → β → Prop) : Option α → Option β → Prop
  | none, none => True
  | some a, some b => P a b
  | _, _ => False

theorem SameRes.some {P : α → β → Prop} (h : P a b) : SameRes P (some a) (some b) := h
theorem SameRes.none {P : α → β → Prop} : SameRes P none none := trivial
theorem SameRes.ite {P : α → β → Prop} {p q : Prop} [Decidable p] [Decidable q] (hpq : p ↔ q) {x : Option α} {y : Option β} (h : p → SameRes P x y) :
    SameRes P (if p then x else Option.none) (if q then y else Option.none) := by
  by_cases hp : p
  · rw [if_pos hp, if_pos (hpq.1 hp)]; exact h hp
  · rw [if_neg hp, if_neg (fun h => hp (hpq.2 h))]; trivial
theorem SameRes.map {P : α → β → Prop} {Q : γ → δ → Prop} {x : Option α} {y : Option β} (h : SameRes P x y) (f : α → γ) (g : β → δ)
    (hf : ∀ a b, P a b → Q (f a) (g b)) : SameRes Q (x.map f) (y.map g) := by
  cases x <;> cases y <;> first | trivial | exact h | exact hf _ _ h

theorem bitsVal_field {w : Nat} (l : List Bool) (h : n ≤ w) : (BitVec.ofNat w (bitsVal (l.take n))).toNat = bitsVal (l.take n) := by
  rw [BitVec.toNat_ofNat]
  refine Nat.mod_eq_of_lt (Nat.lt_of_lt_of_le (bitsVal_lt _) (Nat.pow_le_pow_right (by decide) ?_))
  rw [List.length_take]; omega

theorem bv_alike (w w' : Nat) (l : List Bool) {op : BvOp w} {op' : BvOp w'} (h : BvOp.Alike op op') (ho : op.Ok usz w l) (ho' : op'.Ok usz w' l) :
    SameRes (fun r r' => (Out.bits w r.1).plain = (Out.bits w' r'.1).plain ∧ r.2 = r'.2) (bvSpec w l op) (bvSpec w' l op') := by
  cases h with
  | setBits p n h => simp only [bvSpec, h]; exact .ite .rfl fun _ => ⟨rfl, rfl⟩
  | setBit i b => exact .ite .rfl fun _ => ⟨rfl, rfl⟩
  | getBit i => simp only [bvSpec]; cases l[i]? <;> first | trivial | exact ⟨rfl, rfl⟩
  | getBits p n =>
    refine .ite .rfl fun _ => ⟨?_, rfl⟩
    simp only [Out.plain, bitsVal_field _ ho.2.2, bitsVal_field _ ho'.2.2]
  | _ => exact ⟨rfl, rfl⟩

theorem iv_alike (w w' k : Nat) (xs : List Nat) {op : IvOp w} {op' : IvOp w'} (h : IvOp.Alike op op') :
    SameRes Eq (ivSpec w k xs op) (ivSpec w' k xs op') := by
  have hr : ∀ x : Option (IvOut × List Nat), SameRes Eq x x := fun x => by cases x <;> trivial
  cases h <;> simp only [ivSpec, *] <;> exact hr _

theorem rd_alike (w w' : Nat) (l : List Bool) (rs : List Rng) (op : RdOp) (ho : op.Ok w) (ho' : op.Ok w') :
    SameRes (fun r r' => (Out.bits w r).plain = (Out.bits w' r').plain) (readSpec w l rs op) (readSpec w' l rs op) := by
  unfold readSpec
  rcases cut 0 l.length rs with _ | ⟨a, n⟩
  · trivial
  · cases op with
    | len => rfl
    | bit i => cases h : ((l.drop a).take n)[i]? <;> simp [h, SameRes, Out.plain]
    | bits p m =>
      refine .ite .rfl fun _ => .some ?_
      simp only [Out.plain, bitsVal_field _ ho.2.1, bitsVal_field _ ho'.2.1]

theorem wr_alike (w w' : Nat) (l : List Bool) (rs : List Rng) {op : WrOp w} {op' : WrOp w'} (h : WrOp.Alike op op') :
    writeSpec l rs op = writeSpec l rs op' := by
  cases h <;> simp only [writeSpec, *]

theorem Spec.SObj.Alike.list (h : SObj.Alike R o o') : o.list = o'.list := by cases h <;> rfl

/-- what two commands that are alike must give -/
def SameStep (R : Nat → Nat → Prop) (r r' : Out × List SObj) : Prop := r.1.plain = r'.1.plain ∧ stAlike R r.2 r'.2

theorem cmd_alike (c : Cfg) (hR : OneToOne R) (hst : stAlike R st st') (h : Cmd.Alike R cmd cmd') (ho : cmd.Ok c st) (ho' : cmd'.Ok c st') :
    SameRes (SameStep R) (cmdSpec c st cmd) (cmdSpec c st' cmd') := by
  cases h with
  | newBits h hi => exact ⟨rfl, hst.append (by cases hi <;> exact .bits h _)⟩
  | newInts k h hi => 
    refine ⟨rfl, hst.append ?_⟩
    cases hi with
    | withFill n hx => simp only [IvInit.elems, hx]; exact .ints h _ _
    | _ => exact .ints h _ _
  | eq i j =>
    rcases hst.cases i with ⟨e, e'⟩ | ⟨o, o', e, e', h1⟩ <;> rcases hst.cases j with ⟨f, f'⟩ | ⟨p, p', f, f', h2⟩
    · simp only [cmdSpec, e, e']; trivial
    · simp only [cmdSpec, e, e']; trivial
    · simp only [cmdSpec, f, f']; cases h1 <;> simp only [e, e'] <;> trivial
    · cases h1 <;> cases h2 <;> simp only [cmdSpec, e, e', f, f'] <;> first
        | trivial
        | exact .ite (hR _ _ _ _ (by assumption) (by assumption)) fun _ => ⟨rfl, hst⟩
  | onBits i h =>
    rcases hst.cases i with ⟨e, e'⟩ | ⟨o, o', e, e', h1⟩
    · simp only [cmdSpec, e, e']; trivial
    · cases h1 with
      | bits hw l =>
        simp only [cmdSpec, e, e']
        exact (bv_alike _ _ l (h _ _ hw) (ho _ _ e) (ho' _ _ e')).map _ _ fun a b hab => ⟨hab.1, hst.set i (hab.2 ▸ .bits hw _)⟩
      | _ => simp only [cmdSpec, e, e']; trivial
  | onInts i h =>
    rcases hst.cases i with ⟨e, e'⟩ | ⟨o, o', e, e', h1⟩
    · simp only [cmdSpec, e, e']; trivial
    · cases h1 with
      | ints hw k xs =>
        simp only [cmdSpec, e, e']
        exact (iv_alike _ _ k xs (h _ _ hw)).map _ _ fun a b hab => by subst hab; exact ⟨rfl, hst.set i (.ints hw _ _)⟩
      | _ => simp only [cmdSpec, e, e']; trivial
  | @edit i rs op op' h =>
    rcases hst.cases i with ⟨e, e'⟩ | ⟨o, o', e, e', h1⟩
    · simp only [cmdSpec, e, e']; trivial
    · have key : ∀ (w w' : Nat) (l : List Bool), R w w' → writeSpec l rs (op w) = writeSpec l rs (op' w') := fun w w' l hw => wr_alike w w' l rs (h w w' hw)
      cases h1 with
      | bits hw l | ints hw k xs | file hw f =>
        simp only [cmdSpec, e, e', SObj.list, SObj.width, key _ _ _ hw]
        cases writeSpec _ rs (op' _) with
        | none => trivial
        | some l' => exact ⟨rfl, hst.set i (by first | exact .bits hw _ | exact .ints hw _ _ | exact .file hw _)⟩
      | rank9 hw l | jacobson hw l =>
        simp only [cmdSpec, e, e', SObj.list, SObj.width, key _ _ _ hw]
        cases writeSpec _ rs (op' _) <;> trivial
      | gone => 
        simp only [cmdSpec, e, e', SObj.list, SObj.width]
        cases writeSpec _ rs (op _) <;> cases writeSpec _ rs (op' _) <;> trivial
  | toRank9 i h =>
    rcases hst.cases i with ⟨e, e'⟩ | ⟨o, o', e, e', h1⟩
    · simp only [cmdSpec, e, e']; trivial
    · cases h1 with
      | @bits w w' hw l =>
        by_cases h64 : w = 64
        · have h64' := (hR _ _ _ _ hw h).1 h64
          subst h64 h64'
          simp only [cmdSpec, e, e']
          exact ⟨rfl, hst.set i (.rank9 h l)⟩
        · have h64' := fun h' => h64 ((hR _ _ _ _ hw h).2 h')
          have h2 : cmdSpec c st (.toRank9 i) = none := by
            simp only [cmdSpec, e]
            split
            · rename_i hh; cases hh; exact absurd rfl h64
            · rfl
          have h3 : cmdSpec c st' (.toRank9 i) = none := by
            simp only [cmdSpec, e']
            split
            · rename_i hh; cases hh; exact absurd rfl h64'
            · rfl
          rw [h2, h3]; trivial
      | _ => simp only [cmdSpec, e, e']; trivial
  | encode i k v =>
    rcases hst.cases i with ⟨e, e'⟩ | ⟨o, o', e, e', h1⟩
    · simp only [cmdSpec, e, e']; trivial
    · cases h1 with
      | file hw f =>
        simp only [cmdSpec, e, e']
        cases k.encOut c.debug v <;> first | trivial | exact ⟨rfl, hst⟩ | exact ⟨rfl, hst.set i (.file hw _)⟩
      | _ => simp only [cmdSpec, e, e']; trivial
  | decode i k =>
    rcases hst.cases i with ⟨e, e'⟩ | ⟨o, o', e, e', h1⟩
    · simp only [cmdSpec, e, e']; trivial
    · cases h1 with
      | file hw f =>
        simp only [cmdSpec, e, e']
        cases k.decOut c (f.bits.drop f.pos) <;> first | trivial | exact ⟨rfl, hst.set i (.file hw _)⟩
      | _ => simp only [cmdSpec, e, e']; trivial
  | readInt i W n be =>
    rcases hst.cases i with ⟨e, e'⟩ | ⟨o, o', e, e', h1⟩
    · simp only [cmdSpec, e, e']; trivial
    · cases h1 with
      | file hw f =>
        simp only [cmdSpec, e, e']
        split <;> exact ⟨rfl, hst.set i (.file hw _)⟩
      | _ => simp only [cmdSpec, e, e']; trivial
  | onBuf i op =>
    rcases hst.cases i with ⟨e, e'⟩ | ⟨o, o', e, e', h1⟩
    · simp only [cmdSpec, e, e']; trivial
    · cases h1 with
      | file hw f =>
        simp only [cmdSpec, e, e']
        cases bufSpec f op <;> first | trivial | exact ⟨rfl, hst.set i (.file hw _)⟩
      | _ => simp only [cmdSpec, e, e']; trivial
  | view i rs op =>
    rcases hst.cases i with ⟨e, e'⟩ | ⟨o, o', e, e', h1⟩
    · simp only [cmdSpec, e, e']; trivial
    · have hk := rd_alike o.width o'.width o.list rs op (ho o e).2 (ho' o' e').2
      rw [h1.list] at hk
      cases h1 <;> simp only [cmdSpec, e, e'] <;> first | trivial | exact hk.map _ _ fun a b hab => ⟨hab, hst⟩
  | toJacobson i =>
    rcases hst.cases i with ⟨e, e'⟩ | ⟨o, o', e, e', h1⟩
    · simp only [cmdSpec, e, e']; trivial
    · cases h1 <;> simp only [cmdSpec, e, e'] <;> first
        | trivial
        | exact .ite .rfl fun _ => ⟨rfl, hst.set i (.jacobson (by assumption) _)⟩
  | clone i | toBuf i e | intoInner i | rank i p b | select i k b | fmt i | iter i ops | writeInt i n sg be W x =>
    rcases hst.cases i with ⟨e, e'⟩ | ⟨o, o', e, e', h1⟩
    · simp only [cmdSpec, e, e']; trivial
    · have h1' := h1
      cases h1 <;> simp only [cmdSpec, e, e'] <;> first
        | trivial
        | exact ⟨rfl, hst⟩
        | exact ⟨rfl, hst.append h1'⟩
        | exact ⟨rfl, hst.set i (by first | exact .bits (by assumption) _ | exact .file (by assumption) _)⟩

theorem prog_alike (c : Cfg) (hR : OneToOne R) (h : progAlike R cmds cmds') {st st' : List SObj} (hst : stAlike R st st')
    (ho : progOk c st cmds) (ho' : progOk c st' cmds') :
    SameRes (fun r r' => r.1.map Out.plain = r'.1.map Out.plain ∧ stAlike R r.2 r'.2) (progSpec c st cmds) (progSpec c st' cmds') := by
  induction h generalizing st st' with
  | nil => exact ⟨rfl, hst⟩
  | @cons cmd cmd' cmds cmds' h t ih =>
    have k := cmd_alike c hR hst h ho.1 ho'.1
    simp only [progSpec]
    rcases e : cmdSpec c st cmd with _ | ⟨o, s⟩ <;> rcases e' : cmdSpec c st' cmd' with _ | ⟨o', s'⟩ <;> rw [e, e'] at k
    · trivial
    · exact k.elim
    · exact k.elim
    · have k2 := ih k.2 (ho.2 _ e) (ho'.2 _ e')
      simp only [Option.bind_eq_bind, Option.bind_some]
      simp only at k2
      rcases f : progSpec c s cmds with _ | ⟨os, s2⟩ <;> rcases f' : progSpec c s' cmds' with _ | ⟨os', s2'⟩ <;> rw [f, f'] at k2
      · trivial
      · exact k2.elim
      · exact k2.elim
      · refine ⟨?_, k2.2⟩
        simp only [List.map_cons]
        exact congr (congrArg _ k.1) k2.1

/-- **C141.** Programs that differ in the block types only, and name no blocks, either both panic or both run to the end; then all
their calls have returned the same and all their objects have the same contents. -/
theorem C141_block_choice (c : Cfg) (R : Nat → Nat → Prop) (hR : OneToOne R) (cmds cmds' : List Cmd) (h : progAlike R cmds cmds')
    (ho : progOk c [] cmds) (ho' : progOk c [] cmds') :
    (progRun c [] cmds = .panic ∧ progRun c [] cmds' = .panic) ∨
    ∃ outs outs' st st' ss ss', progRun c [] cmds = .ok (outs, st) ∧ progRun c [] cmds' = .ok (outs', st') ∧
      outs.map Out.plain = outs'.map Out.plain ∧ StR c st ss ∧ StR c st' ss' ∧ stAlike R ss ss' := by
  have k := prog_alike c hR h (st := []) (st' := []) ⟨rfl, fun i o o' h => by simp at h⟩ ho ho'
  have a := C117_from_start c cmds ho
  have a' := C117_from_start c cmds' ho'
  rcases e : progSpec c [] cmds with _ | ⟨os, s⟩ <;> rcases e' : progSpec c [] cmds' with _ | ⟨os', s'⟩ <;> rw [e, e'] at k <;>
    rw [e] at a <;> rw [e'] at a'
  · exact Or.inl ⟨a, a'⟩
  · exact k.elim
  · exact k.elim
  · obtain ⟨st, h1, h2⟩ := a
    obtain ⟨st', h3, h4⟩ := a'
    exact Or.inr ⟨os, os', st, st', s, s', h1, h3, k.1, h2, h4, k.2⟩

/-- a vector of three ones, of which the last two are read, changed and counted, with blocks of 64 and of 8 bits -/
example (c : Cfg) :
    let cmds (w : Nat) : List Cmd := [.newBits w (.withFill 3 true), .onBits 0 (fun _ => .getBits 1 2),
      .onBits 0 (fun w => .setBits 0 2 (BitVec.ofNat w 2)), .toJacobson 0, .rank 0 2 true]
    ∃ st st', progRun c [] (cmds 64) = .ok ([.unit, .bits 64 (.block 3), .bits 64 .unit, .unit, .num 2], st) ∧
      progRun c [] (cmds 8) = .ok ([.unit, .bits 8 (.block 3), .bits 8 .unit, .unit, .num 2], st') ∧
      progAlike (fun w w' => w = 64 ∧ w' = 8) (cmds 64) (cmds 8) := by
  have hf : ∀ w, w = 64 ∨ w = 8 → Fits c.usz w 3 := by
    intro w h
    have := c.le_pow_usz
    unfold Fits blocksFor
    rcases h with rfl | rfl <;> constructor <;> omega
  have key : ∀ w, w = 64 ∨ w = 8 → ∀ cmds, cmds = ([.newBits w (.withFill 3 true), .onBits 0 (fun _ => .getBits 1 2),
      .onBits 0 (fun w => .setBits 0 2 (BitVec.ofNat w 2)), .toJacobson 0, .rank 0 2 true] : List Cmd) →
      progOk c [] cmds ∧ progSpec c [] cmds = some ([.unit, .bits w (.block 3), .bits w .unit, .unit, .num 2], [.jacobson w [false, true, true]]) := by
    intro w hw cmds hc
    subst hc
    refine prog_cons ⟨by rcases hw with rfl | rfl <;> decide, hf w hw⟩ rfl ?_
    refine prog_cons ?_ (by rcases hw with rfl | rfl <;> rfl) (ss' := [.bits w [true, true, true]]) ?_
    · intro w' l h; cases h; exact ⟨by decide, by decide, by rcases hw with rfl | rfl <;> decide⟩
    refine prog_cons ?_ (by rcases hw with rfl | rfl <;> rfl) (ss' := [.bits w [false, true, true]]) ?_
    · intro w' l h; cases h; exact ⟨by decide, by decide, by rcases hw with rfl | rfl <;> decide⟩
    refine prog_cons ?_ rfl ?_
    · intro w' l h; cases h; rcases c with ⟨_ | _, _ | _, _ | _⟩ <;> decide
    refine prog_cons (o := .num 2) ?_ rfl ?_
    · rintro w' l (h | h) <;> cases h; decide
    exact ⟨trivial, rfl⟩
  intro cmds
  have h64 := key 64 (Or.inl rfl) (cmds 64) rfl
  have h8 := key 8 (Or.inr rfl) (cmds 8) rfl
  have a := C117_from_start c _ h64.1
  have b := C117_from_start c _ h8.1
  rw [h64.2] at a
  rw [h8.2] at b
  obtain ⟨st, a, -⟩ := a
  obtain ⟨st', b, -⟩ := b
  refine ⟨st, st', a, b, .cons (.newBits ⟨rfl, rfl⟩ (.withFill 3 true)) (.cons (.onBits 0 fun w w' _ => .getBits 1 2)
    (.cons (.onBits 0 ?_) (.cons (.toJacobson 0) (.cons (.rank 0 2 true) .nil))))⟩
  rintro w w' ⟨rfl, rfl⟩
  exact .setBits 0 2 (by decide)

/-- `cmp` and calls that name blocks do depend on the block type. -/
theorem C141_exceptions (c : Cfg) : ∃ st st' ss ss',
    (let cmds (w : Nat) : List Cmd := [.newBits w (.withFill 9 false), .clone 0, .onBits 0 (fun _ => .setBit 0 true),
      .onBits 1 (fun _ => .setBit 8 true), .cmp 0 1, .onBits 0 (fun _ => .blockLen)]
    progRun c [] (cmds 8) = .ok ([.unit, .unit, .bits 8 .unit, .bits 8 .unit, .order .gt, .bits 8 (.num 2)], st) ∧
    progRun c [] (cmds 64) = .ok ([.unit, .unit, .bits 64 .unit, .bits 64 .unit, .order .lt, .bits 64 (.num 1)], st')) ∧
    StR c st ss ∧ StR c st' ss' ∧ stAlike (fun w w' => w = 8 ∧ w' = 64) ss ss' := by
  have hf : ∀ w, w = 64 ∨ w = 8 → Fits c.usz w 9 := by
    intro w h
    have := c.le_pow_usz
    unfold Fits blocksFor
    rcases h with rfl | rfl <;> constructor <;> omega
  let l : List Bool := true :: List.replicate 8 false
  let l' : List Bool := List.replicate 8 false ++ [true]
  have key : ∀ w, w = 64 ∨ w = 8 → ∀ cmds, cmds = ([.newBits w (.withFill 9 false), .clone 0, .onBits 0 (fun _ => .setBit 0 true),
      .onBits 1 (fun _ => .setBit 8 true), .cmp 0 1, .onBits 0 (fun _ => .blockLen)] : List Cmd) →
      progOk c [] cmds ∧ progSpec c [] cmds = some ([.unit, .unit, .bits w .unit, .bits w .unit, .order (bitsOrder w l l'),
        .bits w (.num (blocksFor w 9))], [.bits w l, .bits w l']) := by
    intro w hw cmds hc
    subst hc
    refine prog_cons ⟨by rcases hw with rfl | rfl <;> decide, hf w hw⟩ rfl ?_
    refine prog_cons trivial rfl ?_
    refine prog_cons ?_ rfl (ss' := [.bits w l, .bits w (List.replicate 9 false)]) ?_
    · intro w' l h; cases h; exact show 0 < 2 ^ 64 by decide
    refine prog_cons ?_ rfl (ss' := [.bits w l, .bits w l']) ?_
    · intro w' l h; cases h; exact show 8 < 2 ^ 64 by decide
    refine prog_cons trivial (o := .order (bitsOrder w l l')) (ss' := [.bits w l, .bits w l']) ?_ ?_
    · simp [cmdSpec]
    refine prog_cons ?_ rfl ?_
    · intro w' l h; cases h; trivial
    exact ⟨trivial, rfl⟩
  have h8 := key 8 (Or.inr rfl) _ rfl
  have h64 := key 64 (Or.inl rfl) _ rfl
  have a := C117_from_start c _ h8.1
  have b := C117_from_start c _ h64.1
  rw [h8.2] at a
  rw [h64.2] at b
  obtain ⟨st, a, a2⟩ := a
  obtain ⟨st', b, b2⟩ := b
  rw [show bitsOrder 8 l l' = .gt from by decide] at a
  rw [show bitsOrder 64 l l' = .lt from by decide] at b
  refine ⟨st, st', _, _, ⟨a, b⟩, a2, b2, rfl, ?_⟩
  intro i o o' h h'
  match i with
  | 0 => cases h; cases h'; exact .bits ⟨rfl, rfl⟩ l
  | 1 => cases h; cases h'; exact .bits ⟨rfl, rfl⟩ l'
  | i + 2 => simp at h

/-! Each theorem of this file that has hypotheses is applied to concrete data in `Verif/Instances/BlockChoice.lean`. -/

end Succinct
