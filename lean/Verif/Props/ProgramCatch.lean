import Verif.Spec.ProgramCatch
import Verif.Props.Program
import Verif.Props.AnySource
import Verif.Lemmas.UnwindMore
/-! Property C122: programs that use many objects at once and catch panics. -/
namespace Succinct
open Spec

/-- `st'` are the objects when a command that has panicked has been unwound. Methods that only read leave everything as it is;
a method that takes its argument by value drops it. For `encode` and `write_int` only the panics before the first bit is written
are described, as no others occur. -/
def LeftBehind (c : Cfg) (st st' : List Obj) : Cmd → Prop
  | .onBits i op =>
    match st[i]? with
    | some (.bits w s) => ∃ s', bvStepP c (op w) s = .panic s' ∧ st' = st.set i (.bits w s')
    | _ => st' = st
  | .onInts i op =>
    match st[i]? with
    | some (.ints w s) => ∃ s', ivStepP c (op w) s = .panic s' ∧ st' = st.set i (.ints w s')
    | _ => st' = st
  | .onBuf i op =>
    match st[i]? with
    | some (.buf w s) => ∃ s', bufStepP c w op s = .panic s' ∧ st' = st.set i (.buf w s')
    | _ => st' = st
  | .edit i rs op =>
    match st[i]? with
    | some (.bits w s) => ∃ s', writeThroughP c (bvMutP c w) rs (op w) s = .panic s' ∧ st' = st.set i (.bits w s')
    | some (.ints w s) => ∃ s', writeThroughP c (ivMutP c w) rs (op w) s = .panic s' ∧ st' = st.set i (.ints w s')
    | some (.buf w s) => ∃ s', writeThroughP c (BitBuf.mutP c (bvMutP c w)) rs (op w) s = .panic s' ∧ st' = st.set i (.buf w s')
    | _ => st' = st
  | .encode i k v =>
    match st[i]? with
    | some (.buf w s) => PanicsUnwritten (fun W => (CodeName.code c k).encode W v) (BitBuf.write c (bvBitVecPush c w)) s ∧ st' = st
    | _ => st' = st
  | .writeInt i n sg be _ x =>
    match st[i]? with
    | some (.buf w s) => PanicsUnwritten (fun W => if be then Succinct.writeIntBe c sg W n x else Succinct.writeInt c sg W n x)
        (BitBuf.write c (bvBitVecPush c w)) s ∧ st' = st
    | _ => st' = st
  | .decode i k =>
    match st[i]? with
    | some (.buf w s) => ∃ s', PanicsReading (fun R => (CodeName.code c k).decode R) (BitBuf.read c (bvBitVec c w)) s s' ∧
        st' = st.set i (.buf w s')
    | _ => st' = st
  | .readInt i W n be =>
    match st[i]? with
    | some (.buf w s) => ∃ s', PanicsReading (fun R => if be then Succinct.readIntBe c R W n else Succinct.readInt c R W n)
        (BitBuf.read c (bvBitVec c w)) s s' ∧ st' = st.set i (.buf w s')
    | _ => st' = st
  | .toBuf i _ | .toJacobson i =>
    match st[i]? with
    | some (.bits _ _) => st' = st.set i .gone
    | _ => st' = st
  | .toRank9 i =>
    match st[i]? with
    | some (.bits 64 _) => st' = st.set i .gone
    | _ => st' = st
  | _ => st' = st

/-- One command: it returns something, or it panics and the panic is caught. -/
def CatchCmd (c : Cfg) (st : List Obj) (cmd : Cmd) (o : Option Spec.Out) (st' : List Obj) : Prop :=
  match o with
  | some o => cmdRun c st cmd = .ok (o, st')
  | none => cmdRun c st cmd = .panic ∧ LeftBehind c st st' cmd

/-- A program that catches the panics of its commands and goes on. -/
inductive CatchProg (c : Cfg) : List Obj → List Cmd → List (Option Spec.Out) → List Obj → Prop
  | nil : CatchProg c st [] [] st
  | cons : CatchCmd c st cmd o st1 → CatchProg c st1 cmds os st2 → CatchProg c st (cmd :: cmds) (o :: os) st2

/-! ### decoders -/

theorem metered_reads {R : BitRead σ} {s s' : σ} {l : List Bool} (h : Reads R s l s') (n : Nat) :
    Reads R.metered (s, l.length + n) l (s', n) := by
  induction h with
  | nil s => rw [List.length_nil, Nat.zero_add]; exact .nil _
  | @cons s s1 s2 b bs h1 h2 ih =>
    refine .cons (s1 := (s1, bs.length + n)) ?_ ih
    rw [List.length_cons, Nat.add_right_comm]
    show (R.readBit s >>= fun r => Res.ok (r.1, (r.2, bs.length + n))) = _
    rw [h1]; rfl

theorem after_reads {R : BitRead σ} {s s' : σ} {l : List Bool} (h : Reads R s l s') : R.after l.length s = .ok s' := by
  induction h with
  | nil s => rfl
  | @cons s s1 s2 b bs h1 h2 ih =>
    show (R.readBit s >>= fun r => R.after bs.length r.2) = _
    rw [h1]; exact ih

theorem reads_take {R : BitRead σ} {s s' : σ} {l : List Bool} (h : Reads R s l s') (n : Nat) : ∃ s1, Reads R s (l.take n) s1 := by
  induction h generalizing n with
  | nil s => exact ⟨s, by rw [List.take_nil]; exact .nil s⟩
  | @cons s s1 s2 b bs h1 h2 ih =>
    cases n with
    | zero => exact ⟨s, .nil s⟩
    | succ n =>
      obtain ⟨t, ht⟩ := ih n
      exact ⟨t, .cons h1 ht⟩

theorem panicAfter_eq {c : Cfg} {k : CodeName} {bits : List Bool} {n : Nat} (hn : n ≤ bits.length)
    (h1 : k.decOut c (bits.take n) = .panics) (h2 : ∀ m, m < n → k.decOut c (bits.take m) ≠ .panics) : panicAfter c k bits = n := by
  have : (List.range (bits.length + 1)).find? (fun n => k.decOut c (bits.take n) == .panics) = some n := by
    rw [List.find?_range_eq_some]
    refine ⟨by simp [h1], List.mem_range.2 (by omega), fun j hj => ?_⟩
    simpa using h2 j hj
  rw [panicAfter, this]; rfl

/-- A decoder that panics has read exactly the bits it takes to panic. -/
theorem panicsReading {R : BitRead σ} {s s' : σ} (c : Cfg) (k : CodeName) (bits : List Bool) (hl : bits.length < 2 ^ 64)
    (h : k.decOut c bits = .panics) (hr : Reads R s bits s') :
    panicAfter c k bits ≤ bits.length ∧ ∃ s1, Reads R s (bits.take (panicAfter c k bits)) s1 ∧
      PanicsReading (fun R => (k.code c).decode R) R s s1 := by
  obtain ⟨n, h1, h2, h3, h4⟩ := C121_unwinds c k bits hl h
  have e : panicAfter c k bits = n := panicAfter_eq h1 (h2 n (Nat.le_refl _)) fun m hm => by rcases h3 m hm with h | h <;> rw [h] <;> simp
  rw [e]
  have hm : ∀ m, m ≤ n → ∃ t, Reads R s (bits.take m) t ∧ Reads R.metered (s, m) (bits.take m) (t, 0) ∧ R.after m s = .ok t := by
    intro m hm
    obtain ⟨t, ht⟩ := reads_take hr m
    have e : (bits.take m).length = m := by rw [List.length_take]; omega
    have h5 := metered_reads ht 0
    have h6 := after_reads ht
    rw [e] at h5 h6
    exact ⟨t, ht, h5, h6⟩
  obtain ⟨t, h5, h6, h7⟩ := hm n (Nat.le_refl _)
  refine ⟨h1, t, h5, n, (h4 _ _ _ _ n h6).1 (Nat.le_refl _), fun j hj => ?_, h7⟩
  obtain ⟨t', -, h8, -⟩ := hm j (by omega)
  obtain ⟨e, -, h9⟩ := (h4 _ _ _ _ j h8).2 hj (fun _ _ h => by cases h)
  exact h9

theorem PanicsReading.unique {m : {τ : Type} → BitRead τ → SM τ α} {R : BitRead σ} {s s1 s2 : σ} (h1 : PanicsReading m R s s1)
    (h2 : PanicsReading m R s s2) : s1 = s2 := by
  obtain ⟨n, a1, a2, a3⟩ := h1
  obtain ⟨n', b1, b2, b3⟩ := h2
  rcases Nat.lt_trichotomy n n' with h | h | h
  · rw [b2 n h] at a1; cases a1
  · subst h; rw [a3] at b3; cases b3; rfl
  · rw [a2 n' h] at b1; cases b1

theorem buf_reads (c : Cfg) (hw : IsBlk w) (bits : List Bool) {s : BitBuf (VB w)} {l rest : List Bool} {q : Nat}
    (hR : bufR (bvR c w) s ⟨bits, q⟩) (hl : l ++ rest = bits.drop q) :
    ∃ s', Reads (BitBuf.read c (bvBitVec c w)) s l s' ∧ bufR (bvR c w) s' ⟨bits, q + l.length⟩ := by
  induction l generalizing s q with
  | nil => exact ⟨s, .nil s, hR⟩
  | cons b l ih =>
    obtain ⟨s1, h1, q', h2, h3⟩ := (bv_buf_source c hw bits).some (b := b) (l := l ++ rest) ⟨q, hR, hl⟩
    have hq : q' = q + 1 := by
      have h4 := congrArg List.length hl
      have h5 := congrArg List.length h3
      have h6 : q' ≤ bits.length := h2.2.2
      have h7 : q ≤ bits.length := hR.2.2
      simp only [List.length_append, List.length_cons, List.length_drop] at h4 h5
      omega
    subst hq
    obtain ⟨s2, h4, h5⟩ := ih h2 h3
    refine ⟨s2, .cons h1 h4, ?_⟩
    rw [List.length_cons, Nat.add_comm l.length, ← Nat.add_assoc]
    exact h5

/-! ### what a panic leaves behind -/

theorem set_same {l : List α} {i : Nat} {a : α} (h : l[i]? = some a) : l.set i a = l := by
  apply List.ext_getElem?
  intro j
  rw [List.getElem?_set]
  by_cases e : i = j
  · subst e
    rw [if_pos rfl, h, if_pos]
    rcases Nat.lt_or_ge i l.length with h1 | h1
    · exact h1
    · rw [List.getElem?_eq_none h1] at h; cases h
  · rw [if_neg e]

theorem left_behind (c : Cfg) {st : List Obj} {ss : List SObj} (hst : StR c st ss) (cmd : Cmd) (hok : cmd.Ok c ss)
    (hn : cmdSpec c ss cmd = none) : ∃ st', LeftBehind c st st' cmd ∧ StR c st' (leftSpec c ss cmd) := by
  have h0 : cmdRun c st cmd = .panic := by
    have := cmd_refines c hst cmd hok
    rw [hn] at this
    exact this
  have hb : ∀ {α β : Type} {x : Res α} {f : α → β}, (do let a ← x; Res.ok (f a)) = Res.panic → x = .panic := by
    intro α β x f h
    cases x <;> first | rfl | cases h
  cases cmd with
  | onBits i op =>
    rcases hst.at i with ⟨h1, h2⟩ | ⟨o, so, h1, h2, ho⟩
    · exact ⟨st, by simp only [LeftBehind, h1], hst⟩
    cases ho with
    | @bits w s l hw hR =>
      simp only [cmdSpec, h2, Option.map_eq_none_iff] at hn
      have h3 := bvStepP_refines c hw hR (op w) (hok _ _ h2)
      rw [hn] at h3
      exact ⟨st, by simp only [LeftBehind, h1]; exact ⟨s, h3, (set_same h1).symm⟩, hst⟩
    | _ => exact ⟨st, by simp only [LeftBehind, h1], hst⟩
  | onInts i op =>
    rcases hst.at i with ⟨h1, h2⟩ | ⟨o, so, h1, h2, ho⟩
    · exact ⟨st, by simp only [LeftBehind, h1], hst⟩
    cases ho with
    | @ints w k s xs hw hR =>
      simp only [cmdSpec, h2, Option.map_eq_none_iff] at hn
      have h3 := ivStepP_refines c hw hR (op w) (hok _ _ _ h2)
      rw [hn] at h3
      exact ⟨st, by simp only [LeftBehind, h1]; exact ⟨s, h3, (set_same h1).symm⟩, hst⟩
    | _ => exact ⟨st, by simp only [LeftBehind, h1], hst⟩
  | onBuf i op =>
    rcases hst.at i with ⟨h1, h2⟩ | ⟨o, so, h1, h2, ho⟩
    · exact ⟨st, by simp only [LeftBehind, h1], hst⟩
    cases ho with
    | @buf w s f hw hR =>
      simp only [cmdSpec, h2, Option.map_eq_none_iff] at hn
      have h3 := bufStepP_refines c hw hR op (hok _ _ h2)
      rw [hn] at h3
      exact ⟨st, by simp only [LeftBehind, h1]; exact ⟨s, h3, (set_same h1).symm⟩, hst⟩
    | _ => exact ⟨st, by simp only [LeftBehind, h1], hst⟩
  | edit i rs op =>
    rcases hst.at i with ⟨h1, h2⟩ | ⟨o, so, h1, h2, ho⟩
    · exact ⟨st, by simp only [LeftBehind, h1], hst⟩
    cases ho with
    | @bits w s l hw hR =>
      simp only [cmdRun, h1] at h0
      have h3 := (writeThroughP_atomic c (bvMutP_atomic c hw) s ⟨_, hR⟩ rs (op w)).panic
        (by rw [writeThroughP_res c (bvMutP_res c w), hb h0]; rfl)
      exact ⟨st, by simp only [LeftBehind, h1]; exact ⟨s, h3, (set_same h1).symm⟩, hst⟩
    | @ints w k s xs hw hR =>
      simp only [cmdRun, h1] at h0
      have h3 := (writeThroughP_atomic c (ivMutP_atomic c hw) s ⟨_, hR.ivR⟩ rs (op w)).panic
        (by rw [writeThroughP_res c (ivMutP_res c w), hb h0]; rfl)
      exact ⟨st, by simp only [LeftBehind, h1]; exact ⟨s, h3, (set_same h1).symm⟩, hst⟩
    | @buf w s f hw hR =>
      simp only [cmdRun, h1] at h0
      have h3 := (writeThroughP_atomic c (bufMutP_atomic c (bvMutP_atomic c hw) (bv_setsReadable c hw)) s ⟨_, hR.1⟩ rs (op w)).panic
        (by rw [writeThroughP_res c (BitBuf.mutP_res c (bvMutP_res c w)), hb h0]; rfl)
      exact ⟨st, by simp only [LeftBehind, h1]; exact ⟨s, h3, (set_same h1).symm⟩, hst⟩
    | _ => exact ⟨st, by simp only [LeftBehind, h1], hst⟩
  | encode i k v =>
    rcases hst.at i with ⟨h1, h2⟩ | ⟨o, so, h1, h2, ho⟩
    · exact ⟨st, by simp only [LeftBehind, h1], hst⟩
    cases ho with
    | @buf w s f hw hR =>
      have he := C119_encode c k v hok.1
      cases hk : k.encOut c.debug v with
      | word l => simp [cmdSpec, h2, hk] at hn
      | invalid => simp [cmdSpec, h2, hk] at hn
      | panics =>
        rw [hk] at he
        exact ⟨st, by simp only [LeftBehind, h1]; exact ⟨he _ _, trivial⟩, hst⟩
      | hangs => exact absurd hk hok.2.1
    | _ => exact ⟨st, by simp only [LeftBehind, h1], hst⟩
  | writeInt i n sg be W x =>
    rcases hst.at i with ⟨h1, h2⟩ | ⟨o, so, h1, h2, ho⟩
    · exact ⟨st, by simp only [LeftBehind, h1], hst⟩
    cases ho with
    | buf hw hR => simp [cmdSpec, h2] at hn
    | _ => exact ⟨st, by simp only [LeftBehind, h1], hst⟩
  | readInt i W n be =>
    rcases hst.at i with ⟨h1, h2⟩ | ⟨o, so, h1, h2, ho⟩
    · exact ⟨st, by simp only [LeftBehind, h1], hst⟩
    cases ho with
    | buf hw hR => simp only [cmdSpec, h2] at hn; split at hn <;> cases hn
    | _ => exact ⟨st, by simp only [LeftBehind, h1], hst⟩
  | decode i k =>
    rcases hst.at i with ⟨h1, h2⟩ | ⟨o, so, h1, h2, ho⟩
    · exact ⟨st, by simp only [LeftBehind, h1], by simp only [leftSpec, h2]; exact hst⟩
    cases ho with
    | @buf w s f hw hR =>
      have hp : k.decOut c (f.bits.drop f.pos) = .panics := by
        simp only [cmdSpec, h2] at hn
        split at hn <;> first | assumption | cases hn
      have hlen := ((bv_law c hw).fits hR.1).lt hw.pos
      obtain ⟨s0, h3, -⟩ := buf_reads c hw f.bits (l := f.bits.drop f.pos) (rest := []) hR (by simp)
      obtain ⟨h4, s1, h5, h6⟩ := panicsReading c k _ (by rw [List.length_drop]; omega) hp h3
      obtain ⟨s2, h7, h8⟩ := buf_reads c hw f.bits (l := (f.bits.drop f.pos).take (panicAfter c k (f.bits.drop f.pos)))
        (rest := (f.bits.drop f.pos).drop (panicAfter c k (f.bits.drop f.pos))) hR (List.take_append_drop _ _)
      have e : s1 = s2 := by
        have := (after_reads h5).symm.trans (after_reads h7)
        injection this
      subst e
      rw [List.length_take, Nat.min_eq_left h4] at h8
      refine ⟨st.set i (.buf w s1), by simp only [LeftBehind, h1]; exact ⟨s1, h6, rfl⟩, ?_⟩
      simp only [leftSpec, h2]
      exact hst.set (.buf hw h8) i
    | _ => exact ⟨st, by simp only [LeftBehind, h1], by simp only [leftSpec, h2]; exact hst⟩
  | toBuf i e =>
    rcases hst.at i with ⟨h1, h2⟩ | ⟨o, so, h1, h2, ho⟩
    · exact ⟨st, by simp only [LeftBehind, h1], hst⟩
    cases ho with
    | bits hw hR => simp [cmdSpec, h2] at hn
    | _ => exact ⟨st, by simp only [LeftBehind, h1], hst⟩
  | toRank9 i =>
    rcases hst.at i with ⟨h1, h2⟩ | ⟨o, so, h1, h2, ho⟩
    · exact ⟨st, by simp only [LeftBehind, h1], hst⟩
    cases ho with
    | @bits w s l hw hR =>
      by_cases e : w = 64
      · subst e; simp [cmdSpec, h2] at hn
      · refine ⟨st, ?_, hst⟩
        simp only [LeftBehind, h1]
        split
        · next h => cases h; exact absurd rfl e
        · trivial
    | _ => exact ⟨st, by simp only [LeftBehind, h1], hst⟩
  | toJacobson i =>
    rcases hst.at i with ⟨h1, h2⟩ | ⟨o, so, h1, h2, ho⟩
    · exact ⟨st, by simp only [LeftBehind, h1], by simp only [leftSpec, h2]; exact hst⟩
    cases ho with
    | bits hw hR =>
      exact ⟨st.set i .gone, by simp only [LeftBehind, h1], by simp only [leftSpec, h2]; exact hst.set .gone i⟩
    | _ => exact ⟨st, by simp only [LeftBehind, h1], by simp only [leftSpec, h2]; exact hst⟩
  | _ => exact ⟨st, rfl, hst⟩

theorem LeftBehind.unique {c : Cfg} {st st1 st2 : List Obj} {cmd : Cmd} (h1 : LeftBehind c st st1 cmd) (h2 : LeftBehind c st st2 cmd) :
    st1 = st2 := by
  have key : ∀ {S α : Type} {p : PM S α} {s : S} {g : S → List Obj}, (∃ s', p s = .panic s' ∧ st1 = g s') →
      (∃ s', p s = .panic s' ∧ st2 = g s') → st1 = st2 := by
    rintro S α p s g ⟨s1, a1, a2⟩ ⟨s2, b1, b2⟩
    rw [a1] at b1
    injection b1 with e
    rw [a2, b2, e]
  cases cmd with
  | onBits i op => simp only [LeftBehind] at h1 h2; revert h1 h2; split <;> intro h1 h2 <;> first | exact key h1 h2 | rw [h1, h2]
  | onInts i op => simp only [LeftBehind] at h1 h2; revert h1 h2; split <;> intro h1 h2 <;> first | exact key h1 h2 | rw [h1, h2]
  | onBuf i op => simp only [LeftBehind] at h1 h2; revert h1 h2; split <;> intro h1 h2 <;> first | exact key h1 h2 | rw [h1, h2]
  | edit i rs op => simp only [LeftBehind] at h1 h2; revert h1 h2; split <;> intro h1 h2 <;> first | exact key h1 h2 | rw [h1, h2]
  | encode i k v => simp only [LeftBehind] at h1 h2; revert h1 h2; split <;> intro h1 h2 <;> first | rw [h1.2, h2.2] | rw [h1, h2]
  | writeInt i n sg be W x => simp only [LeftBehind] at h1 h2; revert h1 h2; split <;> intro h1 h2 <;> first | rw [h1.2, h2.2] | rw [h1, h2]
  | decode i k =>
    simp only [LeftBehind] at h1 h2; revert h1 h2; split <;> intro h1 h2
    · obtain ⟨_, a1, a2⟩ := h1; obtain ⟨_, b1, b2⟩ := h2; rw [a2, b2, a1.unique b1]
    · rw [h1, h2]
  | readInt i W n be =>
    simp only [LeftBehind] at h1 h2; revert h1 h2; split <;> intro h1 h2
    · obtain ⟨_, a1, a2⟩ := h1; obtain ⟨_, b1, b2⟩ := h2; rw [a2, b2, a1.unique b1]
    · rw [h1, h2]
  | toBuf i e => simp only [LeftBehind] at h1 h2; revert h1 h2; split <;> intro h1 h2 <;> rw [h1, h2]
  | toRank9 i => simp only [LeftBehind] at h1 h2; revert h1 h2; split <;> intro h1 h2 <;> rw [h1, h2]
  | toJacobson i => simp only [LeftBehind] at h1 h2; revert h1 h2; split <;> intro h1 h2 <;> rw [h1, h2]
  | _ => exact Eq.trans h1 (Eq.symm h2)

theorem CatchCmd.unique {c : Cfg} {st st1 st2 : List Obj} {cmd : Cmd} {o1 o2 : Option Spec.Out} (h1 : CatchCmd c st cmd o1 st1)
    (h2 : CatchCmd c st cmd o2 st2) : o1 = o2 ∧ st1 = st2 := by
  cases o1 with
  | some o1 =>
    have h1 : cmdRun c st cmd = _ := h1
    cases o2 with
    | some o2 => have h2 : cmdRun c st cmd = _ := h2; rw [h1] at h2; cases h2; exact ⟨rfl, rfl⟩
    | none => have h2 : cmdRun c st cmd = _ := h2.1; rw [h1] at h2; cases h2
  | none =>
    cases o2 with
    | some o2 => have h2 : cmdRun c st cmd = _ := h2; rw [h1.1] at h2; cases h2
    | none => exact ⟨rfl, h1.2.unique h2.2⟩

theorem CatchProg.unique {c : Cfg} {st st1 st2 : List Obj} {cmds : List Cmd} {os1 os2 : List (Option Spec.Out)}
    (h1 : CatchProg c st cmds os1 st1) (h2 : CatchProg c st cmds os2 st2) : os1 = os2 ∧ st1 = st2 := by
  induction h1 generalizing os2 st2 with
  | nil => cases h2; exact ⟨rfl, rfl⟩
  | cons a1 _ ih =>
    cases h2 with
    | cons b1 b2 =>
      obtain ⟨rfl, rfl⟩ := a1.unique b1
      obtain ⟨rfl, rfl⟩ := ih b2
      exact ⟨rfl, rfl⟩

/-- **C122.** A program over many objects may catch the panics of its commands and go on: there is exactly one way it can run, every
command returns or panics as with plain lists, and what a panic leaves behind is known exactly. All objects are as before, except
that a decoder has consumed the bits it took to panic, and that a vector given away to be indexed is gone. -/
theorem C122_programs (c : Cfg) (cmds : List Cmd) {st : List Obj} {ss : List SObj} (hst : StR c st ss) (hok : catchProgOk c ss cmds) :
    ∃ st', CatchProg c st cmds (catchProgSpec c ss cmds).1 st' ∧ StR c st' (catchProgSpec c ss cmds).2 ∧
      ∀ os st'', CatchProg c st cmds os st'' → os = (catchProgSpec c ss cmds).1 ∧ st'' = st' := by
  have key : ∃ st', CatchProg c st cmds (catchProgSpec c ss cmds).1 st' ∧ StR c st' (catchProgSpec c ss cmds).2 := by
    induction cmds generalizing st ss with
    | nil => exact ⟨st, .nil, hst⟩
    | cons cmd cmds ih =>
      obtain ⟨h1, h2, h3⟩ := hok
      have h4 := cmd_refines c hst cmd h1
      rw [catchProgSpec]
      cases hs : cmdSpec c ss cmd with
      | none =>
        rw [hs] at h4
        obtain ⟨st1, h5, h6⟩ := left_behind c hst cmd h1 hs
        obtain ⟨st2, h7, h8⟩ := ih h6 (h3 hs)
        exact ⟨st2, .cons (o := none) ⟨h4, h5⟩ h7, h8⟩
      | some r =>
        rw [hs] at h4
        obtain ⟨st1, h5, h6⟩ := h4
        obtain ⟨st2, h7, h8⟩ := ih h6 (h2 _ hs)
        exact ⟨st2, .cons (o := some r.1) h5 h7, h8⟩
  obtain ⟨st', h1, h2⟩ := key
  exact ⟨st', h1, h2, fun os st'' h => h.unique h1⟩

theorem catch_some (h1 : cmd.Ok c ss) (h2 : cmdSpec c ss cmd = some (o, ss'))
    (h3 : catchProgOk c ss' cmds ∧ catchProgSpec c ss' cmds = (os, sf)) :
    catchProgOk c ss (cmd :: cmds) ∧ catchProgSpec c ss (cmd :: cmds) = (some o :: os, sf) := by
  refine ⟨⟨h1, fun r hr => ?_, fun hr => ?_⟩, ?_⟩
  · cases h2.symm.trans hr; exact h3.1
  · rw [h2] at hr; cases hr
  · simp [catchProgSpec, h2, h3.2]

theorem catch_none (h1 : cmd.Ok c ss) (h2 : cmdSpec c ss cmd = none)
    (h3 : catchProgOk c (leftSpec c ss cmd) cmds ∧ catchProgSpec c (leftSpec c ss cmd) cmds = (os, sf)) :
    catchProgOk c ss (cmd :: cmds) ∧ catchProgSpec c ss (cmd :: cmds) = (none :: os, sf) := by
  refine ⟨⟨h1, fun r hr => ?_, fun _ => h3.1⟩, ?_⟩
  · rw [h2] at hr; cases hr
  · simp [catchProgSpec, h2, h3.2]

/-- Two ones; setting a third bit panics and changes nothing. An empty vector cannot be indexed and is lost in the attempt, so that
it cannot be asked for its length. Coding 0 with Elias' γ code panics and writes nothing; decoding 0 - 1 panics after one bit, so that
another bit can be decoded afterwards, and then no more. -/
example (p : Ptr) :
    let c : Cfg := ⟨true, p, true⟩
    let cmds : List Cmd := [.newBits 8 (.withFill 2 true), .onBits 0 (fun _ => .setBit 2 false), .newBits 8 .new, .toJacobson 1,
      .view 1 [] .len, .toBuf 0 false, .encode 0 (.elias .unary) 0, .decode 0 (.lift0 .unary), .decode 0 .unary, .decode 0 .unary]
    ∃ st, CatchProg c [] cmds [some .unit, none, some .unit, none, none, some .unit, none, none, some (.optNum (some 0)),
        some (.optNum none)] st ∧ StR c st [.file 8 ⟨[true, true], 2⟩, .gone] := by
  intro c cmds
  have e0 : (CodeName.elias .unary).encOut true 0 = .panics := by simp only [CodeName.encOut]; rfl
  have h : catchProgOk c [] cmds ∧ catchProgSpec c [] cmds = ([some .unit, none, some .unit, none, none, some .unit, none, none,
      some (.optNum (some 0)), some (.optNum none)], [.file 8 ⟨[true, true], 2⟩, .gone]) := by
    refine catch_some ⟨by decide, ?_⟩ rfl ?_
    · show Fits c.usz 8 2
      have := c.le_pow_usz
      unfold Fits blocksFor
      constructor <;> omega
    refine catch_none ?_ rfl ?_
    · intro w l h; cases h; exact show 2 < 2 ^ 64 by decide
    refine catch_some ⟨by decide, trivial⟩ rfl ?_
    refine catch_none ?_ rfl ?_
    · intro w l h; cases h; rcases p with _ | _ <;> decide
    refine catch_none ?_ rfl ?_
    · intro o h; cases h; exact ⟨trivial, trivial⟩
    refine catch_some trivial rfl ?_
    refine catch_none ⟨by decide, ?_, ?_⟩ ?_ ?_
    · rw [e0]; simp
    · intro w f _ l hl; rw [e0] at hl; cases hl
    · simp only [cmdSpec, leftSpec, List.nil_append, List.cons_append, List.set, List.getElem?_cons_succ, List.getElem?_cons_zero, c, e0]
    refine catch_none trivial rfl ?_
    refine catch_some (o := .optNum (some 0)) trivial rfl ?_
    refine catch_some (o := .optNum none) (ss' := [.file 8 ⟨[true, true], 2⟩, .gone]) trivial rfl ?_
    exact ⟨trivial, rfl⟩
  obtain ⟨st, h1, h2, -⟩ := C122_programs c cmds (st := []) (ss := []) ⟨rfl, fun i o so h => by simp at h⟩ h.1
  rw [h.2] at h1 h2
  exact ⟨st, h1, h2⟩

/-! Each theorem of this file that has hypotheses is applied to concrete data in `Verif/Instances/ProgramCatch.lean`. -/

end Succinct
