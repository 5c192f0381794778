import Verif.Props.Totality
import Verif.Props.Coding
/-! Property C96: when encoding and decoding end. -/
namespace Succinct
open Spec

/-- The computation ends from every state. -/
def SM.Ends (m : SM σ α) : Prop := ∀ s, Succinct.Ends (m s)

theorem SM.Ends.pure (a : α) : SM.Ends (Pure.pure a : SM σ α) := fun _ => .ok _
theorem SM.Ends.fail (e : IoErr) : SM.Ends (SM.fail e : SM σ α) := fun _ => .ok _
theorem SM.Ends.lift {x : Res α} (h : Succinct.Ends x) : SM.Ends (SM.lift x : SM σ α) := fun _ => h.bind fun _ => .ok _
theorem SM.Ends.bind {x : SM σ α} {f : α → SM σ β} (hx : SM.Ends x) (hf : ∀ a, SM.Ends (f a)) : SM.Ends (x >>= f) := by
  intro s
  rw [SM.bind_run]
  refine (hx s).bind fun p => ?_
  obtain ⟨r, s'⟩ := p
  cases r with
  | error e => exact .ok _
  | ok a => exact hf a s'

theorem SM.endsAt {x : SM σ α} {f : α → SM σ β} {s : σ} (hx : Succinct.Ends (x s))
    (hf : ∀ a s', x s = .ok (.ok a, s') → Succinct.Ends (f a s')) : Succinct.Ends ((x >>= f) s) := by
  rw [SM.bind_run]
  rcases h : x s with ⟨r, s'⟩ | _ | _
  · rw [Res.ok_bind]
    cases r with
    | error e => exact .ok _
    | ok a => exact hf a s' h
  · exact .panic
  · exact absurd h hx.ne

/-- Every call to the sink ends. -/
def SinkEnds (W : BitWrite σ) : Prop := ∀ b s, W.writeBit b s ≠ .diverge

/-- Every call to the source ends, and it cannot deliver bits for ever: some count goes down with every bit. It may fail
or panic whenever it likes, and may pretend to be at its end and then go on. -/
def Exhausts (R : BitRead σ) : Prop :=
  ∃ left : σ → Nat, ∀ s, R.readBit s ≠ .diverge ∧ ∀ b s', R.readBit s = .ok (.ok (some b), s') → left s' < left s

/-- The codes that can be built, with any parameters whatever, and for each the values on which `encode` hangs. -/
inductive AnyCode (c : Cfg) : Code → (Nat → Prop) → Prop
  | unary : AnyCode c (unary c) (fun _ => False)
  | omega : AnyCode c (omegaCode c) (fun _ => False)
  | comma (n : Nat) : AnyCode c (comma c n) (fun v => v ≠ 0 ∧ (n = 1 ∨ c.debug = false ∧ n % 64 = 1))
  | fibonacci : AnyCode c (fibonacci c) (fun _ => False)
  | elias {H : Code} {hangs : Nat → Prop} : AnyCode c H hangs → AnyCode c (elias c H) (fun v => v ≠ 0 ∧ hangs (Nat.log2 v))
  | lift0 {K : Code} {hangs : Nat → Prop} : AnyCode c K hangs →
      AnyCode c (lift0 c K) (fun v => v ≠ 2 ^ 64 - 1 ∧ hangs (v + 1))

theorem SinkEnds.writeAll {W : BitWrite σ} (h : SinkEnds W) (bits : List Bool) : SM.Ends (writeAll W bits) := by
  induction bits with
  | nil => exact .pure _
  | cons b bs ih => exact SM.Ends.bind (fun s => ⟨h b s⟩) fun _ => ih

theorem SinkEnds.writeInt {W : BitWrite σ} (h : SinkEnds W) (c : Cfg) (sg : Bool) (n : Nat) (v : BitVec w) :
    SM.Ends (writeInt c sg W n v) := by
  unfold Succinct.writeInt
  induction n generalizing v with
  | zero => exact .pure _
  | succ n ih =>
    refine SM.Ends.bind (fun s => ⟨h _ s⟩) fun _ => SM.Ends.bind (.lift ?_) fun v => ih v
    unfold shrI; dsimp only; unfold overflow; ends

theorem Exhausts.readBit {R : BitRead σ} (h : Exhausts R) : SM.Ends R.readBit := fun s => ⟨(h.choose_spec s).1⟩

theorem Exhausts.readIntLoop {R : BitRead σ} (h : SM.Ends R.readBit) (c : Cfg) (n : Nat) (r m : BitVec w) (b : Bool) :
    SM.Ends (readIntLoop c R n r m b) := by
  induction n generalizing r m b with
  | zero => exact .pure _
  | succ n ih =>
    refine SM.Ends.bind h fun o => ?_
    cases o with
    | none => dsimp only; split; exact .fail _; exact .pure _
    | some bit => exact SM.Ends.bind (.lift (by unfold shlB overflow; ends)) fun _ => ih _ _ _

theorem Exhausts.readIntBeLoop {R : BitRead σ} (h : SM.Ends R.readBit) (c : Cfg) (n : Nat) (r : BitVec w) (b : Bool) :
    SM.Ends (readIntBeLoop c R n r b) := by
  induction n generalizing r b with
  | zero => exact .pure _
  | succ n ih =>
    refine SM.Ends.bind h fun o => ?_
    cases o with
    | none => dsimp only; split; exact .fail _; exact .pure _
    | some bit => exact SM.Ends.bind (.lift (by unfold shlB overflow; ends)) fun _ => ih _ _

theorem readIntLoop_left {R : BitRead σ} {left : σ → Nat} (h : ∀ s b s', R.readBit s = .ok (.ok (some b), s') → left s' < left s)
    {c : Cfg} {n : Nat} {r m v : BitVec w} {b : Bool} {s s' : σ} (hr : readIntLoop c R n r m b s = .ok (.ok (some v), s')) :
    left s' + n ≤ left s := by
  induction n generalizing r m b s with
  | zero => cases hr; exact Nat.le_refl _
  | succ n ih =>
    obtain ⟨o, s1, h1, hr⟩ := SM.of_bind_ok hr
    cases o with
    | none =>
      dsimp only at hr
      cases b <;> cases hr
    | some bit =>
      obtain ⟨m', s2, h2, hr⟩ := SM.of_bind_ok hr
      have e : s2 = s1 := by
        rcases hx : shlB c m 1 with y | _ | _ <;> rw [hx] at h2 <;> cases h2
        rfl
      have := h _ _ _ h1
      have := ih hr
      rw [e] at this
      omega

theorem readIntBeLoop_left {R : BitRead σ} {left : σ → Nat} (h : ∀ s b s', R.readBit s = .ok (.ok (some b), s') → left s' < left s)
    {c : Cfg} {n : Nat} {r v : BitVec w} {b : Bool} {s s' : σ} (hr : readIntBeLoop c R n r b s = .ok (.ok (some v), s')) :
    left s' + n ≤ left s := by
  induction n generalizing r b s with
  | zero => cases hr; exact Nat.le_refl _
  | succ n ih =>
    obtain ⟨o, s1, h1, hr⟩ := SM.of_bind_ok hr
    cases o with
    | none =>
      dsimp only at hr
      cases b <;> cases hr
    | some bit =>
      obtain ⟨m', s2, h2, hr⟩ := SM.of_bind_ok hr
      have e : s2 = s1 := by
        rcases hx : shlB c r 1 with y | _ | _ <;> rw [hx] at h2 <;> cases h2
        rfl
      have := h _ _ _ h1
      have := ih hr
      rw [e] at this
      omega

theorem lift_state {x : Res α} {s s' : σ} {a : α} (h : (SM.lift x : SM σ α) s = .ok (.ok a, s')) : s' = s := by
  rcases x with y | _ | _ <;> cases h
  rfl

theorem Exhausts.unary {R : BitRead σ} (h : Exhausts R) (c : Cfg) (r : Nat) (b : Bool) : SM.Ends (Unary.decodeLoop c R r b) := by
  obtain ⟨left, hl⟩ := id h
  intro s
  generalize hm : left s = m
  induction m using Nat.strongRecOn generalizing s r b with
  | ind m ih =>
  rw [Unary.decodeLoop.eq_def]
  refine SM.endsAt (h.readBit s) fun o s1 h1 => ?_
  cases o with
  | none => dsimp only; split; exact .ok _; exact .ok _
  | some bit =>
    dsimp only
    split
    · exact .ok _
    · refine SM.endsAt (SM.Ends.lift Ends.addN _) fun r' s2 h2 => ?_
      rw [lift_state h2]
      exact ih _ (hm ▸ (hl s).2 _ _ h1) _ _ _ rfl

theorem Exhausts.omega {R : BitRead σ} (h : Exhausts R) (c : Cfg) (r : Nat) : SM.Ends (Omega.decodeLoop c R r) := by
  obtain ⟨left, hl⟩ := id h
  intro s
  generalize hm : left s = m
  induction m using Nat.strongRecOn generalizing s r with
  | ind m ih =>
  rw [Omega.decodeLoop.eq_def]
  refine SM.endsAt (h.readBit s) fun o s1 h1 => ?_
  have hlt := (hl s).2
  cases o with
  | none => dsimp only; split; exact .ok _; exact .ok _
  | some bit =>
    have hlt := hlt _ _ h1
    dsimp only
    split
    · exact .ok _
    · refine SM.endsAt (Exhausts.readIntBeLoop h.readBit c _ _ _ s1) fun o s2 h2 => ?_
      cases o with
      | none => exact .ok _
      | some x =>
        have := readIntBeLoop_left (fun s b s' => (hl s).2 b s') h2
        refine SM.endsAt (SM.Ends.lift (by unfold shlN overflow; ends) _) fun r' s3 h3 => ?_
        rw [lift_state h3]
        exact ih (left s2) (by omega) _ _ rfl

theorem Exhausts.comma {R : BitRead σ} (h : Exhausts R) (c : Cfg) {n b : Nat} (hb : n = 0 → b = 0) (r : Nat) (u : Bool) :
    SM.Ends (Comma.decodeLoop c n b R r u) := by
  obtain ⟨left, hl⟩ := id h
  intro s
  generalize hm : left s = m
  induction m using Nat.strongRecOn generalizing s r u with
  | ind m ih =>
  rw [Comma.decodeLoop.eq_def]
  refine SM.endsAt (Exhausts.readIntLoop h.readBit c _ _ _ _ s) fun o s1 h1 => ?_
  cases o with
  | none => dsimp only; split; exact .ok _; exact .ok _
  | some x =>
    dsimp only
    split
    · exact .ok _
    · rename_i hx
      have := readIntLoop_left (fun s b s' => (hl s).2 b s') h1
      have hn : n ≠ 0 := by
        intro hn
        subst hn
        cases h1
        exact hx (hb rfl).symm
      refine SM.endsAt (SM.Ends.lift Ends.mulN _) fun y s2 h2 => ?_
      rw [lift_state h2]
      refine SM.endsAt (SM.Ends.lift Ends.addN _) fun y s3 h3 => ?_
      rw [lift_state h3]
      exact ih (left s1) (by omega) _ _ _ rfl

theorem fibonacci_decode_ends {R : BitRead σ} (h : SM.Ends R.readBit) (c : Cfg) (r : Nat) (f : Fib) (hf : 1 ≤ f.i ∧ 1 ≤ f.i1) (p : Bool) :
    SM.Ends (Fibonacci.decodeLoop c R r f p) := by
  generalize hm : 2 ^ 64 - f.i = m
  induction m using Nat.strongRecOn generalizing r f p with
  | ind m ih =>
  rw [Fibonacci.decodeLoop.eq_def]
  refine SM.Ends.bind h fun o => ?_
  cases o with
  | none => dsimp only; split; exact .pure _; exact .fail _
  | some bit =>
    dsimp only
    split
    · exact .pure _
    · refine SM.Ends.bind (.lift (by ends)) fun r => ?_
      unfold Fibonacci.tryNext Fib.next checkedAdd
      by_cases hlt : f.i1 + f.i < 2 ^ 64
      · rw [if_pos hlt]
        exact ih (2 ^ 64 - (f.i1 + f.i)) (by omega) _ ⟨f.i, f.i1 + f.i⟩ ⟨by dsimp only; omega, hf.1⟩ _ rfl
      · rw [if_neg hlt]
        exact fun s => .ok _

/-- C96. Decoding ends, for every code that can be built, on every source that cannot deliver bits for ever. -/
theorem C96_decode_ends (c : Cfg) {K : Code} {hangs : Nat → Prop} (hK : AnyCode c K hangs) {σ : Type} {R : BitRead σ}
    (h : Exhausts R) (s : σ) : K.decode R s ≠ .diverge := by
  suffices he : SM.Ends (K.decode R) from (he s).ne
  induction hK with
  | unary => exact h.unary c _ _
  | omega => exact h.omega c _
  | comma n =>
    show SM.Ends (Comma.decode c n R)
    unfold Comma.decode
    intro s
    refine SM.endsAt (SM.Ends.lift ?_ _) fun b s1 h1 => h.comma c ?_ _ _ s1
    · unfold Comma.base shlN overflow; ends
    · intro hn
      subst hn
      rw [comma_base c (by decide)] at h1
      cases h1
      rfl
  | fibonacci => exact fibonacci_decode_ends h.readBit c _ _ (by decide) _
  | @elias H _ _ ih =>
    show SM.Ends (Elias.decode c H R)
    refine SM.Ends.bind ih fun o => ?_
    cases o with
    | none => exact .pure _
    | some n =>
      refine SM.Ends.bind (.lift Ends.subN) fun m => ?_
      split
      · exact .fail _
      · refine SM.Ends.bind (Exhausts.readIntLoop h.readBit c _ _ _ _) fun o => ?_
        cases o with
        | none => exact .fail _
        | some x => exact SM.Ends.bind (.lift (by unfold shlN overflow; ends)) fun _ => .pure _
  | @lift0 K _ _ ih =>
    show SM.Ends (Lift0.decode c K R)
    refine SM.Ends.bind ih fun o => ?_
    cases o with
    | none => exact .pure _
    | some n => exact SM.Ends.bind (.lift Ends.subN) fun _ => .pure _

/-- A `VecDeque` runs out. -/
theorem exhausts_deque : Exhausts dequeRead := by
  refine ⟨List.length, fun s => ⟨(by intro h; cases h), fun b s' h => ?_⟩⟩
  cases s with
  | nil => cases h
  | cons a l => cases h; exact Nat.lt_succ_self _

/-- Garbage in a header larger than any `u64`. -/
example : (delta ⟨false, .p32, false⟩).decode dequeRead (List.replicate 1000 false) ≠ .diverge :=
  C96_decode_ends _ (.elias (.lift0 (.elias .unary))) exhausts_deque _

/-- C96. A Fibonacci decoder ends on every source whose calls end, even one that delivers bits for ever. -/
theorem C96_fibonacci_always_ends (c : Cfg) {σ : Type} {R : BitRead σ} (h : ∀ s, R.readBit s ≠ .diverge) (s : σ) :
    (fibonacci c).decode R s ≠ .diverge :=
  (fibonacci_decode_ends (fun s => ⟨h s⟩) c _ _ (by decide) _ s).ne

open Lean.Order in
theorem unary_endless (c : Cfg) (hd : c.debug = false) {R : BitRead σ} (h : ∀ s, R.readBit s = .ok (.ok (some false), s))
    (r : Nat) (b : Bool) (s : σ) : Unary.decodeLoop c R r b s = .diverge := by
  apply Unary.decodeLoop.fixpoint_induct c R (fun f => ∀ r b s, f r b s = .diverge) ?_ ?_ r b s
  · apply admissible_pi_apply (fun r (g : Bool → SM σ (Option Nat)) => ∀ b s, g b s = .diverge)
    intro r
    apply admissible_pi_apply (fun b (g : SM σ (Option Nat)) => ∀ s, g s = .diverge)
    intro b
    apply admissible_pi_apply (fun s (g : Res (Except IoErr (Option Nat) × σ)) => g = .diverge)
    intro s
    apply admissible_flatOrder
    rfl
  · intro f ih r b s
    show (R.readBit >>= _) s = _
    rw [SM.bind_run_ok (h s)]
    have : ∃ r', addN c 64 r 1 = .ok r' := by
      unfold addN overflow
      split
      · exact ⟨_, rfl⟩
      · rw [hd]; exact ⟨_, rfl⟩
    obtain ⟨r', hr'⟩ := this
    show ((SM.lift (addN c 64 r 1) : SM σ Nat) >>= fun r => f r true) s = _
    rw [hr', SM.lift_ok_bind]
    exact ih _ _ _

/-- C96. The hypothesis of `C96_decode_ends` is needed: without overflow checks a unary decoder never returns from a source
of endless zeros. -/
theorem C96_unary_endless (c : Cfg) (hd : c.debug = false) {σ : Type} {R : BitRead σ}
    (h : ∀ s, R.readBit s = .ok (.ok (some false), s)) (s : σ) : (unary c).decode R s = .diverge :=
  unary_endless c hd h _ _ _

theorem comma_push_ends {b : Nat} (hb : b ≠ 1) (stack : List Nat) (v : Nat) : Ends (Comma.push b stack v) := by
  induction v using Nat.strongRecOn generalizing stack with
  | ind v ih =>
  rw [Comma.push.eq_def]
  split
  · by_cases h0 : b = 0
    · subst h0
      exact .panic
    · rw [remN_ok (by omega), Res.ok_bind, divN_ok (by omega), Res.ok_bind]
      exact ih _ (Nat.div_lt_self (by omega) (by omega)) _
  · exact .ok _

theorem comma_base_release (c : Cfg) (hd : c.debug = false) (n : Nat) : Comma.base c n = .ok (2 ^ (n % 64) - 1) := by
  by_cases hn : n < 64
  · rw [comma_base c hn, Nat.mod_eq_of_lt hn]
  · rw [← comma_base c (Nat.mod_lt n (by decide))]
    unfold Comma.base shlN overflow
    rw [if_neg hn, if_neg (by rw [hd]; decide), if_pos (Nat.mod_lt n (by decide))]

theorem pow_pred_eq_one {k : Nat} : 2 ^ k - 1 = 1 ↔ k = 1 := by
  constructor
  · intro h
    match k with
    | 0 => cases h
    | 1 => rfl
    | k + 2 => have := Nat.two_pow_pos k; rw [Nat.pow_succ, Nat.pow_succ] at h; omega
  · rintro rfl; rfl

theorem comma_hangs_iff (c : Cfg) {W : BitWrite σ} (h : SinkEnds W) {n b : Nat} (hb : Comma.base c n = .ok b) (v : Nat) (s : σ) :
    (comma c n).encode W v s = .diverge ↔ v ≠ 0 ∧ b = 1 := by
  show Comma.encode c n W v s = _ ↔ _
  rw [Comma.encode, hb, SM.lift_ok_bind]
  have hpop : ∀ l, SM.Ends (Comma.pop c W n l) := by
    intro l
    induction l with
    | nil => exact .pure _
    | cons d l ih => exact SM.Ends.bind (h.writeInt c _ _ _) fun _ => ih
  have hrest : ∀ l, SM.Ends (Comma.pop c W n l >>= fun _ => writeInt c false W n (BitVec.ofNat 64 b)) :=
    fun l => SM.Ends.bind (hpop l) fun _ => h.writeInt c _ _ _
  by_cases h1 : b = 1
  · subst h1
    by_cases h0 : v = 0
    · subst h0
      refine iff_of_false ?_ fun h => h.1 rfl
      rw [Comma.push.eq_def, if_neg (by decide), SM.lift_ok_bind]
      exact (hrest _ s).ne
    · rw [comma1_push [] v (by omega)]
      exact iff_of_true rfl ⟨h0, rfl⟩
  · refine iff_of_false ?_ fun h => h1 h.2
    exact (SM.Ends.bind (.lift (comma_push_ends h1 _ _)) (fun l => hrest l) s).ne

/-- C96. Encoding a `u64` on a sink whose calls end: it hangs on exactly the values listed in `AnyCode`. That is, on the
positive values of `Comma(1)`, and of `Comma(65)`, `Comma(129)` and `Comma(193)` without overflow checks, and wherever these
are used as a header. -/
theorem C96_encode_hangs_iff (c : Cfg) {K : Code} {hangs : Nat → Prop} (hK : AnyCode c K hangs) {σ : Type} {W : BitWrite σ}
    (h : SinkEnds W) {v : Nat} (hv : v < 2 ^ 64) (s : σ) : K.encode W v s = .diverge ↔ hangs v := by
  induction hK generalizing v s with
  | unary =>
    refine iff_of_false ?_ id
    rw [(C55_unary c).encodes v hv]
    exact (h.writeAll _ s).ne
  | omega =>
    refine iff_of_false ?_ id
    by_cases h0 : v = 0
    · subst h0
      rw [(C65_omega c W).1, (C58_omega c).encodes 1 (by decide)]
      exact (h.writeAll _ s).ne
    · rw [(C58_omega c).encodes v ⟨by omega, hv⟩]
      exact (h.writeAll _ s).ne
  | comma n =>
    by_cases hn : n < 64
    · rw [comma_hangs_iff c h (comma_base c hn), pow_pred_eq_one, Nat.mod_eq_of_lt hn]
      exact and_congr_right fun _ => ⟨.inl, fun h => h.elim id (·.2)⟩
    · cases hd : c.debug with
      | true =>
        rw [C69_wide c hd (by omega)]
        refine iff_of_false (fun h => by cases h) fun h => h.2.elim (fun h => by omega) fun h => by cases h.1
      | false =>
        rw [comma_hangs_iff c h (comma_base_release c hd n), pow_pred_eq_one]
        exact and_congr_right fun _ => ⟨fun h => .inr ⟨rfl, h⟩, fun h => h.elim (fun h => by omega) (·.2)⟩
  | fibonacci =>
    refine iff_of_false ?_ id
    by_cases h0 : v = 0
    · subst h0; intro h; cases h
    · by_cases hf : v < fib 93
      · rw [(C60_implements c).encodes v ⟨by omega, hf⟩]
        exact (h.writeAll _ s).ne
      · rw [C60_too_large c (by omega) hv W s]; intro h; cases h
  | @elias H hangs _ ih =>
    show Elias.encode c H W v s = _ ↔ _
    by_cases h0 : v = 0
    · subst h0
      exact iff_of_false (fun h => by cases h) fun h => h.1 rfl
    · have hl := log2_lt_64 hv (by omega)
      rw [Elias.encode, assertR_true h0, SM.lift_ok_bind, subN_ok (by omega), SM.lift_ok_bind, leadingZeros,
        if_neg (by omega), subN_ok (by omega), SM.lift_ok_bind, show 64 - 1 - (64 - 1 - v.log2) = v.log2 by omega]
      show _ ↔ (v ≠ 0 ∧ hangs v.log2)
      rw [show (v ≠ 0 ∧ hangs v.log2) ↔ hangs v.log2 from ⟨(·.2), fun h => ⟨h0, h⟩⟩, ← ih (by omega) s, SM.bind_run]
      rcases hx : H.encode W v.log2 s with ⟨r, s'⟩ | _ | _
      · refine iff_of_false ?_ fun h => by cases h
        cases r with
        | error e => intro h; cases h
        | ok a => exact (h.writeInt c _ _ _ s').ne
      · exact iff_of_false (fun h => by cases h) fun h => by cases h
      · exact iff_of_true rfl rfl
  | @lift0 K hangs _ ih =>
    show Lift0.encode K W v s = _ ↔ _
    unfold Lift0.encode checkedAdd
    by_cases hl : v + 1 < 2 ^ 64
    · rw [if_pos hl]
      show K.encode W (v + 1) s = _ ↔ _
      rw [ih hl]
      exact ⟨fun h => ⟨by omega, h⟩, fun h => h.2⟩
    · rw [if_neg hl]
      exact iff_of_false (fun h => by cases h) fun h => h.1 (by omega)

/-- `Comma(65)` behaves like `Comma(1)` in a release build, and panics in a debug build. -/
example : ((comma ⟨false, .p64, false⟩ 65).encode dequeWrite 3 [] = .diverge) ∧ (comma ⟨true, .p64, true⟩ 65).encode dequeWrite 3 [] ≠ .diverge ∧
    (elias ⟨true, .p64, true⟩ (comma ⟨true, .p64, true⟩ 1)).encode dequeWrite 5 [] = .diverge ∧
    (elias ⟨true, .p64, true⟩ (comma ⟨true, .p64, true⟩ 1)).encode dequeWrite 1 [] ≠ .diverge := by
  have h : SinkEnds dequeWrite := fun b s h => by cases h
  refine ⟨(C96_encode_hangs_iff _ (.comma 65) h (by decide) _).2 (by decide), ?_, ?_, ?_⟩
  · rw [Ne, C96_encode_hangs_iff _ (.comma 65) h (by decide)]; decide
  · exact (C96_encode_hangs_iff _ (.elias (.comma 1)) h (by decide) _).2 (by decide)
  · rw [Ne, C96_encode_hangs_iff _ (.elias (.comma 1)) h (by decide)]; decide

/-! Each theorem of this file that has hypotheses is applied to concrete data in `Verif/Instances/CodeTotality.lean`. -/

end Succinct
