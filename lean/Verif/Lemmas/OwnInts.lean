import Verif.Model.OwnInts
import Verif.Lemmas.CodingOmega
/-! Running the coders on two streams side by side. -/
namespace Succinct
open Lean.Order

/-- `m'` follows `m` from related states, as far as `m` ends: if `m` returns `Ok`, so does `m'`, with the same value and
in a related state; if `m` returns an error, `m'` returns that error; and, if `p` is set, when `m` panics so does
`m'`. -/
def Follows (p : Bool) (R : σ → τ → Prop) (m : SM σ α) (m' : SM τ α) : Prop :=
  ∀ s t, R s t → match m s with
    | .diverge => True
    | .panic => p = true → m' t = .panic
    | .ok (.ok a, s') => ∃ t', m' t = .ok (.ok a, t') ∧ R s' t'
    | .ok (.error e, _) => ∃ t', m' t = .ok (.error e, t')

namespace Follows
variable {σ τ α β : Type} {p : Bool} {R : σ → τ → Prop}

theorem pure (a : α) : Follows p R (Pure.pure a : SM σ α) (Pure.pure a : SM τ α) := fun _ t hR => ⟨t, rfl, hR⟩

theorem fail (e : IoErr) : Follows p R (SM.fail e : SM σ α) (SM.fail e : SM τ α) := fun _ t _ => ⟨t, rfl⟩

theorem lift (x : Res α) : Follows p R (SM.lift x : SM σ α) (SM.lift x : SM τ α) := by
  intro s t hR
  cases x with
  | ok a => exact ⟨t, rfl, hR⟩
  | panic => exact fun _ => rfl
  | diverge => trivial

theorem bind {m : SM σ α} {m' : SM τ α} {f : α → SM σ β} {f' : α → SM τ β} (h : Follows p R m m')
    (hf : ∀ a, Follows p R (f a) (f' a)) : Follows p R (m >>= f) (m' >>= f') := by
  intro s t hR
  have := h s t hR
  rw [SM.bind_run, SM.bind_run]
  cases hm : m s with
  | ok q =>
    obtain ⟨a | a, s'⟩ := q
    · rw [hm] at this
      obtain ⟨t', h1⟩ := this
      rw [h1]
      exact ⟨t', rfl⟩
    · rw [hm] at this
      obtain ⟨t', h1, h2⟩ := this
      rw [h1]
      exact hf a s' t' h2
  | panic =>
    rw [hm] at this
    intro hp
    rw [show m' t = .panic from this hp]; rfl
  | diverge => trivial

theorem ite {q : Prop} [Decidable q] {a b : SM σ α} {a' b' : SM τ α} (h1 : q → Follows p R a a') (h2 : ¬ q → Follows p R b b') :
    Follows p R (if q then a else b) (if q then a' else b') := by
  split
  · exact h1 ‹_›
  · exact h2 ‹_›

theorem ok {m : SM σ α} {m' : SM τ α} (h : Follows p R m m') {s : σ} {t : τ} (hR : R s t) {a : α} {s' : σ}
    (hm : m s = .ok (.ok a, s')) : ∃ t', m' t = .ok (.ok a, t') ∧ R s' t' := by
  have := h s t hR
  rw [hm] at this; exact this

theorem err {m : SM σ α} {m' : SM τ α} (h : Follows p R m m') {s : σ} {t : τ} (hR : R s t) {e : IoErr} {s' : σ}
    (hm : m s = .ok (.error e, s')) : ∃ t', m' t = .ok (.error e, t') := by
  have := h s t hR
  rw [hm] at this; exact this

theorem adm {x : SM τ α} : admissible (fun f : SM σ α => Follows p R f x) := by
  apply admissible_pi_apply (fun s (y : Res (Except IoErr α × σ)) => ∀ t, R s t → match y with
    | .diverge => True
    | .panic => p = true → x t = .panic
    | .ok (.ok a, s') => ∃ t', x t = .ok (.ok a, t') ∧ R s' t'
    | .ok (.error e, _) => ∃ t', x t = .ok (.error e, t'))
  intro s
  apply admissible_flatOrder
  intro t _
  trivial

theorem adm1 {x : γ → SM τ α} : admissible (fun f : γ → SM σ α => ∀ a, Follows p R (f a) (x a)) :=
  admissible_pi_apply (fun a (f : SM σ α) => Follows p R f (x a)) fun _ => adm
theorem adm2 {x : γ → δ → SM τ α} : admissible (fun f : γ → δ → SM σ α => ∀ a b, Follows p R (f a b) (x a b)) :=
  admissible_pi_apply (fun a (f : δ → SM σ α) => ∀ b, Follows p R (f b) (x a b)) fun _ => adm1
theorem adm3 {x : γ → δ → ε → SM τ α} : admissible (fun f : γ → δ → ε → SM σ α => ∀ a b c, Follows p R (f a b c) (x a b c)) :=
  admissible_pi_apply (fun a (f : δ → ε → SM σ α) => ∀ b c, Follows p R (f b c) (x a b c)) fun _ => adm2

end Follows

/-- Each method of the source `D'` follows that of `D`; `read_int` for the widths in `B` and `read_int_be` for those in
`B'`. -/
structure FollowsRead (p : Bool) (R : σ → τ → Prop) (B B' : Nat → Prop) (D : BitReadI σ) (D' : BitReadI τ) : Prop where
  bit : Follows p R D.readBit D'.readBit
  int : ∀ n, B n → Follows p R (D.readInt n) (D'.readInt n)
  intBe : ∀ n, B' n → Follows p R (D.readIntBe n) (D'.readIntBe n)

/-- Each method of the sink `D'` follows that of `D`; `write_int` for the widths in `B` and `write_int_be` for those in
`B'`. -/
structure FollowsWrite (p : Bool) (R : σ → τ → Prop) (B B' : Nat → Prop) (D : BitWriteI σ) (D' : BitWriteI τ) : Prop where
  bit : ∀ b, Follows p R (D.writeBit b) (D'.writeBit b)
  int : ∀ n v, B n → Follows p R (D.writeInt n v) (D'.writeInt n v)
  intBe : ∀ n v, B' n → Follows p R (D.writeIntBe n v) (D'.writeIntBe n v)

namespace OwnInts
variable {σ τ : Type} {p : Bool} {R : σ → τ → Prop} {c : Cfg}

/-! ### Reading -/
section
variable {B B' : Nat → Prop} {D : BitReadI σ} {D' : BitReadI τ}

theorem unary_loop_follows {r : BitRead σ} {r' : BitRead τ} (h : Follows p R r.readBit r'.readBit) (n : Nat) (b : Bool) :
    Follows p R (Succinct.Unary.decodeLoop c r n b) (Succinct.Unary.decodeLoop c r' n b) := by
  refine Succinct.Unary.decodeLoop.fixpoint_induct c r
    (fun k => ∀ n b, Follows p R (k n b) (Succinct.Unary.decodeLoop c r' n b)) Follows.adm2 ?_ n b
  intro k ih n b
  rw [Succinct.Unary.decodeLoop.eq_def]
  refine h.bind fun o => ?_
  cases o with
  | none => exact Follows.ite (fun _ => .fail _) (fun _ => .pure _)
  | some x => exact Follows.ite (fun _ => .pure _) (fun _ => (Follows.lift _).bind fun _ => ih _ _)

theorem tryNext_follows (f : Fib) : Follows p R (Fibonacci.tryNext f : SM σ Fib) (Fibonacci.tryNext f : SM τ Fib) := by
  unfold Fibonacci.tryNext
  cases f.next with
  | none => exact .fail _
  | some f => exact .pure _

theorem fib_loop_follows {r : BitRead σ} {r' : BitRead τ} (h : Follows p R r.readBit r'.readBit) (n : Nat) (f : Fib) (b : Bool) :
    Follows p R (Fibonacci.decodeLoop c r n f b) (Fibonacci.decodeLoop c r' n f b) := by
  refine Fibonacci.decodeLoop.fixpoint_induct c r
    (fun k => ∀ n f b, Follows p R (k n f b) (Fibonacci.decodeLoop c r' n f b)) Follows.adm3 ?_ n f b
  intro k ih n f b
  rw [Fibonacci.decodeLoop.eq_def]
  refine h.bind fun o => ?_
  cases o with
  | none => exact Follows.ite (fun _ => .pure _) (fun _ => .fail _)
  | some x =>
    exact Follows.ite (fun _ => .pure _)
      (fun _ => (Follows.lift _).bind fun _ => (tryNext_follows f).bind fun _ => ih _ _ _)

theorem omega_loop_follows (h : FollowsRead p R B (fun _ => True) D D') (n : Nat) :
    Follows p R (Omega.decodeLoop c D n) (Omega.decodeLoop c D' n) := by
  refine Omega.decodeLoop.fixpoint_induct c D
    (fun k => ∀ n, Follows p R (k n) (Omega.decodeLoop c D' n)) Follows.adm1 ?_ n
  intro k ih n
  rw [Omega.decodeLoop.eq_def]
  refine h.bit.bind fun o => ?_
  cases o with
  | none => exact Follows.ite (fun _ => .pure _) (fun _ => .fail _)
  | some x =>
    refine Follows.ite (fun _ => .pure _) (fun _ => (h.intBe _ trivial).bind fun o => ?_)
    cases o with
    | none => exact .fail _
    | some y => exact (Follows.lift _).bind fun _ => ih _

theorem comma_loop_follows {k : Nat} (h : FollowsRead p R B B' D D') (hk : B k) (base n : Nat) (b : Bool) :
    Follows p R (Comma.decodeLoop c k base D n b) (Comma.decodeLoop c k base D' n b) := by
  refine Comma.decodeLoop.fixpoint_induct c k base D
    (fun f => ∀ n b, Follows p R (f n b) (Comma.decodeLoop c k base D' n b)) Follows.adm2 ?_ n b
  intro f ih n b
  rw [Comma.decodeLoop.eq_def]
  refine (h.int k hk).bind fun o => ?_
  cases o with
  | none => exact Follows.ite (fun _ => .fail _) (fun _ => .pure _)
  | some x =>
    exact Follows.ite (fun _ => .pure _)
      (fun _ => (Follows.lift _).bind fun _ => (Follows.lift _).bind fun _ => ih _ _)

theorem elias_decode_follows (hB : ∀ n, n < 64 → B n) (h : FollowsRead p R B B' D D') {H : CodeI}
    (hH : Follows p R (H.decode D) (H.decode D')) : Follows p R ((elias c H).decode D) ((elias c H).decode D') := by
  show Follows p R (Elias.decode c H D) (Elias.decode c H D')
  unfold Elias.decode
  refine hH.bind fun o => ?_
  cases o with
  | none => exact .pure _
  | some nbits =>
    simp only [show subN c 64 64 1 = .ok 63 from subN_ok (by omega), SM.lift_ok_bind]
    refine Follows.ite (fun _ => .fail _) (fun hn => ?_)
    rw [asUsize_small c (by omega)]
    refine (h.int nbits (hB _ (by omega))).bind fun o => ?_
    cases o with
    | none => exact .fail _
    | some y => exact (Follows.lift _).bind fun _ => .pure _

theorem lift0_decode_follows {K : CodeI} (hK : Follows p R (K.decode D) (K.decode D')) :
    Follows p R ((lift0 c K).decode D) ((lift0 c K).decode D') := by
  show Follows p R (Lift0.decode c K D) (Lift0.decode c K D')
  unfold Lift0.decode
  refine hK.bind fun o => ?_
  cases o with
  | none => exact .pure _
  | some n => exact (Follows.lift _).bind fun _ => .pure _

end

/-! ### Writing -/
section
variable {B B' : Nat → Prop} {D : BitWriteI σ} {D' : BitWriteI τ}

theorem unary_encode_follows {r : BitWrite σ} {r' : BitWrite τ} (h : ∀ b, Follows p R (r.writeBit b) (r'.writeBit b)) (v : Nat) :
    Follows p R (Succinct.Unary.encode r v) (Succinct.Unary.encode r' v) := by
  induction v with
  | zero => exact h true
  | succ v ih => exact (h false).bind fun _ => ih

theorem popBits_follows {r : BitWrite σ} {r' : BitWrite τ} (h : ∀ b, Follows p R (r.writeBit b) (r'.writeBit b)) (l : List Bool) :
    Follows p R (popBits r l) (popBits r' l) := by
  induction l with
  | nil => exact .pure _
  | cons b l ih => exact (h b).bind fun _ => ih

theorem climb_follows (v : Nat) (f : Fib) : Follows p R (Fibonacci.climb v f : SM σ Fib) (Fibonacci.climb v f : SM τ Fib) := by
  refine Fibonacci.climb.fixpoint_induct (σ := σ) v (fun k => ∀ f, Follows p R (k f) (Fibonacci.climb v f : SM τ Fib))
    Follows.adm1 ?_ f
  intro k ih f
  rw [Fibonacci.climb.eq_def]
  exact Follows.ite (fun _ => (tryNext_follows f).bind fun _ => ih _) (fun _ => .pure _)

theorem fib_encode_follows {r : BitWrite σ} {r' : BitWrite τ} (h : ∀ b, Follows p R (r.writeBit b) (r'.writeBit b)) (v : Nat) :
    Follows p R (Fibonacci.encode c r v) (Fibonacci.encode c r' v) :=
  (Follows.lift _).bind fun _ => (climb_follows v _).bind fun _ => (Follows.lift _).bind fun _ => popBits_follows h _

theorem elias_encode_follows (hB : ∀ n, n < 64 → B n) (h : FollowsWrite p R B B' D D') {H : CodeI}
    (hH : ∀ v, v < 64 → Follows p R (H.encode D v) (H.encode D' v)) {v : Nat} (hv : v < 2 ^ 64) :
    Follows p R ((elias c H).encode D v) ((elias c H).encode D' v) := by
  show Follows p R (Elias.encode c H D v) (Elias.encode c H D' v)
  unfold Elias.encode
  by_cases h0 : v = 0
  · subst h0
    rw [assertR, if_neg (by simp)]
    exact fun _ _ _ _ => rfl
  · have hl := log2_lt_64 hv h0
    rw [assertR_true (by omega), SM.lift_ok_bind, SM.lift_ok_bind, subN_ok (by omega), SM.lift_ok_bind, SM.lift_ok_bind,
      leadingZeros, if_neg (by omega), subN_ok (by omega), SM.lift_ok_bind, SM.lift_ok_bind]
    exact (hH _ (by omega)).bind fun _ => h.int _ _ (hB _ (by omega))

theorem lift0_encode_follows {K : CodeI} {v : Nat} (hK : v + 1 < 2 ^ 64 → Follows p R (K.encode D (v + 1)) (K.encode D' (v + 1))) :
    Follows p R ((lift0 c K).encode D v) ((lift0 c K).encode D' v) := by
  show Follows p R (Lift0.encode K D v) (Lift0.encode K D' v)
  unfold Lift0.encode checkedAdd
  by_cases h : v + 1 < 2 ^ 64
  · rw [if_pos h]; exact hK h
  · rw [if_neg h]; exact .fail _

theorem omega_push_small (c : Cfg) (v : Nat) (hv : v < 2 ^ 64) (stack : List (Nat × Nat)) (hs : ∀ q ∈ stack, 2 ≤ q.1 ∧ q.1 ≤ 64) :
    ∃ l, Succinct.Omega.push c stack v = .ok l ∧ ∀ q ∈ l, 2 ≤ q.1 ∧ q.1 ≤ 64 := by
  induction v using Nat.strongRecOn generalizing stack with
  | ind v ih =>
    rw [Succinct.Omega.push.eq_def]
    by_cases h : v > 1
    · have hl := log2_lt_64 hv (by omega)
      have hlog : 1 ≤ v.log2 := (Nat.le_log2 (by omega)).2 (by omega)
      have hlt : v.log2 < v := log2_lt_self (by omega)
      rw [if_pos h, leadingZeros, if_neg (by omega), subN_ok (by omega)]
      simp only [Res.ok_bind]
      rw [subN_ok (by omega)]
      simp only [Res.ok_bind]
      rw [show 64 - (64 - 1 - v.log2) = v.log2 + 1 by omega, Nat.add_sub_cancel]
      exact ih _ hlt (by omega) _ (fun q hq => by
        rcases List.mem_cons.1 hq with rfl | hq
        · exact ⟨by simp; omega, by simp; omega⟩
        · exact hs q hq)
    · rw [if_neg h]
      exact ⟨stack, rfl, hs⟩

theorem omega_encode_follows (hB : ∀ n, 2 ≤ n → n ≤ 64 → B' n) (h : FollowsWrite p R B B' D D') {v : Nat} (hv : v < 2 ^ 64) :
    Follows p R ((omegaCode c).encode D v) ((omegaCode c).encode D' v) := by
  show Follows p R (Omega.encode c D v) (Omega.encode c D' v)
  unfold Omega.encode
  obtain ⟨l, hl, hs⟩ := omega_push_small c v hv [] (by simp)
  rw [hl, SM.lift_ok_bind, SM.lift_ok_bind]
  refine Follows.bind ?_ fun _ => h.bit false
  clear hl
  induction l with
  | nil => exact .pure _
  | cons q l ih =>
    have := hs q (by simp)
    exact (h.intBe _ _ (hB _ this.1 this.2)).bind fun _ => ih fun q hq => hs q (by simp [hq])

theorem comma_encode_follows {k : Nat} (hB : B k) (h : FollowsWrite p R B B' D D') (v : Nat) :
    Follows p R ((comma c k).encode D v) ((comma c k).encode D' v) := by
  show Follows p R (Comma.encode c k D v) (Comma.encode c k D' v)
  refine (Follows.lift _).bind fun b => (Follows.lift _).bind fun l => Follows.bind ?_ fun _ => h.int _ _ hB
  induction l with
  | nil => exact .pure _
  | cons d l ih => exact (h.int _ _ hB).bind fun _ => ih

end

/-! ### The default methods -/

theorem bind_mono_sm (m : SM σ α) {f g : α → SM σ β} (h : ∀ a s, f a s ⊑ g a s) (s : σ) : (m >>= f) s ⊑ (m >>= g) s := by
  rw [SM.bind_run, SM.bind_run]
  cases m s with
  | ok q =>
    obtain ⟨e | a, s'⟩ := q
    · exact FlatOrder.rel.refl
    · exact h a s'
  | panic => exact FlatOrder.rel.refl
  | diverge => exact FlatOrder.rel.refl

theorem omega_loop_dflt (r : BitRead σ) (n : Nat) : Omega.decodeLoop c (r.dflt c) n = Succinct.Omega.decodeLoop c r n := by
  funext s
  apply Lean.Order.PartialOrder.rel_antisymm
  · refine Omega.decodeLoop.fixpoint_induct c (r.dflt c) (fun f => ∀ n s, f n s ⊑ Succinct.Omega.decodeLoop c r n s) ?_ ?_ n s
    · exact admissible_pi_apply (fun n (f : SM σ (Option Nat)) => ∀ s, f s ⊑ Succinct.Omega.decodeLoop c r n s) fun n =>
        admissible_pi_apply (fun s (x : Res _) => x ⊑ Succinct.Omega.decodeLoop c r n s) fun s =>
          admissible_flatOrder _ FlatOrder.rel.bot
    · intro f ih n s
      rw [Succinct.Omega.decodeLoop.eq_def]
      refine bind_mono_sm _ (fun o s => ?_) s
      cases o with
      | none => exact FlatOrder.rel.refl
      | some b =>
        cases b
        · exact FlatOrder.rel.refl
        · refine bind_mono_sm _ (fun o s => ?_) s
          cases o with
          | none => exact FlatOrder.rel.refl
          | some b => exact bind_mono_sm _ (fun o s => ih _ s) s
  · refine Succinct.Omega.decodeLoop.fixpoint_induct c r (fun f => ∀ n s, f n s ⊑ Omega.decodeLoop c (r.dflt c) n s) ?_ ?_ n s
    · exact admissible_pi_apply (fun n (f : SM σ (Option Nat)) => ∀ s, f s ⊑ Omega.decodeLoop c (r.dflt c) n s) fun n =>
        admissible_pi_apply (fun s (x : Res _) => x ⊑ Omega.decodeLoop c (r.dflt c) n s) fun s =>
          admissible_flatOrder _ FlatOrder.rel.bot
    · intro f ih n s
      rw [Omega.decodeLoop.eq_def]
      refine bind_mono_sm _ (fun o s => ?_) s
      cases o with
      | none => exact FlatOrder.rel.refl
      | some b =>
        cases b
        · exact FlatOrder.rel.refl
        · refine bind_mono_sm _ (fun o s => ?_) s
          cases o with
          | none => exact FlatOrder.rel.refl
          | some b => exact bind_mono_sm _ (fun o s => ih _ s) s

theorem comma_loop_dflt (k base : Nat) (r : BitRead σ) (n : Nat) (b : Bool) :
    Comma.decodeLoop c k base (r.dflt c) n b = Succinct.Comma.decodeLoop c k base r n b := by
  funext s
  apply Lean.Order.PartialOrder.rel_antisymm
  · refine Comma.decodeLoop.fixpoint_induct c k base (r.dflt c)
      (fun f => ∀ n b s, f n b s ⊑ Succinct.Comma.decodeLoop c k base r n b s) ?_ ?_ n b s
    · exact admissible_pi_apply (fun n (f : Bool → SM σ (Option Nat)) => ∀ b s, f b s ⊑ Succinct.Comma.decodeLoop c k base r n b s) fun n =>
        admissible_pi_apply (fun b (f : SM σ (Option Nat)) => ∀ s, f s ⊑ Succinct.Comma.decodeLoop c k base r n b s) fun b =>
        admissible_pi_apply (fun s (x : Res _) => x ⊑ Succinct.Comma.decodeLoop c k base r n b s) fun s =>
          admissible_flatOrder _ FlatOrder.rel.bot
    · intro f ih n b s
      rw [Succinct.Comma.decodeLoop.eq_def]
      refine bind_mono_sm _ (fun o s => ?_) s
      cases o with
      | none => exact FlatOrder.rel.refl
      | some d =>
        dsimp only
        split
        · exact FlatOrder.rel.refl
        · exact bind_mono_sm _ (fun _ s => bind_mono_sm _ (fun _ s => ih _ _ s) s) s
  · refine Succinct.Comma.decodeLoop.fixpoint_induct c k base r
      (fun f => ∀ n b s, f n b s ⊑ Comma.decodeLoop c k base (r.dflt c) n b s) ?_ ?_ n b s
    · exact admissible_pi_apply (fun n (f : Bool → SM σ (Option Nat)) => ∀ b s, f b s ⊑ Comma.decodeLoop c k base (r.dflt c) n b s) fun n =>
        admissible_pi_apply (fun b (f : SM σ (Option Nat)) => ∀ s, f s ⊑ Comma.decodeLoop c k base (r.dflt c) n b s) fun b =>
        admissible_pi_apply (fun s (x : Res _) => x ⊑ Comma.decodeLoop c k base (r.dflt c) n b s) fun s =>
          admissible_flatOrder _ FlatOrder.rel.bot
    · intro f ih n b s
      rw [Comma.decodeLoop.eq_def]
      refine bind_mono_sm _ (fun o s => ?_) s
      cases o with
      | none => exact FlatOrder.rel.refl
      | some d =>
        dsimp only
        split
        · exact FlatOrder.rel.refl
        · exact bind_mono_sm _ (fun _ s => bind_mono_sm _ (fun _ s => ih _ _ s) s) s

theorem omega_pop_dflt (W : BitWrite σ) (l : List (Nat × Nat)) : Omega.pop (W.dflt c) l = Succinct.Omega.pop c W l := by
  induction l with
  | nil => rfl
  | cons q l ih => rw [Omega.pop, Succinct.Omega.pop, ih]; rfl

theorem comma_pop_dflt (W : BitWrite σ) (k : Nat) (l : List Nat) : Comma.pop (W.dflt c) k l = Succinct.Comma.pop c W k l := by
  induction l with
  | nil => rfl
  | cons q l ih => rw [Comma.pop, Succinct.Comma.pop, ih]; rfl

end OwnInts
end Succinct
