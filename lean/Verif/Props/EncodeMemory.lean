import Verif.Spec.EncodeMemory
import Verif.Props.RankMemory
import Verif.Props.CodeOutcome
/-!
# C127: encoding in a memory that may be exhausted

Encoders that keep their digits on a stack fail, if they fail, before they write.
-/
namespace Succinct
open Spec Lean.Order

/-! ### One entry -/

theorem tryPush_eq (H : Heap) (v : GVec α) (a : α) :
    (H.CanGrow v.elems.length v.cap → ∃ v', v.tryPush H a = .ok v' ∧ v'.stack = a :: v.stack ∧ v'.elems.length = v.elems.length + 1 ∧
      v'.cap = H.after v.elems.length v.cap) ∧
    (¬ H.CanGrow v.elems.length v.cap → v.tryPush H a = .panic) := by
  unfold GVec.tryPush Heap.CanGrow Heap.after
  by_cases h : v.elems.length < v.cap
  · rw [if_pos (by omega), if_pos h]
    exact ⟨fun _ => ⟨_, rfl, by simp [GVec.stack], by simp, rfl⟩, fun hn => absurd (.inl h) hn⟩
  · rw [if_neg (by omega), if_neg h]
    refine ⟨fun hg => ?_, fun hg => ?_⟩
    · rw [assertR_true (hg.resolve_left h)]
      exact ⟨_, rfl, by simp [GVec.stack], by simp, rfl⟩
    · rw [assertR, if_neg (fun hc => hg (.inr hc))]
      rfl

/-- A loop that pushes `k` entries, leaving the stack `l`. -/
def Pushes (H : Heap) (v : GVec α) (k : Nat) (x : Res (GVec α)) (l : List α) : Prop :=
  (H.CanPush v.elems.length v.cap k → ∃ v', x = .ok v' ∧ v'.stack = l) ∧ (¬ H.CanPush v.elems.length v.cap k → x = .panic)

theorem Pushes.zero (H : Heap) (v : GVec α) : Pushes H v 0 (.ok v) v.stack :=
  ⟨fun _ => ⟨v, rfl, rfl⟩, fun h => absurd trivial h⟩

theorem Pushes.succ {H : Heap} {v : GVec α} {a : α} {k : Nat} {f : GVec α → Res (GVec α)} {l : List α}
    (h : ∀ v', v'.stack = a :: v.stack → Pushes H v' k (f v') l) : Pushes H v (k + 1) (v.tryPush H a >>= f) l := by
  obtain ⟨h1, h2⟩ := tryPush_eq H v a
  constructor
  · rintro ⟨hg, hp⟩
    obtain ⟨v', e, hs, hl, hc⟩ := h1 hg
    rw [e, Res.ok_bind]
    exact (h v' hs).1 (by rw [hl, hc]; exact hp)
  · intro hn
    by_cases hg : H.CanGrow v.elems.length v.cap
    · obtain ⟨v', e, hs, hl, hc⟩ := h1 hg
      rw [e, Res.ok_bind]
      exact (h v' hs).2 (by rw [hl, hc]; exact fun hp => hn ⟨hg, hp⟩)
    · rw [h2 hg]
      rfl

/-! ### The loops -/

theorem omegaDepth_small {v : Nat} (h : v ≤ 1) : omegaDepth v = 0 := by rw [omegaDepth, dif_pos h]
theorem omegaDepth_large {v : Nat} (h : 1 < v) : omegaDepth v = omegaDepth v.log2 + 1 := by rw [omegaDepth, dif_neg (by omega)]

theorem omega_pushH (c : Cfg) (H : Heap) (v : Nat) (hv : v < 2 ^ 64) (st : GVec (Nat × Nat)) :
    ∃ l, Omega.push c st.stack v = .ok l ∧ Pushes H st (omegaDepth v) (Omega.pushH c H st v) l := by
  induction v using Nat.strongRecOn generalizing st with
  | _ v ih =>
    rw [Omega.push, Omega.pushH]
    by_cases h : v > 1
    · have hl := log2_lt_64 hv (by omega)
      rw [if_pos h, if_pos h, leadingZeros, if_neg (by omega), subN_ok (by omega), Res.ok_bind, subN_ok (by omega), Res.ok_bind,
        Res.ok_bind, show 64 - (64 - 1 - v.log2) = v.log2 + 1 by omega, Nat.add_sub_cancel, omegaDepth_large h]
      obtain ⟨l, h1, _⟩ := ih v.log2 (log2_lt_self (by omega)) (by omega) ⟨((v.log2 + 1, v) :: st.stack).reverse, 0, 0⟩
      rw [show GVec.stack ⟨((v.log2 + 1, v) :: st.stack).reverse, 0, 0⟩ = (v.log2 + 1, v) :: st.stack from List.reverse_reverse _] at h1
      refine ⟨l, h1, Pushes.succ fun v' hs => ?_⟩
      obtain ⟨l', h3, h4⟩ := ih v.log2 (log2_lt_self (by omega)) (by omega) v'
      rw [hs, h1] at h3
      cases h3
      exact h4
    · rw [if_neg h, if_neg h, omegaDepth_small (by omega)]
      exact ⟨_, rfl, .zero H st⟩

theorem comma_pushH (H : Heap) {b : Nat} (hb : 2 ≤ b) (v : Nat) (st : GVec Nat) :
    Pushes H st (digitsOf b v).length (Comma.pushH H b st v) (digitsOf b v ++ st.stack) := by
  induction v using Nat.strongRecOn generalizing st with
  | _ v ih =>
    rw [Comma.pushH]
    by_cases hv : v > 0
    · rw [if_pos hv, remN_ok (by omega), Res.ok_bind, digitsOf_pos hb hv, List.length_append, List.append_assoc]
      refine Pushes.succ fun v' hs => ?_
      rw [divN_ok (by omega), Res.ok_bind, List.singleton_append, ← hs]
      exact ih _ (Nat.div_lt_self hv (by omega)) v'
    · rw [if_neg hv, show v = 0 by omega, digitsOf_zero]
      exact .zero H st

theorem comma1_pushH_fails (H : Heap) (k v : Nat) (hv : 0 < v) (st : GVec Nat) (h : ¬ H.CanPush st.elems.length st.cap k) :
    Comma.pushH H 1 st v = .panic := by
  induction k generalizing st with
  | zero => exact absurd trivial h
  | succ k ih =>
    rw [Comma.pushH, if_pos hv, remN_ok (by decide), Res.ok_bind, divN_ok (by decide), Nat.div_one]
    obtain ⟨h1, h2⟩ := tryPush_eq H st (v % 1)
    by_cases hg : H.CanGrow st.elems.length st.cap
    · obtain ⟨v', e, -, hl, hc⟩ := h1 hg
      rw [e, Res.ok_bind, Res.ok_bind]
      exact ih v' (by rw [hl, hc]; exact fun hp => h ⟨hg, hp⟩)
    · rw [h2 hg]
      rfl

theorem comma1_pushH_hangs (H : Heap) (v : Nat) (hv : 0 < v) (st : GVec Nat) (h : ∀ k, H.CanPush st.elems.length st.cap k) :
    Comma.pushH H 1 st v = .diverge := by
  apply Comma.pushH.fixpoint_induct H 1 (fun f => ∀ st v, 0 < v → (∀ k, H.CanPush st.elems.length st.cap k) → f st v = .diverge) ?_ ?_
    st v hv h
  · apply admissible_pi_apply (fun (st : GVec Nat) (g : Nat → Res (GVec Nat)) => ∀ v, 0 < v →
      (∀ k, H.CanPush st.elems.length st.cap k) → g v = .diverge)
    intro st
    apply admissible_pi_apply (fun v (g : Res (GVec Nat)) => 0 < v → (∀ k, H.CanPush st.elems.length st.cap k) → g = .diverge)
    intro v
    apply admissible_flatOrder
    exact fun _ _ => rfl
  · intro f ih st v hv h
    show (if v > 0 then _ else _) = _
    rw [if_pos hv, remN_ok (by decide), Res.ok_bind, divN_ok (by decide), Nat.div_one]
    obtain ⟨v', e, -, hl, hc⟩ := (tryPush_eq H st (v % 1)).1 (h 1).1
    rw [e, Res.ok_bind, Res.ok_bind]
    exact ih v' v hv fun k => by rw [hl, hc]; exact (h (k + 1)).2

theorem fib_descendH (c : Cfg) (H : Heap) (k v : Nat) (hv : v < 2 ^ 64) (st : GVec Bool) :
    Pushes H st k (Fibonacci.descendH c H (fibAt k) v st) (zeck k v ++ st.stack) := by
  induction k generalizing v st with
  | zero =>
    rw [Fibonacci.descendH, if_neg (by decide)]
    exact .zero H st
  | succ k ih =>
    have h1 : (fibAt (k + 1)).i > 1 := by
      have := fib_mono (show 3 ≤ k + 3 by omega)
      have h3 : fib 3 = 2 := by decide
      show fib (k + 3) > 1
      omega
    have e : ∀ (b : Bool) (x : Nat) (f : Nat × GVec Bool → Res (GVec Bool)),
        ((st.tryPush H b >>= fun s => Res.ok (x, s)) >>= f) = st.tryPush H b >>= fun s => f (x, s) := by
      intro b x f
      cases st.tryPush H b <;> rfl
    rw [Fibonacci.descendH, if_pos h1, zeck]
    by_cases h : fib (k + 2) ≤ v
    · rw [if_pos h, if_pos (show (fibAt (k + 1)).i1 ≤ v from h), subN_ok (show (fibAt (k + 1)).i1 ≤ v from h), Res.ok_bind, e]
      refine Pushes.succ fun v' hs => ?_
      simp only [fib_prev, Res.ok_bind]
      rw [List.append_assoc, List.singleton_append, ← hs]
      exact ih _ (by omega) v'
    · rw [if_neg h, if_neg (show ¬ (fibAt (k + 1)).i1 ≤ v from h), e]
      refine Pushes.succ fun v' hs => ?_
      simp only [fib_prev, Res.ok_bind]
      rw [List.append_assoc, List.singleton_append, ← hs]
      exact ih _ hv v'

/-! ### The codes -/

/-- the code with a given name, its stacks in memory given by `M` -/
def Spec.CodeName.codeH (c : Cfg) (M : Stacks) : CodeName → Code
  | .unary => Succinct.unary c
  | .omega => { Succinct.omegaCode c with encode := fun W v => Omega.encodeH c M.omega W v }
  | .comma n => { Succinct.comma c n with encode := fun W v => Comma.encodeH c M.comma n W v }
  | .fibonacci => { Succinct.fibonacci c with encode := fun W v => Fibonacci.encodeH c M.fib W v }
  | .elias k => Succinct.elias c (codeH c M k)
  | .lift0 k => Succinct.lift0 c (codeH c M k)

theorem fibDigits_eq {v : Nat} (h : 1 ≤ v) : fibDigits v = fibLen v := by
  rw [fibDigits, fibWordOf_eq h, fibWord, List.length_append, zeck_length, List.length_singleton, Nat.add_sub_cancel]

theorem omega_encH (c : Cfg) (H : Heap) (v : Nat) (hv : v < 2 ^ 64) {σ : Type} (W : BitWrite σ) :
    (H.CanPush 0 0 (omegaDepth v) → Omega.encodeH c H W v = writeAll W (omegaWord v)) ∧
    (¬ H.CanPush 0 0 (omegaDepth v) → ∀ s, Omega.encodeH c H W v s = .panic) := by
  obtain ⟨l, h1, h2, h3⟩ := omega_pushH c H v hv .new
  constructor
  · intro h
    obtain ⟨v', e, hs⟩ := h2 h
    rw [Omega.encodeH, e, SM.lift_ok_bind, hs, ← omega_encode c v hv W]
    show _ = Omega.encode c W v
    rw [Omega.encode, show ([] : List (Nat × Nat)) = GVec.stack .new from rfl, h1, SM.lift_ok_bind]
  · intro h s
    rw [Omega.encodeH, h3 h]
    rfl

theorem comma_encH (c : Cfg) (M : Stacks) (n v : Nat) : EncYields (CodeName.codeH c M (.comma n)) v (CodeName.encOutH M c.debug (.comma n) v) := by
  have h0 := comma_enc c n v
  unfold CodeName.encOutH
  unfold commaEnc at h0 ⊢
  by_cases hw : c.debug = true ∧ 64 ≤ n
  · rw [if_pos hw]
    intro σ W s
    show Comma.encodeH c M.comma n W v s = _
    have : Comma.base c n = .panic := by
      rw [Comma.base, shlN, if_neg (by omega), overflow, if_pos hw.1]
      rfl
    rw [Comma.encodeH, this]
    rfl
  · rw [if_neg hw] at h0 ⊢
    have hb := comma_base_any c (n := n) (fun hd => by
      by_cases h : 64 ≤ n
      · exact absurd ⟨hd, h⟩ hw
      · omega)
    generalize 2 ^ (n % 64) - 1 = b at hb h0
    have he : ∀ {σ : Type} (W : BitWrite σ), (CodeName.codeH c M (.comma n)).encode W v =
        (do let stack ← SM.lift (Comma.pushH M.comma b .new v); Comma.pop c W n stack.stack; writeInt c false W n (BitVec.ofNat 64 b)) := by
      intro σ W
      show Comma.encodeH c M.comma n W v = _
      rw [Comma.encodeH, hb, SM.lift_ok_bind]
    have he0 : ∀ {σ : Type} (W : BitWrite σ), (comma c n).encode W v =
        (do let stack ← SM.lift (Comma.push b [] v); Comma.pop c W n stack; writeInt c false W n (BitVec.ofNat 64 b)) := by
      intro σ W
      show Comma.encode c n W v = _
      rw [Comma.encode, hb, SM.lift_ok_bind]
    dsimp only at h0 ⊢
    by_cases hv : v = 0
    · rw [if_neg (fun h => h.1 hv), if_neg (fun h => h.1 hv)] at h0 ⊢
      dsimp only
      rw [hv, digitsOf_zero] at h0 ⊢
      rw [if_pos (show Heap.CanPush _ 0 0 ([] : List Nat).length from trivial)]
      intro σ W
      rw [← h0 W, ← hv, he0, he, hv, Comma.push.eq_def, Comma.pushH.eq_def, if_neg (by decide), if_neg (by decide), SM.lift_ok_bind,
        SM.lift_ok_bind]
      rfl
    · by_cases hb0 : b = 0
      · rw [if_pos ⟨hv, hb0⟩]
        intro σ W s
        rw [he, hb0, Comma.pushH.eq_def, if_pos (by omega)]
        rfl
      · rw [if_neg (fun h => hb0 h.2)] at h0 ⊢
        by_cases hb1 : b = 1
        · rw [if_pos ⟨hv, hb1⟩]
          dsimp only
          split
          · next h =>
            intro σ W s
            rw [he, hb1, comma1_pushH_hangs M.comma v (by omega) .new h]
            rfl
          · next h =>
            obtain ⟨k, hk⟩ := Classical.not_forall.1 h
            intro σ W s
            rw [he, hb1, comma1_pushH_fails M.comma k v (by omega) .new hk]
            rfl
        · rw [if_neg (fun h => hb1 h.2)] at h0 ⊢
          dsimp only
          obtain ⟨h2, h3⟩ := comma_pushH M.comma (b := b) (by omega) v .new
          split
          · next h =>
            obtain ⟨v', e, hs⟩ := h2 h
            intro σ W
            rw [← h0 W, he, he0, e, SM.lift_ok_bind, comma_push (by omega), SM.lift_ok_bind, hs]
            rfl
          · next h =>
            intro σ W s
            rw [he, h3 h]
            rfl

/-- C127. The outcome of encoding any `u64` with any code that can be built, on any sink and with any allocator: exactly when the stacks
get the memory they ask for the codeword is written, and otherwise the encoder panics before it asks anything of the sink. -/
theorem C127_encode (c : Cfg) (M : Stacks) (k : CodeName) (v : Nat) (hv : v < 2 ^ 64) :
    EncYields (k.codeH c M) v (k.encOutH M c.debug v) := by
  induction k generalizing v with
  | unary => exact fun _ W => (C55_unary c).encodes v hv W
  | omega =>
    unfold CodeName.encOutH
    split
    · next h => exact fun _ W => (omega_encH c M.omega v hv W).1 h
    · next h => exact fun _ W => (omega_encH c M.omega v hv W).2 h
  | comma n => exact comma_encH c M n v
  | fibonacci =>
    unfold CodeName.encOutH
    by_cases h0 : v = 0
    · rw [if_pos h0, h0]
      exact fun _ W s => rfl
    · rw [if_neg h0]
      have he : ∀ {σ : Type} (W : BitWrite σ), (CodeName.codeH c M .fibonacci).encode W v =
          if v < fib 93 then (do
            let stack ← SM.lift (Fibonacci.startH M.fib)
            let stack ← SM.lift (Fibonacci.descendH c M.fib (fibAt (fibLen v)) v stack)
            popBits W stack.stack) else tooManyBits := by
        intro σ W
        show Fibonacci.encodeH c M.fib W v = _
        rw [Fibonacci.encodeH, assertR_true h0, SM.lift_ok_bind, show Fib.new = fibAt 0 from rfl, fib_climb v 0 (.inl rfl) (by omega)]
        split
        · rw [SM.pure_bind]
        · rfl
      by_cases hf : v < fib 93
      · rw [if_pos hf]
        simp only [hf, if_true] at he
        rw [fibWordOf_eq (by omega), fibDigits_eq (by omega)]
        by_cases hg : M.fib.Grants (M.fib.withCapacity 1)
        · have hs : Fibonacci.startH M.fib = .ok ⟨[true], M.fib.withCapacity 1, 0⟩ := by
            rw [Fibonacci.startH, assertR_true hg]
            rfl
          obtain ⟨h2, h3⟩ := fib_descendH c M.fib (fibLen v) v hv ⟨[true], M.fib.withCapacity 1, 0⟩
          split
          · next h =>
            obtain ⟨v', e, hs'⟩ := h2 h.2
            intro σ W
            rw [he, hs, SM.lift_ok_bind, e, SM.lift_ok_bind, hs', popBits_eq]
            rfl
          · next h =>
            intro σ W s
            rw [he, hs, SM.lift_ok_bind, h3 fun hp => h ⟨hg, hp⟩]
            rfl
        · rw [if_neg fun h => hg h.1]
          intro σ W s
          rw [he, Fibonacci.startH, assertR, if_neg hg]
          rfl
      · rw [if_neg hf]
        intro σ W s
        rw [he, if_neg hf]
        rfl
  | elias k ih =>
    unfold CodeName.encOutH
    by_cases h0 : v = 0
    · rw [if_pos h0, h0]
      exact fun _ W s => rfl
    · rw [if_neg h0]
      have hl := log2_lt_64 hv (by omega)
      have h1 := ih v.log2 (by omega)
      have he : ∀ {σ : Type} (W : BitWrite σ), ((CodeName.elias k).codeH c M).encode W v =
          (do (k.codeH c M).encode W v.log2; writeInt c false W v.log2 (BitVec.ofNat 64 v)) := by
        intro σ W
        show Elias.encode c (k.codeH c M) W v = _
        rw [Elias.encode, assertR_true h0, SM.lift_ok_bind, subN_ok (by omega), SM.lift_ok_bind, leadingZeros,
          if_neg (by omega), subN_ok (by omega), SM.lift_ok_bind, show 64 - 1 - (64 - 1 - v.log2) = v.log2 by omega]
      cases ho : k.encOutH M c.debug v.log2 with
      | word l =>
        rw [ho] at h1
        intro σ W
        rw [he, h1 W, writeInt_unsigned c W (by omega), BitVec.toNat_ofNat, Nat.mod_eq_of_lt hv, writeAll_append]
      | invalid =>
        rw [ho] at h1
        intro σ W s
        rw [he, SM.bind_run_err (h1 W s)]
      | panics =>
        rw [ho] at h1
        intro σ W s
        rw [he, SM.bind_run, h1 W s]
        rfl
      | hangs =>
        rw [ho] at h1
        intro σ W s
        rw [he, SM.bind_run, h1 W s]
        rfl
  | lift0 k ih =>
    unfold CodeName.encOutH
    by_cases hl : v + 1 < 2 ^ 64
    · rw [if_pos hl]
      have he : ∀ {σ : Type} (W : BitWrite σ), ((CodeName.lift0 k).codeH c M).encode W v = (k.codeH c M).encode W (v + 1) := by
        intro σ W
        show Lift0.encode (k.codeH c M) W v = _
        rw [Lift0.encode, checkedAdd, if_pos hl]
      have h1 := ih (v + 1) hl
      cases ho : k.encOutH M c.debug (v + 1) <;> rw [ho] at h1 <;> intro σ W
      · rw [he]; exact h1 W
      · intro s; rw [he]; exact h1 W s
      · intro s; rw [he]; exact h1 W s
      · intro s; rw [he]; exact h1 W s
    · rw [if_neg hl]
      intro σ W s
      show Lift0.encode (k.codeH c M) W v s = _
      rw [Lift0.encode, checkedAdd, if_neg hl]
      rfl

/-! ### What the allocator can and cannot change -/

/-- C127. Refused memory makes an encoder panic and nothing else: otherwise it does what it does with unlimited memory. -/
theorem C127_only_fails (M : Stacks) (d : Bool) (k : CodeName) (v : Nat) :
    k.encOutH M d v = .panics ∨ k.encOutH M d v = k.encOut d v := by
  induction k generalizing v with
  | unary => exact .inr rfl
  | omega =>
    unfold CodeName.encOutH CodeName.encOut
    split
    · exact .inr rfl
    · exact .inl rfl
  | comma n =>
    unfold CodeName.encOutH CodeName.encOut
    cases commaEnc d n v with
    | word l => dsimp only; split <;> simp
    | hangs => dsimp only; split <;> simp
    | invalid => exact .inr rfl
    | panics => exact .inr rfl
  | fibonacci =>
    unfold CodeName.encOutH CodeName.encOut
    split
    · exact .inl rfl
    · split
      · split <;> simp
      · exact .inr rfl
  | elias k ih =>
    unfold CodeName.encOutH CodeName.encOut
    split
    · exact .inl rfl
    · rcases ih v.log2 with h | h <;> rw [h]
      · exact .inl rfl
      · exact .inr rfl
  | lift0 k ih =>
    unfold CodeName.encOutH CodeName.encOut
    split
    · exact ih _
    · exact .inr rfl

theorem CanPush.le {H : Heap} (hA : H.toAlloc.Lawful) {m : Nat} (hm : ∀ n, H.allow n = true → n ≤ m) {len cap k : Nat}
    (h : H.CanPush len cap k) (hl : len ≤ cap) (hc : H.Grants cap) : len + k ≤ m := by
  induction k generalizing len cap with
  | zero =>
    rcases hc with rfl | hc
    · omega
    · have := hm cap hc
      omega
  | succ k ih =>
    have h1 := hA.grow len cap 1
    have := ih h.2 (by unfold Heap.after; split <;> omega) (by
      unfold Heap.after
      split
      · exact hc
      · next hn => exact h.1.resolve_left hn)
    omega

/-- C127. No memory is large enough for `Comma(1)`, which without a limit runs forever: with one, it panics. -/
theorem C127_ends (M : Stacks) (hA : M.comma.toAlloc.Lawful) {m : Nat} (hm : ∀ n, M.comma.allow n = true → n ≤ m) (d : Bool)
    (k : CodeName) (v : Nat) : k.encOutH M d v ≠ .hangs := by
  have hk : ¬ ∀ k, M.comma.CanPush 0 0 k := fun h => by
    have := CanPush.le hA hm (h (m + 1)) (Nat.le_refl 0) (.inl rfl)
    omega
  induction k generalizing v with
  | unary => exact fun h => by cases h
  | omega => unfold CodeName.encOutH; split <;> exact fun h => by cases h
  | comma n =>
    unfold CodeName.encOutH
    cases commaEnc d n v with
    | word l => dsimp only; split <;> exact fun h => by cases h
    | hangs => dsimp only; rw [if_neg hk]; exact fun h => by cases h
    | invalid => exact fun h => by cases h
    | panics => exact fun h => by cases h
  | fibonacci =>
    unfold CodeName.encOutH
    split
    · exact fun h => by cases h
    · split
      · split <;> exact fun h => by cases h
      · exact fun h => by cases h
  | elias k ih =>
    unfold CodeName.encOutH
    split
    · exact fun h => by cases h
    · have := ih v.log2
      split
      · exact fun h => by cases h
      · exact this
  | lift0 k ih =>
    unfold CodeName.encOutH
    split
    · exact ih _
    · exact fun h => by cases h

theorem CanPush.all {H : Heap} {N : Nat} (hH : ∀ len cap, cap ≤ len → len < N → H.Grants (H.grow len cap 1)) {len cap k : Nat}
    (h : len + k ≤ N) : H.CanPush len cap k := by
  induction k generalizing len cap with
  | zero => trivial
  | succ k ih =>
    refine ⟨?_, ih (by omega)⟩
    by_cases hc : len < cap
    · exact .inl hc
    · exact .inr (hH len cap (by omega) (by omega))

theorem digitsOf_length_le {b : Nat} (hb : 2 ≤ b) (L v : Nat) (hv : v < b ^ L) : (digitsOf b v).length ≤ L := by
  induction L generalizing v with
  | zero =>
    rw [show v = 0 by simpa using hv, digitsOf_zero]
    exact Nat.le_refl _
  | succ L ih =>
    by_cases h0 : v = 0
    · rw [h0, digitsOf_zero]
      exact Nat.zero_le _
    · rw [digitsOf_pos hb (by omega), List.length_append]
      have := ih (v / b) ((Nat.div_lt_iff_lt_mul (by omega)).2 (by rw [← Nat.pow_succ]; exact hv))
      simpa using this

theorem omegaDepth_le {v : Nat} (hv : v < 2 ^ 64) : omegaDepth v ≤ 4 := by
  have key : ∀ {m v B : Nat}, v < 2 ^ m → 1 ≤ m → (∀ u < m, omegaDepth u ≤ B) → omegaDepth v ≤ B + 1 := by
    intro m v B h hm hB
    by_cases h1 : v ≤ 1
    · rw [omegaDepth_small h1]; omega
    · rw [omegaDepth_large (by omega)]
      have : v.log2 < m := (Nat.log2_lt (by omega)).2 h
      have := hB _ this
      omega
  refine key hv (by omega) fun u hu => ?_
  refine key (m := 6) (show u < 2 ^ 6 by omega) (by omega) fun u hu => ?_
  refine key (m := 3) (show u < 2 ^ 3 by omega) (by omega) fun u hu => ?_
  refine key (m := 2) (show u < 2 ^ 2 by omega) (by omega) fun u hu => ?_
  rw [omegaDepth_small (by omega)]

/-- C127. The stacks are small: of at most 92 entries. If requests for a further entry on shorter stacks are granted, and the request for
a first entry, every `u64` is encoded as with unlimited memory, unless that is by an endless loop. -/
theorem C127_enough (M : Stacks)
    (ho : ∀ len cap, cap ≤ len → len < 4 → M.omega.Grants (M.omega.grow len cap 1))
    (hc : ∀ len cap, cap ≤ len → len < 41 → M.comma.Grants (M.comma.grow len cap 1))
    (hf : ∀ len cap, cap ≤ len → len < 92 → M.fib.Grants (M.fib.grow len cap 1)) (hf1 : M.fib.Grants (M.fib.withCapacity 1))
    (d : Bool) (k : CodeName) (v : Nat) (hv : v < 2 ^ 64) (hh : k.encOut d v ≠ .hangs) : k.encOutH M d v = k.encOut d v := by
  induction k generalizing v with
  | unary => rfl
  | omega =>
    unfold CodeName.encOutH CodeName.encOut
    rw [if_pos (CanPush.all ho (by have := omegaDepth_le hv; omega))]
  | comma n =>
    unfold CodeName.encOut at hh
    unfold CodeName.encOutH CodeName.encOut
    cases he : commaEnc d n v with
    | word l =>
      dsimp only
      rw [if_pos]
      refine CanPush.all hc (N := 41) ?_
      rw [Nat.zero_add]
      by_cases h0 : v = 0
      · rw [h0, digitsOf_zero]
        exact Nat.zero_le _
      · have hb : 3 ≤ 2 ^ (n % 64) - 1 := by
          unfold commaEnc at he
          split at he
          · cases he
          · dsimp only at he
            split at he
            · cases he
            · next h1 =>
              split at he
              · cases he
              · next h2 =>
                match hm : n % 64 with
                | 0 => rw [hm] at h1; exact absurd ⟨h0, rfl⟩ h1
                | 1 => rw [hm] at h2; exact absurd ⟨h0, rfl⟩ h2
                | m + 2 => have := Nat.two_pow_pos m; rw [Nat.pow_succ, Nat.pow_succ]; omega
        refine digitsOf_length_le (by omega) 41 v (Nat.lt_of_lt_of_le hv ?_)
        exact Nat.le_trans (show 2 ^ 64 ≤ 3 ^ 41 by decide) (Nat.pow_le_pow_left hb 41)
    | hangs => exact absurd he hh
    | invalid => rfl
    | panics => rfl
  | fibonacci =>
    unfold CodeName.encOutH CodeName.encOut
    by_cases h0 : v = 0
    · rw [if_pos h0, if_pos h0]
    · rw [if_neg h0, if_neg h0]
      split
      · next h =>
        rw [if_pos]
        have := fibLen_bound h
        exact ⟨hf1, CanPush.all hf (by rw [fibDigits_eq (by omega)]; omega)⟩
      · rfl
  | elias k ih =>
    unfold CodeName.encOut at hh
    unfold CodeName.encOutH CodeName.encOut
    by_cases h0 : v = 0
    · rw [if_pos h0, if_pos h0]
    · rw [if_neg h0] at hh
      rw [if_neg h0, if_neg h0, ih v.log2 (by have := log2_lt_64 hv (by omega); omega) fun h => hh (by rw [h])]
      rfl
  | lift0 k ih =>
    unfold CodeName.encOut at hh
    unfold CodeName.encOutH CodeName.encOut
    split
    · next h =>
      rw [if_pos h] at hh
      exact ih _ h hh
    · rfl

/-- C127. `Omega` with an allocator that, as `Vec`'s, first makes room for four entries (of 16 bytes): one request at most, and none for 0
and 1. -/
theorem C127_omega (M : Stacks) (h4 : M.omega.grow 0 0 1 = 4) (d : Bool) (v : Nat) (hv : v < 2 ^ 64) :
    CodeName.encOutH M d .omega v = if v ≤ 1 ∨ M.omega.Grants 4 then .word (omegaWord v) else .panics := by
  unfold CodeName.encOutH
  have hd := omegaDepth_le hv
  have hz : omegaDepth v = 0 ↔ v ≤ 1 := by
    constructor
    · intro h
      by_cases h1 : v ≤ 1
      · exact h1
      · rw [omegaDepth_large (by omega)] at h
        cases h
    · exact omegaDepth_small
  have hr : ∀ k len, len + k ≤ 4 → M.omega.CanPush len 4 k := by
    intro k
    induction k with
    | zero => exact fun _ _ => trivial
    | succ k ih =>
      intro len h
      refine ⟨.inl (by omega), ?_⟩
      rw [Heap.after, if_pos (by omega)]
      exact ih _ (by omega)
  have hi : M.omega.CanPush 0 0 (omegaDepth v) ↔ v ≤ 1 ∨ M.omega.Grants 4 := by
    rw [← hz]
    generalize omegaDepth v = n at hd
    rcases n with _ | k
    · exact ⟨fun _ => .inl rfl, fun _ => trivial⟩
    · constructor
      · rintro ⟨h | h, -⟩
        · cases h
        · exact .inr (h4 ▸ h)
      · rintro (h | h)
        · cases h
        · refine ⟨.inr (h4 ▸ h), ?_⟩
          rw [Heap.after, if_neg (by omega), h4]
          exact hr k 1 (by omega)
  by_cases h : v ≤ 1 ∨ M.omega.Grants 4
  · rw [if_pos h, if_pos (hi.2 h)]
  · rw [if_neg h, if_neg (fun h' => h (hi.1 h'))]

/-! Cases: with three entries of exact growth `Comma(2)` encodes 8 (digits 2, 2) and not 81; with none, `Omega` encodes 1 and not 2;
`Comma(1)` panics. -/
def smallStacks (m : Nat) : Stacks := ⟨smallHeap m, smallHeap m, smallHeap m⟩

example (c : Cfg) (σ : Type) (W : BitWrite σ) (s : σ) :
    (CodeName.codeH c (smallStacks 3) (.comma 2)).encode W 8 = writeAll W [false, true, false, true, true, true] ∧
    (CodeName.codeH c (smallStacks 3) (.comma 2)).encode W 81 s = .panic ∧
    (CodeName.codeH c (smallStacks 0) .omega).encode W 1 = writeAll W [false] ∧
    (CodeName.codeH c (smallStacks 0) .omega).encode W 2 s = .panic := by
  have h1 := C127_encode c (smallStacks 3) (.comma 2) 8 (by decide)
  have h2 := C127_encode c (smallStacks 3) (.comma 2) 81 (by decide)
  have h3 := C127_encode c (smallStacks 0) .omega 1 (by decide)
  have h4 := C127_encode c (smallStacks 0) .omega 2 (by decide)
  have e : ∀ v, commaEnc c.debug 2 v = .word ((digitsOf 3 v).flatMap (natBits 2) ++ natBits 2 3) := by
    intro v
    unfold commaEnc
    rw [if_neg (by omega)]
    dsimp only
    rw [if_neg (fun h => absurd h.2 (by decide)), if_neg (fun h => absurd h.2 (by decide))]
  unfold CodeName.encOutH at h1 h2 h3 h4
  rw [e, show digitsOf (2 ^ (2 % 64) - 1) _ = [2, 2] by decide +kernel, show digitsOf 3 8 = [2, 2] by decide +kernel] at h1
  rw [e, show digitsOf (2 ^ (2 % 64) - 1) _ = [1, 0, 0, 0, 0] by decide +kernel] at h2
  dsimp only at h1 h2
  rw [if_pos (by decide)] at h1
  rw [if_neg (by decide)] at h2
  rw [if_pos (by rw [omegaDepth_small (by decide)]; trivial), show omegaWord 1 = [false] by decide +kernel] at h3
  rw [if_neg (by rw [omegaDepth_large (by decide)]; exact fun h => absurd h.1 (by decide))] at h4
  exact ⟨h1 W, h2 W s, h3 W, h4 W s⟩

example (c : Cfg) (σ : Type) (W : BitWrite σ) (s : σ) : (CodeName.codeH c (smallStacks 1000) (.comma 1)).encode W 7 s = .panic := by
  have h := C127_encode c (smallStacks 1000) (.comma 1) 7 (by decide)
  have h1 : CodeName.encOutH (smallStacks 1000) c.debug (.comma 1) 7 = .panics := by
    rcases C127_only_fails (smallStacks 1000) c.debug (.comma 1) 7 with h | h
    · exact h
    · refine absurd (h.trans ?_) (C127_ends (smallStacks 1000) (smallHeap_lawful _) (m := 1000) (fun n h => ?_) c.debug (.comma 1) 7)
      · show commaEnc _ 1 7 = _
        cases c.debug <;> rfl
      · simpa [smallStacks, smallHeap] using h
  rw [h1] at h
  exact h W s

/-! Each theorem of this file that has hypotheses is applied to concrete data in `Verif/Instances/EncodeMemory.lean`. -/

end Succinct
