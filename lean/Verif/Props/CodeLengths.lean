import Verif.Props.Coding
/-! Properties C92, C93: the lengths of codewords. -/
namespace Succinct
open Spec

/-! ### C92: monotone and bounded -/

theorem log2_mono {u v : Nat} (h : u ≤ v) : u.log2 ≤ v.log2 := by
  rcases Nat.eq_zero_or_pos u with h0 | h0
  · rw [h0]; exact Nat.zero_le _
  · exact (Nat.le_log2 (by omega)).2 (Nat.le_trans (Nat.log2_self_le (by omega)) h)

theorem omegaGroups_mono {u v : Nat} (h : u ≤ v) : (omegaGroups u).length ≤ (omegaGroups v).length := by
  induction v using Nat.strongRecOn generalizing u with
  | ind v ih =>
  rw [omegaGroups.eq_def u, omegaGroups.eq_def v]
  split
  · exact Nat.zero_le _
  · rename_i hu
    rw [dif_neg (by omega)]
    have h1 := log2_mono h
    have h2 : v.log2 < v := (Nat.log2_lt (by omega)).2 Nat.lt_two_pow_self
    have h3 := ih v.log2 h2 h1
    simp only [List.length_append, List.length_reverse, natBits_length]
    omega

theorem digitsOf_mono {b u v : Nat} (hb : 2 ≤ b) (h : u ≤ v) : (digitsOf b u).length ≤ (digitsOf b v).length := by
  induction v using Nat.strongRecOn generalizing u with
  | ind v ih =>
  rcases Nat.eq_zero_or_pos u with h0 | h0
  · rw [h0, digitsOf_zero]; exact Nat.zero_le _
  · rw [digitsOf_pos hb h0, digitsOf_pos hb (show 0 < v by omega), List.length_append, List.length_append]
    have := ih (v / b) (Nat.div_lt_self (by omega) (by omega)) (Nat.div_le_div_right (c := b) h)
    simp only [List.length_singleton]
    omega

theorem fibLen_mono {u v : Nat} (h : u ≤ v) : fibLen u ≤ fibLen v := by
  obtain ⟨h1, -⟩ := fibLen_spec v
  obtain ⟨-, h2⟩ := fibLen_spec u
  rcases h2 with h2 | h2
  · omega
  · rcases Nat.lt_or_ge (fibLen v) (fibLen u) with h3 | h3
    · have := fib_mono (show fibLen v + 2 ≤ fibLen u + 1 by omega)
      omega
    · exact h3

theorem word_mono (c : Cfg) (f : Bool) {K : Code} {D : Nat → Prop} {word : Nat → List Bool} (h : CodeOf c f K D word)
    {u v : Nat} (hu : D u) (hv : D v) (huv : u ≤ v) : (word u).length ≤ (word v).length := by
  induction h generalizing u v with
  | unary => simp only [unaryWord, List.length_append, List.length_replicate]; omega
  | omega =>
    have := omegaGroups_mono huv
    simp only [omegaWord, List.length_append]; omega
  | @comma _ n h2 hn =>
    have hb : 2 ≤ 2 ^ n - 1 := by
      have : 2 ^ 2 ≤ 2 ^ n := Nat.pow_le_pow_right (by omega) h2
      omega
    have hfl : ∀ ds : List Nat, (ds.flatMap (natBits n)).length = n * ds.length := by
      intro ds
      induction ds with
      | nil => rfl
      | cons x ds ih => rw [List.flatMap_cons, List.length_append, ih, natBits_length, List.length_cons, Nat.mul_succ]; omega
    have := Nat.mul_le_mul_left n (digitsOf_mono hb huv)
    simp only [commaWord, List.length_append, hfl, natBits_length]
    omega
  | fibonacci =>
    have := fibLen_mono huv
    simp only [fibWord, List.length_append, zeck_length]
    omega
  | elias _ hD ih =>
    have hlt : ∀ {x}, Pos64 x → x.log2 < 64 := fun h => (Nat.log2_lt (by have := h.1; omega)).2 h.2
    have h1 := log2_mono huv
    have := ih (hD _ (hlt hu)) (hD _ (hlt hv)) h1
    simp only [eliasWord, List.length_append, natBits_length]
    omega
  | lift0 _ ih => exact ih hu.1 hv.1 (by omega)

/-- C92. Larger values never get shorter codewords, for every code of the crate and every combination of `Elias` and
`Lift0`: `l1` and `l2` are what `encode` writes for `u ≤ v`. -/
theorem C92_monotone (c : Cfg) (f : Bool) {K : Code} {D : Nat → Prop} {word : Nat → List Bool} (h : CodeOf c f K D word)
    {u v : Nat} (hu : D u) (hv : D v) (huv : u ≤ v) :
    ∃ l1 l2, K.encode dequeWrite u [] = .ok (.ok (), l1) ∧ K.encode dequeWrite v [] = .ok (.ok (), l2) ∧
      l1.length ≤ l2.length :=
  ⟨word u, word v, C68_written c f h hu [], C68_written c f h hv [], word_mono c f h hu hv huv⟩

/-- C92. The longest codewords. -/
theorem C92_bounds (v : Nat) (h1 : 1 ≤ v) (h2 : v < 2 ^ 64) :
    (gammaWord v).length ≤ 127 ∧ (deltaWord v).length ≤ 76 ∧ (omegaWord v).length ≤ 76 ∧
    (v < fib 93 → (fibWord v).length ≤ 92) := by
  have c : Cfg := ⟨true, .p64, true⟩
  have hg := C62_gamma_delta c false
  have hm : Pos64 (2 ^ 64 - 1) := ⟨by decide, by decide⟩
  refine ⟨Nat.le_trans (word_mono c false hg.1 ⟨h1, h2⟩ hm (by omega)) (by decide +kernel),
    Nat.le_trans (word_mono c false hg.2 ⟨h1, h2⟩ hm (by omega)) (by decide +kernel),
    Nat.le_trans (word_mono c false .omega ⟨h1, h2⟩ hm (by omega)) ?_, fun h3 => ?_⟩
  · simp only [omegaWord, List.length_append, List.length_singleton]
    rw [omegaGroups, dif_neg (by decide), show Nat.log2 (2 ^ 64 - 1) = 63 by decide +kernel, omegaGroups, dif_neg (by decide),
      show (63 : Nat).log2 = 5 by decide +kernel, omegaGroups, dif_neg (by decide), show (5 : Nat).log2 = 2 by decide +kernel,
      omegaGroups, dif_neg (by decide), show (2 : Nat).log2 = 1 by decide +kernel, omegaGroups, dif_pos (by decide)]
    simp only [List.length_append, List.length_reverse, natBits_length, List.length_nil]
    decide
  · have := fibLen_bound h3
    simp only [fibWord, List.length_append, zeck_length, List.length_singleton]
    omega

example (c : Cfg) : ∃ l1 l2, (delta c).encode dequeWrite 1000 [] = .ok (.ok (), l1) ∧
    (delta c).encode dequeWrite 1000000 [] = .ok (.ok (), l2) ∧ l1.length ≤ l2.length :=
  C92_monotone c false (C62_gamma_delta c false).2 ⟨by decide, by decide⟩ ⟨by decide, by decide⟩ (by decide)

/-! ### C93: Kraft's inequality -/

/-- The words that start with `b`, without that bit. -/
def tails (b : Bool) (ws : List (List Bool)) : List (List Bool) :=
  ws.filterMap fun | b' :: w => if b' = b then some w else none | [] => none

theorem kraft_split (M : Nat) (ws : List (List Bool)) (hne : [] ∉ ws) :
    (ws.map fun w => 2 ^ (M + 1 - w.length)).sum =
      ((tails true ws).map fun w => 2 ^ (M - w.length)).sum + ((tails false ws).map fun w => 2 ^ (M - w.length)).sum := by
  induction ws with
  | nil => rfl
  | cons w ws ih =>
    have := ih (fun h => hne (List.mem_cons_of_mem _ h))
    unfold tails at this ⊢
    cases w with
    | nil => exact absurd List.mem_cons_self hne
    | cons b w =>
      cases b <;> simp [this] <;> omega

theorem kraft_nil (M : Nat) {ws : List (List Bool)} (hp : ws.Pairwise fun a b => ¬ a <+: b ∧ ¬ b <+: a) (hm : [] ∈ ws) :
    (ws.map fun w => 2 ^ (M - w.length)).sum ≤ 2 ^ M := by
  have : ws = [[]] := by
    cases ws with
    | nil => cases hm
    | cons w ws =>
      rw [List.pairwise_cons] at hp
      rcases List.mem_cons.1 hm with h | h
      · subst h
        cases ws with
        | nil => rfl
        | cons w' ws => exact absurd List.nil_prefix (hp.1 w' List.mem_cons_self).1
      · exact absurd List.nil_prefix (hp.1 [] h).2
  subst this
  simp

theorem tails_pairwise (b : Bool) {ws : List (List Bool)} (hp : ws.Pairwise fun a b => ¬ a <+: b ∧ ¬ b <+: a) :
    (tails b ws).Pairwise fun a b => ¬ a <+: b ∧ ¬ b <+: a := by
  refine List.Pairwise.filterMap _ ?_ hp
  intro a a' h x hx y hy
  cases a with
  | nil => cases hx
  | cons b1 w1 =>
  cases a' with
  | nil => cases hy
  | cons b2 w2 =>
    simp only [Option.ite_none_right_eq_some, Option.some.injEq] at hx hy
    obtain ⟨rfl, rfl⟩ := hx
    obtain ⟨rfl, rfl⟩ := hy
    exact ⟨fun hp => h.1 (List.cons_prefix_cons.2 ⟨rfl, hp⟩), fun hp => h.2 (List.cons_prefix_cons.2 ⟨rfl, hp⟩)⟩

theorem tails_le (b : Bool) {ws : List (List Bool)} (hl : ∀ w ∈ ws, w.length ≤ M + 1) : ∀ w ∈ tails b ws, w.length ≤ M := by
  intro w hw
  obtain ⟨a, ha, hw⟩ := List.mem_filterMap.1 hw
  cases a with
  | nil => cases hw
  | cons b1 w1 =>
    simp only [Option.ite_none_right_eq_some, Option.some.injEq] at hw
    have := hl _ ha
    rw [List.length_cons, hw.2] at this
    omega

/-- Kraft's inequality for a list of words none of which is a prefix of another. -/
theorem kraft (M : Nat) (ws : List (List Bool)) (hp : ws.Pairwise fun a b => ¬ a <+: b ∧ ¬ b <+: a)
    (hl : ∀ w ∈ ws, w.length ≤ M) : (ws.map fun w => 2 ^ (M - w.length)).sum ≤ 2 ^ M := by
  induction M generalizing ws with
  | zero =>
    cases ws with
    | nil => simp
    | cons w ws' =>
      have := hl w List.mem_cons_self
      have : w = [] := List.eq_nil_of_length_eq_zero (by omega)
      exact kraft_nil 0 hp (this ▸ List.mem_cons_self)
  | succ M ih =>
    by_cases hm : [] ∈ ws
    · exact kraft_nil _ hp hm
    · rw [kraft_split M ws hm, Nat.pow_succ]
      have h1 := ih _ (tails_pairwise true hp) (tails_le true hl)
      have h2 := ih _ (tails_pairwise false hp) (tails_le false hl)
      omega

/-- C93. Kraft's inequality: for any finite set of values, the codewords that `encode` writes satisfy `∑ 2^-length ≤ 1`
(here multiplied by `2^M`, where `M` bounds the lengths). -/
theorem C93_kraft (c : Cfg) (f : Bool) {K : Code} {D : Nat → Prop} {word : Nat → List Bool} (h : CodeOf c f K D word)
    (vs : List Nat) (hd : vs.Nodup) (hv : ∀ v ∈ vs, D v) :
    ∃ len : Nat → Nat, (∀ v ∈ vs, ∃ l, K.encode dequeWrite v [] = .ok (.ok (), l) ∧ l.length = len v) ∧
      ∀ M, (∀ v ∈ vs, len v ≤ M) → (vs.map fun v => 2 ^ (M - len v)).sum ≤ 2 ^ M := by
  refine ⟨fun v => (word v).length, fun v h1 => ⟨word v, C68_written c f h (hv v h1) [], rfl⟩, fun M hM => ?_⟩
  have := kraft M (vs.map word) ?_ (by simpa using hM)
  · rw [List.map_map] at this
    exact this
  · rw [List.pairwise_map]
    refine List.Pairwise.imp_of_mem ?_ hd
    intro u v hu hv' hne
    exact ⟨fun hp => hne (C63_prefix_free c f h (hv u hu) (hv v hv') hp),
      fun hp => hne (C63_prefix_free c f h (hv v hv') (hv u hu) hp).symm⟩

/-- Gamma on 1 to 7 with lengths 1, 3, 3, 5, 5, 5, 5: `16 + 4 + 4 + 1 + 1 + 1 + 1 = (1 - 2^-3) * 2^5`. -/
example : ([1, 2, 3, 4, 5, 6, 7].map fun v => 2 ^ (5 - (gammaWord v).length)).sum = 28 := by decide +kernel

/-! Each theorem of this file that has hypotheses is applied to concrete data in `Verif/Instances/CodeLengths.lean`. -/

end Succinct
