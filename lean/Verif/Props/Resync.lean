import Verif.Props.Coding
/-! Property C116: a reader that has lost its place in a stream of Fibonacci codewords finds it again. -/
namespace Succinct
open Spec

/-- Bits without two adjacent ones, or the first codeword and the rest. -/
theorem fib_first (l : List Bool) :
    NoAdj l ∨ ∃ z rest, l = z ++ true :: rest ∧ NoAdj z ∧ z.getLast? = some true := by
  generalize hn : l.length = n
  induction n generalizing l with
  | zero =>
    rw [List.length_eq_zero_iff.1 hn]
    exact .inl trivial
  | succ n ih =>
    have hne : l ≠ [] := by rintro rfl; cases hn
    obtain ⟨y, b, rfl⟩ : ∃ y b, l = y ++ [b] := ⟨l.dropLast, l.getLast hne, (List.dropLast_concat_getLast hne).symm⟩
    rcases ih y (by simpa using hn) with h | ⟨z, rest, rfl, h2, h3⟩
    · by_cases hb : (b && (y.getLast? == some true)) = true
      · simp only [Bool.and_eq_true, beq_iff_eq] at hb
        exact .inr ⟨y, [], by rw [hb.1], h, hb.2⟩
      · exact .inl (noAdj_snoc h (by simpa using hb))
    · exact .inr ⟨z, rest ++ [b], by simp, h2, h3⟩

/-- Any bits that end in 0, 1, 1 are a sequence of Fibonacci codewords. -/
theorem fib_parse (m : List Bool) :
    ∃ us : List Nat, us ≠ [] ∧ (∀ u ∈ us, 1 ≤ u) ∧ m ++ [false, true, true] = us.flatMap fibWord := by
  generalize hn : m.length = n
  induction n using Nat.strongRecOn generalizing m with
  | ind n ih =>
  rcases fib_first (m ++ [false, true, true]) with h | ⟨z, rest, e, h1, h2⟩
  · rw [show m ++ [false, true, true] = (m ++ [false, true]) ++ [true] by simp] at h
    exact absurd (by simp) (noAdj_snoc_true.1 h).2
  have hw : IsFibWord (fibSum 2 z) (z ++ [true]) := ⟨z, ⟨rfl, h1, h2⟩, rfl⟩
  obtain ⟨hp, ew⟩ := isFibWord_iff.1 hw
  have hz : z ≠ [] := by rintro rfl; cases h2
  obtain ⟨y, rfl⟩ : ∃ y, z = y ++ [true] := by
    refine ⟨z.dropLast, ?_⟩
    rw [List.getLast?_eq_some_getLast hz] at h2
    conv => lhs; rw [← List.dropLast_concat_getLast hz]
    rw [Option.some.inj h2]
  have hlen := congrArg List.length e
  simp only [List.length_append, List.length_cons, List.length_nil] at hlen
  match hr : rest with
  | [] => exact ⟨[_], by simp, by simpa using hp, by rw [e]; simpa using ew⟩
  | [x] =>
    exfalso
    have e' : m ++ [false] ++ [true, true] = y ++ [true] ++ [true, x] := by simpa using e
    have := (List.append_inj' e' rfl).1
    have := (List.append_inj' this rfl).2
    cases this
  | [x1, x2] =>
    exfalso
    have e' : m ++ [false] ++ [true, true] = y ++ [true] ++ [true] ++ [x1, x2] := by simpa using e
    have := (List.append_inj' e' rfl).1
    have := (List.append_inj' this rfl).2
    cases this
  | x1 :: x2 :: x3 :: r =>
    have hd : ∃ m', x1 :: x2 :: x3 :: r = m' ++ [false, true, true] := by
      refine ⟨m.drop (y.length + 2), ?_⟩
      have e2 := congrArg (List.drop (y.length + 2)) e
      rw [List.drop_append_of_le_length (by simp only [List.length_cons] at hlen; omega)] at e2
      rw [e2, show y ++ [true] ++ true :: x1 :: x2 :: x3 :: r = (y ++ [true, true]) ++ (x1 :: x2 :: x3 :: r) by simp,
        List.drop_append_of_le_length (by simp)]
      rw [List.drop_eq_nil_of_le (by simp)]
      rfl
    obtain ⟨m', hm'⟩ := hd
    have hl' := congrArg List.length hm'
    simp only [List.length_append, List.length_cons, List.length_nil] at hlen hl'
    obtain ⟨us, -, h3, h4⟩ := ih m'.length (by omega) m' rfl
    refine ⟨fibSum 2 (y ++ [true]) :: us, by simp, by simpa using ⟨hp, h3⟩, ?_⟩
    rw [e, hm', List.flatMap_cons, ← h4, ← ew]
    simp

/-- The codeword of a number other than 1 ends in 0, 1, 1. -/
theorem fibWord_tail {v : Nat} (h : 2 ≤ v) : ∃ m, fibWord v = m ++ [false, true, true] := by
  have hz := zeck_isZeckendorf (v := v) (by omega)
  obtain ⟨hs, hn, hl⟩ := hz
  rw [fibWord]
  generalize zeck (fibLen v) v = z at *
  have hne : z ≠ [] := by rintro rfl; cases hl
  obtain ⟨y, rfl⟩ : ∃ y, z = y ++ [true] := by
    refine ⟨z.dropLast, ?_⟩
    rw [List.getLast?_eq_some_getLast hne] at hl
    conv => lhs; rw [← List.dropLast_concat_getLast hne]
    rw [Option.some.inj hl]
  have hy := (noAdj_snoc_true.1 hn).2
  by_cases h0 : y = []
  · subst h0
    simp [fibSum, fib] at hs
    omega
  · obtain ⟨x, b, rfl⟩ : ∃ x b, y = x ++ [b] := ⟨y.dropLast, y.getLast h0, (List.dropLast_concat_getLast h0).symm⟩
    have : b = false := by simpa using hy
    exact ⟨x, by simp [this]⟩

/-- C116: `fibonacci` finds its place again. Take any bits at all, followed by what encoding `v :: vs` writes, where `v` is
not 1. They are a sequence of codewords: first those of some `us`, which use up the foreign bits and the codeword of `v`,
and then exactly those of `vs`. If the foreign bits and the codeword of `v` contain no 92 consecutive bits without two
adjacent ones, then decoding returns `us`, then `vs`, then the end of the stream. -/
theorem C116_resync (c : Cfg) (junk : List Bool) {v : Nat} (h2 : 2 ≤ v) (hv : v < fib 93) {word : List Bool} (hw : IsFibWord v word) :
    ∃ us : List Nat, us ≠ [] ∧ (∀ u ∈ us, 1 ≤ u) ∧
      (∀ vs : List Nat, (∀ x ∈ vs, 1 ≤ x ∧ x < fib 93) →
        ∃ bits, encodeAll (fibonacci c) dequeWrite (v :: vs) [] = .ok (.ok (), bits) ∧
          encodeAll (fibonacci c) dequeWrite vs [] = .ok (.ok (), bits.drop word.length) ∧
          ((∀ m, m <:+: junk ++ word → NoAdj m → m.length < 92) → ∀ {σ : Type} {R : BitRead σ} {Rep : σ → List Bool → Prop}, LawfulSource R Rep →
            ∀ s, Rep s (junk ++ bits) → ∀ k, ∃ s',
              decodeMany (fibonacci c) R (us.length + vs.length + k) s =
                .ok (.ok (us.map some ++ vs.map some ++ List.replicate k none), s') ∧ Rep s' [])) := by
  obtain ⟨-, rfl⟩ := isFibWord_iff.1 hw
  obtain ⟨m, hm⟩ := fibWord_tail h2
  obtain ⟨us, h3, h4, h5⟩ := fib_parse (junk ++ m)
  rw [List.append_assoc, ← hm] at h5
  refine ⟨us, h3, h4, fun vs hvs => ?_⟩
  have hi := C60_implements c
  have hall : ∀ x ∈ v :: vs, FibDom x := by
    intro x hx
    rcases List.mem_cons.1 hx with rfl | hx
    · exact ⟨by omega, hv⟩
    · exact hvs x hx
  have enc : ∀ l : List Nat, (∀ x ∈ l, FibDom x) → encodeAll (fibonacci c) dequeWrite l [] = .ok (.ok (), l.flatMap fibWord) := by
    intro l hl
    obtain ⟨s', e1, e2⟩ := deque_sink.writeAll (fun _ _ => trivial) (l.flatMap fibWord) (s := []) (l := []) rfl trivial
    rw [encodeAll_eq hi.encodes dequeWrite l hl, e1, e2]
    rfl
  refine ⟨_, enc _ hall, ?_, fun hl σ R Rep hR s hs k => ?_⟩
  · rw [enc vs hvs, List.flatMap_cons, List.drop_left]
  · rw [List.flatMap_cons, ← List.append_assoc, h5, ← List.flatMap_append] at hs
    have hus : ∀ x ∈ us ++ vs, FibDom x := by
      intro x hx
      rcases List.mem_append.1 hx with hx | hx
      · refine ⟨h4 x hx, ?_⟩
        have a2 := (fibLen_spec x).1
        have a1 := hl (zeck (fibLen x) x) (by
          obtain ⟨p, q, rfl⟩ := List.append_of_mem hx
          exact ⟨p.flatMap fibWord, true :: q.flatMap fibWord, by
            rw [h5, List.flatMap_append, List.flatMap_cons, fibWord]; simp⟩) (zeck_noAdj _ _ a2)
        rw [zeck_length] at a1
        exact Nat.lt_of_lt_of_le a2 (fib_mono (by omega))
      · exact hvs x hx
    obtain ⟨s', e1, e2⟩ := decodeMany_words hi.decodes hi.ends hR (us ++ vs) hus k hs
    refine ⟨s', ?_, e2⟩
    rw [List.length_append, List.map_append] at e1
    exact e1

/-- C116: damage inside a stream stays local. Encode `ws ++ mid ++ v :: vs` and replace what was written for `mid` by any
other bits, more or fewer (which together with the codeword of `v` contain no 92 consecutive bits without two adjacent ones,
as would be a codeword too long for a `u64`). Decoding returns all of `ws`, then some values, and
then all of `vs`. -/
theorem C116_damage (c : Cfg) (ws mid vs : List Nat) {v : Nat} (h2 : 2 ≤ v) (hall : ∀ x ∈ ws ++ mid ++ v :: vs, 1 ≤ x ∧ x < fib 93) :
    ∃ a b d, encodeAll (fibonacci c) dequeWrite (ws ++ mid ++ v :: vs) [] = .ok (.ok (), a ++ b ++ d) ∧
      encodeAll (fibonacci c) dequeWrite mid [] = .ok (.ok (), b) ∧
      encodeAll (fibonacci c) dequeWrite ws [] = .ok (.ok (), a) ∧
      ∀ {word : List Bool}, IsFibWord v word → ∀ junk : List Bool,
        (∀ m, m <:+: junk ++ word → NoAdj m → m.length < 92) → ∃ us : List Nat, us ≠ [] ∧
        decodeMany (fibonacci c) dequeRead (ws.length + us.length + vs.length + 1) (a ++ junk ++ d) =
          .ok (.ok (ws.map some ++ us.map some ++ vs.map some ++ [none]), []) := by
  have hi := C60_implements c
  have enc : ∀ l : List Nat, (∀ x ∈ l, FibDom x) → encodeAll (fibonacci c) dequeWrite l [] = .ok (.ok (), l.flatMap fibWord) := by
    intro l hl
    obtain ⟨s', e1, e2⟩ := deque_sink.writeAll (fun _ _ => trivial) (l.flatMap fibWord) (s := []) (l := []) rfl trivial
    rw [encodeAll_eq hi.encodes dequeWrite l hl, e1, e2]
    rfl
  refine ⟨ws.flatMap fibWord, mid.flatMap fibWord, (v :: vs).flatMap fibWord, ?_, enc _ ?_, enc _ ?_, fun hw junk hl => ?_⟩
  · rw [enc _ hall, List.flatMap_append, List.flatMap_append]
  · exact fun x hx => hall x (by simp [hx])
  · exact fun x hx => hall x (by simp [hx])
  · obtain ⟨us, h3, h4, h5⟩ := C116_resync c junk h2 (hall v (by simp)).2 hw
    refine ⟨us, h3, ?_⟩
    obtain ⟨bits, e1, -, e2⟩ := h5 vs (fun x hx => hall x (by simp [hx]))
    rw [enc _ (fun x hx => hall x (by simp only [List.mem_append]; exact .inr hx))] at e1
    obtain ⟨s', e3, e4⟩ := e2 hl deque_source _ rfl 1
    cases e4
    have e5 := Res.ok.inj e1
    simp only [Prod.mk.injEq, true_and] at e5
    subst e5
    have : ∀ (ws : List Nat) (_ : ∀ x ∈ ws, FibDom x) (n : Nat) (l : List Bool) (r : List (Option Nat)),
        decodeMany (fibonacci c) dequeRead n l = .ok (.ok r, []) →
        decodeMany (fibonacci c) dequeRead (ws.length + n) (ws.flatMap fibWord ++ l) = .ok (.ok (ws.map some ++ r), []) := by
      intro ws hws n l r h
      induction ws with
      | nil => simpa using h
      | cons w ws ih =>
        rw [List.flatMap_cons, List.append_assoc, List.length_cons, Nat.add_right_comm, decodeMany,
          SM.bind_run_ok (hi.decodes w (hws w List.mem_cons_self) dequeRead _ _ (deque_reads (fibWord w) _)),
          SM.bind_run_ok (ih fun x hx => hws x (List.mem_cons_of_mem _ hx))]
        rfl
    have := this ws (fun x hx => hall x (by simp [hx])) _ _ _ e3
    rw [List.append_assoc, show ws.length + us.length + vs.length + 1 = ws.length + (us.length + vs.length + 1) by omega, this]
    simp

/-- The condition of `C116_resync` and `C116_damage` holds if the foreign bits and the codeword are at most 92 bits. -/
theorem C116_short (junk : List Bool) {v : Nat} (h2 : 2 ≤ v) {word : List Bool} (hw : IsFibWord v word)
    (hl : junk.length + word.length ≤ 92) : ∀ m, m <:+: junk ++ word → NoAdj m → m.length < 92 := by
  rintro m hm hn
  have h1 := hm.length_le
  rw [List.length_append] at h1
  refine Nat.lt_of_not_le fun h3 => ?_
  have e := hm.eq_of_length (by rw [List.length_append]; omega)
  obtain ⟨-, rfl⟩ := isFibWord_iff.1 hw
  obtain ⟨y, hy⟩ := fibWord_tail h2
  rw [e, hy, show junk ++ (y ++ [false, true, true]) = (junk ++ y ++ [false, true]) ++ [true] by simp] at hn
  exact (noAdj_snoc_true.1 hn).2 (by simp)

/-- Two foreign bits before 4, 1, 5: the first value is lost, the rest is not. -/
example : ∃ bits, encodeAll (fibonacci ⟨true, .p64, true⟩) dequeWrite [4, 1, 5] [] = .ok (.ok (), bits) ∧
    decodeMany (fibonacci ⟨true, .p64, true⟩) dequeRead 4 ([false, true] ++ bits) = .ok (.ok [some 2, some 2, some 1, some 5], []) := by
  have hi := C60_implements ⟨true, .p64, true⟩
  refine ⟨[true, false, true, true, true, true, false, false, false, true, true], ?_, ?_⟩
  · obtain ⟨s', e1, e2⟩ := deque_sink.writeAll (fun _ _ => trivial) ([4, 1, 5].flatMap fibWord) (s := []) (l := []) rfl trivial
    rw [encodeAll_eq hi.encodes dequeWrite _ (by decide +kernel), e1, e2]
    decide +kernel
  · obtain ⟨s', e1, e2⟩ := decodeMany_words hi.decodes hi.ends deque_source [2, 2, 1, 5] (by decide +kernel) 0
      (s := [2, 2, 1, 5].flatMap fibWord) rfl
    cases e2
    rw [show [2, 2, 1, 5].flatMap fibWord = [false, true] ++ [true, false, true, true, true, true, false, false, false, true, true]
      by decide +kernel] at e1
    exact e1

theorem decodeMany_prefix {K : Code} {D : Nat → Prop} {word : Nat → List Bool} (hd : DecodesBy K D word) (vs : List Nat)
    (hv : ∀ v ∈ vs, D v) (rest : List Bool) :
    decodeMany K dequeRead vs.length (vs.flatMap word ++ rest) = .ok (.ok (vs.map some), rest) := by
  induction vs with
  | nil => rfl
  | cons v vs ih =>
    rw [List.flatMap_cons, List.append_assoc, List.length_cons, decodeMany,
      SM.bind_run_ok (hd v (hv v List.mem_cons_self) dequeRead _ _ (deque_reads (word v) _)),
      SM.bind_run_ok (ih fun x hx => hv x (List.mem_cons_of_mem _ hx))]
    rfl

/-- C116 needs `v` not to be 1: after one foreign bit a run of ones is never in step, so its end is seen in mid codeword. -/
theorem C116_ones (c : Cfg) (n : Nat) :
    encodeAll (fibonacci c) dequeWrite (List.replicate n 1) [] = .ok (.ok (), List.replicate (2 * n) true) ∧
      decodeMany (fibonacci c) dequeRead n (true :: List.replicate (2 * n) true) = .ok (.ok (List.replicate n (some 1)), [true]) ∧
      (fibonacci c).decode dequeRead [true] = .ok (.error .unexpectedEof, []) := by
  have hi := C60_implements c
  have h1 : fibWord 1 = [true, true] := by decide +kernel
  have hd : ∀ x ∈ List.replicate n 1, FibDom x := by
    intro x hx
    rw [List.eq_of_mem_replicate hx]
    decide +kernel
  have hf : (List.replicate n 1).flatMap fibWord = List.replicate (2 * n) true := by
    induction n with
    | zero => rfl
    | succ n ih =>
      rw [List.replicate_succ, List.flatMap_cons, ih (fun x hx => hd x (List.mem_cons_of_mem _ hx)), h1,
        show 2 * (n + 1) = 2 * n + 1 + 1 by omega, List.replicate_succ, List.replicate_succ]
      rfl
  refine ⟨?_, ?_, ?_⟩
  · obtain ⟨s', e1, e2⟩ := deque_sink.writeAll (fun _ _ => trivial) ((List.replicate n 1).flatMap fibWord) (s := []) (l := []) rfl trivial
    rw [encodeAll_eq hi.encodes dequeWrite _ hd, e1, e2, hf]
    rfl
  · have := decodeMany_prefix hi.decodes _ hd [true]
    rw [hf, List.length_replicate, List.map_replicate] at this
    rw [show true :: List.replicate (2 * n) true = List.replicate (2 * n) true ++ [true] by
      rw [← List.replicate_succ, List.replicate_succ']]
    exact this
  · exact C64_fibonacci c (v := 1) (by decide) (by rw [fib_93]; decide) (isFibWord_iff.2 ⟨by decide, rfl⟩) (p := [true]) (q := [true])
      h1 (by simp) dequeRead (deque_reads [true] []) deque_noBit

/-- Not every code finds its place again: remove the first bit of a stream of Gamma codewords of 2. However long the stream
is, what is decoded is 1, 4, 1, 4, 1, … and never a 2. -/
theorem C116_gamma_counterexample (c : Cfg) (n : Nat) :
    ∃ bits, encodeAll (gamma c) dequeWrite (List.replicate (2 * n + 1) 2) [] = .ok (.ok (), false :: bits) ∧
      decodeMany (gamma c) dequeRead (2 * n + 1) bits =
        .ok (.ok (some 1 :: (List.replicate n [some 4, some 1]).flatten), [false]) := by
  have hi := C62_all c true (C62_gamma_delta c true).1
  have h2 : gammaWord 2 = [false, true, false] := by decide +kernel
  have hd : ∀ x ∈ List.replicate (2 * n + 1) 2, Pos64 x := by
    intro x hx
    rw [List.eq_of_mem_replicate hx]
    decide
  have hf : (List.replicate (2 * n + 1) 2).flatMap gammaWord = false :: ((1 :: (List.replicate n [4, 1]).flatten).flatMap gammaWord ++ [false]) := by
    clear hd
    induction n with
    | zero => decide +kernel
    | succ n ih =>
      rw [show 2 * (n + 1) + 1 = 2 * n + 1 + 1 + 1 by omega, List.replicate_succ', List.replicate_succ', List.flatMap_append, List.flatMap_append, ih,
        List.replicate_succ', List.flatten_append]
      simp only [List.flatMap_append, List.flatMap_cons, List.flatMap_nil, List.append_nil, h2, List.flatten_cons, List.flatten_nil,
        show gammaWord 4 = [false, false, true, false, false] by decide +kernel, show gammaWord 1 = [true] by decide +kernel]
      simp
  refine ⟨(1 :: (List.replicate n [4, 1]).flatten).flatMap gammaWord ++ [false], ?_, ?_⟩
  · obtain ⟨s', e1, e2⟩ := deque_sink.writeAll (fun _ _ => trivial) ((List.replicate (2 * n + 1) 2).flatMap gammaWord) (s := []) (l := []) rfl trivial
    rw [encodeAll_eq hi.encodes dequeWrite _ hd, e1, e2, hf]
    rfl
  · have := decodeMany_prefix hi.decodes (1 :: (List.replicate n [4, 1]).flatten) (by
      intro x hx
      rcases List.mem_cons.1 hx with rfl | hx
      · decide
      · obtain ⟨l, hl, hx⟩ := List.mem_flatten.1 hx
        rw [List.eq_of_mem_replicate hl] at hx
        simp only [List.mem_cons, List.not_mem_nil, or_false] at hx
        rcases hx with rfl | rfl <;> decide) [false]
    rw [List.length_cons, List.length_flatten, List.map_replicate, List.sum_replicate_nat, List.map_cons, List.map_flatten, List.map_replicate] at this
    rw [Nat.mul_comm 2 n]
    exact this

example : ∃ bits, encodeAll (gamma ⟨true, .p32, true⟩) dequeWrite [2, 2, 2] [] = .ok (.ok (), false :: bits) ∧
    decodeMany (gamma ⟨true, .p32, true⟩) dequeRead 3 bits = .ok (.ok [some 1, some 4, some 1], [false]) :=
  C116_gamma_counterexample ⟨true, .p32, true⟩ 1

/-! Each theorem of this file that has hypotheses is applied to concrete data in `Verif/Instances/Resync.lean`. -/

end Succinct
