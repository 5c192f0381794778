import Verif.Props.Recover
/-!
C140: after a lost or a changed bit, `Gamma`, `Delta` and `Omega` may never find their place again. (`Unary`, `Comma` and
`Fibonacci` do: C131, C116.)
-/
namespace Succinct
open Spec

/-- A stream whose first bit is removed falls into other words, and some bits `t` that are left over. -/
theorem slips {word : Nat → List Bool} {W V t : List Bool} {x : Bool} {as bs : List Nat}
    (h1 : W = x :: (as.flatMap word ++ t)) (h2 : t ++ V = bs.flatMap word ++ t) (n : Nat) :
    W ++ (List.replicate n V).flatten = x :: ((as ++ (List.replicate n bs).flatten).flatMap word ++ t) := by
  induction n with
  | zero => simp [h1]
  | succ n ih =>
    rw [List.replicate_succ', List.flatten_append, List.flatten_singleton, ← List.append_assoc, ih, List.replicate_succ',
      List.flatten_append, List.flatten_singleton]
    simp [h2]

/-- What is decoded then; also if the first bit is changed instead of removed. -/
theorem slips_decode {K : Code} {word : Nat → List Bool} (hi : Implements K Pos64 word) {v a : Nat} {us : List Nat} {m : Nat}
    {t : List Bool} {x : Bool} (hv : Pos64 v) (ha : Pos64 a) (hus : ∀ u ∈ us, Pos64 u) (hflip : word a = [!x])
    (hw : (List.replicate m v).flatMap word = x :: (us.flatMap word ++ t)) :
    ∃ bits, encodeAll K dequeWrite (List.replicate m v) [] = .ok (.ok (), x :: bits) ∧
      decodeMany K dequeRead us.length bits = .ok (.ok (us.map some), t) ∧
      decodeMany K dequeRead (us.length + 1) ((!x) :: bits) = .ok (.ok (some a :: us.map some), t) := by
  refine ⟨us.flatMap word ++ t, ?_, decodeMany_prefix hi.decodes us hus t, ?_⟩
  · obtain ⟨s', e1, e2⟩ := deque_sink.writeAll (fun _ _ => trivial) ((List.replicate m v).flatMap word) (s := []) (l := []) rfl trivial
    rw [encodeAll_eq hi.encodes dequeWrite _ (fun x hx => by rw [List.eq_of_mem_replicate hx]; exact hv), e1, e2, hw]
    rfl
  · have := decodeMany_prefix hi.decodes (a :: us) (by
      intro u hu
      rcases List.mem_cons.1 hu with rfl | hu
      · exact ha
      · exact hus u hu) t
    rw [List.flatMap_cons, hflip] at this
    simpa using this

/-! ### The words -/

theorem gammaWord_of {m lo : Nat} (h : lo < 2 ^ m) : gammaWord (2 ^ m + lo) = List.replicate m false ++ true :: natBits m lo := by
  have hp := Nat.two_pow_pos m
  have hl : (2 ^ m + lo).log2 = m := (Nat.log2_eq_iff (by omega)).2 ⟨by omega, by rw [Nat.pow_succ]; omega⟩
  unfold gammaWord eliasWord
  rw [hl]
  have : natBits m (2 ^ m + lo) = natBits m lo := by
    unfold natBits
    refine List.map_congr_left fun i hi => ?_
    rw [Nat.testBit_two_pow_add_gt (List.mem_range.1 hi)]
  simp [unaryWord, this]

theorem natBits_snoc {m lo : Nat} (h : lo < 2 ^ m) : natBits (m + 1) lo = natBits m lo ++ [false] := by
  simp [natBits, List.range_succ, Nat.testBit_lt_two_pow h]

/-- **C140**, `Gamma`: write `2n + 1` copies of any value in the lower half of its size, that is `2^(m+1) + lo` with `lo < 2^m`,
and remove the first bit. However many copies there are, what is decoded is `2^m + lo` and `2^(m+2) + lo` in turn, and
never the value written. If the first bit is changed instead, the same follows after a 1. -/
theorem C140_gamma (c : Cfg) (n : Nat) {m lo : Nat} (hm : m ≤ 61) (hlo : lo < 2 ^ m) :
    let us := (2 ^ m + lo) :: (List.replicate n [2 ^ (m + 2) + lo, 2 ^ m + lo]).flatten
    ∃ bits, encodeAll (gamma c) dequeWrite (List.replicate (2 * n + 1) (2 ^ (m + 1) + lo)) [] = .ok (.ok (), false :: bits) ∧
      decodeMany (gamma c) dequeRead (2 * n + 1) bits = .ok (.ok (us.map some), [false]) ∧
      decodeMany (gamma c) dequeRead (2 * n + 2) (true :: bits) = .ok (.ok (some 1 :: us.map some), [false]) := by
  intro us
  have hp := Nat.two_pow_pos m
  have hm1 : 2 ^ (m + 1) ≤ 2 ^ 62 := Nat.pow_le_pow_right (by omega) (by omega)
  have hm2 : 2 ^ (m + 2) ≤ 2 ^ 63 := Nat.pow_le_pow_right (by omega) (by omega)
  have e1 : 2 ^ (m + 1) = 2 * 2 ^ m := by rw [Nat.pow_succ]; omega
  have e2 : 2 ^ (m + 2) = 4 * 2 ^ m := by rw [Nat.pow_succ, Nat.pow_succ]; omega
  have w0 : gammaWord (2 ^ m + lo) = List.replicate m false ++ true :: natBits m lo := gammaWord_of hlo
  have w1 : gammaWord (2 ^ (m + 1) + lo) = false :: (gammaWord (2 ^ m + lo) ++ [false]) := by
    rw [gammaWord_of (by omega), natBits_snoc hlo, w0, List.replicate_succ]
    simp
  have w2 : gammaWord (2 ^ (m + 2) + lo) = false :: (gammaWord (2 ^ (m + 1) + lo) ++ [false]) := by
    rw [gammaWord_of (by omega), natBits_snoc (show lo < 2 ^ (m + 1) by omega), gammaWord_of (show lo < 2 ^ (m + 1) by omega),
      List.replicate_succ]
    simp
  have hs := slips (word := gammaWord) (W := gammaWord (2 ^ (m + 1) + lo))
    (V := gammaWord (2 ^ (m + 1) + lo) ++ gammaWord (2 ^ (m + 1) + lo)) (t := [false]) (x := false) (as := [2 ^ m + lo])
    (bs := [2 ^ (m + 2) + lo, 2 ^ m + lo]) (by simpa using w1) (by
      simp only [List.flatMap_cons, List.flatMap_nil, w2, List.append_nil]
      conv => lhs; rhs; rhs; rw [w1]
      simp) n
  have hlen : us.length = 2 * n + 1 := by simp [us]; omega
  have hd := slips_decode (C56_gamma c) (v := 2 ^ (m + 1) + lo) (a := 1) (us := us) (m := 2 * n + 1) ⟨by omega, by omega⟩
    (by decide) (by
      intro u hu
      simp [us] at hu
      rcases hu with rfl | ⟨_, ⟨-, rfl⟩, hu⟩
      · exact ⟨by omega, by omega⟩
      · simp at hu
        rcases hu with rfl | rfl <;> exact ⟨by omega, by omega⟩) (by decide +kernel)
    (x := false) (t := [false]) (by
      refine Eq.trans ?_ hs
      rw [List.replicate_succ, List.flatMap_cons]
      congr 1
      clear hs hlen
      clear us
      induction n with
      | zero => rfl
      | succ n ih =>
        rw [show 2 * (n + 1) = 2 * n + 1 + 1 by omega, List.replicate_succ, List.replicate_succ, List.flatMap_cons, List.flatMap_cons, ih,
          List.replicate_succ, List.flatten_cons]
        simp)
  rw [hlen] at hd
  exact hd

/-- **C140**, `Delta`: remove the first bit of a stream of words of 12. However long the stream is, what is decoded is 2 and
then 9, 9, 9, … -/
theorem C140_delta (c : Cfg) (n : Nat) :
    ∃ bits, encodeAll (delta c) dequeWrite (List.replicate (n + 1) 12) [] = .ok (.ok (), false :: bits) ∧
      decodeMany (delta c) dequeRead (n + 1) bits = .ok (.ok (some 2 :: List.replicate n (some 9)), [false, false, true]) ∧
      decodeMany (delta c) dequeRead (n + 2) (true :: bits) =
        .ok (.ok (some 1 :: some 2 :: List.replicate n (some 9)), [false, false, true]) := by
  have w : deltaWord 12 = [false, false, true, false, false, false, false, true] := by decide +kernel
  have w2 : deltaWord 2 = [false, true, false, false] := by decide +kernel
  have w9 : deltaWord 9 = [false, false, true, false, false, true, false, false] := by decide +kernel
  have hs := slips (word := deltaWord) (W := deltaWord 12) (V := deltaWord 12) (t := [false, false, true]) (x := false) (as := [2]) (bs := [9])
    (by rw [w]; simp [w2]) (by rw [w]; simp [w9]) n
  have hd := slips_decode (C57_delta c) (v := 12) (a := 1) (us := [2] ++ (List.replicate n [9]).flatten) (m := n + 1) (by decide)
    (by decide) (by intro u hu; simp at hu; rcases hu with rfl | ⟨-, rfl⟩ <;> decide) (by decide +kernel)
    (x := false) (t := [false, false, true]) (by rw [← hs, List.replicate_succ, List.flatMap_cons, List.flatMap_replicate])
  simpa using hd

/-- **C140**, `Omega`: remove the first bit of a stream of words of 9. However long the stream is, what is decoded is 3 and
then 1, 7, 1, 7, … -/
theorem C140_omega (c : Cfg) (n : Nat) :
    let us := 3 :: (List.replicate n [1, 7]).flatten
    ∃ bits, encodeAll (omegaCode c) dequeWrite (List.replicate (n + 1) 9) [] = .ok (.ok (), true :: bits) ∧
      decodeMany (omegaCode c) dequeRead (2 * n + 1) bits = .ok (.ok (us.map some), [false, true, false]) ∧
      decodeMany (omegaCode c) dequeRead (2 * n + 2) (false :: bits) = .ok (.ok (some 1 :: us.map some), [false, true, false]) := by
  intro us
  have w : omegaWord 9 = [true, true, true, false, false, true, false] := by decide +kernel
  have w1 : omegaWord 1 = [false] := by decide +kernel
  have w3 : omegaWord 3 = [true, true, false] := by decide +kernel
  have w7 : omegaWord 7 = [true, false, true, true, true, false] := by decide +kernel
  have hs := slips (word := omegaWord) (W := omegaWord 9) (V := omegaWord 9) (t := [false, true, false]) (x := true) (as := [3])
    (bs := [1, 7]) (by rw [w]; simp [w3]) (by rw [w]; simp [w1, w7]) n
  have hlen : us.length = 2 * n + 1 := by simp [us]; omega
  have hd := slips_decode (C58_omega c) (v := 9) (a := 1) (us := us) (m := n + 1) (by decide)
    (by decide) (by
      intro u hu
      simp [us] at hu
      rcases hu with rfl | ⟨_, ⟨-, rfl⟩, hu⟩
      · decide
      · simp at hu
        rcases hu with rfl | rfl <;> decide) w1
    (x := true) (t := [false, true, false]) (by
      refine Eq.trans ?_ hs
      rw [List.replicate_succ, List.flatMap_cons, List.flatMap_replicate])
  rw [hlen] at hd
  exact hd

example : ∃ bits, encodeAll (gamma ⟨true, .p64, true⟩) dequeWrite [2, 2, 2] [] = .ok (.ok (), false :: bits) ∧
    decodeMany (gamma ⟨true, .p64, true⟩) dequeRead 3 bits = .ok (.ok [some 1, some 4, some 1], [false]) ∧
    decodeMany (gamma ⟨true, .p64, true⟩) dequeRead 4 (true :: bits) = .ok (.ok [some 1, some 1, some 4, some 1], [false]) :=
  C140_gamma ⟨true, .p64, true⟩ 1 (m := 0) (lo := 0) (by decide) (by decide)

example : ∃ bits, encodeAll (delta ⟨true, .p32, true⟩) dequeWrite [12, 12] [] = .ok (.ok (), false :: bits) ∧
    decodeMany (delta ⟨true, .p32, true⟩) dequeRead 2 bits = .ok (.ok [some 2, some 9], [false, false, true]) ∧
    decodeMany (delta ⟨true, .p32, true⟩) dequeRead 3 (true :: bits) = .ok (.ok [some 1, some 2, some 9], [false, false, true]) :=
  C140_delta ⟨true, .p32, true⟩ 1

example : ∃ bits, encodeAll (omegaCode ⟨false, .p32, false⟩) dequeWrite [9, 9] [] = .ok (.ok (), true :: bits) ∧
    decodeMany (omegaCode ⟨false, .p32, false⟩) dequeRead 3 bits = .ok (.ok [some 3, some 1, some 7], [false, true, false]) ∧
    decodeMany (omegaCode ⟨false, .p32, false⟩) dequeRead 4 (false :: bits) =
      .ok (.ok [some 1, some 3, some 1, some 7], [false, true, false]) :=
  C140_omega ⟨false, .p32, false⟩ 1

/-! Each theorem of this file that has hypotheses is applied to concrete data in `Verif/Instances/NoRecover.lean`. -/

end Succinct
