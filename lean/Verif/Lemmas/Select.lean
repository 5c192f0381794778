import Verif.RankLaw
import Verif.Model.Select
import Verif.Lemmas.Rank
/-! Binary search and select. -/
namespace Succinct
open Spec

theorem and_one_mod (x : Nat) : x &&& 1 = x % 2 := Nat.and_one_is_mod x

theorem average_ok (c : Cfg) {bits x y : Nat} (hb : 2 ≤ bits) (hx : x < 2 ^ bits) (hy : y < 2 ^ bits) :
    average c bits x y = .ok ((x + y) / 2) := by
  have h4 : 4 ≤ 2 ^ bits := Nat.pow_le_pow_right (n := 2) (by decide) hb
  unfold average
  rw [shrN_ok (by omega), Res.ok_bind, shrN_ok (by omega), Res.ok_bind, and_one_mod, and_one_mod]
  simp only [Nat.pow_one]
  rw [addN_ok (by omega), Res.ok_bind, addN_ok (by omega), Res.ok_bind, shrN_ok (by omega), Res.ok_bind]
  simp only [Nat.pow_one]
  rw [addN_ok (by omega)]
  congr 1
  omega

theorem searchLoop_ok (c : Cfg) {bits value : Nat} {f : Nat → Res Nat} {g : Nat → Nat} (hb : 2 ≤ bits)
    {start limit : Nat} (h0 : 0 < start) (hl : limit < 2 ^ bits) (hf : ∀ i, start - 1 ≤ i → i < limit → f i = .ok (g i))
    (hg : ∀ i j, start ≤ i → i ≤ j → j < limit → g i ≤ g j) (hv : g (start - 1) < value) :
    ∃ r, searchLoop c bits f value start limit = .ok r ∧ FirstIn start limit (fun d => value ≤ g d) r := by
  generalize hm : limit - start = m
  induction m using Nat.strongRecOn generalizing start limit with
  | ind m ih =>
  rw [searchLoop.eq_def]
  by_cases hsl : start < limit
  · rw [if_pos hsl, average_ok c hb (by omega) hl, Res.ok_bind, hf _ (by omega) (by omega), Res.ok_bind]
    split
    · rename_i hvy
      rw [subN_ok (by omega), Res.ok_bind, hf _ (by omega) (by omega), Res.ok_bind]
      split
      · rename_i hz
        refine ⟨_, rfl, by omega, by omega, hvy, fun e he1 he2 hve => ?_⟩
        have := hg e ((start + limit) / 2 - 1) he1 (by omega) (by omega)
        omega
      · rename_i hz
        have hz' : (start + limit) / 2 - 1 ≠ start - 1 := by
          intro he; rw [he] at hz; omega
        obtain ⟨r, h1, h2⟩ := ih ((start + limit) / 2 - start) (by omega) h0 (by omega)
          (fun i h1 h2 => hf i h1 (by omega)) (fun i j h1 h2 h3 => hg i j h1 h2 (by omega)) hv rfl
        refine ⟨r, h1, ?_⟩
        cases r with
        | some d => exact ⟨h2.1, by have := h2.2.1; omega, h2.2.2⟩
        | none => exact absurd (show value ≤ g ((start + limit) / 2 - 1) by omega) (h2 _ (by omega) (by omega))
    · rename_i hvy
      rw [addN_ok (by omega), Res.ok_bind]
      obtain ⟨r, h1, h2⟩ := ih (limit - ((start + limit) / 2 + 1)) (by omega) (start := (start + limit) / 2 + 1) (by omega) hl
        (fun i h1 h2 => hf i (by omega) h2) (fun i j h1 h2 h3 => hg i j (by omega) h2 h3) (by rw [Nat.add_sub_cancel]; omega) rfl
      refine ⟨r, h1, ?_⟩
      have hlow : ∀ e, start ≤ e → e < (start + limit) / 2 + 1 → ¬ value ≤ g e := by
        intro e he1 he2 hve
        have := hg e ((start + limit) / 2) he1 (by omega) (by omega)
        omega
      cases r with
      | some d =>
        refine ⟨by have := h2.1; omega, h2.2.1, h2.2.2.1, fun e he1 he2 => ?_⟩
        rcases Nat.lt_or_ge e ((start + limit) / 2 + 1) with h | h
        · exact hlow e he1 h
        · exact h2.2.2.2 e h he2
      | none =>
        intro e he1 he2
        rcases Nat.lt_or_ge e ((start + limit) / 2 + 1) with h | h
        · exact hlow e he1 h
        · exact h2 e h he2
  · rw [if_neg hsl]
    exact ⟨none, rfl, fun e he1 he2 => by omega⟩

end Succinct
