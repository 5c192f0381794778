import Verif.Props.Parentheses
/-! Property C181: ancestors and lowest common ancestors in trees kept as balanced parentheses. The programs here are not in the crate; they call
those of `Verif.Props.Parentheses`, which call the crate's `get_bit`, `rank` and `select`. -/
namespace Succinct
open Spec

/-- `u` is `v` or an ancestor of it, in a list of parents. -/
inductive Spec.Anc (ps : List (Option Nat)) (u : Nat) : Nat → Prop
  | self : Anc ps u u
  | up {v p : Nat} (h : ps[v]? = some (some p)) (hp : Anc ps u p) : Anc ps u v

/-- The lowest common ancestor: every common ancestor is one of it. -/
def Spec.IsLca (ps : List (Option Nat)) (u v : Nat) : Option Nat → Prop
  | some w => Anc ps w u ∧ Anc ps w v ∧ ∀ x, Anc ps x u → Anc ps x v → Anc ps x w
  | none => ∀ x, Anc ps x u → ¬ Anc ps x v

section
variable (c : Cfg) (r : Rank9 (VB 64))

/-- `u <= v && v < u + size(u)` -/
def bpIsAncestor (u v : Nat) : Res Bool :=
  if u ≤ v then do
    let s ← bpSize c r u
    let e ← addN c 64 u s
    .ok (decide (v < e))
  else .ok false

/-- `while !is_ancestor(u, v) { match parent(u) { None => return None, Some(p) => u = p } } Some(u)` -/
def bpLca (u v : Nat) : Res (Option Nat) := do
  let b ← bpIsAncestor c r u v
  if b then .ok (some u)
  else do
    let p ← bpParent c r u
    match p with
    | none => .ok none
    | some p => bpLca p v
partial_fixpoint
end

namespace Forest

/-- The tree of node `u` has node `v`. -/
def Cov (F : Forest) (u v : Nat) : Prop := ∃ s, F.sizes[u]? = some s ∧ u ≤ v ∧ v < u + s

theorem sizes_le (F : Forest) {u s : Nat} (h : F.sizes[u]? = some s) : 1 ≤ s ∧ u + s ≤ F.size := by
  induction F generalizing u s with
  | nil => simp [sizes] at h
  | cons a b iha ihb =>
    rw [size]
    rw [sizes] at h
    cases u with
    | zero =>
      obtain rfl : 1 + a.size = s := by simpa using h
      omega
    | succ u =>
      by_cases hu : u < a.size
      · rw [at_left _ (sizes_length a) hu] at h
        have := iha h
        omega
      · obtain ⟨k, rfl⟩ : ∃ k, u = a.size + k := ⟨u - a.size, by omega⟩
        rw [at_right _ (sizes_length a)] at h
        have := ihb h
        omega

theorem cov_self (F : Forest) {v : Nat} (hv : v < F.size) : F.Cov v v := by
  have h : F.sizes[v]? = some (F.sizes[v]'(by rw [sizes_length]; exact hv)) := List.getElem?_eq_getElem _
  have := F.sizes_le h
  exact ⟨_, h, Nat.le_refl v, by omega⟩

theorem cov_zero (a b : Forest) (u : Nat) : (cons a b).Cov u 0 ↔ u = 0 :=
  ⟨fun ⟨_, _, h, _⟩ => by omega, fun h => h ▸ cov_self _ (by rw [size]; omega)⟩

theorem cov_left (a b : Forest) {u v : Nat} (hv : v < a.size) : (cons a b).Cov u (v + 1) ↔ u = 0 ∨ ∃ u', u = u' + 1 ∧ a.Cov u' v := by
  unfold Cov
  rw [sizes]
  cases u with
  | zero => exact ⟨fun _ => .inl rfl, fun _ => ⟨_, rfl, by omega, by omega⟩⟩
  | succ u =>
    constructor
    · rintro ⟨s, h1, h2, h3⟩
      rw [at_left _ (sizes_length a) (by omega)] at h1
      exact .inr ⟨u, rfl, s, h1, by omega, by omega⟩
    · rintro (h | ⟨u', e, s, h1, h2, h3⟩)
      · omega
      · obtain rfl : u = u' := by omega
        exact ⟨s, by rw [at_left _ (sizes_length a) (by omega), h1], by omega, by omega⟩

theorem cov_right (a b : Forest) {u k : Nat} : (cons a b).Cov u (a.size + k + 1) ↔ ∃ k', u = a.size + k' + 1 ∧ b.Cov k' k := by
  unfold Cov
  rw [sizes]
  constructor
  · rintro ⟨s, h1, h2, h3⟩
    cases u with
    | zero =>
      obtain rfl : 1 + a.size = s := by simpa using h1
      omega
    | succ u =>
      by_cases hu : u < a.size
      · rw [at_left _ (sizes_length a) hu] at h1
        have := a.sizes_le h1
        omega
      · obtain ⟨k', rfl⟩ : ∃ k, u = a.size + k := ⟨u - a.size, by omega⟩
        rw [at_right _ (sizes_length a)] at h1
        exact ⟨k', rfl, s, h1, by omega, by omega⟩
  · rintro ⟨k', rfl, s, h1, h2, h3⟩
    exact ⟨s, by rw [at_right _ (sizes_length a), h1], by omega, by omega⟩

theorem parents_cov (F : Forest) (n : Nat) (p : Option Nat) {v : Nat} (hv : v < F.size) :
    ((F.parents n p)[v]? = some p ∧ ∀ u, F.Cov u v ↔ u = v) ∨
      ∃ q, q < v ∧ (F.parents n p)[v]? = some (some (n + q)) ∧ ∀ u, F.Cov u v ↔ u = v ∨ F.Cov u q := by
  induction F generalizing n p v with
  | nil => simp [size] at hv
  | cons a b iha ihb =>
    rw [size] at hv
    rw [parents]
    cases v with
    | zero => exact .inl ⟨rfl, cov_zero a b⟩
    | succ v =>
      by_cases hva : v < a.size
      · right
        rw [at_left _ (parents_length ..) hva]
        rcases iha (n + 1) (some n) hva with ⟨h1, h2⟩ | ⟨q, hq, h1, h2⟩
        · refine ⟨0, by omega, h1, fun u => ?_⟩
          rw [cov_left a b hva, cov_zero]
          constructor
          · rintro (h | ⟨u', rfl, h⟩)
            · exact .inr h
            · exact .inl (by rw [(h2 u').1 h])
          · rintro (rfl | h)
            · exact .inr ⟨v, rfl, (h2 v).2 rfl⟩
            · exact .inl h
        · refine ⟨q + 1, by omega, by rw [h1]; congr 2; omega, fun u => ?_⟩
          rw [cov_left a b hva, cov_left a b (by omega)]
          constructor
          · rintro (h | ⟨u', rfl, h⟩)
            · exact .inr (.inl h)
            · rcases (h2 u').1 h with rfl | h
              · exact .inl rfl
              · exact .inr (.inr ⟨u', rfl, h⟩)
          · rintro (rfl | h | ⟨u', rfl, h⟩)
            · exact .inr ⟨v, rfl, (h2 v).2 (.inl rfl)⟩
            · exact .inl h
            · exact .inr ⟨u', rfl, (h2 u').2 (.inr h)⟩
      · obtain ⟨k, rfl⟩ : ∃ k, v = a.size + k := ⟨v - a.size, by omega⟩
        rw [at_right _ (parents_length ..)]
        rcases ihb (n + 1 + a.size) p (v := k) (by omega) with ⟨h1, h2⟩ | ⟨q, hq, h1, h2⟩
        · refine .inl ⟨h1, fun u => ?_⟩
          rw [cov_right]
          constructor
          · rintro ⟨k', rfl, h⟩
            rw [(h2 k').1 h]
          · rintro rfl
            exact ⟨k, rfl, (h2 k).2 rfl⟩
        · refine .inr ⟨a.size + q + 1, by omega, by rw [h1]; congr 2; omega, fun u => ?_⟩
          rw [cov_right, cov_right]
          constructor
          · rintro ⟨k', rfl, h⟩
            rcases (h2 k').1 h with rfl | h
            · exact .inl rfl
            · exact .inr ⟨k', rfl, h⟩
          · rintro (rfl | ⟨k', rfl, h⟩)
            · exact ⟨k, rfl, (h2 k).2 (.inl rfl)⟩
            · exact ⟨k', rfl, (h2 k').2 (.inr h)⟩

/-- The tree of `u` has exactly the nodes of which `u` is an ancestor. -/
theorem anc_cov (F : Forest) {u v : Nat} (hv : v < F.size) : Anc (F.parents 0 none) u v ↔ F.Cov u v := by
  induction v using Nat.strongRecOn with
  | ind v ih =>
    rcases F.parents_cov 0 none hv with ⟨h1, h2⟩ | ⟨q, hq, h1, h2⟩
    · rw [h2]
      constructor
      · intro h
        cases h with
        | self => rfl
        | up h _ =>
          rw [h1] at h
          cases h
      · rintro rfl
        exact .self
    · rw [Nat.zero_add] at h1
      rw [h2, ← ih q hq (by omega)]
      constructor
      · intro h
        cases h with
        | self => exact .inl rfl
        | up h hp =>
          rw [h1] at h
          cases h
          exact .inr hp
      · rintro (rfl | h)
        · exact .self
        · exact .up h1 h

end Forest

/-- C181: in a forest written as parentheses under `Rank9`, the programs tell for any two nodes whether the first is the second or an ancestor of it,
and find their lowest common ancestor, or that there is none. -/
theorem C181_ancestors (c : Cfg) (F : Forest) (hf : Fits c.usz 64 (2 * F.size)) (hu : blocksFor 64 (2 * F.size) + 8 < 2 ^ c.usz) :
    ∃ r, bpNew c F = .ok r ∧ ∀ u v, u < F.size → v < F.size →
      (∃ b, bpIsAncestor c r u v = .ok b ∧ (b = true ↔ Anc (F.parents 0 none) u v)) ∧
      ∃ w, bpLca c r u v = .ok w ∧ IsLca (F.parents 0 none) u v w := by
  obtain ⟨r, e, -, hr⟩ := C169_parentheses c F hf hu
  have h64 := hf.lt (by decide)
  have isAnc : ∀ u v, u < F.size → v < F.size → ∃ b, bpIsAncestor c r u v = .ok b ∧ (b = true ↔ Anc (F.parents 0 none) u v) := by
    intro u v hu hv
    obtain ⟨s, e1, h1⟩ := (hr u hu).2.1
    have hs := F.sizes_le h1
    rw [F.anc_cov hv, bpIsAncestor]
    by_cases huv : u ≤ v
    · rw [if_pos huv, e1, Res.ok_bind, addN_ok (by omega), Res.ok_bind]
      refine ⟨_, rfl, ?_⟩
      rw [decide_eq_true_iff]
      refine ⟨fun h => ⟨s, h1, huv, h⟩, fun ⟨s', h2, _, h3⟩ => ?_⟩
      rw [h1] at h2
      cases h2
      exact h3
    · rw [if_neg huv]
      exact ⟨false, rfl, by simp, fun ⟨_, _, h, _⟩ => absurd h huv⟩
  refine ⟨r, e, fun u v hu hv => ⟨isAnc u v hu hv, ?_⟩⟩
  have lca : ∀ x, x < F.size → Anc (F.parents 0 none) x u → (∀ y, Anc (F.parents 0 none) y u → Anc (F.parents 0 none) y v → Anc (F.parents 0 none) y x) →
      ∃ w, bpLca c r x v = .ok w ∧ IsLca (F.parents 0 none) u v w := by
    intro x
    induction x using Nat.strongRecOn with
    | ind x ih =>
      intro hx hxu hall
      obtain ⟨b, e1, hb⟩ := isAnc x v hx hv
      obtain ⟨p, e2, h2⟩ := (hr x hx).2.2.1
      rw [bpLca, e1, Res.ok_bind]
      by_cases hbt : b = true
      · rw [if_pos hbt]
        exact ⟨some x, rfl, hxu, hb.1 hbt, hall⟩
      · rw [if_neg hbt, e2, Res.ok_bind]
        have hne : ∀ y, Anc (F.parents 0 none) y v → y ≠ x := by
          rintro y h rfl
          exact hbt (hb.2 h)
        rcases F.parents_cov 0 none hx with ⟨h3, -⟩ | ⟨q, hq, h3, -⟩
        · rw [h2] at h3
          cases h3
          refine ⟨none, rfl, fun y hyu hyv => ?_⟩
          cases hall y hyu hyv with
          | self => exact hne _ hyv rfl
          | up h _ =>
            rw [h2] at h
            cases h
        · rw [Nat.zero_add] at h3
          rw [h2] at h3
          cases h3
          refine ih q hq (by omega) ?_ fun y hyu hyv => ?_
          · clear hall ih
            have : ∀ z, Anc (F.parents 0 none) x z → Anc (F.parents 0 none) q z := fun z hz => by
              induction hz with
              | self => exact .up h2 .self
              | up h _ ih => exact .up h ih
            exact this u hxu
          · cases hall y hyu hyv with
            | self => exact absurd rfl (hne _ hyv)
            | up h hp =>
              rw [h2] at h
              cases h
              exact hp
  exact lca u hu .self fun y hyu _ => hyu

/-- C181: there is at most one lowest common ancestor. -/
theorem C181_unique (F : Forest) {u v : Nat} (hu : u < F.size) {w w' : Option Nat} (h : IsLca (F.parents 0 none) u v w)
    (h' : IsLca (F.parents 0 none) u v w') : w = w' := by
  rcases w with _ | w <;> rcases w' with _ | w'
  · rfl
  · exact absurd h'.2.1 (h w' h'.1)
  · exact absurd h.2.1 (h' w h.1)
  · have lt : ∀ x, Anc (F.parents 0 none) x u → x < F.size := fun x hx => by
      obtain ⟨_, _, hle, _⟩ := (F.anc_cov hu).1 hx
      omega
    obtain ⟨_, _, h1, _⟩ := (F.anc_cov (lt w' h'.1)).1 (h'.2.2 w h.1 h.2.1)
    obtain ⟨_, _, h2, _⟩ := (F.anc_cov (lt w h.1)).1 (h.2.2 w' h'.1 h'.2.1)
    exact congrArg some (by omega)

/-! Each theorem of this file that has hypotheses is applied to concrete data in `Verif/Instances/Ancestors.lean`. -/

end Succinct
