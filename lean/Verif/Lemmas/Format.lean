import Verif.Model.Format
import Verif.Lemmas.Iter
/-! Lemmas about formatted text: numbers and lists can be read back. -/
namespace Succinct
open Spec

/-! ### Numbers -/

/-- Text that does not begin with a digit. -/
def NoDigit (l : List Char) : Prop := ∀ c r, l = c :: r → c.isDigit = false

theorem digits_delim {n m : Nat} {r r' : List Char} (hr : NoDigit r) (hr' : NoDigit r')
    (h : Nat.toDigits 10 n ++ r = Nat.toDigits 10 m ++ r') : n = m ∧ r = r' := by
  have key : ∀ a b : List Char, (∀ c ∈ a, c.isDigit) → (∀ c ∈ b, c.isDigit) → a ++ r = b ++ r' → a = b := by
    intro a
    induction a with
    | nil =>
      intro b _ hb e
      cases b with
      | nil => rfl
      | cons d b =>
        have := hr d (b ++ r') (by simpa using e)
        rw [hb d (by simp)] at this; cases this
    | cons d a ih =>
      intro b ha hb e
      cases b with
      | nil =>
        have := hr' d (a ++ r) (by simpa using e.symm)
        rw [ha d (by simp)] at this; cases this
      | cons d' b =>
        simp only [List.cons_append, List.cons.injEq] at e
        rw [e.1, ih b (fun c hc => ha c (by simp [hc])) (fun c hc => hb c (by simp [hc])) e.2]
  have e := key _ _ (fun c hc => Nat.isDigit_of_mem_toDigits (by decide) (by decide) hc)
    (fun c hc => Nat.isDigit_of_mem_toDigits (by decide) (by decide) hc) h
  refine ⟨?_, by rw [e] at h; exact List.append_cancel_left h⟩
  have := congrArg (fun l => Nat.ofDigitChars 10 l 0) e
  simpa using this

theorem noDigit_cons {c : Char} {r : List Char} (h : c.isDigit = false) : NoDigit (c :: r) := by
  rintro c' r' e
  cases e; exact h

/-! ### Self-delimiting text -/

/-- `f a`, wherever it is followed by text that satisfies `F`, tells `a` and where it ends. -/
def Delimits (F : List Char → Prop) (f : α → String) : Prop :=
  ∀ a b r r', F r → F r' → (f a).toList ++ r = (f b).toList ++ r' → a = b ∧ r = r'

theorem delimits_repr : Delimits NoDigit Nat.repr := by
  intro n m r r' hr hr' h
  rw [Nat.toList_repr, Nat.toList_repr] at h
  exact digits_delim hr hr' h

/-- What follows an item of a list. -/
def ListEnd (l : List Char) : Prop := (∃ r, l = ',' :: r) ∨ ∃ r, l = ']' :: r

theorem ListEnd.noDigit {l : List Char} (h : ListEnd l) : NoDigit l := by
  rcases h with ⟨r, rfl⟩ | ⟨r, rfl⟩ <;> exact noDigit_cons (by decide)

/-- The items of a list from the second on, and the closing bracket. -/
def listTail (f : α → String) : List α → List Char
  | [] => [']']
  | x :: xs => ',' :: ' ' :: (f x).toList ++ listTail f xs

theorem debugList_cons (f : α → String) (x : α) (xs : List α) :
    (debugList ((x :: xs).map f)).toList = '[' :: (f x).toList ++ listTail f xs := by
  have key : ∀ xs (x : α), (", ".intercalate ((x :: xs).map f)).toList ++ [']'] = (f x).toList ++ listTail f xs := by
    intro xs
    induction xs with
    | nil => intro x; simp [listTail]
    | cons y ys ih =>
      intro x
      have := ih y
      rw [List.map_cons, List.map_cons, String.intercalate_cons_cons, ← List.map_cons, String.toList_append, String.toList_append,
        List.append_assoc, this]
      simp [listTail]
  unfold debugList
  rw [String.toList_append, String.toList_append, List.append_assoc]
  show _ ++ (_ ++ [']']) = _
  rw [key]; rfl

theorem listTail_end (f : α → String) (xs : List α) (r : List Char) : ListEnd (listTail f xs ++ r) := by
  cases xs with
  | nil => exact .inr ⟨r, rfl⟩
  | cons x xs => exact .inl ⟨_, rfl⟩

theorem delimits_listTail {f : α → String} (hf : Delimits ListEnd f) (xs : List α) :
    ∀ ys r r', listTail f xs ++ r = listTail f ys ++ r' → xs = ys ∧ r = r' := by
  induction xs with
  | nil =>
    intro ys r r' h
    cases ys with
    | nil => exact ⟨rfl, by simpa [listTail] using h⟩
    | cons y ys => simp [listTail] at h
  | cons x xs ih =>
    intro ys r r' h
    cases ys with
    | nil => simp [listTail] at h
    | cons y ys =>
      simp only [listTail, List.cons_append, List.cons.injEq, true_and, List.append_assoc] at h
      obtain ⟨rfl, e⟩ := hf _ _ _ _ (listTail_end _ _ _) (listTail_end _ _ _) h
      obtain ⟨rfl, e2⟩ := ih _ _ _ e
      exact ⟨rfl, e2⟩

/-- Lists of items that do not begin with a closing bracket. -/
theorem delimits_list {f : α → String} (hf : Delimits ListEnd f) (h0 : ∀ a r, (f a).toList ≠ ']' :: r) (hne : ∀ a, (f a).toList ≠ []) :
    Delimits (fun _ => True) (fun xs : List α => debugList (xs.map f)) := by
  have hnil : (debugList (([] : List α).map f)).toList = ['[', ']'] := by simp [debugList]
  have hx : ∀ x xs r r', '[' :: ']' :: r ≠ '[' :: (f x).toList ++ listTail f xs ++ r' := by
    intro x xs r r' h
    have h1 := hne x
    have h2 := h0 x
    cases e : (f x).toList with
    | nil => exact h1 e
    | cons d l =>
      rw [e] at h
      simp at h
      exact h2 l (by rw [e, h.1])
  intro xs ys r r' _ _ h
  simp only at h
  cases xs with
  | nil =>
    cases ys with
    | nil => exact ⟨rfl, by simpa [hnil] using h⟩
    | cons y ys =>
      rw [hnil, debugList_cons] at h
      exact absurd h (hx y ys r r')
  | cons x xs =>
    cases ys with
    | nil =>
      rw [hnil, debugList_cons] at h
      exact absurd h.symm (hx x xs r' r)
    | cons y ys =>
      rw [debugList_cons, debugList_cons] at h
      simp only [List.cons_append, List.cons.injEq, true_and, List.append_assoc] at h
      obtain ⟨rfl, e⟩ := hf _ _ _ _ (listTail_end _ _ _) (listTail_end _ _ _) h
      obtain ⟨rfl, e2⟩ := delimits_listTail hf _ _ _ _ e
      exact ⟨rfl, e2⟩

/-! ### Writing -/

theorem FmtSink.write_append (K : FmtSink σ) (ps qs : List String) (t : σ) :
    K.write (ps ++ qs) t = (K.write ps t >>= fun r => if r.1 then K.write qs r.2 else .ok (false, r.2)) := by
  induction ps generalizing t with
  | nil => rfl
  | cons x ps ih =>
    show (K.writeStr x t >>= _) = (K.writeStr x t >>= _) >>= _
    cases K.writeStr x t with
    | ok r =>
      obtain ⟨ok, t'⟩ := r
      cases ok
      · rfl
      · exact ih t'
    | panic => rfl
    | diverge => rfl

theorem tryEach_write {K : FmtSink σ} (h : ItBase c w k it all) (hb : IsBlk w) (t : σ)
    (g : BitVec w → σ → Res (Bool × σ)) (p : Nat → List String) (hg : ∀ x t, g x t = K.write (p x.toNat) t) :
    it.tryEach c t g = K.write ((ItBase.left it all).flatMap p) t := by
  generalize hn : (ItBase.left it all).length = n
  induction n generalizing it t with
  | zero =>
    have hnil := List.length_eq_zero_iff.1 hn
    obtain ⟨o, it', h1, h2, h3, h4, -⟩ := h.next_eq hb
    rw [VIter.tryEach, h1, Res.ok_bind]
    rw [hnil] at h2 ⊢
    obtain rfl : o = none := by simpa using h2
    rfl
  | succ n ih =>
    obtain ⟨x, xs, hx⟩ := List.exists_cons_of_length_eq_add_one hn
    obtain ⟨o, it', h1, h2, h3, h4, -⟩ := h.next_eq hb
    rw [VIter.tryEach, h1, Res.ok_bind]
    rw [hx] at h2 h4 ⊢
    obtain ⟨y, rfl, hy⟩ : ∃ y, o = some y ∧ y.toNat = x := by
      cases o with
      | none => simp at h2
      | some y => exact ⟨y, rfl, by simpa using h2⟩
    simp only [hg]
    rw [List.flatMap_cons, K.write_append, hy]
    cases hw : K.write (p x) t with
    | ok r =>
      obtain ⟨ok, t'⟩ := r
      cases ok
      · rfl
      · show it'.tryEach c t' g = K.write (xs.flatMap p) t'
        rw [ih h3 t' (by rw [h4]; rw [hx] at hn; simpa using hn), h4]; rfl
    | panic => rfl
    | diverge => rfl

end Succinct
