import Verif.Lemmas.Format
import Verif.Props.Iter
import Verif.Props.Rank
/-! C110 and C111: formatting with a formatter that fails, and what formatted text tells about a value. -/
namespace Succinct
open Spec

/-! ### C110: errors of the formatter -/

/-- The formatter takes these strings, one after the other, and ends in the given state. -/
inductive Accepts (K : FmtSink σ) : σ → List String → σ → Prop
  | nil : Accepts K t [] t
  | cons : K.writeStr p t = .ok (true, t1) → Accepts K t1 ps t2 → Accepts K t (p :: ps) t2

/-- `res` is what comes of offering the strings `ps` one by one, up to and including the first that is not taken: `Ok` if all are
taken, and otherwise the error, panic or endless loop of that one. -/
def Offers (K : FmtSink σ) (t : σ) (ps : List String) (res : Res (Bool × σ)) : Prop :=
  (∀ t', res = .ok (true, t') ↔ Accepts K t ps t') ∧
  ∀ x, (∀ t', x ≠ .ok (true, t')) → (res = x ↔ ∃ pre p post t1, ps = pre ++ p :: post ∧ Accepts K t pre t1 ∧ K.writeStr p t1 = x)

theorem write_offers (K : FmtSink σ) (ps : List String) : ∀ t, Offers K t ps (K.write ps t) := by
  induction ps with
  | nil =>
    intro t
    refine ⟨fun t' => ⟨fun h => ?_, fun h => ?_⟩, fun x hx => ⟨fun h => ?_, fun h => ?_⟩⟩
    · cases h; exact .nil
    · cases h; rfl
    · exact absurd h.symm (hx t)
    · obtain ⟨pre, p, post, t1, e, -⟩ := h; simp at e
  | cons q ps ih =>
    intro t
    have hw : K.write (q :: ps) t = (K.writeStr q t >>= fun r => if r.1 then K.write ps r.2 else .ok (false, r.2)) := rfl
    by_cases hq : ∃ t0, K.writeStr q t = .ok (true, t0)
    · obtain ⟨t0, hq⟩ := hq
      rw [hw, hq]
      obtain ⟨h1, h2⟩ := ih t0
      refine ⟨fun t' => ⟨fun h => .cons hq ((h1 t').1 h), fun h => ?_⟩, fun x hx => ⟨fun h => ?_, fun h => (h2 x hx).2 ?_⟩⟩
      · cases h with
        | cons hx ha => rw [hq] at hx; cases hx; exact (h1 t').2 ha
      · obtain ⟨pre, p, post, t1, rfl, ha, hp⟩ := (h2 x hx).1 h
        exact ⟨q :: pre, p, post, t1, rfl, .cons hq ha, hp⟩
      · obtain ⟨pre, p, post, t1, e, ha, hp⟩ := h
        cases pre with
        | nil =>
          cases ha
          cases e
          exact absurd (hp.symm.trans hq) (hx _)
        | cons y pre =>
          cases e
          cases ha with
          | cons hy ha =>
            rw [hq] at hy
            cases hy
            exact ⟨pre, p, post, t1, rfl, ha, hp⟩
    · have e : K.write (q :: ps) t = K.writeStr q t := by
        rw [hw]
        cases hq' : K.writeStr q t with
        | ok r =>
          obtain ⟨ok, t0⟩ := r
          cases ok
          · rfl
          · exact absurd ⟨t0, hq'⟩ hq
        | panic => rfl
        | diverge => rfl
      rw [e]
      refine ⟨fun t' => ⟨fun h => absurd ⟨t', h⟩ hq, fun h => ?_⟩, fun x hx => ⟨fun h => ⟨[], q, ps, t, rfl, .nil, h⟩, fun h => ?_⟩⟩
      · cases h with
        | cons hx ha => exact absurd ⟨_, hx⟩ hq
      · obtain ⟨pre, p, post, t1, e, ha, hp⟩ := h
        cases pre with
        | nil => cases ha; cases e; exact hp
        | cons y pre =>
          cases e
          cases ha with
          | cons hy ha => exact absurd ⟨_, hy⟩ hq

theorem fmtBinaryTo_eq (c : Cfg) (h : IsBlk w) {s : VB w} (hr : BvReach c w s bits) (K : FmtSink σ) (t : σ) :
    BV.fmtBinaryTo c K s t = K.write (bits.map fun b => if b then "1" else "0") t := by
  obtain ⟨h1, h2, -⟩ := bv_iter_base h (hr.rep h)
  unfold BV.fmtBinaryTo
  rw [tryEach_write (K := K) h1 h t _ (fun n => [if n = 0 then "0" else "1"]) (fun x t => ?_), h2]
  · congr 1
    clear h1 h2 hr
    induction bits with
    | nil => rfl
    | cons b bits ih =>
      rw [List.map_cons, List.flatMap_cons, ih]
      cases b <;> rfl
  · rw [bitItem_eq]
    have : K.write [if x.toNat = 0 then "0" else "1"] t = K.writeStr (if x.toNat = 0 then "0" else "1") t := by
      show (K.writeStr _ t >>= _) = _
      cases K.writeStr (if x.toNat = 0 then "0" else "1") t with
      | ok r => obtain ⟨ok, t'⟩ := r; cases ok <;> rfl
      | panic => rfl
      | diverge => rfl
    rw [this]
    by_cases hx : x.toNat = 0 <;> simp [hx]

theorem fmtDebugTo_eq (c : Cfg) (h : IsBlk w) {s : IV w} (hr : IvReach c w k s xs) (K : FmtSink σ) (t : σ) :
    IV.fmtDebugTo c K s t = K.write (["IntVector { element_bits: ", Nat.repr k, ", elements: { "] ++
      xs.flatMap (fun x => [Nat.repr x, ", "]) ++ ["} }"]) t := by
  have hR := hr.rep h
  obtain ⟨h1, h2, -⟩ := iv_iter_base hR
  unfold IV.fmtDebugTo
  rw [List.append_assoc, K.write_append, hR.eb]
  cases K.write ["IntVector { element_bits: ", Nat.repr k, ", elements: { "] t with
  | panic => rfl
  | diverge => rfl
  | ok r =>
    obtain ⟨ok, t⟩ := r
    cases ok
    · rfl
    · show (s.iter.tryEach c t _ >>= _) = K.write _ t
      rw [tryEach_write (K := K) h1 h t _ (fun n => [Nat.repr n, ", "]) (fun x t => rfl), h2, K.write_append]

/-- C110 for `{:b}` of a `BitVector`. On every formatter: one digit is written at a time; the result is `Ok` exactly when all are
taken, and otherwise formatting ends at the first error, or panic, of the formatter, and makes no further call. -/
theorem C110_binary (c : Cfg) (h : IsBlk w) {s : VB w} (hr : BvReach c w s bits) (K : FmtSink σ) (t : σ) :
    Offers K t (bits.map fun b => if b then "1" else "0") (BV.fmtBinaryTo c K s t) := by
  rw [fmtBinaryTo_eq c h hr]; exact write_offers K _ t

/-- C110 for `{:?}` of an `IntVector`. -/
theorem C110_debug (c : Cfg) (h : IsBlk w) {s : IV w} (hr : IvReach c w k s xs) (K : FmtSink σ) (t : σ) :
    Offers K t (["IntVector { element_bits: ", Nat.repr k, ", elements: { "] ++
      xs.flatMap (fun x => [Nat.repr x, ", "]) ++ ["} }"]) (IV.fmtDebugTo c K s t) := by
  rw [fmtDebugTo_eq c h hr]; exact write_offers K _ t

/-- A formatter that appends to what `log` shows: all of a string it takes, and some beginning of one it does not. -/
structure Appends (K : FmtSink σ) (log : σ → String) : Prop where
  taken : ∀ p t t', K.writeStr p t = .ok (true, t') → log t' = log t ++ p
  refused : ∀ p t t', K.writeStr p t = .ok (false, t') → ∃ q r, p = q ++ r ∧ log t' = log t ++ q

theorem Appends.write {K : FmtSink σ} {log : σ → String} (hK : Appends K log) (ps : List String) (t : σ) {ok : Bool} {t' : σ}
    (h : K.write ps t = .ok (ok, t')) :
    ∃ out rest, String.join ps = out ++ rest ∧ log t' = log t ++ out ∧ (ok = true → rest = "") := by
  induction ps generalizing t with
  | nil => cases h; exact ⟨"", "", by simp, by simp, fun _ => rfl⟩
  | cons p ps ih =>
    have hw : K.write (p :: ps) t = (K.writeStr p t >>= fun r => if r.1 then K.write ps r.2 else .ok (false, r.2)) := rfl
    rw [hw] at h
    cases hq : K.writeStr p t with
    | panic => rw [hq] at h; cases h
    | diverge => rw [hq] at h; cases h
    | ok r =>
      obtain ⟨ok0, t0⟩ := r
      rw [hq] at h
      cases ok0 with
      | true =>
        obtain ⟨out, rest, e1, e2, e3⟩ := ih t0 h
        exact ⟨p ++ out, rest, by rw [String.join_cons, e1, String.append_assoc], by rw [e2, hK.taken _ _ _ hq, String.append_assoc], e3⟩
      | false =>
        cases h
        obtain ⟨q, r, e1, e2⟩ := hK.refused _ _ _ hq
        exact ⟨q, r ++ String.join ps, by rw [String.join_cons, e1, String.append_assoc], e2, fun h => by cases h⟩

/-- C110: whatever has been written when formatting returns is a beginning of the text that `C31` gives, and all of it if the
result is `Ok`. -/
theorem C110_prefix (c : Cfg) (h : IsBlk w) {K : FmtSink σ} {log : σ → String} (hK : Appends K log) (t : σ) :
    (∀ {s : VB w} {bits}, BvReach c w s bits → ∀ {ok t'}, BV.fmtBinaryTo c K s t = .ok (ok, t') →
      ∃ text out rest, BV.fmtBinary c s = .ok text ∧ text = out ++ rest ∧ log t' = log t ++ out ∧ (ok = true → rest = "")) ∧
    (∀ {k} {s : IV w} {xs}, IvReach c w k s xs → ∀ {ok t'}, IV.fmtDebugTo c K s t = .ok (ok, t') →
      ∃ text out rest, IV.fmtDebug c s = .ok text ∧ text = out ++ rest ∧ log t' = log t ++ out ∧ (ok = true → rest = "")) := by
  refine ⟨fun {s bits} hr {ok t'} he => ?_, fun {k s xs} hr {ok t'} he => ?_⟩
  · rw [fmtBinaryTo_eq c h hr] at he
    obtain ⟨out, rest, e1, e2, e3⟩ := hK.write _ t he
    refine ⟨_, out, rest, C31_binary c h hr, ?_, e2, e3⟩
    rw [← e1]
    clear e1 he hr
    induction bits with
    | nil => rfl
    | cons b bits ih =>
      rw [List.map_cons, List.map_cons, String.join_cons, ← ih]
      cases b <;> simp [String.ofList_cons] <;> rfl
  · rw [fmtDebugTo_eq c h hr] at he
    obtain ⟨out, rest, e1, e2, e3⟩ := hK.write _ t he
    refine ⟨_, out, rest, C31_debug c h hr, ?_, e2, e3⟩
    rw [← e1]
    have key : ∀ xs : List Nat, String.join (xs.flatMap fun x => [Nat.repr x, ", "]) = String.join (xs.map fun x => Nat.repr x ++ ", ") := by
      intro xs
      induction xs with
      | nil => rfl
      | cons x xs ih => simp [ih, String.append_assoc]
    simp [key, String.append_assoc]

/-- A buffer of `n` bytes, as `fmt::Write` for a fixed array would be: it refuses a string that does not fit. -/
def boundedSink (n : Nat) : FmtSink String where
  writeStr p t := .ok (if t.length + p.length ≤ n then (true, t ++ p) else (false, t))

example : Appends (boundedSink n) id where
  taken p t t' h := by
    simp only [boundedSink] at h
    split at h <;> cases h; rfl
  refused p t t' h := by
    simp only [boundedSink] at h
    split at h <;> cases h
    exact ⟨"", p, by simp, by simp⟩

/-- Eight bits into a buffer of five bytes: five digits are written, then the error is passed on. -/
example : BV.fmtBinaryTo ⟨true, .p64, true⟩ (boundedSink 5) (⟨8, [0x15#8]⟩ : VB 8) "" = .ok (false, "10101") := by
  rw [fmtBinaryTo_eq _ isBlk8 (bits := [true, false, true, false, true, false, false, false])
    ⟨.blockWithFill 1 0x15#8, [], ⟨8, [0x15#8]⟩, [], [], ⟨by decide, by decide⟩, trivial, by decide, rfl, by decide⟩]
  decide

/-! ### C111: what the text tells -/

theorem reprBlk_delim : Delimits NoDigit (fun b : BitVec w => Nat.repr b.toNat) := by
  intro a b r r' hr hr' h
  obtain ⟨e, e'⟩ := delimits_repr _ _ _ _ hr hr' h
  exact ⟨BitVec.eq_of_toNat_eq e, e'⟩

theorem repr_head (n : Nat) : (Nat.repr n).toList ≠ [] ∧ ∀ r, (Nat.repr n).toList ≠ ']' :: r := by
  refine ⟨by simp, fun r h => ?_⟩
  rw [Nat.toList_repr] at h
  have := Nat.isDigit_of_mem_toDigits (b := 10) (n := n) (c := ']') (by decide) (by decide) (by rw [h]; simp)
  revert this; decide

theorem Delimits.mono {F G : List Char → Prop} {f : α → String} (h : Delimits F f) (hG : ∀ l, G l → F l) : Delimits G f :=
  fun a b r r' h1 h2 => h a b r r' (hG _ h1) (hG _ h2)

theorem delimits_blocks : Delimits (fun _ => True) (fun v : List (BitVec w) => debugList (v.map fun b => Nat.repr b.toNat)) :=
  delimits_list (reprBlk_delim.mono fun _ => ListEnd.noDigit) (fun a => (repr_head a.toNat).2) (fun a => (repr_head a.toNat).1)

theorem comma_noDigit (r : List Char) : NoDigit (',' :: r) := noDigit_cons (by decide)
theorem space_noDigit (r : List Char) : NoDigit (' ' :: r) := noDigit_cons (by decide)
theorem paren_noDigit (r : List Char) : NoDigit (')' :: r) := noDigit_cons (by decide)

theorem delimits_vb : Delimits (fun _ => True) (fun s : VB w => s.debugText) := by
  rintro ⟨n, v⟩ ⟨m, u⟩ r r' - - h
  simp [VB.debugText, debugStruct] at h
  obtain ⟨rfl, h⟩ := delimits_repr n m _ _ (comma_noDigit _) (comma_noDigit _) (by simpa using h)
  obtain ⟨rfl, h⟩ := delimits_blocks v u _ _ trivial trivial (by simpa using h)
  exact ⟨rfl, by simpa using h⟩

/-- C111 for `VectorBase`, `BitVector` and the iterators over vectors, in any state: the text of `{:?}` determines the value, even
with more text behind it. -/
theorem C111_vectors :
    (∀ (s t : VB w) (r r' : String), BV.debugText s ++ r = BV.debugText t ++ r' → s = t ∧ r = r') ∧
    (∀ (s t : VIter w) (r r' : String), s.debugText ++ r = t.debugText ++ r' → s = t ∧ r = r') := by
  refine ⟨fun s t r r' h => ?_, fun s t r r' h => ?_⟩
  · rw [← String.toList_inj] at h
    simp [BV.debugText] at h
    obtain ⟨rfl, h⟩ := delimits_vb s t _ _ trivial trivial h
    exact ⟨rfl, by rw [← String.toList_inj]; simpa using h⟩
  · obtain ⟨a, b, k, d⟩ := s
    obtain ⟨a', b', k', d'⟩ := t
    rw [← String.toList_inj] at h
    simp [VIter.debugText, debugStruct] at h
    obtain ⟨rfl, h⟩ := delimits_repr a a' _ _ (comma_noDigit _) (comma_noDigit _) (by simpa using h)
    obtain ⟨rfl, h⟩ := delimits_repr b b' _ _ (comma_noDigit _) (comma_noDigit _) (by simpa using h)
    obtain ⟨rfl, h⟩ := delimits_repr k k' _ _ (comma_noDigit _) (comma_noDigit _) (by simpa using h)
    obtain ⟨rfl, h⟩ := delimits_vb d d' _ _ trivial trivial (by simpa using h)
    exact ⟨rfl, by rw [← String.toList_inj]; simpa using h⟩

/-- C111: two `BitVector`s print the same with `{:?}` exactly when they hold the same bits. -/
theorem C111_bit_vector {c c' : Cfg} (h : IsBlk w) {s t : VB w} (hs : BvReach c w s bs) (ht : BvReach c' w t bt) :
    BV.debugText s = BV.debugText t ↔ bs = bt := by
  rw [← C15_equality_is_extensional h hs ht]
  exact ⟨fun e => (C111_vectors.1 s t "" "" (by rw [e])).1, fun e => by rw [e]⟩

/-- C111: with `{:b}` likewise, whatever the block types. -/
theorem C111_binary {c c' : Cfg} (h : IsBlk w) (h' : IsBlk w') {s : VB w} {t : VB w'} (hs : BvReach c w s bs)
    (ht : BvReach c' w' t bt) : BV.fmtBinary c s = BV.fmtBinary c' t ↔ bs = bt := by
  rw [C31_binary c h hs, C31_binary c' h' ht]
  have key : ∀ a b : List Bool, (a.map fun b => if b then '1' else '0') = (b.map fun b => if b then '1' else '0') → a = b := by
    intro a
    induction a with
    | nil => intro b e; cases b; rfl; cases e
    | cons x a ih =>
      intro b e
      cases b with
      | nil => cases e
      | cons y b =>
        rw [List.map_cons, List.map_cons, List.cons.injEq] at e
        rw [ih b e.2]
        have := e.1
        revert this
        cases x <;> cases y <;> simp
  refine ⟨fun e => key _ _ ?_, fun e => by rw [e]⟩
  have := congrArg String.toList (Res.ok.inj e)
  simpa using this

/-- The elements and the end of the `Debug` text of an `IntVector`. -/
theorem elems_delim (xs : List Nat) : ∀ (ys : List Nat) (r r' : List Char),
    xs.flatMap (fun x => (Nat.repr x).toList ++ [',', ' ']) ++ '}' :: r = ys.flatMap (fun x => (Nat.repr x).toList ++ [',', ' ']) ++ '}' :: r' →
    xs = ys ∧ r = r' := by
  have hd : ∀ x l r, (Nat.repr x).toList ++ l ≠ '}' :: r := by
    intro x l r h
    have h1 := (repr_head x).1
    cases e : (Nat.repr x).toList with
    | nil => exact h1 e
    | cons d ds =>
      rw [e] at h
      simp at h
      have := Nat.isDigit_of_mem_toDigits (b := 10) (n := x) (c := d) (by decide) (by decide) (by rw [← Nat.toList_repr, e]; simp)
      rw [h.1] at this
      revert this; decide
  induction xs with
  | nil =>
    intro ys r r' h
    cases ys with
    | nil => exact ⟨rfl, by simpa using h⟩
    | cons y ys =>
      rw [List.flatMap_cons, List.append_assoc, List.append_assoc] at h
      exact absurd h.symm (hd _ _ _)
  | cons x xs ih =>
    intro ys r r' h
    cases ys with
    | nil =>
      rw [List.flatMap_cons, List.append_assoc, List.append_assoc] at h
      exact absurd h (hd _ _ _)
    | cons y ys =>
      rw [List.flatMap_cons, List.append_assoc, List.append_assoc, List.flatMap_cons, List.append_assoc, List.append_assoc] at h
      obtain ⟨rfl, h⟩ := delimits_repr x y _ _ (comma_noDigit _) (comma_noDigit _) h
      obtain ⟨rfl, h2⟩ := ih ys r r' (by simpa using h)
      exact ⟨rfl, h2⟩

theorem iv_debug_text {c c' : Cfg} (h : IsBlk w) (h' : IsBlk w') {s : IV w} {t : IV w'} (hs : IR c w k s xs)
    (ht : IR c' w' k' t ys) : ∃ a b, IV.fmtDebug c s = .ok a ∧ IV.fmtDebug c' t = .ok b ∧ (a = b ↔ k = k' ∧ xs = ys) ∧
      ∀ r r', a ++ r = b ++ r' → k = k' ∧ xs = ys ∧ r = r' := by
  have key : ∀ (k : Nat) (xs : List Nat) (r : String), ("IntVector { element_bits: " ++ Nat.repr k ++ ", elements: { " ++
      String.join (xs.map fun x => Nat.repr x ++ ", ") ++ "} }" ++ r).toList = "IntVector { element_bits: ".toList ++
      ((Nat.repr k).toList ++ (',' :: " elements: { ".toList ++
        (xs.flatMap (fun x => (Nat.repr x).toList ++ [',', ' ']) ++ '}' :: (" }".toList ++ r.toList)))) := by
    intro k xs r
    have : (String.join (xs.map fun x => Nat.repr x ++ ", ")).toList = xs.flatMap (fun x => (Nat.repr x).toList ++ [',', ' ']) := by
      induction xs with
      | nil => rfl
      | cons x xs ih => rw [List.map_cons, String.join_cons, String.toList_append, ih, List.flatMap_cons, String.toList_append]; rfl
    simp only [String.toList_append, this, List.append_assoc]
    rfl
  have main : ∀ r r', "IntVector { element_bits: " ++ Nat.repr k ++ ", elements: { " ++
      String.join (xs.map fun x => Nat.repr x ++ ", ") ++ "} }" ++ r = "IntVector { element_bits: " ++ Nat.repr k' ++ ", elements: { " ++
      String.join (ys.map fun x => Nat.repr x ++ ", ") ++ "} }" ++ r' → k = k' ∧ xs = ys ∧ r = r' := by
    intro r r' e
    rw [← String.toList_inj, key, key] at e
    obtain ⟨rfl, e1⟩ := delimits_repr k k' _ _ (comma_noDigit _) (comma_noDigit _) (List.append_cancel_left e)
    obtain ⟨rfl, e2⟩ := elems_delim xs ys _ _ (List.append_cancel_left (List.cons.inj e1).2)
    exact ⟨rfl, rfl, by rw [← String.toList_inj]; exact List.append_cancel_left e2⟩
  refine ⟨_, _, iv_fmtDebug c h hs, iv_fmtDebug c' h' ht, ⟨fun e => ?_, ?_⟩, main⟩
  · obtain ⟨h1, h2, -⟩ := main "" "" (by rw [e])
    exact ⟨h1, h2⟩
  · rintro ⟨rfl, rfl⟩; rfl

/-- C111 for `IntVector`: the text of `{:?}` determines the element width and the elements, even with more text behind it, and
nothing else: it does not depend on the block type. -/
theorem C111_int_vector {c c' : Cfg} (h : IsBlk w) (h' : IsBlk w') {s : IV w} {t : IV w'} (hs : IvReach c w k s xs)
    (ht : IvReach c' w' k' t ys) : ∃ a b, IV.fmtDebug c s = .ok a ∧ IV.fmtDebug c' t = .ok b ∧ (a = b ↔ k = k' ∧ xs = ys) ∧
      ∀ r r', a ++ r = b ++ r' → k = k' ∧ xs = ys ∧ r = r' :=
  iv_debug_text h h' (hs.rep h) (ht.rep h')

/-- C111 for `Address`. -/
theorem C111_address (a b : Address) (r r' : String) (h : a.debugText ++ r = b.debugText ++ r') : a = b ∧ r = r' := by
  obtain ⟨i, j⟩ := a
  obtain ⟨i', j'⟩ := b
  rw [← String.toList_inj] at h
  simp [Address.debugText, debugStruct] at h
  obtain ⟨rfl, h⟩ := delimits_repr i i' _ _ (comma_noDigit _) (comma_noDigit _) (by simpa using h)
  obtain ⟨rfl, h⟩ := delimits_repr j j' _ _ (space_noDigit _) (space_noDigit _) (by simpa using h)
  exact ⟨rfl, by rw [← String.toList_inj]; simpa using h⟩

theorem cell_delim : Delimits (fun _ => True) Rank9Cell.debugText := by
  rintro ⟨a, b⟩ ⟨a', b'⟩ r r' - - h
  simp [Rank9Cell.debugText, debugStruct] at h
  obtain ⟨rfl, h⟩ := delimits_repr a a' _ _ (comma_noDigit _) (comma_noDigit _) (by simpa using h)
  obtain ⟨rfl, h⟩ := reprBlk_delim b b' _ _ (paren_noDigit _) (paren_noDigit _) (by simpa using h)
  exact ⟨rfl, by simpa using h⟩

/-- C111 for the types that hold another: if the text of what they hold determines it, with whatever text behind, then so does
theirs. `Rank9`, `BitBuffer` and slices can be nested, and the theorem applied again. -/
theorem C111_nested {inner : S → String} (hi : ∀ a b r r', inner a ++ r = inner b ++ r' → a = b ∧ r = r') (name : String) :
    (∀ (a b : BitBuf S) r r', a.debugText inner ++ r = b.debugText inner ++ r' → a = b ∧ r = r') ∧
    (∀ (a b : Slice S) r r', a.debugText name inner ++ r = b.debugText name inner ++ r' → a = b ∧ r = r') ∧
    (∀ (a b : Rank9 S) r r', a.debugText inner ++ r = b.debugText inner ++ r' → a = b ∧ r = r') ∧
    (∀ (c : Cfg) (a b : Jacobson S) x y r r', a.debugText c inner = .ok x → b.debugText c inner = .ok y → x ++ r = y ++ r' →
      a.bitStore = b.bitStore ∧ a.largeBlockSize = b.largeBlockSize) := by
  have hi : Delimits (fun _ => True) inner := by
    intro a b r r' _ _ h
    obtain ⟨e, e'⟩ := hi a b (String.ofList r) (String.ofList r') (by rw [← String.toList_inj]; simpa using h)
    exact ⟨e, by simpa using congrArg String.toList e'⟩
  refine ⟨fun a b r r' h => ?_, fun a b r r' h => ?_, fun a b r r' h => ?_, fun c a b x y r r' h1 h2 h => ?_⟩
  · obtain ⟨d, p⟩ := a
    obtain ⟨d', p'⟩ := b
    rw [← String.toList_inj] at h
    simp [BitBuf.debugText, debugStruct] at h
    obtain ⟨rfl, h⟩ := hi d d' _ _ trivial trivial h
    obtain ⟨rfl, h⟩ := delimits_repr p p' _ _ (space_noDigit _) (space_noDigit _) (by simpa using h)
    exact ⟨rfl, by rw [← String.toList_inj]; simpa using h⟩
  · obtain ⟨d, p, n⟩ := a
    obtain ⟨d', p', n'⟩ := b
    rw [← String.toList_inj] at h
    simp [Slice.debugText, debugStruct] at h
    obtain ⟨rfl, h⟩ := hi d d' _ _ trivial trivial h
    obtain ⟨rfl, h⟩ := delimits_repr p p' _ _ (comma_noDigit _) (comma_noDigit _) (by simpa using h)
    obtain ⟨rfl, h⟩ := delimits_repr n n' _ _ (space_noDigit _) (space_noDigit _) (by simpa using h)
    exact ⟨rfl, by rw [← String.toList_inj]; simpa using h⟩
  · obtain ⟨d, cs⟩ := a
    obtain ⟨d', cs'⟩ := b
    rw [← String.toList_inj] at h
    simp only [Rank9.debugText, debugStruct] at h
    simp [-List.map_map] at h
    obtain ⟨rfl, h⟩ := hi d d' _ _ trivial trivial h
    have hl := delimits_list (cell_delim.mono fun _ _ => trivial) (fun a r => by simp [Rank9Cell.debugText, debugStruct])
      (fun a => by simp [Rank9Cell.debugText, debugStruct])
    obtain ⟨rfl, h⟩ := hl cs cs' _ _ trivial trivial (by simpa using h)
    exact ⟨rfl, by rw [← String.toList_inj]; simpa using h⟩
  · obtain ⟨d, z, l, m⟩ := a
    obtain ⟨d', z', l', m'⟩ := b
    unfold Jacobson.debugText at h1 h2
    cases e1 : l.fmtDebug c with
    | panic => simp only [e1] at h1; cases h1
    | diverge => simp only [e1] at h1; cases h1
    | ok t1 =>
    cases e2 : m.fmtDebug c with
    | panic => simp only [e1, e2] at h1; cases h1
    | diverge => simp only [e1, e2] at h1; cases h1
    | ok t2 =>
    cases e3 : l'.fmtDebug c with
    | panic => simp only [e3] at h2; cases h2
    | diverge => simp only [e3] at h2; cases h2
    | ok t3 =>
    cases e4 : m'.fmtDebug c with
    | panic => simp only [e3, e4] at h2; cases h2
    | diverge => simp only [e3, e4] at h2; cases h2
    | ok t4 =>
    simp only [e1, e2, Res.ok_bind] at h1
    simp only [e3, e4, Res.ok_bind] at h2
    cases h1
    cases h2
    rw [← String.toList_inj] at h
    simp [debugStruct] at h
    obtain ⟨rfl, h⟩ := hi d d' _ _ trivial trivial h
    obtain ⟨rfl, h⟩ := delimits_repr z z' _ _ (comma_noDigit _) (comma_noDigit _) (by simpa using h)
    exact ⟨rfl, rfl⟩

/-- C111 for `JacobsonRank`: if the text of the vector determines it, that of a structure built over it determines the structure,
both directories included. -/
theorem C111_jacobson {inner : S → String} (hi : ∀ a b r r', inner a ++ r = inner b ++ r' → a = b ∧ r = r') {c : Cfg}
    {o : BitVecOps w S} {R : S → List Bool → Prop} (hw : IsBlk w) (hl : BVLaw c o R) (hbl : BVBlockRead o R) {s s' : S}
    {bits bits' : List Bool} (hR : R s bits) (hR' : R s' bits') (hmem : InMemory c.usz bits.length)
    (hmem' : InMemory c.usz bits'.length) {a b : Jacobson S} (ha : Jacobson.new c o s = .ok a) (hb : Jacobson.new c o s' = .ok b) :
    ∃ x y, a.debugText c inner = .ok x ∧ b.debugText c inner = .ok y ∧ ∀ r r', x ++ r = y ++ r' → a = b ∧ r = r' := by
  have key : ∀ {s : S} {bits : List Bool} {a : Jacobson S}, R s bits → InMemory c.usz bits.length → Jacobson.new c o s = .ok a →
      ∃ kl ls ks ss, IR c 64 kl a.largeBlockRanks ls ∧ IR c 64 ks a.smallBlockRanks ss := by
    intro s bits a hR hmem ha
    have h2 : 2 ≤ bits.length := by
      rcases Nat.lt_or_ge 1 bits.length with h | h
      · exact h
      · rw [C38_short_vectors_panic hw hl hR h] at ha; cases ha
    obtain ⟨blk, lg, spl, kl, ks, -, -, -, -, -, h7, h8⟩ := jacobson_new_any hw hl hbl hR hmem h2
    rcases Nat.lt_or_ge (prefixOnes blk (blocksFor w bits.length)) (2 ^ kl) with h | h
    · obtain ⟨j, hj, -, hok⟩ := h7 h
      rw [hj] at ha
      cases ha
      exact ⟨_, _, _, _, hok.large, hok.small⟩
    · rw [h8 h] at ha; cases ha
  have uniq : ∀ {k k' : Nat} {u v : IV 64} {xs ys : List Nat}, IR c 64 k u xs → IR c 64 k' v ys → k = k' → xs = ys → u = v := by
    rintro k k' u v xs ys hu hv rfl rfl
    have h1 := hu.rep.eq_of_bits hu.pos hv.rep
    have h2 := hu.eb.trans hv.eb.symm
    cases u; cases v; simp_all
  obtain ⟨kl, ls, ks, ss, h1, h2⟩ := key hR hmem ha
  obtain ⟨kl', ls', ks', ss', h1', h2'⟩ := key hR' hmem' hb
  obtain ⟨t1, t3, e1, e3, -, hl1⟩ := iv_debug_text isBlk64 isBlk64 h1 h1'
  obtain ⟨t2, t4, e2, e4, -, hs1⟩ := iv_debug_text isBlk64 isBlk64 h2 h2'
  refine ⟨_, _, by unfold Jacobson.debugText; rw [e1, Res.ok_bind, e2, Res.ok_bind],
    by unfold Jacobson.debugText; rw [e3, Res.ok_bind, e4, Res.ok_bind], fun r r' h => ?_⟩
  have hi : Delimits (fun _ => True) inner := by
    intro a b r r' _ _ h
    obtain ⟨e, e'⟩ := hi a b (String.ofList r) (String.ofList r') (by rw [← String.toList_inj]; simpa using h)
    exact ⟨e, by simpa using congrArg String.toList e'⟩
  obtain ⟨d, z, l, m⟩ := a
  obtain ⟨d', z', l', m'⟩ := b
  rw [← String.toList_inj] at h
  simp [debugStruct] at h
  obtain ⟨rfl, h⟩ := hi d d' _ _ trivial trivial h
  obtain ⟨rfl, h⟩ := delimits_repr z z' _ _ (comma_noDigit _) (comma_noDigit _) (by simpa using h)
  simp at h
  obtain ⟨p1, p2, h⟩ := hl1 (String.ofList _) (String.ofList _) (by rw [← String.toList_inj]; simpa using h)
  rw [← String.toList_inj] at h
  simp at h
  obtain ⟨q1, q2, h⟩ := hs1 (String.ofList _) (String.ofList _) (by rw [← String.toList_inj]; simpa using h)
  rw [← String.toList_inj] at h
  simp at h
  have g1 : l = l' := uniq h1 h1' p1 p2
  have g2 : m = m' := uniq h2 h2' q1 q2
  exact ⟨by rw [g1, g2], String.toList_inj.1 h⟩

example : BV.debugText (⟨10, [0xFF#8, 0x02#8]⟩ : VB 8) = "BitVector(VectorBase { len: 10, vec: [255, 2] })" ∧
    (⟨⟨3, [5#8]⟩, 2⟩ : BitBuf (VB 8)).debugText BV.debugText =
      "BitBuffer { data: BitVector(VectorBase { len: 3, vec: [5] }), pos: 2 }" ∧
    (⟨⟨0, []⟩, [⟨0, 0⟩, ⟨7, 3⟩]⟩ : Rank9 (VB 64)).debugText BV.debugText =
      "Rank9 { bit_store: BitVector(VectorBase { len: 0, vec: [] }), counts: [Rank9Cell { level1: 0, level2: Level2(0) }, " ++
      "Rank9Cell { level1: 7, level2: Level2(3) }] }" := by decide +kernel

example : (⟨⟨10, [0xFF#8, 0x02#8]⟩, 3, 7⟩ : Slice (VB 8)).debugText "BitSlice" BV.debugText =
      "BitSlice { data: BitVector(VectorBase { len: 10, vec: [255, 2] }), start: 3, len: 7 }" ∧
    (⟨1, 4, 1, ⟨5, [0x15#8]⟩⟩ : VIter 8).debugText =
      "Iter(Iter { start: 1, limit: 4, element_bits: 1, data: VectorBase { len: 5, vec: [21] } })" := by decide +kernel

/-- Ten bits: their structure can be built, and whatever vector's structure prints the same is this vector. -/
example : ∃ a, Jacobson.new ⟨true, .p64, true⟩ (bvBitVec ⟨true, .p64, true⟩ 8) ⟨10, [0xF1#8, 0x02#8]⟩ = .ok a ∧
    ∀ (s : VB 8) (bits : List Bool) b, bvR ⟨true, .p64, true⟩ 8 s bits → InMemory 64 bits.length →
      Jacobson.new ⟨true, .p64, true⟩ (bvBitVec ⟨true, .p64, true⟩ 8) s = .ok b →
      a.debugText ⟨true, .p64, true⟩ BV.debugText = b.debugText ⟨true, .p64, true⟩ BV.debugText → a = b := by
  have hR : bvR ⟨true, .p64, true⟩ 8 ⟨10, [0xF1#8, 0x02#8]⟩ [true, false, false, false, true, true, true, true, false, true] := by
    refine ⟨by decide, by decide, fun i => ?_, by decide⟩
    by_cases h : i < 16
    · revert i; decide
    · rw [vbit_of_ge (by decide) (by show 2 * 8 ≤ i; omega), List.getElem?_eq_none (by show 10 ≤ i; omega)]; rfl
  obtain ⟨a, ha, -⟩ := C37_jacobson isBlk8 (bv_law _ isBlk8) (bv_block _ isBlk8).toBVBlockRead (bv_pad _ isBlk8) hR (by decide) (by decide)
  refine ⟨a, ha, fun s bits b h1 h2 h3 h4 => ?_⟩
  obtain ⟨x, y, e1, e2, h⟩ := C111_jacobson (fun a b r r' h => C111_vectors.1 a b r r' h) isBlk8 (bv_law _ isBlk8)
    (bv_block _ isBlk8).toBVBlockRead hR h1 (by decide) h2 ha h3
  rw [e1, e2] at h4
  exact (h "" "" (by rw [Res.ok.inj h4])).1

/-! Each theorem of this file that has hypotheses is applied to concrete data in `Verif/Instances/Format.lean`. -/

end Succinct
