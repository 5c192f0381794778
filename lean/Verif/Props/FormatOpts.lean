import Verif.Lemmas.FormatOpts
import Verif.Props.Format
/-! C147: formatting with options (`{:#?}`, `{:8?}`, `{:#x?}`, `{:*^12?}`, …). -/
namespace Succinct
open Spec FmtOpts

/-- C147 for the numbers inside: for all options, the text of a number tells which number it is and where it ends, except exactly
when the padding runs into the digits. -/
theorem C147_number (o : FmtOpts) :
    (∀ n m r r', o.NoDigit r → o.NoDigit r' → o.int n ++ r = o.int m ++ r' → n = m ∧ r = r') ↔ ¬ o.Mixes := by
  refine ⟨fun h hm => ?_, fun h n m r r' h1 h2 e => int_delim o h h1 h2 e⟩
  obtain ⟨n, m, hlt, -, e⟩ := int_mixed o hm
  have := (h n m [] [] (fun _ _ e => by cases e) (fun _ _ e => by cases e) (by rw [e])).1
  omega

theorem int_fields (o : FmtOpts) (h : ¬ o.Mixes) (n m : Nat) : Apart (Begins [',', ' ']) (o.int n) (o.int m) :=
  (int_apart o h n m).mono fun _ hr => hr.mono (by simp)

theorem blocks_withs (o : FmtOpts) (h : ¬ o.Mixes) (v u : List (BitVec w)) {r r' : Text} (h1 : Begins [',', ' '] r)
    (h2 : Begins [',', ' '] r') (e : o.list (v.map fun b => o.int b.toNat) ++ r = o.list (u.map fun b => o.int b.toNat) ++ r') :
    v = u ∧ r = r' :=
  list_delim o (f := fun b : BitVec w => o.int b.toNat)
    (fun a b => (int_apart o h a.toNat b.toNat).mono fun _ hr => hr.mono (by simp))
    (fun _ _ e => BitVec.eq_of_toNat_eq (int_inj o h e))
    (fun _ q => int_ne_end o _ h1 q) (fun _ q => int_ne_end o _ h2 q) e

theorem vb_withs (o : FmtOpts) (h : ¬ o.Mixes) (s t : VB w) (r r' : Text) (e : s.debugWith o ++ r = t.debugWith o ++ r') :
    s = t ∧ r = r' := by
  obtain ⟨n, v⟩ := s
  obtain ⟨m, u⟩ := t
  have hl : Apart (Begins [',', ' ']) (o.list (v.map fun b => o.int b.toNat)) (o.list (u.map fun b => o.int b.toNat)) := by
    intro r r' h1 h2 e
    obtain ⟨e1, e2⟩ := blocks_withs o h v u h1 h2 e
    exact ⟨by rw [e1], e2⟩
  simp only [VB.debugWith] at e
  generalize hv : o.list (v.map fun b => o.int b.toNat) = tv at hl e
  generalize hu : o.list (u.map fun b => o.int b.toNat) = tu at hl e
  obtain ⟨e1, e2⟩ := struct_delim o "VectorBase" ["len", "vec"] (ts := [o.int n, tv]) (us := [o.int m, tu]) rfl rfl
    (.cons (int_fields o h n m) (.cons hl .nil)) e
  simp only [List.cons.injEq, and_true] at e1
  have hb : Begins [',', ' '] [' '] := ⟨' ', [], by simp, rfl⟩
  rw [int_inj o h e1.1, (blocks_withs o h v u hb hb (by rw [hv, hu, e1.2])).1]
  exact ⟨rfl, e2⟩

/-- Text that determines the value, whatever follows, can stand in a field. -/
theorem delim_apart {f : α → Text} (h : ∀ a b r r', f a ++ r = f b ++ r' → a = b ∧ r = r') (F : Text → Prop) (a b : α) :
    Apart F (f a) (f b) := by
  intro r r' _ _ e
  obtain ⟨rfl, e'⟩ := h a b r r' e
  exact ⟨rfl, e'⟩

theorem delim_inj {f : α → Text} (h : ∀ a b r r', f a ++ r = f b ++ r' → a = b ∧ r = r') {a b : α} (e : f a = f b) : a = b :=
  (h a b [] [] (by rw [e])).1

/-- C147 for `VectorBase`, `BitVector` and the iterators over vectors, in any state: the text determines the value, even with more
text behind it. -/
theorem C147_vectors (o : FmtOpts) (h : ¬ o.Mixes) :
    (∀ (s t : VB w) r r', BV.debugWith o s ++ r = BV.debugWith o t ++ r' → s = t ∧ r = r') ∧
    (∀ (s t : VIter w) r r', s.debugWith o ++ r = t.debugWith o ++ r' → s = t ∧ r = r') := by
  refine ⟨fun s t r r' e => ?_, fun s t r r' e => ?_⟩
  · obtain ⟨e1, e2⟩ := tuple_delim o "BitVector" (delim_apart (vb_withs o h) _ s t) e
    exact ⟨delim_inj (vb_withs o h) e1, e2⟩
  · obtain ⟨a, b, k, d⟩ := s
    obtain ⟨a', b', k', d'⟩ := t
    have hs : ∀ r r', o.struct "Iter" [("start", o.int a), ("limit", o.int b), ("element_bits", o.int k), ("data", d.debugWith o)] ++ r =
        o.struct "Iter" [("start", o.int a'), ("limit", o.int b'), ("element_bits", o.int k'), ("data", d'.debugWith o)] ++ r' →
        [o.int a, o.int b, o.int k, d.debugWith o] = [o.int a', o.int b', o.int k', d'.debugWith o] ∧ r = r' := fun r r' e =>
      struct_delim o "Iter" ["start", "limit", "element_bits", "data"] (ts := [o.int a, o.int b, o.int k, d.debugWith o])
        (us := [o.int a', o.int b', o.int k', d'.debugWith o]) rfl rfl
        (.cons (int_fields o h _ _) (.cons (int_fields o h _ _) (.cons (int_fields o h _ _) (.cons (delim_apart (vb_withs o h) _ d d') .nil)))) e
    have ht := tuple_delim o "Iter" (t := o.struct "Iter" [("start", o.int a), ("limit", o.int b), ("element_bits", o.int k), ("data", d.debugWith o)])
      (t' := o.struct "Iter" [("start", o.int a'), ("limit", o.int b'), ("element_bits", o.int k'), ("data", d'.debugWith o)])
      (fun r r' _ _ e => by
        obtain ⟨e1, e2⟩ := hs r r' e
        simp only [List.cons.injEq, and_true] at e1
        obtain ⟨x1, x2, x3, x4⟩ := e1
        exact ⟨by rw [x1, x2, x3, x4], e2⟩) e
    obtain ⟨e1, e2⟩ := ht
    have e3 := (hs [] [] (by rw [e1])).1
    simp only [List.cons.injEq, and_true] at e3
    obtain ⟨x1, x2, x3, x4⟩ := e3
    rw [int_inj o h x1, int_inj o h x2, int_inj o h x3, delim_inj (vb_withs o h) x4]
    exact ⟨rfl, e2⟩

/-- C147: with any options under which the padding does not run into the digits, two `BitVector`s print the same exactly when they
hold the same bits. -/
theorem C147_bit_vector (o : FmtOpts) (ho : ¬ o.Mixes) {c c' : Cfg} (h : IsBlk w) {s t : VB w} (hs : BvReach c w s bs)
    (ht : BvReach c' w t bt) : BV.debugWith o s = BV.debugWith o t ↔ bs = bt := by
  rw [← C15_equality_is_extensional h hs ht]
  exact ⟨fun e => delim_inj (C147_vectors o ho).1 e, fun e => by rw [e]⟩

/-- C147 for `Address`: the text determines the value exactly under those options, and otherwise two small addresses print the
same. -/
theorem C147_address (o : FmtOpts) :
    (∀ (a b : Address) r r', a.debugWith o ++ r = b.debugWith o ++ r' → a = b ∧ r = r') ↔ ¬ o.Mixes := by
  refine ⟨fun hd hm => ?_, fun h a b r r' e => ?_⟩
  · obtain ⟨n, m, hlt, -, e⟩ := int_mixed o hm
    have := hd ⟨n, 0⟩ ⟨m, 0⟩ [] [] (by unfold Address.debugWith; simp only [e])
    have := congrArg Address.blockIndex this.1
    simp only at this
    omega
  · obtain ⟨i, j⟩ := a
    obtain ⟨i', j'⟩ := b
    obtain ⟨e1, e2⟩ := struct_delim o "Address" ["block_index", "bit_offset"] (ts := [o.int i, o.int j]) (us := [o.int i', o.int j'])
      rfl rfl (.cons (int_fields o h _ _) (.cons (int_fields o h _ _) .nil)) e
    simp only [List.cons.injEq, and_true] at e1
    rw [int_inj o h e1.1, int_inj o h e1.2]
    exact ⟨rfl, e2⟩

theorem cell_withs (o : FmtOpts) (h : ¬ o.Mixes) (x y : Rank9Cell) (r r' : Text) (e : x.debugWith o ++ r = y.debugWith o ++ r') :
    x = y ∧ r = r' := by
  obtain ⟨a, b⟩ := x
  obtain ⟨a', b'⟩ := y
  have hb : ∀ (b b' : BitVec 64) r r', o.tuple "Level2" (o.int b.toNat) ++ r = o.tuple "Level2" (o.int b'.toNat) ++ r' → b = b' ∧ r = r' := by
    intro b b' r r' e
    obtain ⟨e1, e2⟩ := tuple_delim o "Level2" ((int_apart o h b.toNat b'.toNat).mono fun _ hr => hr.mono (by simp)) e
    exact ⟨BitVec.eq_of_toNat_eq (int_inj o h e1), e2⟩
  obtain ⟨e1, e2⟩ := struct_delim o "Rank9Cell" ["level1", "level2"] (ts := [o.int a, o.tuple "Level2" (o.int b.toNat)])
    (us := [o.int a', o.tuple "Level2" (o.int b'.toNat)])
    rfl rfl (.cons (int_fields o h _ _) (.cons (delim_apart hb _ b b') .nil)) e
  simp only [List.cons.injEq, and_true] at e1
  rw [int_inj o h e1.1, delim_inj hb e1.2]
  exact ⟨rfl, e2⟩

/-- The text that `IntVector` writes, whatever the options. -/
theorem ivText_apart {c c' : Cfg} {w w' : Nat} (h : IsBlk w) (h' : IsBlk w') {s : IV w} {t : IV w'} (hs : IvReach c w k s xs)
    (ht : IvReach c' w' k' t ys) {x y : String} (hx : s.fmtDebug c = .ok x) (hy : t.fmtDebug c' = .ok y) {r r' : Text}
    (e : x.toList ++ r = y.toList ++ r') : x = y ∧ k = k' ∧ xs = ys ∧ r = r' := by
  obtain ⟨a, b, ha, hb, hab, h1⟩ := C111_int_vector h h' hs ht
  rw [hx] at ha
  rw [hy] at hb
  cases ha
  cases hb
  obtain ⟨h2, h3, h4⟩ := h1 (String.ofList r) (String.ofList r') (by rw [← String.toList_inj]; simpa using e)
  exact ⟨hab.2 ⟨h2, h3⟩, h2, h3, by simpa using congrArg String.toList h4⟩

/-- C147 for the types that hold another: if the text of what they hold determines it, with whatever text behind, then so does
theirs. -/
theorem C147_nested (o : FmtOpts) (h : ¬ o.Mixes) {inner : FmtOpts → S → Text}
    (hi : ∀ a b r r', inner o a ++ r = inner o b ++ r' → a = b ∧ r = r') (name : String) :
    (∀ (a b : BitBuf S) r r', a.debugWith o inner ++ r = b.debugWith o inner ++ r' → a = b ∧ r = r') ∧
    (∀ (a b : Slice S) r r', a.debugWith o name inner ++ r = b.debugWith o name inner ++ r' → a = b ∧ r = r') ∧
    (∀ (a b : Rank9 S) r r', a.debugWith o inner ++ r = b.debugWith o inner ++ r' → a = b ∧ r = r') ∧
    (∀ (c : Cfg) (a b : Jacobson S) x y r r', IvReach c 64 kl a.largeBlockRanks xl → IvReach c 64 ks a.smallBlockRanks xs →
      IvReach c 64 kl' b.largeBlockRanks xl' → IvReach c 64 ks' b.smallBlockRanks xs' →
      a.debugWith c o inner = .ok x → b.debugWith c o inner = .ok y → x ++ r = y ++ r' →
      a.bitStore = b.bitStore ∧ a.largeBlockSize = b.largeBlockSize ∧ (kl = kl' ∧ xl = xl') ∧ (ks = ks' ∧ xs = xs') ∧ r = r') := by
  refine ⟨fun a b r r' e => ?_, fun a b r r' e => ?_, fun a b r r' e => ?_, fun c a b x y r r' l1 s1 l2 s2 h1 h2 e => ?_⟩
  · obtain ⟨d, p⟩ := a
    obtain ⟨d', p'⟩ := b
    obtain ⟨e1, e2⟩ := struct_delim o "BitBuffer" ["data", "pos"] (ts := [inner o d, o.int p]) (us := [inner o d', o.int p'])
      rfl rfl (.cons (delim_apart hi _ d d') (.cons (int_fields o h _ _) .nil)) e
    simp only [List.cons.injEq, and_true] at e1
    rw [delim_inj hi e1.1, int_inj o h e1.2]
    exact ⟨rfl, e2⟩
  · obtain ⟨d, p, n⟩ := a
    obtain ⟨d', p', n'⟩ := b
    obtain ⟨e1, e2⟩ := struct_delim o name ["data", "start", "len"] (ts := [inner o d, o.int p, o.int n])
      (us := [inner o d', o.int p', o.int n'])
      rfl rfl (.cons (delim_apart hi _ d d') (.cons (int_fields o h _ _) (.cons (int_fields o h _ _) .nil))) e
    simp only [List.cons.injEq, and_true] at e1
    rw [delim_inj hi e1.1, int_inj o h e1.2.1, int_inj o h e1.2.2]
    exact ⟨rfl, e2⟩
  · obtain ⟨d, cs⟩ := a
    obtain ⟨d', cs'⟩ := b
    have hne : ∀ (x : Rank9Cell) (q t : Text), x.debugWith o ++ q ≠ ']' :: t := by
      intro x q t e
      unfold Rank9Cell.debugWith FmtOpts.struct at e
      simp only at e
      split at e <;> simp at e
    have hl : ∀ (cs cs' : List Rank9Cell) r r', o.list (cs.map (Rank9Cell.debugWith o)) ++ r = o.list (cs'.map (Rank9Cell.debugWith o)) ++ r' →
        cs = cs' ∧ r = r' := fun cs cs' r r' e =>
      list_delim o (fun a b => delim_apart (cell_withs o h) _ a b) (fun a b e => delim_inj (cell_withs o h) e)
        (fun a q => hne a q _) (fun a q => hne a q _) e
    obtain ⟨e1, e2⟩ := struct_delim o "Rank9" ["bit_store", "counts"] (ts := [inner o d, o.list (cs.map (Rank9Cell.debugWith o))])
      (us := [inner o d', o.list (cs'.map (Rank9Cell.debugWith o))])
      rfl rfl (.cons (delim_apart hi _ d d') (.cons (delim_apart (f := fun cs : List Rank9Cell => o.list (cs.map (Rank9Cell.debugWith o))) hl _ cs cs') .nil)) e
    simp only [List.cons.injEq, and_true] at e1
    rw [delim_inj hi e1.1, delim_inj (f := fun cs : List Rank9Cell => o.list (cs.map (Rank9Cell.debugWith o))) hl e1.2]
    exact ⟨rfl, e2⟩
  · obtain ⟨d, z, l, m⟩ := a
    obtain ⟨d', z', l', m'⟩ := b
    simp only at l1 s1 l2 s2
    have b64 : IsBlk 64 := isBlk64
    obtain ⟨tl, tl', f1, f3, -⟩ := C111_int_vector b64 b64 l1 l2
    obtain ⟨tm, tm', f2, f4, -⟩ := C111_int_vector b64 b64 s1 s2
    unfold Jacobson.debugWith at h1 h2
    simp only [f1, f2, Res.ok_bind] at h1
    simp only [f3, f4, Res.ok_bind] at h2
    cases h1
    cases h2
    have hiv : ∀ {kk kk' : Nat} {ys ys' : List Nat} {s t : IV 64} {u v : String}, IvReach c 64 kk s ys → IvReach c 64 kk' t ys' →
        s.fmtDebug c = .ok u → t.fmtDebug c = .ok v → Apart (Begins [',', ' ']) u.toList v.toList := by
      intro kk kk' ys ys' s t u v i1 i2 i3 i4 r r' _ _ e
      obtain ⟨e1, -, -, e2⟩ := ivText_apart b64 b64 i1 i2 i3 i4 e
      exact ⟨by rw [e1], e2⟩
    obtain ⟨e1, e2⟩ := struct_delim o "JacobsonRank" ["bit_store", "large_block_size", "large_block_ranks", "small_block_ranks"]
      (ts := [inner o d, o.int z, tl.toList, tm.toList]) (us := [inner o d', o.int z', tl'.toList, tm'.toList]) rfl rfl
      (.cons (delim_apart hi _ d d') (.cons (int_fields o h _ _) (.cons (hiv l1 l2 f1 f3) (.cons (hiv s1 s2 f2 f4) .nil)))) e
    simp only [List.cons.injEq, and_true] at e1
    obtain ⟨x1, x2, x3, x4⟩ := e1
    obtain ⟨-, y1, y2, -⟩ := ivText_apart b64 b64 l1 l2 f1 f3 (r := []) (r' := []) (by rw [x3])
    obtain ⟨-, y3, y4, -⟩ := ivText_apart b64 b64 s1 s2 f2 f4 (r := []) (r' := []) (by rw [x4])
    exact ⟨delim_inj hi x1, int_inj o h x2, ⟨y1, y2⟩, ⟨y3, y4⟩, e2⟩

theorem intercalate_commas (l : List String) : (", ".intercalate l).toList = commas (l.map String.toList) := by
  have key : ∀ (l : List String) (x : String), (", ".intercalate (x :: l)).toList = commas ((x :: l).map String.toList) := by
    intro l
    induction l with
    | nil => intro x; simp [commas]
    | cons y l ih =>
      intro x
      rw [String.intercalate_cons_cons, String.toList_append, String.toList_append, ih y]
      show _ = commas (x.toList :: y.toList :: l.map String.toList)
      rw [commas_cons]
      simp
  cases l with
  | nil => rfl
  | cons x l => exact key l x

theorem plain_int (n : Nat) : ({} : FmtOpts).int n = (Nat.repr n).toList := by
  rw [Nat.toList_repr]
  simp [FmtOpts.int, FmtOpts.digits, FmtOpts.lead, FmtOpts.padding]

theorem plain_list (l : List String) : ({} : FmtOpts).list (l.map String.toList) = (debugList l).toList := by
  unfold debugList FmtOpts.list
  rw [String.toList_append, String.toList_append, intercalate_commas]
  rfl

theorem plain_struct (name : String) (fs : List (String × String)) :
    ({} : FmtOpts).struct name (fs.map fun f => (f.1, f.2.toList)) = (debugStruct name fs).toList := by
  unfold debugStruct FmtOpts.struct
  simp only [String.toList_append, intercalate_commas, List.map_map]
  have : ((fun f : String × Text => f.1.toList ++ ([':', ' '] ++ f.2)) ∘ fun f : String × String => (f.1, f.2.toList)) =
      String.toList ∘ fun f : String × String => f.1 ++ ": " ++ f.2 := by
    funext f
    simp
  rw [this]
  simp

theorem plain_vb (s : VB w) : s.debugWith {} = s.debugText.toList := by
  have h1 := plain_list (s.vec.map fun b => Nat.repr b.toNat)
  have h2 := plain_struct "VectorBase" [("len", Nat.repr s.len), ("vec", debugList (s.vec.map fun b => Nat.repr b.toNat))]
  unfold VB.debugWith VB.debugText
  rw [← h2]
  simp only [List.map_cons, List.map_nil, ← plain_int, ← h1, List.map_map]
  congr 6
  funext b
  exact plain_int _

theorem plain_cell (x : Rank9Cell) : x.debugWith {} = x.debugText.toList := by
  have h2 := plain_struct "Rank9Cell" [("level1", Nat.repr x.level1), ("level2", "Level2(" ++ Nat.repr x.level2.toNat ++ ")")]
  unfold Rank9Cell.debugWith Rank9Cell.debugText
  rw [← h2]
  simp only [List.map_cons, List.map_nil, plain_int, FmtOpts.tuple]
  simp

/-- C147: without options the text is the one of C111. -/
theorem C147_plain {inner : S → String} {inner' : FmtOpts → S → Text} (hi : ∀ a, inner' {} a = (inner a).toList) (name : String) :
    (∀ s : VB w, BV.debugWith {} s = (BV.debugText s).toList) ∧
    (∀ s : VIter w, s.debugWith {} = s.debugText.toList) ∧
    (∀ a : Address, a.debugWith {} = a.debugText.toList) ∧
    (∀ b : BitBuf S, b.debugWith {} inner' = (b.debugText inner).toList) ∧
    (∀ v : Slice S, v.debugWith {} name inner' = (v.debugText name inner).toList) ∧
    (∀ r : Rank9 S, r.debugWith {} inner' = (r.debugText inner).toList) ∧
    (∀ c (j : Jacobson S), j.debugWith c {} inner' = j.debugText c inner >>= fun t => .ok t.toList) := by
  refine ⟨fun s => ?_, fun s => ?_, fun a => ?_, fun b => ?_, fun v => ?_, fun r => ?_, fun c j => ?_⟩
  · unfold BV.debugWith BV.debugText FmtOpts.tuple
    rw [plain_vb]
    simp
  · have h2 := plain_struct "Iter" [("start", Nat.repr s.start), ("limit", Nat.repr s.limit),
      ("element_bits", Nat.repr s.elementBits), ("data", s.data.debugText)]
    unfold VIter.debugWith VIter.debugText
    rw [String.toList_append, String.toList_append, ← h2]
    simp only [List.map_cons, List.map_nil, plain_int, plain_vb, FmtOpts.tuple]
    simp
  · unfold Address.debugWith Address.debugText
    rw [← plain_struct]
    simp only [List.map_cons, List.map_nil, plain_int]
  · unfold BitBuf.debugWith BitBuf.debugText
    rw [← plain_struct]
    simp only [List.map_cons, List.map_nil, plain_int, hi]
  · unfold Slice.debugWith Slice.debugText
    rw [← plain_struct]
    simp only [List.map_cons, List.map_nil, plain_int, hi]
  · unfold Rank9.debugWith Rank9.debugText
    rw [← plain_struct]
    simp only [List.map_cons, List.map_nil, hi, ← plain_list, List.map_map]
    have : Rank9Cell.debugWith {} = String.toList ∘ Rank9Cell.debugText := funext plain_cell
    rw [this]
  · unfold Jacobson.debugWith Jacobson.debugText
    cases j.largeBlockRanks.fmtDebug c with
    | panic => rfl
    | diverge => rfl
    | ok l =>
      cases j.smallBlockRanks.fmtDebug c with
      | panic => rfl
      | diverge => rfl
      | ok m =>
        simp only [Res.ok_bind]
        rw [← plain_struct]
        simp only [List.map_cons, List.map_nil, plain_int, hi]

/-- `{:#?}`, `{:6?}`, `{:#x?}` and `{:1<3?}` of a vector of ten bits -/
example : String.ofList (BV.debugWith { alternate := true } (⟨10, [0xFF#8, 0x02#8]⟩ : VB 8)) =
      "BitVector(\n    VectorBase {\n        len: 10,\n        vec: [\n            255,\n            2,\n        ],\n    },\n)" ∧
    String.ofList (BV.debugWith { width := some 6 } (⟨10, [0xFF#8, 0x02#8]⟩ : VB 8)) =
      "BitVector(VectorBase { len:     10, vec: [   255,      2] })" ∧
    String.ofList (VB.debugWith { alternate := true, hex := some false } (⟨10, []⟩ : VB 8)) =
      "VectorBase {\n    len: 0xa,\n    vec: [],\n}" ∧
    String.ofList (Address.debugWith { fill := '1', align := some .left, width := some 3 } ⟨1, 2⟩) =
      "Address { block_index: 111, bit_offset: 211 }" ∧
    (⟨11, 2⟩ : Address).debugWith { fill := '1', align := some .left, width := some 3 } =
      (⟨1, 2⟩ : Address).debugWith { fill := '1', align := some .left, width := some 3 } := by decide +kernel

/-- In `{:1<3?}` the padding runs into the digits; in `{:0>3?}`, `{:]>3?}`, `{:1>+3?}` and with the zero flag it does not. -/
example : Mixes { fill := '1', align := some .left, width := some 3 } ∧ ¬ Mixes { fill := '0', align := some .right, width := some 3 } ∧
    ¬ Mixes { fill := ']', align := some .right, width := some 3 } ∧ ¬ Mixes { fill := '1', plus := true, width := some 3 } ∧
    ¬ Mixes { fill := '1', align := some .left, width := some 3, zero := true } := by
  refine ⟨⟨rfl, rfl, by decide, .inl rfl⟩, ?_, ?_, ?_, ?_⟩
  · rintro ⟨-, -, -, h | h | h⟩
    · cases h
    · cases h
    · exact h.2 rfl
  · rintro ⟨-, h, -⟩; cases h
  · rintro ⟨-, -, -, h | h | h⟩
    · cases h
    · cases h
    · exact absurd h.1 (by decide)
  · rintro ⟨h, -⟩; cases h

/-! Each theorem of this file that has hypotheses is applied to concrete data in `Verif/Instances/FormatOpts.lean`. -/

end Succinct
