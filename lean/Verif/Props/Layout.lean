import Verif.Props.IntVector
/-! Property C101: how the elements of an `IntVector` lie in its blocks. -/
namespace Succinct
open Spec

/-- C101, `is_block_sized` and `is_aligned` (int_vector.rs:287-295): the first says whether elements are blocks, the
second whether no element, at any index, has bits in two blocks. -/
theorem C101_aligned (c : Cfg) (h : IsBlk w) {s : IV w} (hr : IvReach c w k s xs) :
    s.isBlockSized = decide (k = w) ∧
    ∃ b, s.isAligned = .ok b ∧ (b = true ↔ ∀ i, i * k / w = (i * k + (k - 1)) / w) := by
  have hR := hr.rep h
  have hk := hR.pos
  have hkw := hR.le
  have hw := h.pos
  unfold IV.isBlockSized IV.isAligned
  rw [hR.eb]
  refine ⟨rfl, decide (w % k = 0), ?_, ?_⟩
  · rw [remN, if_neg (by omega)]; rfl
  rw [decide_eq_true_iff]
  refine ⟨fun hd i => ?_, fun hall => ?_⟩
  · obtain ⟨m, rfl⟩ := Nat.dvd_of_mod_eq_zero hd
    rw [← Nat.div_div_eq_div_mul, ← Nat.div_div_eq_div_mul, Nat.mul_div_cancel _ hk, Nat.mul_comm i k,
      Nat.mul_add_div hk, Nat.div_eq_of_lt (show k - 1 < k by omega), Nat.add_zero]
  · have h1 := hall (w / k)
    have h2 := Nat.div_add_mod w k
    rw [Nat.mul_comm] at h2
    have h3 := Nat.mod_lt w hk
    by_cases h0 : w % k = 0
    · exact h0
    · rw [Nat.div_eq_of_lt (show w / k * k < w by omega)] at h1
      have := Nat.div_pos (show w ≤ w / k * k + (k - 1) by omega) hw
      omega

example : (⟨4, ⟨3, [0x21#8, 0x03#8]⟩⟩ : IV 8).isAligned = .ok true ∧ (⟨3, ⟨3, [0xff#8, 0x01#8]⟩⟩ : IV 8).isAligned = .ok false ∧
    (⟨8, ⟨1, [0x21#8]⟩⟩ : IV 8).isBlockSized = true ∧ (⟨4, ⟨3, [0x21#8, 0x03#8]⟩⟩ : IV 8).isBlockSized = false := by decide

theorem unpack_take (k : Nat) (hk : 0 < k) (bits : List Bool) (n : Nat) :
    unpack k (bits.take n) = (unpack k bits).take (n / k) := by
  have hmin : min n bits.length / k = min (n / k) (bits.length / k) := by
    rcases Nat.le_total n bits.length with h | h
    · rw [Nat.min_eq_left h, Nat.min_eq_left (Nat.div_le_div_right h)]
    · rw [Nat.min_eq_right h, Nat.min_eq_right (Nat.div_le_div_right h)]
  apply List.ext_getElem
  · rw [length_unpack, List.length_take, List.length_take, length_unpack, hmin]
  · intro i h1 h2
    rw [List.getElem_take, getElem_unpack, getElem_unpack]
    rw [length_unpack, List.length_take, hmin] at h1
    have h3 : (i + 1) * k ≤ n := (Nat.le_div_iff_mul_le hk).1 (by omega)
    rw [Nat.succ_mul] at h3
    rw [List.drop_take, List.take_take, Nat.min_eq_left (by omega)]

private theorem IR.reads (h : IsBlk w) {s : IV w} (hR : IR c w k s xs) :
    s.len = xs.length ∧ ∀ i < 2 ^ c.usz, (do let y ← s.get c i; .ok y.toNat) = expectR xs[i]? := by
  refine ⟨hR.len, fun i hi => ?_⟩
  by_cases hil : i < xs.length
  · obtain ⟨y, h5, h6⟩ := hR.get_ok h hil
    rw [h5, List.getElem?_eq_getElem hil, ← h6]; rfl
  · rw [hR.get_panic h (by omega) (fun _ => hi), List.getElem?_eq_none (by omega)]; rfl

/-- C101, `block_truncate` (int_vector.rs:271-273): the elements that lie wholly in the first `n` blocks remain. -/
theorem C101_block_truncate (c : Cfg) (h : IsBlk w) {s : IV w} (hr : IvReach c w k s xs) (n : Nat) :
    ∃ s', s.blockTruncate c n = .ok s' ∧ s'.len = min xs.length (n * w / k) ∧
      ∀ i < 2 ^ c.usz, (do let y ← s'.get c i; .ok y.toNat) = expectR (xs.take (n * w / k))[i]? := by
  have hR := hr.rep h
  obtain ⟨s', h1, h2⟩ := hR.blockTruncate_ok h n
  rw [unpack_take k hR.pos, unpack_packBits k hR.pos xs hR.lt] at h2
  obtain ⟨h3, h4⟩ := h2.reads h
  exact ⟨s', h1, by rw [h3, List.length_take, Nat.min_comm], h4⟩

/-- C101, `push_block` and `pop_block` of `VectorBase` (vector_base.rs:150-160), applied to the store of an
`IntVector`. Pushing a block makes elements of all bits that precede it, including what was padding, and of its
own; popping returns the last block as stored and keeps the elements that lie wholly in the others. -/
theorem C101_push_pop_block (c : Cfg) (h : IsBlk w) {s : IV w} (hr : IvReach c w k s xs) :
    (∀ x : BitVec w, Fits c.usz w (blocksFor w (xs.length * k) * w + w) →
      ∃ b, VB.pushBlock c s.base k x = .ok b ∧
        b.len = (blocksFor w (xs.length * k) + 1) * w / k ∧
        (∀ i < 2 ^ c.usz, (do let y ← (⟨k, b⟩ : IV w).get c i; .ok y.toNat) =
          expectR (unpack k (padTo w (packBits k xs) ++ blockBits x))[i]?)) ∧
    (∃ b o, VB.popBlock c s.base k = .ok (o, b) ∧
      o.map blockBits = (if xs = [] then none
        else some ((padTo w (packBits k xs)).drop ((blocksFor w (xs.length * k) - 1) * w))) ∧
      b.len = (blocksFor w (xs.length * k) - 1) * w / k ∧
      ∀ i < 2 ^ c.usz, (do let y ← (⟨k, b⟩ : IV w).get c i; .ok y.toNat) =
        expectR (xs.take ((blocksFor w (xs.length * k) - 1) * w / k))[i]?) := by
  have hR := hr.rep h
  have hw := h.pos
  have hpl := length_padTo hw (packBits k xs)
  rw [length_packBits] at hpl
  refine ⟨fun x hf => ?_, ?_⟩
  · obtain ⟨b, h1, h2⟩ := hR.rep.pushBlock_ok h hR.pos hR.le (by rw [length_packBits]; exact hf) x
    obtain ⟨h3, h4⟩ := (hR.ofFloor h2).reads h
    refine ⟨b, h1, ?_, h4⟩
    have h3' : b.len = _ := h3
    rw [h3', length_unpack, List.length_append, hpl, length_blockBits, Nat.succ_mul]
  · obtain ⟨b, h1, h2⟩ := hR.rep.popBlock_ok h hR.pos hR.le
    have hle := Nat.le_total 1 (blocksFor w (xs.length * k))
    have hblk : (blocksFor w (xs.length * k) - 1) * w ≤ xs.length * k := by
      rw [← Nat.not_lt, ← Nat.not_le]
      intro hn
      apply hn
      by_cases h0 : blocksFor w (xs.length * k) = 0
      · rw [h0]; simp
      · have := (lt_blocksFor hw (i := blocksFor w (xs.length * k) - 1) (n := xs.length * k)).1 (by omega)
        omega
    rw [length_packBits] at h2
    have h5 : (padTo w (packBits k xs)).take ((blocksFor w (xs.length * k) - 1) * w) =
        (packBits k xs).take ((blocksFor w (xs.length * k) - 1) * w) := by
      unfold padTo
      rw [List.take_append_of_le_length (by rw [length_packBits]; exact hblk)]
    rw [h5] at h2
    have h6 := hR.ofFloor h2
    rw [unpack_take k hR.pos, unpack_packBits k hR.pos xs hR.lt] at h6
    obtain ⟨h3, h4⟩ := h6.reads h
    refine ⟨b, _, h1, ?_, ?_, h4⟩
    · have hb := hR.rep.blocks
      rw [length_packBits] at hb
      by_cases hx : xs = []
      · subst hx
        rw [if_pos rfl, List.length_nil, Nat.zero_mul, show blocksFor w 0 = 0 from by
          unfold blocksFor; rw [Nat.zero_add]; exact Nat.div_eq_of_lt (by omega)] at *
        rw [List.length_eq_zero_iff.1 hb]; rfl
      · have hne : s.base.vec ≠ [] := by
          intro hv
          rw [hv, List.length_nil] at hb
          have h7 := le_blocksFor_mul (xs.length * k) hw
          rw [← hb, Nat.zero_mul] at h7
          have h8 := Nat.mul_pos (List.length_pos_iff.2 hx) hR.pos
          omega
        rw [if_neg hx, List.getLast?_eq_some_getLast hne, Option.map_some, ← hR.rep.array hw, ← hb]
        have h7 := List.dropLast_concat_getLast hne
        congr 1
        conv => rhs; rw [← h7]
        have h8 := length_arrayBits s.base.vec.dropLast
        rw [List.length_dropLast] at h8
        rw [arrayBits_append, List.length_append, List.length_dropLast, List.length_singleton, Nat.add_sub_cancel,
          List.drop_append, List.drop_of_length_le (by omega), h8, Nat.sub_self, List.drop_zero, List.nil_append,
          arrayBits_cons]
        simp [arrayBits]
    · have h3' : b.len = _ := h3
      rw [h3', List.length_take, Nat.min_eq_left]
      rw [Nat.div_le_iff_le_mul_add_pred hR.pos]
      rw [Nat.mul_comm k]
      omega

example : VB.popBlock ⟨true, .p64, true⟩ (⟨4, [0x3f#8, 0xf0#8, 0xff#8]⟩ : VB 8) 6 = .ok (some 0xff#8, ⟨2, [0x3f#8, 0x00#8]⟩) ∧
    VB.pushBlock ⟨true, .p64, true⟩ (⟨2, [0x3f#8, 0x00#8]⟩ : VB 8) 6 0xff#8 = .ok ⟨4, [0x3f#8, 0x00#8, 0xff#8]⟩ ∧
    VB.popBlock ⟨true, .p64, true⟩ (⟨0, []⟩ : VB 8) 6 = .ok (none, ⟨0, []⟩) := by decide

/-- C101: a reachable vector has no blocks exactly if it has no elements, so `VectorBase::is_empty`, which looks at the
blocks, and `IntVec::is_empty`, which looks at the length, agree. -/
theorem C101_is_empty (c : Cfg) (h : IsBlk w) {s : IV w} (hr : IvReach c w k s xs) :
    s.base.isEmpty = decide (xs = []) ∧ s.isEmpty = decide (xs = []) := by
  have hR := hr.rep h
  have hb := hR.rep.blocks
  have hl : s.len = xs.length := hR.len
  rw [length_packBits] at hb
  unfold VB.isEmpty IV.isEmpty
  rcases xs with _ | ⟨x, xs⟩
  · rw [List.length_nil, Nat.zero_mul, show blocksFor w 0 = 0 from by
      unfold blocksFor; rw [Nat.zero_add]; exact Nat.div_eq_of_lt (by have := h.pos; omega)] at hb
    rw [List.length_eq_zero_iff.1 hb]
    exact ⟨rfl, by rw [hl]; rfl⟩
  · have h7 := le_blocksFor_mul ((x :: xs).length * k) h.pos
    have h8 := Nat.mul_pos (show 0 < (x :: xs).length from Nat.succ_pos _) hR.pos
    have hv : s.base.vec ≠ [] := by
      intro hv
      rw [hv, List.length_nil] at hb
      rw [← hb, Nat.zero_mul] at h7
      omega
    refine ⟨by simpa using hv, ?_⟩
    rw [hl]; simp

example : (⟨0, []⟩ : VB 8).isEmpty = true ∧ (⟨1, [0x05#8]⟩ : VB 8).isEmpty = false ∧ (⟨6, ⟨1, [0x05#8]⟩⟩ : IV 8).isEmpty = false := by
  decide

/-! Each theorem of this file that has hypotheses is applied to concrete data in `Verif/Instances/Layout.lean`. -/

end Succinct
