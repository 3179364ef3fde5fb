import Verif.Proof.Iter
import Verif.Proof.Layout
/-! # Where the iterator's pointers are after moving

`Reach it cs it' cs'`: moving from `it` (chunks `cs` ahead) to `it'` (chunks `cs'` ahead) kept the
header and data pointers in step with the chunks. -/
namespace Sliced

def Reach (it : It) (cs : List Chk) (it' : It) (cs' : List Chk) : Prop :=
  it'.header + 8 * cs'.length = it.header + 8 * cs.length ∧
  it'.data + offSum cs' = it.data + offSum cs ∧
  it'.begin_ + cs'.length = it.begin_ + cs.length ∧ it'.end_ = it.end_

theorem Reach.refl (it : It) (cs : List Chk) : Reach it cs it cs := ⟨rfl, rfl, rfl, rfl⟩

theorem Reach.trans {a b c : It} {x y z : List Chk} (h : Reach a x b y) (k : Reach b y c z) :
    Reach a x c z :=
  ⟨k.1.trans h.1, k.2.1.trans h.2.1, k.2.2.1.trans h.2.2.1, k.2.2.2.trans h.2.2.2⟩

section
variable {B : Nat → Chk → Prop} {m : Mem} {it it' : It} {c : Chk} {cs : List Chk} {lb : Nat}

theorem ItOnP.next_reach (h : ItOnP B m it (c :: cs)) (e : it.next m = .ok it') :
    Reach it (c :: cs) it' cs := by
  obtain ⟨i, e', -, h1, h2, -, h3, h4⟩ := h.next
  rw [e] at e'; cases e'
  refine ⟨?_, ?_, ?_, h2⟩
  · rw [h3, List.length_cons]; omega
  · rw [h4, offSum_cons]; omega
  · rw [h1, List.length_cons]; omega

theorem It.jump_reach (hp : PtrsAt m it.pointers cs) (hl : 32 < cs.length)
    (e : it.jump m = .ok it') : Reach it cs it' (cs.drop 32) := by
  have h0 := (hp 0 (by omega)).2
  simp only [Nat.mul_zero, Nat.add_zero, List.drop_zero] at h0
  unfold It.jump at e
  rw [h0] at e
  cases e
  have ho := offSum_append (cs.take 32) (cs.drop 32)
  rw [List.take_append_drop] at ho
  refine ⟨?_, ?_, ?_, rfl⟩
  · simp only [It.skip_header, List.length_drop, associativity]; omega
  · simp only; omega
  · simp only [It.skip_position, List.length_drop, associativity]; omega

theorem It.advance_loop_reach (f : Nat) (h : ItOnP B m it cs)
    (e : It.advance_loop m lb f it = .ok it') : Reach it cs it' (fromId lb cs) := by
  induction f generalizing it cs with
  | zero => cases e
  | succ f ih =>
    cases cs with
    | nil =>
      simp only [It.advance_loop, h.id_nil, h.has_next_nil, ok_bind, Bool.and_false] at e
      cases e
      exact Reach.refl _ _
    | cons c cs =>
      simp only [It.advance_loop, h.id, h.has_next, ok_bind, Bool.and_true] at e
      by_cases hc : c.id < lb
      · obtain ⟨it1, e1, h1, -⟩ := h.next
        simp only [hc, decide_true, if_true, e1, ok_bind] at e
        have := (h.next_reach e1).trans (ih h1 e)
        simpa [fromId, hc] using this
      · simp only [hc, decide_false] at e
        cases e
        simpa [fromId, hc] using Reach.refl _ (c :: cs)

theorem It.advance_reach (h : ItOnP B m it cs) (e : it.advance m lb = .ok it') :
    Reach it cs it' (fromId lb cs) := It.advance_loop_reach _ h e

theorem It.skip_value_loop_reach (f : Nat) (h : ItOnP B m it cs) (hp : PtrsAt m it.pointers cs)
    (e : It.skip_value_loop m lb f it = .ok it') :
    ∃ k, Reach it cs it' (cs.drop k) ∧ ItOnP B m it' (cs.drop k) ∧
      fromId lb (cs.drop k) = fromId lb cs := by
  induction f generalizing it cs with
  | zero => cases e
  | succ f ih =>
    have hend := h.end_
    unfold It.skip_value_loop at e
    by_cases hl : 32 < cs.length
    · have hc : cs[32]? = some cs[32] := List.getElem?_eq_getElem hl
      have hh := (h.hdr hc).1
      rw [if_pos (by simp only [It.skip_position, associativity]; omega)] at e
      have : it.skip_header = it.header + 8 * 32 := rfl
      rw [this, hh] at e
      simp only [ok_bind] at e
      by_cases hle : cs[32].id ≤ lb
      · rw [if_pos hle] at e
        obtain ⟨it1, e1, h1, p1, he1⟩ := It.jump_spec h hp hl
        rw [e1] at e
        obtain ⟨k, r, h2, hk⟩ := ih h1 p1 e
        refine ⟨32 + k, ?_, ?_, ?_⟩
        · rw [← List.drop_drop]; exact (It.jump_reach hp hl e1).trans r
        · rw [← List.drop_drop]; exact h2
        · rw [← List.drop_drop, hk, ← fromId_drop h.wf hc hle]
      · rw [if_neg hle] at e
        cases e
        exact ⟨0, Reach.refl _ _, h, rfl⟩
    · rw [if_neg (by simp only [It.skip_position, associativity]; omega)] at e
      cases e
      exact ⟨0, Reach.refl _ _, h, rfl⟩

theorem It.skip_to_value_reach (h : ItOnP B m it cs) (hp : PtrsAt m it.pointers cs)
    (e : it.skip_to_value m lb = .ok it') : Reach it cs it' (fromId lb cs) := by
  obtain ⟨it1, k, e1, h1, hk, he1⟩ := It.skip_value_loop_spec (lb := lb) (it.end_ - it.begin_ + 1)
    h hp (by have := h.end_; omega)
  obtain ⟨k', r, h2, hk'⟩ := It.skip_value_loop_reach _ h hp e1
  unfold It.skip_to_value at e
  rw [e1] at e
  have := It.advance_reach h2 e
  rw [hk'] at this
  exact r.trans this

theorem It.skip_position_loop_reach {rank : Nat} (f : Nat) {el r : Nat} (h : ItOnP B m it cs)
    (hp : PtrsAt m it.pointers cs) (e : It.skip_position_loop m rank f it el = .ok (it', r)) :
    ∃ k, k ≤ cs.length ∧ Reach it cs it' (cs.drop k) ∧ ItOnP B m it' (cs.drop k) := by
  induction f generalizing it cs el with
  | zero => cases e
  | succ f ih =>
    have hend := h.end_
    unfold It.skip_position_loop at e
    by_cases hl : 32 < cs.length
    · rw [if_pos (by simp only [It.skip_position, associativity]; omega)] at e
      have h0 := (hp 0 (by omega)).1
      simp only [Nat.mul_zero, Nat.add_zero, List.drop_zero] at h0
      rw [h0] at e
      simp only [ok_bind] at e
      by_cases hgt : u32 (el + cardSum (cs.take 32)) > rank
      · rw [if_pos hgt] at e
        cases e
        exact ⟨0, Nat.zero_le _, Reach.refl _ _, h⟩
      · rw [if_neg hgt] at e
        obtain ⟨it1, e1, h1, p1, he1⟩ := It.jump_spec h hp hl
        rw [e1] at e
        obtain ⟨k, hk, r, h2⟩ := ih h1 p1 e
        rw [List.length_drop] at hk
        refine ⟨32 + k, by omega, ?_, ?_⟩
        · rw [← List.drop_drop]; exact (It.jump_reach hp hl e1).trans r
        · rw [← List.drop_drop]; exact h2
    · rw [if_neg (by simp only [It.skip_position, associativity]; omega)] at e
      cases e
      exact ⟨0, Nat.zero_le _, Reach.refl _ _, h⟩

theorem It.advance_position_loop_reach {rank : Nat} (f : Nat) {el r : Nat} (h : ItOnP B m it cs)
    (e : It.advance_position_loop m rank f it el = .ok (it', r)) :
    ∃ k, k ≤ cs.length ∧ Reach it cs it' (cs.drop k) := by
  induction f generalizing it cs el with
  | zero => cases e
  | succ f ih =>
    cases cs with
    | nil =>
      simp [It.advance_position_loop, h.has_next_nil] at e
      obtain ⟨rfl, -⟩ := e
      exact ⟨0, Nat.zero_le _, Reach.refl _ _⟩
    | cons c cs =>
      simp only [It.advance_position_loop, h.has_next, h.cardinality, if_true, ok_bind] at e
      by_cases hgt : u32 (el + c.card) > rank
      · rw [if_pos hgt] at e
        cases e
        exact ⟨0, Nat.zero_le _, Reach.refl _ _⟩
      · rw [if_neg hgt] at e
        obtain ⟨it1, e1, h1, -⟩ := h.next
        rw [e1] at e
        obtain ⟨k, hk, r⟩ := ih h1 e
        exact ⟨k + 1, by simpa using hk, (h.next_reach e1).trans (by simpa using r)⟩

theorem It.skip_to_position_reach {rank r : Nat} (h : ItOnP B m it cs)
    (hp : PtrsAt m it.pointers cs) (e : it.skip_to_position m rank = .ok (it', r)) :
    ∃ k, k ≤ cs.length ∧ Reach it cs it' (cs.drop k) := by
  unfold It.skip_to_position at e
  cases e1 : It.skip_position_loop m rank (it.end_ - it.begin_ + 1) it 0 with
  | error x => rw [e1] at e; cases e
  | ok p =>
    obtain ⟨it1, el⟩ := p
    rw [e1] at e
    obtain ⟨k, hk, r1, h1⟩ := It.skip_position_loop_reach _ h hp e1
    obtain ⟨k', hk', r2⟩ := It.advance_position_loop_reach _ h1 e
    rw [List.length_drop] at hk'
    refine ⟨k + k', by omega, ?_⟩
    rw [← List.drop_drop]
    exact r1.trans r2

end

end Sliced
