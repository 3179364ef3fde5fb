import Verif.Proof.GeqEnum
/-!
# `skip_to_value` of an iterator that is not fresh

The jump over 32 chunks adds the offset of the next unused group of chunks, whatever the position is.
Here the position of the data pointer after the skip is computed in general.
-/
namespace Sliced

/-- An iterator whose headers are those of the chunks `cs`; nothing is said of its data pointer. -/
structure HdrOn (m : Mem) (it : It) (cs : List Chk) : Prop where
  end_ : it.end_ = it.begin_ + cs.length
  wf : ChunksWF cs
  hdr : ∀ k c, cs[k]? = some c → HdrAt m (it.header + 8 * k) c

theorem ItOn.hdrOn {pad : Nat} {m : Mem} {it : It} {cs : List Chk} (h : ItOn pad m it cs) :
    HdrOn m it cs := ⟨h.end_, h.wf, fun _ _ hk => h.hdr hk⟩

/-- `it'` is `it` after passing the first `n` of `cs`, except for pointers and data -/
def Moved (it it' : It) (n : Nat) : Prop :=
  it'.end_ = it.end_ ∧ it'.begin_ = it.begin_ + n ∧ it'.header = it.header + 8 * n

theorem Moved.trans {a b c : It} {n k : Nat} (h : Moved a b n) (h' : Moved b c k) :
    Moved a c (n + k) := by
  obtain ⟨h1, h2, h3⟩ := h
  obtain ⟨g1, g2, g3⟩ := h'
  exact ⟨by omega, by omega, by omega⟩

theorem HdrOn.moved {m : Mem} {it it' : It} {cs : List Chk} {n : Nat} (h : HdrOn m it cs)
    (hm : Moved it it' n) (hn : n ≤ cs.length) : HdrOn m it' (cs.drop n) := by
  obtain ⟨h1, h2, h3⟩ := hm
  refine ⟨?_, h.wf.drop n, ?_⟩
  · rw [h1, h2, h.end_, List.length_drop]; omega
  · intro k c hk
    rw [List.getElem?_drop] at hk
    have := h.hdr _ _ hk
    rw [h3, show it.header + 8 * n + 8 * k = it.header + 8 * (n + k) by omega]
    exact this

theorem HdrOn.step {m : Mem} {it : It} {c : Chk} {cs : List Chk} (h : HdrOn m it (c :: cs)) :
    it.id m = .ok c.id ∧ it.has_next = true ∧
      ∃ it', it.next m = .ok it' ∧ Moved it it' 1 ∧ it'.pointers = it.pointers ∧
        it'.data = it.data + c.body.off := by
  have h0 := h.hdr 0 c rfl
  have hend := h.end_
  rw [List.length_cons] at hend
  have hn : it.has_next = true := by unfold It.has_next; exact decide_eq_true (by omega)
  rw [Nat.mul_zero, Nat.add_zero] at h0
  refine ⟨?_, hn, ⟨it.pointers, it.header + 8, it.data + c.body.off, it.begin_ + 1, it.end_⟩, ?_, ⟨rfl, rfl, rfl⟩, rfl, rfl⟩
  · unfold It.id; rw [hn]; simp only [if_true]; exact h0.1
  · unfold It.next It.offset; rw [h0.2.2.2]; rfl

/-- the number of chunks before the first with an id not below `lb` -/
def before (lb : Nat) (cs : List Chk) : Nat := (cs.takeWhile (fun c => decide (c.id < lb))).length

theorem fromId_eq_drop (lb : Nat) (cs : List Chk) : fromId lb cs = cs.drop (before lb cs) := by
  unfold fromId before
  induction cs with
  | nil => rfl
  | cons c cs ih =>
    by_cases hc : c.id < lb
    · simp [hc, ih]
    · simp [hc]

theorem before_le (lb : Nat) (cs : List Chk) : before lb cs ≤ cs.length := by
  unfold before
  exact (List.takeWhile_sublist _).length_le

theorem It.advance_loop_hdr {m : Mem} {lb : Nat} (f : Nat) {it : It} {cs : List Chk}
    (h : HdrOn m it cs) (hf : cs.length < f) :
    ∃ it', It.advance_loop m lb f it = .ok it' ∧ Moved it it' (before lb cs) ∧
      it'.pointers = it.pointers ∧ it'.data = it.data + offSum (cs.take (before lb cs)) := by
  induction cs generalizing f it with
  | nil =>
    obtain ⟨f, rfl⟩ : ∃ g, f = g + 1 := ⟨f - 1, by simp at hf; omega⟩
    have hend := h.end_
    have hn : it.has_next = false := by
      unfold It.has_next; exact decide_eq_false (by simp at hend; omega)
    refine ⟨it, ?_, ⟨rfl, rfl, rfl⟩, rfl, rfl⟩
    simp [It.advance_loop, It.id, hn]
  | cons c cs ih =>
    obtain ⟨f, rfl⟩ : ∃ g, f = g + 1 := ⟨f - 1, by simp at hf; omega⟩
    obtain ⟨h1, h2, it1, e1, m1, p1, d1⟩ := h.step
    simp only [It.advance_loop, h1, h2, ok_bind, Bool.and_true]
    by_cases hc : c.id < lb
    · obtain ⟨it2, e2, m2, p2, d2⟩ := ih f (h.moved m1 (by simp)) (by simp at hf; omega)
      have hb : before lb (c :: cs) = 1 + before lb cs := by
        unfold before; simp [hc]; omega
      refine ⟨it2, ?_, ?_, by rw [p2, p1], ?_⟩
      · simp [hc, e1, e2]
      · rw [hb]; exact m1.trans m2
      · rw [hb, Nat.add_comm 1, List.take_succ_cons, offSum_cons, d2, d1]; omega
    · have hb : before lb (c :: cs) = 0 := by unfold before; simp [hc]
      refine ⟨it, by simp [hc], ?_, rfl, ?_⟩
      · rw [hb]; exact ⟨rfl, rfl, rfl⟩
      · rw [hb]; rfl

/-- the number of chunks with ids up to `lb` -/
def upTo (lb : Nat) (cs : List Chk) : Nat := (cs.filter (fun c => decide (c.id ≤ lb))).length

theorem upTo_cons_le {lb : Nat} {c : Chk} {cs : List Chk} (h : c.id ≤ lb) :
    upTo lb (c :: cs) = upTo lb cs + 1 := by
  unfold upTo; rw [List.filter_cons_of_pos (by simpa using h)]; rfl

theorem upTo_zero {lb : Nat} {c : Chk} {cs : List Chk} (hw : ChunksWF (c :: cs)) (h : lb < c.id) :
    upTo lb (c :: cs) = 0 := by
  unfold upTo
  rw [List.length_eq_zero_iff, List.filter_eq_nil_iff]
  intro d hd
  rcases List.mem_cons.mp hd with rfl | hd
  · simp; omega
  · have := hw.head_lt d hd; simp; omega

theorem upTo_of_getElem {lb k : Nat} {cs : List Chk} (hw : ChunksWF cs) {c : Chk}
    (hk : cs[k]? = some c) (hc : c.id ≤ lb) :
    upTo lb cs = k + upTo lb (cs.drop k) ∧ 1 ≤ upTo lb (cs.drop k) := by
  induction k generalizing cs with
  | zero =>
    cases cs with
    | nil => simp at hk
    | cons d cs =>
      simp at hk; subst hk
      rw [List.drop_zero, upTo_cons_le hc]; omega
  | succ k ih =>
    cases cs with
    | nil => simp at hk
    | cons d cs =>
      rw [List.getElem?_cons_succ] at hk
      have := hw.head_lt c (List.mem_of_getElem? hk)
      rw [upTo_cons_le (by omega), List.drop_succ_cons]
      have := ih hw.tail hk
      omega

theorem upTo_le_of_getElem {lb k : Nat} {cs : List Chk} (hw : ChunksWF cs) {c : Chk}
    (hk : cs[k]? = some c) (hc : lb < c.id) : upTo lb cs ≤ k := by
  induction k generalizing cs with
  | zero =>
    cases cs with
    | nil => simp at hk
    | cons d cs =>
      simp at hk; subst hk
      rw [upTo_zero hw hc]; omega
  | succ k ih =>
    cases cs with
    | nil => simp at hk
    | cons d cs =>
      rw [List.getElem?_cons_succ] at hk
      have := ih hw.tail hk
      by_cases hd : d.id ≤ lb
      · rw [upTo_cons_le hd]; omega
      · rw [upTo_zero hw (by omega)]; omega

theorem upTo_le_length (lb : Nat) (cs : List Chk) : upTo lb cs ≤ cs.length :=
  List.length_filter_le _ _

/-- bytes of `n` chunks from the `p`-th on -/
def offRange (cs : List Chk) (p n : Nat) : Nat := offSum ((cs.drop p).take n)

theorem offSum_append (a b : List Chk) : offSum (a ++ b) = offSum a + offSum b := by
  simp [offSum]

theorem offRange_add (cs : List Chk) (p n k : Nat) :
    offRange cs p (n + k) = offRange cs p n + offRange cs (p + n) k := by
  unfold offRange
  rw [List.take_add, offSum_append, List.drop_drop]

theorem It.skip_value_loop_hdr {m : Mem} {lb base : Nat} {all : List Chk} (f : Nat)
    {it : It} {g p : Nat} (h : HdrOn m it (all.drop p)) (hptrs : PtrsAt m base all)
    (hp : it.pointers = base + 8 * g) (hgp : 32 * g ≤ p) (hpl : p ≤ all.length)
    (hf : (all.drop p).length < f) :
    ∃ it' j, It.skip_value_loop m lb f it = .ok it' ∧ j = (upTo lb (all.drop p) - 1) / 32 ∧
      p + 32 * j ≤ all.length ∧ Moved it it' (32 * j) ∧ it'.pointers = base + 8 * (g + j) ∧
      it'.data = it.data + offRange all (32 * g) (32 * j) ∧
      fromId lb (all.drop (p + 32 * j)) = fromId lb (all.drop p) := by
  induction f generalizing it g p with
  | zero => omega
  | succ f ih =>
    have hend := h.end_
    have hstop : (upTo lb (all.drop p) ≤ 32) → ∃ it' j, (.ok it : Res It) = .ok it' ∧
        j = (upTo lb (all.drop p) - 1) / 32 ∧
        p + 32 * j ≤ all.length ∧ Moved it it' (32 * j) ∧ it'.pointers = base + 8 * (g + j) ∧
        it'.data = it.data + offRange all (32 * g) (32 * j) ∧
        fromId lb (all.drop (p + 32 * j)) = fromId lb (all.drop p) := by
      intro hu
      refine ⟨it, 0, rfl, by omega, by omega, ⟨rfl, rfl, rfl⟩, by omega, ?_, by simp⟩
      simp [offRange, offSum]
    unfold It.skip_value_loop
    by_cases hl : 32 < (all.drop p).length
    · have hc : (all.drop p)[32]? = some (all.drop p)[32] := List.getElem?_eq_getElem hl
      generalize (all.drop p)[32] = c at hc
      have hh := (h.hdr _ _ hc).1
      rw [if_pos (by simp only [It.skip_position, associativity]; omega)]
      have : it.skip_header = it.header + 8 * 32 := rfl
      rw [this, hh]
      simp only [ok_bind]
      by_cases hle : c.id ≤ lb
      · rw [if_pos hle]
        rw [List.length_drop] at hl
        have hptr := (hptrs g (by omega)).2
        have ejump : it.jump m = .ok ⟨base + 8 * (g + 1), it.header + 8 * 32,
            it.data + offRange all (32 * g) 32, it.begin_ + 32, it.end_⟩ := by
          unfold It.jump
          rw [hp, hptr]
          rfl
        have hm : Moved it ⟨base + 8 * (g + 1), it.header + 8 * 32,
            it.data + offRange all (32 * g) 32, it.begin_ + 32, it.end_⟩ 32 := ⟨rfl, rfl, rfl⟩
        have h1 := h.moved hm (by rw [List.length_drop]; omega)
        rw [List.drop_drop] at h1
        obtain ⟨it2, j, e2, hj, hpj, m2, p2, d2, f2⟩ := ih (g := g + 1) (p := p + 32) h1 rfl
          (by omega) (by omega) (by rw [List.length_drop] at hf ⊢; omega)
        obtain ⟨u1, u2⟩ := upTo_of_getElem h.wf hc hle
        rw [List.drop_drop] at u1 u2
        refine ⟨it2, j + 1, ?_, by omega, by omega, ?_, by omega, ?_, ?_⟩
        · rw [ejump]; exact e2
        · rw [show 32 * (j + 1) = 32 + 32 * j by omega]; exact hm.trans m2
        · rw [d2, show 32 * (j + 1) = 32 + 32 * j by omega, offRange_add,
            show 32 * (g + 1) = 32 * g + 32 by omega, Nat.add_assoc]
        · rw [show p + 32 * (j + 1) = p + 32 + 32 * j by omega, f2,
            fromId_drop h.wf hc hle, List.drop_drop]
      · rw [if_neg hle]
        exact hstop (upTo_le_of_getElem h.wf hc (by omega))
    · rw [if_neg (by simp only [It.skip_position, associativity]; omega)]
      exact hstop (Nat.le_trans (upTo_le_length _ _) (by omega))

/-- Where `skip_to_value` ends: on the right chunk, with the data pointer moved by the bytes of the
first unused groups instead of the bytes of the chunks jumped over. -/
theorem It.skip_to_value_hdr {m : Mem} {lb base : Nat} {all : List Chk}
    {it : It} {g p : Nat} (h : HdrOn m it (all.drop p)) (hptrs : PtrsAt m base all)
    (hp : it.pointers = base + 8 * g) (hgp : 32 * g ≤ p) (hpl : p ≤ all.length) :
    ∃ it' j, it.skip_to_value m lb = .ok it' ∧ j = (upTo lb (all.drop p) - 1) / 32 ∧
      Moved it it' (before lb (all.drop p)) ∧ 32 * j ≤ before lb (all.drop p) ∧
      it'.pointers = base + 8 * (g + j) ∧
      it'.data + offRange all p (32 * j)
        = it.data + offRange all (32 * g) (32 * j) + offRange all p (before lb (all.drop p)) := by
  obtain ⟨it1, j, e1, hj, hpj, m1, p1, d1, f1⟩ := It.skip_value_loop_hdr (lb := lb)
    (it.end_ - it.begin_ + 1) h hptrs hp hgp hpl (by have := h.end_; omega)
  have h1 := h.moved m1 (by rw [List.length_drop]; omega)
  rw [List.drop_drop] at h1
  obtain ⟨it2, e2, m2, p2, d2⟩ := It.advance_loop_hdr (lb := lb) (it1.end_ - it1.begin_ + 1) h1
    (by have := h1.end_; omega)
  have hb : before lb (all.drop p) = 32 * j + before lb (all.drop (p + 32 * j)) := by
    have := congrArg List.length f1
    rw [fromId_eq_drop, fromId_eq_drop] at this
    simp only [List.length_drop] at this
    have b1 := before_le lb (all.drop (p + 32 * j))
    have b2 := before_le lb (all.drop p)
    rw [List.length_drop] at b1 b2
    omega
  refine ⟨it2, j, ?_, hj, ?_, by omega, by rw [p2, p1], ?_⟩
  · unfold It.skip_to_value; rw [e1]; exact e2
  · rw [hb]; exact m1.trans m2
  · rw [d2, d1, hb, offRange_add all p (32 * j)]
    show _ + offRange all (p + 32 * j) _ + _ = _
    omega

/-- The skip is right if the bytes are. -/
theorem It.skip_to_value_aligned {pad : Nat} {m : Mem} {lb base : Nat} {all : List Chk}
    {it : It} {g p : Nat} (h : ItOn pad m it (all.drop p)) (hptrs : PtrsAt m base all)
    (hp : it.pointers = base + 8 * g) (hgp : 32 * g ≤ p) (hpl : p ≤ all.length)
    (hal : offRange all p (32 * ((upTo lb (all.drop p) - 1) / 32))
      = offRange all (32 * g) (32 * ((upTo lb (all.drop p) - 1) / 32))) :
    ∃ it', it.skip_to_value m lb = .ok it' ∧ ItOn pad m it' (fromId lb (all.drop p)) ∧
      it'.pointers = base + 8 * (g + (upTo lb (all.drop p) - 1) / 32) ∧
      Moved it it' (before lb (all.drop p)) ∧
      it'.data = it.data + offRange all p (before lb (all.drop p)) := by
  obtain ⟨it', j, e, hj, hm, -, hp', hd⟩ := It.skip_to_value_hdr (lb := lb) h.hdrOn hptrs hp hgp hpl
  rw [← hj] at hal ⊢
  refine ⟨it', e, ?_, hp', hm, by omega⟩
  have hb := before_le lb (all.drop p)
  have h1 := h.hdrOn.moved hm hb
  rw [fromId_eq_drop]
  refine ⟨h1.end_, h1.wf, ?_⟩
  have := h.at_.drop _ hb
  rw [hm.2.2, show it'.data = it.data + offSum ((all.drop p).take (before lb (all.drop p))) by
    show _ = _ + offRange all p _; omega]
  exact this

end Sliced
