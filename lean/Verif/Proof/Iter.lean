import Verif.Proof.Repr
/-! # The chunk iterator: `advance`, `skip_to_value`, `skip_to_position`; `cardinality` -/
namespace Sliced

theorem ChunksAtP.drop {B : Nat → Chk → Prop} {m : Mem} (k : Nat) {hp dp : Nat} {cs : List Chk}
    (h : ChunksAtP B m hp dp cs) (hk : k ≤ cs.length) :
    ChunksAtP B m (hp + 8 * k) (dp + offSum (cs.take k)) (cs.drop k) := by
  induction k generalizing hp dp cs with
  | zero => simpa using h
  | succ k ih =>
    cases cs with
    | nil => simp at hk
    | cons c cs =>
      have := ih h.2.2 (by simpa using hk)
      simp only [List.take_succ_cons, offSum_cons, List.drop_succ_cons]
      rw [show hp + 8 * (k + 1) = hp + 8 + 8 * k by omega,
        show dp + (c.body.off + offSum (cs.take k)) = dp + c.body.off + offSum (cs.take k) by omega]
      exact this

theorem PtrsAt.drop {m : Mem} {pp : Nat} {cs : List Chk} (h : PtrsAt m pp cs) :
    PtrsAt m (pp + 8) (cs.drop 32) := by
  intro k hk
  rw [List.length_drop] at hk
  have := h (k + 1) (by omega)
  rw [List.drop_drop, show 32 + 32 * k = 32 * (k + 1) by omega,
    show pp + 8 + 8 * k = pp + 8 * (k + 1) by omega]
  exact this

/-- the chunks from id `lb` on -/
def fromId (lb : Nat) (cs : List Chk) : List Chk := cs.dropWhile (fun c => decide (c.id < lb))

theorem fromId_sublist (lb : Nat) (cs : List Chk) : fromId lb cs <:+ cs := List.dropWhile_suffix _

theorem ChunksWF.suffix {cs cs' : List Chk} (h : ChunksWF cs) (hs : cs' <:+ cs) : ChunksWF cs' :=
  ⟨h.1.sublist hs.sublist, fun c hc => h.2 c (hs.sublist.subset hc)⟩

theorem It.advance_loop_spec {B : Nat → Chk → Prop} {m : Mem} {lb : Nat} (f : Nat)
    {it : It} {cs : List Chk} (h : ItOnP B m it cs) (hf : cs.length < f) :
    ∃ it', It.advance_loop m lb f it = .ok it' ∧ ItOnP B m it' (fromId lb cs) ∧
      it'.end_ = it.end_ ∧ it'.pointers = it.pointers := by
  induction cs generalizing f it with
  | nil =>
    obtain ⟨f, rfl⟩ : ∃ g, f = g + 1 := ⟨f - 1, by simp at hf; omega⟩
    refine ⟨it, ?_, h, rfl, rfl⟩
    simp [It.advance_loop, h.id_nil, h.has_next_nil]
  | cons c cs ih =>
    obtain ⟨f, rfl⟩ : ∃ g, f = g + 1 := ⟨f - 1, by simp at hf; omega⟩
    simp only [It.advance_loop, h.id, h.has_next, ok_bind, Bool.and_true]
    by_cases hc : c.id < lb
    · obtain ⟨it1, e1, h1, -, he1, hp1, -⟩ := h.next
      obtain ⟨it2, e2, h2, he2, hp2⟩ := ih f h1 (by simp at hf; omega)
      refine ⟨it2, ?_, ?_, by omega, by omega⟩
      · simp [hc, e1, e2]
      · simpa [fromId, hc] using h2
    · refine ⟨it, by simp [hc], ?_, rfl, rfl⟩
      simpa [fromId, hc] using h

theorem It.advance_spec {B : Nat → Chk → Prop} {m : Mem} {lb : Nat}
    {it : It} {cs : List Chk} (h : ItOnP B m it cs) :
    ∃ it', it.advance m lb = .ok it' ∧ ItOnP B m it' (fromId lb cs) ∧
      it'.end_ = it.end_ ∧ it'.pointers = it.pointers :=
  It.advance_loop_spec _ h (by have := h.end_; omega)

theorem fromId_drop {lb k : Nat} {cs : List Chk} (hw : ChunksWF cs) {c : Chk} (hk : cs[k]? = some c)
    (hc : c.id ≤ lb) : fromId lb cs = fromId lb (cs.drop k) := by
  induction k generalizing cs with
  | zero => simp
  | succ k ih =>
    cases cs with
    | nil => simp at hk
    | cons d cs =>
      rw [List.getElem?_cons_succ] at hk
      have hlt := hw.head_lt c (List.mem_of_getElem? hk)
      rw [List.drop_succ_cons, ← ih hw.tail hk]
      simp only [fromId, List.dropWhile_cons]
      rw [if_pos (by simp; omega)]

theorem ItOnP.hdr {B : Nat → Chk → Prop} {m : Mem} {it : It} {cs : List Chk} (h : ItOnP B m it cs) {k : Nat}
    {c : Chk} (hk : cs[k]? = some c) : HdrAt m (it.header + 8 * k) c := by
  have hlt : k < cs.length := (List.getElem?_eq_some_iff.mp hk).1
  have := h.at_.drop k (by omega)
  rw [List.drop_eq_getElem_cons hlt] at this
  have he : cs[k] = c := (List.getElem?_eq_some_iff.mp hk).2
  rw [he] at this
  exact this.1

theorem It.jump_spec {B : Nat → Chk → Prop} {m : Mem} {it : It} {cs : List Chk} (h : ItOnP B m it cs)
    (hp : PtrsAt m it.pointers cs) (hl : 32 < cs.length) :
    ∃ it', it.jump m = .ok it' ∧ ItOnP B m it' (cs.drop 32) ∧ PtrsAt m it'.pointers (cs.drop 32) ∧
      it'.end_ = it.end_ := by
  have h0 := (hp 0 (by omega)).2
  simp only [Nat.mul_zero, Nat.add_zero, List.drop_zero] at h0
  unfold It.jump
  rw [h0]
  refine ⟨_, rfl, ⟨?_, h.wf.drop 32, ?_⟩, hp.drop, rfl⟩
  · have := h.end_
    simp only [It.skip_position, List.length_drop, associativity]; omega
  · exact h.at_.drop 32 (by omega)

theorem It.skip_value_loop_spec {B : Nat → Chk → Prop} {m : Mem} {lb : Nat} (f : Nat)
    {it : It} {cs : List Chk} (h : ItOnP B m it cs) (hp : PtrsAt m it.pointers cs)
    (hf : cs.length < f) :
    ∃ it' k, It.skip_value_loop m lb f it = .ok it' ∧ ItOnP B m it' (cs.drop k) ∧
      fromId lb (cs.drop k) = fromId lb cs ∧ it'.end_ = it.end_ := by
  induction f generalizing it cs with
  | zero => omega
  | succ f ih =>
    have hend := h.end_
    unfold It.skip_value_loop
    by_cases hl : 32 < cs.length
    · have hc : cs[32]? = some cs[32] := List.getElem?_eq_getElem hl
      have hh := (h.hdr hc).1
      rw [if_pos (by simp only [It.skip_position, associativity]; omega)]
      have : it.skip_header = it.header + 8 * 32 := rfl
      rw [this, hh]
      simp only [ok_bind]
      by_cases hle : cs[32].id ≤ lb
      · rw [if_pos hle]
        obtain ⟨it1, e1, h1, p1, he1⟩ := It.jump_spec h hp hl
        obtain ⟨it2, k, e2, h2, hk, he2⟩ := ih h1 p1 (by rw [List.length_drop]; omega)
        refine ⟨it2, 32 + k, ?_, ?_, ?_, by omega⟩
        · rw [e1]; exact e2
        · rw [← List.drop_drop]; exact h2
        · rw [← List.drop_drop, hk, ← fromId_drop h.wf hc hle]
      · rw [if_neg hle]
        exact ⟨it, 0, rfl, by simpa using h, by simp, rfl⟩
    · rw [if_neg (by simp only [It.skip_position, associativity]; omega)]
      exact ⟨it, 0, rfl, by simpa using h, by simp, rfl⟩

theorem It.skip_to_value_spec {B : Nat → Chk → Prop} {m : Mem} {lb : Nat}
    {it : It} {cs : List Chk} (h : ItOnP B m it cs) (hp : PtrsAt m it.pointers cs) :
    ∃ it', it.skip_to_value m lb = .ok it' ∧ ItOnP B m it' (fromId lb cs) ∧
      it'.end_ = it.end_ := by
  obtain ⟨it1, k, e1, h1, hk, he1⟩ := It.skip_value_loop_spec (lb := lb) (it.end_ - it.begin_ + 1)
    h hp (by have := h.end_; omega)
  obtain ⟨it2, e2, h2, he2, -⟩ := It.advance_spec h1
  refine ⟨it2, ?_, ?_, by omega⟩
  · unfold It.skip_to_value; rw [e1]; exact e2
  · rwa [hk] at h2

theorem fromId_cases (lb : Nat) (cs : List Chk) :
    (fromId lb cs = [] ∧ ∀ c ∈ cs, c.id < lb) ∨
    ∃ pre c post, cs = pre ++ c :: post ∧ fromId lb cs = c :: post ∧ (∀ d ∈ pre, d.id < lb) ∧
      lb ≤ c.id := by
  induction cs with
  | nil => exact Or.inl ⟨rfl, by simp⟩
  | cons c cs ih =>
    by_cases hc : c.id < lb
    · have he : fromId lb (c :: cs) = fromId lb cs := by simp [fromId, hc]
      rcases ih with ⟨h1, h2⟩ | ⟨pre, d, post, h1, h2, h3, h4⟩
      · refine Or.inl ⟨by rw [he, h1], ?_⟩
        intro d hd
        rcases List.mem_cons.mp hd with rfl | hd
        · exact hc
        · exact h2 d hd
      · refine Or.inr ⟨c :: pre, d, post, by simp [h1], by rw [he, h2], ?_, h4⟩
        intro e hd
        rcases List.mem_cons.mp hd with rfl | hd
        · exact hc
        · exact h3 e hd
    · exact Or.inr ⟨[], c, cs, rfl, by simp [fromId, hc], by simp, by omega⟩

/-! ## `cardinality` -/

theorem cardinality_loop_spec {B : Nat → Chk → Prop} {m : Mem} {cs : List Chk} {hp dp c : Nat}
    (hw : ChunksWF cs) (h : ChunksAtP B m hp dp cs) (hc : c + cardSum cs < 4294967296) :
    cardinality_loop m cs.length hp c = .ok (c + cardSum cs) := by
  induction cs generalizing hp dp c with
  | nil => rfl
  | cons d cs ih =>
    rw [cardSum_cons] at hc
    have := hw.head.card_pos
    simp only [List.length_cons, cardinality_loop, h.1.2.1, ok_bind, cardSum_cons]
    rw [show d.card - 1 + 1 = d.card by omega, u32_lt (by omega), ih hw.tail h.2.2 (by omega),
      Nat.add_assoc]

theorem SSeq.cardinality_spec {B : Nat → Chk → Prop} {m : Mem} {s : SSeq} {cs : List Chk}
    (h : SeqAtP B m s cs) : s.cardinality m = .ok (seqElems cs).length := by
  unfold SSeq.cardinality
  have := h.wf.cardSum_lt
  rw [h.chunks, cardinality_loop_spec h.wf h.at_ (by omega), seqElems_length, Nat.zero_add]

/-! ## `skip_to_position` -/

theorem cardSum_append (a b : List Chk) : cardSum (a ++ b) = cardSum a + cardSum b := by
  simp [cardSum]

theorem cardSum_take_drop (k : Nat) (cs : List Chk) :
    cardSum (cs.take k) + cardSum (cs.drop k) = cardSum cs := by
  rw [← cardSum_append, List.take_append_drop]

theorem It.skip_position_loop_spec {B : Nat → Chk → Prop} {m : Mem} {rank : Nat} (f : Nat)
    {it : It} {cs : List Chk} {el : Nat} (h : ItOnP B m it cs) (hp : PtrsAt m it.pointers cs)
    (hel : el + cardSum cs < 4294967296) (hr : el ≤ rank) (hf : cs.length < f) :
    ∃ it' k, It.skip_position_loop m rank f it el = .ok (it', el + cardSum (cs.take k)) ∧
      ItOnP B m it' (cs.drop k) ∧ el + cardSum (cs.take k) ≤ rank ∧ it'.end_ = it.end_ := by
  induction f generalizing it cs el with
  | zero => omega
  | succ f ih =>
    have hend := h.end_
    unfold It.skip_position_loop
    by_cases hl : 32 < cs.length
    · rw [if_pos (by simp only [It.skip_position, associativity]; omega)]
      have h0 := (hp 0 (by omega)).1
      simp only [Nat.mul_zero, Nat.add_zero, List.drop_zero] at h0
      have hsum := cardSum_take_drop 32 cs
      rw [h0]
      simp only [ok_bind]
      rw [u32_lt (by omega)]
      by_cases hgt : el + cardSum (cs.take 32) > rank
      · rw [if_pos hgt]
        exact ⟨it, 0, by simp, by simpa using h, by simpa using hr, rfl⟩
      · rw [if_neg hgt]
        obtain ⟨it1, e1, h1, p1, he1⟩ := It.jump_spec h hp hl
        obtain ⟨it2, k, e2, h2, hk, he2⟩ := ih (el := el + cardSum (cs.take 32)) h1 p1 (by omega)
          (by omega) (by rw [List.length_drop]; omega)
        have hadd : cardSum (cs.take (32 + k))
            = cardSum (cs.take 32) + cardSum ((cs.drop 32).take k) := by
          rw [List.take_add, cardSum_append]
        refine ⟨it2, 32 + k, ?_, ?_, by omega, by omega⟩
        · rw [e1]; simp only [ok_bind]; rw [e2, hadd, Nat.add_assoc]
        · rw [← List.drop_drop]; exact h2
    · rw [if_neg (by simp only [It.skip_position, associativity]; omega)]
      exact ⟨it, 0, by simp, by simpa using h, by simpa using hr, rfl⟩

theorem It.advance_position_loop_spec {B : Nat → Chk → Prop} {m : Mem} {rank : Nat} (f : Nat)
    {it : It} {cs : List Chk} {el : Nat} (h : ItOnP B m it cs)
    (hel : el + cardSum cs < 4294967296) (hr : el ≤ rank) (hf : cs.length < f) :
    ∃ it' k, It.advance_position_loop m rank f it el = .ok (it', el + cardSum (cs.take k)) ∧
      ItOnP B m it' (cs.drop k) ∧ el + cardSum (cs.take k) ≤ rank ∧ it'.end_ = it.end_ ∧
      ∀ c, (cs.drop k).head? = some c → rank < el + cardSum (cs.take k) + c.card := by
  induction cs generalizing f it el with
  | nil =>
    obtain ⟨f, rfl⟩ : ∃ g, f = g + 1 := ⟨f - 1, by simp at hf; omega⟩
    refine ⟨it, 0, ?_, h, by simpa using hr, rfl, by simp⟩
    simp [It.advance_position_loop, h.has_next_nil]
  | cons c cs ih =>
    obtain ⟨f, rfl⟩ : ∃ g, f = g + 1 := ⟨f - 1, by simp at hf; omega⟩
    rw [cardSum_cons] at hel
    simp only [It.advance_position_loop, h.has_next, h.cardinality, if_true, ok_bind]
    rw [u32_lt (by omega)]
    by_cases hgt : el + c.card > rank
    · rw [if_pos hgt]
      refine ⟨it, 0, by simp, by simpa using h, by simpa using hr, rfl, ?_⟩
      intro d hd
      simp at hd
      subst hd
      simpa using hgt
    · rw [if_neg hgt]
      obtain ⟨it1, e1, h1, -, he1, -⟩ := h.next
      obtain ⟨it2, k, e2, h2, hk, he2, hl2⟩ := ih f (el := el + c.card) h1 (by omega) (by omega)
        (by simp at hf; omega)
      refine ⟨it2, k + 1, ?_, by simpa using h2, ?_, by omega, ?_⟩
      · rw [e1]; simp only [ok_bind]; rw [e2]
        simp [Nat.add_assoc]
      · simp only [List.take_succ_cons, cardSum_cons]; omega
      · intro d hd
        have := hl2 d (by simpa using hd)
        simp only [List.take_succ_cons, cardSum_cons]; omega

/-- `skip_to_position(rank)` from a fresh iterator. -/
theorem It.skip_to_position_spec {B : Nat → Chk → Prop} {m : Mem} {rank : Nat}
    {it : It} {cs : List Chk} (h : ItOnP B m it cs) (hp : PtrsAt m it.pointers cs) :
    ∃ it' k, it.skip_to_position m rank = .ok (it', cardSum (cs.take k)) ∧
      ItOnP B m it' (cs.drop k) ∧ cardSum (cs.take k) ≤ rank ∧ it'.end_ = it.end_ ∧
      ∀ c, (cs.drop k).head? = some c → rank < cardSum (cs.take k) + c.card := by
  have htot := h.wf.cardSum_lt
  obtain ⟨it1, k1, e1, h1, hk1, he1⟩ := It.skip_position_loop_spec (rank := rank) (el := 0)
    (it.end_ - it.begin_ + 1) h hp (by omega) (by omega) (by have := h.end_; omega)
  have hsum := cardSum_take_drop k1 cs
  rw [Nat.zero_add] at e1 hk1
  obtain ⟨it2, k2, e2, h2, hk2, he2, hl2⟩ := It.advance_position_loop_spec (rank := rank)
    (el := cardSum (cs.take k1)) (it1.end_ - it1.begin_ + 1) h1 (by omega) (by omega)
    (by have := h1.end_; omega)
  have hadd : cardSum (cs.take (k1 + k2))
      = cardSum (cs.take k1) + cardSum ((cs.drop k1).take k2) := by
    rw [List.take_add, cardSum_append]
  refine ⟨it2, k1 + k2, ?_, ?_, by omega, by omega, ?_⟩
  · unfold It.skip_to_position
    rw [e1]; simp only [ok_bind]
    rw [e2, hadd]
  · rw [← List.drop_drop]; exact h2
  · intro c hc
    rw [← List.drop_drop] at hc
    have := hl2 c hc
    omega

end Sliced
