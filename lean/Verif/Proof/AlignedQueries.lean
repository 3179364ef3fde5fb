import Verif.Model.AlignedQueries
import Verif.Proof.Aligned
import Verif.Proof.IterPos
import Verif.Proof.Contains
import Verif.Proof.Select
import Verif.Proof.NextGeq
/-! # The queries with checked alignment: the same result, or undefined -/
namespace Sliced

/-- the run `x` is the run `y` if `P`, and undefined otherwise -/
def Gated {α : Type} (P : Prop) (x y : Res α) : Prop := (P → x = y) ∧ (¬ P → x = .error .ub)

section
variable {α β : Type} {P Q : Prop} {x y : Res α}

theorem Gated.same (h : x = y) : Gated True x y := ⟨fun _ => h, fun hn => absurd trivial hn⟩

theorem Gated.of_true (hp : P) (h : x = y) : Gated P x y := ⟨fun _ => h, fun hn => absurd hp hn⟩

theorem Gated.iff (h : Gated P x y) (hpq : P ↔ Q) : Gated Q x y :=
  ⟨fun hq => h.1 (hpq.mpr hq), fun hq => h.2 (fun hp => hq (hpq.mp hp))⟩

theorem Gated.left (h : Gated P x y) (f : α → Res β) : Gated P (x >>= f) (y >>= f) :=
  ⟨fun hp => by rw [h.1 hp], fun hp => by rw [h.2 hp]; rfl⟩

theorem Gated.both {f g : α → Res β} {a : α} (h : Gated P x (.ok a)) (k : Gated Q (f a) (g a)) :
    Gated (P ∧ Q) (x >>= f) (g a) := by
  refine ⟨fun hp => ?_, fun hn => ?_⟩
  · rw [h.1 hp.1]; exact k.1 hp.2
  · by_cases hp : P
    · rw [h.1 hp]; exact k.2 (fun hq => hn ⟨hp, hq⟩)
    · rw [h.2 hp]; rfl

theorem Gated.ite {c : Prop} [Decidable c] {x' y' : Res α} (h : c → Gated P x y)
    (k : ¬ c → Gated P x' y') : Gated P (if c then x else x') (if c then y else y') := by
  by_cases hc : c
  · rw [if_pos hc, if_pos hc]; exact h hc
  · rw [if_neg hc, if_neg hc]; exact k hc

end

theorem memWordsA_misaligned {m : Mem} {p : Nat} (h : ¬ p % 8 = 0) :
    memWordsA m p = fun _ => .error .ub := by
  funext i
  unfold memWordsA
  rw [if_neg (by omega)]

theorem gated_words {α : Type} {m : Mem} {p : Nat} (F : Words → Res α)
    (hF : F (fun _ => .error .ub) = .error .ub) :
    Gated (p % 8 = 0) (F (memWordsA m p)) (F (memWords m p)) :=
  ⟨fun h => by rw [memWordsA_aligned h], fun h => by rw [memWordsA_misaligned h, hF]⟩

/-! ## The iterator -/

section
variable {m : Mem} {it : It}

theorem It.idA_eq (h : it.header % 2 = 0) : it.idA m = it.id m := by
  unfold It.idA It.id; rw [rd16a_even h]
theorem It.typeA_eq (h : it.header % 2 = 0) : it.typeA m = it.type m := by
  unfold It.typeA It.type; rw [rd16a_even (by omega)]
theorem It.blocksA_eq (h : it.header % 2 = 0) : it.blocksA m = it.blocks m := by
  unfold It.blocksA It.blocks; rw [rd16a_even (by omega)]
theorem It.cardinalityA_eq (h : it.header % 2 = 0) : it.cardinalityA m = it.cardinality m := by
  unfold It.cardinalityA It.cardinality; rw [rd16a_even (by omega)]
theorem It.nextA_eq (h : it.header % 2 = 0) : it.nextA m = it.next m := by
  unfold It.nextA It.next It.offset; rw [rd16a_even (by omega)]
theorem It.baseA_eq (h : it.header % 2 = 0) : it.baseA m = it.base m := by
  unfold It.baseA It.base; rw [It.idA_eq h]

theorem It.next_even {it' : It} (h : it.header % 2 = 0) (e : it.next m = .ok it') :
    it'.header % 2 = 0 := by
  unfold It.next at e
  obtain ⟨o, -, e⟩ := bind_ok e
  cases e
  simp only; omega

theorem It.advance_loopA_eq {lb : Nat} (f : Nat) {it : It} (h : it.header % 2 = 0) :
    It.advance_loopA m lb f it = It.advance_loop m lb f it := by
  induction f generalizing it with
  | zero => rfl
  | succ f ih =>
    unfold It.advance_loopA It.advance_loop
    rw [It.idA_eq h, It.nextA_eq h]
    cases it.id m with
    | error x => rfl
    | ok i =>
      simp only [ok_bind]
      by_cases hc : (decide (i < lb) && it.has_next) = true
      · rw [if_pos hc, if_pos hc]
        cases e : it.next m with
        | error x => rfl
        | ok it' => exact ih (It.next_even h e)
      · rw [if_neg hc, if_neg hc]

theorem It.advanceA_eq {lb : Nat} (h : it.header % 2 = 0) : it.advanceA m lb = it.advance m lb :=
  It.advance_loopA_eq _ h

theorem rd32a_aligned {a : Nat} (h : a % 4 = 0) : rd32a m a = rd32 m a := by
  unfold rd32a; rw [if_pos h]

theorem rd32a_misaligned {a : Nat} (h : ¬ a % 4 = 0) : rd32a m a = .error .ub := by
  unfold rd32a; rw [if_neg h]

theorem It.jumpA_eq (h : it.pointers % 4 = 0) : it.jumpA m = it.jump m := by
  unfold It.jumpA It.jump; rw [rd32a_aligned (by omega)]

theorem It.jumpA_ub (h : ¬ it.pointers % 4 = 0) : it.jumpA m = .error .ub := by
  unfold It.jumpA; rw [rd32a_misaligned (by omega)]; rfl

theorem It.jump_even {it' : It} (e : it.jump m = .ok it') :
    it'.header = it.header + 256 ∧ it'.pointers = it.pointers + 8 := by
  unfold It.jump at e
  obtain ⟨o, -, e⟩ := bind_ok e
  cases e
  exact ⟨rfl, rfl⟩

theorem It.skip_value_loopA_eq {lb : Nat} (f : Nat) {it : It} (h : it.header % 2 = 0)
    (hp : it.pointers % 4 = 0) :
    It.skip_value_loopA m lb f it = It.skip_value_loop m lb f it := by
  induction f generalizing it with
  | zero => rfl
  | succ f ih =>
    unfold It.skip_value_loopA It.skip_value_loop
    rw [It.jumpA_eq hp, rd16a_even (by simp only [It.skip_header, associativity]; omega)]
    split
    · cases rd16 m it.skip_header with
      | error x => rfl
      | ok i =>
        simp only [ok_bind]
        split
        · cases e : it.jump m with
          | error x => rfl
          | ok it' =>
            obtain ⟨e1, e2⟩ := It.jump_even e
            exact ih (by omega) (by omega)
        · rfl
    · rfl

theorem It.skip_position_loopA_eq {rank : Nat} (f : Nat) {it : It} {el : Nat}
    (hp : it.pointers % 4 = 0) :
    It.skip_position_loopA m rank f it el = It.skip_position_loop m rank f it el := by
  induction f generalizing it el with
  | zero => rfl
  | succ f ih =>
    unfold It.skip_position_loopA It.skip_position_loop
    rw [It.jumpA_eq hp, rd32a_aligned hp]
    split
    · cases rd32 m it.pointers with
      | error x => rfl
      | ok i =>
        simp only [ok_bind]
        split
        · rfl
        · cases e : it.jump m with
          | error x => rfl
          | ok it' =>
            obtain ⟨e1, e2⟩ := It.jump_even e
            exact ih (by omega)
    · rfl

theorem It.advance_position_loopA_eq {rank : Nat} (f : Nat) {it : It} {el : Nat}
    (h : it.header % 2 = 0) :
    It.advance_position_loopA m rank f it el = It.advance_position_loop m rank f it el := by
  induction f generalizing it el with
  | zero => rfl
  | succ f ih =>
    unfold It.advance_position_loopA It.advance_position_loop
    rw [It.cardinalityA_eq h, It.nextA_eq h]
    split
    · cases it.cardinality m with
      | error x => rfl
      | ok i =>
        simp only [ok_bind]
        split
        · rfl
        · cases e : it.next m with
          | error x => rfl
          | ok it' => exact ih (It.next_even h e)
    · rfl

end

/-- `skip_to_value` reads a skip pointer -/
def Jumps (lb : Nat) (cs : List Chk) : Prop := ∃ c, cs[32]? = some c ∧ c.id ≤ lb

section
variable {B : Nat → Chk → Prop} {m : Mem} {it : It} {cs : List Chk}

theorem It.skip_to_value_gated {lb : Nat} (h : ItOnP B m it cs) (hp : PtrsAt m it.pointers cs)
    (hh : it.header % 2 = 0) :
    Gated (Jumps lb cs → it.pointers % 4 = 0) (it.skip_to_valueA m lb) (it.skip_to_value m lb) := by
  obtain ⟨it1, k, e1, h1, hk, he1⟩ := It.skip_value_loop_spec (lb := lb) (it.end_ - it.begin_ + 1)
    h hp (by have := h.end_; omega)
  obtain ⟨k', r, h2, hk'⟩ := It.skip_value_loop_reach _ h hp e1
  have hev : it1.header % 2 = 0 := by have := r.1; omega
  have hrest : ∀ x, x = It.skip_value_loop m lb (it.end_ - it.begin_ + 1) it →
      (x >>= fun it => it.advanceA m lb) = it.skip_to_value m lb := by
    intro x hx
    unfold It.skip_to_value
    rw [hx, e1]
    simp only [ok_bind]
    exact It.advanceA_eq hev
  have hend := h.end_
  by_cases hpa : it.pointers % 4 = 0
  · exact Gated.of_true (fun _ => hpa) (hrest _ (It.skip_value_loopA_eq _ hh hpa))
  · by_cases hl : 32 < cs.length
    · have hc : cs[32]? = some cs[32] := List.getElem?_eq_getElem hl
      have hsk : rd16a m it.skip_header = .ok cs[32].id := by
        rw [rd16a_even (by simp only [It.skip_header, associativity]; omega)]
        exact (h.hdr hc).1
      have hsk' : rd16 m it.skip_header = .ok cs[32].id := (h.hdr hc).1
      have hpos : it.skip_position < it.end_ := by
        simp only [It.skip_position, associativity]; omega
      by_cases hle : cs[32].id ≤ lb
      · refine ⟨fun hj => absurd (hj ⟨_, hc, hle⟩) hpa, fun _ => ?_⟩
        unfold It.skip_to_valueA It.skip_value_loopA
        rw [if_pos hpos, hsk]
        simp only [ok_bind]
        rw [if_pos hle, It.jumpA_ub hpa]
        rfl
      · refine Gated.of_true ?_ (hrest _ ?_)
        · rintro ⟨c, hc', hle'⟩
          rw [hc] at hc'
          cases hc'
          exact absurd hle' hle
        · unfold It.skip_value_loopA It.skip_value_loop
          rw [if_pos hpos, if_pos hpos, hsk, hsk']
          simp only [ok_bind]
          rw [if_neg hle, if_neg hle]
    · have hpos : ¬ it.skip_position < it.end_ := by
        simp only [It.skip_position, associativity]; omega
      refine Gated.of_true ?_ (hrest _ ?_)
      · rintro ⟨c, hc', -⟩
        have := (List.getElem?_eq_some_iff.mp hc').1
        omega
      · unfold It.skip_value_loopA It.skip_value_loop
        rw [if_neg hpos, if_neg hpos]

theorem It.skip_to_position_gated {rank : Nat} (h : ItOnP B m it cs)
    (hp : PtrsAt m it.pointers cs) (hh : it.header % 2 = 0) :
    Gated (32 < cs.length → it.pointers % 4 = 0) (it.skip_to_positionA m rank)
      (it.skip_to_position m rank) := by
  have htot := h.wf.cardSum_lt
  obtain ⟨it1, k1, e1, h1, hk1, he1⟩ := It.skip_position_loop_spec (rank := rank) (el := 0)
    (it.end_ - it.begin_ + 1) h hp (by omega) (by omega) (by have := h.end_; omega)
  obtain ⟨k, hk, r, -⟩ := It.skip_position_loop_reach _ h hp e1
  have hev : it1.header % 2 = 0 := by
    have := r.1
    omega
  have hrest : ∀ x, x = It.skip_position_loop m rank (it.end_ - it.begin_ + 1) it 0 →
      (x >>= fun p => It.advance_position_loopA m rank (p.1.end_ - p.1.begin_ + 1) p.1 p.2)
        = it.skip_to_position m rank := by
    intro x hx
    unfold It.skip_to_position
    rw [hx, e1]
    simp only [ok_bind]
    exact It.advance_position_loopA_eq _ hev
  have hend := h.end_
  by_cases hpa : it.pointers % 4 = 0
  · exact Gated.of_true (fun _ => hpa) (hrest _ (It.skip_position_loopA_eq _ hpa))
  · by_cases hl : 32 < cs.length
    · have hpos : it.skip_position < it.end_ := by
        simp only [It.skip_position, associativity]; omega
      refine ⟨fun hj => absurd (hj hl) hpa, fun _ => ?_⟩
      unfold It.skip_to_positionA It.skip_position_loopA
      rw [if_pos hpos, rd32a_misaligned hpa]
      rfl
    · have hpos : ¬ it.skip_position < it.end_ := by
        simp only [It.skip_position, associativity]; omega
      refine Gated.of_true (fun h => absurd h hl) (hrest _ ?_)
      unfold It.skip_position_loopA It.skip_position_loop
      rw [if_neg hpos, if_neg hpos]

end

/-! ## `cardinality` and `uncompress` -/

theorem cardinality_loopA_eq {m : Mem} (n : Nat) {h c : Nat} (hh : h % 2 = 0) :
    cardinality_loopA m n h c = cardinality_loop m n h c := by
  induction n generalizing h c with
  | zero => rfl
  | succ n ih =>
    unfold cardinality_loopA cardinality_loop
    rw [rd16a_even (by omega)]
    cases rd16 m (h + 2) with
    | error x => rfl
    | ok x => exact ih (by omega)

theorem SSeq.cardinalityA_eq {m : Mem} {s : SSeq} (hh : s.header % 2 = 0) :
    s.cardinalityA m = s.cardinality m := cardinality_loopA_eq _ hh

theorem uncompress_loopA_eq {dbg : Bool} {m : Mem} (n : Nat) {it : It} {prev p u : Nat}
    {out : List Nat} (hh : it.header % 2 = 0) :
    uncompress_loopA dbg m n it prev out p u = uncompress_loop dbg m n it prev out p u := by
  induction n generalizing it prev p u out with
  | zero => rfl
  | succ n ih =>
    have hc : ∀ p, uncompress_chunkA dbg m it out p = uncompress_chunk dbg m it out p := by
      intro p
      unfold uncompress_chunkA uncompress_chunk
      rw [It.typeA_eq hh, It.blocksA_eq hh, It.cardinalityA_eq hh]
    unfold uncompress_loopA uncompress_loop
    rw [It.idA_eq hh, It.nextA_eq hh]
    cases it.id m with
    | error x => rfl
    | ok i =>
      simp only [ok_bind]
      rw [hc]
      cases uncompress_chunk dbg m it out _ with
      | error x => rfl
      | ok q =>
        simp only [ok_bind]
        cases e : it.next m with
        | error x => rfl
        | ok it' => exact ih (It.next_even hh e)

theorem SSeq.uncompressA_eq {dbg : Bool} {m : Mem} {s : SSeq} {out : List Nat}
    (hh : s.header % 2 = 0) : s.uncompressA dbg m out = s.uncompress dbg m out := by
  unfold SSeq.uncompressA SSeq.uncompress
  rw [uncompress_loopA_eq _ (it := s.begin) hh]

/-! ## Where the bitmap of a value is -/

/-- the bitmap of block `q`, if it has one, is at a multiple of 8 -/
def blkAlignedAt (q : Nat) : Nat → List Blk → Prop
  | _, [] => True
  | dp, b :: bs => (b.id = q → 31 ≤ b.vals.length → dp % 8 = 0) ∧ blkAlignedAt q (dp + b.size) bs

/-- the bitmap in which `v` would be, if there is one, is at a multiple of 8 -/
def bodyAlignedAt (v dp : Nat) : Body → Prop
  | .full => True
  | .dense _ => dp % 8 = 0
  | .sparse bs => blkAlignedAt (v / 256) (dp + 2 * bs.length) bs

def chkAlignedAt (v : Nat) : Nat → List Chk → Prop
  | _, [] => True
  | dp, c :: cs => (c.id = v / 65536 → bodyAlignedAt (v % 65536) dp c.body) ∧
      chkAlignedAt v (dp + c.body.off) cs

theorem blkAlignedAt_append (q : Nat) (A B : List Blk) (dp : Nat) :
    blkAlignedAt q dp (A ++ B) ↔ blkAlignedAt q dp A ∧ blkAlignedAt q (dp + blkBytes A) B := by
  induction A generalizing dp with
  | nil => simp [blkAlignedAt, blkBytes]
  | cons a A ih =>
    have hbb : blkBytes (a :: A) = a.size + blkBytes A := by simp [blkBytes]
    rw [List.cons_append]
    simp only [blkAlignedAt]
    rw [ih, hbb, and_assoc, Nat.add_assoc]

theorem blkAlignedAt_none {q : Nat} {A : List Blk} {dp : Nat} (h : ∀ b ∈ A, b.id ≠ q) :
    blkAlignedAt q dp A := by
  induction A generalizing dp with
  | nil => trivial
  | cons a A ih =>
    exact ⟨fun e => absurd e (h a (by simp)), ih (fun b hb => h b (by simp [hb]))⟩

theorem chkAlignedAt_append (v : Nat) (A B : List Chk) (dp : Nat) :
    chkAlignedAt v dp (A ++ B) ↔ chkAlignedAt v dp A ∧ chkAlignedAt v (dp + offSum A) B := by
  induction A generalizing dp with
  | nil => simp [chkAlignedAt, offSum_nil]
  | cons a A ih =>
    rw [List.cons_append]
    simp only [chkAlignedAt]
    rw [ih, offSum_cons, and_assoc, Nat.add_assoc]

theorem chkAlignedAt_none {v : Nat} {A : List Chk} {dp : Nat} (h : ∀ c ∈ A, c.id ≠ v / 65536) :
    chkAlignedAt v dp A := by
  induction A generalizing dp with
  | nil => trivial
  | cons a A ih =>
    exact ⟨fun e => absurd e (h a (by simp)), ih (fun b hb => h b (by simp [hb]))⟩

/-- after moving the iterator -/
theorem chkAlignedAt_reach {v : Nat} {it it' : It} {pre cs : List Chk}
    (h : Reach it (pre ++ cs) it' cs) (hp : ∀ c ∈ pre, c.id ≠ v / 65536) :
    chkAlignedAt v it.data (pre ++ cs) ↔ chkAlignedAt v it'.data cs := by
  have := h.2.1
  rw [offSum_append] at this
  rw [chkAlignedAt_append, show it.data + offSum pre = it'.data by omega]
  exact ⟨fun h => h.2, fun h => ⟨chkAlignedAt_none hp, h⟩⟩

theorem chkAlignedAt_head {v dp : Nat} {c : Chk} {cs : List Chk} (hw : ChunksWF (c :: cs))
    (h : c.id = v / 65536) :
    chkAlignedAt v dp (c :: cs) ↔ bodyAlignedAt (v % 65536) dp c.body := by
  refine ⟨fun hA => hA.1 h, fun hA => ⟨fun _ => hA, chkAlignedAt_none ?_⟩⟩
  intro d hd
  have := hw.head_lt d hd
  omega

theorem blkAlignedAt_head {q dp : Nat} {b : Blk} {bs : List Blk} (hw : BlocksWF (b :: bs))
    (h : b.id = q) : blkAlignedAt q dp (b :: bs) ↔ (31 ≤ b.vals.length → dp % 8 = 0) := by
  refine ⟨fun hA => hA.1 h, fun hA => ⟨fun _ => hA, blkAlignedAt_none ?_⟩⟩
  intro d hd
  have := hw.head_lt d hd
  omega

/-! ## `contains` -/

theorem bitmap_contains_aligned {m : Mem} {p v : Nat} :
    Gated (p % 8 = 0) (bitmap_contains (memWordsA m p) v) (bitmap_contains (memWords m p) v) :=
  gated_words (fun W => bitmap_contains W v) rfl

theorem contains_sparse_chunk_loop_aligned {dbg : Bool} {pad : Nat} {m : Mem} {value end_ : Nat}
    (hv : value < 65536) {bs : List Blk} (f : Nat) {hp dp : Nat} (hw : BlocksWF bs)
    (h : BlocksAt pad m hp dp bs) (he : hp + 2 * bs.length = end_) (hf : bs.length < f) :
    Gated (blkAlignedAt (value / 256) dp bs) (contains_sparse_chunk_loopA dbg m value end_ f hp dp)
      (contains_sparse_chunk_loop dbg m value end_ f hp dp) := by
  induction bs generalizing f hp dp with
  | nil =>
    obtain ⟨f, rfl⟩ : ∃ g, f = g + 1 := ⟨f - 1, by simp at hf; omega⟩
    simp only [List.length_nil, Nat.mul_zero, Nat.add_zero] at he
    unfold contains_sparse_chunk_loopA contains_sparse_chunk_loop
    rw [if_pos he, if_pos he]
    exact Gated.of_true trivial rfl
  | cons b bs ih =>
    obtain ⟨f, rfl⟩ : ∃ g, f = g + 1 := ⟨f - 1, by simp at hf; omega⟩
    simp only [List.length_cons] at he hf
    obtain ⟨h1, h2, h3, h4⟩ := h
    have hbw := hw.head
    have hc1 := hbw.card_pos
    have hcc : b.vals.length - 1 + 1 = b.vals.length := by omega
    have hne : ¬ hp = end_ := by omega
    unfold contains_sparse_chunk_loopA contains_sparse_chunk_loop
    simp only [if_neg hne, h1, h2, ok_bind, hcc]
    by_cases hgt : b.id > value / 256
    · rw [if_pos hgt, if_pos hgt]
      refine Gated.of_true (blkAlignedAt_none ?_) rfl
      intro d hd
      rcases List.mem_cons.mp hd with rfl | hd
      · omega
      · have := hw.head_lt d hd; omega
    · rw [if_neg hgt, if_neg hgt]
      by_cases heq : b.id = value / 256
      · rw [if_pos heq, if_pos heq, cassert_of (by simp; omega)]
        simp only [ok_bind]
        by_cases hc : b.vals.length < 31
        · rw [if_pos hc, if_pos hc]
          exact Gated.of_true ((blkAlignedAt_head hw heq).mpr (fun h => by omega)) rfl
        · rw [if_neg hc, if_neg hc]
          refine bitmap_contains_aligned.iff ?_
          rw [blkAlignedAt_head hw heq]
          exact ⟨fun h _ => h, fun h => h (by omega)⟩
      · rw [if_neg heq, if_neg heq]
        have hcond : blkAlignedAt (value / 256) (dp + b.size) bs ↔
            blkAlignedAt (value / 256) dp (b :: bs) :=
          ⟨fun h => ⟨fun e => absurd e heq, h⟩, fun h => h.2⟩
        exact (ih f hw.tail h4 (by omega) (by omega)).iff hcond

theorem SSeq.contains_aligned {dbg : Bool} {m : Mem} {s : SSeq} {cs : List Chk}
    (hh : s.header % 2 = 0) (h : SeqAt 0 m s cs) {v : Nat} (hv : v < 4294967296) :
    Gated ((Jumps (v / 65536) cs → s.pointers % 4 = 0) ∧ chkAlignedAt v s.data cs)
      (s.containsA dbg m v) (s.contains dbg m v) := by
  unfold SSeq.containsA SSeq.contains
  obtain ⟨it, e, hit, -⟩ := It.skip_to_value_spec (lb := v / 65536) h.begin h.ptrs
  have hA := It.skip_to_value_gated (lb := v / 65536) h.begin h.ptrs hh
  have hre := It.skip_to_value_reach h.begin h.ptrs e
  rw [e] at hA
  simp only [e, ok_bind]
  refine Gated.both hA (g := fun it => do
    let i ← it.id m
    if i = v / 65536 then do
      let t ← it.type m
      if t = type_sparse then do
        let blocks ← it.blocks m
        contains_sparse_chunk dbg m it.data blocks (v % 65536)
      else if t = type_dense then bitmap_contains (memWords m it.data) (v % 65536)
      else if t = type_full then return true
      else unreachable dbg
    else return false) ?_
  have hev : it.header % 2 = 0 := by
    have := hre.1
    simp only [SSeq.begin] at this
    omega
  simp only [It.idA_eq hev, It.typeA_eq hev, It.blocksA_eq hev]
  rcases fromId_cases (v / 65536) cs with ⟨h1, h2⟩ | ⟨pre, c, post, h1, h2, h3, h4⟩
  · rw [h1] at hit
    rw [hit.id_nil]
    simp only [ok_bind]
    rw [if_neg (by omega), if_neg (by omega)]
    refine Gated.of_true (chkAlignedAt_none ?_) rfl
    intro c hc
    have := h2 c hc
    omega
  · rw [h2] at hit hre
    rw [hit.id]
    simp only [ok_bind]
    rw [h1] at hre
    have hal : chkAlignedAt v s.data cs ↔ chkAlignedAt v it.data (c :: post) := by
      have := chkAlignedAt_reach (v := v) hre (fun d hd => by have := h3 d hd; omega)
      rw [h1]; exact this
    by_cases hid : c.id = v / 65536
    · rw [if_pos hid, if_pos hid]
      have hbody : BodyAt 0 m it.data c.body := hit.at_.2.1
      have hbw := hit.wf.head.2
      rw [chkAlignedAt_head hit.wf hid] at hal
      cases hb : c.body with
      | full =>
        rw [hit.type_full hb]
        refine Gated.of_true ?_ rfl
        rw [hal, hb]; trivial
      | dense vs =>
        rw [hit.type_dense hb]
        simp only [ok_bind, type_sparse, type_dense, if_true, Nat.reduceEqDiff, if_false]
        refine bitmap_contains_aligned.iff ?_
        rw [hal, hb]; exact Iff.rfl
      | sparse bs =>
        rw [hit.type_sparse hb, hit.blocks_sparse hb]
        rw [hb] at hbody hbw
        have h1 := List.length_pos_iff.mpr hbw.1
        have h2 := hbw.2.length_le
        simp only [ok_bind, if_true, contains_sparse_chunk, contains_sparse_chunkA]
        rw [cassert_of (by simp; omega)]
        simp only [ok_bind]
        rw [show it.data + bs.length * 2 = it.data + 2 * bs.length by omega]
        refine (contains_sparse_chunk_loop_aligned (by omega) _ hbw.2 hbody rfl (by omega)).iff ?_
        rw [hal, hb]; exact Iff.rfl
    · rw [if_neg hid, if_neg hid]
      refine Gated.of_true ?_ rfl
      rw [hal]
      refine chkAlignedAt_none ?_
      intro d hd
      rcases List.mem_cons.mp hd with rfl | hd
      · exact hid
      · have := hit.wf.head_lt d hd; omega

end Sliced
