import Verif.Proof.TailIntersect
import Verif.Proof.Union
/-! # The exact number of bytes that must be readable in pairwise_union -/
namespace Sliced

/-! ## Merging by keys -/

/-- `A` for the elements of the first list whose key is not in the second, `B` for those of the second
whose key is not in the first, `C` for two with the same key -/
def Merged {α : Type} (key : α → Nat) (A B : α → Prop) (C : α → α → Prop) (L R : List α) : Prop :=
  (∀ a ∈ L, (∀ b ∈ R, key a ≠ key b) → A a) ∧ (∀ b ∈ R, (∀ a ∈ L, key a ≠ key b) → B b) ∧
    Pairs key C L R

section
variable {α : Type} {key : α → Nat} {A B : α → Prop} {C : α → α → Prop} {L R : List α}

theorem merged_nil_left : Merged key A B C [] R ↔ ∀ b ∈ R, B b :=
  ⟨fun h b hb => h.2.1 b hb (fun _ ha => (nomatch ha)),
    fun h => ⟨fun _ ha => (nomatch ha), fun b hb _ => h b hb, fun _ ha => (nomatch ha)⟩⟩

theorem merged_nil_right : Merged key A B C L [] ↔ ∀ a ∈ L, A a :=
  ⟨fun h a ha => h.1 a ha (fun _ hb => (nomatch hb)),
    fun h => ⟨fun a ha _ => h a ha, fun _ hb => (nomatch hb), fun _ _ _ hb => (nomatch hb)⟩⟩

theorem merged_swap : Merged key A B C L R ↔ Merged key B A (fun b a => C a b) R L := by
  unfold Merged
  rw [pairs_swap (C := C) (D := fun b a => C a b) (fun _ _ => Iff.rfl)]
  constructor
  · rintro ⟨h1, h2, h3⟩
    exact ⟨fun b hb h => h2 b hb (fun a ha e => h a ha e.symm),
      fun a ha h => h1 a ha (fun b hb e => h b hb e.symm), h3⟩
  · rintro ⟨h1, h2, h3⟩
    exact ⟨fun a ha h => h2 a ha (fun b hb e => h b hb e.symm),
      fun b hb h => h1 b hb (fun a ha e => h a ha e.symm), h3⟩

theorem merged_left {a : α} (h : ∀ b ∈ R, key a < key b) :
    (A a ∧ Merged key A B C L R) ↔ Merged key A B C (a :: L) R := by
  constructor
  · rintro ⟨h1, h2, h3, h4⟩
    refine ⟨fun x hx hn => ?_, fun b hb hn => ?_, fun x hx b hb e => ?_⟩
    · rcases List.mem_cons.mp hx with rfl | hx
      · exact h1
      · exact h2 x hx hn
    · exact h3 b hb (fun x hx => hn x (List.mem_cons_of_mem _ hx))
    · rcases List.mem_cons.mp hx with rfl | hx
      · have := h b hb; omega
      · exact h4 x hx b hb e
  · rintro ⟨h2, h3, h4⟩
    refine ⟨h2 a List.mem_cons_self (fun b hb => by have := h b hb; omega),
      fun x hx hn => h2 x (List.mem_cons_of_mem _ hx) hn, fun b hb hn => ?_,
      fun x hx => h4 x (List.mem_cons_of_mem _ hx)⟩
    refine h3 b hb (fun x hx => ?_)
    rcases List.mem_cons.mp hx with rfl | hx
    · have := h b hb; omega
    · exact hn x hx

theorem merged_right {b : α} (h : ∀ a ∈ L, key b < key a) :
    (B b ∧ Merged key A B C L R) ↔ Merged key A B C L (b :: R) := by
  rw [merged_swap (L := L) (R := b :: R), merged_swap (L := L) (R := R)]
  exact merged_left h

theorem merged_both {a b : α} (he : key a = key b) (ha : ∀ x ∈ L, key a < key x)
    (hb : ∀ x ∈ R, key b < key x) :
    (C a b ∧ Merged key A B C L R) ↔ Merged key A B C (a :: L) (b :: R) := by
  unfold Merged
  rw [← pairs_cons he ha hb]
  constructor
  · rintro ⟨h1, h2, h3, h4⟩
    refine ⟨fun x hx hn => ?_, fun y hy hn => ?_, h1, h4⟩
    · rcases List.mem_cons.mp hx with rfl | hx
      · exact absurd he (hn b List.mem_cons_self)
      · exact h2 x hx (fun y hy => hn y (List.mem_cons_of_mem _ hy))
    · rcases List.mem_cons.mp hy with rfl | hy
      · exact absurd he (hn a List.mem_cons_self)
      · exact h3 y hy (fun x hx => hn x (List.mem_cons_of_mem _ hx))
  · rintro ⟨h2, h3, h1, h4⟩
    refine ⟨h1, fun x hx hn => h2 x (List.mem_cons_of_mem _ hx) (fun y hy => ?_),
      fun y hy hn => h3 y (List.mem_cons_of_mem _ hy) (fun x hx => ?_), h4⟩
    · rcases List.mem_cons.mp hy with rfl | hy
      · have := ha x hx; omega
      · exact hn y hy
    · rcases List.mem_cons.mp hx with rfl | hx
      · have := hb y hy; omega
      · exact hn x hx
end

/-! ## Blocks -/

/-- The bytes that the merge of two blocks of bytes reads: the vector code decodes what is left of
one of the two; it is also started, with nothing to decode, at the end of the second block. -/
def UBytes (El Er dl dr : Nat) (L R : List Nat) : Prop :=
  (restOf L R ≠ [] → dl + L.length + lane (restOf L R).length ≤ El + (restOf L R).length) ∧
  (dr + R.length ≠ dl + L.length →
    dr + R.length + lane (restOf R L).length ≤ Er + (restOf R L).length)

theorem restOf_length_le (A B : List Nat) : (restOf A B).length ≤ A.length :=
  List.length_filter_le _ _

theorem ss_union_block_tail {dbg : Bool} {m : Mem} {lol El lor Er l r base out : Nat}
    {L R buf : List Nat} (fl : Fence m lol El) (fr : Fence m lor Er)
    (hL : L ≠ []) (hR : R ≠ []) (cL : L.length < 31) (cR : R.length < 31)
    (sL : L.Pairwise (· < ·)) (sR : R.Pairwise (· < ·))
    (bL : ∀ v ∈ L, v < 256) (bR : ∀ v ∈ R, v < 256) (hl : BytesAt m l L) (hr : BytesAt m r R)
    (b1 : lol ≤ l) (b2 : l + L.length ≤ El) (b3 : lor ≤ r) (b4 : r + R.length ≤ Er)
    (hpos : (l = r ∧ L = R) ∨ Apart l L.length r R.length)
    (hb : base + 256 ≤ 4294967296) (hcap : out + (uni L R).length + 23 ≤ buf.length) :
    Exact (UBytes El Er l r L R) (ss_union_block dbg m l r L.length R.length base buf out)
      (fun v => v.1 = (uni L R).length ∧ Wrote buf out ((uni L R).map (base + ·)) 23 v.2) := by
  have pL := List.length_pos_iff.mpr hL
  have pR := List.length_pos_iff.mpr hR
  unfold ss_union_block
  rw [cassert_of (by simp; omega), cassert_of (by simp; omega)]
  simp only [ok_bind]
  obtain ⟨l', r', L', R', W, o, e, u, emp, eq, hl', hr', el', er', gl, gr, w, q1, q2⟩ :=
    ss_union_block_loop_spec (m := m) (base := base) (out := out) (size := 0) (buf := buf)
      (L.length + R.length + 1) hL hR sL sR bL bR hl hr rfl rfl (by omega) hb (by omega)
  have lo := w.length
  rw [uni_of_nil emp] at u
  have hlen := congrArg List.length u
  rw [List.length_append, List.length_append] at hlen
  rw [Nat.zero_add] at e
  rw [Nat.add_zero] at w
  unfold UBytes
  rw [← q1, ← q2]
  have n1 : L'.length ≤ L.length := q1 ▸ restOf_length_le L R
  have n2 : R'.length ≤ R.length := q2 ▸ restOf_length_le R L
  have rle : ∀ n, room n ≤ n + 23 := fun n => by unfold room; split <;> (try split) <;> omega
  have r1 := rle L'.length
  have r2 := rle R'.length
  simp only [e, ok_bind]
  -- the right rest
  have right : ∀ o1, Wrote o (out + W.length) (L'.map (base + ·)) 23 o1 →
      Exact (r + R.length ≠ l + L.length → r + R.length + lane R'.length ≤ Er + R'.length)
        (if r' ≠ l + L.length then do
          let (n, buf) ← decode_sparse_block m r' (r + R.length - r') base o1
            (out + (W.length + L'.length))
          pure (W.length + L'.length + n, buf)
        else pure (W.length + L'.length, o1) : Res (Nat × List Nat))
        (fun v => v.1 = (uni L R).length ∧ Wrote buf out ((uni L R).map (base + ·)) 23 v.2) := by
    intro o1 w1
    have l1 := w1.length
    have hw : Wrote buf out ((W ++ L').map (base + ·)) 23 o1 := by
      rw [List.map_append]
      exact Wrote.append (w.mono (by omega)) (by simpa using w1)
    by_cases h : r' = l + L.length
    · have hR' : R' = [] := by
        rcases hpos with ⟨h1, h2⟩ | h1 | h1
        · have := eq h2
          rcases emp with h3 | h3
          · rw [← this]; exact h3
          · exact h3
        · omega
        · omega
      subst hR'
      rw [if_neg (by simpa using h)]
      refine Exact.of_ok (fun hne => absurd ?_ hne) ⟨_, rfl, ?_, ?_⟩
      · simp at er'; omega
      · simp at hlen ⊢; omega
      · rw [u]; simpa using hw
    · obtain ⟨k1, k2⟩ := decode_sparse_block_tail (base := base) (p := out + (W.length + L'.length))
        (out := o1) fr (show lor ≤ r' by omega) (by omega) hr' (by omega) hb (by omega)
      have hne : r + R.length ≠ l + L.length := by
        intro h0
        rcases hpos with ⟨h1, h2⟩ | h1 | h1
        · have := eq h2
          have : R' = [] := by
            rcases emp with h3 | h3
            · rw [← this]; exact h3
            · exact h3
          subst this
          simp at er'
          omega
        · omega
        · omega
      rw [if_pos (by simpa using h), show r + R.length - r' = R'.length by omega]
      constructor
      · intro hT
        have := hT hne
        obtain ⟨o2, e2, w2⟩ := k1 ⟨by omega, by omega⟩
        refine ⟨_, by rw [e2]; rfl, by simp only; omega, ?_⟩
        rw [u, ← List.append_assoc, List.map_append]
        refine Wrote.append hw ?_
        have := w2.mono (k' := 23) (by omega)
        simpa [Nat.add_assoc] using this
      · intro hT
        rw [k2 (fun hk => hT (fun _ => by omega))]; rfl
  by_cases h : l' = l + L.length
  · have hL' : L' = [] := List.length_eq_zero_iff.mp (by omega)
    rw [if_neg (by simpa using h)]
    have w1 : Wrote o (out + W.length) (L'.map (base + ·)) 23 o := by
      rw [hL']; exact Wrote.nil _ _ _
    have := right o w1
    rw [show W.length + L'.length = W.length by rw [hL']; rfl] at this
    simp only [pure_ok, ok_bind]
    exact this.congr ⟨fun h2 => ⟨fun h1 => absurd hL' h1, h2⟩, fun h2 => h2.2⟩
  · have hL' : L' ≠ [] := by
      intro h0; subst h0; simp at el'; omega
    rw [if_pos (by simpa using h), show l + L.length - l' = L'.length by omega]
    obtain ⟨k1, k2⟩ := decode_sparse_block_tail (base := base) (p := out + W.length)
      (out := o) fl (show lol ≤ l' by omega) (by omega) hl' (by omega) hb (by omega)
    by_cases hT : l + L.length + lane L'.length ≤ El + L'.length
    · obtain ⟨o1, e1, w1⟩ := k1 ⟨by omega, by omega⟩
      have w1 := w1.mono (k' := 23) (by omega)
      simp only [e1, pure_ok, ok_bind]
      exact (right o1 w1).congr ⟨fun h2 => ⟨fun _ => hT, h2⟩, fun h2 => h2.2⟩
    · refine ⟨fun h2 => absurd (h2.1 hL') hT, fun _ => ?_⟩
      rw [k2 (fun hk => hT (by omega))]; rfl

/-- the bytes that are read for two blocks with the same id -/
def UBlk (El Er dl dr : Nat) (a b : Blk) : Prop :=
  a.vals.length < 31 → b.vals.length < 31 → UBytes El Er dl dr a.vals b.vals

theorem union_blocks_tail {dbg : Bool} {m : Mem} {lol El lor Er l r base out : Nat} {a b : Blk}
    {x4 buf : List Nat} (fl : Fence m lol El) (fr : Fence m lor Er) (wa : a.WF) (wb : b.WF)
    (ha : BlkAt 0 m l a) (hb : BlkAt 0 m r b)
    (b1 : lol ≤ l) (b2 : l + a.size ≤ El) (b3 : lor ≤ r) (b4 : r + b.size ≤ Er)
    (hpos : (l = r ∧ a = b) ∨ Apart l a.size r b.size) (hx : WordsBuf 4 x4)
    (hbase : base + 256 ≤ 4294967296)
    (hcap : out + (uni a.vals b.vals).length + 23 ≤ buf.length) :
    Exact (UBlk El Er l r a b)
      (union_blocks dbg m l r a.vals.length b.vals.length base x4 buf out)
      (fun v => v.1 = (uni a.vals b.vals).length ∧ WordsBuf 4 v.2.1 ∧
        Wrote buf out ((uni a.vals b.vals).map (base + ·)) 23 v.2.2) := by
  have sa := wa.2.2.1
  have sb := wb.2.2.1
  unfold union_blocks UBlk
  by_cases ca : a.vals.length < 31 <;> by_cases cb : b.vals.length < 31
  · obtain ⟨h1, h2⟩ := ha.sparse ca
    obtain ⟨h3, h4⟩ := hb.sparse cb
    unfold Blk.size bytes_by_cardinality at hpos b2 b4
    rw [if_pos ca] at hpos b2
    rw [if_pos cb] at hpos b4
    have hpos' : (l = r ∧ a.vals = b.vals) ∨ Apart l a.vals.length r b.vals.length := by
      rcases hpos with ⟨h, rfl⟩ | h
      · exact Or.inl ⟨h, rfl⟩
      · exact Or.inr h
    obtain ⟨t1, t2⟩ := ss_union_block_tail (dbg := dbg) fl fr wa.2.1 wb.2.1 ca cb sa sb wa.2.2.2
      wb.2.2.2 h1 h3 b1 b2 b3 b4 hpos' hbase hcap
    constructor
    · intro hT
      obtain ⟨⟨n, o⟩, e, hn, w⟩ := t1 (hT ca cb)
      refine ⟨(n, x4, o), ?_, hn, hx, w⟩
      simp [block_type, ca, cb, e]
    · intro hT
      have e := t2 (fun h => hT (fun _ _ => h))
      simp [block_type, ca, cb, e]
  · obtain ⟨h1, h2⟩ := ha.sparse ca
    have h3 := hb.dense cb
    rw [uni_comm sa sb] at hcap ⊢
    obtain ⟨x', o, e, hx', w⟩ := ds_union_block_spec h3 sb wb.2.2.2 wa.2.1 sa wa.2.2.2 h1 hx hbase
      (out := out) (buf := buf) (by omega)
    refine Exact.of_ok (fun _ h => absurd h cb) ⟨(_, x', o), ?_, rfl, hx', w.mono (by omega)⟩
    simp [block_type, ca, cb, type_sparse, type_dense, block_pair, e]
  · obtain ⟨h1, h2⟩ := hb.sparse cb
    have h3 := ha.dense ca
    obtain ⟨x', o, e, hx', w⟩ := ds_union_block_spec h3 sa wa.2.2.2 wb.2.1 sb wb.2.2.2 h1 hx hbase
      (out := out) (buf := buf) (by omega)
    refine Exact.of_ok (fun h => absurd h ca) ⟨(_, x', o), ?_, rfl, hx', w.mono (by omega)⟩
    simp [block_type, ca, cb, type_sparse, type_dense, block_pair, e]
  · have h1 := ha.dense ca
    have h3 := hb.dense cb
    obtain ⟨o, e, w⟩ := or_bitmaps_spec (A := a.vals) (B := b.vals) h1 h3 (fun _ _ => rfl) sa sb
      wa.2.2.2 wb.2.2.2 (base := base) (out := out) (buf := buf) hbase (by omega) (by omega)
    refine Exact.of_ok (fun h => absurd h ca) ⟨(_, x4, o), ?_, rfl, hx, w.mono (by omega)⟩
    simp [block_type, ca, cb, type_sparse, type_dense, block_pair, e, block_size_in_64bit_words]

theorem Exact.bind {α β : Type} {T U : Prop} {x : Res α} {f : α → Res β} {S : α → Prop}
    {S' : β → Prop} (h : Exact T x S) (k : ∀ v, S v → Exact U (f v) S') :
    Exact (T ∧ U) (x >>= f) S' := by
  constructor
  · rintro ⟨t, u⟩
    obtain ⟨v, e, hv⟩ := h.1 t
    rw [e]
    exact (k v hv).1 u
  · intro n
    by_cases t : T
    · obtain ⟨v, e, hv⟩ := h.1 t
      rw [e]
      exact (k v hv).2 (fun u => n ⟨t, u⟩)
    · rw [h.2 t]; rfl

theorem Exact.mono {α : Type} {T : Prop} {x : Res α} {S S' : α → Prop} (h : Exact T x S)
    (k : ∀ v, S v → S' v) : Exact T x S' :=
  ⟨fun t => by obtain ⟨v, e, hv⟩ := h.1 t; exact ⟨v, e, k v hv⟩, h.2⟩

theorem room_le' (n : Nat) : room n ≤ n + 23 := by
  unfold room; split <;> (try split) <;> omega

theorem decode_macro_tail {m : Mem} {lo E base p d out : Nat} {b : Blk} {bs : List Blk}
    {buf : List Nat} (hF : Fence m lo E) (hw : b.WF) (h : BlocksAt 0 m p d (b :: bs))
    (h1 : lo ≤ d) (h2 : d + b.size ≤ E) (hb : base + 65536 ≤ 4294967296)
    (hcap : out + b.elems.length + 23 ≤ buf.length) :
    Exact (d + lane b.vals.length ≤ E) (decode_macro m base p d buf out)
      (fun v => v.1 = out + b.elems.length ∧ v.2.2 = (d + b.size, p + 2) ∧
        Wrote buf out (b.elems.map (base + ·)) 23 v.2.1) := by
  obtain ⟨g1, g2, g3, -⟩ := h
  have hid := hw.1
  have hc := hw.card_pos
  have hl : b.elems.length = b.vals.length := List.length_map _
  rw [hl] at hcap
  have hr := room_le' b.vals.length
  obtain ⟨k1, k2⟩ := decode_blk_tail (p := out) (out := buf) (base := base + b.id * 256) hF hw g3 h1 h2
    (by omega) (by omega)
  have hdec : decode_macro m base p d buf out = (do
      let (n, buf) ← (if b.vals.length < 31 then
          decode_sparse_block m d b.vals.length (base + b.id * 256) buf out
        else decode_bitmap (memWords m d) 4 (base + b.id * 256) buf out)
      pure (out + n, buf, d + b.size, p + 2)) := by
    unfold decode_macro decode_block block_type
    simp only [g1, g2, ok_bind, Nat.sub_add_cancel hc,
      u32_lt (show base + b.id * 256 < 4294967296 by omega)]
    by_cases hc' : b.vals.length < 31
    · rw [if_pos hc', if_pos rfl, if_pos hc']; rfl
    · rw [if_neg hc', if_neg (by simp [type_dense, type_sparse]), if_neg hc']; rfl
  rw [hdec]
  constructor
  · intro hT
    obtain ⟨o, e, w⟩ := k1 ⟨by omega, hT⟩
    rw [e]
    exact ⟨_, rfl, by rw [hl], rfl, by rw [← map_elems]; exact w⟩
  · intro hT
    rw [k2 (fun h => hT h.2)]; rfl

theorem decode_rest_tail {m : Mem} {lo E end_ base : Nat} {P : Nat → Nat} (hF : Fence m lo E)
    (f : Nat) {p d out : Nat} {bs : List Blk} {buf : List Nat} (hw : BlocksWF bs)
    (h : BlocksAt 0 m p d bs) (hp : BlksPlaced P d bs) (h1 : lo ≤ d) (h2 : d + blkBytes bs ≤ E)
    (he : p + 2 * bs.length = end_) (hf : bs.length < f) (hb : base + 65536 ≤ 4294967296)
    (hcap : out + (blkElems bs).length + 23 ≤ buf.length) :
    Exact (∀ b ∈ bs, P b.id + lane b.vals.length ≤ E) (decode_rest m end_ base f p d buf out)
      (fun v => v.1 = out + (blkElems bs).length ∧
        Wrote buf out ((blkElems bs).map (base + ·)) 23 v.2) := by
  induction bs generalizing f p d out buf with
  | nil =>
    obtain ⟨f, rfl⟩ : ∃ g, f = g + 1 := ⟨f - 1, by simp at hf; omega⟩
    simp at he
    refine Exact.of_ok (fun _ h => (nomatch h)) ⟨(out, buf), ?_, rfl,
      by simpa [blkElems] using Wrote.nil _ _ _⟩
    simp [decode_rest, he]
  | cons b bs ih =>
    obtain ⟨f, rfl⟩ : ∃ g, f = g + 1 := ⟨f - 1, by simp at hf; omega⟩
    rw [blkElems_cons', List.length_append] at hcap
    rw [blkBytes_cons'] at h2
    simp only [List.length_cons] at he hf
    have hmac := decode_macro_tail (base := base) (out := out) (buf := buf) hF hw.head h h1 (by omega) hb
      (by omega)
    have hcomp : Exact ((d + lane b.vals.length ≤ E) ∧ (∀ b ∈ bs, P b.id + lane b.vals.length ≤ E))
        (decode_rest m end_ base (f + 1) p d buf out)
        (fun v => v.1 = out + (blkElems (b :: bs)).length ∧
          Wrote buf out ((blkElems (b :: bs)).map (base + ·)) 23 v.2) := by
      unfold decode_rest
      rw [if_pos (by omega)]
      refine hmac.bind ?_
      rintro ⟨o, buf1, d1, p1⟩ ⟨rfl, hdp, w1⟩
      simp only [Prod.mk.injEq] at hdp
      obtain ⟨rfl, rfl⟩ := hdp
      simp only at w1
      have l1 := w1.length
      refine (ih f (p := p + 2) (d := d + b.size) (out := out + b.elems.length)
        (buf := buf1) hw.tail h.2.2.2 hp.2 (by omega) (by omega) (by omega) (by omega) (by omega)).mono ?_
      rintro ⟨o, buf2⟩ ⟨ho, w2⟩
      refine ⟨?_, ?_⟩
      · simp only at ho ⊢; rw [ho, blkElems_cons', List.length_append]; omega
      · rw [blkElems_cons', List.map_append]
        exact Wrote.append w1 (by simpa using w2)
    refine hcomp.congr ?_
    rw [← hp.1]
    constructor
    · rintro ⟨t1, t2⟩ c hc
      rcases List.mem_cons.mp hc with rfl | hc
      · exact t1
      · exact t2 c hc
    · exact fun t => ⟨t b List.mem_cons_self, fun c hc => t c (List.mem_cons_of_mem _ hc)⟩

/-- the rest of `ss_union_chunk` from a state of its loop -/
def ssFrom (dbg : Bool) (m : Mem) (end_l end_r base fl fr f : Nat) (s : UState) :
    Res (Nat × List Nat × List Nat) := do
  let s ← ss_union_chunk_loop dbg m end_l end_r base f s
  let (o, buf) ← decode_rest m end_l base fl s.l s.data_l s.buf s.out
  let (o, buf) ← decode_rest m end_r base fr s.r s.data_r buf o
  return (o, s.x4, buf)

/-- the bytes that are read of the blocks of two lists -/
def UBlocks (El Er : Nat) (P Q : Nat → Nat) (L R : List Blk) : Prop :=
  Merged Blk.id (fun a => P a.id + lane a.vals.length ≤ El) (fun b => Q b.id + lane b.vals.length ≤ Er)
    (fun a b => UBlk El Er (P a.id) (Q b.id) a b) L R

/-- the two loops behind the merge -/
theorem ssEnd_tail {m : Mem} {lol El lor Er end_l end_r base fl fr : Nat} {P Q : Nat → Nat}
    (hFl : Fence m lol El) (hFr : Fence m lor Er) {s : UState} {L R : List Blk}
    (emp : L = [] ∨ R = []) (wL : BlocksWF L) (wR : BlocksWF R)
    (al : BlocksAt 0 m s.l s.data_l L) (ar : BlocksAt 0 m s.r s.data_r R)
    (pl : BlksPlaced P s.data_l L) (pr : BlksPlaced Q s.data_r R)
    (b1 : lol ≤ s.data_l) (b2 : s.data_l + blkBytes L ≤ El)
    (b3 : lor ≤ s.data_r) (b4 : s.data_r + blkBytes R ≤ Er)
    (el : s.l + 2 * L.length = end_l) (er : s.r + 2 * R.length = end_r)
    (hx : WordsBuf 4 s.x4) (h1 : L.length < fl) (h2 : R.length < fr)
    (hb : base + 65536 ≤ 4294967296)
    (hcap : s.out + (uni (blkElems L) (blkElems R)).length + 23 ≤ s.buf.length) :
    Exact (UBlocks El Er P Q L R)
      (do
        let (o, buf) ← decode_rest m end_l base fl s.l s.data_l s.buf s.out
        let (o, buf) ← decode_rest m end_r base fr s.r s.data_r buf o
        return (o, s.x4, buf))
      (fun v => v.1 = s.out + (uni (blkElems L) (blkElems R)).length ∧ WordsBuf 4 v.2.1 ∧
        Wrote s.buf s.out ((uni (blkElems L) (blkElems R)).map (base + ·)) 23 v.2.2) := by
  have emp' : blkElems L = [] ∨ blkElems R = [] :=
    emp.imp (fun h => by rw [h]; rfl) (fun h => by rw [h]; rfl)
  rw [uni_of_nil emp'] at hcap ⊢
  rw [List.length_append] at hcap
  have t1 := decode_rest_tail (base := base) (out := s.out) (buf := s.buf) hFl fl wL al pl b1 b2 el h1
    hb (by omega)
  have hcomp : Exact ((∀ a ∈ L, P a.id + lane a.vals.length ≤ El) ∧
        (∀ b ∈ R, Q b.id + lane b.vals.length ≤ Er) ∧ True)
      (do
        let (o, buf) ← decode_rest m end_l base fl s.l s.data_l s.buf s.out
        let (o, buf) ← decode_rest m end_r base fr s.r s.data_r buf o
        return (o, s.x4, buf))
      (fun v => v.1 = s.out + (blkElems L ++ blkElems R).length ∧ WordsBuf 4 v.2.1 ∧
        Wrote s.buf s.out ((blkElems L ++ blkElems R).map (base + ·)) 23 v.2.2) := by
    refine t1.bind ?_
    rintro ⟨o, buf1⟩ ⟨rfl, w1⟩
    have l1 := w1.length
    simp only at l1 w1
    refine (decode_rest_tail (base := base) (out := s.out + (blkElems L).length) (buf := buf1) hFr fr wR
      ar pr b3 b4 er h2 hb (by omega)).bind ?_
    rintro ⟨o, buf2⟩ ⟨rfl, w2⟩
    refine Exact.of_ok trivial ⟨_, rfl, ?_, hx, ?_⟩
    · simp only [List.length_append]; omega
    · rw [List.map_append]
      exact Wrote.append w1 (by simpa using w2)
  refine hcomp.congr ?_
  rcases emp with h | h
  · subst h
    rw [UBlocks, merged_nil_left]
    exact ⟨fun t => t.2.1, fun t => ⟨fun _ h => (nomatch h), t, trivial⟩⟩
  · subst h
    rw [UBlocks, merged_nil_right]
    exact ⟨fun t => t.1, fun t => ⟨t, fun _ h => (nomatch h), trivial⟩⟩

theorem ssFrom_tail {dbg : Bool} {m : Mem} {lol El lor Er end_l end_r base fl fr : Nat}
    {P Q : Nat → Nat} (hFl : Fence m lol El) (hFr : Fence m lor Er) (f : Nat)
    {s : UState} {L R : List Blk}
    (hL : L ≠ []) (hR : R ≠ []) (wL : BlocksWF L) (wR : BlocksWF R)
    (al : BlocksAt 0 m s.l s.data_l L) (ar : BlocksAt 0 m s.r s.data_r R)
    (pl : BlksPlaced P s.data_l L) (pr : BlksPlaced Q s.data_r R)
    (b1 : lol ≤ s.data_l) (b2 : s.data_l + blkBytes L ≤ El)
    (b3 : lor ≤ s.data_r) (b4 : s.data_r + blkBytes R ≤ Er)
    (el : s.l + 2 * L.length = end_l) (er : s.r + 2 * R.length = end_r)
    (hpos : BlocksPos s.data_l L s.data_r R) (hx : WordsBuf 4 s.x4)
    (hf : L.length + R.length < f) (h1 : L.length < fl) (h2 : R.length < fr)
    (hb : base + 65536 ≤ 4294967296)
    (hcap : s.out + (uni (blkElems L) (blkElems R)).length + 23 ≤ s.buf.length) :
    Exact (UBlocks El Er P Q L R) (ssFrom dbg m end_l end_r base fl fr f s)
      (fun v => v.1 = s.out + (uni (blkElems L) (blkElems R)).length ∧ WordsBuf 4 v.2.1 ∧
        Wrote s.buf s.out ((uni (blkElems L) (blkElems R)).map (base + ·)) 23 v.2.2) := by
  induction f generalizing s L R with
  | zero => omega
  | succ f ih =>
    obtain ⟨a, L, rfl⟩ := List.exists_cons_of_ne_nil hL
    obtain ⟨b, R, rfl⟩ := List.exists_cons_of_ne_nil hR
    obtain ⟨l, dl, r, dr, out, x4, buf⟩ := s
    simp only at al ar el er hpos hx hcap pl pr b1 b2 b3 b4
    simp only [List.length_cons] at el er hf h1 h2
    have sLf := wL.sorted
    have sRf := wR.sorted
    have hA := al.2.2.2
    have hB := ar.2.2.2
    have b2' := b2
    have b4' := b4
    rw [blkBytes_cons'] at b2' b4'
    simp only [ssFrom, ss_union_chunk_loop, al.1, ar.1, ok_bind]
    by_cases h1' : a.id < b.id
    · have hu : uni (blkElems (a :: L)) (blkElems (b :: R))
          = a.elems ++ uni (blkElems L) (blkElems (b :: R)) :=
        uni_append_left sLf sRf (blk_lt wL.head wR (fun c hc => Nat.lt_of_lt_of_le h1' (wR.ge_head c hc)))
      rw [hu] at hcap ⊢
      rw [List.length_append] at hcap
      rw [if_pos h1']
      have hmac := decode_macro_tail (base := base) (out := out) (buf := buf) hFl wL.head al b1
        (by omega) hb (by omega)
      rw [UBlocks, ← merged_left (fun c hc => Nat.lt_of_lt_of_le h1' (wR.ge_head c hc)), pl.1]
      rw [bind_assoc]
      refine hmac.bind ?_
      rintro ⟨o, buf1, d1, p1⟩ ⟨rfl, hdp, w1⟩
      simp only [Prod.mk.injEq] at hdp
      obtain ⟨rfl, rfl⟩ := hdp
      simp only at w1
      have l1 := w1.length
      have hposn : BlocksPos (dl + a.size) L dr (b :: R) := by
        refine Or.inr ?_
        rcases hpos with ⟨_, h⟩ | h | h
        · rw [List.cons.injEq] at h; rw [h.1] at h1'; omega
        · rw [blkBytes_cons'] at h; exact Or.inl (by omega)
        · exact Or.inr (by omega)
      have fin : ∀ v : Nat × List Nat × List Nat,
          (v.1 = out + a.elems.length + (uni (blkElems L) (blkElems (b :: R))).length ∧
            WordsBuf 4 v.2.1 ∧ Wrote buf1 (out + a.elems.length)
              ((uni (blkElems L) (blkElems (b :: R))).map (base + ·)) 23 v.2.2) →
          (v.1 = out + (a.elems ++ uni (blkElems L) (blkElems (b :: R))).length ∧
            WordsBuf 4 v.2.1 ∧ Wrote buf out
              ((a.elems ++ uni (blkElems L) (blkElems (b :: R))).map (base + ·)) 23 v.2.2) := by
        rintro v ⟨g1, g2, g3⟩
        refine ⟨by rw [g1, List.length_append]; omega, g2, ?_⟩
        rw [List.map_append]
        exact Wrote.append w1 (by simpa using g3)
      by_cases hend : l + 2 = end_l
      · simp only [if_pos hend]
        have : L = [] := List.length_eq_zero_iff.mp (by omega)
        subst this
        exact (ssEnd_tail (base := base) hFl hFr
          (s := ⟨l + 2, dl + a.size, r, dr, out + a.elems.length, x4, buf1⟩)
          (Or.inl rfl) wL.tail wR hA ar pl.2 pr (by simp only; omega) (by simp only; omega) b3 b4
          (by simp only [List.length_nil]; omega) (by simp only [List.length_cons]; omega) hx
          (by simp only [List.length_nil]; omega) (by simp only [List.length_cons]; omega) hb
          (by simp only; omega)).mono fin
      · simp only [if_neg hend]
        exact (ih
          (s := ⟨l + 2, dl + a.size, r, dr, out + a.elems.length, x4, buf1⟩)
          (by rintro rfl; simp only [List.length_nil] at el; omega) (by simp)
          wL.tail wR hA ar pl.2 pr (by simp only; omega) (by simp only; omega) b3 b4
          (by simp only; omega) (by simp only [List.length_cons]; omega) hposn hx
          (by simp only [List.length_cons]; omega)
          (by omega) (by simp only [List.length_cons]; omega)
          (by simp only; omega)).mono fin
    · rw [if_neg h1']
      by_cases h2' : a.id > b.id
      · have hu : uni (blkElems (a :: L)) (blkElems (b :: R))
            = b.elems ++ uni (blkElems (a :: L)) (blkElems R) :=
          uni_append_right sLf sRf
            (blk_lt wR.head wL (fun c hc => Nat.lt_of_lt_of_le h2' (wL.ge_head c hc)))
        rw [hu] at hcap ⊢
        rw [List.length_append] at hcap
        rw [if_pos h2']
        have hmac := decode_macro_tail (base := base) (out := out) (buf := buf) hFr wR.head ar b3
          (by omega) hb (by omega)
        rw [UBlocks, ← merged_right (fun c hc => Nat.lt_of_lt_of_le h2' (wL.ge_head c hc)), pr.1]
        rw [bind_assoc]
        refine hmac.bind ?_
        rintro ⟨o, buf1, d1, p1⟩ ⟨rfl, hdp, w1⟩
        simp only [Prod.mk.injEq] at hdp
        obtain ⟨rfl, rfl⟩ := hdp
        simp only at w1
        have l1 := w1.length
        have hposn : BlocksPos dl (a :: L) (dr + b.size) R := by
          refine Or.inr ?_
          rcases hpos with ⟨_, h⟩ | h | h
          · rw [List.cons.injEq] at h; rw [h.1] at h2'; omega
          · exact Or.inl (by omega)
          · rw [blkBytes_cons'] at h; exact Or.inr (by omega)
        have fin : ∀ v : Nat × List Nat × List Nat,
            (v.1 = out + b.elems.length + (uni (blkElems (a :: L)) (blkElems R)).length ∧
              WordsBuf 4 v.2.1 ∧ Wrote buf1 (out + b.elems.length)
                ((uni (blkElems (a :: L)) (blkElems R)).map (base + ·)) 23 v.2.2) →
            (v.1 = out + (b.elems ++ uni (blkElems (a :: L)) (blkElems R)).length ∧
              WordsBuf 4 v.2.1 ∧ Wrote buf out
                ((b.elems ++ uni (blkElems (a :: L)) (blkElems R)).map (base + ·)) 23 v.2.2) := by
          rintro v ⟨g1, g2, g3⟩
          refine ⟨by rw [g1, List.length_append]; omega, g2, ?_⟩
          rw [List.map_append]
          exact Wrote.append w1 (by simpa using g3)
        by_cases hend : r + 2 = end_r
        · simp only [if_pos hend]
          have : R = [] := List.length_eq_zero_iff.mp (by omega)
          subst this
          exact (ssEnd_tail (base := base) hFl hFr
            (s := ⟨l, dl, r + 2, dr + b.size, out + b.elems.length, x4, buf1⟩)
            (Or.inr rfl) wL wR.tail al hB pl pr.2 b1 b2 (by simp only; omega) (by simp only; omega)
            (by simp only [List.length_cons]; omega) (by simp only [List.length_nil]; omega) hx
            (by simp only [List.length_cons]; omega) (by simp only [List.length_nil]; omega) hb
            (by simp only; omega)).mono fin
        · simp only [if_neg hend]
          exact (ih
            (s := ⟨l, dl, r + 2, dr + b.size, out + b.elems.length, x4, buf1⟩)
            (by simp) (by rintro rfl; simp only [List.length_nil] at er; omega)
            wL wR.tail al hB pl pr.2 b1 b2 (by simp only; omega) (by simp only; omega)
            (by simp only [List.length_cons]; omega) (by simp only; omega) hposn hx
            (by simp only [List.length_cons]; omega)
            (by simp only [List.length_cons]; omega) (by omega)
            (by simp only; omega)).mono fin
      · have hab : a.id = b.id := by omega
        rw [if_neg h2']
        have hu : uni (blkElems (a :: L)) (blkElems (b :: R))
            = uni a.elems b.elems ++ uni (blkElems L) (blkElems R) :=
          uni_append_both sLf sRf
            (blk_lt wL.head wR.tail (fun c hc => by have := wR.head_lt c hc; omega))
            (blk_lt wR.head wL.tail (fun c hc => by have := wL.head_lt c hc; omega))
        have hue : uni a.elems b.elems = (uni a.vals b.vals).map (a.id * 256 + ·) := by
          unfold Blk.elems
          rw [← hab, uni_map_add _ wL.head.2.2.1 wR.head.2.2.1]
        rw [hue] at hu
        rw [hu] at hcap ⊢
        rw [List.length_append, List.length_map] at hcap
        have hid := wL.head.1
        have hu32 : u32 (base + a.id * 256) = base + a.id * 256 := u32_lt (by omega)
        have ca := wL.head.card_pos
        have cb := wR.head.card_pos
        have hpos1 : (dl = dr ∧ a = b) ∨ Apart dl a.size dr b.size := by
          rcases hpos with ⟨h, h'⟩ | h | h
          · exact Or.inl ⟨h, (List.cons.injEq .. ▸ h').1⟩
          · rw [blkBytes_cons'] at h; exact Or.inr (Or.inl (by omega))
          · rw [blkBytes_cons'] at h; exact Or.inr (Or.inr (by omega))
        have hmac := union_blocks_tail (dbg := dbg) hFl hFr wL.head wR.head al.2.2.1
          ar.2.2.1 b1 (by omega) b3 (by omega) hpos1 hx (base := base + a.id * 256) (out := out)
          (buf := buf) (by omega) (by omega)
        have hmap : (uni a.vals b.vals).map (base + a.id * 256 + ·)
            = ((uni a.vals b.vals).map (a.id * 256 + ·)).map (base + ·) := by
          rw [List.map_map]
          apply List.map_congr_left
          intro x _
          simp only [Function.comp]; omega
        rw [hmap] at hmac
        rw [UBlocks, ← merged_both hab wL.head_lt wR.head_lt, pl.1, pr.1]
        simp only [al.2.1, ar.2.1, ok_bind, Nat.sub_add_cancel ca, Nat.sub_add_cancel cb, hu32]
        rw [bind_assoc]
        refine hmac.bind ?_
        rintro ⟨n, x4', buf1⟩ ⟨rfl, hx1, w1⟩
        simp only at hx1 w1
        have l1 := w1.length
        have hposn : BlocksPos (dl + a.size) L (dr + b.size) R := by
          rcases hpos with ⟨h, h'⟩ | h | h
          · rw [List.cons.injEq] at h'
            exact Or.inl ⟨by rw [h, h'.1], h'.2⟩
          · rw [blkBytes_cons'] at h; exact Or.inr (Or.inl (by omega))
          · rw [blkBytes_cons'] at h; exact Or.inr (Or.inr (by omega))
        have fin : ∀ v : Nat × List Nat × List Nat,
            (v.1 = out + (uni a.vals b.vals).length + (uni (blkElems L) (blkElems R)).length ∧
              WordsBuf 4 v.2.1 ∧ Wrote buf1 (out + (uni a.vals b.vals).length)
                ((uni (blkElems L) (blkElems R)).map (base + ·)) 23 v.2.2) →
            (v.1 = out + ((uni a.vals b.vals).map (a.id * 256 + ·)
                ++ uni (blkElems L) (blkElems R)).length ∧
              WordsBuf 4 v.2.1 ∧ Wrote buf out
                (((uni a.vals b.vals).map (a.id * 256 + ·)
                  ++ uni (blkElems L) (blkElems R)).map (base + ·)) 23 v.2.2) := by
          rintro v ⟨g1, g2, g3⟩
          refine ⟨by rw [g1, List.length_append, List.length_map]; omega, g2, ?_⟩
          rw [List.map_append]
          exact Wrote.append w1 (by simpa using g3)
        by_cases hend : l + 2 = end_l ∨ r + 2 = end_r
        · simp only [if_pos hend]
          have emp : L = [] ∨ R = [] := by
            rcases hend with h | h
            · exact Or.inl (List.length_eq_zero_iff.mp (by omega))
            · exact Or.inr (List.length_eq_zero_iff.mp (by omega))
          exact (ssEnd_tail (base := base) hFl hFr
            (s := ⟨l + 2, dl + a.size, r + 2, dr + b.size, out + (uni a.vals b.vals).length, x4', buf1⟩)
            emp wL.tail wR.tail hA hB pl.2 pr.2 (by simp only; omega) (by simp only; omega)
            (by simp only; omega) (by simp only; omega)
            (by simp only; omega) (by simp only; omega) hx1 (by omega) (by omega) hb
            (by simp only; omega)).mono fin
        · simp only [if_neg hend]
          exact (ih
            (s := ⟨l + 2, dl + a.size, r + 2, dr + b.size, out + (uni a.vals b.vals).length, x4', buf1⟩)
            (by rintro rfl; simp only [List.length_nil] at el; omega)
            (by rintro rfl; simp only [List.length_nil] at er; omega)
            wL.tail wR.tail hA hB pl.2 pr.2 (by simp only; omega) (by simp only; omega)
            (by simp only; omega) (by simp only; omega)
            (by simp only; omega) (by simp only; omega) hposn hx1 (by omega)
            (by omega) (by omega) (by simp only; omega)).mono fin

theorem ss_union_chunk_tail {dbg : Bool} {m : Mem} {lol El lor Er base l r out : Nat}
    {L R : List Blk} {x4 buf : List Nat} (hFl : Fence m lol El) (hFr : Fence m lor Er)
    (hL : L ≠ []) (hR : R ≠ []) (wL : BlocksWF L) (wR : BlocksWF R)
    (al : BlocksAt 0 m l (l + 2 * L.length) L) (ar : BlocksAt 0 m r (r + 2 * R.length) R)
    (b1 : lol ≤ l) (b2 : l + (2 * L.length + blkBytes L) ≤ El)
    (b3 : lor ≤ r) (b4 : r + (2 * R.length + blkBytes R) ≤ Er)
    (hpos : BlocksPos (l + 2 * L.length) L (r + 2 * R.length) R) (hx : WordsBuf 4 x4)
    (hb : base + 65536 ≤ 4294967296)
    (hcap : out + (uni (blkElems L) (blkElems R)).length + 23 ≤ buf.length) :
    Exact (UBlocks El Er (blkPos (l + 2 * L.length) L) (blkPos (r + 2 * R.length) R) L R)
      (ss_union_chunk dbg m l r L.length R.length base x4 buf out)
      (fun v => v.1 = (uni (blkElems L) (blkElems R)).length ∧ WordsBuf 4 v.2.1 ∧
        Wrote buf out ((uni (blkElems L) (blkElems R)).map (base + ·)) 23 v.2.2) := by
  have h1 := List.length_pos_iff.mpr hL
  have h2 := wL.length_le
  have h3 := List.length_pos_iff.mpr hR
  have h4 := wR.length_le
  have t := ssFrom_tail (dbg := dbg) (base := base) (end_l := l + 2 * L.length)
    (end_r := r + 2 * R.length) (fl := L.length + 1) (fr := R.length + 1) hFl hFr
    (L.length + R.length + 1)
    (s := ⟨l, l + 2 * L.length, r, r + 2 * R.length, out, x4, buf⟩) hL hR wL wR al ar
    (blksPlaced_blkPos wL) (blksPlaced_blkPos wR) (by simp only; omega) (by simp only; omega)
    (by simp only; omega) (by simp only; omega) rfl rfl hpos hx (by omega) (by omega) (by omega) hb
    hcap
  have he : ss_union_chunk dbg m l r L.length R.length base x4 buf out = (do
      let v ← ssFrom dbg m (l + 2 * L.length) (r + 2 * R.length) base (L.length + 1) (R.length + 1)
        (L.length + R.length + 1) ⟨l, l + 2 * L.length, r, r + 2 * R.length, out, x4, buf⟩
      pure (v.1 - out, v.2)) := by
    unfold ss_union_chunk ssFrom
    rw [cassert_of (by simp; omega), cassert_of (by simp; omega)]
    simp only [ok_bind, show L.length * 2 = 2 * L.length by omega,
      show R.length * 2 = 2 * R.length by omega, bind_assoc, pure_bind]
  rw [he]
  refine (t.bind (U := True) ?_).congr ⟨fun h => h.1, fun h => ⟨h, trivial⟩⟩
  rintro ⟨o, x', buf'⟩ ⟨rfl, g2, g3⟩
  exact Exact.of_ok trivial ⟨_, rfl, Nat.add_sub_cancel_left _ _, g2, g3⟩

/-! ## Chunks -/

/-- the bytes that are read for two chunks with the same id: of two sparse chunks the one with fewer
blocks is the first -/
def UBody (El Er dl dr : Nat) : Body → Body → Prop
  | .sparse as, .sparse bs =>
    if as.length < bs.length then
      UBlocks El Er (blkPos (dl + 2 * as.length) as) (blkPos (dr + 2 * bs.length) bs) as bs
    else UBlocks Er El (blkPos (dr + 2 * bs.length) bs) (blkPos (dl + 2 * as.length) as) bs as
  | _, _ => True

theorem UBody_full_left (El Er dl dr : Nat) (b : Body) : UBody El Er dl dr .full b := by
  cases b <;> trivial

theorem union_chunks_tail {dbg : Bool} {m : Mem} {lol El lor Er : Nat} (fl : Fence m lol El)
    (fr : Fence m lor Er) {Bl Br : Nat → Chk → Prop} {il ir : It} {a b : Chk} {L R : List Chk}
    {base out : Nat} {s : UScratch} {buf : List Nat}
    (hl : ItOnP Bl m il (a :: L)) (hr : ItOnP Br m ir (b :: R))
    (ha : BodyIn m lol El il.data a.body) (hb' : BodyIn m lor Er ir.data b.body)
    (hb : base + 65536 ≤ 4294967296)
    (hs : s.Ok) (hpos : BodyPos il.data a.body ir.data b.body)
    (hcap : out + (uni a.body.vals b.body.vals).length + 23 ≤ buf.length) :
    Exact (UBody El Er il.data ir.data a.body b.body) (union_chunks dbg m il ir base s buf out)
      (fun v => v.1 = (uni a.body.vals b.body.vals).length ∧ v.2.1.Ok ∧
        Wrote buf out ((uni a.body.vals b.body.vals).map (base + ·)) 23 v.2.2) := by
  have wa := hl.wf.head.2
  have wb := hr.wf.head.2
  have sa := wa.sorted
  have sb := wb.sorted
  have ba := wa.bound
  have bb := wb.bound
  obtain ⟨ha, la, ua⟩ := ha
  obtain ⟨hb', lb, ub⟩ := hb'
  have c1024 : chunk_size_in_64bit_words = 1024 := rfl
  have hfull : out + 65536 ≤ buf.length → ∃ o, decode_full_chunk base buf out = .ok (65536, o) ∧
      Wrote buf out ((List.range 65536).map (base + ·)) 23 o := by
    intro h
    obtain ⟨o, e, w⟩ := decode_full_chunk_spec (p := out) (out := buf) hb h
    exact ⟨o, e, w.mono (by omega)⟩
  unfold union_chunks
  cases ea : a.body with
  | full =>
    rw [hl.type_full ea]
    rw [ea] at hcap
    have hv : uni Body.full.vals b.body.vals = List.range 65536 := uni_full_left sb bb
    rw [hv] at hcap ⊢
    rw [List.length_range] at hcap ⊢
    obtain ⟨o, e, w⟩ := hfull (by omega)
    refine Exact.of_ok (UBody_full_left El Er il.data ir.data b.body)
      ⟨(65536, s, o), ?_, rfl, hs, w⟩
    cases eb : b.body with
    | full => rw [hr.type_full eb]; simp [type_sparse, type_dense, chunk_pair, e, type_full]
    | dense vs => rw [hr.type_dense eb]; simp [type_sparse, type_dense, chunk_pair, e, type_full]
    | sparse bs => rw [hr.type_sparse eb]; simp [type_sparse, type_dense, chunk_pair, e, type_full]
  | dense us =>
    rw [hl.type_dense ea]
    rw [ea] at hcap wa sa ba ha
    cases eb : b.body with
    | full =>
      rw [hr.type_full eb]
      rw [eb] at hcap
      have hv : uni (Body.dense us).vals Body.full.vals = List.range 65536 := uni_full_right sa ba
      rw [hv] at hcap ⊢
      rw [List.length_range] at hcap ⊢
      obtain ⟨o, e, w⟩ := hfull (by omega)
      refine Exact.of_ok trivial ⟨(65536, s, o), ?_, rfl, hs, w⟩
      simp [type_sparse, type_dense, chunk_pair, e, type_full]
    | dense vs =>
      rw [hr.type_dense eb]
      rw [eb] at hcap wb sb bb hb'
      obtain ⟨o, e, w⟩ := or_bitmaps_spec (A := us) (B := vs) (n := 1024)
        (P := fun x => decide (x ∈ us)) (Q := fun x => decide (x ∈ vs)) ha hb' (fun _ _ => rfl) sa sb ba bb
        (base := base) (out := out) (buf := buf) hb (by omega)
        (by simp only [Body.vals] at hcap ⊢; omega)
      refine Exact.of_ok trivial ⟨(_, s, o), ?_, rfl, hs, w.mono (by omega)⟩
      simp [type_sparse, type_dense, chunk_pair, e, type_full, c1024, Body.vals]
    | sparse bs =>
      rw [hr.type_sparse eb]
      have hbl := hr.blocks_sparse eb
      rw [eb] at hcap wb sb bb hb'
      obtain ⟨x', o, e, lx, w⟩ := ds_union_chunk_spec (dbg := dbg) wa ha wb.1 wb.2 hb' hs.2 hb
        (out := out) (buf := buf) (by simp only [Body.vals] at hcap ⊢; omega)
      refine Exact.of_ok trivial ⟨(_, { s with x := x' }, o), ?_, rfl, ⟨hs.1, lx⟩, w.mono (by omega)⟩
      simp [type_sparse, type_dense, chunk_pair, e, type_full, hbl, Body.vals]
  | sparse as =>
    rw [hl.type_sparse ea]
    have hal := hl.blocks_sparse ea
    rw [ea] at hcap wa sa ba ha ua
    cases eb : b.body with
    | full =>
      rw [hr.type_full eb]
      rw [eb] at hcap
      have hv : uni (Body.sparse as).vals Body.full.vals = List.range 65536 := uni_full_right sa ba
      rw [hv] at hcap ⊢
      rw [List.length_range] at hcap ⊢
      obtain ⟨o, e, w⟩ := hfull (by omega)
      refine Exact.of_ok trivial ⟨(65536, s, o), ?_, rfl, hs, w⟩
      simp [type_sparse, type_dense, chunk_pair, e, type_full]
    | dense vs =>
      rw [hr.type_dense eb]
      rw [eb] at hcap wb sb bb hb'
      rw [uni_comm sa sb] at hcap ⊢
      obtain ⟨x', o, e, lx, w⟩ := ds_union_chunk_spec (dbg := dbg) wb hb' wa.1 wa.2 ha hs.2 hb
        (out := out) (buf := buf) (by simp only [Body.vals] at hcap ⊢; omega)
      refine Exact.of_ok trivial ⟨(_, { s with x := x' }, o), ?_, rfl, ⟨hs.1, lx⟩, w.mono (by omega)⟩
      simp [type_sparse, type_dense, chunk_pair, e, type_full, hal, Body.vals]
    | sparse bs =>
      rw [hr.type_sparse eb]
      have hbl := hr.blocks_sparse eb
      rw [ea, eb] at hpos
      rw [eb] at hcap wb sb bb hb' ub
      have la' := List.length_pos_iff.mpr wa.1
      have lb' := List.length_pos_iff.mpr wb.1
      simp only [Body.off] at ua ub
      simp only [UBody]
      by_cases hlt : as.length < bs.length
      · rw [if_pos hlt]
        obtain ⟨t1, t2⟩ := ss_union_chunk_tail (dbg := dbg) fl fr wa.1 wb.1 wa.2 wb.2 ha hb' la
          (by omega) lb (by omega) (hpos.blocks wa.1 wb.1) hs.1 hb
          (out := out) (buf := buf) (by simp only [Body.vals] at hcap ⊢; omega)
        constructor
        · intro hT
          obtain ⟨⟨n, x', o⟩, e, hn, lx, w⟩ := t1 hT
          refine ⟨(n, { s with x4 := x' }, o), ?_, hn, ⟨lx, hs.2⟩, w⟩
          simp [type_sparse, chunk_pair, e, hbl, hal, hlt]
        · intro hT
          have e := t2 hT
          simp [type_sparse, chunk_pair, e, hbl, hal, hlt]
      · rw [if_neg hlt]
        rw [uni_comm sa sb] at hcap ⊢
        obtain ⟨t1, t2⟩ := ss_union_chunk_tail (dbg := dbg) fr fl wb.1 wa.1 wb.2 wa.2 hb' ha lb
          (by omega) la (by omega) (hpos.symm.blocks wb.1 wa.1) hs.1 hb
          (out := out) (buf := buf) (by simp only [Body.vals] at hcap ⊢; omega)
        constructor
        · intro hT
          obtain ⟨⟨n, x', o⟩, e, hn, lx, w⟩ := t1 hT
          refine ⟨(n, { s with x4 := x' }, o), ?_, hn, ⟨lx, hs.2⟩, w⟩
          simp [type_sparse, chunk_pair, e, hbl, hal, hlt]
        · intro hT
          have e := t2 hT
          simp [type_sparse, chunk_pair, e, hbl, hal, hlt]

theorem ChunksAtP.imp {B B' : Nat → Chk → Prop} {m : Mem} (hB : ∀ d c, B d c → B' d c) {cs : List Chk}
    {h d : Nat} (ha : ChunksAtP B m h d cs) : ChunksAtP B' m h d cs := by
  induction cs generalizing h d with
  | nil => exact ha
  | cons c cs ih => exact ⟨ha.1, hB _ _ ha.2.1, ih ha.2.2⟩

theorem ItOnP.imp {B B' : Nat → Chk → Prop} {m : Mem} (hB : ∀ d c, B d c → B' d c) {cs : List Chk}
    {it : It} (h : ItOnP B m it cs) : ItOnP B' m it cs :=
  ⟨h.end_, h.wf, h.at_.imp hB⟩

theorem Body.need_le {b : Body} (h : b.WF) : b.need ≤ b.vals.length + 23 := by
  cases b with
  | full => simp only [Body.need]; exact Nat.le_add_right _ _
  | dense vs => simp only [Body.need]; exact Nat.le_add_right _ _
  | sparse bs => exact blocksNeed_slack bs h.2

theorem decode_chunk_exact {dbg : Bool} {m : Mem} {lo E : Nat} {P : Nat → Nat} {it : It} {c : Chk}
    {cs : List Chk} {p : Nat} {out : List Nat} (hF : Fence m lo E)
    (h : ItOnP (ChkIn m lo E P) m it (c :: cs)) (hcap : p + c.elems.length + 23 ≤ out.length) :
    Exact (P c.id + c.body.reach ≤ E) (decode_chunk dbg m it out p)
      (fun v => v.1 = c.elems.length ∧ Wrote out p c.elems 23 v.2) := by
  obtain ⟨⟨h0, h1, h2⟩, h3⟩ := h.at_.2.1
  have hcl : c.elems.length = c.card := List.length_map _
  have hn := Body.need_le h.wf.head.2
  have hcard : c.card = c.body.vals.length := rfl
  obtain ⟨k1, k2⟩ := decode_chunk_tail (dbg := dbg) (p := p) (out := out) hF
    (h.imp (B' := fun dp c => BodyAt 0 m dp c.body) (fun d c hc => hc.1.at_)) h1 h2 (by omega)
  rw [← h3]
  constructor
  · intro hT
    obtain ⟨o, e, w⟩ := k1 ⟨by omega, hT⟩
    exact ⟨_, e, hcl.symm, w⟩
  · exact fun hT => k2 (fun h => hT h.2)

theorem decode_tail_exact {dbg : Bool} {m : Mem} {lo E : Nat} {P : Nat → Nat} (hF : Fence m lo E)
    (f : Nat) {it : It} {cs : List Chk} {out : Nat}
    {buf : List Nat} (h : ItOnP (ChkIn m lo E P) m it cs) (hf : cs.length < f)
    (hcap : out + (seqElems cs).length + 23 ≤ buf.length) :
    Exact (∀ c ∈ cs, P c.id + c.body.reach ≤ E) (decode_tail dbg m f it buf out)
      (fun v => v.1 = out + (seqElems cs).length ∧ Wrote buf out (seqElems cs) 23 v.2) := by
  induction cs generalizing f it out buf with
  | nil =>
    obtain ⟨f, rfl⟩ : ∃ g, f = g + 1 := ⟨f - 1, by simp at hf; omega⟩
    refine Exact.of_ok (fun _ h => (nomatch h)) ⟨(out, buf), ?_, rfl, Wrote.nil _ _ _⟩
    simp [decode_tail, h.has_next_nil]
  | cons c cs ih =>
    obtain ⟨f, rfl⟩ : ∃ g, f = g + 1 := ⟨f - 1, by simp at hf; omega⟩
    have hs : seqElems (c :: cs) = c.elems ++ seqElems cs := rfl
    rw [hs, List.length_append] at hcap
    simp only [List.length_cons] at hf
    have hmac := decode_chunk_exact (dbg := dbg) (p := out) (out := buf) hF h (by omega)
    obtain ⟨it', n, hit, -⟩ := h.next
    have hcomp : Exact ((P c.id + c.body.reach ≤ E) ∧ (∀ c ∈ cs, P c.id + c.body.reach ≤ E))
        (decode_tail dbg m (f + 1) it buf out)
        (fun v => v.1 = out + (seqElems (c :: cs)).length ∧
          Wrote buf out (seqElems (c :: cs)) 23 v.2) := by
      unfold decode_tail
      rw [if_pos h.has_next]
      refine hmac.bind ?_
      rintro ⟨k, buf1⟩ ⟨rfl, w1⟩
      simp only at w1
      have l1 := w1.length
      simp only [n, ok_bind]
      refine (ih f (out := out + c.elems.length) (buf := buf1) hit (by omega) (by omega)).mono ?_
      rintro ⟨o, buf2⟩ ⟨ho, w2⟩
      refine ⟨?_, ?_⟩
      · simp only at ho ⊢; rw [ho, hs, List.length_append]; omega
      · rw [hs]
        exact Wrote.append w1 w2
    refine hcomp.congr ⟨?_, ?_⟩
    · rintro ⟨t1, t2⟩ x hx
      rcases List.mem_cons.mp hx with rfl | hx
      · exact t1
      · exact t2 x hx
    · exact fun t => ⟨t c List.mem_cons_self, fun x hx => t x (List.mem_cons_of_mem _ hx)⟩

/-- the bytes that are read of the chunks of two lists -/
def UChunks (El Er : Nat) (P Q : Nat → Nat) (L R : List Chk) : Prop :=
  Merged Chk.id (fun a => P a.id + a.body.reach ≤ El) (fun b => Q b.id + b.body.reach ≤ Er)
    (fun a b => UBody El Er (P a.id) (Q b.id) a.body b.body) L R

/-- the rest of `pairwise_union` from a state of its loop -/
def puFrom (dbg : Bool) (m : Mem) (fl fr f : Nat) (il ir : It) (s : UScratch) (buf : List Nat)
    (out : Nat) : Res (Nat × UScratch × List Nat) := do
  let (it_l, it_r, o, s, buf) ← pairwise_union_loop dbg m f il ir s buf out
  let (o, buf) ← decode_tail dbg m fl it_l buf o
  let (o, buf) ← decode_tail dbg m fr it_r buf o
  return (o, s, buf)

theorem puEnd_tail {dbg : Bool} {m : Mem} {lol El lor Er fl fr : Nat} {P Q : Nat → Nat}
    (hFl : Fence m lol El) (hFr : Fence m lor Er) {il ir : It} {L R : List Chk}
    {out : Nat} {s : UScratch} {buf : List Nat} (emp : L = [] ∨ R = [])
    (hl : ItOnP (ChkIn m lol El P) m il L) (hr : ItOnP (ChkIn m lor Er Q) m ir R) (hs : s.Ok)
    (h1 : L.length < fl) (h2 : R.length < fr)
    (hcap : out + (uni (seqElems L) (seqElems R)).length + 23 ≤ buf.length) :
    Exact (UChunks El Er P Q L R)
      (do
        let (o, buf) ← decode_tail dbg m fl il buf out
        let (o, buf) ← decode_tail dbg m fr ir buf o
        return (o, s, buf))
      (fun v => v.1 = out + (uni (seqElems L) (seqElems R)).length ∧ v.2.1.Ok ∧
        Wrote buf out (uni (seqElems L) (seqElems R)) 23 v.2.2) := by
  have emp' : seqElems L = [] ∨ seqElems R = [] :=
    emp.imp (fun h => by rw [h]; rfl) (fun h => by rw [h]; rfl)
  rw [uni_of_nil emp'] at hcap ⊢
  rw [List.length_append] at hcap
  have t1 := decode_tail_exact (dbg := dbg) hFl fl (out := out) (buf := buf) hl h1 (by omega)
  have hcomp : Exact ((∀ c ∈ L, P c.id + c.body.reach ≤ El) ∧
        (∀ c ∈ R, Q c.id + c.body.reach ≤ Er) ∧ True)
      (do
        let (o, buf) ← decode_tail dbg m fl il buf out
        let (o, buf) ← decode_tail dbg m fr ir buf o
        return (o, s, buf))
      (fun v => v.1 = out + (seqElems L ++ seqElems R).length ∧ v.2.1.Ok ∧
        Wrote buf out (seqElems L ++ seqElems R) 23 v.2.2) := by
    refine t1.bind ?_
    rintro ⟨o, buf1⟩ ⟨rfl, w1⟩
    have l1 := w1.length
    simp only at l1 w1
    refine (decode_tail_exact (dbg := dbg) hFr fr (out := out + (seqElems L).length) (buf := buf1) hr h2
      (by omega)).bind ?_
    rintro ⟨o, buf2⟩ ⟨rfl, w2⟩
    refine Exact.of_ok trivial ⟨_, rfl, ?_, hs, ?_⟩
    · simp only [List.length_append]; omega
    · exact Wrote.append w1 w2
  refine hcomp.congr ?_
  rcases emp with h | h
  · subst h
    rw [UChunks, merged_nil_left]
    exact ⟨fun t => t.2.1, fun t => ⟨fun _ h => (nomatch h), t, trivial⟩⟩
  · subst h
    rw [UChunks, merged_nil_right]
    exact ⟨fun t => t.1, fun t => ⟨t, fun _ h => (nomatch h), trivial⟩⟩

theorem puFrom_tail {dbg : Bool} {m : Mem} {lol El lor Er fl fr : Nat} {P Q : Nat → Nat}
    (hFl : Fence m lol El) (hFr : Fence m lor Er) (f : Nat) {il ir : It} {L R : List Chk}
    {out : Nat} {s : UScratch} {buf : List Nat} (hL : L ≠ []) (hR : R ≠ [])
    (hl : ItOnP (ChkIn m lol El P) m il L) (hr : ItOnP (ChkIn m lor Er Q) m ir R) (hs : s.Ok)
    (hpos : ChunksPos il.data L ir.data R) (hf : L.length + R.length < f)
    (h1 : L.length < fl) (h2 : R.length < fr)
    (hcap : out + (uni (seqElems L) (seqElems R)).length + 23 ≤ buf.length) :
    Exact (UChunks El Er P Q L R) (puFrom dbg m fl fr f il ir s buf out)
      (fun v => v.1 = out + (uni (seqElems L) (seqElems R)).length ∧ v.2.1.Ok ∧
        Wrote buf out (uni (seqElems L) (seqElems R)) 23 v.2.2) := by
  induction f generalizing il ir L R out s buf with
  | zero => omega
  | succ f ih =>
    obtain ⟨a, L, rfl⟩ := List.exists_cons_of_ne_nil hL
    obtain ⟨b, R, rfl⟩ := List.exists_cons_of_ne_nil hR
    simp only [List.length_cons] at hf h1 h2
    have wL := hl.wf
    have wR := hr.wf
    have sLf := wL.sorted
    have sRf := wR.sorted
    have ia := wL.head.1
    have ib := wR.head.1
    obtain ⟨il1, nl, hl1, -, -, -, -, dl1⟩ := hl.next
    obtain ⟨ir1, nr, hr1, -, -, -, -, dr1⟩ := hr.next
    have hcl : a.elems.length = a.card := List.length_map _
    have hcr : b.elems.length = b.card := List.length_map _
    simp only [puFrom, pairwise_union_loop, hl.id, hr.id, ok_bind, u16_lt (show a.id < 65536 by omega),
      u16_lt (show b.id < 65536 by omega)]
    -- what follows a step, with the lists that are left
    have go : ∀ {jl jr : It} {L' R' : List Chk} {o : Nat} {s1 : UScratch} {buf1 W : List Nat},
        ItOnP (ChkIn m lol El P) m jl L' → ItOnP (ChkIn m lor Er Q) m jr R' → s1.Ok →
        ChunksPos jl.data L' jr.data R' → L'.length + R'.length < L.length + R.length + 2 →
        L'.length < fl → R'.length < fr → o = out + W.length →
        Wrote buf out W 23 buf1 →
        uni (seqElems (a :: L)) (seqElems (b :: R)) = W ++ uni (seqElems L') (seqElems R') →
        Exact (UChunks El Er P Q L' R')
          (do
            let (it_l, it_r, o, s, buf) ← (if (!jl.has_next || !jr.has_next) = true then
                pure (jl, jr, o, s1, buf1)
              else pairwise_union_loop dbg m f jl jr s1 buf1 o)
            let (o, buf) ← decode_tail dbg m fl it_l buf o
            let (o, buf) ← decode_tail dbg m fr it_r buf o
            return (o, s, buf))
          (fun v => v.1 = out + (uni (seqElems (a :: L)) (seqElems (b :: R))).length ∧ v.2.1.Ok ∧
            Wrote buf out (uni (seqElems (a :: L)) (seqElems (b :: R))) 23 v.2.2) := by
      intro jl jr L' R' o s1 buf1 W gl gr gs gpos glen gf1 gf2 go gw gu
      subst go
      have l1 := gw.length
      rw [gu] at hcap ⊢
      rw [List.length_append] at hcap
      have fin : ∀ v : Nat × UScratch × List Nat,
          (v.1 = out + W.length + (uni (seqElems L') (seqElems R')).length ∧ v.2.1.Ok ∧
            Wrote buf1 (out + W.length) (uni (seqElems L') (seqElems R')) 23 v.2.2) →
          (v.1 = out + (W ++ uni (seqElems L') (seqElems R')).length ∧ v.2.1.Ok ∧
            Wrote buf out (W ++ uni (seqElems L') (seqElems R')) 23 v.2.2) := by
        rintro v ⟨g1, g2, g3⟩
        exact ⟨by rw [g1, List.length_append]; omega, g2, Wrote.append gw g3⟩
      by_cases hend : (!jl.has_next || !jr.has_next) = true
      · rw [if_pos hend]
        simp only [pure_bind]
        refine (puEnd_tail (dbg := dbg) hFl hFr (s := s1) (buf := buf1) (out := out + W.length) ?_ gl gr
          gs gf1 gf2 (by omega)).mono fin
        rw [Bool.or_eq_true] at hend
        refine hend.imp ?_ ?_
        · intro h
          cases L' with
          | nil => rfl
          | cons c L' => rw [gl.has_next] at h; simp at h
        · intro h
          cases R' with
          | nil => rfl
          | cons c R' => rw [gr.has_next] at h; simp at h
      · rw [if_neg hend]
        have hLne : L' ≠ [] := by
          rintro rfl; simp [gl.has_next_nil] at hend
        have hRne : R' ≠ [] := by
          rintro rfl; simp [gr.has_next_nil] at hend
        exact (ih hLne hRne gl gr gs gpos (by omega) gf1 gf2 (by omega)).mono fin
    by_cases hab : a.id = b.id
    · rw [if_pos hab]
      have hu : uni (seqElems (a :: L)) (seqElems (b :: R))
          = uni a.elems b.elems ++ uni (seqElems L) (seqElems R) :=
        uni_append_both sLf sRf
          (chk_lt wL.head wR.tail (fun c hc => by have := wR.head_lt c hc; omega))
          (chk_lt wR.head wL.tail (fun c hc => by have := wL.head_lt c hc; omega))
      have hue : uni a.elems b.elems = (uni a.body.vals b.body.vals).map (a.id * 65536 + ·) := by
        unfold Chk.elems
        rw [← hab, uni_map_add _ wL.head.2.sorted wR.head.2.sorted]
      rw [hue] at hu
      have hcap' := hcap
      rw [hu, List.length_append, List.length_map] at hcap'
      rw [u32_lt (show a.id * 65536 < 4294967296 by omega)]
      have hpos1 : BodyPos il.data a.body ir.data b.body := by
        rcases hpos with ⟨h, h'⟩ | h | h
        · rw [List.cons.injEq] at h'
          exact Or.inl ⟨h, by rw [h'.1]⟩
        · rw [offSum_cons'] at h; exact Or.inr (Or.inl (by omega))
        · rw [offSum_cons'] at h; exact Or.inr (Or.inr (by omega))
      obtain ⟨pa, qa⟩ := hl.at_.2.1
      obtain ⟨pb, qb⟩ := hr.at_.2.1
      have hmac := union_chunks_tail (dbg := dbg) hFl hFr hl hr pa pb (hpos := hpos1) (s := s)
        (base := a.id * 65536) (out := out) (buf := buf) (by omega) hs (by omega)
      rw [UChunks, ← merged_both hab wL.head_lt wR.head_lt, ← qa, ← qb]
      rw [bind_assoc]
      refine hmac.bind ?_
      rintro ⟨n, s1, buf1⟩ ⟨rfl, hs1, w1⟩
      simp only at hs1 w1
      simp only [ok_bind, nl, nr]
      refine go hl1 hr1 hs1 ?_ (by omega) (by omega) (by omega) (by rw [List.length_map]) w1 hu
      rw [dl1, dr1]
      rcases hpos with ⟨h, h'⟩ | h | h
      · rw [List.cons.injEq] at h'
        exact Or.inl ⟨by rw [h, h'.1], h'.2⟩
      · rw [offSum_cons'] at h; exact Or.inr (Or.inl (by omega))
      · rw [offSum_cons'] at h; exact Or.inr (Or.inr (by omega))
    · rw [if_neg hab]
      by_cases hlt : a.id < b.id
      · rw [if_pos hlt]
        have hu : uni (seqElems (a :: L)) (seqElems (b :: R))
            = a.elems ++ uni (seqElems L) (seqElems (b :: R)) :=
          uni_append_left sLf sRf
            (chk_lt wL.head wR (fun c hc => Nat.lt_of_lt_of_le hlt (wR.ge_head c hc)))
        have hcap' := hcap
        rw [hu, List.length_append] at hcap'
        have hmac := decode_chunk_exact (dbg := dbg) hFl hl (p := out) (out := buf) (by omega)
        rw [UChunks, ← merged_left (fun c hc => Nat.lt_of_lt_of_le hlt (wR.ge_head c hc))]
        rw [bind_assoc]
        refine hmac.bind ?_
        rintro ⟨n, buf1⟩ ⟨rfl, w1⟩
        simp only at w1
        simp only [ok_bind, nl]
        have := go (jl := il1) (jr := ir) (o := out + a.elems.length) hl1 hr hs (by
            rw [dl1]
            refine Or.inr ?_
            rcases hpos with ⟨_, h⟩ | h | h
            · rw [List.cons.injEq] at h; rw [h.1] at hlt; omega
            · rw [offSum_cons'] at h; exact Or.inl (by omega)
            · exact Or.inr (by omega)) (by simp only [List.length_cons]; omega) (by omega)
          (by simp only [List.length_cons]; omega) rfl w1 hu
        rw [hr.has_next] at this
        simpa only [Bool.not_true, Bool.or_false, UChunks] using this
      · rw [if_neg hlt]
        have hgt : b.id < a.id := by omega
        have hu : uni (seqElems (a :: L)) (seqElems (b :: R))
            = b.elems ++ uni (seqElems (a :: L)) (seqElems R) :=
          uni_append_right sLf sRf
            (chk_lt wR.head wL (fun c hc => Nat.lt_of_lt_of_le hgt (wL.ge_head c hc)))
        have hcap' := hcap
        rw [hu, List.length_append] at hcap'
        have hmac := decode_chunk_exact (dbg := dbg) hFr hr (p := out) (out := buf) (by omega)
        rw [UChunks, ← merged_right (fun c hc => Nat.lt_of_lt_of_le hgt (wL.ge_head c hc))]
        rw [bind_assoc]
        refine hmac.bind ?_
        rintro ⟨n, buf1⟩ ⟨rfl, w1⟩
        simp only at w1
        simp only [ok_bind, nr]
        have := go (jl := il) (jr := ir1) (o := out + b.elems.length) hl hr1 hs (by
            rw [dr1]
            refine Or.inr ?_
            rcases hpos with ⟨_, h⟩ | h | h
            · rw [List.cons.injEq] at h; rw [h.1] at hgt; omega
            · exact Or.inl (by omega)
            · rw [offSum_cons'] at h; exact Or.inr (by omega)) (by simp only [List.length_cons]; omega)
          (by simp only [List.length_cons]; omega) (by omega) rfl w1 hu
        rw [hl.has_next] at this
        simpa only [Bool.not_true, Bool.false_or, UChunks] using this

/-- `pairwise_union` gives the union if the bytes that it reads are readable and is undefined
otherwise. -/
theorem pairwise_union_tail {dbg : Bool} {m : Mem} {lol El lor Er : Nat} {P Q : Nat → Nat}
    (hFl : Fence m lol El) (hFr : Fence m lor Er) {l r : SSeq} {L R : List Chk} {out : Nat}
    {s : UScratch} {buf : List Nat}
    (hl : SeqAtP (ChkIn m lol El P) m l L) (hr : SeqAtP (ChkIn m lor Er Q) m r R) (hs : s.Ok)
    (hpos : ChunksPos l.data L r.data R)
    (hcap : out + (uni (seqElems L) (seqElems R)).length + 23 ≤ buf.length) :
    Exact (UChunks El Er P Q L R) (pairwise_union dbg m l r s buf out)
      (fun v => v.1 = (uni (seqElems L) (seqElems R)).length ∧ v.2.1.Ok ∧
        Wrote buf out (uni (seqElems L) (seqElems R)) 23 v.2.2) := by
  have t := puFrom_tail (dbg := dbg) (fl := l.chunks + 1) (fr := r.chunks + 1) hFl hFr
    (l.chunks + r.chunks + 1) hl.ne hr.ne hl.begin hr.begin
    (out := out) (s := s) (buf := buf) hs hpos (by rw [hl.chunks, hr.chunks]; omega)
    (by rw [hl.chunks]; omega) (by rw [hr.chunks]; omega) hcap
  have he : pairwise_union dbg m l r s buf out = (do
      let v ← puFrom dbg m (l.chunks + 1) (r.chunks + 1) (l.chunks + r.chunks + 1) l.begin r.begin s
        buf out
      pure (v.1 - out, v.2)) := by
    unfold pairwise_union puFrom
    simp only [bind_assoc, pure_bind]
  rw [he]
  refine (t.bind (U := True) ?_).congr ⟨fun h => h.1, fun h => ⟨h, trivial⟩⟩
  rintro ⟨o, s', buf'⟩ ⟨rfl, g2, g3⟩
  exact Exact.of_ok trivial ⟨_, rfl, Nat.add_sub_cancel_left _ _, g2, g3⟩

end Sliced
