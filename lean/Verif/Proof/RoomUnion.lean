import Verif.Proof.RoomIntersect
import Verif.Proof.TailUnion
/-! # The exact number of output slots that pairwise_union needs -/
namespace Sliced

theorem merged_and {α : Type} {key : α → Nat} {A B A' B' : α → Prop} {C C' : α → α → Prop}
    {L R : List α} :
    Merged key (fun a => A a ∧ A' a) (fun b => B b ∧ B' b) (fun a b => C a b ∧ C' a b) L R ↔
      Merged key A B C L R ∧ Merged key A' B' C' L R := by
  unfold Merged
  rw [pairs_and]
  constructor
  · rintro ⟨h1, h2, h3, h4⟩
    exact ⟨⟨fun a ha h => (h1 a ha h).1, fun b hb h => (h2 b hb h).1, h3⟩,
      ⟨fun a ha h => (h1 a ha h).2, fun b hb h => (h2 b hb h).2, h4⟩⟩
  · rintro ⟨⟨h1, h2, h3⟩, g1, g2, g3⟩
    exact ⟨fun a ha h => ⟨h1 a ha h, g1 a ha h⟩, fun b hb h => ⟨h2 b hb h, g2 b hb h⟩, h3, g3⟩

/-! ## Blocks -/

theorem wr_append {buf ext : List Nat} {i v : Nat} (h : i < buf.length) :
    wr (buf ++ ext) i v = .ok (buf.set i v ++ ext) := by
  rw [wr_of (by rw [List.length_append]; omega), List.set_append_left _ _ h]

/-- The merge loop on a longer buffer and on a shorter one: it fills slot after slot. -/
theorem ss_union_block_loop_ext {m : Mem} {end_l end_r base out : Nat} (f : Nat)
    {l r size l' r' size' : Nat} {buf ext o : List Nat} (ho : out + size ≤ buf.length)
    (h : ss_union_block_loop m end_l end_r base out f l r size (buf ++ ext)
      = .ok (l', r', size', o)) :
    (out + size' ≤ buf.length → ∃ o', ss_union_block_loop m end_l end_r base out f l r size buf
        = .ok (l', r', size', o') ∧ o = o' ++ ext) ∧
      (buf.length < out + size' →
        ss_union_block_loop m end_l end_r base out f l r size buf = .error .ub) ∧ size < size' := by
  induction f generalizing l r size buf ext with
  | zero => exact nomatch h
  | succ f ih =>
    unfold ss_union_block_loop at h ⊢
    cases ex : rd8 m l with
    | error e => rw [ex] at h; exact nomatch h
    | ok x =>
      cases ey : rd8 m r with
      | error e => rw [ex, ey] at h; exact nomatch h
      | ok y =>
        simp only [ex, ey, ok_bind] at h ⊢
        by_cases hfit : out + size < buf.length
        · simp only [wr_append hfit, wr_of hfit, ok_bind] at h ⊢
          have step : ∀ {l1 r1 v : Nat} {c : Prop} [Decidable c],
              (if c then pure (l1, r1, size + 1, buf.set (out + size) v ++ ext)
                else ss_union_block_loop m end_l end_r base out f l1 r1 (size + 1)
                  (buf.set (out + size) v ++ ext)) = .ok (l', r', size', o) →
              (out + size' ≤ buf.length → ∃ o', (if c then
                  pure (l1, r1, size + 1, buf.set (out + size) v)
                else ss_union_block_loop m end_l end_r base out f l1 r1 (size + 1)
                  (buf.set (out + size) v)) = .ok (l', r', size', o') ∧ o = o' ++ ext) ∧
              (buf.length < out + size' → (if c then
                  pure (l1, r1, size + 1, buf.set (out + size) v)
                else ss_union_block_loop m end_l end_r base out f l1 r1 (size + 1)
                  (buf.set (out + size) v)) = .error .ub) ∧ size < size' := by
            intro l1 r1 v c _ hs
            by_cases hc : c
            · rw [if_pos hc] at hs ⊢
              injection hs with hs
              simp only [Prod.mk.injEq] at hs
              obtain ⟨rfl, rfl, rfl, rfl⟩ := hs
              exact ⟨fun _ => ⟨_, rfl, rfl⟩, fun _ => by omega, by omega⟩
            · rw [if_neg hc] at hs ⊢
              have := ih (l := l1) (r := r1) (size := size + 1)
                (buf := buf.set (out + size) v) (by rw [List.length_set]; omega) hs
              rw [List.length_set] at this
              exact ⟨this.1, this.2.1, by omega⟩
          split at h
          · rename_i hc; rw [if_pos hc]; exact step h
          · rename_i hc
            rw [if_neg hc]
            split at h
            · rename_i hc; rw [if_pos hc]; exact step h
            · rename_i hc; rw [if_neg hc]; exact step h
        · have hw : ∀ v, wr buf (out + size) v = .error .ub := fun v => wr_err (by omega)
          have hs : size < size' := by
            have step : ∀ {l1 r1 v : Nat} {c : Prop} [Decidable c], (do
                  let b ← wr (buf ++ ext) (out + size) v
                  if c then pure (l1, r1, size + 1, b)
                  else ss_union_block_loop m end_l end_r base out f l1 r1 (size + 1) b)
                = .ok (l', r', size', o) → size < size' := by
              intro l1 r1 v c _ hs
              by_cases hb : out + size < (buf ++ ext).length
              · rw [wr_of hb, ok_bind] at hs
                by_cases hc : c
                · rw [if_pos hc] at hs
                  injection hs with hs
                  simp only [Prod.mk.injEq] at hs
                  omega
                · rw [if_neg hc] at hs
                  have := ih (l := l1) (r := r1) (size := size + 1)
                    (buf := (buf ++ ext).set (out + size) v) (ext := [])
                    (by rw [List.length_set]; omega) (by rw [List.append_nil]; exact hs)
                  omega
              · rw [wr_err (by omega)] at hs; exact nomatch hs
            split at h
            · exact step h
            · split at h
              · exact step h
              · exact step h
          refine ⟨fun h1 => by omega, fun _ => ?_, hs⟩
          simp only [hw]
          split
          · rfl
          · split <;> rfl

theorem Wrote.of_append {buf ext o L : List Nat} {p : Nat} (h : Wrote (buf ++ ext) p L 0 (o ++ ext))
    (hl : o.length = buf.length) (hp : p + L.length ≤ buf.length) : Wrote buf p L 0 o := by
  obtain ⟨a, b, c, d⟩ := h
  have key : ∀ i, i < buf.length → (o ++ ext)[i]? = o[i]? ∧ (buf ++ ext)[i]? = buf[i]? :=
    fun i hi => ⟨List.getElem?_append_left (by omega), List.getElem?_append_left hi⟩
  refine ⟨hl, ?_, ?_, ?_⟩
  · intro i hi
    have := b i hi
    by_cases hb : i < buf.length
    · rwa [(key i hb).1, (key i hb).2] at this
    · rw [List.getElem?_eq_none (by omega), List.getElem?_eq_none (by omega)]
  · intro i hi
    have := c i hi
    rwa [(key (p + i) (by omega)).1] at this
  · intro i hi
    have := d i hi
    by_cases hb : i < buf.length
    · rwa [(key i hb).1, (key i hb).2] at this
    · rw [List.getElem?_eq_none (by omega), List.getElem?_eq_none (by omega)]

/-- slots that the merge of two blocks of bytes writes -/
def UBytesRoom (cap out dl dr : Nat) (L R : List Nat) : Prop :=
  out + (uni L R).length ≤ cap ∧
  (restOf L R ≠ [] →
    out + (uni L R).length + room (restOf L R).length ≤ cap + (restOf L R).length) ∧
  (dr + R.length ≠ dl + L.length →
    out + (uni L R).length + room (restOf R L).length ≤ cap + (restOf R L).length)

theorem ss_union_block_room {dbg : Bool} {m : Mem} {lol El lor Er l r base out : Nat}
    {L R buf : List Nat} (fl : Fence m lol El) (fr : Fence m lor Er)
    (hL : L ≠ []) (hR : R ≠ []) (cL : L.length < 31) (cR : R.length < 31)
    (sL : L.Pairwise (· < ·)) (sR : R.Pairwise (· < ·))
    (bL : ∀ v ∈ L, v < 256) (bR : ∀ v ∈ R, v < 256) (hl : BytesAt m l L) (hr : BytesAt m r R)
    (b1 : lol ≤ l) (b2 : l + L.length ≤ El) (b3 : lor ≤ r) (b4 : r + R.length ≤ Er)
    (hpos : (l = r ∧ L = R) ∨ Apart l L.length r R.length)
    (hb : base + 256 ≤ 4294967296) (ho : out ≤ buf.length) :
    Exact (UBytes El Er l r L R ∧ UBytesRoom buf.length out l r L R)
      (ss_union_block dbg m l r L.length R.length base buf out)
      (fun v => v.1 = (uni L R).length ∧ Wrote buf out ((uni L R).map (base + ·)) 23 v.2) := by
  have pL := List.length_pos_iff.mpr hL
  have pR := List.length_pos_iff.mpr hR
  unfold ss_union_block
  rw [cassert_of (by simp; omega), cassert_of (by simp; omega)]
  simp only [ok_bind]
  obtain ⟨l', r', L', R', W, o, e, u, emp, eq, hl', hr', el', er', gl, gr, w, q1, q2⟩ :=
    ss_union_block_loop_spec (m := m) (base := base) (out := out) (size := 0)
      (buf := buf ++ List.replicate (uni L R).length 0)
      (L.length + R.length + 1) hL hR sL sR bL bR hl hr rfl rfl (by omega) hb
      (by rw [List.length_append, List.length_replicate]; omega)
  rw [uni_of_nil emp] at u
  have hlen := congrArg List.length u
  rw [List.length_append, List.length_append] at hlen
  rw [Nat.zero_add] at e
  rw [Nat.add_zero] at w
  obtain ⟨x1, x2, -⟩ := ss_union_block_loop_ext _ (by omega) e
  unfold UBytes UBytesRoom
  rw [← q1, ← q2]
  have n1 : L'.length ≤ L.length := q1 ▸ restOf_length_le L R
  have n2 : R'.length ≤ R.length := q2 ▸ restOf_length_le R L
  have r1 := room_le' L'.length
  have r2 := room_le' R'.length
  have s1 := room_ge L'.length
  have s2 := room_ge R'.length
  by_cases hW : out + W.length ≤ buf.length
  · obtain ⟨o', e', ho'⟩ := x1 hW
    subst ho'
    have lo : o'.length = buf.length := by
      have := w.length
      rw [List.length_append, List.length_append] at this
      omega
    replace w := w.of_append lo (by rw [List.length_map]; exact hW)
    clear e x1 x2
    simp only [e', ok_bind]
    -- the right rest
    have right : ∀ o1, Wrote o' (out + W.length) (L'.map (base + ·)) 23 o1 →
        out + (W.length + L'.length) ≤ buf.length →
        Exact ((r + R.length ≠ l + L.length → r + R.length + lane R'.length ≤ Er + R'.length) ∧
          out + (uni L R).length ≤ buf.length ∧
          (r + R.length ≠ l + L.length →
            out + (uni L R).length + room R'.length ≤ buf.length + R'.length))
          (if r' ≠ l + L.length then do
            let (n, buf) ← decode_sparse_block m r' (r + R.length - r') base o1
              (out + (W.length + L'.length))
            pure (W.length + L'.length + n, buf)
          else pure (W.length + L'.length, o1) : Res (Nat × List Nat))
          (fun v => v.1 = (uni L R).length ∧ Wrote buf out ((uni L R).map (base + ·)) 23 v.2) := by
      intro o1 w1 hfit
      have l1 := w1.length
      have hw : Wrote buf out ((W ++ L').map (base + ·)) 23 o1 := by
        rw [List.map_append]
        exact Wrote.append (w.mono (by omega)) (by simpa using w1)
      by_cases h : r' = l + L.length
      · have hR' : R' = [] := by
          rcases hpos with ⟨h1, h2⟩ | h1 | h1
          · have := eq h2
            rcases emp with h3 | h3
            · rw [← this]; exact h3
            · exact h3
          · omega
          · omega
        subst hR'
        rw [if_neg (by simpa using h)]
        have hend : r + R.length = l + L.length := by simp at er'; omega
        refine Exact.of_ok ⟨fun hne => absurd hend hne, ?_, fun hne => absurd hend hne⟩ ⟨_, rfl, ?_, ?_⟩
        · simp at hlen; omega
        · simp at hlen ⊢; omega
        · rw [u]; simpa using hw
      · obtain ⟨k1, k2⟩ := decode_sparse_block_tail (base := base) (p := out + (W.length + L'.length))
          (out := o1) fr (show lor ≤ r' by omega) (by omega) hr' (by omega) hb (by omega)
        have hne : r + R.length ≠ l + L.length := by
          intro h0
          rcases hpos with ⟨h1, h2⟩ | h1 | h1
          · have := eq h2
            have : R' = [] := by
              rcases emp with h3 | h3
              · rw [← this]; exact h3
              · exact h3
            subst this
            simp at er'
            omega
          · omega
          · omega
        rw [if_pos (by simpa using h), show r + R.length - r' = R'.length by omega]
        constructor
        · rintro ⟨hT, hT1, hT2⟩
          have := hT hne
          have := hT2 hne
          obtain ⟨o2, e2, w2⟩ := k1 ⟨by omega, by omega⟩
          refine ⟨_, by rw [e2]; rfl, by simp only; omega, ?_⟩
          rw [u, ← List.append_assoc, List.map_append]
          refine Wrote.append hw ?_
          have := w2.mono (k' := 23) (by omega)
          simpa [Nat.add_assoc] using this
        · intro hT
          rw [k2 (fun hk => hT ⟨fun _ => by omega, by omega, fun _ => by omega⟩)]; rfl
    by_cases h : l' = l + L.length
    · have hL' : L' = [] := List.length_eq_zero_iff.mp (by omega)
      rw [if_neg (by simpa using h)]
      have w1 : Wrote o' (out + W.length) (L'.map (base + ·)) 23 o' := by
        rw [hL']; exact Wrote.nil _ _ _
      have := right o' w1 (by rw [hL']; simpa using hW)
      rw [show W.length + L'.length = W.length by rw [hL']; rfl] at this
      simp only [pure_ok, ok_bind]
      exact this.congr ⟨fun h2 => ⟨⟨fun h1 => absurd hL' h1, h2.1⟩, h2.2.1, fun h1 => absurd hL' h1,
        h2.2.2⟩, fun h2 => ⟨h2.1.2, h2.2.1, h2.2.2.2⟩⟩
    · have hL' : L' ≠ [] := by
        intro h0; subst h0; simp at el'; omega
      have hR' : R'.length = 0 := by
        rcases emp with h3 | h3
        · exact absurd h3 hL'
        · rw [h3]; rfl
      rw [if_pos (by simpa using h), show l + L.length - l' = L'.length by omega]
      obtain ⟨k1, k2⟩ := decode_sparse_block_tail (base := base) (p := out + W.length)
        (out := o') fl (show lol ≤ l' by omega) (by omega) hl' (by omega) hb (by omega)
      by_cases hT : l + L.length + lane L'.length ≤ El + L'.length ∧
          out + W.length + room L'.length ≤ buf.length
      · obtain ⟨o1, e1, w1⟩ := k1 ⟨by omega, by omega⟩
        have w1 := w1.mono (k' := 23) (by omega)
        simp only [e1, pure_ok, ok_bind]
        exact (right o1 w1 (by omega)).congr ⟨fun h2 => ⟨⟨fun _ => hT.1, h2.1⟩, h2.2.1,
          fun _ => by omega, h2.2.2⟩, fun h2 => ⟨h2.1.2, h2.2.1, h2.2.2.2⟩⟩
      · refine ⟨fun h2 => absurd ⟨h2.1.1 hL', ?_⟩ hT, fun _ => ?_⟩
        · rw [k2 (fun hk => hT ⟨by omega, by omega⟩)]; rfl
        · have := h2.2.2.1 hL'
          omega
  · rw [x2 (by omega)]
    refine ⟨fun h => ?_, fun _ => rfl⟩
    have := h.2.1
    omega

theorem or_bitmaps_room {W V : Words} {P Q : Nat → Bool} {A B : List Nat} {n base out : Nat}
    {buf : List Nat} (hW : BitsAt W n P) (hV : BitsAt V n Q)
    (hPQ : ∀ x, x < 64 * n → (P x || Q x) = (decide (x ∈ A) || decide (x ∈ B)))
    (sA : A.Pairwise (· < ·)) (sB : B.Pairwise (· < ·))
    (bA : ∀ x ∈ A, x < 64 * n) (bB : ∀ x ∈ B, x < 64 * n) (hb : base + 64 * n ≤ 4294967296)
    (hn : 0 < n) (ho : out ≤ buf.length) :
    Exact (out + (uni A B).length ≤ buf.length) (or_bitmaps W V n base buf out)
      (fun v => v.1 = (uni A B).length ∧ Wrote buf out ((uni A B).map (base + ·)) 0 v.2) := by
  constructor
  · intro hcap
    obtain ⟨o, e, w⟩ := or_bitmaps_spec hW hV hPQ sA sB bA bB hb hn hcap
    exact ⟨_, e, rfl, w⟩
  · intro hcap
    have hf : (List.range (64 * n)).filter (fun x => P x || Q x) = uni A B := by
      rw [← or_filter (n := n) sA sB bA bB]
      exact List.filter_congr (fun x hx => hPQ x (List.mem_range.mp hx))
    unfold or_bitmaps
    rw [operate_bitmaps_eq]
    exact decode_bitmap_err (hW.or hV) hb hn ho (by rw [hf]; omega)

theorem ds_union_block_room {m : Mem} {l r base out : Nat} {D V x4 buf : List Nat}
    (hl : BitsAt (memWords m l) 4 (fun x => decide (x ∈ D))) (sD : D.Pairwise (· < ·))
    (bD : ∀ v ∈ D, v < 256) (hV : V ≠ []) (sV : V.Pairwise (· < ·)) (bV : ∀ v ∈ V, v < 256)
    (hr : BytesAt m r V) (hx : WordsBuf 4 x4) (hb : base + 256 ≤ 4294967296)
    (ho : out ≤ buf.length) :
    Exact (out + (uni D V).length ≤ buf.length) (ds_union_block m l r V.length base x4 buf out)
      (fun v => v.1 = (uni D V).length ∧ WordsBuf 4 v.2.1 ∧
        Wrote buf out ((uni D V).map (base + ·)) 0 v.2.2) := by
  constructor
  · intro hcap
    obtain ⟨x', o, e, hx', w⟩ := ds_union_block_spec hl sD bD hV sV bV hr hx hb hcap
    exact ⟨_, e, rfl, hx', w⟩
  · intro hcap
    obtain ⟨x1, e1, l1, b1⟩ := memcpy_words_spec 4 0 (p := 0) (by simpa using hl) (bufIs_self hx.2)
      (by rw [hx.1]; omega)
    obtain ⟨x2, e2, l2, b2⟩ := uncompress_sparse_block_loop_spec (V.length + 1) (p := 0) bV hr rfl hV
      (by omega) b1 (by rw [l1, hx.1]; omega)
    have e3 := (or_bitmaps_room (A := D) (B := V) (base := base) (out := out) (buf := buf)
      hl (b2.bitsAt (n := 4) (by rw [l2, l1, hx.1]; omega)) (by
        intro x hx
        rw [if_pos (by omega)]
        simp only [Nat.mul_zero, Nat.zero_le, decide_true, Bool.true_and, Nat.sub_zero]
        rw [← Bool.or_assoc, Bool.or_self]) sD sV bD bV (by omega) (by omega) ho).2 hcap
    unfold ds_union_block uncompress_sparse_block
    have c4 : block_size / 8 / 8 = 4 := rfl
    have c4' : block_size_in_64bit_words = 4 := rfl
    rw [c4, c4', e1]
    simp only [ok_bind, e2, e3]
    rfl

/-- slots written for two blocks with the same id -/
def UBlkRoom (cap out dl dr : Nat) (a b : Blk) : Prop :=
  out + (uni a.vals b.vals).length ≤ cap ∧
    (a.vals.length < 31 → b.vals.length < 31 → UBytesRoom cap out dl dr a.vals b.vals)

theorem union_blocks_room {dbg : Bool} {m : Mem} {lol El lor Er l r base out : Nat} {a b : Blk}
    {x4 buf : List Nat} (fl : Fence m lol El) (fr : Fence m lor Er) (wa : a.WF) (wb : b.WF)
    (ha : BlkAt 0 m l a) (hb : BlkAt 0 m r b)
    (b1 : lol ≤ l) (b2 : l + a.size ≤ El) (b3 : lor ≤ r) (b4 : r + b.size ≤ Er)
    (hpos : (l = r ∧ a = b) ∨ Apart l a.size r b.size) (hx : WordsBuf 4 x4)
    (hbase : base + 256 ≤ 4294967296) (ho : out ≤ buf.length) :
    Exact (UBlk El Er l r a b ∧ UBlkRoom buf.length out l r a b)
      (union_blocks dbg m l r a.vals.length b.vals.length base x4 buf out)
      (fun v => v.1 = (uni a.vals b.vals).length ∧ WordsBuf 4 v.2.1 ∧
        Wrote buf out ((uni a.vals b.vals).map (base + ·)) 23 v.2.2) := by
  have sa := wa.2.2.1
  have sb := wb.2.2.1
  unfold union_blocks UBlk UBlkRoom
  by_cases ca : a.vals.length < 31 <;> by_cases cb : b.vals.length < 31
  · obtain ⟨h1, h2⟩ := ha.sparse ca
    obtain ⟨h3, h4⟩ := hb.sparse cb
    unfold Blk.size bytes_by_cardinality at hpos b2 b4
    rw [if_pos ca] at hpos b2
    rw [if_pos cb] at hpos b4
    have hpos' : (l = r ∧ a.vals = b.vals) ∨ Apart l a.vals.length r b.vals.length := by
      rcases hpos with ⟨h, rfl⟩ | h
      · exact Or.inl ⟨h, rfl⟩
      · exact Or.inr h
    refine (ss_union_block_room (dbg := dbg) fl fr wa.2.1 wb.2.1 ca cb sa sb wa.2.2.2
      wb.2.2.2 h1 h3 b1 b2 b3 b4 hpos' hbase ho).pack (fun v => (v.1, x4, v.2))
      ⟨fun h => ⟨fun _ _ => h.1, h.2.1, fun _ _ => h.2⟩, fun h => ⟨h.1 ca cb, h.2.2 ca cb⟩⟩ ?_ ?_
      (fun v h => ⟨h.1, hx, h.2⟩)
    · intro v e
      simp [block_type, ca, cb, e]
    · intro e
      simp [block_type, ca, cb, e]
  · obtain ⟨h1, h2⟩ := ha.sparse ca
    have h3 := hb.dense cb
    rw [uni_comm sa sb]
    refine (ds_union_block_room h3 sb wb.2.2.2 wa.2.1 sa wa.2.2.2 h1 hx hbase ho).pack (fun v => v)
      ⟨fun h => ⟨fun _ h' => absurd h' cb, h, fun _ h' => absurd h' cb⟩, fun h => h.2.1⟩ ?_ ?_
      (fun v h => ⟨h.1, h.2.1, h.2.2.mono (by omega)⟩)
    · intro v e
      simp [block_type, ca, cb, type_sparse, type_dense, block_pair, e]
    · intro e
      simp [block_type, ca, cb, type_sparse, type_dense, block_pair, e]
  · obtain ⟨h1, h2⟩ := hb.sparse cb
    have h3 := ha.dense ca
    refine (ds_union_block_room h3 sa wa.2.2.2 wb.2.1 sb wb.2.2.2 h1 hx hbase ho).pack (fun v => v)
      ⟨fun h => ⟨fun h' => absurd h' ca, h, fun h' => absurd h' ca⟩, fun h => h.2.1⟩ ?_ ?_
      (fun v h => ⟨h.1, h.2.1, h.2.2.mono (by omega)⟩)
    · intro v e
      simp [block_type, ca, cb, type_sparse, type_dense, block_pair, e]
    · intro e
      simp [block_type, ca, cb, type_sparse, type_dense, block_pair, e]
  · have h1 := ha.dense ca
    have h3 := hb.dense cb
    refine (or_bitmaps_room (A := a.vals) (B := b.vals) h1 h3 (fun _ _ => rfl) sa sb
      wa.2.2.2 wb.2.2.2 (base := base) hbase (by omega) ho).pack (fun v => (v.1, x4, v.2))
      ⟨fun h => ⟨fun h' => absurd h' ca, h, fun h' => absurd h' ca⟩, fun h => h.2.1⟩ ?_ ?_
      (fun v h => ⟨h.1, hx, h.2.mono (by omega)⟩)
    · intro v e
      simp [block_type, ca, cb, type_sparse, type_dense, block_pair, e, block_size_in_64bit_words]
    · intro e
      simp [block_type, ca, cb, type_sparse, type_dense, block_pair, e, block_size_in_64bit_words]

/-! ## Lists of blocks -/

theorem pos_step {o out v : Nat} {U A U' : List Nat} (h : o = out + under U v) (hu : U = A ++ U')
    (hA : ∀ x ∈ A, x < v) : o = out + A.length + under U' v := by
  rw [h, hu, under_append, under_all hA, Nat.add_assoc]

theorem pos_head {o out v : Nat} {U : List Nat} (h : o = out + under U v) (hU : ∀ x ∈ U, v ≤ x) :
    o = out := by
  rw [h, under_none hU, Nat.add_zero]

theorem Blk.elems_lt {a : Blk} (w : a.WF) {k : Nat} (h : a.id < k) : ∀ x ∈ a.elems, x < 256 * k := by
  intro x hx
  unfold Blk.elems at hx
  obtain ⟨y, hy, rfl⟩ := List.mem_map.mp hx
  have := w.2.2.2 y hy
  omega

theorem uni_blkElems_ge {L R : List Blk} {k : Nat} (hL : ∀ c ∈ L, k ≤ c.id) (hR : ∀ c ∈ R, k ≤ c.id) :
    ∀ x ∈ uni (blkElems L) (blkElems R), 256 * k ≤ x := by
  intro x hx
  rcases mem_uni.mp hx with h | h
  · exact blkElems_ge hL x h
  · exact blkElems_ge hR x h

theorem decode_macro_room {m : Mem} {lo E base p d out : Nat} {b : Blk} {bs : List Blk}
    {buf : List Nat} (hF : Fence m lo E) (hw : b.WF) (h : BlocksAt 0 m p d (b :: bs))
    (h1 : lo ≤ d) (h2 : d + b.size ≤ E) (hb : base + 65536 ≤ 4294967296)
    (ho : out ≤ buf.length) :
    Exact (d + lane b.vals.length ≤ E ∧ out + room b.vals.length ≤ buf.length) (decode_macro m base p d buf out)
      (fun v => v.1 = out + b.elems.length ∧ v.2.2 = (d + b.size, p + 2) ∧
        Wrote buf out (b.elems.map (base + ·)) 23 v.2.1) := by
  obtain ⟨g1, g2, g3, -⟩ := h
  have hid := hw.1
  have hc := hw.card_pos
  have hl : b.elems.length = b.vals.length := List.length_map _
  obtain ⟨k1, k2⟩ := decode_blk_tail (p := out) (out := buf) (base := base + b.id * 256) hF hw g3 h1 h2
    (by omega) (by omega)
  have hdec : decode_macro m base p d buf out = (do
      let (n, buf) ← (if b.vals.length < 31 then
          decode_sparse_block m d b.vals.length (base + b.id * 256) buf out
        else decode_bitmap (memWords m d) 4 (base + b.id * 256) buf out)
      pure (out + n, buf, d + b.size, p + 2)) := by
    unfold decode_macro decode_block block_type
    simp only [g1, g2, ok_bind, Nat.sub_add_cancel hc,
      u32_lt (show base + b.id * 256 < 4294967296 by omega)]
    by_cases hc' : b.vals.length < 31
    · rw [if_pos hc', if_pos rfl, if_pos hc']; rfl
    · rw [if_neg hc', if_neg (by simp [type_dense, type_sparse]), if_neg hc']; rfl
  rw [hdec]
  constructor
  · intro hT
    obtain ⟨o, e, w⟩ := k1 ⟨hT.2, hT.1⟩
    rw [e]
    exact ⟨_, rfl, by rw [hl], rfl, by rw [← map_elems]; exact w⟩
  · intro hT
    rw [k2 (fun h => hT ⟨h.2, h.1⟩)]; rfl

theorem decode_rest_room {m : Mem} {lo E end_ base cap : Nat} {P O : Nat → Nat} (hF : Fence m lo E)
    (f : Nat) {p d out : Nat} {bs : List Blk} {buf : List Nat} (hw : BlocksWF bs)
    (h : BlocksAt 0 m p d bs) (hp : BlksPlaced P d bs) (h1 : lo ≤ d) (h2 : d + blkBytes bs ≤ E)
    (he : p + 2 * bs.length = end_) (hf : bs.length < f) (hb : base + 65536 ≤ 4294967296)
    (hO : ∀ b ∈ bs, O b.id = out + under (blkElems bs) (256 * b.id))
    (hcap : buf.length = cap) (ho : out ≤ cap) :
    Exact (∀ b ∈ bs, P b.id + lane b.vals.length ≤ E ∧ O b.id + room b.vals.length ≤ cap) (decode_rest m end_ base f p d buf out)
      (fun v => v.1 = out + (blkElems bs).length ∧
        Wrote buf out ((blkElems bs).map (base + ·)) 23 v.2) := by
  induction bs generalizing f p d out buf with
  | nil =>
    obtain ⟨f, rfl⟩ : ∃ g, f = g + 1 := ⟨f - 1, by simp at hf; omega⟩
    simp at he
    refine Exact.of_ok (fun _ h => (nomatch h)) ⟨(out, buf), ?_, rfl,
      by simpa [blkElems] using Wrote.nil _ _ _⟩
    simp [decode_rest, he]
  | cons b bs ih =>
    obtain ⟨f, rfl⟩ : ∃ g, f = g + 1 := ⟨f - 1, by simp at hf; omega⟩
    rw [blkBytes_cons'] at h2
    simp only [List.length_cons] at he hf
    have hmac := decode_macro_room (base := base) (out := out) (buf := buf) hF hw.head h h1 (by omega) hb
      (by omega)
    rw [hcap] at hmac
    have hO1 : O b.id = out :=
      pos_head (hO b List.mem_cons_self) (blkElems_ge hw.ge_head)
    have hO2 : ∀ c ∈ bs, O c.id = out + b.elems.length + under (blkElems bs) (256 * c.id) :=
      fun c hc => pos_step (hO c (List.mem_cons_of_mem _ hc)) (blkElems_cons' b bs)
        (Blk.elems_lt hw.head (hw.head_lt c hc))
    have hcomp : Exact ((d + lane b.vals.length ≤ E ∧ out + room b.vals.length ≤ cap) ∧ (∀ b ∈ bs, P b.id + lane b.vals.length ≤ E ∧ O b.id + room b.vals.length ≤ cap))
        (decode_rest m end_ base (f + 1) p d buf out)
        (fun v => v.1 = out + (blkElems (b :: bs)).length ∧
          Wrote buf out ((blkElems (b :: bs)).map (base + ·)) 23 v.2) := by
      unfold decode_rest
      rw [if_pos (by omega)]
      refine hmac.bind ?_
      rintro ⟨o, buf1, d1, p1⟩ ⟨rfl, hdp, w1⟩
      simp only [Prod.mk.injEq] at hdp
      obtain ⟨rfl, rfl⟩ := hdp
      simp only at w1
      have l1 := w1.length
      have hfit := w1.fits (by omega)
      rw [List.length_map] at hfit
      refine (ih f (p := p + 2) (d := d + b.size) (out := out + b.elems.length)
        (buf := buf1) hw.tail h.2.2.2 hp.2 (by omega) (by omega) (by omega) (by omega) hO2
        (by omega) (by omega)).mono ?_
      rintro ⟨o, buf2⟩ ⟨ho, w2⟩
      refine ⟨?_, ?_⟩
      · simp only at ho ⊢; rw [ho, blkElems_cons', List.length_append]; omega
      · rw [blkElems_cons', List.map_append]
        exact Wrote.append w1 (by simpa using w2)
    refine hcomp.congr ?_
    rw [← hp.1, ← hO1]
    constructor
    · rintro ⟨t1, t2⟩ c hc
      rcases List.mem_cons.mp hc with rfl | hc
      · exact t1
      · exact t2 c hc
    · exact fun t => ⟨t b List.mem_cons_self, fun c hc => t c (List.mem_cons_of_mem _ hc)⟩

/-- the bytes that are read of the blocks of two lists and the slots that are written -/
def RBlocks (cap El Er : Nat) (P Q O : Nat → Nat) (L R : List Blk) : Prop :=
  Merged Blk.id (fun a => P a.id + lane a.vals.length ≤ El ∧ O a.id + room a.vals.length ≤ cap)
    (fun b => Q b.id + lane b.vals.length ≤ Er ∧ O b.id + room b.vals.length ≤ cap)
    (fun a b => UBlk El Er (P a.id) (Q b.id) a b ∧ UBlkRoom cap (O a.id) (P a.id) (Q b.id) a b) L R

/-- the two loops behind the merge -/
theorem ssEnd_room {m : Mem} {lol El lor Er end_l end_r base fl fr cap : Nat}
    {P Q O : Nat → Nat}
    (hFl : Fence m lol El) (hFr : Fence m lor Er) {s : UState} {L R : List Blk}
    (emp : L = [] ∨ R = []) (wL : BlocksWF L) (wR : BlocksWF R)
    (al : BlocksAt 0 m s.l s.data_l L) (ar : BlocksAt 0 m s.r s.data_r R)
    (pl : BlksPlaced P s.data_l L) (pr : BlksPlaced Q s.data_r R)
    (b1 : lol ≤ s.data_l) (b2 : s.data_l + blkBytes L ≤ El)
    (b3 : lor ≤ s.data_r) (b4 : s.data_r + blkBytes R ≤ Er)
    (el : s.l + 2 * L.length = end_l) (er : s.r + 2 * R.length = end_r)
    (hx : WordsBuf 4 s.x4) (h1 : L.length < fl) (h2 : R.length < fr)
    (hb : base + 65536 ≤ 4294967296)
    (hO : ∀ c, c ∈ L ∨ c ∈ R →
      O c.id = s.out + under (uni (blkElems L) (blkElems R)) (256 * c.id))
    (hcap : s.buf.length = cap) (ho : s.out ≤ cap) :
    Exact (RBlocks cap El Er P Q O L R)
      (do
        let (o, buf) ← decode_rest m end_l base fl s.l s.data_l s.buf s.out
        let (o, buf) ← decode_rest m end_r base fr s.r s.data_r buf o
        return (o, s.x4, buf))
      (fun v => v.1 = s.out + (uni (blkElems L) (blkElems R)).length ∧ WordsBuf 4 v.2.1 ∧
        Wrote s.buf s.out ((uni (blkElems L) (blkElems R)).map (base + ·)) 23 v.2.2) := by
  have emp' : blkElems L = [] ∨ blkElems R = [] :=
    emp.imp (fun h => by rw [h]; rfl) (fun h => by rw [h]; rfl)
  rw [uni_of_nil emp'] at hO ⊢
  have hO1 : ∀ a ∈ L, O a.id = s.out + under (blkElems L) (256 * a.id) := by
    intro a ha
    rw [hO a (Or.inl ha)]
    rcases emp with rfl | rfl
    · exact nomatch ha
    · rw [show blkElems [] = [] from rfl, List.append_nil]
  have hO2 : ∀ b ∈ R, O b.id = s.out + (blkElems L).length + under (blkElems R) (256 * b.id) := by
    intro b hb
    rw [hO b (Or.inr hb)]
    rcases emp with rfl | rfl
    · rfl
    · exact nomatch hb
  have t1 := decode_rest_room (base := base) (out := s.out) (buf := s.buf) hFl fl wL al pl b1 b2 el h1
    hb hO1 hcap ho
  have hcomp : Exact ((∀ a ∈ L, P a.id + lane a.vals.length ≤ El ∧ O a.id + room a.vals.length ≤ cap) ∧
        (∀ b ∈ R, Q b.id + lane b.vals.length ≤ Er ∧ O b.id + room b.vals.length ≤ cap) ∧ True)
      (do
        let (o, buf) ← decode_rest m end_l base fl s.l s.data_l s.buf s.out
        let (o, buf) ← decode_rest m end_r base fr s.r s.data_r buf o
        return (o, s.x4, buf))
      (fun v => v.1 = s.out + (blkElems L ++ blkElems R).length ∧ WordsBuf 4 v.2.1 ∧
        Wrote s.buf s.out ((blkElems L ++ blkElems R).map (base + ·)) 23 v.2.2) := by
    refine t1.bind ?_
    rintro ⟨o, buf1⟩ ⟨rfl, w1⟩
    have l1 := w1.length
    have hfit := w1.fits (by omega)
    rw [List.length_map] at hfit
    simp only at l1 w1
    refine (decode_rest_room (base := base) (out := s.out + (blkElems L).length) (buf := buf1) hFr fr wR
      ar pr b3 b4 er h2 hb hO2 (by omega) (by omega)).bind ?_
    rintro ⟨o, buf2⟩ ⟨rfl, w2⟩
    refine Exact.of_ok trivial ⟨_, rfl, ?_, hx, ?_⟩
    · simp only [List.length_append]; omega
    · rw [List.map_append]
      exact Wrote.append w1 (by simpa using w2)
  refine hcomp.congr ?_
  rcases emp with h | h
  · subst h
    rw [RBlocks, merged_nil_left]
    exact ⟨fun t => t.2.1, fun t => ⟨fun _ h => (nomatch h), t, trivial⟩⟩
  · subst h
    rw [RBlocks, merged_nil_right]
    exact ⟨fun t => t.1, fun t => ⟨t, fun _ h => (nomatch h), trivial⟩⟩

theorem ssFrom_room {dbg : Bool} {m : Mem} {lol El lor Er end_l end_r base fl fr cap : Nat}
    {P Q O : Nat → Nat} (hFl : Fence m lol El) (hFr : Fence m lor Er) (f : Nat)
    {s : UState} {L R : List Blk}
    (hL : L ≠ []) (hR : R ≠ []) (wL : BlocksWF L) (wR : BlocksWF R)
    (al : BlocksAt 0 m s.l s.data_l L) (ar : BlocksAt 0 m s.r s.data_r R)
    (pl : BlksPlaced P s.data_l L) (pr : BlksPlaced Q s.data_r R)
    (b1 : lol ≤ s.data_l) (b2 : s.data_l + blkBytes L ≤ El)
    (b3 : lor ≤ s.data_r) (b4 : s.data_r + blkBytes R ≤ Er)
    (el : s.l + 2 * L.length = end_l) (er : s.r + 2 * R.length = end_r)
    (hpos : BlocksPos s.data_l L s.data_r R) (hx : WordsBuf 4 s.x4)
    (hf : L.length + R.length < f) (h1 : L.length < fl) (h2 : R.length < fr)
    (hb : base + 65536 ≤ 4294967296)
    (hO : ∀ c, c ∈ L ∨ c ∈ R →
      O c.id = s.out + under (uni (blkElems L) (blkElems R)) (256 * c.id))
    (hcap : s.buf.length = cap) (ho : s.out ≤ cap) :
    Exact (RBlocks cap El Er P Q O L R) (ssFrom dbg m end_l end_r base fl fr f s)
      (fun v => v.1 = s.out + (uni (blkElems L) (blkElems R)).length ∧ WordsBuf 4 v.2.1 ∧
        Wrote s.buf s.out ((uni (blkElems L) (blkElems R)).map (base + ·)) 23 v.2.2) := by
  induction f generalizing s L R with
  | zero => omega
  | succ f ih =>
    obtain ⟨a, L, rfl⟩ := List.exists_cons_of_ne_nil hL
    obtain ⟨b, R, rfl⟩ := List.exists_cons_of_ne_nil hR
    obtain ⟨l, dl, r, dr, out, x4, buf⟩ := s
    simp only at al ar el er hpos hx hcap ho hO pl pr b1 b2 b3 b4
    simp only [List.length_cons] at el er hf h1 h2
    have sLf := wL.sorted
    have sRf := wR.sorted
    have hA := al.2.2.2
    have hB := ar.2.2.2
    have b2' := b2
    have b4' := b4
    rw [blkBytes_cons'] at b2' b4'
    simp only [ssFrom, ss_union_chunk_loop, al.1, ar.1, ok_bind]
    by_cases h1' : a.id < b.id
    · have hu : uni (blkElems (a :: L)) (blkElems (b :: R))
          = a.elems ++ uni (blkElems L) (blkElems (b :: R)) :=
        uni_append_left sLf sRf (blk_lt wL.head wR (fun c hc => Nat.lt_of_lt_of_le h1' (wR.ge_head c hc)))
      have hO1 : O a.id = out := pos_head (hO a (Or.inl List.mem_cons_self))
        (uni_blkElems_ge wL.ge_head
          (fun c hc => Nat.le_of_lt (Nat.lt_of_lt_of_le h1' (wR.ge_head c hc))))
      have hO2 : ∀ c, c ∈ L ∨ c ∈ b :: R → O c.id = out + a.elems.length
          + under (uni (blkElems L) (blkElems (b :: R))) (256 * c.id) := by
        intro c hc
        refine pos_step (hO c (hc.imp_left (List.mem_cons_of_mem _))) hu (Blk.elems_lt wL.head ?_)
        rcases hc with hc | hc
        · exact wL.head_lt c hc
        · exact Nat.lt_of_lt_of_le h1' (wR.ge_head c hc)
      rw [hu]
      rw [if_pos h1']
      have hmac := decode_macro_room (base := base) (out := out) (buf := buf) hFl wL.head al b1
        (by omega) hb (by omega)
      rw [hcap] at hmac
      rw [RBlocks, ← merged_left (fun c hc => Nat.lt_of_lt_of_le h1' (wR.ge_head c hc)), pl.1, hO1]
      rw [bind_assoc]
      refine hmac.bind ?_
      rintro ⟨o, buf1, d1, p1⟩ ⟨rfl, hdp, w1⟩
      simp only [Prod.mk.injEq] at hdp
      obtain ⟨rfl, rfl⟩ := hdp
      simp only at w1
      have l1 := w1.length
      have hfit := w1.fits (by omega)
      simp only [List.length_map] at hfit
      have hposn : BlocksPos (dl + a.size) L dr (b :: R) := by
        refine Or.inr ?_
        rcases hpos with ⟨_, h⟩ | h | h
        · rw [List.cons.injEq] at h; rw [h.1] at h1'; omega
        · rw [blkBytes_cons'] at h; exact Or.inl (by omega)
        · exact Or.inr (by omega)
      have fin : ∀ v : Nat × List Nat × List Nat,
          (v.1 = out + a.elems.length + (uni (blkElems L) (blkElems (b :: R))).length ∧
            WordsBuf 4 v.2.1 ∧ Wrote buf1 (out + a.elems.length)
              ((uni (blkElems L) (blkElems (b :: R))).map (base + ·)) 23 v.2.2) →
          (v.1 = out + (a.elems ++ uni (blkElems L) (blkElems (b :: R))).length ∧
            WordsBuf 4 v.2.1 ∧ Wrote buf out
              ((a.elems ++ uni (blkElems L) (blkElems (b :: R))).map (base + ·)) 23 v.2.2) := by
        rintro v ⟨g1, g2, g3⟩
        refine ⟨by rw [g1, List.length_append]; omega, g2, ?_⟩
        rw [List.map_append]
        exact Wrote.append w1 (by simpa using g3)
      by_cases hend : l + 2 = end_l
      · simp only [if_pos hend]
        have : L = [] := List.length_eq_zero_iff.mp (by omega)
        subst this
        exact (ssEnd_room (base := base) hFl hFr
          (s := ⟨l + 2, dl + a.size, r, dr, out + a.elems.length, x4, buf1⟩)
          (Or.inl rfl) wL.tail wR hA ar pl.2 pr (by simp only; omega) (by simp only; omega) b3 b4
          (by simp only [List.length_nil]; omega) (by simp only [List.length_cons]; omega) hx
          (by simp only [List.length_nil]; omega) (by simp only [List.length_cons]; omega) hb
          hO2 (by simp only; omega) (by simp only; omega)).mono fin
      · simp only [if_neg hend]
        exact (ih
          (s := ⟨l + 2, dl + a.size, r, dr, out + a.elems.length, x4, buf1⟩)
          (by rintro rfl; simp only [List.length_nil] at el; omega) (by simp)
          wL.tail wR hA ar pl.2 pr (by simp only; omega) (by simp only; omega) b3 b4
          (by simp only; omega) (by simp only [List.length_cons]; omega) hposn hx
          (by simp only [List.length_cons]; omega)
          (by omega) (by simp only [List.length_cons]; omega)
          hO2 (by simp only; omega) (by simp only; omega)).mono fin
    · rw [if_neg h1']
      by_cases h2' : a.id > b.id
      · have hu : uni (blkElems (a :: L)) (blkElems (b :: R))
            = b.elems ++ uni (blkElems (a :: L)) (blkElems R) :=
          uni_append_right sLf sRf
            (blk_lt wR.head wL (fun c hc => Nat.lt_of_lt_of_le h2' (wL.ge_head c hc)))
        have hO1 : O b.id = out := pos_head (hO b (Or.inr List.mem_cons_self))
          (uni_blkElems_ge
            (fun c hc => Nat.le_of_lt (Nat.lt_of_lt_of_le h2' (wL.ge_head c hc))) wR.ge_head)
        have hO2 : ∀ c, c ∈ a :: L ∨ c ∈ R → O c.id = out + b.elems.length
            + under (uni (blkElems (a :: L)) (blkElems R)) (256 * c.id) := by
          intro c hc
          refine pos_step (hO c (hc.imp_right (List.mem_cons_of_mem _))) hu (Blk.elems_lt wR.head ?_)
          rcases hc with hc | hc
          · exact Nat.lt_of_lt_of_le h2' (wL.ge_head c hc)
          · exact wR.head_lt c hc
        rw [hu]
        rw [if_pos h2']
        have hmac := decode_macro_room (base := base) (out := out) (buf := buf) hFr wR.head ar b3
          (by omega) hb (by omega)
        rw [hcap] at hmac
        rw [RBlocks, ← merged_right (fun c hc => Nat.lt_of_lt_of_le h2' (wL.ge_head c hc)), pr.1, hO1]
        rw [bind_assoc]
        refine hmac.bind ?_
        rintro ⟨o, buf1, d1, p1⟩ ⟨rfl, hdp, w1⟩
        simp only [Prod.mk.injEq] at hdp
        obtain ⟨rfl, rfl⟩ := hdp
        simp only at w1
        have l1 := w1.length
        have hfit := w1.fits (by omega)
        simp only [List.length_map] at hfit
        have hposn : BlocksPos dl (a :: L) (dr + b.size) R := by
          refine Or.inr ?_
          rcases hpos with ⟨_, h⟩ | h | h
          · rw [List.cons.injEq] at h; rw [h.1] at h2'; omega
          · exact Or.inl (by omega)
          · rw [blkBytes_cons'] at h; exact Or.inr (by omega)
        have fin : ∀ v : Nat × List Nat × List Nat,
            (v.1 = out + b.elems.length + (uni (blkElems (a :: L)) (blkElems R)).length ∧
              WordsBuf 4 v.2.1 ∧ Wrote buf1 (out + b.elems.length)
                ((uni (blkElems (a :: L)) (blkElems R)).map (base + ·)) 23 v.2.2) →
            (v.1 = out + (b.elems ++ uni (blkElems (a :: L)) (blkElems R)).length ∧
              WordsBuf 4 v.2.1 ∧ Wrote buf out
                ((b.elems ++ uni (blkElems (a :: L)) (blkElems R)).map (base + ·)) 23 v.2.2) := by
          rintro v ⟨g1, g2, g3⟩
          refine ⟨by rw [g1, List.length_append]; omega, g2, ?_⟩
          rw [List.map_append]
          exact Wrote.append w1 (by simpa using g3)
        by_cases hend : r + 2 = end_r
        · simp only [if_pos hend]
          have : R = [] := List.length_eq_zero_iff.mp (by omega)
          subst this
          exact (ssEnd_room (base := base) hFl hFr
            (s := ⟨l, dl, r + 2, dr + b.size, out + b.elems.length, x4, buf1⟩)
            (Or.inr rfl) wL wR.tail al hB pl pr.2 b1 b2 (by simp only; omega) (by simp only; omega)
            (by simp only [List.length_cons]; omega) (by simp only [List.length_nil]; omega) hx
            (by simp only [List.length_cons]; omega) (by simp only [List.length_nil]; omega) hb
            hO2 (by simp only; omega) (by simp only; omega)).mono fin
        · simp only [if_neg hend]
          exact (ih
            (s := ⟨l, dl, r + 2, dr + b.size, out + b.elems.length, x4, buf1⟩)
            (by simp) (by rintro rfl; simp only [List.length_nil] at er; omega)
            wL wR.tail al hB pl pr.2 b1 b2 (by simp only; omega) (by simp only; omega)
            (by simp only [List.length_cons]; omega) (by simp only; omega) hposn hx
            (by simp only [List.length_cons]; omega)
            (by simp only [List.length_cons]; omega) (by omega)
            hO2 (by simp only; omega) (by simp only; omega)).mono fin
      · have hab : a.id = b.id := by omega
        rw [if_neg h2']
        have hu : uni (blkElems (a :: L)) (blkElems (b :: R))
            = uni a.elems b.elems ++ uni (blkElems L) (blkElems R) :=
          uni_append_both sLf sRf
            (blk_lt wL.head wR.tail (fun c hc => by have := wR.head_lt c hc; omega))
            (blk_lt wR.head wL.tail (fun c hc => by have := wL.head_lt c hc; omega))
        have hue : uni a.elems b.elems = (uni a.vals b.vals).map (a.id * 256 + ·) := by
          unfold Blk.elems
          rw [← hab, uni_map_add _ wL.head.2.2.1 wR.head.2.2.1]
        have hO1 : O a.id = out := pos_head (hO a (Or.inl List.mem_cons_self))
          (uni_blkElems_ge wL.ge_head (fun c hc => hab ▸ wR.ge_head c hc))
        have hO2 : ∀ c, c ∈ L ∨ c ∈ R → O c.id = out + (uni a.vals b.vals).length
            + under (uni (blkElems L) (blkElems R)) (256 * c.id) := by
          intro c hc
          rw [show (uni a.vals b.vals).length = (uni a.elems b.elems).length by
            rw [hue, List.length_map]]
          refine pos_step (hO c (hc.imp (List.mem_cons_of_mem _) (List.mem_cons_of_mem _))) hu ?_
          have hlt : a.id < c.id := by
            rcases hc with hc | hc
            · exact wL.head_lt c hc
            · exact hab ▸ wR.head_lt c hc
          intro x hx
          rcases mem_uni.mp hx with h | h
          · exact Blk.elems_lt wL.head hlt x h
          · exact Blk.elems_lt wR.head (hab ▸ hlt) x h
        rw [hue] at hu
        rw [hu]
        have hid := wL.head.1
        have hu32 : u32 (base + a.id * 256) = base + a.id * 256 := u32_lt (by omega)
        have ca := wL.head.card_pos
        have cb := wR.head.card_pos
        have hpos1 : (dl = dr ∧ a = b) ∨ Apart dl a.size dr b.size := by
          rcases hpos with ⟨h, h'⟩ | h | h
          · exact Or.inl ⟨h, (List.cons.injEq .. ▸ h').1⟩
          · rw [blkBytes_cons'] at h; exact Or.inr (Or.inl (by omega))
          · rw [blkBytes_cons'] at h; exact Or.inr (Or.inr (by omega))
        have hmac := union_blocks_room (dbg := dbg) hFl hFr wL.head wR.head al.2.2.1
          ar.2.2.1 b1 (by omega) b3 (by omega) hpos1 hx (base := base + a.id * 256) (out := out)
          (buf := buf) (by omega) (by omega)
        have hmap : (uni a.vals b.vals).map (base + a.id * 256 + ·)
            = ((uni a.vals b.vals).map (a.id * 256 + ·)).map (base + ·) := by
          rw [List.map_map]
          apply List.map_congr_left
          intro x _
          simp only [Function.comp]; omega
        rw [hmap, hcap] at hmac
        rw [RBlocks, ← merged_both hab wL.head_lt wR.head_lt, pl.1, pr.1, hO1]
        simp only [al.2.1, ar.2.1, ok_bind, Nat.sub_add_cancel ca, Nat.sub_add_cancel cb, hu32]
        rw [bind_assoc]
        refine hmac.bind ?_
        rintro ⟨n, x4', buf1⟩ ⟨rfl, hx1, w1⟩
        simp only at hx1 w1
        have l1 := w1.length
        have hfit := w1.fits (by omega)
        simp only [List.length_map] at hfit
        have hposn : BlocksPos (dl + a.size) L (dr + b.size) R := by
          rcases hpos with ⟨h, h'⟩ | h | h
          · rw [List.cons.injEq] at h'
            exact Or.inl ⟨by rw [h, h'.1], h'.2⟩
          · rw [blkBytes_cons'] at h; exact Or.inr (Or.inl (by omega))
          · rw [blkBytes_cons'] at h; exact Or.inr (Or.inr (by omega))
        have fin : ∀ v : Nat × List Nat × List Nat,
            (v.1 = out + (uni a.vals b.vals).length + (uni (blkElems L) (blkElems R)).length ∧
              WordsBuf 4 v.2.1 ∧ Wrote buf1 (out + (uni a.vals b.vals).length)
                ((uni (blkElems L) (blkElems R)).map (base + ·)) 23 v.2.2) →
            (v.1 = out + ((uni a.vals b.vals).map (a.id * 256 + ·)
                ++ uni (blkElems L) (blkElems R)).length ∧
              WordsBuf 4 v.2.1 ∧ Wrote buf out
                (((uni a.vals b.vals).map (a.id * 256 + ·)
                  ++ uni (blkElems L) (blkElems R)).map (base + ·)) 23 v.2.2) := by
          rintro v ⟨g1, g2, g3⟩
          refine ⟨by rw [g1, List.length_append, List.length_map]; omega, g2, ?_⟩
          rw [List.map_append]
          exact Wrote.append w1 (by simpa using g3)
        by_cases hend : l + 2 = end_l ∨ r + 2 = end_r
        · simp only [if_pos hend]
          have emp : L = [] ∨ R = [] := by
            rcases hend with h | h
            · exact Or.inl (List.length_eq_zero_iff.mp (by omega))
            · exact Or.inr (List.length_eq_zero_iff.mp (by omega))
          exact (ssEnd_room (base := base) hFl hFr
            (s := ⟨l + 2, dl + a.size, r + 2, dr + b.size, out + (uni a.vals b.vals).length, x4', buf1⟩)
            emp wL.tail wR.tail hA hB pl.2 pr.2 (by simp only; omega) (by simp only; omega)
            (by simp only; omega) (by simp only; omega)
            (by simp only; omega) (by simp only; omega) hx1 (by omega) (by omega) hb
            hO2 (by simp only; omega) (by simp only; omega)).mono fin
        · simp only [if_neg hend]
          exact (ih
            (s := ⟨l + 2, dl + a.size, r + 2, dr + b.size, out + (uni a.vals b.vals).length, x4', buf1⟩)
            (by rintro rfl; simp only [List.length_nil] at el; omega)
            (by rintro rfl; simp only [List.length_nil] at er; omega)
            wL.tail wR.tail hA hB pl.2 pr.2 (by simp only; omega) (by simp only; omega)
            (by simp only; omega) (by simp only; omega)
            (by simp only; omega) (by simp only; omega) hposn hx1 (by omega)
            (by omega) (by omega) hO2 (by simp only; omega) (by simp only; omega)).mono fin

theorem ss_union_chunk_room {dbg : Bool} {m : Mem} {lol El lor Er base l r out : Nat}
    {L R : List Blk} {x4 buf : List Nat} (hFl : Fence m lol El) (hFr : Fence m lor Er)
    (hL : L ≠ []) (hR : R ≠ []) (wL : BlocksWF L) (wR : BlocksWF R)
    (al : BlocksAt 0 m l (l + 2 * L.length) L) (ar : BlocksAt 0 m r (r + 2 * R.length) R)
    (b1 : lol ≤ l) (b2 : l + (2 * L.length + blkBytes L) ≤ El)
    (b3 : lor ≤ r) (b4 : r + (2 * R.length + blkBytes R) ≤ Er)
    (hpos : BlocksPos (l + 2 * L.length) L (r + 2 * R.length) R) (hx : WordsBuf 4 x4)
    (hb : base + 65536 ≤ 4294967296)
    (ho : out ≤ buf.length) :
    Exact (RBlocks buf.length El Er (blkPos (l + 2 * L.length) L) (blkPos (r + 2 * R.length) R)
      (fun k => out + under (uni (blkElems L) (blkElems R)) (256 * k)) L R)
      (ss_union_chunk dbg m l r L.length R.length base x4 buf out)
      (fun v => v.1 = (uni (blkElems L) (blkElems R)).length ∧ WordsBuf 4 v.2.1 ∧
        Wrote buf out ((uni (blkElems L) (blkElems R)).map (base + ·)) 23 v.2.2) := by
  have h1 := List.length_pos_iff.mpr hL
  have h2 := wL.length_le
  have h3 := List.length_pos_iff.mpr hR
  have h4 := wR.length_le
  have t := ssFrom_room (dbg := dbg) (base := base)
    (O := fun k => out + under (uni (blkElems L) (blkElems R)) (256 * k)) (end_l := l + 2 * L.length)
    (end_r := r + 2 * R.length) (fl := L.length + 1) (fr := R.length + 1) hFl hFr
    (L.length + R.length + 1)
    (s := ⟨l, l + 2 * L.length, r, r + 2 * R.length, out, x4, buf⟩) hL hR wL wR al ar
    (blksPlaced_blkPos wL) (blksPlaced_blkPos wR) (by simp only; omega) (by simp only; omega)
    (by simp only; omega) (by simp only; omega) rfl rfl hpos hx (by omega) (by omega) (by omega) hb
    (fun _ _ => rfl) rfl ho
  have he : ss_union_chunk dbg m l r L.length R.length base x4 buf out = (do
      let v ← ssFrom dbg m (l + 2 * L.length) (r + 2 * R.length) base (L.length + 1) (R.length + 1)
        (L.length + R.length + 1) ⟨l, l + 2 * L.length, r, r + 2 * R.length, out, x4, buf⟩
      pure (v.1 - out, v.2)) := by
    unfold ss_union_chunk ssFrom
    rw [cassert_of (by simp; omega), cassert_of (by simp; omega)]
    simp only [ok_bind, show L.length * 2 = 2 * L.length by omega,
      show R.length * 2 = 2 * R.length by omega, bind_assoc, pure_bind]
  rw [he]
  refine (t.bind (U := True) ?_).congr ⟨fun h => h.1, fun h => ⟨h, trivial⟩⟩
  rintro ⟨o, x', buf'⟩ ⟨rfl, g2, g3⟩
  exact Exact.of_ok trivial ⟨_, rfl, Nat.add_sub_cancel_left _ _, g2, g3⟩

/-! ## Chunks -/

theorem ds_union_chunk_room {dbg : Bool} {pad : Nat} {m : Mem} {base l r out : Nat} {vs : List Nat}
    {R : List Blk} {x buf : List Nat} (hv : (Body.dense vs).WF)
    (al : BitsAt (memWords m l) 1024 (fun y => decide (y ∈ vs))) (hR : R ≠ []) (wR : BlocksWF R)
    (ar : BlocksAt pad m r (r + 2 * R.length) R) (hx : x.length = 1024)
    (hb : base + 65536 ≤ 4294967296) (ho : out ≤ buf.length) :
    Exact (out + (uni vs (blkElems R)).length ≤ buf.length)
      (ds_union_chunk dbg m l r R.length base x buf out)
      (fun v => v.1 = (uni vs (blkElems R)).length ∧ v.2.1.length = 1024 ∧
        Wrote buf out ((uni vs (blkElems R)).map (base + ·)) 0 v.2.2) := by
  constructor
  · intro hcap
    obtain ⟨x', o, e, lx, w⟩ := ds_union_chunk_spec (dbg := dbg) hv al hR wR ar hx hb hcap
    exact ⟨_, e, rfl, lx, w⟩
  · intro hcap
    have hz : BufIs (List.replicate x.length 0) (fun _ => false) :=
      bufIs_replicate (by omega) (fun j _ _ => by simp)
    obtain ⟨x', e1, l1, b1⟩ := uncompress_sparse_chunk_spec (dbg := dbg)
      (out := List.replicate x.length 0)
      (p := 0) hR wR ar hz (by rw [List.length_replicate]; omega) (fun _ _ _ => rfl)
    rw [List.length_replicate, hx] at l1
    have b2 := b1.bitsAt (n := 1024) (by omega)
    have b3 : BitsAt (vecWords x') 1024 (fun y => decide (y ∈ blkElems R)) := by
      simpa using b2
    have e2 := (or_bitmaps_room (A := vs) (B := blkElems R) al b3 (fun _ _ => rfl) hv.2.1
      wR.sorted hv.2.2 wR.bound (base := base) (out := out) (buf := buf) hb (by omega) ho).2 hcap
    unfold ds_union_chunk
    simp only [e1, ok_bind]
    have : chunk_size_in_64bit_words = 1024 := rfl
    rw [this, e2]
    rfl

/-- the bytes that are read and the slots that are written for two chunks with the same id -/
def RBody (cap pos El Er dl dr : Nat) : Body → Body → Prop
  | .sparse as, .sparse bs =>
    if as.length < bs.length then
      RBlocks cap El Er (blkPos (dl + 2 * as.length) as) (blkPos (dr + 2 * bs.length) bs)
        (fun k => pos + under (uni (blkElems as) (blkElems bs)) (256 * k)) as bs
    else
      RBlocks cap Er El (blkPos (dr + 2 * bs.length) bs) (blkPos (dl + 2 * as.length) as)
        (fun k => pos + under (uni (blkElems bs) (blkElems as)) (256 * k)) bs as
  | a, b => pos + (uni a.vals b.vals).length ≤ cap

theorem RBody_full_left (cap pos El Er dl dr : Nat) (b : Body) :
    RBody cap pos El Er dl dr .full b ↔ pos + (uni Body.full.vals b.vals).length ≤ cap := by
  cases b <;> exact Iff.rfl

theorem union_chunks_room {dbg : Bool} {m : Mem} {lol El lor Er : Nat} (fl : Fence m lol El)
    (fr : Fence m lor Er) {Bl Br : Nat → Chk → Prop} {il ir : It} {a b : Chk} {L R : List Chk}
    {base out : Nat} {s : UScratch} {buf : List Nat}
    (hl : ItOnP Bl m il (a :: L)) (hr : ItOnP Br m ir (b :: R))
    (ha : BodyIn m lol El il.data a.body) (hb' : BodyIn m lor Er ir.data b.body)
    (hb : base + 65536 ≤ 4294967296)
    (hs : s.Ok) (hpos : BodyPos il.data a.body ir.data b.body)
    (ho : out ≤ buf.length) :
    Exact (RBody buf.length out El Er il.data ir.data a.body b.body) (union_chunks dbg m il ir base s buf out)
      (fun v => v.1 = (uni a.body.vals b.body.vals).length ∧ v.2.1.Ok ∧
        Wrote buf out ((uni a.body.vals b.body.vals).map (base + ·)) 23 v.2.2) := by
  have wa := hl.wf.head.2
  have wb := hr.wf.head.2
  have sa := wa.sorted
  have sb := wb.sorted
  have ba := wa.bound
  have bb := wb.bound
  obtain ⟨ha, la, ua⟩ := ha
  obtain ⟨hb', lb, ub⟩ := hb'
  have c1024 : chunk_size_in_64bit_words = 1024 := rfl
  have hfull := decode_full_room (p := out) (out := buf) hb ho
  have keep : ∀ (Z : List Nat) (v : Nat × List Nat),
      (v.1 = Z.length ∧ Wrote buf out (Z.map (base + ·)) 0 v.2) →
      (v.1 = Z.length ∧ s.Ok ∧ Wrote buf out (Z.map (base + ·)) 23 v.2) :=
    fun Z v h => ⟨h.1, hs, h.2.mono (by omega)⟩
  unfold union_chunks
  cases ea : a.body with
  | full =>
    rw [hl.type_full ea]
    have hv : uni Body.full.vals b.body.vals = List.range 65536 := uni_full_left sb bb
    have hR := RBody_full_left buf.length out El Er il.data ir.data b.body
    rw [hv, List.length_range] at hR
    rw [hv, List.length_range]
    refine hfull.pack (fun v => (v.1, s, v.2)) hR.symm ?_ ?_
      (fun v h => ⟨h.1, hs, h.2.mono (by omega)⟩)
    · intro v e
      cases eb : b.body with
      | full => rw [hr.type_full eb]; simp [type_sparse, type_dense, chunk_pair, e, type_full]
      | dense vs => rw [hr.type_dense eb]; simp [type_sparse, type_dense, chunk_pair, e, type_full]
      | sparse bs => rw [hr.type_sparse eb]; simp [type_sparse, type_dense, chunk_pair, e, type_full]
    · intro e
      cases eb : b.body with
      | full => rw [hr.type_full eb]; simp [type_sparse, type_dense, chunk_pair, e, type_full]
      | dense vs => rw [hr.type_dense eb]; simp [type_sparse, type_dense, chunk_pair, e, type_full]
      | sparse bs => rw [hr.type_sparse eb]; simp [type_sparse, type_dense, chunk_pair, e, type_full]
  | dense us =>
    rw [hl.type_dense ea]
    rw [ea] at wa sa ba ha
    cases eb : b.body with
    | full =>
      rw [hr.type_full eb]
      have hv : uni (Body.dense us).vals Body.full.vals = List.range 65536 := uni_full_right sa ba
      have hR : RBody buf.length out El Er il.data ir.data (.dense us) .full ↔
          out + (uni (Body.dense us).vals Body.full.vals).length ≤ buf.length := Iff.rfl
      rw [hv, List.length_range] at hR
      rw [hv, List.length_range]
      refine hfull.pack (fun v => (v.1, s, v.2)) hR.symm ?_ ?_
        (fun v h => ⟨h.1, hs, h.2.mono (by omega)⟩)
      · intro v e
        simp [type_sparse, type_dense, chunk_pair, e, type_full]
      · intro e
        simp [type_sparse, type_dense, chunk_pair, e, type_full]
    | dense vs =>
      rw [hr.type_dense eb]
      rw [eb] at wb sb bb hb'
      refine (or_bitmaps_room (A := us) (B := vs) (n := 1024)
        (P := fun x => decide (x ∈ us)) (Q := fun x => decide (x ∈ vs)) ha hb' (fun _ _ => rfl) sa sb ba bb
        (base := base) (out := out) (buf := buf) hb (by omega) ho).pack (fun v => (v.1, s, v.2))
        Iff.rfl ?_ ?_ (fun v h => keep (uni us vs) v h)
      · intro v e
        simp [type_sparse, type_dense, chunk_pair, e, type_full, c1024]
      · intro e
        simp [type_sparse, type_dense, chunk_pair, e, type_full, c1024]
    | sparse bs =>
      rw [hr.type_sparse eb]
      have hbl := hr.blocks_sparse eb
      rw [eb] at wb sb bb hb'
      refine (ds_union_chunk_room (dbg := dbg) wa ha wb.1 wb.2 hb' hs.2 hb
        (out := out) (buf := buf) ho).pack 
        (fun v : Nat × List Nat × List Nat => (v.1, ({ s with x := v.2.1 } : UScratch), v.2.2)) Iff.rfl ?_ ?_
        (fun v h => ⟨h.1, ⟨hs.1, h.2.1⟩, h.2.2.mono (by omega)⟩)
      · intro v e
        simp [type_sparse, type_dense, chunk_pair, e, type_full, hbl]
      · intro e
        simp [type_sparse, type_dense, chunk_pair, e, type_full, hbl]
  | sparse as =>
    rw [hl.type_sparse ea]
    have hal := hl.blocks_sparse ea
    rw [ea] at wa sa ba ha ua
    cases eb : b.body with
    | full =>
      rw [hr.type_full eb]
      have hv : uni (Body.sparse as).vals Body.full.vals = List.range 65536 := uni_full_right sa ba
      have hR : RBody buf.length out El Er il.data ir.data (.sparse as) .full ↔
          out + (uni (Body.sparse as).vals Body.full.vals).length ≤ buf.length := Iff.rfl
      rw [hv, List.length_range] at hR
      rw [hv, List.length_range]
      refine hfull.pack (fun v => (v.1, s, v.2)) hR.symm ?_ ?_
        (fun v h => ⟨h.1, hs, h.2.mono (by omega)⟩)
      · intro v e
        simp [type_sparse, type_dense, chunk_pair, e, type_full]
      · intro e
        simp [type_sparse, type_dense, chunk_pair, e, type_full]
    | dense vs =>
      rw [hr.type_dense eb]
      rw [eb] at wb sb bb hb'
      have hR : RBody buf.length out El Er il.data ir.data (.sparse as) (.dense vs) ↔
          out + (uni (Body.sparse as).vals (Body.dense vs).vals).length ≤ buf.length := Iff.rfl
      rw [uni_comm sa sb] at hR
      rw [uni_comm sa sb]
      refine (ds_union_chunk_room (dbg := dbg) wb hb' wa.1 wa.2 ha hs.2 hb
        (out := out) (buf := buf) ho).pack 
        (fun v : Nat × List Nat × List Nat => (v.1, ({ s with x := v.2.1 } : UScratch), v.2.2)) hR.symm ?_ ?_
        (fun v h => ⟨h.1, ⟨hs.1, h.2.1⟩, h.2.2.mono (by omega)⟩)
      · intro v e
        simp [type_sparse, type_dense, chunk_pair, e, type_full, hal]
      · intro e
        simp [type_sparse, type_dense, chunk_pair, e, type_full, hal]
    | sparse bs =>
      rw [hr.type_sparse eb]
      have hbl := hr.blocks_sparse eb
      rw [ea, eb] at hpos
      rw [eb] at wb sb bb hb' ub
      have la' := List.length_pos_iff.mpr wa.1
      have lb' := List.length_pos_iff.mpr wb.1
      simp only [Body.off] at ua ub
      simp only [RBody]
      by_cases hlt : as.length < bs.length
      · rw [if_pos hlt]
        obtain ⟨t1, t2⟩ := ss_union_chunk_room (dbg := dbg) fl fr wa.1 wb.1 wa.2 wb.2 ha hb' la
          (by omega) lb (by omega) (hpos.blocks wa.1 wb.1) hs.1 hb
          (out := out) (buf := buf) ho
        constructor
        · intro hT
          obtain ⟨⟨n, x', o⟩, e, hn, lx, w⟩ := t1 hT
          refine ⟨(n, { s with x4 := x' }, o), ?_, hn, ⟨lx, hs.2⟩, w⟩
          simp [type_sparse, chunk_pair, e, hbl, hal, hlt]
        · intro hT
          have e := t2 hT
          simp [type_sparse, chunk_pair, e, hbl, hal, hlt]
      · rw [if_neg hlt]
        rw [uni_comm sa sb]
        obtain ⟨t1, t2⟩ := ss_union_chunk_room (dbg := dbg) fr fl wb.1 wa.1 wb.2 wa.2 hb' ha lb
          (by omega) la (by omega) (hpos.symm.blocks wb.1 wa.1) hs.1 hb
          (out := out) (buf := buf) ho
        constructor
        · intro hT
          obtain ⟨⟨n, x', o⟩, e, hn, lx, w⟩ := t1 hT
          refine ⟨(n, { s with x4 := x' }, o), ?_, hn, ⟨lx, hs.2⟩, w⟩
          simp [type_sparse, chunk_pair, e, hbl, hal, hlt]
        · intro hT
          have e := t2 hT
          simp [type_sparse, chunk_pair, e, hbl, hal, hlt]

theorem Chk.elems_lt {a : Chk} (w : a.WF) {k : Nat} (h : a.id < k) : ∀ x ∈ a.elems, x < 65536 * k := by
  intro x hx
  unfold Chk.elems at hx
  obtain ⟨y, hy, rfl⟩ := List.mem_map.mp hx
  have := w.2.bound y hy
  omega

theorem uni_seqElems_ge {L R : List Chk} {k : Nat} (hL : ∀ c ∈ L, k ≤ c.id) (hR : ∀ c ∈ R, k ≤ c.id) :
    ∀ x ∈ uni (seqElems L) (seqElems R), 65536 * k ≤ x := by
  intro x hx
  rcases mem_uni.mp hx with h | h
  · exact seqElems_ge hL x h
  · exact seqElems_ge hR x h

theorem decode_chunk_full {dbg : Bool} {m : Mem} {lo E : Nat} {P : Nat → Nat} {it : It} {c : Chk}
    {cs : List Chk} {p : Nat} {out : List Nat} (hF : Fence m lo E)
    (h : ItOnP (ChkIn m lo E P) m it (c :: cs)) (ho : p ≤ out.length) :
    Exact (P c.id + c.body.reach ≤ E ∧ p + c.body.need ≤ out.length) (decode_chunk dbg m it out p)
      (fun v => v.1 = c.elems.length ∧ Wrote out p c.elems 23 v.2) := by
  obtain ⟨⟨h0, h1, h2⟩, h3⟩ := h.at_.2.1
  have hcl : c.elems.length = c.card := List.length_map _
  obtain ⟨k1, k2⟩ := decode_chunk_tail (dbg := dbg) (p := p) (out := out) hF
    (h.imp (B' := fun dp c => BodyAt 0 m dp c.body) (fun d c hc => hc.1.at_)) h1 h2 (by omega)
  rw [← h3]
  constructor
  · intro hT
    obtain ⟨o, e, w⟩ := k1 ⟨hT.2, hT.1⟩
    exact ⟨_, e, hcl.symm, w⟩
  · exact fun hT => k2 (fun h => hT ⟨h.2, h.1⟩)

theorem decode_tail_full {dbg : Bool} {m : Mem} {lo E cap : Nat} {P O : Nat → Nat} (hF : Fence m lo E)
    (f : Nat) {it : It} {cs : List Chk} {out : Nat}
    {buf : List Nat} (h : ItOnP (ChkIn m lo E P) m it cs) (hf : cs.length < f)
    (hO : ∀ c ∈ cs, O c.id = out + under (seqElems cs) (65536 * c.id))
    (hcap : buf.length = cap) (ho : out ≤ cap) :
    Exact (∀ c ∈ cs, P c.id + c.body.reach ≤ E ∧ O c.id + c.body.need ≤ cap) (decode_tail dbg m f it buf out)
      (fun v => v.1 = out + (seqElems cs).length ∧ Wrote buf out (seqElems cs) 23 v.2) := by
  induction cs generalizing f it out buf with
  | nil =>
    obtain ⟨f, rfl⟩ : ∃ g, f = g + 1 := ⟨f - 1, by simp at hf; omega⟩
    refine Exact.of_ok (fun _ h => (nomatch h)) ⟨(out, buf), ?_, rfl, Wrote.nil _ _ _⟩
    simp [decode_tail, h.has_next_nil]
  | cons c cs ih =>
    obtain ⟨f, rfl⟩ : ∃ g, f = g + 1 := ⟨f - 1, by simp at hf; omega⟩
    have hs : seqElems (c :: cs) = c.elems ++ seqElems cs := rfl
    simp only [List.length_cons] at hf
    have hmac := decode_chunk_full (dbg := dbg) (p := out) (out := buf) hF h (by omega)
    rw [hcap] at hmac
    have hO1 : O c.id = out := pos_head (hO c List.mem_cons_self) (seqElems_ge h.wf.ge_head)
    have hO2 : ∀ d ∈ cs, O d.id = out + c.elems.length + under (seqElems cs) (65536 * d.id) :=
      fun d hd => pos_step (hO d (List.mem_cons_of_mem _ hd)) hs
        (Chk.elems_lt h.wf.head (h.wf.head_lt d hd))
    obtain ⟨it', n, hit, -⟩ := h.next
    have hcomp : Exact ((P c.id + c.body.reach ≤ E ∧ out + c.body.need ≤ cap) ∧ (∀ c ∈ cs, P c.id + c.body.reach ≤ E ∧ O c.id + c.body.need ≤ cap))
        (decode_tail dbg m (f + 1) it buf out)
        (fun v => v.1 = out + (seqElems (c :: cs)).length ∧
          Wrote buf out (seqElems (c :: cs)) 23 v.2) := by
      unfold decode_tail
      rw [if_pos h.has_next]
      refine hmac.bind ?_
      rintro ⟨k, buf1⟩ ⟨rfl, w1⟩
      simp only at w1
      have l1 := w1.length
      have hfit := w1.fits (by omega)
      simp only [n, ok_bind]
      refine (ih f (out := out + c.elems.length) (buf := buf1) hit (by omega) hO2 (by omega)
        (by omega)).mono ?_
      rintro ⟨o, buf2⟩ ⟨ho, w2⟩
      refine ⟨?_, ?_⟩
      · simp only at ho ⊢; rw [ho, hs, List.length_append]; omega
      · rw [hs]
        exact Wrote.append w1 w2
    refine hcomp.congr ?_
    rw [← hO1]
    refine ⟨?_, ?_⟩
    · rintro ⟨t1, t2⟩ x hx
      rcases List.mem_cons.mp hx with rfl | hx
      · exact t1
      · exact t2 x hx
    · exact fun t => ⟨t c List.mem_cons_self, fun x hx => t x (List.mem_cons_of_mem _ hx)⟩

/-- the bytes that are read of the chunks of two lists and the slots that are written -/
def RChunks (cap El Er : Nat) (P Q O : Nat → Nat) (L R : List Chk) : Prop :=
  Merged Chk.id (fun a => P a.id + a.body.reach ≤ El ∧ O a.id + a.body.need ≤ cap)
    (fun b => Q b.id + b.body.reach ≤ Er ∧ O b.id + b.body.need ≤ cap)
    (fun a b => RBody cap (O a.id) El Er (P a.id) (Q b.id) a.body b.body) L R

theorem puEnd_room {dbg : Bool} {m : Mem} {lol El lor Er fl fr cap : Nat} {P Q O : Nat → Nat}
    (hFl : Fence m lol El) (hFr : Fence m lor Er) {il ir : It} {L R : List Chk}
    {out : Nat} {s : UScratch} {buf : List Nat} (emp : L = [] ∨ R = [])
    (hl : ItOnP (ChkIn m lol El P) m il L) (hr : ItOnP (ChkIn m lor Er Q) m ir R) (hs : s.Ok)
    (h1 : L.length < fl) (h2 : R.length < fr)
    (hO : ∀ c, c ∈ L ∨ c ∈ R →
      O c.id = out + under (uni (seqElems L) (seqElems R)) (65536 * c.id))
    (hcap : buf.length = cap) (ho : out ≤ cap) :
    Exact (RChunks cap El Er P Q O L R)
      (do
        let (o, buf) ← decode_tail dbg m fl il buf out
        let (o, buf) ← decode_tail dbg m fr ir buf o
        return (o, s, buf))
      (fun v => v.1 = out + (uni (seqElems L) (seqElems R)).length ∧ v.2.1.Ok ∧
        Wrote buf out (uni (seqElems L) (seqElems R)) 23 v.2.2) := by
  have emp' : seqElems L = [] ∨ seqElems R = [] :=
    emp.imp (fun h => by rw [h]; rfl) (fun h => by rw [h]; rfl)
  rw [uni_of_nil emp'] at hO ⊢
  have hO1 : ∀ a ∈ L, O a.id = out + under (seqElems L) (65536 * a.id) := by
    intro a ha
    rw [hO a (Or.inl ha)]
    rcases emp with rfl | rfl
    · exact nomatch ha
    · rw [show seqElems [] = [] from rfl, List.append_nil]
  have hO2 : ∀ b ∈ R, O b.id = out + (seqElems L).length + under (seqElems R) (65536 * b.id) := by
    intro b hb
    rw [hO b (Or.inr hb)]
    rcases emp with rfl | rfl
    · rfl
    · exact nomatch hb
  have t1 := decode_tail_full (dbg := dbg) hFl fl (out := out) (buf := buf) hl h1 hO1 hcap ho
  have hcomp : Exact ((∀ c ∈ L, P c.id + c.body.reach ≤ El ∧ O c.id + c.body.need ≤ cap) ∧
        (∀ c ∈ R, Q c.id + c.body.reach ≤ Er ∧ O c.id + c.body.need ≤ cap) ∧ True)
      (do
        let (o, buf) ← decode_tail dbg m fl il buf out
        let (o, buf) ← decode_tail dbg m fr ir buf o
        return (o, s, buf))
      (fun v => v.1 = out + (seqElems L ++ seqElems R).length ∧ v.2.1.Ok ∧
        Wrote buf out (seqElems L ++ seqElems R) 23 v.2.2) := by
    refine t1.bind ?_
    rintro ⟨o, buf1⟩ ⟨rfl, w1⟩
    have l1 := w1.length
    have hfit := w1.fits (by omega)
    simp only at l1 w1
    refine (decode_tail_full (dbg := dbg) hFr fr (out := out + (seqElems L).length) (buf := buf1) hr h2
      hO2 (by omega) (by omega)).bind ?_
    rintro ⟨o, buf2⟩ ⟨rfl, w2⟩
    refine Exact.of_ok trivial ⟨_, rfl, ?_, hs, ?_⟩
    · simp only [List.length_append]; omega
    · exact Wrote.append w1 w2
  refine hcomp.congr ?_
  rcases emp with h | h
  · subst h
    rw [RChunks, merged_nil_left]
    exact ⟨fun t => t.2.1, fun t => ⟨fun _ h => (nomatch h), t, trivial⟩⟩
  · subst h
    rw [RChunks, merged_nil_right]
    exact ⟨fun t => t.1, fun t => ⟨t, fun _ h => (nomatch h), trivial⟩⟩

theorem puFrom_room {dbg : Bool} {m : Mem} {lol El lor Er fl fr cap : Nat} {P Q O : Nat → Nat}
    (hFl : Fence m lol El) (hFr : Fence m lor Er) (f : Nat) {il ir : It} {L R : List Chk}
    {out : Nat} {s : UScratch} {buf : List Nat} (hL : L ≠ []) (hR : R ≠ [])
    (hl : ItOnP (ChkIn m lol El P) m il L) (hr : ItOnP (ChkIn m lor Er Q) m ir R) (hs : s.Ok)
    (hpos : ChunksPos il.data L ir.data R) (hf : L.length + R.length < f)
    (h1 : L.length < fl) (h2 : R.length < fr)
    (hO : ∀ c, c ∈ L ∨ c ∈ R →
      O c.id = out + under (uni (seqElems L) (seqElems R)) (65536 * c.id))
    (hcap : buf.length = cap) (ho : out ≤ cap) :
    Exact (RChunks cap El Er P Q O L R) (puFrom dbg m fl fr f il ir s buf out)
      (fun v => v.1 = out + (uni (seqElems L) (seqElems R)).length ∧ v.2.1.Ok ∧
        Wrote buf out (uni (seqElems L) (seqElems R)) 23 v.2.2) := by
  induction f generalizing il ir L R out s buf with
  | zero => omega
  | succ f ih =>
    obtain ⟨a, L, rfl⟩ := List.exists_cons_of_ne_nil hL
    obtain ⟨b, R, rfl⟩ := List.exists_cons_of_ne_nil hR
    simp only [List.length_cons] at hf h1 h2
    have wL := hl.wf
    have wR := hr.wf
    have sLf := wL.sorted
    have sRf := wR.sorted
    have ia := wL.head.1
    have ib := wR.head.1
    obtain ⟨il1, nl, hl1, -, -, -, -, dl1⟩ := hl.next
    obtain ⟨ir1, nr, hr1, -, -, -, -, dr1⟩ := hr.next
    have hcl : a.elems.length = a.card := List.length_map _
    have hcr : b.elems.length = b.card := List.length_map _
    simp only [puFrom, pairwise_union_loop, hl.id, hr.id, ok_bind, u16_lt (show a.id < 65536 by omega),
      u16_lt (show b.id < 65536 by omega)]
    -- what follows a step, with the lists that are left
    have go : ∀ {jl jr : It} {L' R' : List Chk} {o : Nat} {s1 : UScratch} {buf1 W : List Nat},
        ItOnP (ChkIn m lol El P) m jl L' → ItOnP (ChkIn m lor Er Q) m jr R' → s1.Ok →
        ChunksPos jl.data L' jr.data R' → L'.length + R'.length < L.length + R.length + 2 →
        L'.length < fl → R'.length < fr → o = out + W.length →
        Wrote buf out W 23 buf1 →
        uni (seqElems (a :: L)) (seqElems (b :: R)) = W ++ uni (seqElems L') (seqElems R') →
        (∀ c, c ∈ L' ∨ c ∈ R' → (c ∈ a :: L ∨ c ∈ b :: R) ∧ ∀ x ∈ W, x < 65536 * c.id) →
        Exact (RChunks cap El Er P Q O L' R')
          (do
            let (it_l, it_r, o, s, buf) ← (if (!jl.has_next || !jr.has_next) = true then
                pure (jl, jr, o, s1, buf1)
              else pairwise_union_loop dbg m f jl jr s1 buf1 o)
            let (o, buf) ← decode_tail dbg m fl it_l buf o
            let (o, buf) ← decode_tail dbg m fr it_r buf o
            return (o, s, buf))
          (fun v => v.1 = out + (uni (seqElems (a :: L)) (seqElems (b :: R))).length ∧ v.2.1.Ok ∧
            Wrote buf out (uni (seqElems (a :: L)) (seqElems (b :: R))) 23 v.2.2) := by
      intro jl jr L' R' o s1 buf1 W gl gr gs gpos glen gf1 gf2 go gw gu gm
      subst go
      have l1 := gw.length
      have hfit := gw.fits (by omega)
      have hO2 : ∀ c, c ∈ L' ∨ c ∈ R' → O c.id = out + W.length
          + under (uni (seqElems L') (seqElems R')) (65536 * c.id) :=
        fun c hc => pos_step (hO c (gm c hc).1) gu (gm c hc).2
      rw [gu]
      have fin : ∀ v : Nat × UScratch × List Nat,
          (v.1 = out + W.length + (uni (seqElems L') (seqElems R')).length ∧ v.2.1.Ok ∧
            Wrote buf1 (out + W.length) (uni (seqElems L') (seqElems R')) 23 v.2.2) →
          (v.1 = out + (W ++ uni (seqElems L') (seqElems R')).length ∧ v.2.1.Ok ∧
            Wrote buf out (W ++ uni (seqElems L') (seqElems R')) 23 v.2.2) := by
        rintro v ⟨g1, g2, g3⟩
        exact ⟨by rw [g1, List.length_append]; omega, g2, Wrote.append gw g3⟩
      by_cases hend : (!jl.has_next || !jr.has_next) = true
      · rw [if_pos hend]
        simp only [pure_bind]
        refine (puEnd_room (dbg := dbg) hFl hFr (s := s1) (buf := buf1) (out := out + W.length) ?_ gl gr
          gs gf1 gf2 hO2 (by omega) (by omega)).mono fin
        rw [Bool.or_eq_true] at hend
        refine hend.imp ?_ ?_
        · intro h
          cases L' with
          | nil => rfl
          | cons c L' => rw [gl.has_next] at h; simp at h
        · intro h
          cases R' with
          | nil => rfl
          | cons c R' => rw [gr.has_next] at h; simp at h
      · rw [if_neg hend]
        have hLne : L' ≠ [] := by
          rintro rfl; simp [gl.has_next_nil] at hend
        have hRne : R' ≠ [] := by
          rintro rfl; simp [gr.has_next_nil] at hend
        exact (ih hLne hRne gl gr gs gpos (by omega) gf1 gf2 hO2 (by omega) (by omega)).mono fin
    by_cases hab : a.id = b.id
    · rw [if_pos hab]
      have hu : uni (seqElems (a :: L)) (seqElems (b :: R))
          = uni a.elems b.elems ++ uni (seqElems L) (seqElems R) :=
        uni_append_both sLf sRf
          (chk_lt wL.head wR.tail (fun c hc => by have := wR.head_lt c hc; omega))
          (chk_lt wR.head wL.tail (fun c hc => by have := wL.head_lt c hc; omega))
      have hue : uni a.elems b.elems = (uni a.body.vals b.body.vals).map (a.id * 65536 + ·) := by
        unfold Chk.elems
        rw [← hab, uni_map_add _ wL.head.2.sorted wR.head.2.sorted]
      have hO1 : O a.id = out := pos_head (hO a (Or.inl List.mem_cons_self))
        (uni_seqElems_ge wL.ge_head (fun c hc => hab ▸ wR.ge_head c hc))
      have hm : ∀ c, c ∈ L ∨ c ∈ R → (c ∈ a :: L ∨ c ∈ b :: R) ∧
          ∀ x ∈ uni a.elems b.elems, x < 65536 * c.id := by
        intro c hc
        refine ⟨hc.imp (List.mem_cons_of_mem _) (List.mem_cons_of_mem _), ?_⟩
        have hlt : a.id < c.id := by
          rcases hc with hc | hc
          · exact wL.head_lt c hc
          · exact hab ▸ wR.head_lt c hc
        intro x hx
        rcases mem_uni.mp hx with h | h
        · exact Chk.elems_lt wL.head hlt x h
        · exact Chk.elems_lt wR.head (hab ▸ hlt) x h
      rw [hue] at hu hm
      rw [u32_lt (show a.id * 65536 < 4294967296 by omega)]
      have hpos1 : BodyPos il.data a.body ir.data b.body := by
        rcases hpos with ⟨h, h'⟩ | h | h
        · rw [List.cons.injEq] at h'
          exact Or.inl ⟨h, by rw [h'.1]⟩
        · rw [offSum_cons'] at h; exact Or.inr (Or.inl (by omega))
        · rw [offSum_cons'] at h; exact Or.inr (Or.inr (by omega))
      obtain ⟨pa, qa⟩ := hl.at_.2.1
      obtain ⟨pb, qb⟩ := hr.at_.2.1
      have hmac := union_chunks_room (dbg := dbg) hFl hFr hl hr pa pb (hpos := hpos1) (s := s)
        (base := a.id * 65536) (out := out) (buf := buf) (by omega) hs (by omega)
      rw [hcap] at hmac
      rw [RChunks, ← merged_both hab wL.head_lt wR.head_lt, ← qa, ← qb, hO1]
      rw [bind_assoc]
      refine hmac.bind ?_
      rintro ⟨n, s1, buf1⟩ ⟨rfl, hs1, w1⟩
      simp only at hs1 w1
      simp only [ok_bind, nl, nr]
      refine go hl1 hr1 hs1 ?_ (by omega) (by omega) (by omega) (by rw [List.length_map]) w1 hu hm
      rw [dl1, dr1]
      rcases hpos with ⟨h, h'⟩ | h | h
      · rw [List.cons.injEq] at h'
        exact Or.inl ⟨by rw [h, h'.1], h'.2⟩
      · rw [offSum_cons'] at h; exact Or.inr (Or.inl (by omega))
      · rw [offSum_cons'] at h; exact Or.inr (Or.inr (by omega))
    · rw [if_neg hab]
      by_cases hlt : a.id < b.id
      · rw [if_pos hlt]
        have hu : uni (seqElems (a :: L)) (seqElems (b :: R))
            = a.elems ++ uni (seqElems L) (seqElems (b :: R)) :=
          uni_append_left sLf sRf
            (chk_lt wL.head wR (fun c hc => Nat.lt_of_lt_of_le hlt (wR.ge_head c hc)))
        have hO1 : O a.id = out := pos_head (hO a (Or.inl List.mem_cons_self))
          (uni_seqElems_ge wL.ge_head
            (fun c hc => Nat.le_of_lt (Nat.lt_of_lt_of_le hlt (wR.ge_head c hc))))
        have hm : ∀ c, c ∈ L ∨ c ∈ b :: R → (c ∈ a :: L ∨ c ∈ b :: R) ∧
            ∀ x ∈ a.elems, x < 65536 * c.id := by
          intro c hc
          refine ⟨hc.imp_left (List.mem_cons_of_mem _), Chk.elems_lt wL.head ?_⟩
          rcases hc with hc | hc
          · exact wL.head_lt c hc
          · exact Nat.lt_of_lt_of_le hlt (wR.ge_head c hc)
        have hmac := decode_chunk_full (dbg := dbg) hFl hl (p := out) (out := buf) (by omega)
        rw [hcap] at hmac
        rw [RChunks, ← merged_left (fun c hc => Nat.lt_of_lt_of_le hlt (wR.ge_head c hc)), hO1]
        rw [bind_assoc]
        refine hmac.bind ?_
        rintro ⟨n, buf1⟩ ⟨rfl, w1⟩
        simp only at w1
        simp only [ok_bind, nl]
        have := go (jl := il1) (jr := ir) (o := out + a.elems.length) hl1 hr hs (by
            rw [dl1]
            refine Or.inr ?_
            rcases hpos with ⟨_, h⟩ | h | h
            · rw [List.cons.injEq] at h; rw [h.1] at hlt; omega
            · rw [offSum_cons'] at h; exact Or.inl (by omega)
            · exact Or.inr (by omega)) (by simp only [List.length_cons]; omega) (by omega)
          (by simp only [List.length_cons]; omega) rfl w1 hu hm
        rw [hr.has_next] at this
        simpa only [Bool.not_true, Bool.or_false, RChunks] using this
      · rw [if_neg hlt]
        have hgt : b.id < a.id := by omega
        have hu : uni (seqElems (a :: L)) (seqElems (b :: R))
            = b.elems ++ uni (seqElems (a :: L)) (seqElems R) :=
          uni_append_right sLf sRf
            (chk_lt wR.head wL (fun c hc => Nat.lt_of_lt_of_le hgt (wL.ge_head c hc)))
        have hO1 : O b.id = out := pos_head (hO b (Or.inr List.mem_cons_self))
          (uni_seqElems_ge
            (fun c hc => Nat.le_of_lt (Nat.lt_of_lt_of_le hgt (wL.ge_head c hc))) wR.ge_head)
        have hm : ∀ c, c ∈ a :: L ∨ c ∈ R → (c ∈ a :: L ∨ c ∈ b :: R) ∧
            ∀ x ∈ b.elems, x < 65536 * c.id := by
          intro c hc
          refine ⟨hc.imp_right (List.mem_cons_of_mem _), Chk.elems_lt wR.head ?_⟩
          rcases hc with hc | hc
          · exact Nat.lt_of_lt_of_le hgt (wL.ge_head c hc)
          · exact wR.head_lt c hc
        have hmac := decode_chunk_full (dbg := dbg) hFr hr (p := out) (out := buf) (by omega)
        rw [hcap] at hmac
        rw [RChunks, ← merged_right (fun c hc => Nat.lt_of_lt_of_le hgt (wL.ge_head c hc)), hO1]
        rw [bind_assoc]
        refine hmac.bind ?_
        rintro ⟨n, buf1⟩ ⟨rfl, w1⟩
        simp only at w1
        simp only [ok_bind, nr]
        have := go (jl := il) (jr := ir1) (o := out + b.elems.length) hl hr1 hs (by
            rw [dr1]
            refine Or.inr ?_
            rcases hpos with ⟨_, h⟩ | h | h
            · rw [List.cons.injEq] at h; rw [h.1] at hgt; omega
            · exact Or.inl (by omega)
            · rw [offSum_cons'] at h; exact Or.inr (by omega)) (by simp only [List.length_cons]; omega)
          (by simp only [List.length_cons]; omega) (by omega) rfl w1 hu hm
        rw [hl.has_next] at this
        simpa only [Bool.not_true, Bool.false_or, RChunks] using this

/-- `pairwise_union` gives the union if the bytes that it reads are readable and the slots that it
writes exist, and is undefined otherwise. -/
theorem pairwise_union_room {dbg : Bool} {m : Mem} {lol El lor Er : Nat} {P Q : Nat → Nat}
    (hFl : Fence m lol El) (hFr : Fence m lor Er) {l r : SSeq} {L R : List Chk} {out : Nat}
    {s : UScratch} {buf : List Nat}
    (hl : SeqAtP (ChkIn m lol El P) m l L) (hr : SeqAtP (ChkIn m lor Er Q) m r R) (hs : s.Ok)
    (hpos : ChunksPos l.data L r.data R)
    (ho : out ≤ buf.length) :
    Exact (RChunks buf.length El Er P Q
      (fun k => out + under (uni (seqElems L) (seqElems R)) (65536 * k)) L R) (pairwise_union dbg m l r s buf out)
      (fun v => v.1 = (uni (seqElems L) (seqElems R)).length ∧ v.2.1.Ok ∧
        Wrote buf out (uni (seqElems L) (seqElems R)) 23 v.2.2) := by
  have t := puFrom_room (dbg := dbg)
    (O := fun k => out + under (uni (seqElems L) (seqElems R)) (65536 * k)) (fl := l.chunks + 1) (fr := r.chunks + 1) hFl hFr
    (l.chunks + r.chunks + 1) hl.ne hr.ne hl.begin hr.begin
    (out := out) (s := s) (buf := buf) hs hpos (by rw [hl.chunks, hr.chunks]; omega)
    (by rw [hl.chunks]; omega) (by rw [hr.chunks]; omega) (fun _ _ => rfl) rfl ho
  have he : pairwise_union dbg m l r s buf out = (do
      let v ← puFrom dbg m (l.chunks + 1) (r.chunks + 1) (l.chunks + r.chunks + 1) l.begin r.begin s
        buf out
      pure (v.1 - out, v.2)) := by
    unfold pairwise_union puFrom
    simp only [bind_assoc, pure_bind]
  rw [he]
  refine (t.bind (U := True) ?_).congr ⟨fun h => h.1, fun h => ⟨h, trivial⟩⟩
  rintro ⟨o, s', buf'⟩ ⟨rfl, g2, g3⟩
  exact Exact.of_ok trivial ⟨_, rfl, Nat.add_sub_cancel_left _ _, g2, g3⟩

end Sliced
