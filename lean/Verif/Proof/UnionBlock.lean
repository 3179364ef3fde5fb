import Verif.Proof.IntersectBlock
import Verif.Proof.Uncompress
import Verif.Model.Union
/-! # Union of two blocks -/
namespace Sliced

/-- what is left of `A` when all of `B` has been merged into it -/
def restOf (A B : List Nat) : List Nat := A.filter (fun x => B.all (fun y => decide (y < x)))

theorem restOf_nil_right (A : List Nat) : restOf A [] = A := by
  unfold restOf
  rw [List.filter_eq_self]
  intro x _; rfl

/-- the head of `A` does not exceed all of `B` -/
theorem restOf_cons_left {x y : Nat} {A B : List Nat} (h : ¬ y < x) :
    restOf (x :: A) (y :: B) = restOf A (y :: B) := by
  unfold restOf
  rw [List.filter_cons_of_neg]
  simp [h]

/-- the head of `B` is below all of `A` -/
theorem restOf_cons_right {x : Nat} {A B : List Nat} (h : ∀ z ∈ A, x < z) :
    restOf A (x :: B) = restOf A B := by
  unfold restOf
  refine List.filter_congr (fun z hz => ?_)
  rw [List.all_cons, decide_eq_true (h z hz), Bool.true_and]

theorem lt_all_cons {x y : Nat} {A : List Nat} (h : x < y) (hs : (y :: A).Pairwise (· < ·)) :
    ∀ z ∈ y :: A, x < z := by
  intro z hz
  rcases List.mem_cons.mp hz with rfl | hz
  · exact h
  · have := (List.pairwise_cons.mp hs).1 z hz; omega

/-- The merge loop: it writes a prefix `W` of the union and leaves the values `L'`, `R'`, one of
which is empty. -/
theorem ss_union_block_loop_spec {m : Mem} {end_l end_r base out : Nat} (f : Nat) {l r size : Nat}
    {L R buf : List Nat} (hL : L ≠ []) (hR : R ≠ []) (sL : L.Pairwise (· < ·))
    (sR : R.Pairwise (· < ·)) (bL : ∀ v ∈ L, v < 256) (bR : ∀ v ∈ R, v < 256)
    (hl : BytesAt m l L) (hr : BytesAt m r R)
    (el : l + L.length = end_l) (er : r + R.length = end_r) (hf : L.length + R.length < f)
    (hb : base + 256 ≤ 4294967296) (hcap : out + size + (uni L R).length ≤ buf.length) :
    ∃ l' r' L' R' W buf', ss_union_block_loop m end_l end_r base out f l r size buf
        = .ok (l', r', size + W.length, buf') ∧
      uni L R = W ++ uni L' R' ∧ (L' = [] ∨ R' = []) ∧ (L = R → L' = R') ∧
      BytesAt m l' L' ∧ BytesAt m r' R' ∧ l' + L'.length = end_l ∧ r' + R'.length = end_r ∧
      l ≤ l' ∧ r ≤ r' ∧ Wrote buf (out + size) (W.map (base + ·)) 0 buf' ∧
      L' = restOf L R ∧ R' = restOf R L := by
  induction f generalizing l r size L R buf with
  | zero => omega
  | succ f ih =>
    obtain ⟨x, L, rfl⟩ := List.exists_cons_of_ne_nil hL
    obtain ⟨y, R, rfl⟩ := List.exists_cons_of_ne_nil hR
    have hx := bL x (by simp)
    have hy := bR y (by simp)
    have ux : u32 (x + base) = base + x := by rw [u32_lt (by omega)]; omega
    have uy : u32 (y + base) = base + y := by rw [u32_lt (by omega)]; omega
    simp only [List.length_cons] at el er hf
    have hpos : out + size < buf.length := by
      have : x ∈ uni (x :: L) (y :: R) := mem_uni.mpr (by simp)
      have := List.length_pos_of_mem this
      omega
    simp only [ss_union_block_loop, hl.head, hr.head, ok_bind, wr_of hpos, ux, uy]
    have wx : Wrote buf (out + size) [base + x] 0 (buf.set (out + size) (base + x)) :=
      Wrote.single hpos
    have wy : Wrote buf (out + size) [base + y] 0 (buf.set (out + size) (base + y)) :=
      Wrote.single hpos
    by_cases h1 : x < y
    · have hu : uni (x :: L) (y :: R) = [x] ++ uni L (y :: R) := by rw [uni, if_pos h1]; rfl
      rw [if_pos h1]
      by_cases hend : l + 1 = end_l
      · rw [if_pos hend]
        have : L = [] := List.length_eq_zero_iff.mp (by omega)
        subst this
        refine ⟨l + 1, r, [], y :: R, [x], _, rfl, hu, Or.inl rfl, ?_, hl.tail, hr, by simpa using hend,
          by simp; omega, by omega, by omega, wx, ?_, ?_⟩
        · intro h; simp at h; omega
        · rw [restOf_cons_left (by omega)]; rfl
        · rw [restOf_cons_right (lt_all_cons h1 sR), restOf_nil_right]
      · rw [if_neg hend]
        rw [hu, List.length_append, List.length_singleton] at hcap
        obtain ⟨l', r', L', R', W, o, e, u, emp, eq, hl', hr', el', er', gl, gr, w, q1, q2⟩ := ih (l := l + 1)
          (r := r) (size := size + 1) (L := L) (R := y :: R)
          (buf := buf.set (out + size) (base + x)) (by intro h; subst h; simp at el; omega) (by simp)
          (List.pairwise_cons.mp sL).2 sR (fun v hv => bL v (by simp [hv])) bR hl.tail hr (by omega)
          (by simp; omega) (by simp; omega) (by simp; omega)
        refine ⟨l', r', L', R', x :: W, o, ?_, ?_, emp, ?_, hl', hr', el', er', by omega, gr, ?_,
          ?_, ?_⟩
        · rw [e]; simp [Nat.add_assoc, Nat.add_comm 1]
        · rw [hu, u]; rfl
        · intro h; simp at h; omega
        · exact Wrote.append (L1 := [base + x]) wx (by simpa [Nat.add_assoc] using w)
        · rw [restOf_cons_left (by omega)]; exact q1
        · rw [restOf_cons_right (lt_all_cons h1 sR)]; exact q2
    · rw [if_neg h1]
      by_cases h2 : y < x
      · have hu : uni (x :: L) (y :: R) = [y] ++ uni (x :: L) R := by
          rw [uni, if_neg h1, if_pos h2]; rfl
        rw [if_pos h2]
        by_cases hend : r + 1 = end_r
        · rw [if_pos hend]
          have : R = [] := List.length_eq_zero_iff.mp (by omega)
          subst this
          refine ⟨l, r + 1, x :: L, [], [y], _, rfl, hu, Or.inr rfl, ?_, hl, hr.tail,
            by simp; omega, by simpa using hend, by omega, by omega, wy, ?_, ?_⟩
          · intro h; simp at h; omega
          · rw [restOf_cons_right (lt_all_cons h2 sL), restOf_nil_right]
          · rw [restOf_cons_left (by omega)]; rfl
        · rw [if_neg hend]
          rw [hu, List.length_append, List.length_singleton] at hcap
          obtain ⟨l', r', L', R', W, o, e, u, emp, eq, hl', hr', el', er', gl, gr, w, q1, q2⟩ := ih (l := l)
            (r := r + 1) (size := size + 1) (L := x :: L) (R := R)
            (buf := buf.set (out + size) (base + y)) (by simp)
            (by intro h; subst h; simp at er; omega)
            sL (List.pairwise_cons.mp sR).2 bL (fun v hv => bR v (by simp [hv])) hl hr.tail
            (by simp; omega) (by omega) (by simp; omega) (by simp; omega)
          refine ⟨l', r', L', R', y :: W, o, ?_, ?_, emp, ?_, hl', hr', el', er', gl, by omega, ?_,
            ?_, ?_⟩
          · rw [e]; simp [Nat.add_assoc, Nat.add_comm 1]
          · rw [hu, u]; rfl
          · intro h; simp at h; omega
          · exact Wrote.append (L1 := [base + y]) wy (by simpa [Nat.add_assoc] using w)
          · rw [restOf_cons_right (lt_all_cons h2 sL)]; exact q1
          · rw [restOf_cons_left (by omega)]; exact q2
      · have hxy : x = y := by omega
        subst hxy
        have hu : uni (x :: L) (x :: R) = [x] ++ uni L R := by
          rw [uni, if_neg h1, if_neg h1]; rfl
        rw [if_neg h2]
        have t1 : restOf (x :: L) (x :: R) = restOf L R := by
          rw [restOf_cons_left h1, restOf_cons_right (List.pairwise_cons.mp sL).1]
        have t2 : restOf (x :: R) (x :: L) = restOf R L := by
          rw [restOf_cons_left h1, restOf_cons_right (List.pairwise_cons.mp sR).1]
        rw [t1, t2]
        by_cases hend : l + 1 = end_l ∨ r + 1 = end_r
        · rw [if_pos hend]
          refine ⟨l + 1, r + 1, L, R, [x], _, rfl, hu, ?_, ?_, hl.tail, hr.tail,
            by omega, by omega, by omega, by omega, wx, ?_, ?_⟩
          · rcases hend with h | h
            · exact Or.inl (List.length_eq_zero_iff.mp (by omega))
            · exact Or.inr (List.length_eq_zero_iff.mp (by omega))
          · intro h; simpa using h
          · rcases hend with h | h
            · have : L = [] := List.length_eq_zero_iff.mp (by omega)
              subst this; rfl
            · have : R = [] := List.length_eq_zero_iff.mp (by omega)
              subst this; exact (restOf_nil_right _).symm
          · rcases hend with h | h
            · have : L = [] := List.length_eq_zero_iff.mp (by omega)
              subst this; exact (restOf_nil_right _).symm
            · have : R = [] := List.length_eq_zero_iff.mp (by omega)
              subst this; rfl
        · rw [if_neg hend]
          rw [hu, List.length_append, List.length_singleton] at hcap
          obtain ⟨l', r', L', R', W, o, e, u, emp, eq, hl', hr', el', er', gl, gr, w, q1, q2⟩ := ih
            (l := l + 1) (r := r + 1) (size := size + 1) (L := L) (R := R)
            (buf := buf.set (out + size) (base + x))
            (by intro h; subst h; simp at el; omega)
            (by intro h; subst h; simp at er; omega)
            (List.pairwise_cons.mp sL).2 (List.pairwise_cons.mp sR).2
            (fun v hv => bL v (by simp [hv])) (fun v hv => bR v (by simp [hv])) hl.tail hr.tail
            (by omega) (by omega) (by omega) (by simp; omega)
          refine ⟨l', r', L', R', x :: W, o, ?_, ?_, emp, ?_, hl', hr', el', er', by omega, by omega, ?_,
            q1, q2⟩
          · rw [e]; simp [Nat.add_assoc, Nat.add_comm 1]
          · rw [hu, u]; rfl
          · intro h; exact eq (by simpa using h)
          · exact Wrote.append (L1 := [base + x]) wx (by simpa [Nat.add_assoc] using w)

/-- decoding what is left of a sparse block -/
theorem decode_left_spec {m : Mem} {src l' base p : Nat} {V V' out : List Nat}
    (hr : Readable m src (V.length + 31)) (hv : BytesAt m l' V')
    (he : l' + V'.length = src + V.length) (hle : src ≤ l') (hc : V.length < 31)
    (hb : base + 256 ≤ 4294967296) (hcap : p + V'.length + 23 ≤ out.length) :
    ∃ out', decode_sparse_block m l' V'.length base out p = .ok (V'.length, out') ∧
      Wrote out p (V'.map (base + ·)) 23 out' := by
  apply decode_sparse_block_spec hv (by omega) _ hb hcap
  have := hr.shift (k := l' - src) (n' := V'.length + 31) (by omega)
  rw [show src + (l' - src) = l' by omega] at this
  apply this.mono
  split <;> omega

/-- Where the encodings of two blocks may be relative to each other so that the comparison of
line 55 does no harm: the same block, or strictly separated. -/
def Apart (l nl r nr : Nat) : Prop := l + nl < r ∨ r + nr < l

theorem ss_union_block_spec {dbg : Bool} {m : Mem} {l r base out : Nat} {L R buf : List Nat}
    (hL : L ≠ []) (hR : R ≠ []) (cL : L.length < 31) (cR : R.length < 31)
    (sL : L.Pairwise (· < ·)) (sR : R.Pairwise (· < ·))
    (bL : ∀ v ∈ L, v < 256) (bR : ∀ v ∈ R, v < 256) (hl : BytesAt m l L) (hr : BytesAt m r R)
    (rl : Readable m l (L.length + 31)) (rr : Readable m r (R.length + 31))
    (hpos : (l = r ∧ L = R) ∨ Apart l L.length r R.length)
    (hb : base + 256 ≤ 4294967296) (hcap : out + (uni L R).length + 23 ≤ buf.length) :
    ∃ buf', ss_union_block dbg m l r L.length R.length base buf out
        = .ok ((uni L R).length, buf') ∧
      Wrote buf out ((uni L R).map (base + ·)) 23 buf' := by
  have pL := List.length_pos_iff.mpr hL
  have pR := List.length_pos_iff.mpr hR
  unfold ss_union_block
  rw [cassert_of (by simp; omega), cassert_of (by simp; omega)]
  simp only [ok_bind]
  obtain ⟨l', r', L', R', W, o, e, u, emp, eq, hl', hr', el', er', gl, gr, w, -, -⟩ :=
    ss_union_block_loop_spec (m := m) (base := base) (out := out) (size := 0) (buf := buf)
      (L.length + R.length + 1) hL hR sL sR bL bR hl hr rfl rfl (by omega) hb (by omega)
  have lo := w.length
  rw [uni_of_nil emp] at u
  have hlen := congrArg List.length u
  rw [List.length_append, List.length_append] at hlen
  rw [Nat.zero_add] at e
  rw [Nat.add_zero] at w
  -- the left rest
  have s1 : ∃ o1, (if l' ≠ l + L.length then do
        let (n, buf) ← decode_sparse_block m l' (l + L.length - l') base o (out + W.length)
        pure (W.length + n, buf)
      else pure (W.length, o) : Res (Nat × List Nat)) = .ok (W.length + L'.length, o1) ∧
      Wrote o (out + W.length) (L'.map (base + ·)) 23 o1 := by
    by_cases h : l' = l + L.length
    · have : L' = [] := List.length_eq_zero_iff.mp (by omega)
      subst this
      rw [if_neg (by simpa using h)]
      exact ⟨o, rfl, Wrote.nil _ _ _⟩
    · obtain ⟨o1, e1, w1⟩ := decode_left_spec (p := out + W.length) (out := o) rl hl' el' gl cL hb
        (by omega)
      rw [if_pos (by simpa using h), show l + L.length - l' = L'.length by omega, e1]
      exact ⟨o1, rfl, w1⟩
  obtain ⟨o1, e1, w1⟩ := s1
  have l1 := w1.length
  -- the right rest
  have s2 : ∃ o2, (if r' ≠ l + L.length then do
        let (n, buf) ← decode_sparse_block m r' (r + R.length - r') base o1
          (out + (W.length + L'.length))
        pure (W.length + L'.length + n, buf)
      else pure (W.length + L'.length, o1) : Res (Nat × List Nat))
        = .ok (W.length + L'.length + R'.length, o2) ∧
      Wrote o1 (out + (W.length + L'.length)) (R'.map (base + ·)) 23 o2 := by
    by_cases h : r' = l + L.length
    · have : R' = [] := by
        rcases hpos with ⟨h1, h2⟩ | h1 | h1
        · have := eq h2
          rcases emp with h3 | h3
          · rw [← this]; exact h3
          · exact h3
        · omega
        · omega
      subst this
      rw [if_neg (by simpa using h)]
      exact ⟨o1, rfl, Wrote.nil _ _ _⟩
    · obtain ⟨o2, e2, w2⟩ := decode_left_spec (p := out + (W.length + L'.length)) (out := o1) rr hr'
        er' gr cR hb (by omega)
      rw [if_pos (by simpa using h), show r + R.length - r' = R'.length by omega, e2]
      exact ⟨o2, rfl, w2⟩
  obtain ⟨o2, e2, w2⟩ := s2
  refine ⟨o2, ?_, ?_⟩
  · simp only [e, ok_bind]
    rw [hlen]
    by_cases h : l' = l + L.length
    · rw [if_neg (by simpa using h)] at e1 ⊢
      rw [e1]
      simp only [ok_bind]
      rw [e2, Nat.add_assoc]
    · rw [if_pos (by simpa using h)] at e1 ⊢
      cases hd : decode_sparse_block m l' (l + L.length - l') base o (out + W.length) with
      | error er => rw [hd] at e1; simp at e1
      | ok v =>
        rw [hd] at e1
        simp only [ok_bind] at e1 ⊢
        rw [e1]
        simp only [ok_bind]
        rw [e2, Nat.add_assoc]
  · rw [u, List.map_append, List.map_append, ← List.append_assoc]
    exact Wrote.append (Wrote.append (w.mono (by omega)) (by simpa using w1))
      (by simpa [Nat.add_assoc] using w2)

theorem or_filter {n : Nat} {A B : List Nat} (sA : A.Pairwise (· < ·)) (sB : B.Pairwise (· < ·))
    (bA : ∀ x ∈ A, x < 64 * n) (bB : ∀ x ∈ B, x < 64 * n) :
    (List.range (64 * n)).filter (fun x => decide (x ∈ A) || decide (x ∈ B)) = uni A B := by
  apply uni_unique sA sB (range_sorted _ |>.filter _)
  intro x
  simp only [List.mem_filter, List.mem_range, Bool.or_eq_true, decide_eq_true_eq]
  exact ⟨fun h => h.2, fun h => ⟨h.elim (bA x) (bB x), h⟩⟩

theorem or_bitmaps_spec {W V : Words} {P Q : Nat → Bool} {A B : List Nat} {n base out : Nat}
    {buf : List Nat} (hW : BitsAt W n P) (hV : BitsAt V n Q)
    (hPQ : ∀ x, x < 64 * n → (P x || Q x) = (decide (x ∈ A) || decide (x ∈ B)))
    (sA : A.Pairwise (· < ·)) (sB : B.Pairwise (· < ·))
    (bA : ∀ x ∈ A, x < 64 * n) (bB : ∀ x ∈ B, x < 64 * n) (hb : base + 64 * n ≤ 4294967296)
    (hn : 0 < n) (hcap : out + (uni A B).length ≤ buf.length) :
    ∃ buf', or_bitmaps W V n base buf out = .ok ((uni A B).length, buf') ∧
      Wrote buf out ((uni A B).map (base + ·)) 0 buf' := by
  have hf : (List.range (64 * n)).filter (fun x => P x || Q x) = uni A B := by
    rw [← or_filter (n := n) sA sB bA bB]
    exact List.filter_congr (fun x hx => hPQ x (List.mem_range.mp hx))
  obtain ⟨o, e, w⟩ := decode_bitmap_spec (p := out) (out := buf) (hW.or hV) (b := base) hb
    (by rw [hf]; exact hcap) hn
  rw [hf] at e w
  refine ⟨o, ?_, w⟩
  unfold or_bitmaps
  rw [operate_bitmaps_eq, e]

/-- `x4` is an array of `n` 64-bit words -/
def WordsBuf (n : Nat) (x : List Nat) : Prop := x.length = n ∧ ∀ w ∈ x, w < 18446744073709551616

theorem BufIs.words {x : List Nat} {P : Nat → Bool} (h : BufIs x P) :
    ∀ w ∈ x, w < 18446744073709551616 := by
  intro w hw
  obtain ⟨i, hi, rfl⟩ := List.mem_iff_getElem.mp hw
  exact (h i _ (List.getElem?_eq_getElem hi)).1

theorem ds_union_block_spec {m : Mem} {l r base out : Nat} {D V x4 buf : List Nat}
    (hl : BitsAt (memWords m l) 4 (fun x => decide (x ∈ D))) (sD : D.Pairwise (· < ·))
    (bD : ∀ v ∈ D, v < 256) (hV : V ≠ []) (sV : V.Pairwise (· < ·)) (bV : ∀ v ∈ V, v < 256)
    (hr : BytesAt m r V) (hx : WordsBuf 4 x4) (hb : base + 256 ≤ 4294967296)
    (hcap : out + (uni D V).length ≤ buf.length) :
    ∃ x4' buf', ds_union_block m l r V.length base x4 buf out
        = .ok ((uni D V).length, x4', buf') ∧ WordsBuf 4 x4' ∧
      Wrote buf out ((uni D V).map (base + ·)) 0 buf' := by
  obtain ⟨x1, e1, l1, b1⟩ := memcpy_words_spec 4 0 (p := 0) (by simpa using hl) (bufIs_self hx.2)
    (by rw [hx.1]; omega)
  obtain ⟨x2, e2, l2, b2⟩ := uncompress_sparse_block_loop_spec (V.length + 1) (p := 0) bV hr rfl hV
    (by omega) b1 (by rw [l1, hx.1]; omega)
  obtain ⟨o, e3, w3⟩ := or_bitmaps_spec (A := D) (B := V) (base := base) (out := out) (buf := buf)
    hl (b2.bitsAt (n := 4) (by rw [l2, l1, hx.1]; omega)) (by
      intro x hx
      rw [if_pos (by omega)]
      simp only [Nat.mul_zero, Nat.zero_le, decide_true, Bool.true_and, Nat.sub_zero]
      rw [← Bool.or_assoc, Bool.or_self]) sD sV bD bV (by omega) (by omega) hcap
  refine ⟨x2, o, ?_, ⟨by rw [l2, l1, hx.1], b2.words⟩, w3⟩
  unfold ds_union_block uncompress_sparse_block
  have c4 : block_size / 8 / 8 = 4 := rfl
  have c4' : block_size_in_64bit_words = 4 := rfl
  rw [c4, c4', e1]
  simp only [ok_bind, e2, e3, pure_ok]

/-- The union of two blocks, whatever their encodings. -/
theorem union_blocks_spec {dbg : Bool} {m : Mem} {l r base out : Nat} {a b : Blk}
    {x4 buf : List Nat} (wa : a.WF) (wb : b.WF) (ha : BlkAt 31 m l a) (hb : BlkAt 31 m r b)
    (hpos : (l = r ∧ a = b) ∨ Apart l a.size r b.size) (hx : WordsBuf 4 x4)
    (hbase : base + 256 ≤ 4294967296)
    (hcap : out + (uni a.vals b.vals).length + 23 ≤ buf.length) :
    ∃ x4' buf', union_blocks dbg m l r a.vals.length b.vals.length base x4 buf out
        = .ok ((uni a.vals b.vals).length, x4', buf') ∧ WordsBuf 4 x4' ∧
      Wrote buf out ((uni a.vals b.vals).map (base + ·)) 23 buf' := by
  have sa := wa.2.2.1
  have sb := wb.2.2.1
  unfold union_blocks
  by_cases ca : a.vals.length < 31 <;> by_cases cb : b.vals.length < 31
  · obtain ⟨h1, h2⟩ := ha.sparse ca
    obtain ⟨h3, h4⟩ := hb.sparse cb
    have hpos' : (l = r ∧ a.vals = b.vals) ∨ Apart l a.vals.length r b.vals.length := by
      rcases hpos with ⟨h, rfl⟩ | h
      · exact Or.inl ⟨h, rfl⟩
      · refine Or.inr ?_
        unfold Blk.size bytes_by_cardinality at h
        rwa [if_pos ca, if_pos cb] at h
    obtain ⟨o, e, w⟩ := ss_union_block_spec (dbg := dbg) wa.2.1 wb.2.1 ca cb sa sb wa.2.2.2 wb.2.2.2
      h1 h3 h2 h4 hpos' hbase hcap
    refine ⟨x4, o, ?_, hx, w⟩
    simp [block_type, ca, cb, e]
  · obtain ⟨h1, h2⟩ := ha.sparse ca
    have h3 := hb.dense cb
    rw [uni_comm sa sb] at hcap ⊢
    obtain ⟨x', o, e, hx', w⟩ := ds_union_block_spec h3 sb wb.2.2.2 wa.2.1 sa wa.2.2.2 h1 hx hbase
      (out := out) (buf := buf) (by omega)
    refine ⟨x', o, ?_, hx', w.mono (by omega)⟩
    simp [block_type, ca, cb, type_sparse, type_dense, block_pair, e]
  · obtain ⟨h1, h2⟩ := hb.sparse cb
    have h3 := ha.dense ca
    obtain ⟨x', o, e, hx', w⟩ := ds_union_block_spec h3 sa wa.2.2.2 wb.2.1 sb wb.2.2.2 h1 hx hbase
      (out := out) (buf := buf) (by omega)
    refine ⟨x', o, ?_, hx', w.mono (by omega)⟩
    simp [block_type, ca, cb, type_sparse, type_dense, block_pair, e]
  · have h1 := ha.dense ca
    have h3 := hb.dense cb
    obtain ⟨o, e, w⟩ := or_bitmaps_spec (A := a.vals) (B := b.vals) h1 h3 (fun _ _ => rfl) sa sb
      wa.2.2.2 wb.2.2.2 (base := base) (out := out) (buf := buf) hbase (by omega) (by omega)
    refine ⟨x4, o, ?_, hx, w.mono (by omega)⟩
    simp [block_type, ca, cb, type_sparse, type_dense, block_pair, e, block_size_in_64bit_words]

end Sliced
