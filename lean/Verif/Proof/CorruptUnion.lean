import Verif.Proof.CorruptSets
/-!
# Memory of any content: union of two sequences
-/
namespace Sliced

variable {m : Mem} {lo hi lo' hi' : Nat} {dbg : Bool} {g : Nat} {it : It} {s : SSeq}

/-! ## Blocks -/

theorem runSSUnionBlockLoop (hw : Win m lo hi) (hw' : Win m lo' hi') {end_l end_r base out : Nat}
    (h2 : end_l ≤ hi) (h2' : end_r ≤ hi') :
    ∀ (f l r size : Nat) (buf : List Nat), l < end_l → r < end_r →
    (end_l - l) + (end_r - r) < f → lo ≤ l → lo' ≤ r →
    out + size + (end_l - l) + (end_r - r) ≤ buf.length →
    Runs (fun q => l ≤ q.1 ∧ q.1 ≤ end_l ∧ r ≤ q.2.1 ∧ q.2.1 ≤ end_r ∧
        q.2.2.1 + (end_l - q.1) + (end_r - q.2.1) ≤ size + (end_l - l) + (end_r - r) ∧
        q.2.2.2.length = buf.length)
      (ss_union_block_loop m end_l end_r base out f l r size buf)
  | 0, _, _, _, _, _, _, hf, _, _, _ => absurd hf (Nat.not_lt_zero _)
  | f + 1, l, r, size, buf, hl, hr, hf, h1, h1', hc => by
    unfold ss_union_block_loop
    refine (run8 hw h1 (by omega)).bind (fun x _ => ?_)
    refine (run8 hw' h1' (by omega)).bind (fun y _ => ?_)
    split
    · refine (runWr _ (by omega)).bind ?_
      rintro b ⟨hb, -⟩
      split
      · exact Runs.pure ⟨by simp only; omega, by simp only; omega, Nat.le_refl _, Nat.le_of_lt hr,
          by simp only; omega, hb⟩
      · refine (runSSUnionBlockLoop hw hw' h2 h2' f _ _ _ b (by omega) (by omega) (by omega) (by omega)
          (by omega) (by omega)).mono ?_
        rintro ⟨q1, q2, q3, q4⟩ ⟨a1, a2, a3, a4, a5, a6⟩
        simp only at a1 a2 a3 a4 a5 a6 ⊢
        exact ⟨by omega, by omega, by omega, by omega, by omega, by omega⟩
    · split
      · refine (runWr _ (by omega)).bind ?_
        rintro b ⟨hb, -⟩
        split
        · exact Runs.pure ⟨Nat.le_refl _, Nat.le_of_lt hl, by simp only; omega, by simp only; omega,
            by simp only; omega, hb⟩
        · refine (runSSUnionBlockLoop hw hw' h2 h2' f _ _ _ b (by omega) (by omega) (by omega) (by omega)
            (by omega) (by omega)).mono ?_
          rintro ⟨q1, q2, q3, q4⟩ ⟨a1, a2, a3, a4, a5, a6⟩
          simp only at a1 a2 a3 a4 a5 a6 ⊢
          exact ⟨by omega, by omega, by omega, by omega, by omega, by omega⟩
      · refine (runWr _ (by omega)).bind ?_
        rintro b ⟨hb, -⟩
        split
        · exact Runs.pure ⟨by simp only; omega, by simp only; omega, by simp only; omega,
            by simp only; omega, by simp only; omega, hb⟩
        · refine (runSSUnionBlockLoop hw hw' h2 h2' f _ _ _ b (by omega) (by omega) (by omega) (by omega)
            (by omega) (by omega)).mono ?_
          rintro ⟨q1, q2, q3, q4⟩ ⟨a1, a2, a3, a4, a5, a6⟩
          simp only at a1 a2 a3 a4 a5 a6 ⊢
          exact ⟨by omega, by omega, by omega, by omega, by omega, by omega⟩

theorem runSSUnionBlock (hw : Win m lo hi) (hw' : Win m lo' hi') {l r cl cr base out : Nat}
    {buf : List Nat} (hl : 1 ≤ cl ∧ cl ≤ 30) (hr : 1 ≤ cr ∧ cr ≤ 30) (h1 : lo ≤ l) (h2 : l + 64 ≤ hi)
    (h1' : lo' ≤ r) (h2' : r + 64 ≤ hi') (hc : out + 512 ≤ buf.length) :
    Runs (fun q => q.1 ≤ 512 ∧ q.2.length = buf.length)
      (ss_union_block dbg m l r cl cr base buf out) := by
  unfold ss_union_block
  refine (Runs.cassert (by simp; omega)).bind (fun _ _ => ?_)
  refine (Runs.cassert (by simp; omega)).bind (fun _ _ => ?_)
  simp only
  refine (runSSUnionBlockLoop hw hw' (by omega) (by omega) _ l r 0 buf (by omega) (by omega) (by omega) h1
    h1' (by omega)).bind ?_
  rintro ⟨l', r', size, b⟩ ⟨a1, a2, a3, a4, a5, a6⟩
  simp only at a1 a2 a3 a4 a5 a6 ⊢
  have rest : ∀ q : Nat × List Nat, q.1 ≤ size + (l + cl - l') ∧ q.2.length = buf.length →
      Runs (fun q => q.1 ≤ 512 ∧ q.2.length = buf.length) (if r' ≠ l + cl then do
        let q' ← decode_sparse_block m r' (r + cr - r') base q.2 (out + q.1)
        pure (q.1 + q'.1, q'.2)
      else pure (q.1, q.2)) := by
    rintro ⟨size', b'⟩ ⟨d1, d2⟩
    simp only at d1 d2 ⊢
    split
    · refine (runDecodeSparseBlock hw' (by omega) (by split <;> omega) (by split <;> omega)).bind ?_
      rintro ⟨n, b''⟩ ⟨c1, c2⟩
      simp only at c1 c2 ⊢
      exact Runs.pure ⟨by simp only; omega, by simp only; omega⟩
    · exact Runs.pure ⟨by simp only; omega, d2⟩
  split
  · refine (runDecodeSparseBlock hw (by omega) (by split <;> omega) (by split <;> omega)).bind ?_
    rintro ⟨n, b'⟩ ⟨c1, c2⟩
    simp only at c1 c2
    exact rest (size + n, b') ⟨by simp only; omega, by simp only; omega⟩
  · exact rest (size, b) ⟨Nat.le_add_right _ _, a6⟩

theorem runDSUnionBlock (hw : Win m lo hi) (hw' : Win m lo' hi') {l r c base out : Nat}
    {x buf : List Nat} (hcd : 1 ≤ c ∧ c ≤ 30) (h1 : lo ≤ l) (h2 : l + 32 ≤ hi)
    (h1' : lo' ≤ r) (h2' : r + 32 ≤ hi') (hx : 4 ≤ x.length) (hc : out + 512 ≤ buf.length) :
    Runs (fun q => q.1 ≤ 512 ∧ q.2.1.length = x.length ∧ q.2.2.length = buf.length)
      (ds_union_block m l r c base x buf out) := by
  unfold ds_union_block
  have bm := runMem (n := 4) hw h1 (by omega)
  refine ((runMemcpy bm 0 4 0 x (by decide) (by omega)).andEnds
    (memcpy_words_low m l 4 0 x (Low.nil _))).bind ?_
  rintro x1 ⟨a1, a2⟩
  obtain ⟨c, rfl⟩ : ∃ k, c = k + 1 := ⟨c - 1, by omega⟩
  refine ((runUncompressSparseBlock hw' (p := 0) (out := x1) hcd.1 h1' (by omega) (by rw [a1]; omega)).andEnds
    (uncompress_sparse_block_ends m r c x1 0 a2)).bind ?_
  rintro x2 ⟨b1, b2⟩
  have hx2 : x2.length = x.length := by rw [b1, a1]
  refine (runOr (n := 4) bm (runVec (by omega) b2) (by omega)).bind ?_
  rintro ⟨n, b⟩ ⟨c1, c2⟩
  exact Runs.pure ⟨by simp only at c1 ⊢; omega, hx2, c2⟩

theorem runUnionBlocks (hw : Win m lo hi) (hw' : Win m lo' hi') {l r cl cr base out : Nat}
    {x4 buf : List Nat} (hl : 1 ≤ cl ∧ cl ≤ 256) (hr : 1 ≤ cr ∧ cr ≤ 256) (h1 : lo ≤ l)
    (h2 : l + 64 ≤ hi) (h1' : lo' ≤ r) (h2' : r + 64 ≤ hi') (hx : 4 ≤ x4.length)
    (hc : out + 512 ≤ buf.length) :
    Runs (fun q => q.1 ≤ 512 ∧ q.2.1.length = x4.length ∧ q.2.2.length = buf.length)
      (union_blocks dbg m l r cl cr base x4 buf out) := by
  have keep : ∀ {k : Nat} {q : Res (Nat × List Nat)}, k ≤ 512 →
      Runs (fun q => q.1 ≤ k ∧ q.2.length = buf.length) q →
      Runs (fun q => q.1 ≤ 512 ∧ q.2.1.length = x4.length ∧ q.2.2.length = buf.length)
      ((fun (p : Nat × List Nat) => (p.1, x4, p.2)) <$> q) := fun hk hq =>
    hq.map (fun p hp => ⟨Nat.le_trans hp.1 hk, rfl, hp.2⟩)
  unfold union_blocks block_type
  by_cases a : cl < 31 <;> by_cases b : cr < 31
  · simp only [if_pos a, if_pos b, if_true]
    exact keep (Nat.le_refl _) (runSSUnionBlock hw hw' (by omega) (by omega) h1 h2 h1' h2' hc)
  · simp only [if_pos a, if_neg b]
    rw [if_neg (by decide), if_pos trivial]
    exact runDSUnionBlock hw' hw (by omega) h1' (by omega) h1 (by omega) hx hc
  · simp only [if_neg a, if_pos b]
    rw [if_neg (by decide), if_neg (by decide), if_pos trivial]
    exact runDSUnionBlock hw hw' (by omega) h1 (by omega) h1' (by omega) hx hc
  · simp only [if_neg a, if_neg b]
    rw [if_neg (by decide), if_neg (by decide), if_neg (by decide), if_pos trivial]
    exact keep (by decide) (runOr (n := 4) (runMem hw h1 (by omega)) (runMem hw' h1' (by omega))
      (by omega))

/-! ## Slices -/

theorem runDecodeMacro (hw : Win m lo hi) {base ptr data out : Nat} {buf : List Nat} (h1 : lo ≤ ptr)
    (h2 : ptr + 2 ≤ hi) (h3 : lo ≤ data) (h4 : data + 40 ≤ hi) (hc : out + 256 ≤ buf.length) :
    Runs (fun q => out ≤ q.1 ∧ q.1 ≤ out + 256 ∧ q.2.1.length = buf.length ∧ data ≤ q.2.2.1 ∧
        q.2.2.1 ≤ data + 32 ∧ q.2.2.2 = ptr + 2)
      (decode_macro m base ptr data buf out) := by
  unfold decode_macro
  refine (run8 hw h1 (by omega)).bind (fun id _ => ?_)
  refine (run8 hw (by omega) (by omega)).bind (fun c1 hc1 => ?_)
  have hb := bytes_le (c1 + 1)
  simp only
  have key : Runs (fun q => q.1 ≤ 256 ∧ q.2.length = buf.length)
      (decode_block m data (block_type (c1 + 1)) (c1 + 1) (u32 (base + id * 256)) buf out) := by
    unfold decode_block block_type
    by_cases h : c1 + 1 < 31
    · simp only [if_pos h, if_true]
      refine (runDecodeSparseBlock hw h3 (by split <;> omega) (by split <;> omega)).mono ?_
      rintro ⟨n, b⟩ ⟨a1, a2⟩
      simp only at a1 a2 ⊢
      omega
    · simp only [if_neg h]
      rw [if_neg (by decide)]
      exact runDecodeBitmap (n := 4) (runMem hw h3 (by omega)) (by omega)
  refine key.bind ?_
  rintro ⟨n, b⟩ ⟨a1, a2⟩
  simp only at a1 a2 ⊢
  exact Runs.pure ⟨Nat.le_add_right _ _, by simp only; omega, a2, Nat.le_add_right _ _,
    by simp only; omega, rfl⟩

/-- the state of the merge, with `nl` and `nr` blocks left -/
structure UAt (lo hi lo' hi' end_l end_r cap x4 : Nat) (s : UState) (nl nr : Nat) : Prop where
  l : s.l + 2 * nl = end_l
  r : s.r + 2 * nr = end_r
  ll : lo ≤ s.l
  lr : lo' ≤ s.r
  dl : lo ≤ s.data_l
  dr : lo' ≤ s.data_r
  wl : s.data_l + 32 * nl + 32 ≤ hi
  wr : s.data_r + 32 * nr + 32 ≤ hi'
  room : s.out + 256 * (nl + nr) ≤ cap
  buf : cap ≤ s.buf.length
  x4 : s.x4.length = x4

theorem runSSUnionLoop (hw : Win m lo hi) (hw' : Win m lo' hi') {end_l end_r base cap N : Nat}
    (hN : 4 ≤ N) (h2 : end_l ≤ hi) (h2' : end_r ≤ hi') :
    ∀ (f nl nr : Nat) (s : UState), 1 ≤ nl → 1 ≤ nr → nl + nr < f →
    UAt lo hi lo' hi' end_l end_r cap N s nl nr →
    Runs (fun t => (∃ kl kr, kl ≤ nl ∧ kr ≤ nr ∧ UAt lo hi lo' hi' end_l end_r cap N t kl kr) ∧
        s.out ≤ t.out ∧ t.buf.length = s.buf.length)
      (ss_union_chunk_loop dbg m end_l end_r base f s)
  | 0, _, _, _, _, _, hf, _ => absurd hf (Nat.not_lt_zero _)
  | f + 1, nl, nr, s, a1, a2, hf, h => by
    obtain ⟨b1, b2, b3, b4, b5, b6, b7, b8, b9, b10, b11⟩ := h
    unfold ss_union_chunk_loop
    refine (run8 hw b3 (by omega)).bind (fun x _ => ?_)
    refine (run8 hw' b4 (by omega)).bind (fun y _ => ?_)
    split
    · refine (runDecodeMacro hw b3 (by omega) b5 (by omega) (by omega)).bind ?_
      rintro ⟨o, b, d, p⟩ ⟨c1, c2, c3, c4, c5, c6⟩
      simp only at c1 c2 c3 c4 c5 c6 ⊢
      have hu : UAt lo hi lo' hi' end_l end_r cap N
          { s with l := p, data_l := d, out := o, buf := b } (nl - 1) nr :=
        ⟨by simp only; omega, b2, by simp only; omega, b4, by simp only; omega, b6,
          by simp only; omega, b8, by simp only; omega, by simp only; omega, b11⟩
      split
      · exact Runs.pure ⟨⟨nl - 1, nr, by omega, Nat.le_refl _, hu⟩, c1, c3⟩
      · refine (runSSUnionLoop hw hw' hN h2 h2' f (nl - 1) nr _ (by omega) a2 (by omega) hu).mono ?_
        rintro t ⟨⟨kl, kr, e1, e2, e3⟩, e4, e5⟩
        simp only at e4 e5
        exact ⟨⟨kl, kr, by omega, e2, e3⟩, by omega, by omega⟩
    · split
      · refine (runDecodeMacro hw' b4 (by omega) b6 (by omega) (by omega)).bind ?_
        rintro ⟨o, b, d, p⟩ ⟨c1, c2, c3, c4, c5, c6⟩
        simp only at c1 c2 c3 c4 c5 c6 ⊢
        have hu : UAt lo hi lo' hi' end_l end_r cap N
            { s with r := p, data_r := d, out := o, buf := b } nl (nr - 1) :=
          ⟨b1, by simp only; omega, b3, by simp only; omega, b5, by simp only; omega, b7,
            by simp only; omega, by simp only; omega, by simp only; omega, b11⟩
        split
        · exact Runs.pure ⟨⟨nl, nr - 1, Nat.le_refl _, by omega, hu⟩, c1, c3⟩
        · refine (runSSUnionLoop hw hw' hN h2 h2' f nl (nr - 1) _ a1 (by omega) (by omega) hu).mono ?_
          rintro t ⟨⟨kl, kr, e1, e2, e3⟩, e4, e5⟩
          simp only at e4 e5
          exact ⟨⟨kl, kr, e1, by omega, e3⟩, by omega, by omega⟩
      · refine (run8 hw (by omega) (by omega)).bind (fun cl1 hcl => ?_)
        refine (run8 hw' (by omega) (by omega)).bind (fun cr1 hcr => ?_)
        have e1 := bytes_le (cl1 + 1)
        have e2 := bytes_le (cr1 + 1)
        refine (runUnionBlocks hw hw' (x4 := s.x4) (by omega) (by omega) b5 (by omega) b6 (by omega)
          (by omega) (by omega)).bind ?_
        rintro ⟨n, x4, b⟩ ⟨c1, c2, c3⟩
        simp only at c1 c2 c3 ⊢
        have hu : UAt lo hi lo' hi' end_l end_r cap N
            { l := s.l + 2, data_l := s.data_l + bytes_by_cardinality (cl1 + 1),
              r := s.r + 2, data_r := s.data_r + bytes_by_cardinality (cr1 + 1),
              out := s.out + n, x4 := x4, buf := b } (nl - 1) (nr - 1) :=
          ⟨by simp only; omega, by simp only; omega, by simp only; omega, by simp only; omega,
            by simp only; omega, by simp only; omega, by simp only; omega, by simp only; omega,
            by simp only; omega, by simp only; omega, by simp only; omega⟩
        split
        · exact Runs.pure ⟨⟨nl - 1, nr - 1, by omega, by omega, hu⟩, Nat.le_add_right _ _, c3⟩
        · refine (runSSUnionLoop hw hw' hN h2 h2' f (nl - 1) (nr - 1) _ (by omega) (by omega) (by omega)
            hu).mono ?_
          rintro t ⟨⟨kl, kr, e1, e2, e3⟩, e4, e5⟩
          simp only at e4 e5
          exact ⟨⟨kl, kr, by omega, by omega, e3⟩, by omega, by omega⟩

theorem runDecodeRest (hw : Win m lo hi) {base end_ : Nat} :
    ∀ (f n ptr data : Nat) (buf : List Nat) (out : Nat), n < f → ptr + 2 * n = end_ → lo ≤ ptr →
    end_ ≤ hi → lo ≤ data → data + 32 * n + 8 ≤ hi → out + 256 * n ≤ buf.length →
    Runs (fun r => out ≤ r.1 ∧ r.1 ≤ out + 256 * n ∧ r.2.length = buf.length)
      (decode_rest m end_ base f ptr data buf out)
  | 0, _, _, _, _, _, hf, _, _, _, _, _, _ => absurd hf (Nat.not_lt_zero _)
  | f + 1, n, ptr, data, buf, out, hf, he, h1, h2, h3, h4, hc => by
    unfold decode_rest
    split
    · obtain ⟨n, rfl⟩ : ∃ k, n = k + 1 := ⟨n - 1, by omega⟩
      refine (runDecodeMacro hw h1 (by omega) h3 (by omega) (room_one hc)).bind ?_
      rintro ⟨o, b, d, p⟩ ⟨c1, c2, c3, c4, c5, c6⟩
      simp only at c1 c2 c3 c4 c5 c6 ⊢
      refine (runDecodeRest hw f n p d b o (by omega) (by omega) (by omega) h2 (by omega) (by omega)
        (by omega)).mono ?_
      rintro ⟨q, b'⟩ ⟨q1, q2, q3⟩
      simp only at q1 q2 q3 ⊢
      omega
    · exact Runs.ok ⟨Nat.le_refl _, Nat.le_add_right _ _, rfl⟩

theorem runSSUnion {l r bl br base out : Nat} {x4 buf : List Nat} (hw : Win m l (l + 8736))
    (hw' : Win m r (r + 8736)) (hl : 1 ≤ bl ∧ bl ≤ 256) (hr : 1 ≤ br ∧ br ≤ 256)
    (hx : 4 ≤ x4.length) (hc : out + 131072 ≤ buf.length) :
    Runs (fun q => q.1 ≤ 131072 ∧ q.2.1.length = x4.length ∧ q.2.2.length = buf.length)
      (ss_union_chunk dbg m l r bl br base x4 buf out) := by
  unfold ss_union_chunk
  refine (Runs.cassert (by simp; omega)).bind (fun _ _ => ?_)
  refine (Runs.cassert (by simp; omega)).bind (fun _ _ => ?_)
  simp only
  refine (runSSUnionLoop (cap := out + 131072) hw hw' hx (by omega) (by omega) _ bl br _ hl.1 hr.1
    (Nat.lt_succ_self _) ⟨by simp only; omega, by simp only; omega, Nat.le_refl _, Nat.le_refl _,
      by simp only; omega, by simp only; omega, by simp only; omega, by simp only; omega,
      by simp only; omega, hc, rfl⟩).bind ?_
  rintro t ⟨⟨kl, kr, e1, e2, e3⟩, e4, e5⟩
  simp only at e4 e5
  obtain ⟨b1, b2, b3, b4, b5, b6, b7, b8, b9, b10, b11⟩ := e3
  refine (runDecodeRest hw _ kl t.l t.data_l t.buf t.out (by omega) b1 b3 (by omega) b5 (by omega)
    (by omega)).bind ?_
  rintro ⟨o, b⟩ ⟨q1, q2, q3⟩
  simp only at q1 q2 q3 ⊢
  refine (runDecodeRest hw' _ kr t.r t.data_r b o (by omega) b2 b4 (by omega) b6 (by omega)
    (by omega)).bind ?_
  rintro ⟨o', b'⟩ ⟨q1', q2', q3'⟩
  simp only at q1' q2' q3' ⊢
  exact Runs.pure ⟨by simp only; omega, b11, by simp only; omega⟩

theorem runDSUnion {l r br base out : Nat} {x buf : List Nat} (hw : Win m l (l + 8736))
    (hw' : Win m r (r + 8736)) (hr : 1 ≤ br ∧ br ≤ 256) (hx : 1024 ≤ x.length)
    (hc : out + 131072 ≤ buf.length) :
    Runs (fun q => q.1 ≤ 131072 ∧ q.2.1.length = x.length ∧ q.2.2.length = buf.length)
      (ds_union_chunk dbg m l r br base x buf out) := by
  unfold ds_union_chunk
  simp only
  refine (runUncompressZero hw' hr hx).bind ?_
  rintro x' ⟨h1, h2⟩
  refine (runOr (n := 1024) (runMem hw (Nat.le_refl _) (by omega)) (runVec (by omega) h2)
    (by omega)).bind ?_
  rintro ⟨n, b⟩ ⟨h3, h4⟩
  exact Runs.pure ⟨by simp only at h3 ⊢; omega, h1, h4⟩

/-- what the static arrays keep: their lengths -/
def SameScratch (s t : UScratch) : Prop := t.x4.length = s.x4.length ∧ t.x.length = s.x.length

theorem SameScratch.trans {s t u : UScratch} (h : SameScratch s t) (h' : SameScratch t u) :
    SameScratch s u := ⟨by rw [h'.1, h.1], by rw [h'.2, h.2]⟩

variable {l r : SSeq} {itl itr : It}

theorem safeUnionChunks (hl : Room m l g) (hr : Room m r g) (h : ItOf l g itl) (h' : ItOf r g itr)
    (hn : itl.begin_ < l.chunks) (hn' : itr.begin_ < r.chunks) {base out : Nat} {s : UScratch}
    {buf : List Nat} (h4 : 4 ≤ s.x4.length) (hx : 1024 ≤ s.x.length)
    (hc : out + 131072 ≤ buf.length) :
    Safe (Legal m l ∧ Legal m r) dbg
      (fun q => q.1 ≤ 131072 ∧ SameScratch s q.2.1 ∧ q.2.2.length = buf.length)
      (union_chunks dbg m itl itr base s buf out) := by
  unfold union_chunks
  refine (runType hl h hn).bindS ?_
  rintro tl ⟨-, ht⟩
  refine (runType hr h' hn').bindS ?_
  rintro tr ⟨-, ht'⟩
  have hw := h.win hl
  have hw' := h'.win hr
  have bm := runMem (n := 1024) hw (Nat.le_refl _) (by omega)
  have bm' := runMem (n := 1024) hw' (Nat.le_refl _) (by omega)
  have full : Safe (Legal m l ∧ Legal m r) dbg
      (fun q => q.1 ≤ 131072 ∧ SameScratch s q.2.1 ∧ q.2.2.length = buf.length)
      ((fun (p : Nat × List Nat) => (p.1, s, p.2)) <$> decode_full_chunk base buf out) :=
    ((runDecodeFull (by omega)).map (fun p hp => ⟨by have := hp.1; simp only; omega, ⟨rfl, rfl⟩,
      hp.2⟩)).safe
  simp only
  refine Safe.ite ?_ (fun n1 => Safe.ite ?_ (fun n2 => Safe.ite full (fun n3 => Safe.ite ?_ (fun n4 =>
    Safe.ite ?_ (fun n5 => Safe.ite full (fun n6 => Safe.ite full (fun n7 => Safe.ite full (fun n8 =>
    Safe.ite full (fun n9 => Safe.unreach ?_)))))))))
  · refine (runBlocks hl h hn).bindS (fun bl hbl => (runBlocks hr h' hn').bindS (fun br hbr => ?_))
    split
    · exact ((runSSUnion hw hw' hbl hbr h4 hc).map (fun p hp => ⟨hp.1, ⟨hp.2.1, rfl⟩, hp.2.2⟩)).safe
    · exact ((runSSUnion hw' hw hbr hbl h4 hc).map (fun p hp => ⟨hp.1, ⟨hp.2.1, rfl⟩, hp.2.2⟩)).safe
  · refine (runBlocks hl h hn).bindS (fun bl hbl => ?_)
    exact ((runDSUnion hw' hw hbl hx hc).map (fun p hp => ⟨hp.1, ⟨rfl, hp.2.1⟩, hp.2.2⟩)).safe
  · refine (runBlocks hr h' hn').bindS (fun bl hbl => ?_)
    exact ((runDSUnion hw hw' hbl hx hc).map (fun p hp => ⟨hp.1, ⟨rfl, hp.2.1⟩, hp.2.2⟩)).safe
  · exact ((runOr bm bm' (by omega)).map (fun p hp => ⟨by have := hp.1; simp only; omega, ⟨rfl, rfl⟩,
      hp.2⟩)).safe
  · exact pair_cases (fun hL => ⟨ht hL.1, ht' hL.2⟩) n1 n2 n3 n4 n5 n6 n7 n8 n9

/-- the state between two rounds of the union -/
def UnionAt (l r : SSeq) (g : Nat) (cap : Nat) (s : UScratch)
    (q : It × It × Nat × UScratch × List Nat) : Prop :=
  ItOf l g q.1 ∧ ItOf r g q.2.1 ∧
  q.2.2.1 + 65536 * ((l.chunks - q.1.begin_) + (r.chunks - q.2.1.begin_)) ≤ cap ∧
  SameScratch s q.2.2.2.1 ∧ cap ≤ q.2.2.2.2.length

theorem safeUnionLoop (hl : Room m l g) (hr : Room m r g) (hg : 65536 ≤ g) {cap : Nat} :
    ∀ (f : Nat) (itl itr : It) (s : UScratch) (buf : List Nat) (out : Nat), 4 ≤ s.x4.length →
    1024 ≤ s.x.length → UnionAt l r g cap s (itl, itr, out, s, buf) →
    itl.begin_ < l.chunks → itr.begin_ < r.chunks →
    (l.chunks - itl.begin_) + (r.chunks - itr.begin_) < f →
    Safe (Legal m l ∧ Legal m r) dbg
      (fun q => UnionAt l r g cap s q ∧ out ≤ q.2.2.1 ∧ q.2.2.2.2.length = buf.length)
      (pairwise_union_loop dbg m f itl itr s buf out)
  | 0, _, _, _, _, _, _, _, _, _, _, hf => absurd hf (Nat.not_lt_zero _)
  | f + 1, itl, itr, s, buf, out, h4, hx, hu, n1, n2, hf => by
    obtain ⟨h, h', hc, -, hb⟩ := hu
    simp only at h h' hc hb
    unfold pairwise_union_loop
    refine (runId hl h).bindS (fun i _ => (runId hr h').bindS (fun j _ => ?_))
    simp only
    split
    · refine (safeUnionChunks hl hr h h' n1 n2 h4 hx (by omega)).bind ?_
      rintro ⟨n, s', b⟩ ⟨a1, a2, a3⟩
      simp only at a1 a2 a3 ⊢
      refine (runNext hl h hg n1).bindS ?_
      rintro itl' ⟨b1, b2⟩
      refine (runNext hr h' hg n2).bindS ?_
      rintro itr' ⟨c1, c2⟩
      have hu : UnionAt l r g cap s (itl', itr', out + n, s', b) :=
        ⟨b1, c1, by simp only; omega, a2, by simp only; omega⟩
      split
      · exact (Runs.pure ⟨hu, Nat.le_add_right _ _, a3⟩).safe
      · next hn =>
        have hn' : itl'.has_next = true ∧ itr'.has_next = true := by
          simpa using hn
        have m1 := b1.next_lt hn'.1
        have m2 := c1.next_lt hn'.2
        refine (safeUnionLoop hl hr hg f itl' itr' s' b _ (by rw [a2.1]; exact h4)
          (by rw [a2.2]; exact hx) ⟨b1, c1, hu.2.2.1, ⟨rfl, rfl⟩, hu.2.2.2.2⟩ m1 m2 (by omega)).mono ?_
        rintro q ⟨⟨d1, d2, d3, d4, d5⟩, e1, e2⟩
        exact ⟨⟨d1, d2, d3, a2.trans d4, d5⟩, by omega, by omega⟩
    · split
      · refine ((safeDecodeChunk hl h n1 (by omega)).weaken And.left).bind ?_
        rintro ⟨n, b⟩ ⟨a1, a3⟩
        simp only at a1 a3 ⊢
        refine (runNext hl h hg n1).bindS ?_
        rintro itl' ⟨b1, b2⟩
        have hu : UnionAt l r g cap s (itl', itr, out + n, s, b) :=
          ⟨b1, h', by simp only; omega, ⟨rfl, rfl⟩, by simp only; omega⟩
        split
        · exact (Runs.pure ⟨hu, Nat.le_add_right _ _, a3⟩).safe
        · next hn =>
          have m1 := b1.next_lt (by simpa using hn)
          refine (safeUnionLoop hl hr hg f itl' itr s b _ h4 hx hu m1 n2 (by omega)).mono ?_
          rintro q ⟨d, e1, e2⟩
          exact ⟨d, by omega, by omega⟩
      · refine ((safeDecodeChunk hr h' n2 (by omega)).weaken And.right).bind ?_
        rintro ⟨n, b⟩ ⟨a1, a3⟩
        simp only at a1 a3 ⊢
        refine (runNext hr h' hg n2).bindS ?_
        rintro itr' ⟨b1, b2⟩
        have hu : UnionAt l r g cap s (itl, itr', out + n, s, b) :=
          ⟨h, b1, by simp only; omega, ⟨rfl, rfl⟩, by simp only; omega⟩
        split
        · exact (Runs.pure ⟨hu, Nat.le_add_right _ _, a3⟩).safe
        · next hn =>
          have m1 := b1.next_lt (by simpa using hn)
          refine (safeUnionLoop hl hr hg f itl itr' s b _ h4 hx hu n1 m1 (by omega)).mono ?_
          rintro q ⟨d, e1, e2⟩
          exact ⟨d, by omega, by omega⟩

theorem safeDecodeTail (hr : Room m s g) (hg : 65536 ≤ g) : ∀ (f : Nat) (it : It) (buf : List Nat)
    (out : Nat), ItOf s g it → s.chunks - it.begin_ < f →
    out + 65536 * (s.chunks - it.begin_) ≤ buf.length →
    Safe (Legal m s) dbg (fun q => out ≤ q.1 ∧ q.1 ≤ out + 65536 * (s.chunks - it.begin_) ∧
        q.2.length = buf.length)
      (decode_tail dbg m f it buf out)
  | 0, _, _, _, _, hf, _ => absurd hf (Nat.not_lt_zero _)
  | f + 1, it, buf, out, h, hf, hc => by
    unfold decode_tail
    split
    · next hn =>
      have n1 := h.next_lt hn
      refine (safeDecodeChunk hr h n1 (by omega)).bind ?_
      rintro ⟨n, b⟩ ⟨a1, a3⟩
      simp only at a1 a3 ⊢
      refine (runNext hr h hg n1).bindS ?_
      rintro it' ⟨b1, b2⟩
      refine (safeDecodeTail hr hg f it' b _ b1 (by omega) (by omega)).mono ?_
      rintro ⟨q, o⟩ ⟨q1, q2, q3⟩
      simp only at q1 q2 q3 ⊢
      omega
    · exact (Runs.ok ⟨Nat.le_refl _, Nat.le_add_right _ _, rfl⟩).safe

theorem safeUnion (hl : Room m l g) (hr : Room m r g) (hg : 65536 ≤ g) {s : UScratch} {buf : List Nat}
    {out : Nat} (h4 : 4 ≤ s.x4.length) (hx : 1024 ≤ s.x.length)
    (hc : out + 65536 * (l.chunks + r.chunks) ≤ buf.length) :
    Safe (Legal m l ∧ Legal m r) dbg
      (fun q => q.1 ≤ 65536 * (l.chunks + r.chunks) ∧ SameScratch s q.2.1 ∧ q.2.2.length = buf.length)
      (pairwise_union dbg m l r s buf out) := by
  unfold pairwise_union
  have h1 := hl.pos
  have h2 := hr.pos
  refine (safeUnionLoop (cap := out + 65536 * (l.chunks + r.chunks)) hl hr hg _ l.begin r.begin s buf out
    h4 hx ⟨ItOf.start l g, ItOf.start r g, Nat.le_refl _, ⟨rfl, rfl⟩, hc⟩ h1 h2
    (Nat.lt_succ_self _)).bind ?_
  rintro ⟨itl, itr, o, s', b⟩ ⟨⟨d1, d2, d3, d4, d5⟩, e1, e2⟩
  simp only at d1 d2 d3 d4 d5 e1 e2 ⊢
  refine ((safeDecodeTail hl hg (l.chunks + 1) itl b o d1 (by omega) (by omega)).weaken And.left).bind ?_
  rintro ⟨o1, b1⟩ ⟨q1, q2, q3⟩
  simp only at q1 q2 q3 ⊢
  refine ((safeDecodeTail hr hg (r.chunks + 1) itr b1 o1 d2 (by omega) (by omega)).weaken
    And.right).bind ?_
  rintro ⟨o2, b2⟩ ⟨q1', q2', q3'⟩
  simp only at q1' q2' q3' ⊢
  exact (Runs.pure ⟨by simp only; omega, d4, by simp only; omega⟩).safe

end Sliced
