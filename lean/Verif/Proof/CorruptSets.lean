import Verif.Proof.CorruptOps
/-!
# Memory of any content: intersection and union of two sequences
-/
namespace Sliced

variable {m : Mem} {lo hi lo' hi' : Nat} {dbg : Bool} {s : SSeq} {g : Nat} {it : It}
  {tab : Nat → List Nat}

/-! ## Blocks -/

theorem cvtAdd_length (base : Nat) (v : List Nat) : (cvtAdd base v).length ≤ 8 := by
  unfold cvtAdd
  rw [List.length_map, List.length_take]
  omega

theorem runIntersectStep {v_l v_r : List Nat} {cl cr base size out : Nat} {buf : List Nat}
    (hc : out + 16 ≤ buf.length) :
    Runs (fun r => r.1 ≤ size + 64 ∧ r.2.length = buf.length)
      (intersect_step tab v_l cl v_r cr base size buf out) := by
  unfold intersect_step
  have hp := popcount_le (cmpestrm v_l cl v_r cr)
  simp only
  have h1 := cvtAdd_length base (pshufb v_r (tab (cmpestrm v_l cl v_r cr)))
  refine (runWrs _ (by omega)).bind (fun b hb => ?_)
  split
  · have h2 := cvtAdd_length base ((pshufb v_r (tab (cmpestrm v_l cl v_r cr))).drop 8 ++
      List.replicate 8 0)
    refine (runWrs _ (by rw [hb]; omega)).bind (fun b' hb' => Runs.pure ⟨?_, ?_⟩)
    · simp only; omega
    · simp only; rw [hb', hb]
  · exact Runs.pure ⟨by simp only; omega, hb⟩

theorem runScalarSkipL (hw : Win m lo hi) {end_l r : Nat} {y : Nat} (hy : rd8 m r = .ok y) :
    ∀ (f l : Nat), l < end_l → end_l - l < f → lo ≤ l → end_l ≤ hi →
    Runs (fun o => ∀ l', o = some l' → l ≤ l' ∧ l' < end_l ∧ ∀ x, rd8 m l' = .ok x → y ≤ x)
      (scalar_skip_l m end_l r f l)
  | 0, _, _, hf, _, _ => absurd hf (Nat.not_lt_zero _)
  | f + 1, l, hl, hf, h1, h2 => by
    unfold scalar_skip_l
    obtain ⟨x, ex, -⟩ := run8 hw h1 (by omega)
    simp only [ex, hy, ok_bind]
    split
    · split
      · exact Runs.pure (fun _ h => nomatch h)
      · refine (runScalarSkipL hw hy f (l + 1) (by omega) (by omega) (by omega) h2).mono ?_
        intro o ho l' e
        obtain ⟨a, b, c⟩ := ho l' e
        exact ⟨by omega, b, c⟩
    · refine Runs.pure (fun l' e => ?_)
      cases e
      refine ⟨Nat.le_refl _, hl, fun x' hx' => ?_⟩
      rw [ex] at hx'
      cases hx'
      omega

theorem runScalarSkipR (hw : Win m lo hi) {end_r l : Nat} {x : Nat} (hx : rd8 m l = .ok x) :
    ∀ (f r : Nat), r < end_r → end_r - r < f → lo ≤ r → end_r ≤ hi →
    Runs (fun o => ∀ r', o = some r' → r ≤ r' ∧ r' < end_r ∧ ∀ y, rd8 m r' = .ok y → x ≤ y)
      (scalar_skip_r m end_r l f r)
  | 0, _, _, hf, _, _ => absurd hf (Nat.not_lt_zero _)
  | f + 1, r, hl, hf, h1, h2 => by
    unfold scalar_skip_r
    obtain ⟨y, ey, -⟩ := run8 hw h1 (by omega)
    simp only [ey, hx, ok_bind]
    split
    · split
      · exact Runs.pure (fun _ h => nomatch h)
      · refine (runScalarSkipR hw hx f (r + 1) (by omega) (by omega) (by omega) h2).mono ?_
        intro o ho r' e
        obtain ⟨a, b, c⟩ := ho r' e
        exact ⟨by omega, b, c⟩
    · refine Runs.pure (fun r' e => ?_)
      cases e
      refine ⟨Nat.le_refl _, hl, fun y' hy' => ?_⟩
      rw [ey] at hy'
      cases hy'
      omega

theorem runScalarLoop (hw : Win m lo hi) (hw' : Win m lo' hi') {end_l end_r base out : Nat}
    (h2 : end_l ≤ hi) (h2' : end_r ≤ hi') :
    ∀ (f l r size : Nat) (buf : List Nat), l < end_l → r < end_r →
    (end_l - l) + (end_r - r) < f → lo ≤ l → lo' ≤ r → out + size + (end_l - l) ≤ buf.length →
    Runs (fun q => q.1 ≤ size + (end_l - l) ∧ q.2.length = buf.length)
      (scalar_loop m end_l end_r base out f l r size buf)
  | 0, _, _, _, _, _, _, hf, _, _, _ => absurd hf (Nat.not_lt_zero _)
  | f + 1, l, r, size, buf, hl, hr, hf, h1, h1', hc => by
    unfold scalar_loop
    obtain ⟨y, ey, -⟩ := run8 hw' h1' (by omega)
    refine (runScalarSkipL hw ey _ l hl (Nat.lt_succ_self _) h1 h2).bind (fun o ho => ?_)
    match o with
    | none => exact Runs.pure ⟨Nat.le_add_right _ _, rfl⟩
    | some l' =>
      obtain ⟨a1, a2, a3⟩ := ho l' rfl
      obtain ⟨x, ex, -⟩ := run8 (a := l') hw (by omega) (by omega)
      have hyx := a3 x ex
      simp only
      refine (runScalarSkipR hw' ex _ r hr (Nat.lt_succ_self _) h1' h2').bind (fun o ho => ?_)
      match o with
      | none => exact Runs.pure ⟨Nat.le_add_right _ _, rfl⟩
      | some r' =>
        obtain ⟨b1, b2, b3⟩ := ho r' rfl
        obtain ⟨y', ey', -⟩ := run8 (a := r') hw' (by omega) (by omega)
        have hxy := b3 y' ey'
        simp only [ex, ey', ok_bind]
        split
        · refine (runWr _ (by omega)).bind ?_
          rintro buf' ⟨hb, -⟩
          split
          · exact Runs.pure ⟨by simp only; omega, hb⟩
          · split
            · exact Runs.pure ⟨by simp only; omega, hb⟩
            · refine (runScalarLoop hw hw' h2 h2' f _ _ _ buf' (by omega) (by omega) (by omega) (by omega)
                (by omega) (by omega)).mono ?_
              rintro ⟨q, o⟩ ⟨q1, q2⟩
              simp only at q1 q2 ⊢
              omega
        · next hne =>
          have hrr : r < r' := by
            rcases Nat.lt_or_eq_of_le b1 with h | h
            · exact h
            · subst h
              rw [ey] at ey'
              cases ey'
              omega
          refine (runScalarLoop hw hw' h2 h2' f _ _ _ buf (by omega) (by omega) (by omega) (by omega)
            (by omega) (by omega)).mono ?_
          rintro ⟨q, o⟩ ⟨q1, q2⟩
          simp only at q1 q2 ⊢
          omega

theorem runSSIntersectBlock (hw : Win m lo hi) (hw' : Win m lo' hi') {l r cl cr base out : Nat}
    {buf : List Nat} (hl : 1 ≤ cl ∧ cl ≤ 30) (hr : 1 ≤ cr ∧ cr ≤ 30) (h1 : lo ≤ l) (h2 : l + 32 ≤ hi)
    (h1' : lo' ≤ r) (h2' : r + 32 ≤ hi') (hc : out + 256 ≤ buf.length) :
    Runs (fun q => q.1 ≤ 256 ∧ q.2.length = buf.length)
      (ss_intersect_block dbg tab m l r cl cr base buf out) := by
  unfold ss_intersect_block
  refine (Runs.cassert (by simp; omega)).bind (fun _ _ => ?_)
  refine (Runs.cassert (by simp; omega)).bind (fun _ _ => ?_)
  split
  · refine (runLddqu hw h1 (by omega)).bind (fun v_l _ => ?_)
    refine (runLddqu hw' h1' (by omega)).bind (fun v_r _ => ?_)
    refine (runIntersectStep (by omega)).mono ?_
    rintro ⟨q, o⟩ ⟨q1, q2⟩
    simp only at q1 q2 ⊢
    omega
  · split
    · refine (runLddqu hw h1 (by omega)).bind (fun v_l _ => ?_)
      refine (runLddqu hw' h1' (by omega)).bind (fun v_r _ => ?_)
      refine (runIntersectStep (by omega)).bind ?_
      rintro ⟨q, o⟩ ⟨q1, q2⟩
      simp only at q1 q2 ⊢
      refine (runLddqu hw' (by omega) (by omega)).bind (fun v_r _ => ?_)
      refine (runIntersectStep (by omega)).mono ?_
      rintro ⟨q', o'⟩ ⟨q1', q2'⟩
      simp only at q1' q2' ⊢
      omega
    · split
      · refine (runLddqu hw h1 (by omega)).bind (fun v_l _ => ?_)
        refine (runLddqu hw' h1' (by omega)).bind (fun v_r _ => ?_)
        refine (runIntersectStep (by omega)).bind ?_
        rintro ⟨q, o⟩ ⟨q1, q2⟩
        simp only at q1 q2 ⊢
        refine (runLddqu hw (by omega) (by omega)).bind (fun v_r _ => ?_)
        refine (runIntersectStep (by omega)).mono ?_
        rintro ⟨q', o'⟩ ⟨q1', q2'⟩
        simp only at q1' q2' ⊢
        omega
      · refine (runScalarLoop hw hw' (by omega) (by omega) _ _ _ 0 buf (by omega) (by omega) (by omega) h1 h1'
          (by omega)).mono ?_
        rintro ⟨q, o⟩ ⟨q1, q2⟩
        simp only at q1 q2 ⊢
        omega

theorem runDSIntersectLoop (hw' : Win m lo' hi') {l r base out N : Nat} (hl : WRuns (memWords m l) 4)
    (h1 : lo' ≤ r) (h2 : r + N ≤ hi') : ∀ (n i k : Nat) (buf : List Nat), i + n ≤ N → k ≤ i →
    out + i + n ≤ buf.length →
    Runs (fun q => q.1 ≤ k + n ∧ q.2.length = buf.length)
      (ds_intersect_block_loop m l r base out n i k buf)
  | 0, _, _, _, _, _, _ => Runs.ok ⟨Nat.le_refl _, rfl⟩
  | n + 1, i, k, buf, hn, hk, hc => by
    unfold ds_intersect_block_loop
    refine (run8 hw' (by omega) (by omega)).bind (fun key hkey => ?_)
    refine (runWr _ (by omega)).bind ?_
    rintro b ⟨hb, -⟩
    refine (runBitmapContains hl (by omega)).bind (fun c _ => ?_)
    refine (runDSIntersectLoop hw' hl h1 h2 n (i + 1) _ b (by omega) (by split <;> omega)
      (by omega)).mono ?_
    rintro ⟨q, o⟩ ⟨q1, q2⟩
    simp only at q1 q2 ⊢
    refine ⟨?_, by omega⟩
    split at q1 <;> omega

theorem runIntersectBlocks (hw : Win m lo hi) (hw' : Win m lo' hi') {l r cl cr base out : Nat}
    {buf : List Nat} (hl : 1 ≤ cl ∧ cl ≤ 256) (hr : 1 ≤ cr ∧ cr ≤ 256) (h1 : lo ≤ l) (h2 : l + 32 ≤ hi)
    (h1' : lo' ≤ r) (h2' : r + 32 ≤ hi') (hc : out + 256 ≤ buf.length) :
    Runs (fun q => q.1 ≤ 256 ∧ q.2.length = buf.length)
      (intersect_blocks dbg tab m l r cl cr base buf out) := by
  have mono : ∀ {k : Nat} {r : Res (Nat × List Nat)}, k ≤ 256 →
      Runs (fun q => q.1 ≤ k ∧ q.2.length = buf.length) r →
      Runs (fun q => q.1 ≤ 256 ∧ q.2.length = buf.length) r := fun hk h =>
    h.mono (fun q hq => ⟨Nat.le_trans hq.1 hk, hq.2⟩)
  unfold intersect_blocks block_type
  by_cases a : cl < 31 <;> by_cases b : cr < 31
  · simp only [if_pos a, if_pos b, if_true]
    exact runSSIntersectBlock hw hw' (by omega) (by omega) h1 h2 h1' h2' hc
  · simp only [if_pos a, if_neg b]
    rw [if_neg (by decide), if_pos trivial]
    unfold ds_intersect_block
    refine mono (k := 0 + cl) (by omega) ?_
    exact runDSIntersectLoop hw (N := cl) (runMem hw' h1' (by omega)) h1 (by omega) cl 0 0 buf
      (by omega) (Nat.le_refl _) (by omega)
  · simp only [if_neg a, if_pos b]
    rw [if_neg (by decide), if_neg (by decide), if_pos trivial]
    unfold ds_intersect_block
    refine mono (k := 0 + cr) (by omega) ?_
    exact runDSIntersectLoop hw' (N := cr) (runMem hw h1 (by omega)) h1' (by omega) cr 0 0 buf
      (by omega) (Nat.le_refl _) (by omega)
  · simp only [if_neg a, if_neg b]
    rw [if_neg (by decide), if_neg (by decide), if_neg (by decide), if_pos trivial]
    exact runAnd (n := 4) (runMem hw h1 (by omega)) (runMem hw' h1' (by omega)) (by omega)

/-! ## Slices -/

theorem runSkipLower (hw : Win m lo hi) {end_p q y : Nat} (hy : rd8 m q = .ok y) :
    ∀ (f n p data : Nat), 1 ≤ n → p + 2 * n = end_p → n < f → lo ≤ p → end_p ≤ hi → lo ≤ data →
    data + 32 * n ≤ hi →
    Runs (fun o => ∀ p' d', o = some (p', d') → ∃ k, 1 ≤ k ∧ k ≤ n ∧ p' + 2 * k = end_p ∧ lo ≤ p' ∧
        lo ≤ d' ∧ d' + 32 * k ≤ hi ∧ ∀ x, rd8 m p' = .ok x → y ≤ x)
      (skip_lower_blocks m end_p q f p data)
  | 0, _, _, _, _, _, hf, _, _, _, _ => absurd hf (Nat.not_lt_zero _)
  | f + 1, n, p, data, hn, he, hf, h1, h2, h3, h4 => by
    unfold skip_lower_blocks
    obtain ⟨x, ex, -⟩ := run8 hw h1 (by omega)
    simp only [ex, hy, ok_bind]
    split
    · split
      · exact Runs.pure (fun _ _ h => nomatch h)
      · obtain ⟨n, rfl⟩ : ∃ k, n = k + 1 := ⟨n - 1, by omega⟩
        refine (run8 hw (by omega) (by omega)).bind (fun c1 _ => ?_)
        have := bytes_le (c1 + 1)
        refine (runSkipLower hw hy f n _ _ (by omega) (by omega) (by omega) (by omega) h2 (by omega)
          (by omega)).mono ?_
        intro o ho p' d' e
        obtain ⟨k, a, b, c⟩ := ho p' d' e
        exact ⟨k, a, by omega, c⟩
    · refine Runs.pure (fun p' d' e => ?_)
      cases e
      refine ⟨n, hn, Nat.le_refl _, he, h1, h3, h4, fun x' hx' => ?_⟩
      rw [ex] at hx'
      cases hx'
      omega

theorem runSSIntersectLoop (hw : Win m lo hi) (hw' : Win m lo' hi') {end_l end_r base : Nat}
    (h2 : end_l ≤ hi) (h2' : end_r ≤ hi') :
    ∀ (f nl nr l data_l r data_r : Nat) (buf : List Nat) (tmp : Nat), 1 ≤ nl → 1 ≤ nr → nl + nr < f →
    l + 2 * nl = end_l → r + 2 * nr = end_r → lo ≤ l → lo' ≤ r → lo ≤ data_l → lo' ≤ data_r →
    data_l + 32 * nl ≤ hi → data_r + 32 * nr ≤ hi' → tmp + 256 * nl ≤ buf.length →
    Runs (fun q => tmp ≤ q.1 ∧ q.1 ≤ tmp + 256 * nl ∧ q.2.length = buf.length)
      (ss_intersect_chunk_loop dbg tab m end_l end_r base f l data_l r data_r buf tmp)
  | 0, _, _, _, _, _, _, _, _, _, _, hf, _, _, _, _, _, _, _, _, _ => absurd hf (Nat.not_lt_zero _)
  | f + 1, nl, nr, l, data_l, r, data_r, buf, tmp, a1, a2, hf, a3, a4, a5, a6, a7, a8, a9, a10, hc => by
    unfold ss_intersect_chunk_loop
    obtain ⟨y, ey, -⟩ := run8 (a := r) hw' (by omega) (by omega)
    refine (runSkipLower hw ey _ nl l data_l a1 a3 (by omega) a5 h2 a7 a9).bind (fun o ho => ?_)
    match o with
    | none => exact Runs.pure ⟨Nat.le_refl _, Nat.le_add_right _ _, rfl⟩
    | some (l', dl') =>
      obtain ⟨kl, b1, b2, b3, b4, b5, b6, b7⟩ := ho l' dl' rfl
      obtain ⟨x, ex, -⟩ := run8 (a := l') hw (by omega) (by omega)
      have hyx := b7 x ex
      simp only
      refine (runSkipLower hw' ex _ nr r data_r a2 a4 (by omega) a6 h2' a8 a10).bind (fun o ho => ?_)
      match o with
      | none => exact Runs.pure ⟨Nat.le_refl _, Nat.le_add_right _ _, rfl⟩
      | some (r', dr') =>
        obtain ⟨kr, c1, c2, c3, c4, c5, c6, c7⟩ := ho r' dr' rfl
        obtain ⟨y', ey', -⟩ := run8 (a := r') hw' (by omega) (by omega)
        have hxy := c7 y' ey'
        simp only [ex, ey', ok_bind]
        split
        · refine (run8 hw (by omega) (by omega)).bind (fun cl1 hcl => ?_)
          refine (run8 hw' (by omega) (by omega)).bind (fun cr1 hcr => ?_)
          refine (runIntersectBlocks hw hw' (by omega) (by omega) b5 (by omega) c5 (by omega)
            (by omega)).bind ?_
          rintro ⟨n, buf'⟩ ⟨d1, d2⟩
          simp only at d1 d2 ⊢
          split
          · exact Runs.pure ⟨by simp only; omega, by simp only; omega, d2⟩
          · have e1 := bytes_le (cl1 + 1)
            have e2 := bytes_le (cr1 + 1)
            refine (runSSIntersectLoop hw hw' h2 h2' f (kl - 1) (kr - 1) _ _ _ _ buf' _ (by omega)
              (by omega) (by omega) (by omega) (by omega) (by omega) (by omega) (by omega) (by omega)
              (by omega) (by omega) (by omega)).mono ?_
            rintro ⟨q, o⟩ ⟨q1, q2, q3⟩
            simp only at q1 q2 q3 ⊢
            omega
        · next hne =>
          have hk : kr < nr := by
            rcases Nat.lt_or_eq_of_le c2 with h | h
            · exact h
            · have : r = r' := by omega
              subst this
              rw [ey] at ey'
              cases ey'
              omega
          refine (runSSIntersectLoop hw hw' h2 h2' f kl kr _ _ _ _ buf tmp b1
            c1 (by omega) b3 c3 (by omega) (by omega) (by omega) (by omega)
            (by omega) (by omega) (by omega)).mono ?_
          rintro ⟨q, o⟩ ⟨q1, q2, q3⟩
          simp only at q1 q2 q3 ⊢
          omega

theorem runSSIntersect {l r bl br base out : Nat} {buf : List Nat} (hw : Win m l (l + 8736))
    (hw' : Win m r (r + 8736)) (hl : 1 ≤ bl ∧ bl ≤ 256) (hr : 1 ≤ br ∧ br ≤ 256)
    (hc : out + 65536 ≤ buf.length) :
    Runs (fun q => q.1 ≤ 65536 ∧ q.2.length = buf.length)
      (ss_intersect_chunk dbg tab m l r bl br base buf out) := by
  unfold ss_intersect_chunk
  refine (Runs.cassert (by simp; omega)).bind (fun _ _ => ?_)
  refine (Runs.cassert (by simp; omega)).bind (fun _ _ => ?_)
  simp only
  refine (runSSIntersectLoop hw hw' (by omega) (by omega) _ bl br _ _ _ _ buf out hl.1 hr.1
    (Nat.lt_succ_self _) (by omega) (by omega) (Nat.le_refl _) (Nat.le_refl _) (by omega) (by omega)
    (by omega) (by omega) (by omega)).bind ?_
  rintro ⟨q, o⟩ ⟨q1, q2, q3⟩
  simp only at q1 q2 q3 ⊢
  exact Runs.pure ⟨by simp only; omega, q3⟩

theorem runUncompressZero {data blocks : Nat} {x : List Nat} (hw : Win m data (data + 8736))
    (hb : 1 ≤ blocks ∧ blocks ≤ 256) (hx : 1024 ≤ x.length) :
    Runs (fun x' => x'.length = x.length ∧ Low 1024 x')
      (uncompress_sparse_chunk dbg m data blocks (List.replicate x.length 0) 0) := by
  refine ((runUncompressSparse hw hb (by rw [List.length_replicate]; omega)).andEnds
    (uncompress_sparse_chunk_ends (N := 1024) _ _ _ _ _ _ (Low.zeros _ _))).mono ?_
  rintro x' ⟨h1, h2⟩
  exact ⟨by rw [h1, List.length_replicate], h2⟩

theorem runDSIntersect {l r br base out : Nat} {x buf : List Nat} (hw : Win m l (l + 8736))
    (hw' : Win m r (r + 8736)) (hr : 1 ≤ br ∧ br ≤ 256) (hx : 1024 ≤ x.length)
    (hc : out + 65536 ≤ buf.length) :
    Runs (fun q => q.1 ≤ 65536 ∧ q.2.1.length = x.length ∧ q.2.2.length = buf.length)
      (ds_intersect_chunk dbg m l r br base x buf out) := by
  unfold ds_intersect_chunk
  simp only
  refine (runUncompressZero hw' hr hx).bind ?_
  rintro x' ⟨h1, h2⟩
  refine (runAnd (n := 1024) (runMem hw (Nat.le_refl _) (by omega)) (runVec (by omega) h2)
    (by omega)).bind ?_
  rintro ⟨n, b⟩ ⟨h3, h4⟩
  exact Runs.pure ⟨h3, h1, h4⟩

/-- the sum of the types of two slices is one of the nine cases -/
theorem pair_cases {L : Prop} {a b : Nat} (h : L → (a = 1 ∨ a = 2 ∨ a = 3) ∧ (b = 1 ∨ b = 2 ∨ b = 3))
    (h1 : ¬ chunk_pair a b = chunk_pair type_sparse type_sparse)
    (h2 : ¬ chunk_pair a b = chunk_pair type_sparse type_dense)
    (h3 : ¬ chunk_pair a b = chunk_pair type_sparse type_full)
    (h4 : ¬ chunk_pair a b = chunk_pair type_dense type_sparse)
    (h5 : ¬ chunk_pair a b = chunk_pair type_dense type_dense)
    (h6 : ¬ chunk_pair a b = chunk_pair type_dense type_full)
    (h7 : ¬ chunk_pair a b = chunk_pair type_full type_sparse)
    (h8 : ¬ chunk_pair a b = chunk_pair type_full type_dense)
    (h9 : ¬ chunk_pair a b = chunk_pair type_full type_full) : ¬ L := by
  intro hl
  have := h hl
  simp only [chunk_pair, type_sparse, type_dense, type_full] at h1 h2 h3 h4 h5 h6 h7 h8 h9
  omega

variable {l r : SSeq} {itl itr : It}

theorem safeIntersectChunks (hl : Room m l g) (hr : Room m r g) (h : ItOf l g itl) (h' : ItOf r g itr)
    (hn : itl.begin_ < l.chunks) (hn' : itr.begin_ < r.chunks) {base out : Nat} {x buf : List Nat}
    (hx : 1024 ≤ x.length) (hc : out + 65536 ≤ buf.length) :
    Safe (Legal m l ∧ Legal m r) dbg
      (fun q => q.1 ≤ 65536 ∧ q.2.1.length = x.length ∧ q.2.2.length = buf.length)
      (intersect_chunks dbg tab m itl itr base x buf out) := by
  unfold intersect_chunks
  refine (runType hl h hn).bindS ?_
  rintro tl ⟨-, ht⟩
  refine (runType hr h' hn').bindS ?_
  rintro tr ⟨-, ht'⟩
  have hw := h.win hl
  have hw' := h'.win hr
  have bm := runMem (n := 1024) hw (Nat.le_refl _) (by omega)
  have bm' := runMem (n := 1024) hw' (Nat.le_refl _) (by omega)
  have keep : ∀ {q : Res (Nat × List Nat)}, Runs (fun q => q.1 ≤ 65536 ∧ q.2.length = buf.length) q →
      Safe (Legal m l ∧ Legal m r) dbg
      (fun q => q.1 ≤ 65536 ∧ q.2.1.length = x.length ∧ q.2.2.length = buf.length)
      ((fun (p : Nat × List Nat) => (p.1, x, p.2)) <$> q) := fun hq =>
    (hq.map (fun p hp => ⟨hp.1, rfl, hp.2⟩)).safe
  simp only
  refine Safe.ite ?_ (fun n1 => Safe.ite ?_ (fun n2 => Safe.ite ?_ (fun n3 => Safe.ite ?_ (fun n4 =>
    Safe.ite ?_ (fun n5 => Safe.ite ?_ (fun n6 => Safe.ite ?_ (fun n7 => Safe.ite ?_ (fun n8 =>
    Safe.ite ?_ (fun n9 => Safe.unreach ?_)))))))))
  · refine (runBlocks hl h hn).bindS (fun bl hbl => (runBlocks hr h' hn').bindS (fun br hbr => ?_))
    split
    · exact keep (runSSIntersect hw hw' hbl hbr hc)
    · exact keep (runSSIntersect hw' hw hbr hbl hc)
  · refine (runBlocks hl h hn).bindS (fun bl hbl => ?_)
    exact (runDSIntersect hw' hw hbl hx hc).safe
  · refine (runBlocks hl h hn).bindS (fun bl hbl => ?_)
    exact keep (runDecodeSparse hw hbl hc)
  · refine (runBlocks hr h' hn').bindS (fun bl hbl => ?_)
    exact (runDSIntersect hw hw' hbl hx hc).safe
  · exact keep (runAnd bm bm' (by omega))
  · exact keep (runDecodeBitmap bm (by omega))
  · refine (runBlocks hr h' hn').bindS (fun bl hbl => ?_)
    exact keep (runDecodeSparse hw' hbl hc)
  · exact keep (runDecodeBitmap bm' (by omega))
  · exact keep (runDecodeFull hc)
  · exact pair_cases (fun hL => ⟨ht hL.1, ht' hL.2⟩) n1 n2 n3 n4 n5 n6 n7 n8 n9

theorem safeIntersectionLoop (hl : Room m l g) (hr : Room m r g) (hg : 65536 ≤ g) :
    ∀ (f : Nat) (itl itr : It) (x buf : List Nat) (out : Nat), ItOf l g itl → ItOf r g itr →
    (l.chunks - itl.begin_) + (r.chunks - itr.begin_) < f → 1024 ≤ x.length →
    out + 65536 * min (l.chunks - itl.begin_) (r.chunks - itr.begin_) ≤ buf.length →
    Safe (Legal m l ∧ Legal m r) dbg
      (fun q => out ≤ q.1 ∧ q.1 ≤ out + 65536 * min (l.chunks - itl.begin_) (r.chunks - itr.begin_) ∧
        q.2.1.length = x.length ∧ q.2.2.length = buf.length)
      (pairwise_intersection_loop dbg tab m f itl itr x buf out)
  | 0, _, _, _, _, _, _, _, hf, _, _ => absurd hf (Nat.not_lt_zero _)
  | f + 1, itl, itr, x, buf, out, h, h', hf, hx, hc => by
    unfold pairwise_intersection_loop
    split
    · next hn =>
      rw [Bool.and_eq_true] at hn
      have n1 := h.next_lt hn.1
      have n2 := h'.next_lt hn.2
      obtain ⟨i, ei, hi⟩ := runId hl h
      obtain ⟨j, ej, hj⟩ := runId hr h'
      have e1 : u16 i = i := Nat.mod_eq_of_lt (hi.1 hn.1)
      have e2 : u16 j = j := Nat.mod_eq_of_lt (hj.1 hn.2)
      simp only [ei, ej, ok_bind, e1, e2]
      split
      · refine (safeIntersectChunks hl hr h h' n1 n2 hx (by omega)).bind ?_
        rintro ⟨n, x', b⟩ ⟨a1, a2, a3⟩
        simp only at a1 a2 a3 ⊢
        refine (runNext hl h hg n1).bindS ?_
        rintro itl' ⟨b1, b2⟩
        refine (runNext hr h' hg n2).bindS ?_
        rintro itr' ⟨c1, c2⟩
        refine (safeIntersectionLoop hl hr hg f itl' itr' x' b _ b1 c1 (by omega) (by omega)
          (by omega)).mono ?_
        rintro ⟨q, o1, o2⟩ ⟨q1, q2, q3, q4⟩
        simp only at q1 q2 q3 q4 ⊢
        exact ⟨by omega, by omega, by omega, by omega⟩
      · split
        · next hlt =>
          refine (runAdvance' hl hg h j).bindS ?_
          rintro itl' ⟨b1, b2, b3⟩
          have b4 := b3 i ei hlt hn.1
          refine (safeIntersectionLoop hl hr hg f itl' itr x buf _ b1 h' (by omega) hx
            (by omega)).mono ?_
          rintro ⟨q, o1, o2⟩ ⟨q1, q2, q3, q4⟩
          simp only at q1 q2 q3 q4 ⊢
          exact ⟨by omega, by omega, q3, q4⟩
        · next hlt =>
          refine (runAdvance' hr hg h' i).bindS ?_
          rintro itr' ⟨b1, b2, b3⟩
          have b4 := b3 j ej (by omega) hn.2
          refine (safeIntersectionLoop hl hr hg f itl itr' x buf _ h b1 (by omega) hx
            (by omega)).mono ?_
          rintro ⟨q, o1, o2⟩ ⟨q1, q2, q3, q4⟩
          simp only at q1 q2 q3 q4 ⊢
          exact ⟨by omega, by omega, q3, q4⟩
    · exact (Runs.ok ⟨Nat.le_refl _, Nat.le_add_right _ _, rfl, rfl⟩).safe

theorem safeIntersection (hl : Room m l g) (hr : Room m r g) (hg : 65536 ≤ g) {x buf : List Nat}
    {out : Nat} (hx : 1024 ≤ x.length) (hc : out + 65536 * min l.chunks r.chunks ≤ buf.length) :
    Safe (Legal m l ∧ Legal m r) dbg
      (fun q => q.1 ≤ 65536 * min l.chunks r.chunks ∧ q.2.1.length = x.length ∧
        q.2.2.length = buf.length)
      (pairwise_intersection dbg tab m l r x buf out) := by
  unfold pairwise_intersection
  refine (safeIntersectionLoop hl hr hg _ _ _ x buf out (ItOf.start l g) (ItOf.start r g)
    (Nat.lt_succ_self _) hx hc).bind ?_
  rintro ⟨q, o1, o2⟩ ⟨q1, q2, q3, q4⟩
  simp only [SSeq.begin, Nat.sub_zero] at q1 q2 q3 q4 ⊢
  exact (Runs.pure ⟨by simp only; omega, q3, q4⟩).safe

end Sliced
