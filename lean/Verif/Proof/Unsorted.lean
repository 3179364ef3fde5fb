import Verif.Proof.Ends
import Verif.Proof.EncodeSeq
/-!
# The builder on lists that are not sorted (helpers for C39)
-/
namespace Sliced

/-- no two neighbours are equal -/
def NoRepeat (xs : List Nat) : Prop := ∀ i x, xs[i]? = some x → xs[i + 1]? ≠ some x

theorem noRepeat_nil : NoRepeat [] := by intro i x h; simp at h

theorem noRepeat_cons {x : Nat} {xs : List Nat} (h : NoRepeat xs) (hx : xs[0]? ≠ some x) :
    NoRepeat (x :: xs) := by
  intro i y hy
  cases i with
  | zero => simp at hy; subst hy; simpa using hx
  | succ i => simpa using h i y (by simpa using hy)

theorem noRepeat_append {xs ys : List Nat} (hx : NoRepeat xs) (hy : NoRepeat ys)
    (h : ∀ a ∈ xs, ∀ b ∈ ys, a ≠ b) : NoRepeat (xs ++ ys) := by
  induction xs with
  | nil => simpa using hy
  | cons a xs ih =>
    rw [List.cons_append]
    refine noRepeat_cons (ih (fun i x hi => ?_) fun a ha => h a (by simp [ha])) ?_
    · have := hx (i + 1) x (by simpa using hi)
      simpa using this
    · have := hx 0 a (by simp)
      cases xs with
      | nil =>
        cases ys with
        | nil => simp
        | cons b ys =>
          have := h a (by simp) b (by simp)
          simp; omega
      | cons c xs => simpa using this

theorem cassert_held {c : Bool} {u : Unit} (h : cassert true c = .ok u) : c = true := by
  unfold cassert at h
  cases c <;> simp_all

theorem cassert_rel (c : Bool) : cassert false c = .ok () := by cases c <;> rfl

/-- what the build with assertions knows after `chunk_cardinality` -/
theorem chunk_cardinality_loop_dbg {s : Slice} {xs : List Nat} {prev c c' : Nat}
    (h : chunk_cardinality_loop true s xs prev c = .ok c') :
    ∃ pre suf, xs = pre ++ suf ∧ c' = c + pre.length ∧
      (∀ x ∈ pre, s.left ≤ x ∧ x < s.right) ∧ NoRepeat pre ∧ pre[0]? ≠ some prev := by
  induction xs generalizing prev c with
  | nil =>
    simp only [chunk_cardinality_loop, Except.ok.injEq] at h
    exact ⟨[], [], rfl, by simpa using h.symm, by simp, noRepeat_nil, by simp⟩
  | cons x xs ih =>
    unfold chunk_cardinality_loop at h
    by_cases hx : x < s.right
    · rw [if_pos hx] at h
      obtain ⟨_, h1, h⟩ := bind_ok h
      obtain ⟨_, h2, h⟩ := bind_ok h
      have h1 := cassert_held h1
      by_cases hp : x = prev
      · rw [if_pos hp] at h; cases h
      · rw [if_neg hp] at h
        obtain ⟨pre, suf, e1, e2, e3, e4, e5⟩ := ih h
        refine ⟨x :: pre, suf, by rw [e1]; rfl, by rw [e2, List.length_cons]; omega, ?_,
          noRepeat_cons e4 e5, by simpa using hp⟩
        intro y hy
        rw [List.mem_cons] at hy
        rcases hy with rfl | hy
        · exact ⟨by simpa using h1, hx⟩
        · exact e3 y hy
    · rw [if_neg hx] at h
      simp only [Except.ok.injEq] at h
      exact ⟨[], x :: xs, rfl, by simpa using h.symm, by simp, noRepeat_nil, by simp⟩

theorem encode_chunk_step_dbg {i : Nat} {e e' : EncState}
    (h : encode_chunk_step true i e = .ok e') :
    e'.s = ⟨e.s.right, u32 (e.s.right + 65536)⟩ ∧ ∃ pre, e.rest = pre ++ e'.rest ∧
      (∀ x ∈ pre, e.s.left ≤ x ∧ x < e.s.right) ∧ NoRepeat pre := by
  unfold encode_chunk_step at h
  dsimp only at h
  split at h
  · cases h
  · rename_i x t hre
    split at h
    · obtain ⟨c, hc, h⟩ := bind_ok h
      unfold chunk_cardinality at hc
      obtain ⟨c', hc', hc⟩ := bind_ok hc
      obtain ⟨_, -, hc⟩ := bind_ok hc
      simp only [pure_ok, Except.ok.injEq] at hc
      subst hc
      obtain ⟨pre, suf, e1, e2, e3, e4, -⟩ := chunk_cardinality_loop_dbg hc'
      have hd : e.rest.drop c' = suf := by rw [e1, e2]; simp
      have key : e'.s = ⟨e.s.right, u32 (e.s.right + 65536)⟩ ∧ e'.rest = suf := by
        split at h
        · obtain ⟨sp, -, h⟩ := bind_ok h
          split at h
          · obtain ⟨tmp, -, h⟩ := bind_ok h
            simp only [pure_ok, Except.ok.injEq] at h
            subst h; exact ⟨rfl, hd⟩
          · obtain ⟨_, -, h⟩ := bind_ok h
            obtain ⟨_, -, h⟩ := bind_ok h
            obtain ⟨_, -, h⟩ := bind_ok h
            obtain ⟨⟨_, _⟩, -, h⟩ := bind_ok h
            simp only [pure_ok, Except.ok.injEq] at h
            subst h; exact ⟨rfl, hd⟩
        · split at h
          · simp only [pure_ok, Except.ok.injEq] at h
            subst h; exact ⟨rfl, hd⟩
          · obtain ⟨_, -, h⟩ := bind_ok h
            obtain ⟨_, -, h⟩ := bind_ok h
            simp only [pure_ok, Except.ok.injEq] at h
            subst h; exact ⟨rfl, hd⟩
      exact ⟨key.1, pre, by rw [key.2, ← e1], e3, e4⟩
    · simp only [pure_ok, Except.ok.injEq] at h
      subst h
      exact ⟨rfl, [], rfl, by simp, noRepeat_nil⟩

theorem encode_chunks_dbg {n i : Nat} {e e' : EncState} (hi : i + n ≤ 65536)
    (hs : e.s = ⟨65536 * i, u32 (65536 * (i + 1))⟩)
    (h : encode_chunks true n i e = .ok e') :
    ∃ pre, e.rest = pre ++ e'.rest ∧ (∀ x ∈ pre, i ≤ x / 65536 ∧ x / 65536 < 65535) ∧
      pre.Pairwise (fun x y => x / 65536 ≤ y / 65536) ∧ NoRepeat pre := by
  induction n generalizing i e with
  | zero =>
    simp only [encode_chunks, Except.ok.injEq] at h
    subst h
    exact ⟨[], rfl, by simp, by simp, noRepeat_nil⟩
  | succ n ih =>
    unfold encode_chunks at h
    obtain ⟨e1, h1, h⟩ := bind_ok h
    obtain ⟨k1, pre, k2, k3, k4⟩ := encode_chunk_step_dbg h1
    rw [hs] at k1 k3
    dsimp only at k1 k3
    have hu : u32 (65536 * (i + 1)) ≤ 65536 * (i + 1) := Nat.mod_le _ _
    have hu' : u32 (65536 * (i + 1)) ≤ 4294901760 := by
      unfold u32; omega
    rcases Nat.eq_zero_or_pos n with rfl | hn
    · simp only [encode_chunks, Except.ok.injEq] at h
      subst h
      refine ⟨pre, k2, fun x hx => ?_, ?_, k4⟩
      · have := k3 x hx; omega
      · rw [List.pairwise_iff_forall_sublist]
        intro a b hab
        have ha := k3 a (hab.subset (by simp))
        have hb := k3 b (hab.subset (by simp))
        omega
    · obtain ⟨pre', m2, m3, m4, m5⟩ := ih (i := i + 1) (by omega) (by
        rw [k1, Slice.mk.injEq]
        constructor
        · unfold u32; omega
        · unfold u32; omega) h
      refine ⟨pre ++ pre', by rw [k2, m2, List.append_assoc], ?_, ?_, ?_⟩
      · intro x hx
        rw [List.mem_append] at hx
        rcases hx with hx | hx
        · have := k3 x hx; omega
        · have := m3 x hx; omega
      · rw [List.pairwise_append]
        refine ⟨?_, m4, ?_⟩
        · rw [List.pairwise_iff_forall_sublist]
          intro a b hab
          have ha := k3 a (hab.subset (by simp))
          have hb := k3 b (hab.subset (by simp))
          omega
        · intro a ha b hb
          have := k3 a ha
          have := m3 b hb
          omega
      · refine noRepeat_append k4 m5 fun a ha b hb => ?_
        have := k3 a ha
        have := m3 b hb
        omega

/-- An accepted list is ordered by slices, has no equal neighbours and avoids the last slice. -/
theorem build_sequence_dbg {xs : List Nat} {out : List UInt8} {r : Stats × List UInt8}
    (h : build_sequence true xs out = .ok r) :
    xs ≠ [] ∧ (∀ x ∈ xs, x < 4294901760) ∧ xs.Pairwise (fun x y => x / 65536 ≤ y / 65536) ∧
      NoRepeat xs := by
  unfold build_sequence at h
  obtain ⟨⟨_, _, _⟩, h1, -⟩ := bind_ok h
  unfold encode_sequence at h1
  obtain ⟨_, -, h1⟩ := bind_ok h1
  split at h1
  · cases h1
  · rename_i u hu
    obtain ⟨_, hc, h1⟩ := bind_ok h1
    obtain ⟨e, he, h1⟩ := bind_ok h1
    obtain ⟨_, hr, -⟩ := bind_ok h1
    have hc := cassert_held hc
    have hr := cassert_held hr
    simp only [Bool.and_eq_true, decide_eq_true_eq, chunk_size] at hc
    obtain ⟨pre, e1, e2, e3, e4⟩ := encode_chunks_dbg (by omega) (by simp [u32]) he
    rw [List.isEmpty_iff] at hr
    rw [hr, List.append_nil] at e1
    dsimp only at e1
    subst e1
    refine ⟨fun hn => (by rw [hn] at hu; cases hu), fun x hx => ?_, e3, e4⟩
    have := e2 x hx
    omega

/-! ## Releases: `val` wraps and blocks are flushed until `base` has gone round -/

theorem flush_encode {dbg : Bool} {s : Slice} {x : Nat} {t : List Nat} {h d : List UInt8}
    (hx : x < s.right) (f k base id : Nat) (hb : base < 4294967296)
    (hv : ∀ j, j < k → 256 ≤ sub32 x (u32 (base + 256 * j))) :
    encode_sparse_chunk_loop dbg s (f + k) (x :: t) base id [] h d
      = encode_sparse_chunk_loop dbg s f (x :: t) (u32 (base + 256 * k)) (id + k) [] h d := by
  induction k generalizing base id with
  | zero => rw [show u32 (base + 256 * 0) = base by unfold u32; omega]; rfl
  | succ k ih =>
    have h0 := hv 0 (by omega)
    rw [show u32 (base + 256 * 0) = base by unfold u32; omega] at h0
    rw [← Nat.add_assoc]
    conv => lhs; unfold encode_sparse_chunk_loop
    rw [if_pos hx]
    dsimp only
    rw [if_pos h0]
    simp only [encode_block, List.length_nil, gt_iff_lt, Nat.lt_irrefl, if_false, pure_ok, ok_bind]
    rw [ih (u32 (base + block_size)) (id + 1) (Nat.mod_lt _ (by omega)) (fun j hj => by
      have := hv (j + 1) (by omega)
      rw [show u32 (u32 (base + block_size) + 256 * j) = u32 (base + 256 * (j + 1)) by
        unfold u32 block_size; omega]
      exact this)]
    rw [show u32 (u32 (base + block_size) + 256 * k) = u32 (base + 256 * (k + 1)) by
        unfold u32 block_size; omega, show id + 1 + k = id + (k + 1) by omega]

theorem flush_bitsize {dbg : Bool} {s : Slice} {x : Nat} {t : List Nat}
    (hx : x < s.right) (f k base : Nat) (st : Stats) (hb : base < 4294967296)
    (hv : ∀ j, j < k → 256 ≤ sub32 x (u32 (base + 256 * j))) :
    sparse_chunk_bitsize_loop dbg s (f + k) (x :: t) base 0 st
      = sparse_chunk_bitsize_loop dbg s f (x :: t) (u32 (base + 256 * k)) 0
          { st with blocks := st.blocks + k, empty_blocks := st.empty_blocks + k } := by
  induction k generalizing base st with
  | zero => rw [show u32 (base + 256 * 0) = base by unfold u32; omega]; rfl
  | succ k ih =>
    have h0 := hv 0 (by omega)
    rw [show u32 (base + 256 * 0) = base by unfold u32; omega] at h0
    rw [← Nat.add_assoc]
    conv => lhs; unfold sparse_chunk_bitsize_loop
    rw [if_pos hx]
    dsimp only
    rw [if_pos h0]
    have hbl : block_bitsize dbg 0 st = .ok { st with blocks := st.blocks + 1, empty_blocks := st.empty_blocks + 1 } := by
      unfold block_bitsize
      dsimp only
      rw [cassert_of (by simp)]
      rfl
    rw [hbl]
    simp only [ok_bind]
    rw [ih (u32 (base + block_size)) _ (Nat.mod_lt _ (by omega)) (fun j hj => by
      have := hv (j + 1) (by omega)
      rw [show u32 (u32 (base + block_size) + 256 * j) = u32 (base + 256 * (j + 1)) by
        unfold u32 block_size; omega]
      exact this)]
    rw [show u32 (u32 (base + block_size) + 256 * k) = u32 (base + 256 * (k + 1)) by
        unfold u32 block_size; omega]
    simp only [Nat.add_assoc, Nat.add_comm 1 k]

/-! ## Releases: the dense path -/

theorem chunk_cardinality_loop_rel {s : Slice} {xs : List Nat} {prev c : Nat}
    (hx : ∀ x ∈ xs, x < s.right) (hn : NoRepeat xs) (hp : xs[0]? ≠ some prev) :
    chunk_cardinality_loop false s xs prev c = .ok (c + xs.length) := by
  induction xs generalizing prev c with
  | nil => rfl
  | cons x xs ih =>
    unfold chunk_cardinality_loop
    rw [if_pos (hx x (by simp))]
    rw [if_neg (by simpa using hp), cassert_rel, cassert_rel]
    simp only [ok_bind]
    rw [ih (fun y hy => hx y (by simp [hy]))
      (fun i y hi => by simpa using hn (i + 1) y (by simpa using hi))
      (by simpa using hn 0 x (by simp)), List.length_cons]
    congr 1; omega

theorem write_bits_loop_oob {base v : Nat} {A B : List Nat} {n : Nat} {bm : List Nat}
    (hA : ∀ a ∈ A, sub32 a base < bm.length * 64) (hv : bm.length * 64 ≤ sub32 v base)
    (hn : A.length < n) :
    write_bits_loop false base n (A ++ v :: B) bm = .error .ub := by
  induction A generalizing n bm with
  | nil =>
    obtain ⟨n, rfl⟩ : ∃ k, n = k + 1 := ⟨n - 1, by simp at hn; omega⟩
    have hr : bm[sub32 v base / 64]? = none := by
      rw [List.getElem?_eq_none_iff]; omega
    simp only [List.nil_append, write_bits_loop, set_bit, rdv, hr]
    rfl
  | cons a A ih =>
    obtain ⟨n, rfl⟩ : ∃ k, n = k + 1 := ⟨n - 1, by simp at hn; omega⟩
    have ha := hA a (by simp)
    have hl : sub32 a base / 64 < bm.length := by omega
    simp only [List.cons_append, write_bits_loop, set_bit]
    rw [cassert_of (by simpa using ha), rdv_of (List.getElem?_eq_getElem hl)]
    simp only [ok_bind]
    rw [wr, if_pos hl]
    simp only [ok_bind]
    exact ih (fun b hb => by rw [List.length_set]; exact hA b (by simp [hb]))
      (by rw [List.length_set]; exact hv) (by simp at hn; omega)

theorem encode_chunks_skip {dbg : Bool} {x : Nat} {t : List Nat} (n : Nat) {i k : Nat}
    {e : EncState} (hre : e.rest = x :: t) (hk : i + k ≤ 65535) (hx : 65536 * (i + k) ≤ x)
    (hs : e.s = ⟨65536 * i, u32 (65536 * (i + 1))⟩) :
    ∃ st, encode_chunks dbg (k + n) i e = encode_chunks dbg n (i + k) { e with
      s := ⟨65536 * (i + k), u32 (65536 * (i + k + 1))⟩
      stats := st } := by
  induction k generalizing i e with
  | zero =>
    refine ⟨e.stats, ?_⟩
    simp only [Nat.add_zero, Nat.zero_add]
    rw [← hs]
  | succ k ih =>
    have hr : e.s.right = 65536 * (i + 1) := by rw [hs]; unfold u32; dsimp only; omega
    rw [show k + 1 + n = (k + n) + 1 by omega]
    conv => enter [1, st]; lhs; unfold encode_chunks
    rw [encode_chunk_step_empty hre (by omega)]
    simp only [ok_bind]
    obtain ⟨st, h⟩ := ih (i := i + 1) (e := { e with
      s := ⟨e.s.right, u32 (e.s.right + chunk_size)⟩
      stats := { e.stats with empty_chunks := e.stats.empty_chunks + 1 } }) hre (by omega)
      (by rw [show i + 1 + k = i + (k + 1) by omega]; exact hx)
      (by rw [hr]; simp only [chunk_size, Slice.mk.injEq, true_and]; congr 1)
    refine ⟨st, ?_⟩
    rw [h, show i + 1 + k = i + (k + 1) by omega]

/-- Disorder across slices on the dense path: an element of an earlier slice among at least 32768
elements of slice `k` makes the release build write outside of the bitmap. -/
theorem build_sequence_oob {k v : Nat} {A B : List Nat} {out : List UInt8} (hk : k < 65535)
    (hA : ∀ a ∈ A, 65536 * k ≤ a ∧ a < 65536 * (k + 1))
    (hB : ∀ b ∈ B, 65536 * k ≤ b ∧ b < 65536 * (k + 1)) (hv : v < 65536 * k)
    (hAn : A ≠ []) (hBn : B ≠ []) (hr : NoRepeat (A ++ v :: B))
    (hl : 32768 ≤ (A ++ v :: B).length) (hu : (A ++ v :: B).length < 65536) :
    build_sequence false (A ++ v :: B) out = .error .ub := by
  obtain ⟨a, A', rfl⟩ := List.exists_cons_of_ne_nil hAn
  have hall : ∀ x ∈ a :: A' ++ v :: B, x < 65536 * (k + 1) := by
    intro x hx
    rw [List.mem_append, List.mem_cons (b := v)] at hx
    rcases hx with hx | rfl | hx
    · exact (hA x hx).2
    · omega
    · exact (hB x hx).2
  have hlast : (a :: A' ++ v :: B).getLast? = some (B.getLast hBn) := by
    rw [List.getLast?_append, List.getLast?_cons, List.getLast?_eq_some_getLast hBn]
    rfl
  have hL := hB _ (List.getLast_mem hBn)
  have ha := hA a (by simp)
  have key : ∀ st0, encode_chunks false (k + 1) 0
      { rest := a :: A' ++ v :: B, s := { left := 0, right := chunk_size }, header := [], tmp := [],
        block := [], stats := st0 } = .error .ub := by
    intro st0
    obtain ⟨st, he⟩ := encode_chunks_skip (dbg := false) 1 (i := 0) (k := k) (x := a)
      (t := A' ++ v :: B) (e :=
        { rest := a :: A' ++ v :: B, s := { left := 0, right := chunk_size }, header := [],
          tmp := [], block := [], stats := st0 }) rfl (by omega) (by omega) (by simp [u32])
    rw [he, encode_chunks_one]
    simp only [Nat.zero_add]
    have hrt : u32 (65536 * (k + 1)) = 65536 * (k + 1) := by unfold u32; omega
    have hcc : chunk_cardinality false (a :: A' ++ v :: B) ⟨65536 * k, u32 (65536 * (k + 1))⟩
        = .ok (a :: A' ++ v :: B).length := by
      unfold chunk_cardinality
      rw [chunk_cardinality_loop_rel (by rw [hrt]; exact hall) hr (by
        rw [List.cons_append, List.getElem?_cons_zero]
        intro h
        injection h; omega)]
      simp only [ok_bind, Nat.zero_add, cassert_rel, pure_ok]
    have hwb : write_bits false (a :: A' ++ v :: B) (a :: A' ++ v :: B).length chunk_size (65536 * k) []
        = .error .ub := by
      unfold write_bits
      rw [cassert_of (by decide)]
      simp only [ok_bind]
      rw [write_bits_loop_oob]
      · rfl
      · intro y hy
        have := hA y hy
        rw [List.length_replicate, sub32_eq (by omega) (by omega)]
        simp only [chunk_size]; omega
      · rw [List.length_replicate]
        unfold sub32 u32
        simp only [chunk_size]; omega
      · simp only [List.length_append, List.length_cons]; omega
    have : encode_chunk_step false k
        { rest := a :: A' ++ v :: B, s := ⟨65536 * k, u32 (65536 * (k + 1))⟩, header := [], tmp := [],
          block := [], stats := st } = .error .ub := by
      unfold encode_chunk_step
      dsimp only [List.cons_append]
      rw [List.cons_append] at hcc hwb hl hu
      rw [if_pos (by omega), hcc]
      simp only [ok_bind]
      rw [if_neg (by simp only [chunk_sparseness_threshold]; omega),
        if_neg (by simp only [chunk_size]; omega), hwb, cassert_rel]
      simp only [ok_bind]
      rfl
    exact this
  have hn : num_chunks (B.getLast hBn) = k + 1 := by rw [num_chunks_eq (by omega)]; omega
  unfold build_sequence encode_sequence
  simp only [cassert_rel, ok_bind, hlast, hn, key, error_bind]

end Sliced
