import Verif.Proof.Corrupt
import Verif.Model.NextGeq
import Verif.Model.Select
import Verif.Model.Enumerator
import Verif.Model.Union
/-!
# Memory of any content: the other functions
-/
namespace Sliced

variable {m : Mem} {lo hi : Nat} {dbg : Bool} {s : SSeq} {g : Nat} {it : It}

theorem bytes_le (c : Nat) : bytes_by_cardinality c ≤ 32 := by
  unfold bytes_by_cardinality
  split <;> omega

theorem bytes_ge {c : Nat} (h : c < 31) : bytes_by_cardinality c = c := if_pos h

theorem Runs.andEnds {α : Type} {P Q : α → Prop} {r : Res α} (h : Runs P r) (hq : EndsP Q r) :
    Runs (fun x => P x ∧ Q x) r := by
  obtain ⟨x, e, hx⟩ := h
  exact ⟨x, e, hx, hq.post x e⟩

theorem Safe.ite {α : Type} {P : α → Prop} {L : Prop} {c : Prop} [Decidable c] {a b : Res α}
    (ha : Safe L dbg P a) (hb : ¬ c → Safe L dbg P b) : Safe L dbg P (if c then a else b) := by
  split
  · exact ha
  · next h => exact hb h

/-! ## next_geq -/

theorem runNextGeqSparseBlock (hw : Win m lo hi) {begin value : Nat} (h1 : lo ≤ begin) :
    ∀ (n i : Nat), begin + i + n ≤ hi →
    Runs (fun _ => True) (next_geq_sparse_block_loop m begin value n i)
  | 0, _, _ => Runs.ok trivial
  | n + 1, i, h => by
    unfold next_geq_sparse_block_loop
    refine (run8 hw (by omega) (by omega)).bind (fun x _ => ?_)
    split
    · exact Runs.pure trivial
    · exact runNextGeqSparseBlock hw h1 n (i + 1) (by omega)

theorem runMaxBitmap {b : Words} {N : Nat} (hb : WRuns b N) : ∀ n, n ≤ N →
    Runs (fun _ => True) (max_value_in_bitmap_loop b n)
  | 0, _ => Runs.ok trivial
  | n + 1, h => by
    unfold max_value_in_bitmap_loop
    refine (hb n (by omega)).bind (fun w hw => ?_)
    split
    · next h0 =>
      obtain ⟨r, hr⟩ := clz_exists h0 hw
      rw [hr]
      exact Runs.pure trivial
    · exact runMaxBitmap hb n (by omega)

theorem runMinBitmap {b : Words} {N : Nat} (hb : WRuns b N) : ∀ n i, i + n ≤ N →
    Runs (fun _ => True) (min_value_in_bitmap_loop b n i)
  | 0, _, _ => Runs.ok trivial
  | n + 1, i, h => by
    unfold min_value_in_bitmap_loop
    refine (hb i (by omega)).bind (fun w hw => ?_)
    split
    · next h0 => exact (runCtz h0 hw).bind (fun _ _ => Runs.pure trivial)
    · exact runMinBitmap hb n (i + 1) (by omega)

theorem runNextGeqBitmapLoop {b : Words} {N : Nat} (hb : WRuns b N) : ∀ (f k word : Nat),
    k < N → N - k < f → word < 18446744073709551616 →
    Runs (fun _ => True) (next_geq_bitmap_loop b N f k word)
  | 0, _, _, _, hf, _ => absurd hf (Nat.not_lt_zero _)
  | f + 1, k, word, hk, hf, hw => by
    unfold next_geq_bitmap_loop
    split
    · simp only
      split
      · exact Runs.ok trivial
      · exact (hb _ (by omega)).bind (fun w hw => runNextGeqBitmapLoop hb f _ w (by omega) (by omega) hw)
    · next h0 => exact (runCtz h0 hw).bind (fun _ _ => Runs.pure trivial)

theorem runNextGeqBitmap {b : Words} {N value : Nat} (hb : WRuns b N) (hv : value < 64 * N) :
    Runs (fun _ => True) (next_geq_bitmap b N value) := by
  unfold next_geq_bitmap
  refine (hb _ (by omega)).bind (fun w _ => ?_)
  exact runNextGeqBitmapLoop hb _ _ _ (by omega) (by omega) (Nat.mod_lt _ (by decide))

theorem runMaxBlock (hw : Win m lo hi) {begin data : Nat} (h1 : lo ≤ begin) (h2 : begin + 2 ≤ hi)
    (h3 : lo ≤ data) (h4 : data + 32 ≤ hi) : Runs (fun _ => True) (max_value_in_block m begin data) := by
  unfold max_value_in_block
  refine (run8 hw (by omega) (by omega)).bind (fun c hc => ?_)
  split
  · exact (run8 hw (by omega) (by omega)).mono (fun _ _ => trivial)
  · exact runMaxBitmap (N := 4) (runMem hw h3 h4) _ (by decide)

theorem runBlockMin (hw : Win m lo hi) {begin data base : Nat} (h1 : lo ≤ begin) (h2 : begin + 2 ≤ hi)
    (h3 : lo ≤ data) (h4 : data + 32 ≤ hi) : Runs (fun _ => True) (block_min m begin data base) := by
  unfold block_min
  refine (run8 hw (by omega) (by omega)).bind (fun c hc => ?_)
  split
  · exact (run8 hw (by omega) (by omega)).bind (fun _ _ => Runs.pure trivial)
  · exact (runMinBitmap (N := 4) (runMem hw h3 h4) _ 0 (by decide)).bind (fun _ _ => Runs.pure trivial)

theorem runSkipBlocks (hw : Win m lo hi) {block_id end_ : Nat} : ∀ (n f begin data id : Nat), n < f →
    begin + 2 * n = end_ → lo ≤ begin → end_ + 1 ≤ hi → lo ≤ data → data + 32 * n ≤ hi →
    Runs (fun r => ∃ k, r.1 + 2 * k = end_ ∧ lo ≤ r.1 ∧ lo ≤ r.2.1 ∧ r.2.1 + 32 * k ≤ hi)
      (skip_blocks m block_id end_ f begin data id)
  | _, 0, _, _, _, hf, _, _, _, _, _ => absurd hf (Nat.not_lt_zero _)
  | n, f + 1, begin, data, id, hf, he, h1, h2, h3, h4 => by
    unfold skip_blocks
    split
    · next hc =>
      obtain ⟨n, rfl⟩ : ∃ k, n = k + 1 := ⟨n - 1, by omega⟩
      refine (run8 hw (by omega) (by omega)).bind (fun c1 _ => ?_)
      simp only
      refine (run8 hw (by omega) (by omega)).bind (fun id' _ => ?_)
      have := bytes_le (c1 + 1)
      exact runSkipBlocks hw n f _ _ _ (by omega) (by omega) (by omega) h2 (by omega) (by omega)
    · exact Runs.ok ⟨n, he, h1, h3, h4⟩

theorem runNextGeqSparse {data blocks value : Nat} (hw : Win m data (data + 8736)) (hv : value < 65536)
    (hb : 1 ≤ blocks ∧ blocks ≤ 256) :
    Runs (fun _ => True) (next_geq_sparse_chunk dbg m data blocks value) := by
  unfold next_geq_sparse_chunk
  refine (Runs.cassert (by simp; omega)).bind (fun _ _ => ?_)
  simp only
  refine (run8 hw (Nat.le_refl _) (by omega)).bind (fun id _ => ?_)
  refine (runSkipBlocks hw blocks _ _ _ _ (Nat.lt_succ_self _) (by omega) (Nat.le_refl _) (by omega)
    (by omega) (by omega)).bind ?_
  rintro ⟨b, d, id⟩ ⟨k, h1, h2, h3, h4⟩
  simp only at h1 h2 h3 h4 ⊢
  split
  · next hne =>
    obtain ⟨k, rfl⟩ : ∃ j, k = j + 1 := ⟨k - 1, by omega⟩
    split
    · exact runBlockMin hw h2 (by omega) h3 (by omega)
    · refine (runMaxBlock hw h2 (by omega) h3 (by omega)).bind (fun mx _ => ?_)
      split
      · split
        · exact Runs.pure trivial
        · refine (run8 hw (by omega) (by omega)).bind (fun c1 _ => ?_)
          have := bytes_le (c1 + 1)
          refine (run8 hw (by omega) (by omega)).bind (fun id' _ => ?_)
          exact runBlockMin hw (by omega) (by omega) (by omega) (by omega)
      · refine (run8 hw (by omega) (by omega)).bind (fun c1 hc1 => ?_)
        split
        · exact (runNextGeqSparseBlock hw h3 _ 0 (by omega)).bind (fun _ _ => Runs.pure trivial)
        · exact (runNextGeqBitmap (N := 4) (runMem hw h3 (by omega)) (by omega)).bind
            (fun _ _ => Runs.pure trivial)
  · exact Runs.pure trivial

theorem runMinSparse {data blocks : Nat} (hw : Win m data (data + 8736))
    (hb : 1 ≤ blocks ∧ blocks ≤ 256) :
    Runs (fun _ => True) (min_value_in_sparse_chunk dbg m data blocks) := by
  unfold min_value_in_sparse_chunk
  refine (Runs.cassert (by simp; omega)).bind (fun _ _ => ?_)
  refine (run8 hw (Nat.le_refl _) (by omega)).bind (fun id _ => ?_)
  exact runBlockMin hw (Nat.le_refl _) (by omega) (by omega) (by omega)

theorem runBase (hr : Room m s g) (h : ItOf s g it) :
    Runs (fun b => it.has_next = false → b = 0) (it.base m) := by
  unfold It.base
  refine (runId hr h).bind (fun i hi => Runs.pure (fun hn => ?_))
  rw [hi.2 hn]
  rfl

theorem safeChunkMin (hr : Room m s g) (h : ItOf s g it) (hn : it.begin_ < s.chunks) :
    Safe (Legal m s) dbg (fun _ => True) (chunk_min dbg m it) := by
  unfold chunk_min
  refine (runType hr h hn).bindS ?_
  rintro t ⟨-, ht⟩
  have hw := h.win hr
  have rest : ∀ v, True → Safe (Legal m s) dbg (fun _ => True) (do
        let b ← it.base m
        return u32 (v + b)) := fun v _ =>
    (runBase hr h).bindS (fun b _ => (Runs.pure trivial).safe)
  simp only
  refine safeCase ht ?_ ((runMinBitmap (N := 1024) (runMem hw (Nat.le_refl _) (by omega)) _ 0
    (by decide)).bindS rest) ((Runs.pure trivial).bindS rest) unreachable_bind
  refine (runBlocks hr h hn).bindS (fun b hb => ?_)
  exact (runMinSparse hw hb).bindS rest

theorem safeNextGeq (hr : Room m s g) (hg : 134217728 ≤ g) (value : Nat) :
    Safe (Legal m s) dbg (fun _ => True) (s.next_geq dbg m value) := by
  unfold SSeq.next_geq
  refine (runSkipToValue hr hg (value / 65536)).bindS ?_
  rintro it ⟨h, h0⟩
  refine (runBase hr h).bindS (fun b hb => ?_)
  split
  · next hge =>
    refine safeChunkMin hr h ?_
    cases hn : it.has_next with
    | true => exact h.next_lt hn
    | false =>
      have := hb hn
      exact h0 (by omega)
  · split
    · next hn =>
      have hlt := h.next_lt hn
      refine (runType hr h hlt).bindS ?_
      rintro t ⟨-, ht⟩
      have hw := h.win hr
      have rest : ∀ v, True → Safe (Legal m s) dbg (fun _ => True) (if v ≠ not_found then
            return u32 (v + b)
          else do
            let it ← it.next m
            if it.has_next then chunk_min dbg m it
            else return not_found) := by
        intro v _
        split
        · exact (Runs.pure trivial).safe
        · refine (runNext hr h (by omega) hlt).bindS ?_
          rintro it' ⟨h', -⟩
          split
          · next hn' => exact safeChunkMin hr h' (h'.next_lt hn')
          · exact (Runs.pure trivial).safe
      simp only
      refine safeCase ht ?_ ((runNextGeqBitmap (N := 1024) (runMem hw (Nat.le_refl _) (by omega))
        (by omega)).bindS rest) ((Runs.pure trivial).bindS rest) unreachable_bind
      refine (runBlocks hr h hlt).bindS (fun b hb => ?_)
      exact (runNextGeqSparse hw (by omega) hb).bindS rest
    · exact (Runs.pure trivial).safe

/-! ## select -/

theorem popcount_le (w : Nat) : popcount w ≤ 64 := by
  unfold popcount
  exact Nat.le_trans (List.length_filter_le _ _) (by rw [List.length_range]; exact Nat.le_refl _)

theorem safeSelectBitmap {b : Words} {N rank : Nat} (hb : WRuns b N) (hr : rank < 4294967296) :
    ∀ (n i el : Nat), i + n ≤ N → el ≤ rank →
    Safe False dbg (fun _ => True) (select_bitmap_loop dbg b rank n i el)
  | 0, _, _, _, _ => Safe.unreach id
  | n + 1, i, el, hn, he => by
    unfold select_bitmap_loop
    refine (hb i (by omega)).bindS (fun w _ => ?_)
    have hc := popcount_le w
    simp only
    split
    · next hgt =>
      refine (Runs.cassert (by simp; omega)).bindS (fun _ _ => ?_)
      have hm : u32 (el + popcount w) ≤ el + popcount w := Nat.mod_le _ _
      rw [sub32_eq hr he]
      rw [if_neg (by omega)]
      exact (Runs.pure trivial).safe
    · exact safeSelectBitmap hb hr n _ _ (by omega) (by omega)

theorem safeSelectSparseLoop (hw : Win m lo hi) {rank end_ : Nat} (hr : rank < 4294967296) :
    ∀ (n f begin data el : Nat), n < f → begin + 2 * n = end_ → lo ≤ begin → end_ ≤ hi → lo ≤ data →
    data + 32 * n ≤ hi → el ≤ rank →
    Safe False dbg (fun _ => True) (select_sparse_chunk_loop dbg m rank end_ f begin data el)
  | _, 0, _, _, _, hf, _, _, _, _, _, _ => absurd hf (Nat.not_lt_zero _)
  | n, f + 1, begin, data, el, hf, he, h1, h2, h3, h4, h5 => by
    unfold select_sparse_chunk_loop
    split
    · exact Safe.unreach id
    · next hne =>
      obtain ⟨n, rfl⟩ : ∃ k, n = k + 1 := ⟨n - 1, by omega⟩
      refine (run8 hw h1 (by omega)).bindS (fun id _ => ?_)
      refine (run8 hw (by omega) (by omega)).bindS (fun c1 hc1 => ?_)
      simp only
      split
      · next hgt =>
        have hm : u32 (el + (c1 + 1)) ≤ el + (c1 + 1) := Nat.mod_le _ _
        rw [sub32_eq hr h5]
        refine (Runs.cassert (by simp; omega)).bindS (fun _ _ => ?_)
        split
        · exact (run8 hw (by omega) (by omega)).bindS (fun _ _ => (Runs.pure trivial).safe)
        · exact (safeSelectBitmap (N := 4) (runMem hw h3 (by omega)) (by omega) _ 0 0 (by decide)
            (Nat.zero_le _)).bind (fun _ _ => (Runs.pure trivial).safe)
      · refine safeSelectSparseLoop hw hr n f _ _ _ (by omega) (by omega) (by omega) h2 (by omega) ?_
          (by omega)
        split <;> omega

theorem safeSelectSparse {data blocks rank : Nat} (hw : Win m data (data + 8736)) (hr : rank < 4294967296)
    (hb : 1 ≤ blocks ∧ blocks ≤ 256) :
    Safe False dbg (fun _ => True) (select_sparse_chunk dbg m data blocks rank) := by
  unfold select_sparse_chunk
  refine (Runs.cassert (by simp; omega)).bindS (fun _ _ => ?_)
  exact safeSelectSparseLoop hw hr blocks _ _ _ _ (Nat.lt_succ_self _) (by omega) (Nat.le_refl _)
    (by omega) (by omega) (by omega) (Nat.zero_le _)

theorem safeSelect (hr : Room m s g) (hg : 134217728 ≤ g) {rank : Nat} (value : Nat)
    (h32 : rank < 4294967296) :
    Safe False dbg (fun _ => True) (s.select dbg m rank value) := by
  unfold SSeq.select
  refine (runSkipToPosition hr hg h32).bindS ?_
  rintro ⟨it, el⟩ ⟨h, h1, h2⟩
  simp only at h h1 h2 ⊢
  split
  · next hn =>
    have hlt := h.next_lt hn
    have h3 := h2 hn
    rw [sub32_eq h32 h1]
    refine (Runs.cassert (by simp only [chunk_size]; simp; omega)).bindS (fun _ _ => ?_)
    refine (runType hr h hlt).bindS (fun t _ => ?_)
    have hw := h.win hr
    have rest : ∀ v, True → Safe False dbg (fun _ => True) (do
        let i ← it.id m
        return (true, u32 (v + u32 (i * 65536)))) := fun v _ =>
      (runId hr h).bindS (fun _ _ => (Runs.pure trivial).safe)
    refine safeCase (fun h => h.elim) ?_ ((safeSelectBitmap (N := 1024)
      (runMem hw (Nat.le_refl _) (by omega)) (by omega) _ 0 0 (by decide) (Nat.zero_le _)).bind rest)
      ((Runs.pure trivial).bindS rest) unreachable_bind
    refine (runBlocks hr h hlt).bindS (fun b hb => ?_)
    exact (safeSelectSparse hw (by omega) hb).bind rest
  · exact (Runs.pure trivial).safe

/-! ## The enumerator -/

/-- an enumerator of `s` that has a next element -/
structure EnumIn (s : SSeq) (g : Nat) (e : Enum) : Prop where
  it : ItOf s g e.it
  chunk : e.chunk = e.it.begin_
  more : e.it.begin_ < s.chunks
  chunks : e.chunks = s.chunks
  pos : e.i < e.cardinality
  card : e.cardinality ≤ 65536
  buf : 65536 ≤ e.buf.length

theorem safeEnumInit (hr : Room m s g) {buf : List Nat} (hb : 65536 ≤ buf.length) (past : Nat) :
    Safe (Legal m s) dbg (fun e => EnumIn s g e ∧ e.has_next = true ∧ e.chunk = 0)
      (Enum.init dbg m buf s past) := by
  unfold Enum.init
  have hp := hr.pos
  refine (runCard hr (ItOf.start s g) hp).bindS (fun c hc => ?_)
  refine (safeDecodeChunk hr (ItOf.start s g) hp (by omega)).bind ?_
  rintro ⟨k, o⟩ ⟨h1, h2⟩
  simp only at h1 h2
  exact (Runs.pure ⟨⟨ItOf.start s g, rfl, hp, rfl, hc.1, hc.2, by simp only; omega⟩, rfl, rfl⟩).safe

/-- The elements that are left, at most. -/
def Enum.left (e : Enum) : Nat := (e.cardinality - e.i) + 65536 * (e.chunks - e.chunk - 1)

theorem safeEnumNext (hr : Room m s g) (hg : 65536 ≤ g) {e : Enum} (h : EnumIn s g e)
    (hn : e.has_next = true) :
    Safe (Legal m s) dbg (fun e' => e'.has_next = false ∨
      (EnumIn s g e' ∧ e'.has_next = true ∧ e'.left < e.left)) (e.next dbg m) := by
  have h1 := h.chunk
  have h2 := h.more
  have h3 := h.chunks
  have h4 := h.pos
  have h5 := h.card
  have h6 := hr.max
  have ei : u32 (e.i + 1) = e.i + 1 := u32_lt (by omega)
  have ec : u32 (e.chunk + 1) = e.chunk + 1 := u32_lt (by omega)
  unfold Enum.next
  simp only [ei, ec]
  split
  · split
    · exact Runs.safe (Runs.pure (Or.inl rfl))
    · refine (runNext hr h.it hg h2).bindS ?_
      rintro it' ⟨hi, hb⟩
      have hlt : it'.begin_ < s.chunks := by omega
      refine (runCard hr hi hlt).bindS (fun c hc => ?_)
      refine (safeDecodeChunk hr hi hlt (by have := h.buf; omega)).bind ?_
      rintro ⟨k, o⟩ ⟨k1, k2⟩
      simp only at k1 k2
      refine Runs.safe (Runs.pure (Or.inr ⟨⟨hi, ?_, hlt, h3, hc.1, hc.2, ?_⟩, hn, ?_⟩))
      · simp only; omega
      · have := h.buf; simp only; omega
      · unfold Enum.left
        simp only
        omega
  · refine Runs.safe (Runs.pure (Or.inr ⟨⟨h.it, h1, h2, h3, ?_, h5, h.buf⟩, hn, ?_⟩))
    · simp only; omega
    · unfold Enum.left
      simp only
      omega

theorem runEnumValue {e : Enum} (h : EnumIn s g e) : Runs (fun _ => True) e.value := by
  unfold Enum.value
  split
  · have := h.pos
    have := h.card
    have := h.buf
    have hlt : e.i < e.buf.length := by omega
    exact ⟨_, rdv_of (List.getElem?_eq_getElem hlt), trivial⟩
  · exact Runs.ok trivial

theorem safeCollect (hr : Room m s g) (hg : 65536 ≤ g) : ∀ (f : Nat) (e : Enum),
    (e.has_next = true → EnumIn s g e ∧ e.left + 1 < f) → 0 < f →
    Safe (Legal m s) dbg (fun r => r.length ≤ if e.has_next then e.left else 0) (Enum.collect dbg m f e)
  | 0, _, _, hf => absurd hf (Nat.not_lt_zero _)
  | f + 1, e, h, _ => by
    unfold Enum.collect
    split
    · next hn =>
      obtain ⟨ha, hl⟩ := h hn
      refine (runEnumValue ha).bindS (fun v _ => ?_)
      refine (safeEnumNext hr hg ha hn).bind (fun e' he' => ?_)
      have hpos : 0 < e.left := by
        have := ha.pos
        unfold Enum.left
        omega
      refine (safeCollect hr hg f e' (fun hn' => ?_) (by omega)).bind (fun r hr' => ?_)
      · rcases he' with he' | ⟨a, -, b⟩
        · rw [hn'] at he'; cases he'
        · exact ⟨a, by omega⟩
      · refine (Runs.pure ?_).safe
        rw [List.length_cons]
        rcases he' with he' | ⟨a, c, b⟩
        · rw [he', if_neg (by decide)] at hr'
          omega
        · rw [c, if_pos rfl] at hr'
          omega
    · exact Runs.safe (Runs.ok (Nat.le_refl _))

end Sliced
