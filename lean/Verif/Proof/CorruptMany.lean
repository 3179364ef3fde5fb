import Verif.Proof.CorruptGeq
import Verif.Proof.CorruptSets
import Verif.Model.UnionMany
import Verif.Model.IntersectionMany
/-!
# Memory of any content: union_many and intersection of several sequences
-/
namespace Sliced

variable {m : Mem} {s : SSeq} {g : Nat} {it : It} {dbg : Bool}

/-! ## the bitmaps -/

theorem runOrWords {b : Words} {N : Nat} (hb : WRuns b N) : ∀ (n i : Nat) (out : List Nat),
    i + n ≤ N → i + n ≤ out.length → Runs (SameLen out) (or_words_loop b n i out)
  | 0, _, _, _, _ => Runs.ok rfl
  | n + 1, i, out, h1, h2 => by
    unfold or_words_loop
    refine (hb i (by omega)).bind (fun w _ => ?_)
    have hlt : i < out.length := by omega
    simp only [rdv_of (List.getElem?_eq_getElem hlt), ok_bind]
    refine (runWr _ hlt).bind ?_
    rintro o ⟨ho, -⟩
    exact (runOrWords hb n (i + 1) o (by omega) (by omega)).mono (fun o' h => by
      show o'.length = out.length
      rw [h, ho])

theorem runAndWords {b : Words} {N : Nat} (hb : WRuns b N) : ∀ (n i c : Nat) (out : List Nat),
    i + n ≤ N → i + n ≤ out.length → Runs (fun q => q.2.length = out.length) (and_words_loop b n i c out)
  | 0, _, _, _, _, _ => Runs.ok rfl
  | n + 1, i, c, out, h1, h2 => by
    unfold and_words_loop
    refine (hb i (by omega)).bind (fun w _ => ?_)
    have hlt : i < out.length := by omega
    simp only [rdv_of (List.getElem?_eq_getElem hlt), ok_bind]
    refine (runWr _ hlt).bind ?_
    rintro o ⟨ho, -⟩
    exact (runAndWords hb n (i + 1) _ o (by omega) (by omega)).mono (fun o' h => by rw [h, ho])

theorem Safe.andEnds {α : Type} {P Q : α → Prop} {r : Res α} {L : Prop} (h : Safe L dbg P r)
    (hq : EndsP Q r) : Safe L dbg (fun x => P x ∧ Q x) r := by
  rcases h with h | h
  · exact Or.inl (h.andEnds hq)
  · exact Or.inr h

theorem safeUncompressLow (hr : Room m s g) (h : ItOf s g it) (hn : it.begin_ < s.chunks)
    {out : List Nat} (hc : 1024 ≤ out.length) :
    Safe (Legal m s) dbg (fun r => r.2.length = out.length ∧ Low 1024 r.2)
      (uncompress_chunk dbg m it out 0) :=
  ((safeUncompressChunk hr h hn (by omega)).andEnds (uncompress_chunk_low ..)).mono
    (fun _ h => ⟨h.1.2.2, h.2⟩)

theorem safeMerge (hr : Room m s g) (h : ItOf s g it) (hn : it.begin_ < s.chunks)
    {tmp bitmap : List Nat} (ht : 1024 ≤ tmp.length) (hb : 1024 ≤ bitmap.length) (hl : Low 1024 bitmap) :
    Safe (Legal m s) dbg (fun r => r.1.length = tmp.length ∧ r.2.length = bitmap.length ∧ Low 1024 r.2)
      (uncompress_chunk_and_merge dbg m it tmp bitmap) := by
  refine Safe.mono (Safe.andEnds (P := fun r => r.1.length = tmp.length ∧ r.2.length = bitmap.length) ?_
    (uncompress_chunk_and_merge_ends _ _ _ _ _ hl)) (fun _ h => ⟨h.1.1, h.1.2, h.2⟩)
  unfold uncompress_chunk_and_merge
  refine (runType hr h hn).bindS ?_
  rintro t ⟨-, hty⟩
  have hw := h.win hr
  refine safeCase hty ?_ ?_ ?_ rfl
  · refine (runBlocks hr h hn).bindS (fun b hbl => ?_)
    unfold uncompress_sparse_chunk_and_merge
    refine (runUncompressZero hw hbl ht).bindS ?_
    rintro x ⟨h1, h2⟩
    exact (runOrWords (N := 1024) (runVec (by omega) h2) _ 0 bitmap (by decide)
      (by simp only [chunk_size_in_64bit_words]; omega)).bindS (fun o ho => Runs.safe (Runs.pure ⟨h1, ho⟩))
  · unfold uncompress_dense_chunk_and_merge
    exact (runOrWords (N := 1024) (runMem hw (Nat.le_refl _) (by omega)) _ 0 bitmap (by decide)
      (by simp only [chunk_size_in_64bit_words]; omega)).bindS (fun o ho => Runs.safe (Runs.pure ⟨rfl, ho⟩))
  · unfold uncompress_full_chunk_and_merge
    exact (runWrs _ (by rw [List.length_replicate]; simp only [chunk_size_in_64bit_words]; omega)).bindS
      (fun o ho => Runs.safe (Runs.pure ⟨rfl, ho⟩))

theorem safeAnd (hr : Room m s g) (h : ItOf s g it) (hn : it.begin_ < s.chunks)
    {tmp bitmap : List Nat} {c : Nat} (ht : 1024 ≤ tmp.length) (hb : 1024 ≤ bitmap.length)
    (hl : Low 1024 bitmap) :
    Safe (Legal m s) dbg
      (fun r => r.2.1.length = tmp.length ∧ r.2.2.length = bitmap.length ∧ Low 1024 r.2.2)
      (uncompress_chunk_and_intersect dbg m it tmp bitmap c) := by
  refine Safe.mono (Safe.andEnds
    (P := fun r => r.2.1.length = tmp.length ∧ r.2.2.length = bitmap.length) ?_
    (uncompress_chunk_and_intersect_ends _ _ _ _ _ _ hl)) (fun _ h => ⟨h.1.1, h.1.2, h.2⟩)
  unfold uncompress_chunk_and_intersect
  refine (runType hr h hn).bindS ?_
  rintro t ⟨-, hty⟩
  have hw := h.win hr
  refine safeCase hty ?_ ?_ (Runs.safe (Runs.pure ⟨rfl, rfl⟩)) rfl
  · refine (runBlocks hr h hn).bindS (fun b hbl => ?_)
    unfold uncompress_sparse_chunk_and_intersect
    refine (runUncompressZero hw hbl ht).bindS ?_
    rintro x ⟨h1, h2⟩
    exact (runAndWords (N := 1024) (runVec (by omega) h2) _ 0 _ bitmap (by decide)
      (by simp only [chunk_size_in_64bit_words]; omega)).bindS (fun o ho => Runs.safe (Runs.pure ⟨h1, ho⟩))
  · unfold uncompress_dense_chunk_and_intersect
    exact (runAndWords (N := 1024) (runMem hw (Nat.le_refl _) (by omega)) _ 0 _ bitmap (by decide)
      (by simp only [chunk_size_in_64bit_words]; omega)).bindS (fun o ho => Runs.safe (Runs.pure ⟨rfl, ho⟩))

/-! ## union_many -/

/-- each of the iterators belongs to a sequence of which enough can be read -/
def Each (m : Mem) (L : Prop) (g : Nat) (its : List It) : Prop :=
  ∀ it ∈ its, ∃ s, Room m s g ∧ (L → Legal m s) ∧ ItOf s g it

variable {L : Prop}

theorem Each.cons_iff {its : List It} : Each m L g (it :: its) ↔
    (∃ s, Room m s g ∧ (L → Legal m s) ∧ ItOf s g it) ∧ Each m L g its := by
  unfold Each
  simp

theorem ItOf.lt_of_id (h : ItOf s g it) {i : Nat} (hi : it.id m = .ok i) (hlt : i < 65536) :
    it.begin_ < s.chunks := by
  rw [← h.fin]
  exact has_next_iff.mp (It.has_next_of_id hi hlt)

def MSame (s t : MScratch) : Prop := t.bitmap.length = s.bitmap.length ∧ t.tmp.length = s.tmp.length

theorem safeMergeLoop {header : Nat} (hh : header < 65536) : ∀ (its : List It) (first : Bool) (s : MScratch),
    Each m L g its → 1024 ≤ s.bitmap.length → 1024 ≤ s.tmp.length →
    (first = false → Low 1024 s.bitmap) →
    Safe L dbg (fun r => MSame s r.2) (merge_loop dbg m header its first s)
  | [], _, _, _, _, _, _ => Runs.safe (Runs.ok ⟨rfl, rfl⟩)
  | it :: its, first, s, h, hb, ht, hl => by
    obtain ⟨⟨q, hr, hq, hit⟩, h'⟩ := Each.cons_iff.mp h
    unfold merge_loop
    obtain ⟨i, ei, -⟩ := runId hr hit
    rw [ei, ok_bind]
    split
    · next he =>
      subst he
      have hlt := hit.lt_of_id ei hh
      split
      · refine ((safeUncompressLow hr hit hlt hb).weaken hq).bind ?_
        rintro ⟨c, o⟩ ⟨o1, o2⟩
        simp only at o1 o2 ⊢
        refine (safeMergeLoop hh its false { s with bitmap := o } h' (by simp only; omega) ht
          (fun _ => o2)).mono ?_
        rintro ⟨_, t⟩ ⟨t1, t2⟩
        exact ⟨by rw [t1]; exact o1, t2⟩
      · next hf =>
        have hf : first = false := by cases first <;> simp_all
        refine ((safeMerge hr hit hlt ht hb (hl hf)).weaken hq).bind ?_
        rintro ⟨c, o⟩ ⟨o0, o1, o2⟩
        simp only at o0 o1 o2 ⊢
        refine (safeMergeLoop hh its first { s with tmp := c, bitmap := o } h' (by simp only; omega)
          (by simp only; omega) (fun _ => o2)).mono ?_
        rintro ⟨_, t⟩ ⟨t1, t2⟩
        exact ⟨by rw [t1]; exact o1, by rw [t2]; exact o0⟩
    · exact safeMergeLoop hh its first s h' hb ht hl

theorem runStepLoop {header : Nat} (hh : header < 65536) (hg : 65536 ≤ g) : ∀ (its : List It) (next : Nat),
    Each m L g its → Runs (fun r => Each m L g r.1) (step_loop m header its next)
  | [], _, h => Runs.ok h
  | it :: its, next, h => by
    obtain ⟨⟨q, hr, hq, hit⟩, h'⟩ := Each.cons_iff.mp h
    unfold step_loop
    obtain ⟨i, ei, -⟩ := runId hr hit
    rw [ei, ok_bind]
    have rest : ∀ it', ItOf q g it' → Runs (fun r : List It × Nat => Each m L g r.1) (do
        let j ← it'.id m
        let (its, next) ← step_loop m header its (if j < next then j else next)
        return (it' :: its, next)) := fun it' hit' => by
      refine (runId hr hit').bind (fun j _ => ?_)
      refine (runStepLoop hh hg its _ h').bind ?_
      rintro ⟨its', n⟩ hi
      exact Runs.pure (Each.cons_iff.mpr ⟨⟨q, hr, hq, hit'⟩, hi⟩)
    split
    · next he =>
      subst he
      exact (runNext hr hit hg (hit.lt_of_id ei hh)).bind (fun it' h => rest it' h.1)
    · rw [pure_bind]
      exact rest it hit

theorem left_mem {its : List It} (h : it ∈ its) : it.end_ - it.begin_ ≤ left its := by
  induction its with
  | nil => cases h
  | cons a its ih =>
    have e : left (a :: its) = (a.end_ - a.begin_) + left its := rfl
    rcases List.mem_cons.mp h with rfl | h
    · omega
    · have := ih h
      omega

theorem safeUnionManyLoop (hg : 65536 ≤ g) : ∀ (f : Nat) (its : List It) (header : Nat) (s : MScratch)
    (buf : List Nat) (out : Nat), Each m L g its → 1024 ≤ s.bitmap.length → 1024 ≤ s.tmp.length →
    (header < 65536 → ∃ it ∈ its, it.id m = .ok header) → left its < f →
    out + 65536 * left its ≤ buf.length →
    Safe L dbg (fun r => out ≤ r.1 ∧ r.1 ≤ out + 65536 * left its ∧ MSame s r.2.1 ∧
      r.2.2.length = buf.length) (union_many_loop dbg m f its header s buf out)
  | 0, _, _, _, _, _, _, _, _, _, hf, _ => absurd hf (Nat.not_lt_zero _)
  | f + 1, its, header, s, buf, out, h, hb, ht, hid, hf, hc => by
    unfold union_many_loop
    split
    · next hh =>
      simp only
      refine ((safeMergeLoop hh its true s h hb ht (fun h => (nomatch h))).andEnds
        (merge_loop_ends _ _ _ _ _ _ (fun h => (nomatch h)) (fun _ => hid hh))).bind ?_
      rintro ⟨b, s'⟩ ⟨⟨e1, e2⟩, e3⟩
      simp only at e1 e2 e3 ⊢
      have hpos : 1 ≤ left its := by
        obtain ⟨it, hm, hi⟩ := hid hh
        obtain ⟨q, hr, hq, hit⟩ := h it hm
        have := hit.lt_of_id hi hh
        have hle : it.end_ - it.begin_ ≤ left its := by
          exact left_mem hm
        rw [hit.fin] at hle
        omega
      obtain ⟨k, hk⟩ : ∃ k, left its = k + 1 := ⟨left its - 1, by omega⟩
      rw [hk] at hc
      refine (runDecodeBitmap (n := 1024) (runVec (by rw [e1]; exact hb) e3) (room_one hc)).bindS ?_
      rintro ⟨n, buf'⟩ ⟨n1, n2⟩
      simp only at n1 n2 ⊢
      refine ((runStepLoop hh hg its 65536 h).andEnds (step_loop_ends m header its 65536 hh
        (Nat.le_refl _))).bindS ?_
      rintro ⟨its', next⟩ ⟨hi', l1, l2, l3, l4⟩
      simp only at hi' l1 l2 l3 l4 ⊢
      have hlt := l2 (hid hh)
      have hmul : 65536 * left its' ≤ 65536 * k := Nat.mul_le_mul_left _ (by omega)
      have hexp : 65536 * (k + 1) = 65536 * k + 65536 := Nat.mul_succ _ _
      rw [hexp] at hc
      refine (safeUnionManyLoop hg f its' next s' buf' (out + n) hi' (by rw [e1]; exact hb) (by rw [e2]; exact ht) ?_
        (by omega) (by rw [n2]; omega)).mono ?_
      · intro hlt'
        rcases l4 with l4 | l4
        · omega
        · exact l4
      · rintro ⟨q, t, o⟩ ⟨q1, q2, ⟨q3, q4⟩, q5⟩
        simp only at q1 q2 q3 q4 q5 ⊢
        refine ⟨by omega, ?_, ⟨by omega, by omega⟩, by omega⟩
        rw [hk, hexp]
        omega
    · exact Runs.safe (Runs.ok ⟨Nat.le_refl _, Nat.le_add_right _ _, ⟨rfl, rfl⟩, rfl⟩)

theorem left_begin (ss : List SSeq) : left (ss.map SSeq.begin) = (ss.map SSeq.chunks).sum := by
  unfold left
  rw [List.map_map]
  rfl

theorem runMinFold : ∀ (its : List It) (best : Nat), Each m L g its →
    Runs (fun _ => True) (its.foldlM (fun best it => do
        let j ← it.id m
        return if j < best then j else best) best)
  | [], _, _ => Runs.pure trivial
  | it :: its, best, h => by
    obtain ⟨⟨q, hr, hq, hit⟩, h'⟩ := Each.cons_iff.mp h
    rw [List.foldlM_cons, bind_assoc]
    refine (runId hr hit).bind (fun j _ => ?_)
    rw [pure_bind]
    exact runMinFold its _ h'

theorem safeUnionMany (hg : 65536 ≤ g) {ss : List SSeq} {s : MScratch} {buf : List Nat} {out : Nat}
    (hne : ss ≠ []) (hr : ∀ q ∈ ss, Room m q g) (hb : 1024 ≤ s.bitmap.length) (ht : 1024 ≤ s.tmp.length)
    (hc : out + 65536 * (ss.map SSeq.chunks).sum ≤ buf.length) :
    Safe (∀ q ∈ ss, Legal m q) dbg (fun r => r.1 ≤ 65536 * (ss.map SSeq.chunks).sum ∧ MSame s r.2.1 ∧
      r.2.2.length = buf.length) (union_many dbg m ss s buf out) := by
  unfold union_many
  have he : Each m (∀ q ∈ ss, Legal m q) g (ss.map SSeq.begin) := by
    intro it hit
    obtain ⟨q, hq, rfl⟩ := List.mem_map.mp hit
    exact ⟨q, hr q hq, fun h => h q hq, ItOf.start q g⟩
  have hmin : Runs (fun _ => True) (min_id m (ss.map SSeq.begin)) := by
    cases ss with
    | nil => exact absurd rfl hne
    | cons q ss =>
      rw [List.map_cons] at he ⊢
      obtain ⟨⟨q', hr', -, hit⟩, h'⟩ := Each.cons_iff.mp he
      unfold min_id
      exact (runId hr' hit).bind (fun i _ => runMinFold _ _ h')
  refine (hmin.andEnds (min_id_ends ..)).bindS ?_
  rintro h ⟨-, hid⟩
  have hle := left_le (ss.map SSeq.begin)
  refine (safeUnionManyLoop hg _ _ h s buf out he hb ht (fun _ => hid) (by omega)
    (by rw [left_begin]; exact hc)).bind ?_
  rintro ⟨q, t, o⟩ ⟨q1, q2, q3, q4⟩
  rw [left_begin] at q2
  simp only at q1 q2 q3 q4 ⊢
  exact Runs.safe (Runs.pure ⟨by simp only; omega, q3, q4⟩)

end Sliced
