import Verif.Proof.TailUnion
import Verif.Props.Tail
import Verif.Props.Enumerator
import Verif.Props.Iterator
/-!
# The bytes behind the encoding that the enumerator needs (C72)

`decode` reads up to 31 bytes behind the encoding (C23), exactly those that `HasTail` names (C59).  The
enumerator (enumerator.hpp:12-38) decodes slice by slice into its own buffer, so what it needs depends
on how far it has been moved.
-/
namespace Sliced

/-- `TailTo xs pad k`: the blocks of the slices that begin with the element of rank `k` or with an
earlier one have their 16 or 40 bytes. -/
def TailTo (xs : List Nat) (pad k : Nat) : Prop :=
  ∀ i b, i < 65535 → b < 256 → (xs.filter (fun x => decide (x < 65536 * i))).length ≤ k →
    sparseSlice xs i = true → 1 ≤ blockCard xs (256 * i + b) → blockCard xs (256 * i + b) < 31 →
    blockStart xs i b + (if blockCard xs (256 * i + b) ≤ 8 then 16 else 40) ≤ encodedSize xs + pad

/-! ## In the representation -/

/-- the chunks whose first element has rank at most `k` are read without passing `E` -/
def ReachTo (cs : List Chk) (E base k : Nat) : Prop :=
  ∀ pre c post, cs = pre ++ c :: post → cardSum pre ≤ k → base + offSum pre + c.body.reach ≤ E

theorem ReachTo.le {cs : List Chk} {E base k n : Nat} (h : ReachTo cs E base n) (hk : k ≤ n) :
    ReachTo cs E base k := fun pre c post e hp => h pre c post e (by omega)

/-- the enumerator in front of element `k` -/
structure EnumOn (m : Mem) (E base : Nat) (cs : List Chk) (pte k : Nat) (pre : List Chk) (c : Chk)
    (post : List Chk) (e : Enum) : Prop where
  split : cs = pre ++ c :: post
  it : ItOn 0 m e.it (c :: post)
  data : e.it.data = base + offSum pre
  chunk : e.chunk = pre.length
  chunks : e.chunks = cs.length
  i : e.i + cardSum pre = k
  i_lt : e.i < c.card
  card : e.cardinality = c.card
  pte_ : e.past_the_end = pte
  has_next : e.has_next = true
  len : e.buf.length = 65536
  buf : ∀ i, i < c.card → e.buf[i]? = c.elems[i]?
  reach : ReachTo cs E base k

variable {dbg dbg' : Bool} {m : Mem} {s : SSeq} {lo E : Nat} {cs : List Chk}

theorem need_fits {c : Chk} (hw : c.WF) (hs : c.Small) : 0 + c.body.need ≤ 65536 := by
  have hc := hw.card_le
  have h23 := Body.need_le hw.2
  cases hb : c.body with
  | full => rw [Chk.card, hb] at hc; simp only [Body.need]; omega
  | dense vs => rw [Chk.card, hb] at hc; simp only [Body.need]; omega
  | sparse bs =>
    have := (hs bs hb).1
    rw [hb] at h23
    have : (Body.sparse bs).vals.length = (blkElems bs).length := rfl
    omega

/-- two splits of the same list at the same number of elements -/
theorem split_le {pre pre' post post' : List Chk} {c c' : Chk} (hp : ∀ d ∈ pre ++ c :: post, 0 < d.card)
    (h : pre ++ c :: post = pre' ++ c' :: post') (hle : cardSum pre' < cardSum pre + c.card) :
    pre' = pre ∧ c' = c ∨ cardSum pre' + c'.card ≤ cardSum pre ∧ pre'.length < pre.length := by
  induction pre generalizing pre' with
  | nil =>
    cases pre' with
    | nil => left; simp only [List.nil_append, List.cons.injEq] at h; exact ⟨rfl, h.1.symm⟩
    | cons d pre' =>
      simp only [List.nil_append, List.cons_append, List.cons.injEq] at h
      rw [cardSum_cons, cardSum_nil, h.1] at hle
      omega
  | cons d pre ih =>
    cases pre' with
    | nil =>
      simp only [List.nil_append, List.cons_append, List.cons.injEq] at h
      right
      rw [cardSum_nil, cardSum_cons, ← h.1]
      exact ⟨by omega, by simp⟩
    | cons d' pre' =>
      simp only [List.cons_append, List.cons.injEq] at h
      obtain ⟨rfl, h⟩ := h
      rw [cardSum_cons, cardSum_cons] at hle
      rcases ih (fun e he => hp e (List.mem_cons_of_mem _ he)) h (by omega) with ⟨rfl, rfl⟩ | ⟨h1, h2⟩
      · exact .inl ⟨rfl, rfl⟩
      · right
        rw [cardSum_cons, cardSum_cons, List.length_cons, List.length_cons]
        omega

theorem ChunksWF.pos {cs : List Chk} (hw : ChunksWF cs) : ∀ d ∈ cs, 0 < d.card :=
  fun d hd => (hw.2 d hd).card_pos

/-- nothing new has to be read before the first element of the next chunk -/
theorem ReachTo.same {base : Nat} {pre post : List Chk} {c : Chk} (hw : ChunksWF cs)
    (hsp : cs = pre ++ c :: post) {k n : Nat} (h : ReachTo cs E base k) (hk : cardSum pre ≤ k)
    (hn : n < cardSum pre + c.card) : ReachTo cs E base n := by
  intro pre' c' post' e hp
  subst hsp
  rcases split_le hw.pos e (by omega) with ⟨rfl, rfl⟩ | ⟨h1, -⟩
  · exact h _ _ _ e hk
  · exact h _ _ _ e (by omega)

/-- the first element of the next chunk needs what came before and that chunk -/
theorem ReachTo.step {base : Nat} {pre post : List Chk} {c d : Chk} (hw : ChunksWF cs)
    (hsp : cs = pre ++ c :: d :: post) {k : Nat} (h : ReachTo cs E base k) (hk : cardSum pre ≤ k)
    (hd : base + offSum (pre ++ [c]) + d.body.reach ≤ E) :
    ReachTo cs E base (cardSum pre + c.card) := by
  intro pre' c' post' e hp
  have hsp' : cs = (pre ++ [c]) ++ d :: post := by rw [hsp]; simp
  have hdp := hw.pos d (by rw [hsp]; simp)
  have hcp : cardSum (pre ++ [c]) = cardSum pre + c.card := by
    rw [cardSum_append, cardSum_cons, cardSum_nil]; omega
  rcases split_le (by rw [← hsp']; exact hw.pos) (hsp'.symm.trans e) (by omega) with ⟨rfl, rfl⟩ | ⟨h1, -⟩
  · exact hd
  · have hc' := hw.pos c' (by rw [e]; simp)
    exact (h.same hw hsp hk (n := cardSum pre') (by omega)) _ _ _ e (Nat.le_refl _)

theorem Enum.init_tail (hF : Fence m lo E) (h : SeqAt 0 m s cs) (h1 : lo ≤ s.data)
    (h2 : s.data + offSum cs ≤ E) (hs : ∀ c ∈ cs, c.Small) {buf : List Nat} (hbuf : buf.length = 65536)
    (pte : Nat) :
    (∃ e c post, Enum.init dbg m buf s pte = .ok e ∧ EnumOn m E s.data cs pte 0 [] c post e) ∨
    (Enum.init dbg m buf s pte = .error .ub ∧ ¬ ReachTo cs E s.data 0) := by
  cases cs with
  | nil => exact absurd rfl h.ne
  | cons c post =>
    have hit := h.begin
    rw [offSum_cons] at h2
    have hw : ChunksWF (c :: post) := hit.wf
    obtain ⟨k1, k2⟩ := decode_chunk_tail (dbg := dbg) (p := 0) (out := buf) hF hit h1
      (by show s.data + _ ≤ E; omega) (Nat.zero_le _)
    have hneed := need_fits hit.wf.head (hs c (by simp))
    by_cases hr : s.data + c.body.reach ≤ E
    · left
      obtain ⟨o, e1, w⟩ := k1 ⟨by rw [hbuf]; exact hneed, hr⟩
      have hval : Enum.init dbg m buf s pte = .ok ⟨s.begin, 0, s.chunks, 0, c.card, pte, true, o⟩ := by
        unfold Enum.init
        simp only [hit.cardinality, e1, ok_bind, pure_ok]
      refine ⟨_, c, post, hval, rfl, hit, rfl, rfl, h.chunks, rfl, hit.wf.head.card_pos, rfl, rfl, rfl,
        w.1.trans hbuf, ?_, ?_⟩
      · intro i hi
        have := w.2.2.1 i (by rw [Chk.elems_length]; exact hi)
        rwa [Nat.zero_add] at this
      · intro pre' c' post' e hp
        have hcp := hw.pos c (by simp)
        rcases split_le (pre := []) hw.pos e (by rw [cardSum_nil]; omega) with ⟨rfl, rfl⟩ | ⟨-, h4⟩
        · exact hr
        · simp at h4
    · right
      refine ⟨?_, fun hR => hr (hR [] c post rfl (Nat.le_refl _))⟩
      unfold Enum.init
      simp only [hit.cardinality, k2 (fun hc => hr hc.2), ok_bind]
      rfl

theorem EnumOn.next {base pte k : Nat} {pre post : List Chk} {c : Chk} {e : Enum} (hF : Fence m lo E)
    (hw : ChunksWF cs) (hs : ∀ c ∈ cs, c.Small) (h1 : lo ≤ base) (h2 : base + offSum cs ≤ E)
    (h : EnumOn m E base cs pte k pre c post e) :
    (∃ e', e.next dbg m = .ok e' ∧
      ((∃ pre' c' post', EnumOn m E base cs pte (k + 1) pre' c' post' e') ∨
        (EnumEnd pte (k + 1) e' ∧ k + 1 = cardSum cs ∧ ∀ n, ReachTo cs E base n))) ∨
    (e.next dbg m = .error .ub ∧ ¬ ReachTo cs E base (k + 1)) := by
  have hmem : c ∈ cs := by rw [h.split]; simp
  have hc := (hw.2 c hmem).card_le
  have hlen := hw.length_le
  have hil := h.i_lt
  have hi := h.i
  have hcs : cs.length = pre.length + 1 + post.length := by rw [h.split]; simp; omega
  have hsum : cardSum cs = cardSum pre + (c.card + cardSum post) := by
    rw [h.split, cardSum_append, cardSum_cons]
  have hu : u32 (e.i + 1) = e.i + 1 := u32_lt (by omega)
  have hch : u32 (e.chunk + 1) = pre.length + 1 := by rw [h.chunk]; exact u32_lt (by omega)
  unfold Enum.next
  simp only [hu, h.card, hch, h.chunks]
  by_cases h3 : e.i + 1 = c.card
  · rw [if_pos h3]
    cases hp : post with
    | nil =>
      subst hp
      rw [if_pos (by rw [hcs]; rfl)]
      refine .inl ⟨_, rfl, Or.inr ⟨⟨?_, ?_, h.pte_, rfl, h.len⟩, ?_, ?_⟩⟩
      · have := h.card
        simp only; omega
      · simp only; omega
      · rw [hsum, cardSum_nil]; omega
      · intro n pre' c' post' e' _
        have hc' := hw.pos c' (by rw [e']; simp)
        have hs' : cardSum cs = cardSum pre' + (c'.card + cardSum post') := by
          rw [e', cardSum_append, cardSum_cons]
        rw [cardSum_nil] at hsum
        exact (h.reach.same hw h.split (by omega) (n := cardSum pre') (by omega)) _ _ _ e' (Nat.le_refl _)
    | cons d post' =>
      subst hp
      rw [if_neg (by rw [hcs, List.length_cons]; omega)]
      obtain ⟨it', en, hit', -, -, -, -, hdat⟩ := h.it.next
      have hdat' : it'.data = base + offSum (pre ++ [c]) := by
        rw [hdat, h.data, offSum_append, offSum_cons, offSum_nil]; omega
      have hoff : offSum cs = offSum (pre ++ [c]) + (d.body.off + offSum post') := by
        rw [h.split, offSum_append, offSum_append, offSum_cons, offSum_cons, offSum_cons, offSum_nil]
        omega
      obtain ⟨k1, k2⟩ := decode_chunk_tail (dbg := dbg) (p := 0) (out := e.buf) hF hit'
        (by omega) (by omega) (Nat.zero_le _)
      have hneed := need_fits hit'.wf.head (hs d (by rw [h.split]; simp))
      by_cases hr : it'.data + d.body.reach ≤ E
      · left
        obtain ⟨o, e1, w⟩ := k1 ⟨by rw [h.len]; exact hneed, hr⟩
        simp only [en, hit'.cardinality, e1, ok_bind, pure_ok]
        have hR := h.reach.step hw h.split (by omega) (by omega)
        refine ⟨_, rfl, Or.inl ⟨pre ++ [c], d, post', ?_, hit', hdat', ?_, rfl, ?_, ?_, rfl, h.pte_,
          h.has_next, w.1.trans h.len, ?_, ?_⟩⟩
        · rw [h.split]; simp
        · simp
        · simp only [cardSum_append, cardSum_cons, cardSum_nil]; omega
        · exact hit'.wf.head.card_pos
        · intro i hi
          have := w.2.2.1 i (by rw [Chk.elems_length]; exact hi)
          rwa [Nat.zero_add] at this
        · rw [show k + 1 = cardSum pre + c.card by omega]; exact hR
      · right
        refine ⟨?_, fun hR => hr ?_⟩
        · simp only [en, hit'.cardinality, k2 (fun hc => hr hc.2), ok_bind]
          rfl
        · have := hR (pre ++ [c]) d post' (by rw [h.split]; simp)
            (by rw [cardSum_append, cardSum_cons, cardSum_nil]; omega)
          omega
  · rw [if_neg h3]
    refine .inl ⟨_, rfl, Or.inl ⟨pre, c, post, h.split, h.it, h.data, h.chunk, rfl, ?_, ?_, rfl, h.pte_,
      h.has_next, h.len, h.buf, ?_⟩⟩
    · simp only; omega
    · simp only; omega
    · exact h.reach.same hw h.split (by omega) (by omega)

theorem Enum.nexts_tail {base pte : Nat} (hF : Fence m lo E) (hw : ChunksWF cs)
    (hs : ∀ c ∈ cs, c.Small) (h1 : lo ≤ base) (h2 : base + offSum cs ≤ E)
    (n : Nat) : ∀ {k : Nat} {e : Enum}, k + n < 4294967296 →
    ((∃ pre c post, EnumOn m E base cs pte k pre c post e) ∨
      (EnumEnd pte k e ∧ cardSum cs ≤ k ∧ ∀ n, ReachTo cs E base n)) →
    (∃ e', Enum.nexts dbg m n e = .ok e' ∧
      ((∃ pre c post, EnumOn m E base cs pte (k + n) pre c post e') ∨
        (EnumEnd pte (k + n) e' ∧ cardSum cs ≤ k + n ∧ ∀ n, ReachTo cs E base n))) ∨
    (Enum.nexts dbg m n e = .error .ub ∧ ¬ ReachTo cs E base (k + n)) := by
  induction n with
  | zero => intro k e _ h; exact .inl ⟨e, rfl, h⟩
  | succ n ih =>
    intro k e hk h
    have key : (∃ e', e.next dbg m = .ok e' ∧
      ((∃ pre c post, EnumOn m E base cs pte (k + 1) pre c post e') ∨
        (EnumEnd pte (k + 1) e' ∧ cardSum cs ≤ k + 1 ∧ ∀ n, ReachTo cs E base n))) ∨
      (e.next dbg m = .error .ub ∧ ¬ ReachTo cs E base (k + 1)) := by
      rcases h with ⟨pre, c, post, h⟩ | ⟨h, hc, hR⟩
      · rcases h.next (dbg := dbg) hF hw hs h1 h2 with ⟨e', e1, h3 | ⟨h3, h4, h5⟩⟩ | h3
        · exact .inl ⟨e', e1, Or.inl h3⟩
        · exact .inl ⟨e', e1, Or.inr ⟨h3, by omega, h5⟩⟩
        · exact .inr h3
      · obtain ⟨e', e1, h3⟩ := h.next (dbg := dbg) (m := m) (by omega)
        exact .inl ⟨e', e1, Or.inr ⟨h3, by omega, hR⟩⟩
    rcases key with ⟨e', e1, h3⟩ | ⟨e1, h3⟩
    · have := ih (by omega) h3
      rw [show k + 1 + n = k + (n + 1) by omega] at this
      simp only [Enum.nexts, e1, ok_bind]
      exact this
    · right
      refine ⟨?_, fun hR => h3 (hR.le (by omega))⟩
      simp only [Enum.nexts, e1]
      rfl

/-! ## From the representation to the specification -/

theorem cardSum_pre {xs : List Nat} (hv : Valid xs) {pre post : List Chk} {c : Chk}
    (h : chunksOf xs = pre ++ c :: post) :
    cardSum pre = (xs.filter (fun x => decide (x < 65536 * c.id))).length := by
  have hf := filter_before (pre := pre) (c := c) (post := post) (by rw [← h]; exact chunksOf_wf hv.2.1)
  rw [← h, seqElems_chunksOf hv] at hf
  rw [← seqElems_length, ← hf]
  rw [List.filter_congr (q := fun x => decide (x < 65536 * c.id))]
  intro x _
  rw [decide_eq_decide]
  omega

theorem reachTo_iff {xs : List Nat} (hv : Valid xs) (base pad k : Nat) :
    ReachTo (chunksOf xs) (base + offSum (chunksOf xs) + pad) base k ↔ TailTo xs pad k := by
  have hw := chunksOf_wf hv.2.1
  have hpre : ∀ {pre post : List Chk} {c : Chk}, chunksOf xs = pre ++ c :: post → c.id < 65535 →
      offSum pre = offSum (chunksTo xs c.id) := by
    intro pre post c h hi
    have h1 := sliceStart_chunk h hw
    unfold sliceStart dirSize at h1
    rw [← offSum_chunksTo xs (by omega), chunksOf_length] at h1
    omega
  constructor
  · intro h i b hi hb hk hsp h1 h31
    have hcv : chunkVals xs i ≠ [] := by
      intro h
      have hbv := blockVals_chunkVals xs i hb
      rw [h] at hbv
      simp [blockVals] at hbv
      omega
    have hm : (⟨i, bodyOf (chunkVals xs i)⟩ : Chk) ∈ chunksOf xs := mem_chunksTo.mpr ⟨hi, rfl, hcv⟩
    obtain ⟨pre, post, e⟩ := List.append_of_mem hm
    have h2 := h pre _ post e (by rw [cardSum_pre hv e]; exact hk)
    rw [hpre e hi] at h2
    exact (slice_tail_iff xs pad hi hcv).mp (by simp only at h2; omega) b hb hsp h1 h31
  · intro h pre c post e hk
    have hm : c ∈ chunksTo xs 65535 := by
      show c ∈ chunksOf xs
      rw [e]; simp
    obtain ⟨hi, hb, hcv⟩ := mem_chunksTo.mp hm
    rw [cardSum_pre hv e] at hk
    have := (slice_tail_iff xs pad hi hcv).mpr
      (fun b hb hsp h1 h31 => h c.id b hi hb hk hsp h1 h31)
    rw [hpre e hi, hb]
    omega

theorem EnumOn.value {base pte k : Nat} {pre post : List Chk} {c : Chk} {e : Enum}
    (h : EnumOn m E base cs pte k pre c post e) :
    ∃ v, e.value = .ok v ∧ (seqElems cs)[k]? = some v := by
  have h1 := h.buf e.i h.i_lt
  have hil := h.i_lt
  have hlt : e.i < c.elems.length := by rw [Chk.elems_length]; exact h.i_lt
  rw [List.getElem?_eq_getElem hlt] at h1
  refine ⟨c.elems[e.i], ?_, ?_⟩
  · unfold Enum.value
    rw [h.has_next, if_pos rfl]
    exact rdv_of h1
  · have hi := h.i
    rw [h.split, seqElems_append, seqElems_cons, List.getElem?_append_right
      (by rw [seqElems_length]; omega), List.getElem?_append_left (by
        rw [seqElems_length, Chk.elems_length]; omega), seqElems_length,
      show k - cardSum pre = e.i by omega, List.getElem?_eq_getElem hlt]

theorem Enum.collect_ok {pte : Nat} : ∀ {L : List Nat} {e : Enum} {fuel : Nat},
    (∀ k, k ≤ L.length → ∃ e', Enum.nexts dbg m k e = .ok e' ∧ e'.has_next = decide (k < L.length) ∧
      e'.value = .ok (L[k]?.getD pte)) → L.length < fuel → Enum.collect dbg m fuel e = .ok L := by
  intro L
  induction L with
  | nil =>
    intro e fuel h hf
    obtain ⟨fuel, rfl⟩ : ∃ f, fuel = f + 1 := ⟨fuel - 1, by omega⟩
    obtain ⟨e', e1, h1, -⟩ := h 0 (Nat.le_refl _)
    cases e1
    unfold Enum.collect
    rw [h1, if_neg (by simp)]
  | cons x L ih =>
    intro e fuel h hf
    rw [List.length_cons] at hf
    obtain ⟨fuel, rfl⟩ : ∃ f, fuel = f + 1 := ⟨fuel - 1, by omega⟩
    obtain ⟨e', e1, h1, h2⟩ := h 0 (Nat.zero_le _)
    cases e1
    obtain ⟨e2, e3, -⟩ := h 1 (by simp)
    have e4 : e.next dbg m = .ok e2 := by
      simp only [Enum.nexts] at e3
      cases hn : e.next dbg m with
      | error _ => rw [hn] at e3; exact nomatch e3
      | ok e5 => rw [hn] at e3; exact e3
    have := ih (e := e2) (fuel := fuel) (by
      intro k hk
      obtain ⟨e', h3, h4, h5⟩ := h (k + 1) (by simp; omega)
      simp only [Enum.nexts, e4, ok_bind] at h3
      refine ⟨e', h3, ?_, by rw [h5]; rfl⟩
      rw [h4, decide_eq_decide, List.length_cons]
      omega) (by omega)
    unfold Enum.collect
    rw [h1, if_pos (by simp), h2]
    simp only [ok_bind, e4, this]
    rfl

theorem Enum.collect_ub : ∀ {j : Nat} {e : Enum} {fuel : Nat},
    (∀ k, k < j → ∃ e', Enum.nexts dbg m k e = .ok e' ∧ e'.has_next = true ∧ ∃ v, e'.value = .ok v) →
    Enum.nexts dbg m j e = .error .ub → j ≤ fuel → Enum.collect dbg m fuel e = .error .ub := by
  intro j
  induction j with
  | zero => intro e fuel _ h; exact nomatch h
  | succ j ih =>
    intro e fuel h hu hf
    obtain ⟨fuel, rfl⟩ : ∃ f, fuel = f + 1 := ⟨fuel - 1, by omega⟩
    obtain ⟨e', e1, h1, v, h2⟩ := h 0 (by omega)
    cases e1
    unfold Enum.collect
    rw [h1, if_pos rfl, h2, ok_bind]
    simp only [Enum.nexts] at hu
    cases hn : e.next dbg m with
    | error x =>
      rw [hn] at hu
      cases hu
      rfl
    | ok e2 =>
      rw [hn, ok_bind] at hu
      rw [ok_bind, ih (e := e2) (fuel := fuel) (by
        intro k hk
        obtain ⟨e', h3, h4⟩ := h (k + 1) (by omega)
        simp only [Enum.nexts, hn, ok_bind] at h3
        exact ⟨e', h3, h4⟩) hu (by omega)]
      rfl

theorem least_of {P : Nat → Prop} : ∀ {n : Nat}, ¬ P n → ∃ j, j ≤ n ∧ ¬ P j ∧ ∀ k, k < j → P k := by
  intro n
  induction n using Nat.strongRecOn with
  | ind n ih =>
    intro h
    by_cases hall : ∀ k, k < n → P k
    · exact ⟨n, Nat.le_refl _, h, hall⟩
    · obtain ⟨k, hk⟩ := Classical.not_forall.mp hall
      obtain ⟨hk1, hk2⟩ := Classical.not_imp.mp hk
      obtain ⟨j, h1, h2⟩ := ih k hk1 hk2
      exact ⟨j, by omega, h2⟩

/-! ## The theorems -/

section
variable {xs : List Nat} {pad a : Nat} {bytes : List UInt8}

/-- C72: an encoding at `a`, followed by exactly `pad` readable bytes.  Starting the enumerator and
moving it `k` times is right if the slices that begin with the element of rank `k` or before have their
tails, and undefined otherwise. -/
theorem C72_enumerator (hv : Valid xs) (hs : StoredAt dbg xs pad m a bytes s)
    (hend : m (a + bytes.length + pad) = none) (pte : Nat) {buf : List Nat} (hbuf : buf.length = 65536)
    {k : Nat} (hk : k < 4294967296) :
    (TailTo xs pad k → ∃ e e', Enum.init dbg' m buf s pte = .ok e ∧ Enum.nexts dbg' m k e = .ok e' ∧
      e'.has_next = decide (k < xs.length) ∧ e'.value = .ok (xs[k]?.getD pte)) ∧
    (¬ TailTo xs pad k → (Enum.init dbg' m buf s pte >>= Enum.nexts dbg' m k) = .error .ub) := by
  obtain ⟨hlen, hd⟩ := hs.places hv
  have hF := hs.fence hend
  rw [encodedSize_eq] at hlen
  have hE : a + bytes.length + pad = s.data + offSum (chunksOf xs) + pad := by omega
  rw [hE] at hF
  have hr : SeqAt 0 m s (chunksOf xs) := by
    obtain ⟨⟨st, h1⟩, h2, h3, h4⟩ := hs
    have h0 : Stored dbg xs 0 m s :=
      ⟨a, st, bytes, h1, h2, fun i hi => absurd hi (Nat.not_lt_zero i), h4⟩
    exact h0.repr hv
  have hsm := chunksOf_small hv.2.1
  have hx := seqElems_chunksOf hv
  have htot : cardSum (chunksOf xs) = xs.length := by rw [← seqElems_length, hx]
  rw [← reachTo_iff hv s.data pad k]
  rcases Enum.init_tail (dbg := dbg') hF hr (by omega) (by omega) hsm hbuf pte with
    ⟨e, c, post, e1, h1⟩ | ⟨e1, h1⟩
  · rcases Enum.nexts_tail (dbg := dbg') hF hr.wf hsm (by omega) (by omega) k (k := 0) (by omega)
      (Or.inl ⟨_, _, _, h1⟩) with ⟨e', e2, h2⟩ | ⟨e2, h2⟩
    · rw [Nat.zero_add] at h2
      have hR : ReachTo (chunksOf xs) (s.data + offSum (chunksOf xs) + pad) s.data k := by
        rcases h2 with ⟨pre, c, post, h⟩ | ⟨-, -, h⟩
        · exact h.reach
        · exact h k
      refine ⟨fun _ => ⟨e, e', e1, e2, ?_⟩, fun hn => absurd hR hn⟩
      rcases h2 with ⟨pre, c, post, h⟩ | ⟨h, hge, -⟩
      · obtain ⟨v, hval, hget⟩ := h.value
        rw [hx] at hget
        have : k < xs.length := (List.getElem?_eq_some_iff.mp hget).1
        refine ⟨?_, ?_⟩
        · rw [h.has_next, decide_eq_true this]
        · rw [hval, hget]; rfl
      · refine ⟨?_, ?_⟩
        · rw [h.has_next, decide_eq_false (by omega)]
        · unfold Enum.value
          rw [h.has_next, List.getElem?_eq_none (by omega), h.pte_]; rfl
    · rw [Nat.zero_add] at h2
      exact ⟨fun hR => absurd hR h2, fun _ => by rw [e1, ok_bind, e2]⟩
  · refine ⟨fun hR => absurd (hR.le (Nat.zero_le _)) h1, fun _ => ?_⟩
    rw [e1]
    rfl

/-- C72: moving it once more can only need more. -/
theorem C72_mono {pad' k k' : Nat} (h : TailTo xs pad k) (hp : pad ≤ pad') (hk : k' ≤ k) :
    TailTo xs pad' k' := by
  intro i b hi hb hf hsp h1 h31
  have := h i b hi hb (by omega) hsp h1 h31
  omega

/-- C72: to reach the last element, the enumerator needs what `decode` needs. -/
theorem C72_all {k : Nat} (hk : xs.length ≤ k + 1) : TailTo xs pad k ↔ HasTail xs pad := by
  constructor
  · intro h i b hi hb hsp h1 h31
    refine h i b hi hb ?_ hsp h1 h31
    have hlt : (xs.filter (fun x => decide (x < 65536 * i))).length < xs.length := by
      refine Nat.lt_of_le_of_ne (List.length_filter_le _ _) (fun he => ?_)
      have hall := List.length_filter_eq_length_iff.mp he
      unfold blockCard at h1
      obtain ⟨x, hx⟩ := List.exists_mem_of_length_pos h1
      obtain ⟨hx, hd⟩ := List.mem_filter.mp hx
      have h2 := hall x hx
      rw [decide_eq_true_eq] at h2
      rw [beq_iff_eq] at hd
      omega
    omega
  · intro h i b hi hb _ hsp h1 h31
    exact h i b hi hb hsp h1 h31

/-- C72: so the loop over all elements is right if the list has its tail, and undefined otherwise. -/
theorem C72_collect (hv : Valid xs) (hs : StoredAt dbg xs pad m a bytes s)
    (hend : m (a + bytes.length + pad) = none) (pte : Nat) {buf : List Nat} (hbuf : buf.length = 65536)
    {fuel : Nat} (hf : xs.length < fuel) :
    (HasTail xs pad → (Enum.init dbg' m buf s pte >>= Enum.collect dbg' m fuel) = .ok xs) ∧
    (¬ HasTail xs pad → (Enum.init dbg' m buf s pte >>= Enum.collect dbg' m fuel) = .error .ub) := by
  have hx32 : xs.length ≤ 4294901760 := sorted_length_le' hv.2.1 hv.2.2
  have key := fun k hk => C72_enumerator (dbg' := dbg') hv hs hend pte hbuf (k := k) hk
  have hpos := List.length_pos_iff.mpr hv.1
  constructor
  · intro ht
    have hT : ∀ k, TailTo xs pad k := fun k i b hi hb _ hsp h1 h31 => ht i b hi hb hsp h1 h31
    obtain ⟨e, -, e1, -⟩ := (key 0 (by omega)).1 (hT 0)
    rw [e1, ok_bind]
    refine Enum.collect_ok (pte := pte) ?_ hf
    intro k hk
    obtain ⟨e2, e', e3, h1, h2, h3⟩ := (key k (by omega)).1 (hT k)
    rw [e1] at e3
    cases e3
    exact ⟨e', h1, h2, h3⟩
  · intro hn
    rw [← C72_all (k := xs.length - 1) (by omega)] at hn
    obtain ⟨j, hj, hnj, hlt⟩ := least_of (P := fun k => TailTo xs pad k) hn
    have hu := (key j (by omega)).2 hnj
    cases hi : Enum.init dbg' m buf s pte with
    | error x =>
      rw [hi] at hu
      cases hu
      rfl
    | ok e =>
      rw [hi, ok_bind] at hu
      rw [ok_bind]
      refine Enum.collect_ub ?_ hu (by omega)
      intro k hk
      obtain ⟨e2, e', e3, h1, h2, h3⟩ := (key k (by omega)).1 (hlt k hk)
      rw [hi] at e3
      cases e3
      exact ⟨e', h1, by rw [h2, decide_eq_true (by omega)], _, h3⟩

/-- C72: with 31 bytes behind the encoding it is right for every number of moves. -/
theorem C72_31 (xs : List Nat) (k : Nat) : TailTo xs 31 k :=
  fun i b hi hb _ hsp h1 h31 => C59_31 xs i b hi hb hsp h1 h31

/-! ### Two slices with one element each -/

theorem pair_valid {x y : Nat} (hx : x < 65536) (hy : 65536 ≤ y) (hy' : y < 131072) : Valid [x, y] := by
  refine ⟨by simp, ?_, ?_⟩
  · simp only [List.pairwise_cons, List.mem_singleton, forall_eq, List.not_mem_nil, false_implies,
      implies_true, List.Pairwise.nil, and_true]
    omega
  · intro z hz
    simp only [List.mem_cons, List.not_mem_nil, or_false] at hz
    omega

theorem pair_blockCard (x y k : Nat) (h : x / 256 ≠ y / 256) :
    blockCard [x, y] k = if k = x / 256 ∨ k = y / 256 then 1 else 0 := by
  unfold blockCard
  simp only [List.filter_cons, List.filter_nil, beq_iff_eq]
  by_cases h1 : x / 256 = k
  · rw [if_pos h1, if_neg (by omega), if_pos (by omega)]; rfl
  · rw [if_neg h1]
    by_cases h2 : y / 256 = k
    · rw [if_pos h2, if_pos (by omega)]; rfl
    · rw [if_neg h2, if_neg (by omega)]; rfl

theorem pair_sliceCard {x y : Nat} (hx : x < 65536) (hy : 65536 ≤ y) (hy' : y < 131072) (k : Nat) :
    sliceCard [x, y] k = if k < 2 then 1 else 0 := by
  unfold sliceCard
  simp only [List.filter_cons, List.filter_nil, beq_iff_eq]
  by_cases h1 : x / 65536 = k
  · rw [if_pos h1, if_neg (by omega), if_pos (by omega)]; rfl
  · rw [if_neg h1]
    by_cases h2 : y / 65536 = k
    · rw [if_pos h2, if_pos (by omega)]; rfl
    · rw [if_neg h2, if_neg (by omega)]; rfl

theorem pair_slicesOf {x y : Nat} (hx : x < 65536) (hy : 65536 ≤ y) (hy' : y < 131072) :
    slicesOf [x, y] = [0, 1] := by
  refine sorted_ext (slicesOf_sorted _) (by decide) (fun k => ?_)
  simp only [slicesOf, List.mem_filter, List.mem_range, decide_eq_true_eq, pair_sliceCard hx hy hy',
    List.mem_cons, List.not_mem_nil, or_false]
  split <;> omega

/-- a slice with one block of one element -/
theorem lone_block {xs : List Nat} {i b : Nat} (hb : b < 256)
    (h : ∀ j, j < 256 → blockCard xs (256 * i + j) = if j = b then 1 else 0) :
    sparseCost xs i = 3 ∧ sliceBlocks xs i = 1 ∧ blockStart xs i b = sliceStart xs i + 2 := by
  have h1 : sliceBlocks xs i = 1 := by
    unfold sliceBlocks
    rw [eq_singleton (L := (List.range 256).filter _) (k := b) (List.pairwise_lt_range.filter _)]
    · rfl
    · simp only [List.mem_filter, List.mem_range, decide_eq_true_eq]
      exact ⟨hb, by rw [h b hb, if_pos rfl]; omega⟩
    · intro j hj
      simp only [List.mem_filter, List.mem_range, decide_eq_true_eq] at hj
      have h2 := hj.2
      rw [h j hj.1] at h2
      split at h2
      · assumption
      · exact absurd rfl h2
  refine ⟨?_, h1, ?_⟩
  · unfold sparseCost
    rw [sum_range_single hb]
    · rw [h b hb, if_pos rfl]; rfl
    · intro j hj hn
      rw [h j hj, if_neg hn]; rfl
  · have h0 : (List.range b).map (fun j => blockData (blockCard xs (256 * i + j)))
        = (List.range b).map (fun _ => 0) := by
      refine List.map_congr_left (fun j hj => ?_)
      have := List.mem_range.mp hj
      rw [h j (by omega), if_neg (by omega)]
      rfl
    unfold blockStart
    rw [h1, h0, sum_zeros]

/-- C72: for a list of one element in each of the first two slices, 12 bytes behind the encoding are
enough to be in front of the first element, and 15 are needed for the second. -/
theorem C72_pair {x y : Nat} (hx : x < 65536) (hy : 65536 ≤ y) (hy' : y < 131072) (pad k : Nat) :
    TailTo [x, y] pad k ↔ if k = 0 then 12 ≤ pad else 15 ≤ pad := by
  have hbc := fun j => pair_blockCard x y j (by omega)
  have hsc := pair_sliceCard hx hy hy'
  have hso := pair_slicesOf hx hy hy'
  obtain ⟨c0, -, b0⟩ := lone_block (xs := [x, y]) (i := 0) (b := x / 256) (by omega) (by
    intro j hj
    rw [hbc]
    by_cases h : j = x / 256
    · rw [if_pos h, if_pos (by omega)]
    · rw [if_neg h, if_neg (by omega)])
  obtain ⟨c1, -, b1⟩ := lone_block (xs := [x, y]) (i := 1) (b := y / 256 - 256) (by omega) (by
    intro j hj
    rw [hbc]
    by_cases h : j = y / 256 - 256
    · rw [if_pos h, if_pos (by omega)]
    · rw [if_neg h, if_neg (by omega)])
  have s0 : sparseSlice [x, y] 0 = true := by
    unfold sparseSlice; rw [c0, hsc]; rfl
  have s1 : sparseSlice [x, y] 1 = true := by
    unfold sparseSlice; rw [c1, hsc]; rfl
  have y0 : sliceBytes [x, y] 0 = 3 := by
    unfold sliceBytes; rw [c0, hsc]; rfl
  have y1 : sliceBytes [x, y] 1 = 3 := by
    unfold sliceBytes; rw [c1, hsc]; rfl
  have t0 : sliceStart [x, y] 0 = 18 := by
    unfold sliceStart; rw [hso]; rfl
  have t1 : sliceStart [x, y] 1 = 21 := by
    unfold sliceStart
    rw [hso, show [0, 1].filter (fun j => decide (j < 1)) = [0] from rfl, List.map_cons, y0]; rfl
  have es : encodedSize [x, y] = 24 := by
    unfold encodedSize
    rw [hso, List.map_cons, List.map_cons, y0, y1]; rfl
  have f0 : ([x, y].filter (fun z => decide (z < 65536 * 0))).length = 0 := by simp
  have f1 : ([x, y].filter (fun z => decide (z < 65536 * 1))).length = 1 := by
    rw [List.filter_cons_of_pos (by rw [decide_eq_true_eq]; omega),
      List.filter_cons_of_neg (by rw [decide_eq_true_eq]; omega)]
    rfl
  have a0 : blockCard [x, y] (256 * 0 + x / 256) = 1 := by rw [hbc, if_pos (by omega)]
  have a1 : blockCard [x, y] (256 * 1 + (y / 256 - 256)) = 1 := by rw [hbc, if_pos (by omega)]
  constructor
  · intro h
    have h0 := h 0 (x / 256) (by omega) (by omega) (by rw [f0]; omega) s0 (by rw [a0]; omega)
      (by rw [a0]; omega)
    rw [a0, b0, t0, es, if_pos (by omega)] at h0
    split
    · omega
    · have h1 := h 1 (y / 256 - 256) (by omega) (by omega) (by rw [f1]; omega) s1 (by rw [a1]; omega)
        (by rw [a1]; omega)
      rw [a1, b1, t1, es, if_pos (by omega)] at h1
      omega
  · intro h i b hi hb hf hsp h1 h31
    rw [hbc] at h1
    have hk : i = 0 ∧ b = x / 256 ∨ i = 1 ∧ b = y / 256 - 256 := by
      split at h1 <;> omega
    rcases hk with ⟨hi', hb'⟩ | ⟨hi', hb'⟩
    · rw [hi', hb', a0, b0, t0, es, if_pos (by omega)]
      split at h <;> omega
    · rw [hi', f1] at hf
      rw [if_neg (by omega)] at h
      rw [hi', hb', a1, b1, t1, es, if_pos (by omega)]
      omega

end

/-! ## A memory mapped index -/

section
variable {params : Params} {univ : Nat} {lists : List (List Nat)} {offs : List Nat}
  {seqs : List UInt8} {st : Stats}

/-- C72: build a collection, save it, map the file with pages of `P` bytes.  Enumerating the `i`-th
sequence up to the element of rank `k` is right if the slices up to there have their tails inside the
last page of the file, and undefined otherwise. -/
theorem C72_mapped (hg : GoodCollection params univ lists)
    (hb : build_index dbg params (collection univ lists) = .ok (offs, seqs, st))
    (hsz : (save_index offs seqs).length < 18446744073709551616) (P a : Nat) :
    ∃ idx, SIndex.mmap (mapped P a (save_index offs seqs)) a = .ok idx ∧
      ∀ i xs, (keptLists params lists)[i]? = some xs → ∀ dbg', ∃ s,
        idx.get dbg' (mapped P a (save_index offs seqs)) i = .ok s ∧
        ∀ tail, (save_index offs seqs).length + (P - (save_index offs seqs).length % P) % P
            = startAt (keptLists params lists) i + encodedSize xs + tail →
          ∀ pte (buf : List Nat) k, buf.length = 65536 → k < 4294967296 →
          (TailTo xs tail k → ∃ e e',
            Enum.init dbg' (mapped P a (save_index offs seqs)) buf s pte = .ok e ∧
            Enum.nexts dbg' (mapped P a (save_index offs seqs)) k e = .ok e' ∧
            e'.has_next = decide (k < xs.length) ∧ e'.value = .ok (xs[k]?.getD pte)) ∧
          (¬ TailTo xs tail k →
            (Enum.init dbg' (mapped P a (save_index offs seqs)) buf s pte
              >>= Enum.nexts dbg' (mapped P a (save_index offs seqs)) k) = .error .ub) := by
  obtain ⟨st', e, -⟩ := build_index_spec (dbg := dbg) hg
  rw [hb] at e
  simp only [Except.ok.injEq, Prod.mk.injEq] at e
  obtain ⟨rfl, rfl, -⟩ := e
  have hkv := keptLists_valid hg
  generalize hks : keptLists params lists = ks at *
  have hlen : (save_index (univ :: startsOf ks) (allBytes ks)).length
      = 16 + 8 * (ks.length + 1) + (ks.map encodedSize).sum := by
    rw [save_index_length, List.length_cons, startsOf, startsFrom_length, allBytes_length]
  generalize hF : save_index (univ :: startsOf ks) (allBytes ks) = F at *
  generalize hpad : (P - F.length % P) % P = pad
  have hm : mapped P a F = memOf a F pad := by unfold mapped; rw [hpad]
  rw [hm]
  have hl := loaded_memOf a F pad
  have hrd := hl.readable.append (readable_memOf a F pad)
  obtain ⟨idx, h1, -, -, -, h4⟩ := mmap_spec (m := memOf a F pad) (a := a) (univ := univ) (ks := ks)
    (c := F.length) hg.1 hkv (by rw [hF]; exact hsz) (by rw [hF, List.take_length]; exact hl)
    (by omega)
  refine ⟨idx, h1, ?_⟩
  intro i xs hi dbg'
  have hle := startAt_le hi
  have hv := hkv xs (List.mem_of_getElem? hi)
  obtain ⟨s, bytes, hs, hbl, hst⟩ := h4 i xs (F.length + pad - (startAt ks i + encodedSize xs)) hi
    (by omega) (by
      intro j hj
      have := hrd (startAt ks i + encodedSize xs + j) (by omega)
      rwa [← Nat.add_assoc, ← Nat.add_assoc] at this) dbg dbg'
  refine ⟨s, hs, ?_⟩
  intro tail ht pte buf k hbuf hk
  have hend := memOf_stop a F pad
  have hk := C72_enumerator (dbg' := dbg') hv hst (by
    rw [show a + startAt ks i + bytes.length + (F.length + pad - (startAt ks i + encodedSize xs))
      = a + F.length + pad by omega]
    exact hend) pte hbuf hk
  rwa [show F.length + pad - (startAt ks i + encodedSize xs) = tail by omega] at hk

-- a collection, its file, and the enumerator of a sequence in it
example : ∃ offs seqs st idx s e, build_index true {} (collection 2 (shortLists 3 1)) = .ok (offs, seqs, st) ∧
    SIndex.mmap (mapped 4096 8192 (save_index offs seqs)) 8192 = .ok idx ∧
    idx.get false (mapped 4096 8192 (save_index offs seqs)) 1 = .ok s ∧
    Enum.init false (mapped 4096 8192 (save_index offs seqs)) (List.replicate 65536 0) s 9 = .ok e ∧
    ∃ e', Enum.nexts false (mapped 4096 8192 (save_index offs seqs)) 1 e = .ok e' ∧ e'.value = .ok 1 := by
  have hg := shortLists_good 3 1
  obtain ⟨st, hb, -⟩ := build_index_spec (dbg := true) hg
  rw [shortLists_kept] at hb
  have hlen : (save_index (2 :: startsOf (shortLists 3 1)) (allBytes (shortLists 3 1))).length = 111 := by
    have := shortLists_size 3 1
    rw [save_index_length, List.length_cons, startsOf, startsFrom_length, allBytes_length]
    omega
  obtain ⟨idx, h1, h2⟩ := C72_mapped hg hb (by rw [hlen]; omega) 4096 8192
  rw [shortLists_kept] at h2
  obtain ⟨s, h3, h4⟩ := h2 1 [0, 1] rfl false
  have hle := startAt_le (ks := shortLists 3 1) (i := 1) (xs := [0, 1]) rfl
  have hsz := shortLists_size 3 1
  obtain ⟨t, ht⟩ : ∃ t, 111 + (4096 - 111 % 4096) % 4096
      = startAt (shortLists 3 1) 1 + encodedSize [0, 1] + (31 + t) :=
    ⟨4096 - 31 - (startAt (shortLists 3 1) 1 + encodedSize [0, 1]), by omega⟩
  obtain ⟨e, e', h5, h6, -, h7⟩ := (h4 (31 + t) (by rw [hlen]; exact ht) 9 (List.replicate 65536 0) 1
    List.length_replicate (by omega)).1 (C72_mono (C72_31 _ _) (by omega) (Nat.le_refl _))
  exact ⟨_, _, st, idx, s, e, hb, h1, h3, h5, e', h6, h7⟩

end

-- twelve bytes behind the encoding of {3, 70000}: the first element can be read, the second not, and
-- neither can the whole list
example : ∃ m a bytes s, StoredAt true [3, 70000] 12 m a bytes s ∧
    m (a + bytes.length + 12) = none ∧
    (∃ e, Enum.init false m (List.replicate 65536 0) s 9 = .ok e ∧ e.value = .ok 3 ∧
      Enum.nexts false m 1 e = .error .ub ∧ Enum.collect false m 3 e = .error .ub) := by
  have hv := pair_valid (x := 3) (y := 70000) (by omega) (by omega) (by omega)
  obtain ⟨bytes, s, hst, -⟩ := buildDecode_eq (dbg := true) hv 12 8
  have hend := memOf_stop 64 bytes 12
  have hp := C72_pair (x := 3) (y := 70000) (by omega) (by omega) (by omega) 12
  have hbuf : (List.replicate 65536 0).length = 65536 := List.length_replicate
  obtain ⟨e, e', h1, h2, -, h3⟩ := (C72_enumerator (dbg' := false) hv hst hend 9 hbuf (k := 0)
    (by omega)).1 ((hp 0).mpr (by simp))
  cases h2
  have h4 := (C72_enumerator (dbg' := false) hv hst hend 9 hbuf (k := 1) (by omega)).2
    (fun h => absurd ((hp 1).mp h) (by decide))
  have h5 := (C72_collect (dbg' := false) hv hst hend 9 hbuf (fuel := 3) (by decide)).2
    (fun h => absurd ((hp 1).mp ((C72_all (by decide)).mpr h)) (by decide))
  rw [h1, ok_bind] at h4 h5
  exact ⟨_, 64, bytes, s, hst, hend, e, h1, h3, h4, h5⟩

end Sliced
