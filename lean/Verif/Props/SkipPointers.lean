import Verif.Props.Enumerator
import Verif.Props.SetOps
import Verif.Props.ManyWay
import Verif.Props.Locality
import Verif.Props.Cost
import Verif.Props.GeqEnumerator
/-!
# What the skip pointers are for (C57)

An encoding whose skip pointers (s_sequence.hpp:93-121: the 8 bytes for each group of 32 slices that
follow the number of slices) were overwritten or cannot be read, all other bytes being there: the
cardinality, decode, uncompress, the enumerator, pairwise_intersection, pairwise_union and union_many
are right all the same. `contains`, `next_geq` and `select` need them as soon as the answer lies behind
a complete group.
-/
namespace Sliced

variable {dbg dbg' dbg₁ dbg₂ : Bool} {xs ys Z : List Nat} {pad : Nat} {m : Mem} {a b : Nat}
  {s l r : SSeq}

/-- The memory holds the encoding of `xs` at `a`, except perhaps its skip pointers. -/
def StoredNoSkip (dbg : Bool) (xs : List Nat) (pad : Nat) (m : Mem) (a : Nat) (s : SSeq) : Prop :=
  ∃ st bytes, build_sequence dbg xs [] = .ok (st, bytes) ∧
    (∀ i b, bytes[i]? = some b → i < 2 ∨ 2 + 8 * ((slicesOf xs).length / 32) ≤ i →
      m (a + i) = some b) ∧
    Readable m (a + bytes.length) pad ∧ SSeq.ofAddr m a = .ok s

/-- what is left of the representation -/
structure NoSkipAt (pad : Nat) (m : Mem) (s : SSeq) (cs : List Chk) : Prop where
  chunks : s.chunks = cs.length
  ne : cs ≠ []
  wf : ChunksWF cs
  begin : ItOn pad m s.begin cs

theorem noSkip_of_loaded {cs : List Chk} (hw : ChunksWF cs) (hs : ∀ c ∈ cs, c.Small) (hne : cs ≠ [])
    (h : ∀ i b, (seqBytes cs)[i]? = some b → i < 2 ∨ 2 + 8 * (cs.length / 32) ≤ i →
      m (a + i) = some b)
    (hr : Readable m (a + (seqBytes cs).length) pad) (e : SSeq.ofAddr m a = .ok s) :
    NoSkipAt pad m s cs ∧ s = ⟨cs.length, a + 2, a + (2 + 8 * (cs.length / 32)),
      a + dirSize cs.length⟩ := by
  have hl := hw.length_le
  have hpos := List.length_pos_iff.mpr hne
  have esplit : seqBytes cs = (le16 (cs.length - 1) ++ ptrBytes cs 0 (cs.length / 32))
      ++ ((cs.flatMap hdrWords).flatMap le16 ++ cs.flatMap (fun c => bodyBytes c.body)) := by
    rw [seqBytes_split]
    unfold dirBytes
    rw [List.append_assoc]
  have hlen : (le16 (cs.length - 1) ++ ptrBytes cs 0 (cs.length / 32)).length
      = 2 + 8 * (cs.length / 32) := by
    rw [List.length_append, le16_length, ptrBytes_length]
  have h1 : Loaded m a (le16 (cs.length - 1)) := by
    intro i b hb
    have hi := (List.getElem?_eq_some_iff.mp hb).1
    rw [le16_length] at hi
    refine h i b ?_ (.inl hi)
    rw [esplit, List.append_assoc, List.getElem?_append_left (by rw [le16_length]; exact hi)]
    exact hb
  have h2 : Loaded m (a + (2 + 8 * (cs.length / 32)))
      ((cs.flatMap hdrWords).flatMap le16 ++ cs.flatMap (fun c => bodyBytes c.body)) := by
    intro i b hb
    rw [Nat.add_assoc]
    refine h _ b ?_ (.inr (by omega))
    rw [esplit, List.getElem?_append_right (by omega), hlen, Nat.add_sub_cancel_left]
    exact hb
  obtain ⟨h3, h4⟩ := h2.append
  rw [hdrBytes_length] at h4
  have ed : a + (2 + 8 * (cs.length / 32)) + 8 * cs.length = a + dirSize cs.length := by
    unfold dirSize; omega
  rw [ed] at h4
  have hrd : Readable m (a + dirSize cs.length) (offSum cs + pad) := by
    refine Readable.append ?_ ?_
    · have := h4.readable
      rwa [chunksData_length] at this
    · rw [seqBytes_split, List.length_append, dirBytes_length, chunksData_length] at hr
      rw [Nat.add_assoc]; exact hr
  have es : s = ⟨cs.length, a + 2, a + (2 + 8 * (cs.length / 32)), a + dirSize cs.length⟩ := by
    unfold SSeq.ofAddr at e
    rw [h1.rd16 (by omega)] at e
    cases e
    have e1 : 1 + (cs.length - 1) = cs.length := by omega
    show SSeq.mk _ _ _ _ = _
    simp only [e1, associativity]
    unfold dirSize
    congr 1 <;> omega
  subst es
  refine ⟨⟨rfl, hne, hw, ⟨by simp [SSeq.begin], hw, ?_⟩⟩, rfl⟩
  refine chunksAtP_of_loaded hw hs h3 ?_
  intro pre c post he
  show BodyAt pad m (a + dirSize cs.length + offSum pre) c.body
  generalize a + dirSize cs.length = dp at h4 hrd
  subst he
  exact body_of_loaded (hw.2 c (by simp)) h4 hrd

theorem StoredNoSkip.repr (hv : Valid xs) (h : StoredNoSkip dbg xs pad m a s) :
    NoSkipAt pad m s (chunksOf xs) ∧ s = ⟨(slicesOf xs).length, a + 2,
      a + (2 + 8 * ((slicesOf xs).length / 32)), a + dirSize (slicesOf xs).length⟩ := by
  obtain ⟨st, bytes, h1, h2, h3, h4⟩ := h
  obtain ⟨st', k, e, -⟩ := build_sequence_spec (dbg := dbg) hv []
  rw [h1] at e
  simp only [List.nil_append, Except.ok.injEq, Prod.mk.injEq] at e
  obtain ⟨-, rfl⟩ := e
  rw [← chunksOf_length] at h2 ⊢
  exact noSkip_of_loaded (chunksOf_wf hv.2.1) (chunksOf_small hv.2.1) (chunksOf_ne_nil hv) h2 h3 h4

/-- An intact encoding is a special case. -/
theorem StoredAt.noSkip {bytes : List UInt8} (h : StoredAt dbg xs pad m a bytes s) :
    StoredNoSkip dbg xs pad m a s := by
  obtain ⟨⟨st, h1⟩, h2, h3, h4⟩ := h
  exact ⟨st, bytes, h1, fun i b hb _ => h2 i b hb, h3, h4⟩

/-- Anything may be written over the skip pointers, or they may be taken away. -/
theorem StoredAt.damaged {bytes : List UInt8} (hv : Valid xs) (h : StoredAt dbg xs pad m a bytes s)
    {m' : Mem} (hm : ∀ p, p < a + 2 ∨ a + (2 + 8 * ((slicesOf xs).length / 32)) ≤ p → m' p = m p) :
    StoredNoSkip dbg xs pad m' a s := by
  obtain ⟨⟨st, h1⟩, h2, h3, h4⟩ := h
  have hsz := C35_exact_size hv h1
  have hds : 2 + 8 * ((slicesOf xs).length / 32) ≤ bytes.length := by
    obtain ⟨st', k, e, -⟩ := build_sequence_spec (dbg := dbg) hv []
    rw [h1] at e
    simp only [List.nil_append, Except.ok.injEq, Prod.mk.injEq] at e
    obtain ⟨-, rfl⟩ := e
    rw [seqBytes_split, List.length_append, dirBytes_length, chunksOf_length]
    unfold dirSize
    omega
  refine ⟨st, bytes, h1, fun i b hb hi => ?_, fun i hi => ?_, ?_⟩
  · rw [hm _ (by omega)]; exact h2 i b hb
  · rw [hm _ (by omega)]; exact h3 i hi
  · rw [← h4]
    unfold SSeq.ofAddr rd16 rd8
    rw [hm a (by omega), hm (a + 1) (by omega)]

theorem NoSkipAt.cardinality {cs : List Chk} (hr : NoSkipAt pad m s cs) :
    s.cardinality m = .ok (cardSum cs) := by
  have hlt := hr.wf.cardSum_lt
  unfold SSeq.cardinality
  rw [hr.chunks, cardinality_loop_spec (hp := s.header) (dp := s.data) hr.wf hr.begin.at_ (by omega),
    Nat.zero_add]

theorem NoSkipAt.skip_undefined {cs : List Chk} (hr : NoSkipAt pad m s cs) {id : Nat}
    (hn : m (s.pointers + 4) = none) {w : Nat} (hw : (cs.map Chk.id)[32]? = some w) (hid : w ≤ id) :
    It.skip_to_value m s.begin id = .error .ub := by
  rw [List.getElem?_map, Option.map_eq_some_iff] at hw
  obtain ⟨c, hc, rfl⟩ := hw
  have h32 := (List.getElem?_eq_some_iff.mp hc).1
  have hh := (hr.begin.hdr hc).1
  have hgone : rd32 m (s.begin.pointers + 4) = .error .ub := by
    have : m (s.begin.pointers + 4) = none := hn
    unfold rd32 rd16
    rw [rd8_gone this]
    rfl
  unfold It.skip_to_value It.skip_value_loop
  rw [if_pos (by
    show 0 + 32 < s.chunks
    rw [hr.chunks]; omega)]
  have e : s.begin.skip_header = s.begin.header + 8 * 32 := rfl
  rw [e, hh]
  simp only [ok_bind]
  rw [if_pos hid]
  unfold It.jump
  rw [hgone]
  rfl

theorem NoSkipAt.skip_near {cs : List Chk} (hr : NoSkipAt pad m s cs) {id : Nat}
    (hid : ∀ w, (cs.map Chk.id)[32]? = some w → id < w) :
    ∃ it, It.skip_to_value m s.begin id = .ok it ∧ ItOn pad m it (fromId id cs) := by
  obtain ⟨it, e, h, -⟩ := It.advance_spec (lb := id) hr.begin
  refine ⟨it, ?_, h⟩
  have e1 : It.skip_value_loop m id (s.begin.end_ - s.begin.begin_ + 1) s.begin = .ok s.begin := by
    unfold It.skip_value_loop
    by_cases h32 : s.begin.skip_position < s.begin.end_
    · have h32' : 32 < cs.length := by
        rw [← hr.chunks]
        have h' : 0 + 32 < s.chunks := h32
        omega
      have hc := List.getElem?_eq_getElem h32'
      have e2 : s.begin.skip_header = s.begin.header + 8 * 32 := rfl
      have := hid _ (by rw [List.getElem?_map, hc]; rfl)
      rw [if_pos h32, e2, (hr.begin.hdr hc).1]
      simp only [ok_bind]
      rw [if_neg (by omega)]
      rfl
    · rw [if_neg h32]
      rfl
  unfold It.skip_to_value
  rw [e1]
  exact e

theorem NoSkipAt.select_undefined {cs : List Chk} (hr : NoSkipAt pad m s cs) (rank value : Nat)
    (hn : m s.pointers = none) (h32 : 32 < cs.length) : s.select dbg' m rank value = .error .ub := by
  have hgone : rd32 m s.begin.pointers = .error .ub := by
    have : m s.begin.pointers = none := hn
    unfold rd32 rd16
    rw [rd8_gone this]
    rfl
  have e1 : It.skip_to_position m s.begin rank = .error .ub := by
    unfold It.skip_to_position It.skip_position_loop
    rw [if_pos (by
      show 0 + 32 < s.chunks
      rw [hr.chunks]; omega), hgone]
    rfl
  unfold SSeq.select
  rw [e1]
  rfl

theorem NoSkipAt.union {L R : List Chk} (hl : NoSkipAt 31 m l L) (hr : NoSkipAt 31 m r R)
    (hpos : ChunksPos l.data L r.data R) {s : UScratch} (hs : s.Ok) {out : List Nat} {p : Nat}
    (hcap : p + (uni (seqElems L) (seqElems R)).length + 23 ≤ out.length) :
    ∃ s' out', pairwise_union dbg m l r s out p =
        .ok ((uni (seqElems L) (seqElems R)).length, s', out') ∧ s'.Ok ∧
      Wrote out p (uni (seqElems L) (seqElems R)) 23 out' := by
  obtain ⟨il', ir', L', R', W, s', o, e, hs', u, emp, hl', hr', gl, gr, w⟩ :=
    pairwise_union_loop_spec (dbg := dbg) (l.chunks + r.chunks + 1) hl.ne hr.ne hl.begin hr.begin
      (out := p) (s := s) (buf := out) hs hpos (by rw [hl.chunks, hr.chunks]; omega) hcap
  have emp' : seqElems L' = [] ∨ seqElems R' = [] := emp.imp (fun h => by rw [h]; rfl) (fun h => by rw [h]; rfl)
  rw [uni_of_nil emp'] at u
  have hlen := congrArg List.length u
  rw [List.length_append, List.length_append] at hlen
  have l0 := w.length
  obtain ⟨o1, e1, w1⟩ := decode_tail_spec (dbg := dbg) (l.chunks + 1) hl' (out := p + W.length)
    (buf := o) (by rw [hl.chunks]; omega) (by omega)
  have l1 := w1.length
  obtain ⟨o2, e2, w2⟩ := decode_tail_spec (dbg := dbg) (r.chunks + 1) hr'
    (out := p + W.length + (seqElems L').length) (buf := o1) (by rw [hr.chunks]; omega) (by omega)
  refine ⟨s', o2, ?_, hs', ?_⟩
  · unfold pairwise_union
    simp only [e, e1, e2, ok_bind, pure_ok]
    congr 2
    omega
  · rw [u, ← List.append_assoc]
    exact Wrote.append (Wrote.append w w1) (by simpa [Nat.add_assoc] using w2)
/-- C57: without the skip pointers `cardinality()` is right. -/
theorem C57_no_skip_cardinality (hv : Valid xs) (h : StoredNoSkip dbg xs pad m a s) :
    s.cardinality m = .ok xs.length := by
  obtain ⟨hr, -⟩ := h.repr hv
  have ht : cardSum (chunksOf xs) = xs.length := by rw [← seqElems_length, seqElems_chunksOf hv]
  rw [hr.cardinality, ht]

/-- C57: without the skip pointers `decode` is right. -/
theorem C57_no_skip_decode (hv : Valid xs) (h : StoredNoSkip dbg xs 31 m a s) (out : List Nat) (p : Nat)
    (hcap : p + xs.length + 23 ≤ out.length) :
    ∃ out', s.decode dbg' m out p = .ok (xs.length, out') ∧ Wrote out p xs 23 out' := by
  obtain ⟨hr, -⟩ := h.repr hv
  obtain ⟨out', e, w⟩ := decode_loop_spec (dbg := dbg') hr.begin (p := p) (out := out)
    (by rw [seqElems_chunksOf hv]; exact hcap)
  rw [seqElems_chunksOf hv] at e w
  refine ⟨out', ?_, w⟩
  unfold SSeq.decode
  rw [hr.chunks, e]
  simp

/-- C57: without the skip pointers `uncompress` into a bitmap of zeros is right. -/
theorem C57_no_skip_uncompress (hv : Valid xs) (h : StoredNoSkip dbg xs pad m a s) (n : Nat)
    (hcap : ∀ x ∈ xs, (x / 65536 + 1) * 1024 ≤ n) :
    ∃ out', s.uncompress dbg' m (List.replicate n 0) = .ok (xs.length, out') ∧ out'.length = n ∧
      ∀ v, bitOf out' v = decide (v ∈ xs) := by
  obtain ⟨hr, -⟩ := h.repr hv
  have hcap' : ∀ c ∈ chunksOf xs, (c.id + 1) * 1024 ≤ (List.replicate n 0).length := by
    intro c hc
    obtain ⟨x, hx, h⟩ := (chunksOf_id hv c.id).mp ⟨c, hc, rfl⟩
    rw [← h, List.length_replicate]; exact hcap x hx
  have hw0 : ∀ w ∈ List.replicate n 0, w < 18446744073709551616 := by
    intro w hw; rw [(List.mem_replicate.mp hw).2]; omega
  obtain ⟨o, e, l, b⟩ := uncompress_loop_spec (dbg := dbg') (u := 0) (prev := 0) (p := 0) hr.begin
    (bufIs_self hw0) hcap' (by omega) (fun _ _ => by omega)
  have ht : cardSum (chunksOf xs) = xs.length := by rw [← seqElems_length, seqElems_chunksOf hv]
  rw [ht, Nat.zero_add] at e
  rw [seqElems_chunksOf hv] at b
  simp only [chunksOf_id hv] at b
  rw [List.length_replicate] at l
  have hpos := List.length_pos_iff.mpr hv.1
  refine ⟨o, ?_, l, fun v => ?_⟩
  · unfold SSeq.uncompress
    rw [hr.chunks, e]
    simp only [ok_bind]
    rw [cassert_of (by simpa using hpos)]
    rfl
  · by_cases hi : v / 64 < o.length
    · have he := List.getElem?_eq_getElem hi
      have h1 := (b _ _ he).2 (v % 64) (by omega)
      rw [show 64 * (v / 64) + v % 64 = v by omega] at h1
      have h2 : bitOf o v = (o[v / 64]).testBit (v % 64) := by
        rw [← bitOf_word he (by omega), show 64 * (v / 64) + v % 64 = v by omega]
      rw [h2, h1]
      show (if _ then _ else _) = _
      by_cases hx : ∃ x ∈ xs, x / 65536 = v / 65536
      · rw [if_pos hx]
      · rw [if_neg hx, decide_eq_false (fun hm => hx ⟨v, hm, rfl⟩)]
        unfold bufBit
        rw [List.getElem?_replicate]
        split
        · next w hw =>
          split at hw
          · cases hw; exact Nat.zero_testBit _
          · cases hw
        · rfl
    · rw [decide_eq_false (fun hm => hi (by have := hcap v hm; omega))]
      unfold bitOf
      rw [List.getElem?_eq_none (by omega)]
      exact Nat.zero_testBit _

/-- C57: without the skip pointers the enumerator visits the elements, in order. -/
theorem C57_no_skip_enumerator (hv : Valid xs) (h : StoredNoSkip dbg xs 31 m a s) (pte : Nat)
    (buf : List Nat) (hbuf : buf.length = 65536) :
    ∃ e, Enum.init dbg' m buf s pte = .ok e ∧
      ∀ fuel, xs.length < fuel → Enum.collect dbg' m fuel e = .ok xs := by
  obtain ⟨hr, -⟩ := h.repr hv
  have hsm := chunksOf_small hv.2.1
  have hx := seqElems_chunksOf hv
  have htot : cardSum (chunksOf xs) = xs.length := by rw [← seqElems_length, hx]
  have hinit : ∃ e c post, Enum.init dbg' m buf s pte = .ok e ∧
      EnumAt m (chunksOf xs) pte 0 [] c post e := by
    revert hr hsm
    generalize chunksOf xs = cs
    intro hr hs
    cases cs with
    | nil => exact absurd rfl hr.ne
    | cons c post =>
      have hit := hr.begin
      obtain ⟨o, e1, w⟩ := decode_chunk_spec' (dbg := dbg') hit (p := 0) (out := buf)
        (by rw [hbuf]; exact slack_fits hit.wf.head (hs c (by simp)))
      have hval : Enum.init dbg' m buf s pte = .ok ⟨s.begin, 0, s.chunks, 0, c.card, pte, true, o⟩ := by
        unfold Enum.init
        simp only [hit.cardinality, e1, ok_bind, pure_ok]
      refine ⟨_, c, post, hval, rfl, hit, rfl, hr.chunks, rfl, ?_, rfl, rfl, rfl, w.1.trans hbuf, ?_⟩
      · exact hit.wf.head.card_pos
      · intro i hi
        have := w.2.2.1 i (by rw [Chk.elems_length]; exact hi)
        rwa [Nat.zero_add] at this
  obtain ⟨e, c, post, e1, h1⟩ := hinit
  refine ⟨e, e1, fun fuel hf => ?_⟩
  have := Enum.collect_spec (dbg := dbg') hr.wf hsm fuel (k := 0) (by omega) (by omega)
    (Or.inl ⟨_, _, _, h1⟩)
  rw [this, hx]; rfl

/-- C57: without the skip pointers of either list `pairwise_intersection` is right. -/
theorem C57_no_skip_intersection {tab : Nat → List Nat} (ht : TabOk tab) (hx : Valid xs) (hy : Valid ys)
    (hl : StoredNoSkip dbg₁ xs 31 m a l) (hr : StoredNoSkip dbg₂ ys 31 m b r)
    (hZ : Enumerates Z (fun v => v ∈ xs ∧ v ∈ ys)) (x : List Nat) (hs : x.length = 1024)
    (out : List Nat) (p : Nat) (hcap : p + Z.length + 23 ≤ out.length) :
    ∃ x' out', pairwise_intersection dbg tab m l r x out p = .ok (Z.length, x', out') ∧
      x'.length = 1024 ∧ Wrote out p Z 23 out' := by
  obtain ⟨hl, -⟩ := hl.repr hx
  obtain ⟨hr, -⟩ := hr.repr hy
  have e : Z = inter (seqElems (chunksOf xs)) (seqElems (chunksOf ys)) := by
    rw [seqElems_chunksOf hx, seqElems_chunksOf hy]
    exact hZ.unique (enumerates_inter hx)
  rw [e] at hcap ⊢
  obtain ⟨x', o, e, lx, w⟩ := pairwise_intersection_loop_spec (dbg := dbg) ht
    (l.chunks + r.chunks + 1) hl.begin hr.begin (fun _ _ _ _ _ _ h => h) (fun _ _ _ _ _ _ h => h)
    (out := p) (buf := out) hs (by rw [hl.chunks, hr.chunks]; omega) hcap
  refine ⟨x', o, ?_, lx, w⟩
  unfold pairwise_intersection
  simp only [e, ok_bind, pure_ok, Nat.add_sub_cancel_left]

/-- C57: without the skip pointers of either list `pairwise_union` is right. -/
theorem C57_no_skip_union (hx : Valid xs) (hy : Valid ys)
    (hl : StoredNoSkip dbg₁ xs 31 m a l) (hr : StoredNoSkip dbg₂ ys 31 m b r)
    (hapart : a + encodedSize xs ≤ b ∨ b + encodedSize ys ≤ a)
    (hZ : Enumerates Z (fun v => v ∈ xs ∨ v ∈ ys)) (s : UScratch) (hs : s.Ok)
    (out : List Nat) (p : Nat) (hcap : p + Z.length + 23 ≤ out.length) :
    ∃ s' out', pairwise_union dbg m l r s out p = .ok (Z.length, s', out') ∧ s'.Ok ∧
      Wrote out p Z 23 out' := by
  obtain ⟨hl, el⟩ := hl.repr hx
  obtain ⟨hr, er⟩ := hr.repr hy
  have size : ∀ zs, Valid zs → dirSize (slicesOf zs).length + offSum (chunksOf zs) = encodedSize zs := by
    intro zs hz
    rw [← seqBytes_size, seqBytes_split, List.length_append, dirBytes_length, chunksData_length,
      chunksOf_length]
  have sx := size xs hx
  have sy := size ys hy
  have hpos : ChunksPos l.data (chunksOf xs) r.data (chunksOf ys) := by
    have dl : l.data = a + dirSize (slicesOf xs).length := by rw [el]
    have dr : r.data = b + dirSize (slicesOf ys).length := by rw [er]
    rcases hapart with h | h
    · exact Or.inr (Or.inl (by omega))
    · exact Or.inr (Or.inr (by omega))
  have e : Z = uni (seqElems (chunksOf xs)) (seqElems (chunksOf ys)) := by
    rw [seqElems_chunksOf hx, seqElems_chunksOf hy]
    exact hZ.unique (enumerates_uni hx hy)
  rw [e] at hcap ⊢
  exact hl.union hr hpos hs hcap

/-- C57: without the skip pointers of any of the lists `union_many` is right. -/
theorem C57_no_skip_union_many {ps : List (List Nat × SSeq)} (hne : ps ≠ [])
    (hps : ∀ p ∈ ps, Valid p.1 ∧ ∃ a, StoredNoSkip dbg' p.1 pad m a p.2)
    (hZ : Enumerates Z (fun v => ∃ p ∈ ps, v ∈ p.1)) (s : MScratch) (hs : s.Ok)
    (out : List Nat) (k : Nat) (hcap : k + Z.length ≤ out.length) :
    ∃ s' out', union_many dbg m (ps.map Prod.snd) s out k = .ok (Z.length, s', out') ∧
      s'.Ok ∧ Wrote out k Z 0 out' := by
  have hits : ItsOn pad m ((ps.map Prod.snd).map SSeq.begin) (ps.map (fun p => chunksOf p.1)) := by
    clear hZ hne
    induction ps with
    | nil => trivial
    | cons p ps ih =>
      obtain ⟨hv, a, h⟩ := hps p (by simp)
      exact ⟨(h.repr hv).1.begin, ih (fun q hq => hps q (by simp [hq]))⟩
  have hZ' : Enumerates Z (fun v => ∃ cs ∈ ps.map (fun p => chunksOf p.1), v ∈ seqElems cs) := by
    refine ⟨hZ.1, fun v => (hZ.2 v).trans ⟨?_, ?_⟩⟩
    · rintro ⟨p, hp, hv⟩
      exact ⟨_, List.mem_map.mpr ⟨p, hp, rfl⟩, by rw [seqElems_chunksOf (hps p hp).1]; exact hv⟩
    · rintro ⟨cs, hcs, hv⟩
      obtain ⟨p, hp, rfl⟩ := List.mem_map.mp hcs
      rw [seqElems_chunksOf (hps p hp).1] at hv
      exact ⟨p, hp, hv⟩
  obtain ⟨n, e1, hm⟩ := min_id_spec (by simpa using hne) hits
  obtain ⟨s', o, e2, hs', w⟩ := union_many_loop_spec (dbg := dbg)
    (65537 + (((ps.map Prod.snd).map SSeq.begin).map It.end_).sum) (out := k) (s := s)
    (buf := out) hits hs hm (by omega) hZ' hcap
  refine ⟨s', o, ?_, hs', w⟩
  unfold union_many
  simp only [e1, ok_bind, e2, pure_ok, Nat.add_sub_cancel_left]

/-- C57: if the skip pointers cannot be read, `contains` and `next_geq` of a value in or after the 33rd
slice are undefined. -/
theorem C57_no_skip_undefined (hv : Valid xs) (h : StoredNoSkip dbg xs pad m a s) {v : Nat}
    (hn : ∀ i, i < 8 * ((slicesOf xs).length / 32) → m (a + 2 + i) = none)
    {w : Nat} (hw : (slicesOf xs)[32]? = some w) (hid : w ≤ v / 65536) :
    s.contains dbg' m v = .error .ub ∧ s.next_geq dbg' m v = .error .ub := by
  obtain ⟨hr, es⟩ := h.repr hv
  have h32 := (List.getElem?_eq_some_iff.mp hw).1
  have hskip : It.skip_to_value m s.begin (v / 65536) = .error .ub := by
    refine hr.skip_undefined ?_ (by rw [chunksOf_map_id]; exact hw) hid
    rw [es]
    exact hn 4 (by omega)
  constructor
  · unfold SSeq.contains
    simp only [hskip]
    rfl
  · unfold SSeq.next_geq
    simp only [hskip]
    rfl

/-- C57: without the skip pointers `contains` and `next_geq` of a value before the 33rd slice are
right. -/
theorem C57_no_skip_near (hv : Valid xs) (h : StoredNoSkip dbg xs pad m a s) {v : Nat}
    (h32 : v < 4294967296) (hid : ∀ w, (slicesOf xs)[32]? = some w → v / 65536 < w) :
    s.contains dbg' m v = .ok (decide (v ∈ xs)) ∧
      s.next_geq dbg' m v = .ok ((xs.find? (fun y => decide (v ≤ y))).getD 4294967295) := by
  obtain ⟨hr, -⟩ := h.repr hv
  obtain ⟨it, e, hit⟩ := hr.skip_near (id := v / 65536) (by rw [chunksOf_map_id]; exact hid)
  have h1 := SSeq.contains_of_skip (dbg := dbg') hr.wf h32 e hit (fun _ _ _ h => h.for)
  have h2 := SSeq.next_geq_of_skip (dbg := dbg') hr.wf hr.ne h32 e hit (fun _ _ _ h => h)
    (fun _ _ _ _ _ h => h)
  rw [seqElems_chunksOf hv] at h1 h2
  exact ⟨h1, h2⟩

/-- C57: if the skip pointers cannot be read, `contains(v)` and `next_geq(v)` are defined exactly if
`v` comes before the 33rd slice. -/
theorem C57_no_skip_exact (hv : Valid xs) (h : StoredNoSkip dbg xs pad m a s) {v : Nat}
    (h32 : v < 4294967296)
    (hn : ∀ i, i < 8 * ((slicesOf xs).length / 32) → m (a + 2 + i) = none) :
    ((∃ b, s.contains dbg' m v = .ok b) ↔ ∀ w, (slicesOf xs)[32]? = some w → v / 65536 < w) ∧
      ((∃ x, s.next_geq dbg' m v = .ok x) ↔ ∀ w, (slicesOf xs)[32]? = some w → v / 65536 < w) := by
  constructor
  · constructor
    · rintro ⟨b, hb⟩ w hw
      refine Nat.lt_of_not_le (fun hle => ?_)
      rw [(C57_no_skip_undefined hv h hn hw hle).1] at hb
      cases hb
    · exact fun hid => ⟨_, (C57_no_skip_near hv h h32 hid).1⟩
  · constructor
    · rintro ⟨b, hb⟩ w hw
      refine Nat.lt_of_not_le (fun hle => ?_)
      rw [(C57_no_skip_undefined hv h hn hw hle).2] at hb
      cases hb
    · exact fun hid => ⟨_, (C57_no_skip_near hv h h32 hid).2⟩

/-- C57: if the skip pointers cannot be read and there are more than 32 slices, `select` is undefined
for every rank, even for the first element. -/
theorem C57_no_skip_select (hv : Valid xs) (h : StoredNoSkip dbg xs pad m a s) (rank value : Nat)
    (hn : ∀ i, i < 8 * ((slicesOf xs).length / 32) → m (a + 2 + i) = none)
    (h32 : 32 < (slicesOf xs).length) : s.select dbg' m rank value = .error .ub := by
  obtain ⟨hr, es⟩ := h.repr hv
  refine hr.select_undefined rank value ?_ (by rw [chunksOf_length]; exact h32)
  rw [es]
  exact hn 0 (by omega)

/-! ## Examples -/

theorem sorted_pos {S : List Nat} {w : Nat} (hw : S[32]? = some w) (h : S.Pairwise (· < ·)) : 0 < w := by
  obtain ⟨hl, rfl⟩ := List.getElem?_eq_some_iff.mp hw
  have := List.pairwise_iff_getElem.mp h 0 32 (by omega) hl (by omega)
  omega

/-- One element in each of 40 slices, the skip pointer taken away: `decode` returns the list,
`contains` of the last element and `select` of the first are undefined, `contains` of the first element
is right. -/
example : ∃ (xs : List Nat) (m : Mem) (s : SSeq), xs.length = 40 ∧ Valid xs ∧
    StoredNoSkip true xs 31 m 64 s ∧
    (∃ out', s.decode false m (List.replicate 63 0) 0 = .ok (40, out') ∧ out'.take 40 = xs) ∧
    s.contains false m (39 * 65536) = .error .ub ∧ s.select false m 0 7 = .error .ub ∧
    s.contains false m 0 = .ok true := by
  have hv := multiples_valid (n := 40) (d := 65536) (by omega) (by omega) (by omega)
  have hlen : ((List.range 40).map (fun i => i * 65536)).length = 40 := by
    rw [List.length_map, List.length_range]
  have hsl : 40 ≤ (slicesOf ((List.range 40).map (fun i => i * 65536))).length := by
    have := length_ge_of_subset (L := List.range 40)
      (S := slicesOf ((List.range 40).map (fun i => i * 65536))) List.nodup_range (by
      intro i hi
      rw [List.mem_range] at hi
      exact mem_slicesOf.mpr ⟨by omega, i * 65536, List.mem_map.mpr ⟨i, by rwa [List.mem_range], rfl⟩,
        by omega⟩)
    rwa [List.length_range] at this
  have hid : ∀ w, (slicesOf ((List.range 40).map (fun i => i * 65536)))[32]? = some w → w ≤ 39 := by
    intro w hw
    obtain ⟨-, x, hx, e⟩ := mem_slicesOf.mp (List.mem_of_getElem? hw)
    obtain ⟨i, hi, rfl⟩ := List.mem_map.mp hx
    rw [List.mem_range] at hi
    omega
  have h0 : 0 ∈ (List.range 40).map (fun i => i * 65536) :=
    List.mem_map.mpr ⟨0, by rw [List.mem_range]; omega, rfl⟩
  have hpos : ∀ w, (slicesOf ((List.range 40).map (fun i => i * 65536)))[32]? = some w → 0 < w :=
    fun w hw => sorted_pos hw (slicesOf_sorted _)
  generalize (List.range 40).map (fun i => i * 65536) = xs at hv hlen hsl hid h0 hpos
  obtain ⟨st, bytes, hb, hst⟩ := stored_total true hv
  obtain ⟨s, es, -⟩ := hst _ 64 31 (loaded_memOf _ _ _) (readable_memOf _ _ _)
  have h : StoredAt true xs 31 (memOf 64 bytes 31) 64 bytes s :=
    ⟨⟨st, hb⟩, loaded_memOf _ _ _, readable_memOf _ _ _, es⟩
  have hd := h.damaged hv (m' := fun p =>
    if p < 64 + 2 ∨ 64 + (2 + 8 * ((slicesOf xs).length / 32)) ≤ p then memOf 64 bytes 31 p else none)
    (fun p hp => if_pos hp)
  refine ⟨xs, _, s, hlen, hv, hd, ?_, ?_⟩
  · obtain ⟨o, e, w⟩ := C57_no_skip_decode (dbg' := false) hv hd (List.replicate 63 0) 0
      (by rw [List.length_replicate]; omega)
    rw [hlen] at e
    refine ⟨o, e, ?_⟩
    have := w.take_zero
    rwa [hlen] at this
  · obtain ⟨w, hw⟩ : ∃ w, (slicesOf xs)[32]? = some w := by
      revert hsl
      generalize slicesOf xs = S
      intro hS
      exact ⟨_, List.getElem?_eq_getElem (by omega)⟩
    refine ⟨(C57_no_skip_undefined hv hd (fun i hi => if_neg (by omega)) hw ?_).1,
      C57_no_skip_select hv hd 0 7 (fun i hi => if_neg (by omega)) (by omega), ?_⟩
    · exact Nat.le_trans (hid w hw) (by omega)
    · have := (C57_no_skip_near (dbg' := false) hv hd (v := 0) (by omega) (fun w hw => by
        have := hpos w hw
        omega)).1
      rwa [decide_eq_true h0] at this

end Sliced
