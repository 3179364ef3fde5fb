import Verif.Props.Build
import Verif.Model.Enumerator
/-!
# The enumerator (C09)
-/
namespace Sliced

variable {dbg dbg' : Bool} {xs : List Nat} {m : Mem} {s : SSeq}

/-- `k` calls of `next()` -/
def Enum.nexts (dbg : Bool) (m : Mem) : Nat → Enum → Res Enum
  | 0, e => .ok e
  | k + 1, e => do
    let e ← e.next dbg m
    Enum.nexts dbg m k e

/-- What the enumerator looks like in front of element `k`. -/
structure EnumAt (m : Mem) (cs : List Chk) (pte k : Nat) (pre : List Chk) (c : Chk)
    (post : List Chk) (e : Enum) : Prop where
  split : cs = pre ++ c :: post
  it : ItOn 31 m e.it (c :: post)
  chunk : e.chunk = pre.length
  chunks : e.chunks = cs.length
  i : e.i + cardSum pre = k
  i_lt : e.i < c.card
  card : e.cardinality = c.card
  pte_ : e.past_the_end = pte
  has_next : e.has_next = true
  len : e.buf.length = 65536
  buf : ∀ i, i < c.card → e.buf[i]? = c.elems[i]?

/-- What it looks like after the last element. -/
structure EnumEnd (pte k : Nat) (e : Enum) : Prop where
  i_ge : e.cardinality ≤ e.i
  i_le : e.i ≤ k
  pte_ : e.past_the_end = pte
  has_next : e.has_next = false
  len : e.buf.length = 65536

theorem slack_fits {c : Chk} (hw : c.WF) (hs : c.Small) : 0 + c.card + c.body.slack ≤ 65536 := by
  have hc := hw.card_le
  cases hb : c.body with
  | full => simp only [Body.slack]; omega
  | dense vs => simp only [Body.slack]; omega
  | sparse bs =>
    have := (hs bs hb).1
    have hcc : c.card = (blkElems bs).length := by rw [Chk.card, hb]; rfl
    simp only [Body.slack]
    omega

theorem Enum.init_spec {cs : List Chk} (h : SeqAt 31 m s cs) (hs : ∀ c ∈ cs, c.Small)
    {buf : List Nat} (hbuf : buf.length = 65536) (pte : Nat) :
    ∃ e c post, Enum.init dbg m buf s pte = .ok e ∧ EnumAt m cs pte 0 [] c post e := by
  cases cs with
  | nil => exact absurd rfl h.ne
  | cons c post =>
    have hit := h.begin
    obtain ⟨o, e1, w⟩ := decode_chunk_spec' (dbg := dbg) hit (p := 0) (out := buf)
      (by rw [hbuf]; exact slack_fits hit.wf.head (hs c (by simp)))
    have hval : Enum.init dbg m buf s pte = .ok ⟨s.begin, 0, s.chunks, 0, c.card, pte, true, o⟩ := by
      unfold Enum.init
      simp only [hit.cardinality, e1, ok_bind, pure_ok]
    refine ⟨_, c, post, hval, rfl, hit, rfl, h.chunks, rfl, ?_, rfl, rfl, rfl, w.1.trans hbuf, ?_⟩
    · exact hit.wf.head.card_pos
    · intro i hi
      have := w.2.2.1 i (by rw [Chk.elems_length]; exact hi)
      rwa [Nat.zero_add] at this

theorem EnumAt.next {cs : List Chk} {pte k : Nat} {pre post : List Chk} {c : Chk} {e : Enum}
    (hw : ChunksWF cs) (hs : ∀ c ∈ cs, c.Small) (h : EnumAt m cs pte k pre c post e) :
    ∃ e', e.next dbg m = .ok e' ∧
      ((∃ pre' c' post', EnumAt m cs pte (k + 1) pre' c' post' e') ∨
        (EnumEnd pte (k + 1) e' ∧ k + 1 = cardSum cs)) := by
  have hmem : c ∈ cs := by rw [h.split]; simp
  have hc := (hw.2 c hmem).card_le
  have hlen := hw.length_le
  have hil := h.i_lt
  have hi := h.i
  have hcs : cs.length = pre.length + 1 + post.length := by rw [h.split]; simp; omega
  have hsum : cardSum cs = cardSum pre + (c.card + cardSum post) := by
    rw [h.split, cardSum_append, cardSum_cons]
  have hu : u32 (e.i + 1) = e.i + 1 := u32_lt (by omega)
  have hch : u32 (e.chunk + 1) = pre.length + 1 := by rw [h.chunk]; exact u32_lt (by omega)
  unfold Enum.next
  simp only [hu, h.card, hch, h.chunks]
  by_cases h1 : e.i + 1 = c.card
  · rw [if_pos h1]
    cases hp : post with
    | nil =>
      subst hp
      rw [if_pos (by rw [hcs]; rfl)]
      refine ⟨_, rfl, Or.inr ⟨⟨?_, ?_, h.pte_, rfl, h.len⟩, ?_⟩⟩
      · have := h.card
        simp only; omega
      · simp only; omega
      · rw [hsum, cardSum_nil]; omega
    | cons d post' =>
      subst hp
      rw [if_neg (by rw [hcs, List.length_cons]; omega)]
      obtain ⟨it', en, hit', -⟩ := h.it.next
      obtain ⟨o, e1, w⟩ := decode_chunk_spec' (dbg := dbg) hit' (p := 0) (out := e.buf)
        (by rw [h.len]; exact slack_fits hit'.wf.head (hs d (by rw [h.split]; simp)))
      simp only [en, hit'.cardinality, e1, ok_bind, pure_ok]
      refine ⟨_, rfl, Or.inl ⟨pre ++ [c], d, post', ?_, hit', ?_, rfl, ?_, ?_, rfl, h.pte_,
        h.has_next, w.1.trans h.len, ?_⟩⟩
      · rw [h.split]; simp
      · simp
      · simp only [cardSum_append, cardSum_cons, cardSum_nil]; omega
      · exact hit'.wf.head.card_pos
      · intro i hi
        have := w.2.2.1 i (by rw [Chk.elems_length]; exact hi)
        rwa [Nat.zero_add] at this
  · rw [if_neg h1]
    refine ⟨_, rfl, Or.inl ⟨pre, c, post, h.split, h.it, h.chunk, rfl, ?_, ?_, rfl, h.pte_,
      h.has_next, h.len, h.buf⟩⟩
    · simp only; omega
    · simp only; omega

theorem EnumEnd.next {pte k : Nat} {e : Enum} (h : EnumEnd pte k e) (hk : k + 1 < 4294967296) :
    ∃ e', e.next dbg m = .ok e' ∧ EnumEnd pte (k + 1) e' := by
  have := h.i_ge
  have := h.i_le
  have hu : u32 (e.i + 1) = e.i + 1 := u32_lt (by omega)
  unfold Enum.next
  simp only [hu]
  rw [if_neg (by omega)]
  exact ⟨_, rfl, by simp only; omega, by simp only; omega, h.pte_, h.has_next, h.len⟩

theorem Enum.nexts_spec {cs : List Chk} (hw : ChunksWF cs) (hs : ∀ c ∈ cs, c.Small) {pte : Nat}
    (n : Nat) : ∀ {k : Nat} {e : Enum}, k + n < 4294967296 →
    ((∃ pre c post, EnumAt m cs pte k pre c post e) ∨ (EnumEnd pte k e ∧ cardSum cs ≤ k)) →
    ∃ e', Enum.nexts dbg m n e = .ok e' ∧
      ((∃ pre c post, EnumAt m cs pte (k + n) pre c post e') ∨
        (EnumEnd pte (k + n) e' ∧ cardSum cs ≤ k + n)) := by
  induction n with
  | zero => intro k e _ h; exact ⟨e, rfl, h⟩
  | succ n ih =>
    intro k e hk h
    have key : ∃ e', e.next dbg m = .ok e' ∧
      ((∃ pre c post, EnumAt m cs pte (k + 1) pre c post e') ∨
        (EnumEnd pte (k + 1) e' ∧ cardSum cs ≤ k + 1)) := by
      rcases h with ⟨pre, c, post, h⟩ | ⟨h, hc⟩
      · obtain ⟨e', e1, h1 | ⟨h1, h2⟩⟩ := h.next (dbg := dbg) hw hs
        · exact ⟨e', e1, Or.inl h1⟩
        · exact ⟨e', e1, Or.inr ⟨h1, by omega⟩⟩
      · obtain ⟨e', e1, h1⟩ := h.next (dbg := dbg) (m := m) (by omega)
        exact ⟨e', e1, Or.inr ⟨h1, by omega⟩⟩
    obtain ⟨e', e1, h1⟩ := key
    obtain ⟨e2, e3, h2⟩ := ih (by omega) h1
    refine ⟨e2, ?_, ?_⟩
    · unfold Enum.nexts
      rw [e1, ok_bind, e3]
    · rw [show k + (n + 1) = k + 1 + n by omega]; exact h2

theorem EnumAt.value {cs : List Chk} {pte k : Nat} {pre post : List Chk} {c : Chk} {e : Enum}
    (h : EnumAt m cs pte k pre c post e) :
    ∃ v, e.value = .ok v ∧ (seqElems cs)[k]? = some v := by
  have h1 := h.buf e.i h.i_lt
  have hil := h.i_lt
  have hlt : e.i < c.elems.length := by rw [Chk.elems_length]; exact h.i_lt
  rw [List.getElem?_eq_getElem hlt] at h1
  refine ⟨c.elems[e.i], ?_, ?_⟩
  · unfold Enum.value
    rw [h.has_next, if_pos rfl]
    exact rdv_of h1
  · have hi := h.i
    rw [h.split, seqElems_append, seqElems_cons, List.getElem?_append_right
      (by rw [seqElems_length]; omega), List.getElem?_append_left (by
        rw [seqElems_length, Chk.elems_length]; omega), seqElems_length,
      show k - cardSum pre = e.i by omega, List.getElem?_eq_getElem hlt]

/-- C09: after `init` (on an enumerator with arbitrary left-over buffer contents) and `k` calls of
`next()`, `value()` is the `k`-th element and `has_next()` is true; when all elements have been
passed, `has_next()` is false and `value()` is the `past_the_end` argument. -/
theorem C09_enumerator (hv : Valid xs) (hs : Stored dbg xs 31 m s) (pte : Nat)
    (buf : List Nat) (hbuf : buf.length = 65536) (k : Nat) (hk : k < 4294967296) :
    ∃ e e', Enum.init dbg' m buf s pte = .ok e ∧ Enum.nexts dbg' m k e = .ok e' ∧
      e'.has_next = decide (k < xs.length) ∧ e'.value = .ok (xs[k]?.getD pte) ∧
      e'.buf.length = 65536 := by
  have hr := hs.repr hv
  have hsm := chunksOf_small hv.2.1
  obtain ⟨e, c, post, e1, h1⟩ := Enum.init_spec (dbg := dbg') hr hsm hbuf pte
  obtain ⟨e', e2, h2⟩ := Enum.nexts_spec (dbg := dbg') hr.wf hsm k (k := 0) (by omega)
    (Or.inl ⟨_, _, _, h1⟩)
  have hx := seqElems_chunksOf hv
  have htot : cardSum (chunksOf xs) = xs.length := by rw [← seqElems_length, hx]
  refine ⟨e, e', e1, e2, ?_⟩
  rw [Nat.zero_add] at h2
  rcases h2 with ⟨pre, c, post, h⟩ | ⟨h, hge⟩
  · obtain ⟨v, hval, hget⟩ := h.value
    rw [hx] at hget
    have : k < xs.length := (List.getElem?_eq_some_iff.mp hget).1
    refine ⟨?_, ?_, h.len⟩
    · rw [h.has_next, decide_eq_true this]
    · rw [hval, hget]; rfl
  · refine ⟨?_, ?_, h.len⟩
    · rw [h.has_next, decide_eq_false (by omega)]
    · unfold Enum.value
      rw [h.has_next, List.getElem?_eq_none (by omega), h.pte_]; rfl

theorem Enum.collect_spec {cs : List Chk} (hw : ChunksWF cs) (hs : ∀ c ∈ cs, c.Small) {pte : Nat}
    (fuel : Nat) : ∀ {k : Nat} {e : Enum}, k ≤ cardSum cs → cardSum cs < k + fuel →
    ((∃ pre c post, EnumAt m cs pte k pre c post e) ∨ (EnumEnd pte k e ∧ cardSum cs ≤ k)) →
    Enum.collect dbg m fuel e = .ok ((seqElems cs).drop k) := by
  induction fuel with
  | zero =>
    intro k e hk0 hk h
    omega
  | succ fuel ih =>
    intro k e hk0 hk h
    unfold Enum.collect
    rcases h with ⟨pre, c, post, h⟩ | ⟨h, hge⟩
    · obtain ⟨v, hval, hget⟩ := h.value
      rw [if_pos h.has_next, hval]
      obtain ⟨e', e1, h1⟩ := h.next (dbg := dbg) hw hs
      have h1' : (∃ pre c post, EnumAt m cs pte (k + 1) pre c post e') ∨
        (EnumEnd pte (k + 1) e' ∧ cardSum cs ≤ k + 1) := by
        rcases h1 with h1 | ⟨h1, h2⟩
        · exact Or.inl h1
        · exact Or.inr ⟨h1, by omega⟩
      obtain ⟨hlt, hv⟩ := List.getElem?_eq_some_iff.mp hget
      have hlt' := hlt
      rw [seqElems_length] at hlt'
      simp only [ok_bind, e1, ih (k := k + 1) (by omega) (by omega) h1', pure_ok]
      rw [List.drop_eq_getElem_cons hlt, hv]
    · rw [h.has_next, if_neg (by simp), List.drop_of_length_le (by rw [seqElems_length]; exact hge)]

/-- C09, as a loop: it visits exactly the elements, in order. -/
theorem C09_collect (hv : Valid xs) (hs : Stored dbg xs 31 m s) (pte : Nat)
    (buf : List Nat) (hbuf : buf.length = 65536) :
    ∃ e, Enum.init dbg' m buf s pte = .ok e ∧
      ∀ fuel, xs.length < fuel → Enum.collect dbg' m fuel e = .ok xs := by
  have hr := hs.repr hv
  have hsm := chunksOf_small hv.2.1
  have hx := seqElems_chunksOf hv
  have htot : cardSum (chunksOf xs) = xs.length := by rw [← seqElems_length, hx]
  obtain ⟨e, c, post, e1, h1⟩ := Enum.init_spec (dbg := dbg') hr hsm hbuf pte
  refine ⟨e, e1, fun fuel hf => ?_⟩
  have := Enum.collect_spec (dbg := dbg') hr.wf hsm fuel (k := 0) (by omega) (by omega)
    (Or.inl ⟨_, _, _, h1⟩)
  rw [this, hx]; rfl

example : ∃ m s e, Stored true [3, 5, 300, 70000] 31 m s ∧
    Enum.init false m (List.replicate 65536 0) s 7 = .ok e ∧
    Enum.collect false m 5 e = .ok [3, 5, 300, 70000] := by
  obtain ⟨m, s, h⟩ := stored_exists true small_valid 31
  obtain ⟨e, h1, h2⟩ := C09_collect (dbg' := false) small_valid h 7 (List.replicate 65536 0)
    List.length_replicate
  exact ⟨m, s, e, h, h1, h2 5 (by simp)⟩

example : ∃ m s e e', Stored false [3, 5, 300, 70000] 31 m s ∧
    Enum.init true m (List.replicate 65536 0) s 99 = .ok e ∧ Enum.nexts true m 3 e = .ok e' ∧
    e'.value = .ok 70000 := by
  obtain ⟨m, s, h⟩ := stored_exists false small_valid 31
  obtain ⟨e, e', e1, e2, -, e3, -⟩ := C09_enumerator (dbg' := true) small_valid h 99
    (List.replicate 65536 0) List.length_replicate 3 (by omega)
  exact ⟨m, s, e, e', h, e1, e2, e3⟩

end Sliced
