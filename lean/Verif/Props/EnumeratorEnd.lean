import Verif.Props.Enumerator
import Verif.Props.GeqBack
/-!
# The enumerator after its end (C09)

After the last element `next()` goes on counting in `m_i`, which has 32 bits.  So `value()` remains
`past_the_end` for 2^32 calls, and the call after that takes the end of the last slice for reached once
more and goes on to a slice that is not there.
-/
namespace Sliced

variable {dbg dbg' : Bool} {xs : List Nat} {m : Mem} {s : SSeq}

/-- `d` calls after the end: the iterator is still in the last slice `c`. -/
structure EnumOver (m : Mem) (pte d : Nat) (e : Enum) : Prop where
  it : ∃ c, ItOn 31 m e.it [c]
  i : e.i = u32 (e.cardinality + d)
  card : e.cardinality < 4294967296
  chunk : e.chunk = e.chunks
  chunks : e.chunks < 4294967295
  pte_ : e.past_the_end = pte
  has_next : e.has_next = false
  len : e.buf.length = 65536

theorem EnumOver.next {pte d : Nat} {e : Enum} (h : EnumOver m pte d e) (hd : d + 1 < 4294967296) :
    e.next dbg m = .ok { e with i := u32 (e.i + 1) } ∧
      EnumOver m pte (d + 1) { e with i := u32 (e.i + 1) } := by
  have hi := h.i
  have hc := h.card
  constructor
  · unfold Enum.next
    simp only
    rw [if_neg (by rw [hi]; unfold u32; omega)]
    rfl
  · refine ⟨h.it, ?_, h.card, h.chunk, h.chunks, h.pte_, h.has_next, h.len⟩
    simp only [hi]
    unfold u32
    omega

theorem EnumOver.nexts {pte : Nat} (n : Nat) : ∀ {d : Nat} {e : Enum}, EnumOver m pte d e →
    d + n < 4294967296 → ∃ i, Enum.nexts dbg m n e = .ok { e with i := i } ∧
      EnumOver m pte (d + n) { e with i := i } := by
  induction n with
  | zero => intro d e h _; exact ⟨e.i, rfl, h⟩
  | succ n ih =>
    intro d e h hd
    obtain ⟨h1, h2⟩ := h.next (dbg := dbg) (by omega)
    obtain ⟨i, h3, h4⟩ := ih h2 (by omega)
    refine ⟨i, ?_, ?_⟩
    · unfold Enum.nexts
      rw [h1, ok_bind, h3]
    · rw [show d + (n + 1) = d + 1 + n by omega]; exact h4

/-- The call number 2^32 after the end goes on to the next slice. -/
theorem EnumOver.wrap {pte : Nat} {e : Enum} (h : EnumOver m pte 4294967295 e)
    (hc0 : 0 < e.cardinality) :
    e.next dbg m = (do
      let it ← e.it.next m
      let c ← it.cardinality m
      let (_, buf) ← decode_chunk dbg m it e.buf 0
      return { e with i := 0, chunk := e.chunks + 1, it := it, cardinality := c, buf := buf }) := by
  have hi := h.i
  have hc := h.card
  have hch := h.chunk
  have hcs := h.chunks
  unfold Enum.next
  simp only
  rw [if_pos (by rw [hi]; unfold u32; omega), hch, u32_lt (by omega), if_neg (by omega)]

theorem Enum.nexts_add (a b : Nat) (e : Enum) :
    Enum.nexts dbg m (a + b) e = (do let e ← Enum.nexts dbg m a e; Enum.nexts dbg m b e) := by
  induction a generalizing e with
  | zero => rw [Nat.zero_add]; rfl
  | succ a ih =>
    rw [show a + 1 + b = (a + b) + 1 by omega, Enum.nexts, Enum.nexts]
    cases e.next dbg m with
    | error x => rfl
    | ok e' => simp only [ok_bind]; exact ih e'

theorem EnumAt.last {cs : List Chk} {pte k : Nat} {pre post : List Chk} {c : Chk} {e : Enum}
    (hw : ChunksWF cs) (h : EnumAt m cs pte k pre c post e) (hk : k + 1 = cardSum cs) :
    ∃ e', e.next dbg m = .ok e' ∧ EnumOver m pte 0 e' ∧ 0 < e'.cardinality ∧ e'.it = e.it := by
  have hmem : c ∈ cs := by rw [h.split]; simp
  have hcp := (hw.2 c hmem).card_pos
  have hc := (hw.2 c hmem).card_le
  have hlen := hw.length_le
  have hil := h.i_lt
  have hi := h.i
  have hsum : cardSum cs = cardSum pre + (c.card + cardSum post) := by
    rw [h.split, cardSum_append, cardSum_cons]
  have hpost : post = [] := by
    cases hp : post with
    | nil => rfl
    | cons d post' =>
      have := (hw.2 d (by rw [h.split, hp]; simp)).card_pos
      rw [hp, cardSum_cons] at hsum
      omega
  subst hpost
  rw [cardSum_nil] at hsum
  have hcs : cs.length = pre.length + 1 := by rw [h.split]; simp
  have hu : u32 (e.i + 1) = e.i + 1 := u32_lt (by omega)
  have hch : u32 (e.chunk + 1) = pre.length + 1 := by rw [h.chunk]; exact u32_lt (by omega)
  unfold Enum.next
  simp only [hu, h.card, hch, h.chunks]
  rw [if_pos (by omega), if_pos hcs.symm]
  refine ⟨_, rfl, ⟨⟨c, h.it⟩, ?_, ?_, ?_, ?_, h.pte_, rfl, h.len⟩, ?_⟩
  · have := h.card
    simp only
    rw [u32_lt (by omega)]
    omega
  · simp only; omega
  · exact hcs.symm
  · simp only; omega
  · exact ⟨hcp, rfl⟩

/-- the enumerator after exactly as many calls as there are elements -/
theorem enum_over (hv : Valid xs) (hs : Stored dbg xs 31 m s) (pte : Nat)
    (buf : List Nat) (hbuf : buf.length = 65536) :
    ∃ e e', Enum.init dbg' m buf s pte = .ok e ∧ Enum.nexts dbg' m xs.length e = .ok e' ∧
      EnumOver m pte 0 e' ∧ 0 < e'.cardinality := by
  have hr := hs.repr hv
  have hsm := chunksOf_small hv.2.1
  obtain ⟨e, c, post, e1, h1⟩ := Enum.init_spec (dbg := dbg') hr hsm hbuf pte
  have hx := seqElems_chunksOf hv
  have htot : cardSum (chunksOf xs) = xs.length := by rw [← seqElems_length, hx]
  have hlt : xs.length < 4294967296 := by
    have h2 := hr.wf.cardSum_lt
    omega
  have hpos := List.length_pos_iff.mpr hv.1
  obtain ⟨e', e2, h2⟩ := Enum.nexts_spec (dbg := dbg') hr.wf hsm (xs.length - 1) (k := 0) (by omega)
    (Or.inl ⟨_, _, _, h1⟩)
  rw [Nat.zero_add] at h2
  rcases h2 with ⟨pre, c, post, h⟩ | ⟨h, hge⟩
  · obtain ⟨e3, h3, h4, h5, -⟩ := h.last (dbg := dbg') hr.wf (by omega)
    refine ⟨e, e3, e1, ?_, h4, h5⟩
    rw [show xs.length = (xs.length - 1) + 1 by omega, Enum.nexts_add, e2, ok_bind]
    unfold Enum.nexts
    rw [h3]
    rfl
  · omega

/-- C09: the bound on the number of calls, exactly: up to 2^32 - 1 calls after the last element,
`has_next()` is false and `value()` is `past_the_end`. -/
theorem C09_after_end (hv : Valid xs) (hs : Stored dbg xs 31 m s) (pte : Nat)
    (buf : List Nat) (hbuf : buf.length = 65536) (d : Nat) (hd : d < 4294967296) :
    ∃ e e', Enum.init dbg' m buf s pte = .ok e ∧ Enum.nexts dbg' m (xs.length + d) e = .ok e' ∧
      e'.has_next = false ∧ e'.value = .ok pte := by
  obtain ⟨e, e', h1, h2, h3, -⟩ := enum_over (dbg' := dbg') hv hs pte buf hbuf
  obtain ⟨i, h4, h5⟩ := h3.nexts (dbg := dbg') d (by omega)
  refine ⟨e, _, h1, ?_, h5.has_next, ?_⟩
  · rw [Enum.nexts_add, h2, ok_bind, h4]
  · unfold Enum.value
    rw [h5.has_next, h5.pte_]
    rfl

/-- C09: and the next call leaves the last slice: the iterator is behind it, and the code decodes what
it finds there. -/
theorem C09_endless (hv : Valid xs) (hs : Stored dbg xs 31 m s) (pte : Nat)
    (buf : List Nat) (hbuf : buf.length = 65536) :
    ∃ e e' it, Enum.init dbg' m buf s pte = .ok e ∧
      Enum.nexts dbg' m (xs.length + 4294967295) e = .ok e' ∧ e'.it.next m = .ok it ∧
      it.has_next = false ∧
      Enum.nexts dbg' m (xs.length + 4294967296) e = (do
        let c ← it.cardinality m
        let (_, buf) ← decode_chunk dbg' m it e'.buf 0
        return { e' with i := 0, chunk := e'.chunks + 1, it := it, cardinality := c, buf := buf }) := by
  obtain ⟨e, e', h1, h2, h3, h3'⟩ := enum_over (dbg' := dbg') hv hs pte buf hbuf
  obtain ⟨i, h4, h5⟩ := h3.nexts (dbg := dbg') 4294967295 (by omega)
  have hn : Enum.nexts dbg' m (xs.length + 4294967295) e = .ok { e' with i := i } := by
    rw [Enum.nexts_add, h2, ok_bind, h4]
  obtain ⟨c, hit⟩ := h5.it
  obtain ⟨it, g1, g2, -⟩ := hit.next
  refine ⟨e, _, it, h1, hn, g1, g2.has_next_nil, ?_⟩
  rw [show xs.length + 4294967296 = xs.length + 4294967295 + 1 by omega, Enum.nexts_add, hn, ok_bind]
  have h6 := h5.wrap (dbg := dbg') h3'
  rw [g1, ok_bind] at h6
  have : ∀ e : Enum, Enum.nexts dbg' m 1 e = e.next dbg' m := by
    intro e
    unfold Enum.nexts
    cases e.next dbg' m with
    | error x => rfl
    | ok e' => rfl
  rw [this, h6]

theorem Enum.nexts_one (e : Enum) : Enum.nexts dbg m 1 e = e.next dbg m := by
  rw [Enum.nexts]
  cases e.next dbg m with
  | error x => rfl
  | ok e' => rfl

theorem Enum.init_it {buf : List Nat} {pte : Nat} {e : Enum} (h : Enum.init dbg m buf s pte = .ok e) :
    e.it = s.begin := by
  unfold Enum.init at h
  simp only at h
  cases h2 : s.begin.cardinality m with
  | error x => rw [h2] at h; cases h
  | ok c =>
    rw [h2, ok_bind] at h
    cases h3 : decode_chunk dbg m s.begin buf 0 with
    | error x => rw [h3] at h; cases h
    | ok r =>
      rw [h3, ok_bind] at h
      injection h with h
      rw [← h]

theorem five_end :
    (do
      let s ← SSeq.ofAddr fiveMem 0
      let it ← s.begin.next fiveMem
      return (it.has_next, (it.cardinality fiveMem).toOption, (it.type fiveMem).toOption) : Res _).toOption
      = some (false, some 6, some 0) := by
  decide +kernel

theorem ok_of_toOption {α : Type} {r : Res α} {a : α} (h : r.toOption = some a) : r = .ok a := by
  cases r with
  | error x => cases h
  | ok b => cases h; rfl

/-- C09: on the list of the single element 5, followed in memory by zeros, 2^32 calls are fine and one
more is undefined behaviour; with assertions it is an abort. -/
theorem C09_endless_ub : ∃ xs m s e, Valid xs ∧ Stored true xs 31 m s ∧
    Enum.init false m (List.replicate 65536 0) s 0 = .ok e ∧
    (∀ dbg, ∃ e', Enum.nexts dbg m (xs.length + 4294967295) e = .ok e') ∧
    Enum.nexts false m (xs.length + 4294967296) e = .error .ub ∧
    Enum.nexts true m (xs.length + 4294967296) e = .error .abort := by
  obtain ⟨st, bytes, hb, hst⟩ := stored_total true five_valid
  have hmem : fiveMem = memOf 0 bytes 31 := by unfold fiveMem; rw [hb]; rfl
  obtain ⟨s, hs1, hs⟩ := hst fiveMem 0 31 (by rw [hmem]; exact loaded_memOf _ _ _)
    (by rw [hmem]; exact readable_memOf _ _ _)
  have hr := hs.repr five_valid
  have hc := five_end
  rw [hs1, ok_bind] at hc
  obtain ⟨e, c, post, e1, h1⟩ := Enum.init_spec (dbg := false) hr (chunksOf_small five_valid.2.1)
    (buf := List.replicate 65536 0) List.length_replicate 0
  have hit : e.it = s.begin := Enum.init_it e1
  have htot : cardSum (chunksOf [5]) = 1 := by
    rw [← seqElems_length, seqElems_chunksOf five_valid]; rfl
  have key : ∀ dbg, (∃ e', Enum.nexts dbg fiveMem (1 + 4294967295) e = .ok e') ∧
      Enum.nexts dbg fiveMem (1 + 4294967296) e = unreachable dbg := by
    intro dbg
    obtain ⟨e2, n1, o1, o2, o3⟩ := h1.last (dbg := dbg) hr.wf (by omega)
    obtain ⟨i, n2, o4⟩ := o1.nexts (dbg := dbg) 4294967295 (by omega)
    have hn : Enum.nexts dbg fiveMem (1 + 4294967295) e = .ok { e2 with i := i } := by
      rw [Enum.nexts_add, Enum.nexts_one, n1, ok_bind, n2]
    refine ⟨⟨_, hn⟩, ?_⟩
    rw [show 1 + 4294967296 = (1 + 4294967295) + 1 by omega, Enum.nexts_add, hn, ok_bind,
      Enum.nexts_one, o4.wrap o2]
    simp only [o3, hit]
    cases h4 : s.begin.next fiveMem with
    | error x => rw [h4] at hc; cases hc
    | ok it =>
      rw [h4, ok_bind] at hc
      have hc' := Option.some.inj hc
      simp only [Prod.mk.injEq] at hc'
      obtain ⟨k1, k2, k3⟩ := hc'
      rw [ok_bind, ok_of_toOption k2, ok_bind]
      have hd : decode_chunk dbg fiveMem it e2.buf 0 = unreachable dbg := by
        unfold decode_chunk It.id
        simp only [k1, ok_of_toOption k3, ok_bind]
        rfl
      rw [hd]
      cases dbg <;> rfl
  exact ⟨[5], fiveMem, s, e, five_valid, hs, e1, fun dbg => (key dbg).1, (key false).2, (key true).2⟩

/-! ## Examples -/

example : ∃ m s e e', Stored true [3, 5, 300, 70000] 31 m s ∧
    Enum.init false m (List.replicate 65536 0) s 99 = .ok e ∧
    Enum.nexts false m (4 + 4294967295) e = .ok e' ∧ e'.value = .ok 99 := by
  obtain ⟨m, s, hs⟩ := stored_exists true small_valid 31
  obtain ⟨e, e', h1, h2, -, h3⟩ := C09_after_end (dbg' := false) small_valid hs 99
    (List.replicate 65536 0) List.length_replicate 4294967295 (by omega)
  exact ⟨m, s, e, e', hs, h1, h2, h3⟩

example : ∃ m s e e' it, Stored true [3, 5, 300, 70000] 31 m s ∧
    Enum.nexts true m (4 + 4294967295) e = .ok e' ∧ e'.it.next m = .ok it ∧ it.has_next = false := by
  obtain ⟨m, s, hs⟩ := stored_exists true small_valid 31
  obtain ⟨e, e', it, -, h2, h3, h4, -⟩ := C09_endless (dbg' := true) small_valid hs 99
    (List.replicate 65536 0) List.length_replicate
  exact ⟨m, s, e, e', it, hs, h2, h3, h4⟩

end Sliced
