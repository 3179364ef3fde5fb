import Verif.Props.Cost
import Verif.Props.GeqEnumerator

/-! C58, from below, for `next_geq` and `select`: the upper bounds of `Cost.lean` grow with the
number of slices before the answer, and so does what the two calls need. Each group of 32 slices
that is jumped over costs `contains` and `next_geq` at least 6 bytes, the 4 of its offset and the 2
of the id after it (s_sequence.hpp:113-121), and `select` all 8 bytes of its skip pointer (select.hpp:77-102 through
s_sequence.hpp:123-143). `cardinality()` (s_sequence.hpp:45-53) depends on exactly 2 bytes for each
slice. -/
namespace Sliced

variable {xs : List Nat} {m : Mem} {s : SSeq} {dbg dbg' : Bool}

theorem Stored.header_eq {pad : Nat} (hs : Stored dbg xs pad m s) :
    s.header = s.pointers + s.chunks / 32 * 8 := by
  obtain ⟨a, st, bytes, -, -, -, e⟩ := hs
  unfold SSeq.ofAddr at e
  cases er : rd16 m a with
  | error x => rw [er] at e; cases e
  | ok c =>
    rw [er] at e
    cases e
    show a + 2 + (1 + c) / 32 * 4 * 2 = a + 2 + (1 + c) / 32 * 8
    omega

set_option maxRecDepth 4096 in
/-- The jump loop also needs the id of the chunk after every group of 32 chunks it jumps over. -/
theorem skip_value_loop_lost_id {B : Nat → Chk → Prop} {m : Mem} {lb p : Nat} {f j : Nat} {it : It}
    {cs : List Chk} {c : Chk} (h : ItOnP B m it cs) (hp : PtrsAt m it.pointers cs)
    (hc : cs[32 * (j + 1)]? = some c) (hle : c.id ≤ lb) (hf : j < f)
    (hph : it.pointers + 8 * (j + 1) ≤ it.header)
    (h1 : it.header + 8 * (32 * (j + 1)) ≤ p) (h2 : p < it.header + 8 * (32 * (j + 1)) + 2) :
    It.skip_value_loop (without m p) lb f it = .error .ub := by
  induction j generalizing f it cs with
  | zero =>
    obtain ⟨f, rfl⟩ : ∃ g, f = g + 1 := ⟨f - 1, by omega⟩
    have hl := (List.getElem?_eq_some_iff.mp hc).1
    have hend := h.end_
    unfold It.skip_value_loop
    rw [if_pos (by simp only [It.skip_position, associativity]; omega)]
    have e : it.skip_header = it.header + 256 := rfl
    rw [e, rd16_lost (by omega) (by omega)]
    rfl
  | succ j ih =>
    have q1 : it.header + 256 + 8 * (32 * (j + 1)) ≤ p := by omega
    have q2 : p < it.header + 256 + 8 * (32 * (j + 1)) + 2 := by omega
    obtain ⟨f, rfl⟩ : ∃ g, f = g + 1 := ⟨f - 1, by omega⟩
    have hl := (List.getElem?_eq_some_iff.mp hc).1
    have hend := h.end_
    unfold It.skip_value_loop
    rw [if_pos (by simp only [It.skip_position, associativity]; omega)]
    have hc32 : cs[32]? = some cs[32] := List.getElem?_eq_getElem (by omega)
    have hh := (h.hdr hc32).1
    have e : it.skip_header = it.header + 8 * 32 := rfl
    rw [e, rd16_without (by omega), hh]
    simp only [ok_bind]
    have hlt : cs[32].id < c.id := by
      have hpw := h.wf.1
      have he := (List.getElem?_eq_some_iff.mp hc).2
      rw [List.pairwise_iff_getElem] at hpw
      have := hpw 32 (32 * (j + 1 + 1)) (by omega) hl (by omega)
      rwa [he] at this
    rw [if_pos (by omega)]
    obtain ⟨it1, e1, i1, p1, -⟩ := It.jump_spec h hp (by omega)
    have ej : It.jump (without m p) it = .ok it1 := by
      rw [← e1]
      unfold It.jump
      rw [rd32_without (by omega)]
    rw [ej]
    have hfl : it1.header = it.header + 256 ∧ it1.pointers = it.pointers + 8 := by
      unfold It.jump at e1
      cases er : rd32 m (it.pointers + 4) with
      | error x => rw [er] at e1; cases e1
      | ok o => rw [er] at e1; cases e1; exact ⟨rfl, rfl⟩
    have hc' : (cs.drop 32)[32 * (j + 1)]? = some c := by
      rw [List.getElem?_drop, ← hc]
      congr 1
      omega
    obtain ⟨g1, g2⟩ := hfl
    exact ih i1 p1 hc' (by omega) (by rw [g1, g2]; omega) (g1 ▸ q1) (g1 ▸ q2)

/-- the bytes that `skip_to_value` reads to jump over the first groups: those of the offset of group
`i / 6` and those of the id of the slice after it -/
def jumpByte (s : SSeq) (i : Nat) : Nat :=
  if i % 6 < 4 then s.pointers + 8 * (i / 6) + 4 + i % 6
  else s.header + 256 * (i / 6 + 1) + (i % 6 - 4)

/-- Without one of these bytes `skip_to_value` reads outside what is readable. -/
theorem skip_to_value_lost (hv : Valid xs) (hs : Stored dbg xs 0 m s) {i J k : Nat}
    (hJ : 32 * J < (slicesOf xs).length) (hid : (slicesOf xs)[32 * J] ≤ i) (hk : k < 6 * J) :
    It.skip_to_value (without m (jumpByte s k)) s.begin i = .error .ub := by
  have hr := hs.repr hv
  have hch := hs.chunks hv
  have hhd := hs.header_eq
  have hjl : 32 * (k / 6 + 1) < (chunksOf xs).length := by rw [chunksOf_length]; omega
  have hc := List.getElem?_eq_getElem hjl
  have hcid : (chunksOf xs)[32 * (k / 6 + 1)].id ≤ i := by
    have hm : (chunksOf xs)[32 * (k / 6 + 1)].id = (slicesOf xs)[32 * (k / 6 + 1)]'(by
        rw [← chunksOf_length]; exact hjl) := by
      simp only [← chunksOf_map_id, List.getElem_map]
    rw [hm]
    rcases Nat.lt_or_ge (k / 6 + 1) J with hlt | hge
    · have := (List.pairwise_iff_getElem.mp (slicesOf_sorted xs)) (32 * (k / 6 + 1)) (32 * J)
        (by omega) hJ (by omega)
      omega
    · have e : k / 6 + 1 = J := by omega
      simp only [e]
      exact hid
  have hbad : It.skip_value_loop (without m (jumpByte s k)) i
      (s.begin.end_ - s.begin.begin_ + 1) s.begin = .error .ub := by
    unfold jumpByte
    by_cases h4 : k % 6 < 4
    · rw [if_pos h4]
      refine skip_value_loop_lost hr.begin hr.ptrs hc hcid ?_ ?_ ?_ ?_
      · show k / 6 < s.chunks - 0 + 1
        omega
      · show _ < s.header
        omega
      · show s.pointers + _ + _ ≤ _
        omega
      · show _ < s.pointers + _ + _
        omega
    · rw [if_neg h4]
      refine skip_value_loop_lost_id hr.begin hr.ptrs hc hcid ?_ ?_ ?_ ?_
      · show k / 6 < s.chunks - 0 + 1
        omega
      · show s.pointers + _ ≤ s.header
        omega
      · show s.header + _ ≤ _
        omega
      · show _ < s.header + _ + _
        omega
  unfold It.skip_to_value
  rw [hbad]; rfl

/-- A function that starts with `skip_to_value` and has a defined outcome needs these bytes. -/
theorem jump_bytes_needed {α : Type} {f : Mem → Res α} (hv : Valid xs) (hs : Stored dbg xs 0 m s)
    {i J : Nat} (hJ : 32 * J < (slicesOf xs).length) (hid : (slicesOf xs)[32 * J] ≤ i)
    (hf : ∀ m', It.skip_to_value m' s.begin i = .error .ub → f m' = .error .ub)
    {x : α} (hx : f m = .ok x) {S : List Nat} (hS : ∀ m', (∀ p ∈ S, m' p = m p) → f m' = f m) :
    6 * J ≤ S.length := by
  have hch := hs.chunks hv
  have hhd := hs.header_eq
  let L := (List.range (6 * J)).map (jumpByte s)
  have hL : L.Nodup := by
    show List.Pairwise _ _
    rw [List.pairwise_map, List.pairwise_iff_getElem]
    intro a b ha hb hab
    rw [List.length_range] at ha hb
    rw [List.getElem_range, List.getElem_range]
    unfold jumpByte
    split <;> split <;> omega
  have hlen : L.length = 6 * J := by simp [L]
  rw [← hlen]
  refine length_ge_of_subset hL ?_
  intro p hp
  obtain ⟨k, hk, rfl⟩ := List.mem_map.mp hp
  rw [List.mem_range] at hk
  refine Classical.byContradiction fun hn => ?_
  have := hS (without m (jumpByte s k)) (fun q hq => if_neg (by
    intro e
    rw [e] at hq
    exact hn hq))
  rw [hf _ (skip_to_value_lost hv hs hJ hid hk), hx] at this
  cases this

/-- C58: if the slice of `v` comes after `32 * J` stored slices, `next_geq(v)` depends on at least
`6 * J` bytes, whether or not some element is at or above `v`. -/
theorem C58_next_geq_linear (hv : Valid xs) (hs : Stored dbg xs 0 m s) {v J : Nat}
    (h : v < 4294967296) (hJ : 32 * J < (slicesOf xs).length)
    (hid : (slicesOf xs)[32 * J] ≤ v / 65536) {S : List Nat}
    (hS : ∀ m', (∀ p ∈ S, m' p = m p) → s.next_geq dbg' m' v = s.next_geq dbg' m v) :
    6 * J ≤ S.length := by
  refine jump_bytes_needed (f := fun m' => s.next_geq dbg' m' v) hv hs hJ hid ?_
    (C06_find hv hs h) hS
  intro m' e
  show SSeq.next_geq dbg' m' s v = _
  unfold SSeq.next_geq
  simp only [e]
  rfl

/-- C58: and so does `contains(v)`; 6 is the factor of the upper bound (`C58_contains`). -/
theorem C58_contains_jumps (hv : Valid xs) (hs : Stored dbg xs 0 m s) {v J : Nat}
    (h : v < 4294967296) (hJ : 32 * J < (slicesOf xs).length)
    (hid : (slicesOf xs)[32 * J] ≤ v / 65536) {S : List Nat}
    (hS : ∀ m', (∀ p ∈ S, m' p = m p) → s.contains dbg' m' v = s.contains dbg' m v) :
    6 * J ≤ S.length := by
  refine jump_bytes_needed (f := fun m' => s.contains dbg' m' v) hv hs hJ hid ?_
    (C04_contains hv hs h) hS
  intro m' e
  show SSeq.contains dbg' m' s v = _
  unfold SSeq.contains
  simp only [e]
  rfl

/-- The jump loop of `skip_to_position` needs both words of the pointer of every group of 32 chunks
it jumps over. -/
theorem skip_position_loop_lost {B : Nat → Chk → Prop} {m : Mem} {rank p : Nat} {f j : Nat} {it : It}
    {cs : List Chk} {el : Nat} (h : ItOnP B m it cs) (hp : PtrsAt m it.pointers cs)
    (hel : el + cardSum cs < 4294967296) (hl : 32 * (j + 1) < cs.length)
    (hle : el + cardSum (cs.take (32 * (j + 1))) ≤ rank) (hf : j < f)
    (h1 : it.pointers + 8 * j ≤ p) (h2 : p < it.pointers + 8 * j + 8) :
    It.skip_position_loop (without m p) rank f it el = .error .ub := by
  induction j generalizing f it cs el with
  | zero =>
    obtain ⟨f, rfl⟩ : ∃ g, f = g + 1 := ⟨f - 1, by omega⟩
    have hend := h.end_
    have hsum := cardSum_take_drop 32 cs
    unfold It.skip_position_loop
    rw [if_pos (by simp only [It.skip_position, associativity]; omega)]
    by_cases hlow : p < it.pointers + 4
    · rw [rd32_lost (by omega) (by omega)]; rfl
    · have h0 := (hp 0 (by omega)).1
      simp only [Nat.mul_zero, Nat.add_zero, List.drop_zero] at h0
      simp only [Nat.zero_add, Nat.mul_one] at hle
      rw [rd32_without (by omega), h0]
      simp only [ok_bind]
      rw [u32_lt (by omega), if_neg (by omega)]
      unfold It.jump
      rw [rd32_lost (by omega) (by omega)]
      rfl
  | succ j ih =>
    obtain ⟨f, rfl⟩ : ∃ g, f = g + 1 := ⟨f - 1, by omega⟩
    have hend := h.end_
    have hsum := cardSum_take_drop 32 cs
    have hadd : cardSum (cs.take (32 * (j + 1 + 1)))
        = cardSum (cs.take 32) + cardSum ((cs.drop 32).take (32 * (j + 1))) := by
      rw [show 32 * (j + 1 + 1) = 32 + 32 * (j + 1) by omega, List.take_add, cardSum_append]
    unfold It.skip_position_loop
    rw [if_pos (by simp only [It.skip_position, associativity]; omega)]
    have h0 := (hp 0 (by omega)).1
    simp only [Nat.mul_zero, Nat.add_zero, List.drop_zero] at h0
    rw [rd32_without (by omega), h0]
    simp only [ok_bind]
    rw [u32_lt (by omega), if_neg (by omega)]
    obtain ⟨it1, e1, i1, p1, -⟩ := It.jump_spec h hp (by omega)
    have ej : It.jump (without m p) it = .ok it1 := by
      rw [← e1]
      unfold It.jump
      rw [rd32_without (by omega)]
    rw [ej]
    have hfl : it1.pointers = it.pointers + 8 := by
      unfold It.jump at e1
      cases er : rd32 m (it.pointers + 4) with
      | error x => rw [er] at e1; cases e1
      | ok o => rw [er] at e1; cases e1; rfl
    exact ih i1 p1 (by omega) (by rw [List.length_drop]; omega) (by omega) (by omega) (by omega)
      (by omega)

/-- The first `k` chunks hold at most `r` elements when the `r`-th element comes later. -/
theorem cardSum_take_le {cs : List Chk} (hw : ChunksWF cs) {r k : Nat} (hk : k < cs.length)
    (hrl : r < (seqElems cs).length) (hk' : cs[k].id ≤ (seqElems cs)[r] / 65536) :
    cardSum (cs.take k) ≤ r := by
  refine Classical.byContradiction fun hn => ?_
  have hsplit : seqElems cs = seqElems (cs.take k) ++ seqElems (cs.drop k) := by
    rw [← seqElems_append, List.take_append_drop]
  have hlen : r < (seqElems (cs.take k)).length := by rw [seqElems_length]; omega
  have hx : (seqElems cs)[r]? = (seqElems (cs.take k))[r]? := by
    rw [hsplit]
    exact List.getElem?_append_left hlen
  rw [List.getElem?_eq_getElem hrl, List.getElem?_eq_getElem hlen] at hx
  have hmem : (seqElems cs)[r] ∈ seqElems (cs.take k) := by
    rw [Option.some.inj hx]; exact List.getElem_mem _
  have hwt : ChunksWF (cs.take k) :=
    ⟨hw.1.sublist (List.take_sublist _ _), fun c hc => hw.2 c (List.mem_of_mem_take hc)⟩
  obtain ⟨c, hc, hid, -⟩ := (mem_seqElems hwt).mp hmem
  obtain ⟨n, hn1, hn2⟩ := List.mem_iff_getElem.mp hc
  rw [List.length_take] at hn1
  rw [List.getElem_take] at hn2
  have hlt := (List.pairwise_iff_getElem.mp hw.1) n k (by omega) hk (by omega)
  rw [hn2] at hlt
  omega

/-- C58: if the `r`-th element comes after `32 * J` stored slices, or there is no `r`-th element,
`select(r)` depends on at least `8 * J` bytes. -/
theorem C58_select_linear (hv : Valid xs) (hs : Stored dbg xs 0 m s) {r J : Nat} (value : Nat)
    (h : r < 4294967296) (hJ : 32 * J < (slicesOf xs).length)
    (hid : ∀ hr : r < xs.length, (slicesOf xs)[32 * J] ≤ xs[r] / 65536) {S : List Nat}
    (hS : ∀ m', (∀ p ∈ S, m' p = m p) → s.select dbg' m' r value = s.select dbg' m r value) :
    8 * J ≤ S.length := by
  have hrp := hs.repr hv
  have hch := hs.chunks hv
  have hlen32 : xs.length ≤ 4294901760 := by
    have := sorted_length_le' hv.2.1 hv.2.2
    omega
  have hsum : cardSum (chunksOf xs) = xs.length := by
    rw [← seqElems_length, seqElems_chunksOf hv]
  have hcs : ∀ j, j < J → cardSum ((chunksOf xs).take (32 * (j + 1))) ≤ r := by
    intro j hj
    by_cases hrl : r < xs.length
    · have hjl : 32 * (j + 1) < (chunksOf xs).length := by rw [chunksOf_length]; omega
      have hm : (chunksOf xs)[32 * (j + 1)].id = (slicesOf xs)[32 * (j + 1)]'(by
          rw [← chunksOf_length]; exact hjl) := by
        simp only [← chunksOf_map_id, List.getElem_map]
      refine cardSum_take_le (chunksOf_wf hv.2.1) hjl (by rw [seqElems_chunksOf hv]; exact hrl) ?_
      simp only [seqElems_chunksOf hv]
      rw [hm]
      refine Nat.le_trans ?_ (hid hrl)
      rcases Nat.lt_or_ge (j + 1) J with hlt | hge
      · have := (List.pairwise_iff_getElem.mp (slicesOf_sorted xs)) (32 * (j + 1)) (32 * J)
          (by omega) hJ (by omega)
        omega
      · have e : j + 1 = J := by omega
        simp only [e]
        exact Nat.le_refl _
    · have := cardSum_take_drop (32 * (j + 1)) (chunksOf xs)
      omega
  let L := (List.range (8 * J)).map (fun i => s.pointers + i)
  have hL : L.Nodup := by
    refine List.Pairwise.map _ ?_ List.pairwise_lt_range
    intro a b hab
    show _ ≠ _
    omega
  have hlen : L.length = 8 * J := by simp [L]
  rw [← hlen]
  refine length_ge_of_subset hL ?_
  intro p hp
  obtain ⟨i, hi, rfl⟩ := List.mem_map.mp hp
  rw [List.mem_range] at hi
  refine Classical.byContradiction fun hn => ?_
  have hcl := chunksOf_length xs
  have hbad := skip_position_loop_lost (rank := r) (f := s.begin.end_ - s.begin.begin_ + 1)
    (p := s.pointers + i) (j := i / 8) (el := 0) hrp.begin hrp.ptrs (by omega) (by omega)
    (by
      have := hcs (i / 8) (by omega)
      omega)
    (by
      show i / 8 < s.chunks - 0 + 1
      omega)
    (by
      show s.pointers + _ ≤ _
      omega)
    (by
      show _ < s.pointers + _ + _
      omega)
  have hub : s.select dbg' (without m (s.pointers + i)) r value = .error .ub := by
    have hskip : It.skip_to_position (without m (s.pointers + i)) s.begin r = .error .ub := by
      unfold It.skip_to_position
      rw [hbad]; rfl
    unfold SSeq.select
    simp only [hskip]
    rfl
  have := hS (without m (s.pointers + i)) (fun q hq => if_neg (by
    intro e
    rw [e] at hq
    exact hn hq))
  rw [hub] at this
  by_cases hrl : r < xs.length
  · rw [C05_select hv hs hrl value] at this; cases this
  · rw [C05_select_out hv hs (by omega) h value] at this; cases this

theorem cardinality_loop_lost {m : Mem} {p : Nat} (k : Nat) {n h c : Nat} (hk : k < n)
    (h1 : h + 8 * k + 2 ≤ p) (h2 : p < h + 8 * k + 4) :
    cardinality_loop (without m p) n h c = .error .ub := by
  induction k generalizing n h c with
  | zero =>
    obtain ⟨n, rfl⟩ : ∃ g, n = g + 1 := ⟨n - 1, by omega⟩
    unfold cardinality_loop
    rw [rd16_lost (by omega) (by omega)]
    rfl
  | succ k ih =>
    obtain ⟨n, rfl⟩ : ∃ g, n = g + 1 := ⟨n - 1, by omega⟩
    unfold cardinality_loop
    cases er : rd16 (without m p) (h + 2) with
    | error e => rw [rd16_err er]; rfl
    | ok x =>
      simp only [ok_bind]
      exact ih (by omega) (by omega) (by omega)

/-- C58: where `cardinality()` is defined, it depends on no fewer than 2 bytes for each chunk: with
`C58_cardinality_any` this is the exact number. On any memory, for any sequence object. -/
theorem C58_cardinality_exact {n : Nat} (h : s.cardinality m = .ok n) {S : List Nat}
    (hS : ∀ m', (∀ p ∈ S, m' p = m p) → s.cardinality m' = s.cardinality m) :
    2 * s.chunks ≤ S.length := by
  let L := (List.range (2 * s.chunks)).map (fun i => s.header + 8 * (i / 2) + 2 + i % 2)
  have hL : L.Nodup := by
    refine List.Pairwise.map _ ?_ List.pairwise_lt_range
    intro a b hab
    show _ ≠ _
    omega
  have hlen : L.length = 2 * s.chunks := by simp [L]
  rw [← hlen]
  refine length_ge_of_subset hL ?_
  intro p hp
  obtain ⟨i, hi, rfl⟩ := List.mem_map.mp hp
  rw [List.mem_range] at hi
  refine Classical.byContradiction fun hn => ?_
  have := hS (without m (s.header + 8 * (i / 2) + 2 + i % 2)) (fun q hq => if_neg (by
    intro e
    rw [e] at hq
    exact hn hq))
  rw [h] at this
  unfold SSeq.cardinality at this
  rw [cardinality_loop_lost (i / 2) (by omega) (by omega) (by omega)] at this
  cases this

/-! ## Examples -/

/-- One element in each of the first `n` slices: selecting the last of them, or past the end,
depends on at least `8 * ((n - 1) / 32)` bytes, and `next_geq` and `contains` of the last on at least
`6 * ((n - 1) / 32)`. -/
example (n : Nat) (hn : 0 < n) (h : n ≤ 65535) : ∃ (xs : List Nat) (m : Mem) (s : SSeq),
    xs.length = n ∧ Valid xs ∧ Stored false xs 0 m s ∧
    (∀ r, n - 1 ≤ r → r < 4294967296 → ∀ S : List Nat, (∀ m', (∀ p ∈ S, m' p = m p) →
      s.select false m' r 9 = s.select false m r 9) → 8 * ((n - 1) / 32) ≤ S.length) ∧
    (∀ S : List Nat, (∀ m', (∀ p ∈ S, m' p = m p) →
      s.next_geq false m' ((n - 1) * 65536) = s.next_geq false m ((n - 1) * 65536)) →
      6 * ((n - 1) / 32) ≤ S.length) ∧
    ∀ S : List Nat, (∀ m', (∀ p ∈ S, m' p = m p) →
      s.contains false m' ((n - 1) * 65536) = s.contains false m ((n - 1) * 65536)) →
      6 * ((n - 1) / 32) ≤ S.length := by
  have hv := multiples_valid (n := n) (d := 65536) hn (by omega) (by omega)
  obtain ⟨m, s, hs⟩ := stored_exists false hv 0
  have hlen : n ≤ (slicesOf ((List.range n).map (fun i => i * 65536))).length := by
    have := length_ge_of_subset (L := List.range n)
      (S := slicesOf ((List.range n).map (fun i => i * 65536))) List.nodup_range (by
      intro i hi
      rw [List.mem_range] at hi
      exact mem_slicesOf.mpr ⟨by omega, i * 65536, List.mem_map.mpr ⟨i, by rwa [List.mem_range], rfl⟩,
        by omega⟩)
    rwa [List.length_range] at this
  have hJ : 32 * ((n - 1) / 32) < (slicesOf ((List.range n).map (fun i => i * 65536))).length := by
    omega
  have hid : (slicesOf ((List.range n).map (fun i => i * 65536)))[32 * ((n - 1) / 32)] ≤ n - 1 := by
    obtain ⟨-, x, hx, e⟩ := mem_slicesOf.mp (List.getElem_mem hJ)
    obtain ⟨i, hi, rfl⟩ := List.mem_map.mp hx
    rw [List.mem_range] at hi
    omega
  refine ⟨_, m, s, by rw [List.length_map, List.length_range], hv, hs, ?_, ?_, ?_⟩
  · intro r hr h32 S hS
    refine C58_select_linear hv hs 9 h32 hJ (fun hlt => ?_) hS
    have hlt' : r < n := by rwa [List.length_map, List.length_range] at hlt
    rw [List.getElem_map, List.getElem_range]
    omega
  · intro S hS
    exact C58_next_geq_linear hv hs (by omega) hJ (by omega) hS
  · intro S hS
    exact C58_contains_jumps hv hs (by omega) hJ (by omega) hS

/-- Four elements in two slices: `cardinality()` depends on exactly four bytes. -/
example : ∃ m s, Stored true [3, 5, 300, 70000] 0 m s ∧ s.cardinality m = .ok 4 ∧
    (∃ S : List Nat, S.length ≤ 4 ∧ ∀ m', (∀ p ∈ S, m' p = m p) → s.cardinality m' = .ok 4) ∧
    ∀ S : List Nat, (∀ m', (∀ p ∈ S, m' p = m p) → s.cardinality m' = .ok 4) → 4 ≤ S.length := by
  obtain ⟨m, s, h⟩ := stored_exists true small_valid 0
  have hc : s.cardinality m = .ok 4 := (C03_cardinality small_valid h).1
  have hl : s.chunks = 2 := by
    rw [h.chunks small_valid]
    refine Nat.le_antisymm ?_ ?_
    · have := length_ge_of_subset (L := slicesOf [3, 5, 300, 70000]) (S := [0, 1])
        ((slicesOf_sorted _).imp Nat.ne_of_lt) (by
        intro i hi
        obtain ⟨-, x, hx, e⟩ := mem_slicesOf.mp hi
        simp only [List.mem_cons, List.not_mem_nil, or_false] at hx ⊢
        omega)
      simpa only [List.length_cons, List.length_nil] using this
    · have := length_ge_of_subset (L := [0, 1]) (S := slicesOf [3, 5, 300, 70000]) (by simp) (by
        intro i hi
        simp only [List.mem_cons, List.not_mem_nil, or_false] at hi
        rcases hi with rfl | rfl
        · exact mem_slicesOf.mpr ⟨by omega, 3, by simp, by omega⟩
        · exact mem_slicesOf.mpr ⟨by omega, 70000, by simp, by omega⟩)
      simpa only [List.length_cons, List.length_nil] using this
  obtain ⟨S, h1, h2⟩ := C58_cardinality_any m s
  refine ⟨m, s, h, hc, ⟨S, by omega, fun m' hm => (h2 m' hm).trans hc⟩, fun S hS => ?_⟩
  have := C58_cardinality_exact hc (S := S) (fun m' hm => (hS m' hm).trans hc.symm)
  omega

end Sliced
