import Verif.Proof.Reads
import Verif.Props.Locality
/-!
# What the point queries cost (C58)

The cost of a query is measured by the number of bytes of memory its outcome depends on: `k` bytes
suffice if there are `k` addresses such that every memory with the same contents there gives the
same outcome.  `Costs m k f` (Proof/Reads.lean) says just that; the theorems below spell it out.
-/
namespace Sliced

variable {dbg dbg' : Bool} {xs : List Nat} {m : Mem} {s : SSeq}

/-! ## Upper bounds on any memory -/

/-- C58: `contains` depends on at most 6 bytes for every 32 slices and 678 more, whatever the
memory holds — even if it does not hold an encoding at all. -/
theorem C58_contains_any (dbg : Bool) (m : Mem) (s : SSeq) (v : Nat) :
    ∃ S : List Nat, S.length ≤ 6 * ((s.chunks - 1) / 32) + 678 ∧
      ∀ m', (∀ p ∈ S, m' p = m p) → s.contains dbg m' v = s.contains dbg m v :=
  reads_contains dbg s v

/-- C58: the same for `next_geq`, with the bytes of up to two slices. -/
theorem C58_next_geq_any (dbg : Bool) (m : Mem) (s : SSeq) (v : Nat) :
    ∃ S : List Nat, S.length ≤ 6 * ((s.chunks - 1) / 32) + 16524 ∧
      ∀ m', (∀ p ∈ S, m' p = m p) → s.next_geq dbg m' v = s.next_geq dbg m v :=
  reads_next_geq dbg s v

/-- C58: `cardinality` depends on two bytes for every slice. -/
theorem C58_cardinality_any (m : Mem) (s : SSeq) :
    ∃ S : List Nat, S.length ≤ 2 * s.chunks ∧
      ∀ m', (∀ p ∈ S, m' p = m p) → s.cardinality m' = s.cardinality m :=
  reads_cardinality_loop s.chunks s.header 0

/-! ## Stored lists: the answer is right on every memory that agrees with these few bytes -/

theorem Stored.chunks (hv : Valid xs) (hs : Stored dbg xs 0 m s) :
    s.chunks = (slicesOf xs).length := by
  rw [(hs.repr hv).chunks, chunksOf_length]

/-- C58: `contains` finds the answer from at most 6 bytes for every 32 slices and 678 more. -/
theorem C58_contains (hv : Valid xs) (hs : Stored dbg xs 0 m s) {v : Nat} (h : v < 4294967296) :
    ∃ S : List Nat, S.length ≤ 6 * (((slicesOf xs).length - 1) / 32) + 678 ∧
      ∀ m', (∀ p ∈ S, m' p = m p) → s.contains dbg' m' v = .ok (decide (v ∈ xs)) := by
  obtain ⟨S, h1, h2⟩ := C58_contains_any dbg' m s v
  rw [hs.chunks hv] at h1
  exact ⟨S, h1, fun m' hm => (h2 m' hm).trans (C04_contains hv hs h)⟩

/-- C58: `select` finds the element from at most 8 bytes for every 32 slices and 8326 more. -/
theorem C58_select (hv : Valid xs) (hs : Stored dbg xs 0 m s) {r : Nat} (h : r < xs.length)
    (value : Nat) :
    ∃ S : List Nat, S.length ≤ 8 * (((slicesOf xs).length - 1) / 32) + 8326 ∧
      ∀ m', (∀ p ∈ S, m' p = m p) → s.select dbg' m' r value = .ok (true, xs[r]) := by
  obtain ⟨S, h1, h2⟩ := reads_select (dbg := dbg') (hs.repr hv) r value
  rw [hs.chunks hv] at h1
  exact ⟨S, h1, fun m' hm => (h2 m' hm).trans (C05_select hv hs h value)⟩

/-- C58: the same for a rank out of range. -/
theorem C58_select_out (hv : Valid xs) (hs : Stored dbg xs 0 m s) {r : Nat} (h : xs.length ≤ r)
    (h32 : r < 4294967296) (value : Nat) :
    ∃ S : List Nat, S.length ≤ 8 * (((slicesOf xs).length - 1) / 32) + 8326 ∧
      ∀ m', (∀ p ∈ S, m' p = m p) → s.select dbg' m' r value = .ok (false, value) := by
  obtain ⟨S, h1, h2⟩ := reads_select (dbg := dbg') (hs.repr hv) r value
  rw [hs.chunks hv] at h1
  exact ⟨S, h1, fun m' hm => (h2 m' hm).trans (C05_select_out hv hs h h32 value)⟩

/-- C58: `next_geq` finds its element from at most 6 bytes for every 32 slices and 16524 more. -/
theorem C58_next_geq (hv : Valid xs) (hs : Stored dbg xs 0 m s) {v x : Nat} (h : v < 4294967296)
    (hx : x ∈ xs) (hge : v ≤ x) (hleast : ∀ y ∈ xs, v ≤ y → x ≤ y) :
    ∃ S : List Nat, S.length ≤ 6 * (((slicesOf xs).length - 1) / 32) + 16524 ∧
      ∀ m', (∀ p ∈ S, m' p = m p) → s.next_geq dbg' m' v = .ok x := by
  obtain ⟨S, h1, h2⟩ := C58_next_geq_any dbg' m s v
  rw [hs.chunks hv] at h1
  exact ⟨S, h1, fun m' hm => (h2 m' hm).trans (C06_next_geq hv hs h hx hge hleast)⟩

/-- C58: `cardinality` adds up two bytes for every slice. -/
theorem C58_cardinality (hv : Valid xs) (hs : Stored dbg xs 0 m s) :
    ∃ S : List Nat, S.length ≤ 2 * (slicesOf xs).length ∧
      ∀ m', (∀ p ∈ S, m' p = m p) → s.cardinality m' = .ok xs.length := by
  obtain ⟨S, h1, h2⟩ := C58_cardinality_any m s
  rw [hs.chunks hv] at h1
  exact ⟨S, h1, fun m' hm => (h2 m' hm).trans (C03_cardinality hv hs).1⟩

theorem slicesOf_length_le (xs : List Nat) : (slicesOf xs).length ≤ 65535 := by
  have := List.length_filter_le (fun i => decide (sliceCard xs i ≠ 0)) (List.range 65535)
  rw [List.length_range] at this
  exact this

/-- C58: no `contains` depends on more than 12960 bytes, however long the list. -/
theorem C58_contains_total (hv : Valid xs) (hs : Stored dbg xs 0 m s) {v : Nat}
    (h : v < 4294967296) :
    ∃ S : List Nat, S.length ≤ 12960 ∧
      ∀ m', (∀ p ∈ S, m' p = m p) → s.contains dbg' m' v = .ok (decide (v ∈ xs)) := by
  obtain ⟨S, h1, h2⟩ := C58_contains (dbg' := dbg') hv hs h
  have := slicesOf_length_le xs
  exact ⟨S, by omega, h2⟩

/-! ## Lower bound: the search for the slice is linear in the number of slices before it -/

theorem rd8_gone {m : Mem} {p : Nat} (h : m p = none) : rd8 m p = .error .ub := by
  unfold rd8; rw [h]

/-- memory with the byte at `p` unreadable -/
def without (m : Mem) (p : Nat) : Mem := fun q => if q = p then none else m q

theorem rd8_without {m : Mem} {p q : Nat} (h : q ≠ p) : rd8 (without m p) q = rd8 m q := by
  unfold rd8 without; rw [if_neg h]

theorem rd16_without {m : Mem} {p q : Nat} (h : p < q ∨ q + 2 ≤ p) :
    rd16 (without m p) q = rd16 m q := by
  unfold rd16
  rw [rd8_without (by omega), rd8_without (by omega)]

theorem rd32_without {m : Mem} {p q : Nat} (h : p < q ∨ q + 4 ≤ p) :
    rd32 (without m p) q = rd32 m q := by
  unfold rd32
  rw [rd16_without (by omega), rd16_without (by omega)]

theorem rd8_err {m : Mem} {q : Nat} {e : Err} (h : rd8 m q = .error e) : e = .ub := by
  unfold rd8 at h
  cases hm : m q with
  | none => rw [hm] at h; cases h; rfl
  | some b => rw [hm] at h; cases h

theorem rd16_err {m : Mem} {q : Nat} {e : Err} (h : rd16 m q = .error e) : e = .ub := by
  unfold rd16 at h
  cases h0 : rd8 m q with
  | error x => rw [h0] at h; cases h; exact rd8_err h0
  | ok b0 =>
    rw [h0] at h
    cases h1 : rd8 m (q + 1) with
    | error x => rw [h1] at h; cases h; exact rd8_err h1
    | ok b1 => rw [h1] at h; cases h

theorem rd16_lost {m : Mem} {p q : Nat} (h1 : q ≤ p) (h2 : p < q + 2) :
    rd16 (without m p) q = .error .ub := by
  have hg : rd8 (without m p) p = .error .ub := rd8_gone (if_pos rfl)
  unfold rd16
  cases h0 : rd8 (without m p) q with
  | error x => rw [rd8_err h0]; rfl
  | ok b0 =>
    have : p ≠ q := by
      rintro rfl
      rw [hg] at h0; cases h0
    rw [show q + 1 = p by omega, hg]; rfl

theorem rd32_lost {m : Mem} {p q : Nat} (h1 : q ≤ p) (h2 : p < q + 4) :
    rd32 (without m p) q = .error .ub := by
  unfold rd32
  by_cases h : p < q + 2
  · rw [rd16_lost h1 h]; rfl
  · cases h0 : rd16 (without m p) q with
    | error x => rw [rd16_err h0]; rfl
    | ok b0 => rw [rd16_lost (m := m) (p := p) (q := q + 2) (by omega) (by omega)]; rfl

/-- The jump loop needs the offset of every group of 32 chunks it jumps over. -/
theorem skip_value_loop_lost {B : Nat → Chk → Prop} {m : Mem} {lb p : Nat} {f j : Nat} {it : It}
    {cs : List Chk} {c : Chk} (h : ItOnP B m it cs) (hp : PtrsAt m it.pointers cs)
    (hc : cs[32 * (j + 1)]? = some c) (hle : c.id ≤ lb) (hf : j < f) (hph : p < it.header)
    (h1 : it.pointers + 8 * j + 4 ≤ p) (h2 : p < it.pointers + 8 * j + 8) :
    It.skip_value_loop (without m p) lb f it = .error .ub := by
  induction j generalizing f it cs with
  | zero =>
    obtain ⟨f, rfl⟩ : ∃ g, f = g + 1 := ⟨f - 1, by omega⟩
    have hl := (List.getElem?_eq_some_iff.mp hc).1
    have hend := h.end_
    unfold It.skip_value_loop
    rw [if_pos (by simp only [It.skip_position, associativity]; omega)]
    have hh := (h.hdr hc).1
    have e : it.skip_header = it.header + 8 * (32 * (0 + 1)) := rfl
    rw [e, rd16_without (by omega), hh]
    simp only [ok_bind]
    rw [if_pos hle]
    unfold It.jump
    rw [rd32_lost (by omega) (by omega)]
    rfl
  | succ j ih =>
    obtain ⟨f, rfl⟩ : ∃ g, f = g + 1 := ⟨f - 1, by omega⟩
    have hl := (List.getElem?_eq_some_iff.mp hc).1
    have hend := h.end_
    unfold It.skip_value_loop
    rw [if_pos (by simp only [It.skip_position, associativity]; omega)]
    have hc32 : cs[32]? = some cs[32] := List.getElem?_eq_getElem (by omega)
    have hh := (h.hdr hc32).1
    have e : it.skip_header = it.header + 8 * 32 := rfl
    rw [e, rd16_without (by omega), hh]
    simp only [ok_bind]
    have hlt : cs[32].id < c.id := by
      have hpw := h.wf.1
      have he := (List.getElem?_eq_some_iff.mp hc).2
      rw [List.pairwise_iff_getElem] at hpw
      have := hpw 32 (32 * (j + 1 + 1)) (by omega) hl (by omega)
      rwa [he] at this
    rw [if_pos (by omega)]
    obtain ⟨it1, e1, i1, p1, -⟩ := It.jump_spec h hp (by omega)
    have ej : It.jump (without m p) it = .ok it1 := by
      rw [← e1]
      unfold It.jump
      rw [rd32_without (by omega)]
    rw [ej]
    have hfl : it1.header = it.header + 256 ∧ it1.pointers = it.pointers + 8 := by
      unfold It.jump at e1
      cases er : rd32 m (it.pointers + 4) with
      | error x => rw [er] at e1; cases e1
      | ok o => rw [er] at e1; cases e1; exact ⟨rfl, rfl⟩
    have hc' : (cs.drop 32)[32 * (j + 1)]? = some c := by
      rw [List.getElem?_drop, ← hc]
      congr 1
      omega
    exact ih i1 p1 hc' (by omega) (by omega) (by omega) (by omega)

theorem length_ge_of_subset {L S : List Nat} (hL : L.Nodup) (h : ∀ x ∈ L, x ∈ S) :
    L.length ≤ S.length := by
  induction L generalizing S with
  | nil => simp
  | cons a L ih =>
    rw [List.nodup_cons] at hL
    have ha := h a (by simp)
    have := ih (S := S.erase a) hL.2 (fun x hx => by
      have hne : x ≠ a := fun e => hL.1 (e ▸ hx)
      exact (List.mem_erase_of_ne hne).mpr (h x (by simp [hx])))
    rw [List.length_erase_of_mem ha] at this
    have := List.length_pos_of_mem ha
    simp only [List.length_cons]
    omega

/-- C58: if the slice of `v` comes after `32 * J` stored slices, `contains` (of a value that is in
the list or not) depends on at least `4 * J` bytes: no fewer addresses determine the answer. -/
theorem C58_contains_linear (hv : Valid xs) (hs : Stored dbg xs 0 m s) {v J : Nat}
    (h : v < 4294967296) (hJ : 32 * J < (slicesOf xs).length)
    (hid : (slicesOf xs)[32 * J] ≤ v / 65536) {S : List Nat}
    (hS : ∀ m', (∀ p ∈ S, m' p = m p) → s.contains dbg' m' v = s.contains dbg' m v) :
    4 * J ≤ S.length := by
  have hr := hs.repr hv
  have hch := hs.chunks hv
  have hhd : s.header = s.pointers + s.chunks / 32 * 8 := by
    obtain ⟨a, st, bytes, -, -, -, e⟩ := hs
    unfold SSeq.ofAddr at e
    cases er : rd16 m a with
    | error x => rw [er] at e; cases e
    | ok c =>
      rw [er] at e
      cases e
      show a + 2 + (1 + c) / 32 * 4 * 2 = a + 2 + (1 + c) / 32 * 8
      omega
  let L := (List.range (4 * J)).map (fun i => s.pointers + 8 * (i / 4) + 4 + i % 4)
  have hL : L.Nodup := by
    refine List.Pairwise.map _ ?_ List.pairwise_lt_range
    intro a b hab
    show _ ≠ _
    omega
  have hlen : L.length = 4 * J := by simp [L]
  rw [← hlen]
  refine length_ge_of_subset hL ?_
  intro p hp
  obtain ⟨i, hi, rfl⟩ := List.mem_map.mp hp
  rw [List.mem_range] at hi
  refine Classical.byContradiction fun hn => ?_
  have hj : 32 * (i / 4 + 1) < (chunksOf xs).length := by rw [chunksOf_length]; omega
  have hc := List.getElem?_eq_getElem hj
  have hcid : (chunksOf xs)[32 * (i / 4 + 1)].id ≤ v / 65536 := by
    have hm : (chunksOf xs)[32 * (i / 4 + 1)].id = (slicesOf xs)[32 * (i / 4 + 1)]'(by
        rw [← chunksOf_length]; exact hj) := by
      simp only [← chunksOf_map_id, List.getElem_map]
    rw [hm]
    rcases Nat.lt_or_ge (i / 4 + 1) J with hlt | hge
    · have := (List.pairwise_iff_getElem.mp (slicesOf_sorted xs)) (32 * (i / 4 + 1)) (32 * J)
        (by omega) hJ (by omega)
      omega
    · have e : i / 4 + 1 = J := by omega
      simp only [e]
      exact hid
  have hbad := skip_value_loop_lost (lb := v / 65536) (f := s.begin.end_ - s.begin.begin_ + 1)
    (p := s.pointers + 8 * (i / 4) + 4 + i % 4) hr.begin hr.ptrs hc hcid
    (by
      show i / 4 < s.chunks - 0 + 1
      omega)
    (by
      show _ < s.header
      omega)
    (by
      show s.pointers + _ + _ ≤ _
      omega)
    (by
      show _ < s.pointers + _ + _
      omega)
  have hub : s.contains dbg' (without m (s.pointers + 8 * (i / 4) + 4 + i % 4)) v = .error .ub := by
    have hskip : It.skip_to_value (without m (s.pointers + 8 * (i / 4) + 4 + i % 4)) s.begin
        (v / 65536) = .error .ub := by
      unfold It.skip_to_value
      rw [hbad]; rfl
    unfold SSeq.contains
    simp only [hskip]
    rfl
  have := hS (without m (s.pointers + 8 * (i / 4) + 4 + i % 4)) (fun q hq => if_neg (by
    intro e
    rw [e] at hq
    exact hn hq))
  rw [hub, C04_contains hv hs h] at this
  cases this

/-! ## Examples -/

/-- the multiples of `d` below `n * d` -/
theorem multiples_valid {n d : Nat} (hn : 0 < n) (hd : 0 < d) (h : n * d ≤ 4294901760) :
    Valid ((List.range n).map (fun i => i * d)) := by
  refine ⟨?_, ?_, ?_⟩
  · intro e
    rw [List.map_eq_nil_iff, List.range_eq_nil] at e
    omega
  · refine List.Pairwise.map _ ?_ List.pairwise_lt_range
    intro a b hab
    exact Nat.mul_lt_mul_of_pos_right hab hd
  · intro x hx
    obtain ⟨i, hi, rfl⟩ := List.mem_map.mp hx
    rw [List.mem_range] at hi
    have : i * d < n * d := Nat.mul_lt_mul_of_pos_right hi hd
    omega

/-- Two thousand million even numbers: whether 7 is among them depends on at most 12960 bytes. -/
example : ∃ (xs : List Nat) (m : Mem) (s : SSeq), xs.length = 2000000000 ∧ Valid xs ∧
    Stored false xs 0 m s ∧ ∃ S : List Nat, S.length ≤ 12960 ∧
      ∀ m', (∀ p ∈ S, m' p = m p) → s.contains false m' 7 = .ok false := by
  have hv := multiples_valid (n := 2000000000) (d := 2) (by omega) (by omega) (by omega)
  obtain ⟨m, s, hs⟩ := stored_exists false hv 0
  obtain ⟨S, h1, h2⟩ := C58_contains_total (dbg' := false) hv hs (v := 7) (by omega)
  refine ⟨_, m, s, by rw [List.length_map, List.length_range], hv, hs, S, h1, ?_⟩
  intro m' hm
  have h7 : ¬ 7 ∈ (List.range 2000000000).map (fun i => i * 2) := by
    rw [List.mem_map]
    rintro ⟨i, -, hi⟩
    omega
  rw [h2 m' hm, decide_eq_false h7]

theorem mem_slicesOf {i : Nat} : i ∈ slicesOf xs ↔ i < 65535 ∧ ∃ x ∈ xs, x / 65536 = i := by
  have e : i ∈ slicesOf xs ↔ i < 65535 ∧ sliceCard xs i ≠ 0 := by
    unfold slicesOf
    rw [List.mem_filter, List.mem_range, decide_eq_true_eq]
  rw [e, and_congr_right_iff]
  intro _
  unfold sliceCard
  rw [← Nat.pos_iff_ne_zero, List.length_pos_iff_exists_mem]
  constructor
  · rintro ⟨x, hx⟩
    rw [List.mem_filter] at hx
    exact ⟨x, hx.1, by simpa using hx.2⟩
  · rintro ⟨x, hx, e⟩
    exact ⟨x, List.mem_filter.mpr ⟨hx, by simpa using e⟩⟩

/-- One element in each of the first `n` slices: asking for the last of them depends on at least
`4 * ((n - 1) / 32)` bytes, and (`C58_contains`) on at most `6 * ((n - 1) / 32) + 678`. -/
example (n : Nat) (hn : 0 < n) (h : n ≤ 65535) : ∃ (xs : List Nat) (m : Mem) (s : SSeq),
    xs.length = n ∧ Valid xs ∧ Stored false xs 0 m s ∧ (n - 1) * 65536 ∈ xs ∧
    ∀ S : List Nat, (∀ m', (∀ p ∈ S, m' p = m p) →
      s.contains false m' ((n - 1) * 65536) = s.contains false m ((n - 1) * 65536)) →
      4 * ((n - 1) / 32) ≤ S.length := by
  have hv := multiples_valid (n := n) (d := 65536) hn (by omega) (by omega)
  obtain ⟨m, s, hs⟩ := stored_exists false hv 0
  refine ⟨_, m, s, by rw [List.length_map, List.length_range], hv, hs,
    List.mem_map.mpr ⟨n - 1, by rw [List.mem_range]; omega, rfl⟩, ?_⟩
  intro S hS
  have hlen : n ≤ (slicesOf ((List.range n).map (fun i => i * 65536))).length := by
    have := length_ge_of_subset (L := List.range n)
      (S := slicesOf ((List.range n).map (fun i => i * 65536))) List.nodup_range (by
      intro i hi
      rw [List.mem_range] at hi
      exact mem_slicesOf.mpr ⟨by omega, i * 65536, List.mem_map.mpr ⟨i, by rwa [List.mem_range], rfl⟩,
        by omega⟩)
    rwa [List.length_range] at this
  have hJ : 32 * ((n - 1) / 32) < (slicesOf ((List.range n).map (fun i => i * 65536))).length := by
    omega
  refine C58_contains_linear hv hs (by omega) hJ ?_ hS
  obtain ⟨-, x, hx, e⟩ := mem_slicesOf.mp (List.getElem_mem hJ)
  obtain ⟨i, hi, rfl⟩ := List.mem_map.mp hx
  rw [List.mem_range] at hi
  omega

example : ∃ m s, ∃ S : List Nat, Stored true [3, 5, 300, 70000] 0 m s ∧ S.length ≤ 678 ∧
    ∀ m', (∀ p ∈ S, m' p = m p) → s.contains false m' 300 = .ok true := by
  obtain ⟨m, s, h⟩ := stored_exists true small_valid 0
  obtain ⟨S, h1, h2⟩ := C58_contains (dbg' := false) small_valid h (v := 300) (by omega)
  have := slices_le small_valid
  simp only [List.length_cons, List.length_nil] at this
  exact ⟨m, s, S, h, by omega, h2⟩

example : ∃ m s, ∃ S : List Nat, Stored true [3, 5, 300, 70000] 0 m s ∧ S.length ≤ 16524 ∧
    ∀ m', (∀ p ∈ S, m' p = m p) → s.next_geq false m' 301 = .ok 70000 := by
  obtain ⟨m, s, h⟩ := stored_exists true small_valid 0
  obtain ⟨S, h1, h2⟩ := C58_next_geq (dbg' := false) small_valid h (v := 301) (x := 70000) (by omega)
    (by simp) (by omega) (by simp)
  have := slices_le small_valid
  simp only [List.length_cons, List.length_nil] at this
  exact ⟨m, s, S, h, by omega, h2⟩

end Sliced
