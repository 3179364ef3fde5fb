import Verif.Proof.Rounds
import Verif.Props.ManyWay
import Verif.Props.Size
/-!
# How many rounds the set operations take

C76: bounds for the number of rounds of the loops over the slices.  The first phase of `intersection`
(which may begin a round without having moved the first iterator in the round before) takes at most two
rounds for each slice of the first list, on any memory; this is met by lists whose slices alternate.  The pairwise intersection takes at most two rounds for each slice of the shorter list, the
pairwise union less than one for each slice of both, and `union_many` exactly one for each slice that one
of the lists has; the second phase of `intersection` runs once for each slice that all lists have.
-/
namespace Sliced

variable {dbg dbg' : Bool} {pad : Nat} {m : Mem} {xs ys : List Nat} {l r : SSeq}

/-- **C76** The search of `intersection` for the common slices takes at most two rounds for each slice of
the first sequence: on any memory, for any objects. -/
theorem C76_search {q : SSeq} {qs : List SSeq} {c : Nat} {headers : List Nat} {n : Nat}
    (h : q.begin.id m = .ok c) :
    AtMost (fun f => candidate_while m f ((q :: qs).map SSeq.begin) c 1 headers n) (2 * q.chunks) := by
  refine (candidate_while_fuelled ..).atMost _ ?_
  refine candidate_while_rounds m _ _ c 1 headers n q.begin c rfl h (Nat.le_refl _) (It.id_le h)
    (.inr ⟨by omega, by simp, rfl⟩) ?_
  unfold phi
  rw [if_pos rfl]
  show 2 * (q.chunks - 0) + 1 ≤ _
  omega

/-- **C76** The bound is met: if the slices of two lists alternate, the search takes two rounds for each
slice of the first one, though no slice is common to both. -/
theorem C76_search_alternating {X Y headers : List Nat} {n c : Nat} (hx : Valid xs) (hy : Valid ys)
    (hl : Stored dbg xs pad m l) (hr : Stored dbg' ys pad m r)
    (hX : Enumerates X (fun i => ∃ x ∈ xs, x / 65536 = i))
    (hY : Enumerates Y (fun i => ∃ y ∈ ys, y / 65536 = i)) (halt : Alternating X Y)
    (hc : l.begin.id m = .ok c) :
    Takes (fun f => candidate_while m f [l.begin, r.begin] c 1 headers n) (2 * X.length) := by
  have eX : X = (chunksOf xs).map Chk.id := by
    rw [chunksOf_map_id]
    exact sorted_ext hX.1 (slicesOf_enumerates hx).1
      (fun i => (hX.2 i).trans ((slicesOf_enumerates hx).2 i).symm)
  have eY : Y = (chunksOf ys).map Chk.id := by
    rw [chunksOf_map_id]
    exact sorted_ext hY.1 (slicesOf_enumerates hy).1
      (fun i => (hY.2 i).trans ((slicesOf_enumerates hy).2 i).symm)
  have i0 : IdOn m l.begin X := by rw [eX]; exact (hl.repr hx).idOn
  have i1 : IdOn m r.begin Y := by rw [eY]; exact (hr.repr hy).idOn
  have len : l.chunks = X.length := by
    have := i0.end_
    have e : l.begin.end_ = l.chunks := rfl
    have e' : l.begin.begin_ = 0 := rfl
    omega
  have hYlt : ∀ y ∈ Y, y < 65536 := by
    intro y hm
    obtain ⟨v, hv, rfl⟩ := (hY.2 y).mp hm
    have := hy.2.2 v hv
    omega
  obtain ⟨k, hk, t⟩ := C76_search (qs := [r]) (headers := headers) (n := n) hc
  have ne : X ≠ [] := by
    rw [eX]
    intro h
    exact chunksOf_ne_nil hx (List.map_eq_nil_iff.mp h)
  have less : candidate_while m (2 * X.length) [l.begin, r.begin] c 1 headers n = .error .diverge := by
    clear t eX eY
    match X, Y, halt with
    | [], _, _ => exact absurd rfl ne
    | x :: A, y :: B, halt =>
      have ec : c = x := by
        have := i0.id
        rw [hc] at this
        cases this
        rfl
      rw [ec]
      refine candidate_while_alternating A 1 _ headers n i0 i1 hX.1 hY.1 ?_ (hYlt y (by simp))
        (fun b hb => hYlt b (by simp [hb])) halt (.inr rfl) (Nat.le_refl _)
      have hxy : x < y := halt.1
      simp only [idsFrom, List.dropWhile_cons]
      rw [if_neg (by simp; omega)]
  have e : k = 2 * X.length := by
    rcases Nat.lt_or_ge k (2 * X.length) with hlt | hge
    · exact absurd ((t.more (2 * X.length) hlt).symm.trans less) t.ends.ne
    · omega
  exact e ▸ t

/-- **C76** On stored lists the search finds as many slices as all the lists have in common, and the second
phase (`intersect_headers`) runs once for each of them. -/
theorem C76_slices {ps : List (List Nat × SSeq)} {s : IScratch} {H : List Nat} (hne : ps ≠ [])
    (hp : StoredAll dbg pad m ps) (hs : s.Ok)
    (hH : Enumerates H (fun i => ∀ p ∈ ps, ∃ x ∈ p.1, x / 65536 = i)) (buf : List Nat) (out : Nat) :
    ∃ headers', headers'.take H.length = H ∧
      intersection_sorted dbg' m (ps.map Prod.snd) s buf out = (do
        let (q, s, buf) ← intersect_headers dbg' m H.length 0 (ps.map (fun p => p.2.begin))
          { s with headers := headers' } buf out
        return (q - out, s, buf)) := by
  obtain ⟨it0, c, headers', H', e1, e2, e3, -, h2, h3⟩ :=
    candidate_phase_spec (by simpa using hne) hp.seqsAt hs
  have eH : H = H' := by
    refine sorted_ext hH.1 h3.1 (fun i => (hH.2 i).trans ((h3.2 i).trans ?_).symm)
    unfold Common
    constructor
    · intro h p hm
      have := h ((chunksOf p.1).map Chk.id) (List.mem_map_of_mem
        (f := List.map Chk.id) (List.mem_map_of_mem (f := fun p : List Nat × SSeq => chunksOf p.1) hm))
      rw [chunksOf_map_id] at this
      exact ((slicesOf_enumerates (hp p hm).1).2 i).mp this
    · intro h a ha
      obtain ⟨cs, hc, rfl⟩ := List.mem_map.mp ha
      obtain ⟨p, hm, rfl⟩ := List.mem_map.mp hc
      rw [chunksOf_map_id]
      exact ((slicesOf_enumerates (hp p hm).1).2 i).mpr (h p hm)
  subst eH
  refine ⟨headers', h2, ?_⟩
  unfold intersection_sorted
  simp only [e1, ok_bind, e2, e3]
  rw [List.map_map]
  rfl

/-- **C76** The loop of the pairwise intersection takes at most two rounds for each slice of the shorter
sequence: on any memory, for any objects. -/
theorem C76_pairwise_intersection {tab : Nat → List Nat} {x buf : List Nat} {out : Nat} :
    AtMost (fun f => pairwise_intersection_loop dbg tab m f l.begin r.begin x buf out)
      (2 * min l.chunks r.chunks) := by
  refine (pairwise_intersection_loop_fuelled ..).atMost _ ?_
  have el : l.begin.end_ - l.begin.begin_ = l.chunks := rfl
  have er : r.begin.end_ - r.begin.begin_ = r.chunks := rfl
  rcases Nat.le_total l.chunks r.chunks with h | h
  · refine pairwise_intersection_loop_rounds dbg tab m true _ _ _ x buf out (by omega) ?_
    intro i_l i_r _ _
    rw [if_pos rfl, el, Nat.min_eq_left h]
    split <;> omega
  · refine pairwise_intersection_loop_rounds dbg tab m false _ _ _ x buf out (by omega) ?_
    intro i_l i_r _ _
    rw [if_neg (by simp), er, Nat.min_eq_right h]
    split <;> omega

/-- **C76** The main loop of the pairwise union, whose body runs at least once, is left after at most
`l.chunks + r.chunks - 1` rounds, and more fuel does not change the outcome. -/
theorem C76_pairwise_union {s : UScratch} {buf : List Nat} {out f : Nat} (hl : 0 < l.chunks)
    (hr : 0 < r.chunks) (hf : l.chunks + r.chunks - 1 ≤ f) :
    Ends (pairwise_union_loop dbg m (l.chunks + r.chunks - 1) l.begin r.begin s buf out) ∧
      pairwise_union_loop dbg m f l.begin r.begin s buf out
        = pairwise_union_loop dbg m (l.chunks + r.chunks - 1) l.begin r.begin s buf out := by
  have he : Ends (pairwise_union_loop dbg m (l.chunks + r.chunks - 1) l.begin r.begin s buf out) := by
    refine pairwise_union_loop_rounds dbg m _ _ _ s buf out hl hr ?_
    show (l.chunks - 0) + (r.chunks - 0) ≤ _
    omega
  exact ⟨he, (pairwise_union_loop_fuelled dbg m l.begin r.begin s buf out).more he hf⟩

/-- **C76** On any memory the loop of `union_many` takes at most one round for each slice of each
sequence. -/
theorem C76_union_many {qs : List SSeq} {s : MScratch} {buf : List Nat} {out header : Nat}
    (h : min_id m (qs.map SSeq.begin) = .ok header) :
    AtMost (fun f => union_many_loop dbg m f (qs.map SSeq.begin) header s buf out)
      (qs.map SSeq.chunks).sum := by
  refine (union_many_loop_fuelled ..).atMost _ ?_
  refine union_many_loop_ends dbg m _ _ header s buf out (fun _ => ?_) ?_
  · exact (min_id_ends m _).post header h
  · have : left (qs.map SSeq.begin) = (qs.map SSeq.chunks).sum := by
      unfold left
      rw [List.map_map]
      rfl
    omega

/-- **C76** On stored lists the loop of `union_many` takes exactly one round for each slice that one of the
lists has. -/
theorem C76_union_many_stored {ps : List (List Nat × SSeq)} {s : MScratch} {D Z buf : List Nat}
    {out header : Nat} (hne : ps ≠ []) (hp : StoredAll dbg pad m ps) (hs : s.Ok)
    (hD : Enumerates D (fun i => ∃ p ∈ ps, ∃ x ∈ p.1, x / 65536 = i))
    (hZ : Enumerates Z (fun v => ∃ p ∈ ps, v ∈ p.1)) (hcap : out + Z.length ≤ buf.length)
    (h : min_id m (ps.map (fun p => p.2.begin)) = .ok header) :
    Takes (fun f => union_many_loop dbg' m f (ps.map (fun p => p.2.begin)) header s buf out) D.length := by
  have hI := hp.seqsAt.begin
  rw [List.map_map] at hI
  obtain ⟨hd, e, hmin⟩ := min_id_spec (by simpa using hne) hI
  have e' : min_id m (ps.map (fun p => p.2.begin)) = .ok hd := e
  rw [h] at e'
  cases e'
  have hD' : Enumerates D (fun i => ∃ cs ∈ ps.map (fun p => chunksOf p.1), i ∈ cs.map Chk.id) := by
    refine ⟨hD.1, fun i => (hD.2 i).trans ?_⟩
    constructor
    · rintro ⟨p, hm, hx⟩
      refine ⟨_, List.mem_map_of_mem hm, ?_⟩
      rw [chunksOf_map_id]
      exact ((slicesOf_enumerates (hp p hm).1).2 i).mpr hx
    · rintro ⟨cs, hc, hx⟩
      obtain ⟨p, hm, rfl⟩ := List.mem_map.mp hc
      rw [chunksOf_map_id] at hx
      exact ⟨p, hm, ((slicesOf_enumerates (hp p hm).1).2 i).mp hx⟩
  have hZ' : Enumerates Z (fun v => ∃ cs ∈ ps.map (fun p => chunksOf p.1), v ∈ seqElems cs) := by
    refine ⟨hZ.1, fun v => (hZ.2 v).trans ?_⟩
    constructor
    · rintro ⟨p, hm, hx⟩
      exact ⟨_, List.mem_map_of_mem hm, by rw [seqElems_chunksOf (hp p hm).1]; exact hx⟩
    · rintro ⟨cs, hc, hx⟩
      obtain ⟨p, hm, rfl⟩ := List.mem_map.mp hc
      rw [seqElems_chunksOf (hp p hm).1] at hx
      exact ⟨p, hm, hx⟩
  refine (union_many_loop_fuelled ..).takes ?_ ?_
  · exact (union_many_loop_less D.length hI hs hmin hZ' hcap hD').1 (Nat.le_refl _)
  · exact (union_many_loop_less (D.length + 1) hI hs hmin hZ' hcap hD').2 (Nat.lt_succ_self _)

/-! ## Concrete cases -/

theorem even_valid : Valid [0, 131072] := by refine ⟨by simp, by simp, by simp⟩
theorem odd_valid : Valid [65536, 196608] := by refine ⟨by simp, by simp, by simp⟩

/-- two lists with two slices each: four rounds, nothing found -/
example : ∃ m l r c, Stored false [0, 131072] 31 m l ∧ Stored false [65536, 196608] 31 m r ∧
    l.begin.id m = .ok c ∧
    Takes (fun f => candidate_while m f [l.begin, r.begin] c 1 (List.replicate 65536 0) 0) 4 := by
  obtain ⟨m, l, r, _, _, _, _, hl, hr, -⟩ := stored_pair false even_valid odd_valid 31
  have hl := hl.stored
  have hr := hr.stored
  have hc := (hl.repr even_valid).idOn.id
  refine ⟨m, l, r, _, hl, hr, hc, ?_⟩
  exact C76_search_alternating (X := [0, 2]) (Y := [1, 3]) even_valid odd_valid hl hr
    ⟨by simp, fun i => by simp [eq_comm]⟩ ⟨by simp, fun i => by simp [eq_comm]⟩
    ⟨by omega, by simp, by omega, by simp, trivial⟩ hc

/-- `0, 1` and `1, 3` are the slices of two lists: one is common to both, the union takes three rounds -/
def roundLists : List (List Nat) := [[3, 5, 300, 70000], [65536, 196608]]

theorem roundLists_valid : ∀ xs ∈ roundLists, Valid xs := by
  intro xs hm
  simp only [roundLists, List.mem_cons, List.not_mem_nil, or_false] at hm
  rcases hm with rfl | rfl
  · exact small_valid
  · exact odd_valid

theorem mem_fst {ps : List (List Nat × SSeq)} {L : List (List Nat)} (e : ps.map Prod.fst = L)
    (P : List Nat → Prop) : (∃ p ∈ ps, P p.1) ↔ ∃ xs ∈ L, P xs := by
  subst e
  constructor
  · rintro ⟨p, hp, h⟩
    exact ⟨p.1, List.mem_map_of_mem hp, h⟩
  · rintro ⟨xs, hx, h⟩
    obtain ⟨p, hp, rfl⟩ := List.mem_map.mp hx
    exact ⟨p, hp, h⟩

example : ∃ m ps header, StoredAll true 31 m ps ∧ ps.map Prod.fst = roundLists ∧
    min_id m (ps.map (fun p => p.2.begin)) = .ok header ∧
    Takes (fun f => union_many_loop true m f (ps.map (fun p => p.2.begin)) header MScratch.init
      (List.replicate 6 0) 0) 3 := by
  obtain ⟨m, ps, e, h⟩ := stored_many true 31 _ roundLists_valid
  have hne : ps ≠ [] := by
    rintro rfl
    cases e
  obtain ⟨hd, e2, -⟩ := min_id_spec (by simpa using hne) h.seqsAt.begin
  rw [List.map_map] at e2
  refine ⟨m, ps, hd, h, e, e2, ?_⟩
  refine C76_union_many_stored (D := [0, 1, 3]) (Z := [3, 5, 300, 65536, 70000, 196608]) hne h
    MScratch.init_ok ⟨by simp, fun i => ?_⟩ ⟨by simp, fun i => ?_⟩ (by simp) e2
  · show _ ↔ ∃ p ∈ ps, ∃ x ∈ p.1, x / 65536 = i
    rw [mem_fst e (fun xs => ∃ x ∈ xs, x / 65536 = i)]
    simp only [roundLists, List.mem_cons, List.not_mem_nil, or_false]
    constructor
    · rintro (rfl | rfl | rfl)
      · exact ⟨_, .inl rfl, 3, by simp, by omega⟩
      · exact ⟨_, .inl rfl, 70000, by simp, by omega⟩
      · exact ⟨_, .inr rfl, 196608, by simp, by omega⟩
    · rintro ⟨xs, rfl | rfl, x, hx, rfl⟩
      · simp only [List.mem_cons, List.not_mem_nil, or_false] at hx
        omega
      · simp only [List.mem_cons, List.not_mem_nil, or_false] at hx
        omega
  · show _ ↔ ∃ p ∈ ps, i ∈ p.1
    rw [mem_fst e (fun xs => i ∈ xs)]
    simp only [roundLists, List.mem_cons, List.not_mem_nil, or_false]
    constructor
    · intro hi
      by_cases h1 : i = 65536 ∨ i = 196608
      · exact ⟨_, .inr rfl, by simpa using h1⟩
      · refine ⟨_, .inl rfl, ?_⟩
        simp only [List.mem_cons, List.not_mem_nil, or_false]
        omega
    · rintro ⟨xs, rfl | rfl, hx⟩
      · simp only [List.mem_cons, List.not_mem_nil, or_false] at hx
        omega
      · simp only [List.mem_cons, List.not_mem_nil, or_false] at hx
        omega

example : ∃ m ps headers', StoredAll true 31 m ps ∧ ps.map Prod.fst = roundLists ∧
    headers'.take 1 = [1] ∧
    intersection_sorted true m (ps.map Prod.snd) IScratch.init (List.replicate 6 0) 0 = (do
      let (q, s, buf) ← intersect_headers true m 1 0 (ps.map (fun p => p.2.begin))
        { IScratch.init with headers := headers' } (List.replicate 6 0) 0
      return (q - 0, s, buf)) := by
  obtain ⟨m, ps, e, h⟩ := stored_many true 31 _ roundLists_valid
  have hne : ps ≠ [] := by
    rintro rfl
    cases e
  obtain ⟨headers', h1, h2⟩ := C76_slices (dbg' := true) (H := [1]) hne h IScratch.init_ok
    ⟨by simp, fun i => by
      have key : (∀ p ∈ ps, ∃ x ∈ p.1, x / 65536 = i) ↔ ∀ xs ∈ roundLists, ∃ x ∈ xs, x / 65536 = i := by
        rw [← e]
        constructor
        · intro g xs hx
          obtain ⟨p, hp, rfl⟩ := List.mem_map.mp hx
          exact g p hp
        · intro g p hp
          exact g _ (List.mem_map_of_mem hp)
      show _ ↔ ∀ p ∈ ps, ∃ x ∈ p.1, x / 65536 = i
      rw [key]
      simp only [roundLists, List.mem_cons, List.not_mem_nil, or_false]
      constructor
      · rintro rfl xs (rfl | rfl)
        · exact ⟨70000, by simp, by omega⟩
        · exact ⟨65536, by simp, by omega⟩
      · intro g
        obtain ⟨x, hx, e1⟩ := g _ (.inl rfl)
        obtain ⟨y, hy, e2⟩ := g _ (.inr rfl)
        simp only [List.mem_cons, List.not_mem_nil, or_false] at hx hy
        omega⟩ (List.replicate 6 0) 0
  exact ⟨m, ps, headers', h, e, h1, h2⟩

/-- the pairwise loops, on the same two lists -/
example : ∃ m l r, Stored true [3, 5, 300, 70000] 31 m l ∧ Stored true [65536, 196608] 31 m r ∧
    AtMost (fun f => pairwise_intersection_loop true stdTab m f l.begin r.begin (List.replicate 1024 0)
      (List.replicate 6 0) 0) 4 ∧
    Ends (pairwise_union_loop true m 3 l.begin r.begin UScratch.init (List.replicate 6 0) 0) := by
  obtain ⟨m, l, r, _, _, _, _, hl, hr, -⟩ := stored_pair true small_valid odd_valid 31
  have hl := hl.stored
  have hr := hr.stored
  have cl : l.chunks = 2 := by
    have h1 := (hl.repr small_valid).idOn.end_
    rw [chunksOf_map_id, sorted_ext (L2 := [0, 1]) (slicesOf_enumerates small_valid).1 (by simp)
      (fun i => by
        rw [(slicesOf_enumerates small_valid).2 i]
        simp only [List.mem_cons, List.not_mem_nil, or_false]
        constructor
        · rintro ⟨x, hx, rfl⟩
          omega
        · rintro (rfl | rfl)
          · exact ⟨3, by omega, by omega⟩
          · exact ⟨70000, by omega, by omega⟩)] at h1
    exact h1
  have cr : r.chunks = 2 := by
    have h1 := (hr.repr odd_valid).idOn.end_
    rw [chunksOf_map_id, sorted_ext (L2 := [1, 3]) (slicesOf_enumerates odd_valid).1 (by simp)
      (fun i => by
        rw [(slicesOf_enumerates odd_valid).2 i]
        simp only [List.mem_cons, List.not_mem_nil, or_false]
        constructor
        · rintro ⟨x, hx, rfl⟩
          omega
        · rintro (rfl | rfl)
          · exact ⟨65536, by omega, by omega⟩
          · exact ⟨196608, by omega, by omega⟩)] at h1
    exact h1
  refine ⟨m, l, r, hl, hr, ?_, ?_⟩
  · have := C76_pairwise_intersection (dbg := true) (tab := stdTab) (m := m) (l := l) (r := r)
      (x := List.replicate 1024 0) (buf := List.replicate 6 0) (out := 0)
    rw [cl, cr] at this
    exact this
  · have := (C76_pairwise_union (dbg := true) (m := m) (l := l) (r := r) (s := UScratch.init)
      (buf := List.replicate 6 0) (out := 0) (f := 3) (by omega) (by omega) (by omega)).1
    rw [cl, cr] at this
    exact this

end Sliced
