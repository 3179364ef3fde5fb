import Verif.Props.GeqEnumerator
import Verif.Proof.GeqSkip
/-!
# `next_geq_enumerator`: exactly which jumps are right (C15)

A jump over `32 j` non-empty slices adds to the data pointer the bytes of the first `32 j` slices that
no jump has used yet, instead of the bytes of the slices jumped over.  So it is right if and only if
these two numbers of bytes are equal.
-/
namespace Sliced

variable {dbg dbg' : Bool} {xs : List Nat} {pad : Nat} {m : Mem} {s : SSeq}

/-- bytes of the contents of `n` non-empty slices, from the `p`-th on -/
def bytesFrom (xs : List Nat) (p n : Nat) : Nat :=
  ((((slicesOf xs).drop p).take n).map (sliceBytes xs)).sum

/-- number of non-empty slices without an element at or above `v` -/
def passed (xs : List Nat) (v : Nat) : Nat :=
  ((slicesOf xs).filter (fun i => decide (∀ x ∈ xs, x / 65536 = i → x < v))).length

/-- number of non-empty slices up to the one of `v` -/
def reached (xs : List Nat) (v : Nat) : Nat :=
  ((slicesOf xs).filter (fun i => decide (i ≤ v / 65536))).length

/-- number of jumps (over 32 non-empty slices each) from the `p`-th non-empty slice to the one of `v` -/
def jumpsTo (xs : List Nat) (p v : Nat) : Nat := (reached xs v - p - 1) / 32

/-- Every jump of the history `vs` is right, for an enumerator that has passed `p` non-empty slices
and has already made `g` jumps. -/
def Aligned (xs : List Nat) : (p g : Nat) → List Nat → Prop
  | _, _, [] => True
  | p, g, v :: vs =>
    bytesFrom xs p (32 * jumpsTo xs p v) = bytesFrom xs (32 * g) (32 * jumpsTo xs p v) ∧
      Aligned xs (passed xs v) (g + jumpsTo xs p v) vs

theorem offRange_chunksOf (xs : List Nat) (p n : Nat) :
    offRange (chunksOf xs) p n = bytesFrom xs p n := by
  unfold offRange bytesFrom offSum
  rw [← chunksOf_map_id, ← List.map_drop, ← List.map_take, List.map_map]
  congr 1
  apply List.map_congr_left
  intro c hc
  exact chunksOf_body (List.mem_of_mem_drop (List.mem_of_mem_take hc))

theorem upTo_chunksOf (xs : List Nat) (v : Nat) :
    upTo (v / 65536) (chunksOf xs) = reached xs v := by
  unfold upTo reached
  rw [← chunksOf_map_id, List.filter_map, List.length_map]
  rfl

theorem upTo_append (lb : Nat) (a b : List Chk) : upTo lb (a ++ b) = upTo lb a + upTo lb b := by
  unfold upTo; rw [List.filter_append, List.length_append]

theorem upTo_all {lb : Nat} {cs : List Chk} (h : ∀ c ∈ cs, c.id ≤ lb) : upTo lb cs = cs.length := by
  unfold upTo
  rw [List.filter_eq_self.mpr]
  intro c hc
  simpa using h c hc

theorem upTo_le_one {lb : Nat} {cs : List Chk} (hw : ChunksWF cs) (h : ∀ c ∈ cs, lb ≤ c.id) :
    upTo lb cs ≤ 1 := by
  cases cs with
  | nil => exact Nat.zero_le _
  | cons c cs =>
    by_cases hc : c.id ≤ lb
    · rw [upTo_cons_le hc]
      cases cs with
      | nil => exact Nat.le_refl _
      | cons d cs =>
        have := hw.head_lt d List.mem_cons_self
        have := h c List.mem_cons_self
        rw [upTo_zero hw.tail (by omega)]
        omega
    · rw [upTo_zero hw (by omega)]; omega

/-- the state of the enumerator tells the number of slices that have been passed -/
theorem passed_eq (hv : Valid xs) {v : Nat} {P cur : List Chk}
    (hP : chunksOf xs = P ++ cur) (hlt : ∀ x ∈ seqElems P, x < v)
    (htop : ∀ c post, cur = c :: post → ∃ x ∈ c.elems, v ≤ x) : passed xs v = P.length := by
  have hw := chunksOf_wf hv.2.1
  have hmem : ∀ x, x ∈ xs ↔ x ∈ seqElems (chunksOf xs) := by
    intro x; rw [seqElems_chunksOf hv]
  unfold passed
  rw [← chunksOf_map_id, List.filter_map, List.length_map, hP, List.filter_append]
  rw [hP] at hw
  have hwc : ChunksWF cur := ⟨(List.pairwise_append.mp hw.1).2.1, fun d hd => hw.2 d (by simp [hd])⟩
  have h1 : P.filter ((fun i => decide (∀ x ∈ xs, x / 65536 = i → x < v)) ∘ Chk.id) = P := by
    rw [List.filter_eq_self]
    intro c hc
    simp only [Function.comp, decide_eq_true_eq]
    intro x hx hid
    rw [hmem, hP] at hx
    rw [seqElems_append', List.mem_append] at hx
    rcases hx with hx | hx
    · exact hlt x hx
    · obtain ⟨d, hd, hdid, -⟩ := (mem_seqElems hwc).mp hx
      have := (List.pairwise_append.mp hw.1).2.2 c hc d hd
      omega
  have h2 : cur.filter ((fun i => decide (∀ x ∈ xs, x / 65536 = i → x < v)) ∘ Chk.id) = [] := by
    rw [List.filter_eq_nil_iff]
    intro c hc
    simp only [Function.comp, decide_eq_true_eq]
    intro hall
    cases cur with
    | nil => cases hc
    | cons d post =>
      obtain ⟨y, hy, hvy⟩ := htop d post rfl
      have hyd : y / 65536 = d.id := by
        obtain ⟨d', hd', h1, -⟩ := (mem_seqElems (cs := [d]) ⟨by simp, by simp [hwc.head]⟩).mp
          (by rw [seqElems_cons, seqElems_nil, List.append_nil]; exact hy)
        rw [List.mem_singleton] at hd'
        rw [← hd']; exact h1.symm
      have hyx : y ∈ xs := by
        rw [hmem, hP, seqElems_append', seqElems_cons]
        simp [hy]
      rcases List.mem_cons.mp hc with rfl | hc'
      · have := hall y hyx hyd
        omega
      · obtain ⟨z, hz⟩ := (hwc.2 c hc).head?_exists
        have hzb := (hwc.2 c hc).2.bound z (List.mem_of_head? hz)
        have hzx : c.id * 65536 + z ∈ xs := by
          rw [hmem, hP, seqElems_append']
          rw [List.mem_append]
          exact Or.inr (List.mem_flatMap.mpr ⟨c, hc, Chk.mem_elems (List.mem_of_head? hz)⟩)
        have := hall _ hzx (by omega)
        have := hwc.head_lt c hc'
        omega
  rw [h1, h2, List.append_nil]

theorem passed_mono (xs : List Nat) {v w : Nat} (h : v ≤ w) : passed xs v ≤ passed xs w := by
  unfold passed
  rw [← List.countP_eq_length_filter, ← List.countP_eq_length_filter]
  apply List.countP_mono_left
  intro i _ hi
  rw [decide_eq_true_eq] at hi ⊢
  intro x hx hid
  have := hi x hx hid
  omega

/-- the states between two calls, after bound `v` and `g` jumps -/
structure GeqState (pad : Nat) (m : Mem) (xs : List Nat) (s : SSeq) (v p g : Nat) (e : GeqEnum) : Prop where
  inv : GeqInv pad m (chunksOf xs) v e ((chunksOf xs).drop p)
  le : p ≤ (chunksOf xs).length
  pos : e.it.begin_ = p
  data : e.it.data = s.data + bytesFrom xs 0 p
  ptr : e.it.pointers = s.pointers + 8 * g
  used : 32 * g ≤ p

/-- the number of jumps the iterator is going to make -/
theorem GeqState.upTo_eq {v p g : Nat} {e : GeqEnum} (hv : Valid xs)
    (h : GeqState pad m xs s v p g e) {w : Nat} (hw : v ≤ w) :
    upTo (w / 65536) ((chunksOf xs).drop p) = reached xs w - p := by
  have hids : ∀ c ∈ (chunksOf xs).take p, c.id ≤ w / 65536 := by
    obtain ⟨P, hP, hlt⟩ := h.inv.pre
    have hPp : P = (chunksOf xs).take p := by
      have := congrArg List.length hP
      rw [List.length_append, List.length_drop] at this
      have hle := h.le
      have h2 := congrArg (List.take P.length) hP
      rw [List.take_left' rfl] at h2
      rw [← h2, show P.length = p by omega]
    intro c hc
    rw [← hPp] at hc
    have hcw : c.WF := (chunksOf_wf hv.2.1).2 c (by rw [hP]; simp [hc])
    obtain ⟨z, hz⟩ := hcw.head?_exists
    have := hlt (c.id * 65536 + z)
      (List.mem_flatMap.mpr ⟨c, hc, Chk.mem_elems (List.mem_of_head? hz)⟩)
    omega
  have h1 : upTo (w / 65536) (chunksOf xs)
      = upTo (w / 65536) ((chunksOf xs).take p) + upTo (w / 65536) ((chunksOf xs).drop p) := by
    rw [← upTo_append, List.take_append_drop]
  rw [upTo_all hids, List.length_take, upTo_chunksOf] at h1
  have := h.le
  omega

/-- one call -/
theorem GeqState.step {v p g : Nat} {e : GeqEnum} (hv : Valid xs) (hr : SeqAt pad m s (chunksOf xs))
    (h : GeqState pad m xs s v p g e) {w : Nat} (hw : v ≤ w) (hb : w < 4294967296)
    (hal : bytesFrom xs p (32 * jumpsTo xs p w) = bytesFrom xs (32 * g) (32 * jumpsTo xs p w)) :
    ∃ e', e.next_geq dbg m w
        = .ok (e', (xs.find? (fun x => decide (w ≤ x))).getD 4294967295) ∧
      GeqState pad m xs s w (passed xs w) (g + jumpsTo xs p w) e' := by
  have hup := h.upTo_eq hv hw
  have hj : (upTo (w / 65536) ((chunksOf xs).drop p) - 1) / 32 = jumpsTo xs p w := by
    rw [hup]; rfl
  obtain ⟨it, e1, hit, hp1, hm1, hd1⟩ := It.skip_to_value_aligned (lb := w / 65536) h.inv.it hr.ptrs
    h.ptr h.used h.le (by rw [hj, offRange_chunksOf, offRange_chunksOf]; exact hal)
  rw [hj] at hp1
  obtain ⟨e', cur', e2, h2, hnext, htop⟩ := GeqEnum.next_geq_spec (dbg := dbg) (chunksOf_ne_nil hv) hr.wf
    h.inv hw hb e1 hit
  rw [seqElems_chunksOf hv] at e2
  obtain ⟨P, hP, hlt⟩ := h2.pre
  have hpass := passed_eq hv hP hlt htop
  have hcur : cur' = (chunksOf xs).drop (passed xs w) := by
    rw [hpass, hP, List.drop_left' rfl]
  rw [hcur] at h2
  have hlen : (chunksOf xs).length = P.length + cur'.length := by rw [hP, List.length_append]
  have hb0 := before_le (w / 65536) ((chunksOf xs).drop p)
  rw [List.length_drop] at hb0
  -- the position and the pointers after the call
  obtain ⟨q, hq1, hq2, hq3⟩ : ∃ q, e'.it.begin_ = q ∧ e'.it.data = s.data + bytesFrom xs 0 q ∧
      e'.it.pointers = it.pointers := by
    have hd0 : it.data = s.data + bytesFrom xs 0 (p + before (w / 65536) ((chunksOf xs).drop p)) := by
      rw [hd1, h.data, ← offRange_chunksOf, ← offRange_chunksOf, offRange_add, Nat.zero_add,
        Nat.add_assoc]
    have hp0 : it.begin_ = p + before (w / 65536) ((chunksOf xs).drop p) := by rw [hm1.2.1, h.pos]
    rcases hnext with hn | hn
    · exact ⟨_, by rw [hn, hp0], by rw [hn, hd0], by rw [hn]⟩
    · cases hc : fromId (w / 65536) ((chunksOf xs).drop p) with
      | nil =>
        rw [hc] at hit
        have g1 := hit.end_
        have g2 := h2.it.end_
        have g3 : e'.it.begin_ = it.begin_ + 1 ∧ e'.it.end_ = it.end_ := by
          unfold It.next at hn
          cases ho : it.offset m with
          | error x => rw [ho] at hn; cases hn
          | ok o => rw [ho] at hn; simp only [ok_bind, pure_ok, Except.ok.injEq] at hn; rw [← hn]; simp
        rw [List.length_nil] at g1
        omega
      | cons c post =>
        rw [hc] at hit
        obtain ⟨-, -, it', g1, g2, g3, g4⟩ := hit.hdrOn.step
        rw [hn] at g1
        cases g1
        have hoff : offRange (chunksOf xs) (p + before (w / 65536) ((chunksOf xs).drop p)) 1
            = c.body.off := by
          unfold offRange
          rw [fromId_eq_drop, List.drop_drop] at hc
          rw [hc]
          simp [offSum]
        refine ⟨p + before (w / 65536) ((chunksOf xs).drop p) + 1, by rw [g2.2.1, hp0], ?_, g3⟩
        rw [g4, hd0, ← offRange_chunksOf, ← offRange_chunksOf, offRange_add _ _ _ 1, Nat.zero_add,
          Nat.add_assoc, hoff]
  have hq : q = passed xs w := by
    have g1 := h2.it.end_
    have g2 := h.inv.it.end_
    have g3 : e'.it.end_ = e.it.end_ := by
      have g4 : it.end_ = e.it.end_ := hm1.1
      rcases hnext with hn | hn
      · rw [hn, g4]
      · unfold It.next at hn
        cases ho : it.offset m with
        | error x => rw [ho] at hn; cases hn
        | ok o =>
          rw [ho] at hn; simp only [ok_bind, pure_ok, Except.ok.injEq] at hn; rw [← hn]; exact g4
    have g5 := h.pos
    have g6 := h.le
    rw [List.length_drop] at g1 g2
    omega
  rw [hq] at hq1 hq2
  refine ⟨e', e2, h2, by omega, hq1, hq2, by rw [hq3, hp1], ?_⟩
  -- the jumps stay behind the position
  have hone : reached xs w ≤ P.length + 1 := by
    rw [← upTo_chunksOf, hP, upTo_append]
    have a1 := upTo_le_length (w / 65536) P
    have a2 := upTo_le_one (lb := w / 65536) h2.it.wf h2.ids
    rw [← hcur] at a2
    omega
  have hmono : p ≤ P.length := by
    refine Classical.byContradiction (fun hlt' => ?_)
    obtain ⟨Q, hQ, hQlt⟩ := h.inv.pre
    have hle := h.le
    have hQl : Q.length = p := by
      have := congrArg List.length hQ
      rw [List.length_append, List.length_drop] at this
      omega
    cases hc : cur' with
    | nil => rw [hc] at hlen; simp at hlen; omega
    | cons c post =>
      obtain ⟨x, hx, hwx⟩ := htop c post hc
      have hcQ : c ∈ Q := by
        have g1 : (chunksOf xs)[P.length]? = some c := by rw [hP, hc]; simp
        rw [hQ, List.getElem?_append_left (by omega)] at g1
        exact List.mem_of_getElem? g1
      have := hQlt x (List.mem_flatMap.mpr ⟨c, hcQ, hx⟩)
      omega
  have := h.used
  unfold jumpsTo
  rw [hpass]
  omega

theorem GeqState.run (hv : Valid xs) (hr : SeqAt pad m s (chunksOf xs)) (vs : List Nat) :
    ∀ {v p g : Nat} {e : GeqEnum}, GeqState pad m xs s v p g e → (v :: vs).Pairwise (· ≤ ·) →
      (∀ w ∈ vs, w < 4294967296) → Aligned xs p g vs →
      GeqEnum.run dbg m e vs
        = .ok (vs.map (fun v => (xs.find? (fun x => decide (v ≤ x))).getD 4294967295)) := by
  induction vs with
  | nil => intro v p g e _ _ _ _; rfl
  | cons w vs ih =>
    intro v p g e h hm hb hal
    rw [List.pairwise_cons] at hm
    obtain ⟨e', e1, h1⟩ := h.step (dbg := dbg) hv hr (hm.1 w List.mem_cons_self)
      (hb w List.mem_cons_self) hal.1
    unfold GeqEnum.run
    rw [e1, ok_bind]
    simp only
    rw [ih h1 hm.2 (fun x hx => hb x (List.mem_cons_of_mem _ hx)) hal.2]
    rfl

theorem geqState_new (hv : Valid xs) (hs : Stored dbg xs pad m s) :
    ∃ e, GeqEnum.new m s = .ok e ∧ e.size = xs.length ∧ GeqState pad m xs s 0 0 0 e := by
  have hr := hs.repr hv
  refine ⟨⟨4294967295, 0, 0, 0, 0, xs.length, s.begin⟩, ?_, rfl, ?_, Nat.zero_le _, rfl, ?_, rfl,
    by omega⟩
  · unfold GeqEnum.new SSeq.size
    rw [SSeq.cardinality_spec hr, seqElems_chunksOf hv, ok_bind, pure_ok]
  · refine ⟨⟨[], (List.nil_append _).symm, by simp⟩, by simp, hr.begin, ?_⟩
    intro c hc hid
    have := (hr.wf.2 c hc).1
    simp only at hid
    omega
  · simp [bytesFrom, SSeq.begin]

/-- C15: a fresh `next_geq_enumerator`, asked any non-decreasing bounds whose jumps are all aligned,
answers each with the least element not below it (or `not_found`). -/
theorem C15_aligned (hv : Valid xs) (hs : Stored dbg xs pad m s) (vs : List Nat)
    (hm : vs.Pairwise (· ≤ ·)) (hb : ∀ w ∈ vs, w < 4294967296) (hal : Aligned xs 0 0 vs) :
    ∃ e, GeqEnum.new m s = .ok e ∧ e.size = xs.length ∧
      GeqEnum.run dbg' m e vs
        = .ok (vs.map (fun v => (xs.find? (fun x => decide (v ≤ x))).getD 4294967295)) := by
  obtain ⟨e, h1, h2, h3⟩ := geqState_new hv hs
  exact ⟨e, h1, h2, h3.run hv (hs.repr hv) vs (List.pairwise_cons.mpr ⟨fun _ _ => Nat.zero_le _, hm⟩)
    hb hal⟩

/-! ## The converse -/

-- keep the elaborator from evaluating the list of the 65535 slice numbers
attribute [local irreducible] slicesOf chunksOf

/-- The enumerator after a history of calls. -/
def GeqEnum.after (dbg : Bool) (m : Mem) : GeqEnum → List Nat → Res GeqEnum
  | e, [] => .ok e
  | e, v :: vs => do
    let (e, _) ← e.next_geq dbg m v
    GeqEnum.after dbg m e vs

/-- number of slices passed and of jumps made after a history -/
def countsAfter (xs : List Nat) : (p g : Nat) → List Nat → Nat × Nat
  | p, g, [] => (p, g)
  | p, g, v :: vs => countsAfter xs (passed xs v) (g + jumpsTo xs p v) vs

theorem aligned_append (xs : List Nat) (vs : List Nat) (w : Nat) : ∀ p g : Nat,
    Aligned xs p g (vs ++ [w]) ↔ Aligned xs p g vs ∧
      bytesFrom xs (countsAfter xs p g vs).1 (32 * jumpsTo xs (countsAfter xs p g vs).1 w)
        = bytesFrom xs (32 * (countsAfter xs p g vs).2)
            (32 * jumpsTo xs (countsAfter xs p g vs).1 w) := by
  induction vs with
  | nil => intro p g; simp [Aligned, countsAfter]
  | cons v vs ih =>
    intro p g
    simp only [List.cons_append, Aligned, countsAfter]
    rw [ih]
    exact and_assoc.symm

theorem GeqState.after (hv : Valid xs) (hr : SeqAt pad m s (chunksOf xs)) (vs : List Nat) :
    ∀ {v p g : Nat} {e : GeqEnum}, GeqState pad m xs s v p g e → (v :: vs).Pairwise (· ≤ ·) →
      (∀ w ∈ vs, w < 4294967296) → Aligned xs p g vs →
      ∃ e' v', GeqEnum.after dbg m e vs = .ok e' ∧ (v' = v ∨ v' ∈ vs) ∧
        GeqState pad m xs s v' (countsAfter xs p g vs).1 (countsAfter xs p g vs).2 e' := by
  induction vs with
  | nil => intro v p g e h _ _ _; exact ⟨e, v, rfl, Or.inl rfl, h⟩
  | cons w vs ih =>
    intro v p g e h hm hb hal
    rw [List.pairwise_cons] at hm
    obtain ⟨e', e1, h1⟩ := h.step (dbg := dbg) hv hr (hm.1 w List.mem_cons_self)
      (hb w List.mem_cons_self) hal.1
    obtain ⟨e2, v', g1, g2, g3⟩ := ih h1 hm.2 (fun x hx => hb x (List.mem_cons_of_mem _ hx)) hal.2
    refine ⟨e2, v', ?_, ?_, g3⟩
    · unfold GeqEnum.after
      rw [e1, ok_bind]
      exact g1
    · rcases g2 with rfl | g2
      · exact Or.inr List.mem_cons_self
      · exact Or.inr (List.mem_cons_of_mem _ g2)

/-- C15: `Aligned` is not only sufficient.  After an aligned history, the next call leaves the iterator
with the data pointer on the contents of the slice it has reached (number `it.begin_`) if and only if
the history remains aligned. -/
theorem C15_jump_exact (hv : Valid xs) (hs : Stored dbg xs pad m s) (vs : List Nat) (w : Nat)
    (hm : (vs ++ [w]).Pairwise (· ≤ ·)) (hb : ∀ v ∈ vs, v < 4294967296) (hal : Aligned xs 0 0 vs) :
    ∃ e e' it, GeqEnum.new m s = .ok e ∧ GeqEnum.after dbg' m e vs = .ok e' ∧
      e'.it.skip_to_value m (w / 65536) = .ok it ∧
      (it.data = s.data + bytesFrom xs 0 it.begin_ ↔ Aligned xs 0 0 (vs ++ [w])) := by
  have hr := hs.repr hv
  rw [List.pairwise_append] at hm
  obtain ⟨e, h1, -, h3⟩ := geqState_new hv hs
  obtain ⟨e', v', h4, h5, h6⟩ := h3.after (dbg := dbg') hv hr vs
    (List.pairwise_cons.mpr ⟨fun _ _ => Nat.zero_le _, hm.1⟩) hb hal
  have hle : v' ≤ w := by
    rcases h5 with rfl | h5
    · exact Nat.zero_le _
    · exact hm.2.2 v' h5 w List.mem_cons_self
  have hup := h6.upTo_eq hv hle
  obtain ⟨it, j, g1, g2, g3, -, -, g6⟩ := It.skip_to_value_hdr (lb := w / 65536) h6.inv.it.hdrOn hr.ptrs
    h6.ptr h6.used h6.le
  rw [hup] at g2
  change j = jumpsTo xs _ w at g2
  refine ⟨e, e', it, h1, h4, g1, ?_⟩
  rw [aligned_append, ← g2]
  have hd : s.data + bytesFrom xs 0 it.begin_ = e'.it.data
      + offRange (chunksOf xs) (countsAfter xs 0 0 vs).1
          (before (w / 65536) ((chunksOf xs).drop (countsAfter xs 0 0 vs).1)) := by
    rw [g3.2.1, h6.pos, h6.data, ← offRange_chunksOf, ← offRange_chunksOf, offRange_add, Nat.zero_add,
      Nat.add_assoc]
  rw [hd, and_iff_right hal, ← offRange_chunksOf, ← offRange_chunksOf]
  omega

/-! ## Lists on which every history is right -/

/-- The sizes of the non-empty slices repeat every 32 slices; the last slice does not matter. -/
def Periodic (xs : List Nat) : Prop :=
  ∀ i a b, i + 33 < (slicesOf xs).length → (slicesOf xs)[i]? = some a →
    (slicesOf xs)[i + 32]? = some b → sliceBytes xs a = sliceBytes xs b

theorem bytesFrom_add (xs : List Nat) (p n k : Nat) :
    bytesFrom xs p (n + k) = bytesFrom xs p n + bytesFrom xs (p + n) k := by
  rw [← offRange_chunksOf, offRange_add, offRange_chunksOf, offRange_chunksOf]

theorem bytesFrom_one {xs : List Nat} {p a : Nat} (h : (slicesOf xs)[p]? = some a) :
    bytesFrom xs p 1 = sliceBytes xs a := by
  obtain ⟨hp, rfl⟩ := List.getElem?_eq_some_iff.mp h
  unfold bytesFrom
  rw [List.drop_eq_getElem_cons hp, List.take_succ_cons, List.take_zero, List.map_cons, List.map_nil,
    List.sum_cons, List.sum_nil, Nat.add_zero]

theorem bytesFrom_slide {xs : List Nat} {p a b : Nat} (ha : (slicesOf xs)[p]? = some a)
    (hb : (slicesOf xs)[p + 32]? = some b) :
    bytesFrom xs p 32 + sliceBytes xs b = sliceBytes xs a + bytesFrom xs (p + 1) 32 := by
  have h1 := bytesFrom_add xs p 32 1
  have h2 := bytesFrom_add xs p 1 32
  rw [bytesFrom_one hb] at h1
  rw [bytesFrom_one ha, Nat.add_comm 1 32] at h2
  rw [← h1, ← h2]

theorem Periodic.window {xs : List Nat} (h : Periodic xs) (p : Nat)
    (hp : p + 32 < (slicesOf xs).length) : bytesFrom xs p 32 = bytesFrom xs 0 32 := by
  induction p with
  | zero => rfl
  | succ p ih =>
    have h1 : (slicesOf xs)[p]? = some (slicesOf xs)[p] := List.getElem?_eq_getElem _
    have h2 : (slicesOf xs)[p + 32]? = some (slicesOf xs)[p + 32] := List.getElem?_eq_getElem _
    have h3 := bytesFrom_slide h1 h2
    have h4 := h p _ _ (by omega) h1 h2
    have := ih (by omega)
    omega

theorem Periodic.windows {xs : List Nat} (h : Periodic xs) (j : Nat) : ∀ p,
    p + 32 * j < (slicesOf xs).length → bytesFrom xs p (32 * j) = j * bytesFrom xs 0 32 := by
  induction j with
  | zero => intro p _; simp [bytesFrom]
  | succ j ih =>
    intro p hp
    rw [show 32 * (j + 1) = 32 + 32 * j by omega, bytesFrom_add, ih (p + 32) (by omega),
      h.window p (by omega), Nat.succ_mul, Nat.add_comm]

theorem reached_le (hv : Valid xs) (w : Nat) : reached xs w ≤ passed xs w + 1 := by
  obtain ⟨q, hq, hlt⟩ := fromId_prefix (w / 65536) (chunksOf xs)
  have hw := chunksOf_wf hv.2.1
  have hf : ChunksWF (fromId (w / 65536) (chunksOf xs)) := hw.suffix (fromId_sublist _ _)
  have h1 : reached xs w ≤ q.length + 1 := by
    rw [← upTo_chunksOf]
    have h2 : upTo (w / 65536) (chunksOf xs)
        = upTo (w / 65536) q + upTo (w / 65536) (fromId (w / 65536) (chunksOf xs)) := by
      rw [← upTo_append, ← hq]
    have h3 := upTo_le_length (w / 65536) q
    have h4 : upTo (w / 65536) (fromId (w / 65536) (chunksOf xs)) ≤ 1 := by
      apply upTo_le_one hf
      rcases fromId_cases (w / 65536) (chunksOf xs) with ⟨g1, -⟩ | ⟨pre, c, post, g1, g2, g3, g4⟩
      · rw [g1]; simp
      · rw [g2] at hf ⊢
        intro d hd
        rcases List.mem_cons.mp hd with rfl | hd
        · exact g4
        · have := hf.head_lt d hd; omega
    omega
  have h5 : q.length ≤ passed xs w := by
    unfold passed
    rw [← chunksOf_map_id, List.filter_map, List.length_map]
    have h6 := ((List.sublist_append_left q (fromId (w / 65536) (chunksOf xs))).filter
      ((fun i => decide (∀ x ∈ xs, x / 65536 = i → x < w)) ∘ Chk.id)).length_le
    rw [← hq, List.filter_eq_self.mpr] at h6
    · exact h6
    · intro c hc
      simp only [Function.comp, decide_eq_true_eq]
      intro x _ hid
      have := hlt c hc
      omega
  omega

theorem Periodic.aligned (hv : Valid xs) (h : Periodic xs) (vs : List Nat) : ∀ {p g : Nat},
    vs.Pairwise (· ≤ ·) → 32 * g ≤ p → (∀ w ∈ vs, p ≤ passed xs w) → Aligned xs p g vs := by
  induction vs with
  | nil => intro p g _ _ _; trivial
  | cons w vs ih =>
    intro p g hm hgp hp
    rw [List.pairwise_cons] at hm
    have hk : reached xs w ≤ (slicesOf xs).length := List.length_filter_le _ _
    have hr := reached_le hv w
    have hpw := hp w List.mem_cons_self
    refine ⟨?_, ih hm.2 ?_ ?_⟩
    · by_cases hz : jumpsTo xs p w = 0
      · rw [hz]; rfl
      · have : 32 * jumpsTo xs p w ≤ reached xs w - p - 1 := Nat.mul_div_le _ _
        rw [h.windows _ p (by omega), h.windows _ (32 * g) (by omega)]
    · have : 32 * jumpsTo xs p w ≤ reached xs w - p - 1 := Nat.mul_div_le _ _
      omega
    · intro w' hw'
      exact passed_mono xs (hm.1 w' hw')

/-- C15: on a list whose slice sizes repeat every 32 slices, every non-decreasing history is answered
as by `s_sequence::next_geq`. -/
theorem C15_periodic (hv : Valid xs) (hs : Stored dbg xs pad m s) (hper : Periodic xs)
    (vs : List Nat) (hm : vs.Pairwise (· ≤ ·)) (hb : ∀ w ∈ vs, w < 4294967296) :
    ∃ e, GeqEnum.new m s = .ok e ∧ GeqEnum.run dbg' m e vs = vs.mapM (s.next_geq dbg' m) := by
  obtain ⟨e, h1, -, h2⟩ := C15_aligned (dbg' := dbg') hv hs vs hm hb
    (hper.aligned hv vs hm (Nat.zero_le _) (fun _ _ => Nat.zero_le _))
  refine ⟨e, h1, ?_⟩
  rw [h2, mapM_ok (g := fun v => (xs.find? (fun x => decide (v ≤ x))).getD 4294967295)]
  exact fun w hw => C06_find hv hs (hb w hw)

/-! ### and only on those -/

theorem filter_le_sorted {L : List Nat} (hs : L.Pairwise (· < ·)) {t a : Nat} (h : L[t]? = some a) :
    (L.filter (fun i => decide (i ≤ a))).length = t + 1 ∧
      (L.filter (fun i => decide (i < a))).length = t := by
  obtain ⟨ht, rfl⟩ := List.getElem?_eq_some_iff.mp h
  have hd : L.drop t = L[t] :: L.drop (t + 1) := List.drop_eq_getElem_cons ht
  have hL : L = L.take t ++ L[t] :: L.drop (t + 1) := by rw [← hd, List.take_append_drop]
  have hs' := hs
  rw [hL] at hs'
  rw [List.pairwise_append, List.pairwise_cons] at hs'
  generalize L[t] = a at *
  have h1 : ∀ i ∈ L.take t, i < a := fun i hi => hs'.2.2 i hi a List.mem_cons_self
  have h2 : ∀ i ∈ L.drop (t + 1), a < i := hs'.2.1.1
  constructor
  · rw [hL, List.filter_append, List.filter_eq_self.mpr
      (fun i hi => decide_eq_true (Nat.le_of_lt (h1 i hi))),
      List.filter_cons_of_pos (by simp), List.filter_eq_nil_iff.mpr
      (fun i hi => by have := h2 i hi; simp; omega)]
    rw [List.length_append, List.length_take]
    simp only [List.length_cons, List.length_nil]
    omega
  · rw [hL, List.filter_append, List.filter_eq_self.mpr
      (fun i hi => decide_eq_true (h1 i hi)),
      List.filter_cons_of_neg (by simp), List.filter_eq_nil_iff.mpr
      (fun i hi => by have := h2 i hi; simp; omega)]
    rw [List.length_append, List.length_take]
    simp only [List.length_nil]
    omega

theorem counts_at (hv : Valid xs) {t a : Nat} (h : (slicesOf xs)[t]? = some a) :
    reached xs (a * 65536) = t + 1 ∧ passed xs (a * 65536) = t := by
  obtain ⟨h1, h2⟩ := filter_le_sorted (slicesOf_enumerates hv).1 h
  constructor
  · rw [← h1]
    unfold reached
    rw [Nat.mul_div_cancel _ (by omega)]
  · rw [← h2]
    unfold passed
    congr 1
    apply List.filter_congr
    intro i hi
    rw [decide_eq_decide]
    constructor
    · intro hall
      obtain ⟨x, hx, hxi⟩ := ((slicesOf_enumerates hv).2 i).mp hi
      have := hall x hx hxi
      omega
    · intro hia x _ hxi
      omega

/-- walking from slice to slice makes no jump -/
theorem aligned_walk (hv : Valid xs) (rest : List Nat) (n : Nat) : ∀ t,
    t + n < (slicesOf xs).length →
    Aligned xs t 0 ((((slicesOf xs).drop (t + 1)).take n).map (· * 65536) ++ rest) →
    Aligned xs (t + n) 0 rest := by
  induction n with
  | zero => intro t _ h; simpa using h
  | succ n ih =>
    intro t ht h
    have hd : (slicesOf xs).drop (t + 1) = (slicesOf xs)[t + 1] :: (slicesOf xs).drop (t + 1 + 1) :=
      List.drop_eq_getElem_cons (by omega)
    rw [hd, List.take_succ_cons, List.map_cons, List.cons_append] at h
    obtain ⟨h1, h2⟩ := counts_at hv (List.getElem?_eq_getElem (by omega :
      t + 1 < (slicesOf xs).length))
    have h3 := h.2
    rw [h2, show jumpsTo xs t ((slicesOf xs)[t + 1] * 65536) = 0 by unfold jumpsTo; rw [h1]; omega]
      at h3
    have := ih (t + 1) (by omega) h3
    rwa [show t + 1 + n = t + (n + 1) by omega] at this

/-- C15: the jumps are right for all non-decreasing histories only if the slice sizes repeat every 32
slices. -/
theorem C15_periodic_exact (hv : Valid xs) :
    (∀ vs : List Nat, vs.Pairwise (· ≤ ·) → (∀ v ∈ vs, v < 4294967296) → Aligned xs 0 0 vs) ↔
      Periodic xs := by
  refine ⟨fun hall => ?_, fun h vs hm _ =>
    h.aligned hv vs hm (Nat.zero_le _) (fun _ _ => Nat.zero_le _)⟩
  have hsort := (slicesOf_enumerates hv).1
  have hwin : ∀ P, P + 32 < (slicesOf xs).length → bytesFrom xs P 32 = bytesFrom xs 0 32 := by
    intro P hP
    -- visit the slices up to the `P`-th one by one, then jump
    generalize hh : (slicesOf xs).take (P + 1) ++ [(slicesOf xs)[P + 32]] = hist
    have hsub : hist.Sublist (slicesOf xs) := by
      rw [← hh]
      have h1 : [(slicesOf xs)[P + 32]].Sublist ((slicesOf xs).drop (P + 1)) := by
        rw [List.singleton_sublist]
        rw [List.mem_iff_getElem?]
        refine ⟨31, ?_⟩
        rw [List.getElem?_drop]
        exact List.getElem?_eq_getElem hP
      have h2 := (List.Sublist.refl ((slicesOf xs).take (P + 1))).append h1
      rwa [List.take_append_drop] at h2
    have hal := hall (hist.map (· * 65536))
      (List.pairwise_map.mpr ((hsort.sublist hsub).imp (fun h => by omega))) (by
        intro v hv'
        obtain ⟨i, hi, rfl⟩ := List.mem_map.mp hv'
        obtain ⟨x, hx, hxi⟩ := ((slicesOf_enumerates hv).2 i).mp (hsub.subset hi)
        have := hv.2.2 x hx
        omega)
    rw [← hh] at hal
    have h0 : (slicesOf xs).take (P + 1) = (slicesOf xs)[0] :: ((slicesOf xs).drop (0 + 1)).take P := by
      have : slicesOf xs = (slicesOf xs)[0] :: (slicesOf xs).drop (0 + 1) := by
        rw [← List.drop_eq_getElem_cons (by omega), List.drop_zero]
      conv => lhs; rw [this]
      rw [List.take_succ_cons]
    rw [h0, List.cons_append, List.map_cons, List.map_append] at hal
    obtain ⟨h1, h2⟩ := counts_at hv (List.getElem?_eq_getElem (by omega : 0 < (slicesOf xs).length))
    have h3 := hal.2
    rw [h2, show jumpsTo xs 0 ((slicesOf xs)[0] * 65536) = 0 by unfold jumpsTo; rw [h1]] at h3
    have h4 := (aligned_walk hv _ P 0 (by omega) h3).1
    obtain ⟨h5, -⟩ := counts_at hv (List.getElem?_eq_getElem hP)
    rw [show jumpsTo xs (0 + P) ((slicesOf xs)[P + 32] * 65536) = 1 by
      unfold jumpsTo; rw [h5]; omega] at h4
    rwa [Nat.zero_add] at h4
  intro i a b hi ha hb
  have h1 := bytesFrom_slide ha hb
  have h2 := hwin i (by omega)
  have h3 := hwin (i + 1) (by omega)
  omega

/-! ### Examples -/

theorem Periodic.of_const {b : Nat} (h : ∀ i ∈ slicesOf xs, sliceBytes xs i = b) : Periodic xs := by
  intro i x y _ hx hy
  rw [h x (List.mem_of_getElem? hx), h y (List.mem_of_getElem? hy)]

/-- C15: lists of bitmap slices only (at least half of the values of each slice, but not all). -/
theorem C15_bitmaps (hv : Valid xs) (hs : Stored dbg xs pad m s)
    (hd : ∀ i ∈ slicesOf xs, 32768 ≤ sliceCard xs i ∧ sliceCard xs i ≠ 65536)
    (vs : List Nat) (hm : vs.Pairwise (· ≤ ·)) (hb : ∀ w ∈ vs, w < 4294967296) :
    ∃ e, GeqEnum.new m s = .ok e ∧ GeqEnum.run dbg' m e vs = vs.mapM (s.next_geq dbg' m) := by
  refine C15_periodic hv hs (Periodic.of_const (b := 8192) ?_) vs hm hb
  intro i hi
  unfold sliceBytes
  rw [if_neg (hd i hi).2, if_neg (fun h => absurd (hd i hi).1 (by omega))]

theorem Periodic.of_full (hv : Valid xs) (hd : ∀ x ∈ xs, ∀ v, v / 65536 = x / 65536 → v ∈ xs) :
    Periodic xs := by
  refine Periodic.of_const (b := 0) ?_
  intro i hi
  obtain ⟨x, hx, rfl⟩ := ((slicesOf_enumerates hv).2 i).mp hi
  have hc : chunkVals xs (x / 65536) = List.range 65536 := by
    apply sorted_ext (chunkVals_sorted hv.2.1 _) (range_sorted _)
    intro v
    rw [mem_chunkVals, List.mem_range]
    constructor
    · exact fun h => h.1
    · intro h
      exact ⟨h, hd x hx _ (by omega)⟩
  have hl := chunkVals_length xs (x / 65536)
  rw [hc, List.length_range] at hl
  unfold sliceBytes
  rw [if_pos hl.symm]

/-- C15: lists of full slices only. -/
theorem C15_full (hv : Valid xs) (hs : Stored dbg xs pad m s)
    (hd : ∀ x ∈ xs, ∀ v, v / 65536 = x / 65536 → v ∈ xs)
    (vs : List Nat) (hm : vs.Pairwise (· ≤ ·)) (hb : ∀ w ∈ vs, w < 4294967296) :
    ∃ e, GeqEnum.new m s = .ok e ∧ GeqEnum.run dbg' m e vs = vs.mapM (s.next_geq dbg' m) :=
  C15_periodic hv hs (.of_full hv hd) vs hm hb

theorem full_valid {k : Nat} (h0 : 0 < k) (h1 : k < 65535) : Valid (List.range (65536 * k)) := by
  refine ⟨?_, range_sorted _, ?_⟩
  · intro h
    have := congrArg List.length h
    rw [List.length_range, List.length_nil] at this
    omega
  · intro x hx
    rw [List.mem_range] at hx; omega

theorem full_slices {k : Nat} (h0 : 0 < k) (h1 : k < 65535) :
    slicesOf (List.range (65536 * k)) = List.range k := by
  have hv := full_valid h0 h1
  apply sorted_ext (slicesOf_enumerates hv).1 (range_sorted _)
  intro i
  rw [(slicesOf_enumerates hv).2 i, List.mem_range]
  constructor
  · rintro ⟨x, hx, rfl⟩
    rw [List.mem_range] at hx; omega
  · intro h
    exact ⟨i * 65536, by rw [List.mem_range]; omega, by omega⟩

/-- The hypotheses are met by `k` full slices, and the distance between two bounds can be any number of
jumps (e.g. `k = 100`, `t = 70`: two jumps at the second call). -/
example {k t : Nat} (hk : k < 65535) (ht : t < k) : ∃ m s e, Valid (List.range (65536 * k)) ∧
    Stored true (List.range (65536 * k)) 0 m s ∧ GeqEnum.new m s = .ok e ∧
    GeqEnum.run true m e [5, 5 + t * 65536]
      = [5, 5 + t * 65536].mapM (s.next_geq true m) ∧
    jumpsTo (List.range (65536 * k)) 0 (t * 65536) = t / 32 := by
  have hv := full_valid (k := k) (by omega) hk
  obtain ⟨m, s, hs⟩ := stored_exists true hv 0
  obtain ⟨e, h1, h2⟩ := C15_full (dbg' := true) hv hs
    (fun x hx v h => by rw [List.mem_range] at hx ⊢; omega)
    [5, 5 + t * 65536] (by simp) (by
      intro w hw
      simp only [List.mem_cons, List.not_mem_nil, or_false] at hw
      omega)
  refine ⟨m, s, e, hv, hs, h1, h2, ?_⟩
  have hr := (counts_at hv (t := t) (a := t) (by
    rw [full_slices (by omega) hk, List.getElem?_range ht])).1
  unfold jumpsTo
  rw [hr]
  rfl

/-- The list on which the enumerator goes wrong (`C15_wrong_after_long_jump`) is not periodic. -/
theorem jumpList_not_periodic : ¬ Periodic jumpList := by
  intro hper
  obtain ⟨st, bytes, hb, hst⟩ := stored_total true jumpList_valid
  have hmem : jumpMem = memOf 0 bytes 31 := by unfold jumpMem; rw [hb]; rfl
  obtain ⟨s, hs1, hs⟩ := hst jumpMem 0 31 (by rw [hmem]; exact loaded_memOf _ _ _)
    (by rw [hmem]; exact readable_memOf _ _ _)
  obtain ⟨e, h1, -, h2⟩ := C15_aligned (dbg' := true) jumpList_valid hs [1 * 65536, 33 * 65536]
    (by simp) (by simp)
    (hper.aligned jumpList_valid _ (by simp) (Nat.zero_le _) (fun _ _ => Nat.zero_le _))
  have hc := jump_check
  rw [hs1, ok_bind, h1, ok_bind, h2] at hc
  exact absurd hc (by decide +kernel)

/-- 40 whole slices -/
theorem forty_valid : Valid (List.range (65536 * 40)) := full_valid (k := 40) (by omega) (by omega)

theorem forty_periodic : Periodic (List.range (65536 * 40)) :=
  .of_full forty_valid (fun x hx v h => by rw [List.mem_range] at hx ⊢; omega)

theorem forty_aligned : Aligned (List.range (65536 * 40)) 0 0 [5, 2400000] :=
  (C15_periodic_exact forty_valid).mpr forty_periodic _ (by simp) (by simp)

example : ∃ m s e, Stored true (List.range (65536 * 40)) 0 m s ∧ GeqEnum.new m s = .ok e ∧
    GeqEnum.run false m e [5, 2400000]
      = .ok ([5, 2400000].map (fun v =>
          ((List.range (65536 * 40)).find? (fun x => decide (v ≤ x))).getD 4294967295)) := by
  obtain ⟨m, s, h⟩ := stored_exists true forty_valid 0
  obtain ⟨e, h1, -, h3⟩ := C15_aligned (dbg' := false) forty_valid h [5, 2400000] (by simp) (by simp)
    forty_aligned
  exact ⟨m, s, e, h, h1, h3⟩

example : ∃ m s e e' it, Stored true (List.range (65536 * 40)) 0 m s ∧ GeqEnum.new m s = .ok e ∧
    GeqEnum.after false m e [5] = .ok e' ∧ e'.it.skip_to_value m (2400000 / 65536) = .ok it ∧
    it.data = s.data + bytesFrom (List.range (65536 * 40)) 0 it.begin_ := by
  obtain ⟨m, s, h⟩ := stored_exists true forty_valid 0
  obtain ⟨e, e', it, h1, h2, h3, h4⟩ := C15_jump_exact (dbg' := false) forty_valid h [5] 2400000 (by simp)
    (by simp) ((C15_periodic_exact forty_valid).mpr forty_periodic _ (by simp) (by simp))
  exact ⟨m, s, e, e', it, h, h1, h2, h3, h4.mpr forty_aligned⟩

example : ∃ m s e, Stored true (List.range (65536 * 40)) 0 m s ∧ GeqEnum.new m s = .ok e ∧
    GeqEnum.run false m e [5, 2400000] = [5, 2400000].mapM (s.next_geq false m) := by
  obtain ⟨m, s, h⟩ := stored_exists true forty_valid 0
  obtain ⟨e, h1, h2⟩ := C15_periodic (dbg' := false) forty_valid h forty_periodic [5, 2400000] (by simp)
    (by simp)
  exact ⟨m, s, e, h, h1, h2⟩

end Sliced
